import Verif.Rot.WignerD
import Mathlib.Analysis.Calculus.Deriv.Mul
import Mathlib.Analysis.Calculus.Deriv.Add
import Mathlib.Analysis.Calculus.Deriv.Comp
import Mathlib.Analysis.SpecialFunctions.Trigonometric.Deriv

/-!
# C61: the Wigner matrices
-/

namespace PI

open Polynomial

/-! ## Specification -/

/-- `m` is a magnetic quantum number of `j` (doubled). -/
structure IsM (J m : ℤ) : Prop where
  lo : -J ≤ m
  hi : m ≤ J
  par : (J - m) % 2 = 0

/-- The matrix element `⟨m| -i J_y |mp⟩` of the spin `j` operator in the usual phase convention (all arguments doubled). -/
noncomputable def genY (J m mp : ℤ) : ℝ :=
  if m = mp + 2 then -(1 / 2) * Real.sqrt (((J - mp : ℝ) / 2) * ((J + mp : ℝ) / 2 + 1))
  else if m = mp - 2 then 1 / 2 * Real.sqrt (((J + mp : ℝ) / 2) * ((J - mp : ℝ) / 2 + 1))
  else 0

/-- The number a call returned. -/
def retVal {R : Type} [Zero R] : Out R → R
  | .ok x => x
  | _ => 0

/-! ## Real entries -/

theorem sym_conj (g : M2) (n i l : ℕ) :
    (starRingEnd ℂ) (g.sym n i l) =
      (⟨(starRingEnd ℂ) g.a, (starRingEnd ℂ) g.b, (starRingEnd ℂ) g.c, (starRingEnd ℂ) g.d⟩ : M2).sym n i l := by
  unfold M2.sym
  rw [map_mul, Complex.conj_ofReal]
  congr 1
  have : (⟨(starRingEnd ℂ) g.a, (starRingEnd ℂ) g.b, (starRingEnd ℂ) g.c, (starRingEnd ℂ) g.d⟩ : M2).poly n l =
      (g.poly n l).map (starRingEnd ℂ) := by
    unfold M2.poly
    simp only [Polynomial.map_mul, Polynomial.map_pow, Polynomial.map_add, map_C, map_X]
  rw [this, coeff_map]

theorem rotY_sym_im (β : ℝ) (n i l : ℕ) : ((rotY β).sym n i l).im = 0 := by
  rw [← Complex.conj_eq_iff_im, sym_conj]
  unfold rotY
  simp only [map_neg, Complex.conj_ofReal]

theorem rotY_sym_re (β : ℝ) (n i l : ℕ) : ((((rotY β).sym n i l).re : ℝ) : ℂ) = (rotY β).sym n i l := by
  apply Complex.ext
  · simp
  · rw [rotY_sym_im]; simp

theorem fullD_value (n i l : ℕ) (β : ℝ) (hn : n ≤ 170) (hi : i ≤ n) (hl : l ≤ n) :
    fullD n ((n : ℤ) - 2 * i) ((n : ℤ) - 2 * l) β = .ok ((rotY β).sym n i l).re := by
  unfold fullD
  rw [fullDC_value n i l β hn hi hl]
  rfl

theorem gHalf_eq : gHalf = rotY (Real.pi / 2) := by
  have h : Real.pi / 2 / 2 = Real.pi / 4 := by ring
  have hs : Real.sqrt 2 / 2 = 1 / Real.sqrt 2 := by
    have : Real.sqrt 2 * Real.sqrt 2 = 2 := Real.mul_self_sqrt (by norm_num)
    have h0 : Real.sqrt 2 ≠ 0 := by positivity
    field_simp
    nlinarith
  unfold gHalf rotY
  rw [h, Real.cos_pi_div_four, Real.sin_pi_div_four, hs]
  simp

theorem isM_index {J m : ℤ} (hJ : 0 ≤ J) (h : IsM J m) : ∃ n i : ℕ, J = n ∧ i ≤ n ∧ m = (n : ℤ) - 2 * i := by
  obtain ⟨h1, h2, h3⟩ := h
  exact ⟨J.toNat, ((J - m) / 2).toNat, by omega, by omega, by omega⟩

/-- **C61**: for every `j` up to 85, all magnetic quantum numbers and every angle the calculation succeeds (binomial coefficients and
factorials stay inside their domains), and the imaginary part that is discarded vanishes. -/
theorem C61_real (J m mp : ℤ) (β : ℝ) (h0 : 0 ≤ J) (h1 : J ≤ 170) (hm : IsM J m) (hp : IsM J mp) :
    (∃ x, wignerd J m mp β = .ok x) ∧ ∃ z, fullDC J m mp β = .ok z ∧ z.im = 0 := by
  obtain ⟨n, i, rfl, hi, rfl⟩ := isM_index h0 hm
  obtain ⟨n', l, hn', hl, rfl⟩ := isM_index h0 hp
  have : n' = n := by omega
  subst this
  refine ⟨?_, _, fullDC_value n' i l β (by omega) hi hl, rotY_sym_im β n' i l⟩
  unfold wignerd
  split_ifs
  · obtain ⟨x, hx, _⟩ := halfD_value n' i l (by omega) hi hl
    exact ⟨x, hx⟩
  · exact ⟨_, fullD_value n' i l β (by omega) hi hl⟩

/-- **C61**: the special formula for a right angle is the general one. -/
theorem C61_right_angle (J m mp : ℤ) (h0 : 0 ≤ J) (h1 : J ≤ 170) (hm : IsM J m) (hp : IsM J mp) :
    halfD J m mp = fullD J m mp (Real.pi / 2) := by
  obtain ⟨n, i, rfl, hi, rfl⟩ := isM_index h0 hm
  obtain ⟨n', l, hn', hl, rfl⟩ := isM_index h0 hp
  have : n' = n := by omega
  subst this
  obtain ⟨x, hx, hx'⟩ := halfD_value n' i l (by omega) hi hl
  rw [hx, fullD_value n' i l _ (by omega) hi hl, ← gHalf_eq, ← hx', Complex.ofReal_re]

theorem rotY_zero : rotY 0 = ⟨1, 0, 0, 1⟩ := by unfold rotY; simp

theorem rotY_add (x y : ℝ) : rotY (x + y) = (rotY y).mul (rotY x) := by
  unfold rotY M2.mul
  have : (x + y) / 2 = x / 2 + y / 2 := by ring
  rw [this, Real.cos_add, Real.sin_add]
  push_cast
  simp only [M2.mk.injEq]
  refine ⟨?_, ?_, ?_, ?_⟩ <;> ring

/-- **C61**: no rotation is the identity. -/
theorem C61_zero (J m mp : ℤ) (h0 : 0 ≤ J) (h1 : J ≤ 170) (hm : IsM J m) (hp : IsM J mp) :
    fullD J m mp 0 = .ok (if m = mp then 1 else 0) := by
  obtain ⟨n, i, rfl, hi, rfl⟩ := isM_index h0 hm
  obtain ⟨n', l, hn', hl, rfl⟩ := isM_index h0 hp
  have : n' = n := by omega
  subst this
  rw [fullD_value n' i l 0 (by omega) hi hl, rotY_zero, sym_diag 1 1 n' i l hl]
  by_cases h : i = l
  · rw [if_pos h, if_pos (by omega)]; simp
  · rw [if_neg h, if_neg (by omega)]; simp

/-- **C61**: rotations about the y axis compose. -/
theorem C61_group (J m mp : ℤ) (x y : ℝ) (h0 : 0 ≤ J) (h1 : J ≤ 170) (hm : IsM J m) (hp : IsM J mp) :
    retVal (fullD J m mp (x + y)) =
      ∑ t ∈ Finset.range (J.toNat + 1), retVal (fullD J m (J - 2 * t) x) * retVal (fullD J (J - 2 * t) mp y) := by
  obtain ⟨n, i, rfl, hi, rfl⟩ := isM_index h0 hm
  obtain ⟨n', l, hn', hl, rfl⟩ := isM_index h0 hp
  have : n' = n := by omega
  subst this
  rw [fullD_value n' i l _ (by omega) hi hl, Int.toNat_natCast]
  have : ∀ t ∈ Finset.range (n' + 1), retVal (fullD n' ((n' : ℤ) - 2 * i) ((n' : ℤ) - 2 * t) x) *
      retVal (fullD n' ((n' : ℤ) - 2 * t) ((n' : ℤ) - 2 * l) y) = ((rotY x).sym n' i t).re * ((rotY y).sym n' t l).re := by
    intro t ht
    have ht' : t ≤ n' := by have := Finset.mem_range.1 ht; omega
    rw [fullD_value n' i t _ (by omega) hi ht', fullD_value n' t l _ (by omega) ht' hl]
    rfl
  rw [Finset.sum_congr rfl this]
  unfold retVal
  apply Complex.ofReal_injective
  rw [rotY_sym_re, rotY_add, ← sym_mul _ _ n' i l hl]
  push_cast
  refine Finset.sum_congr rfl fun t _ => ?_
  rw [rotY_sym_re, rotY_sym_re]

/-- **C61**: the inverse rotation is the transposed matrix. -/
theorem C61_transpose (J m mp : ℤ) (β : ℝ) (h0 : 0 ≤ J) (h1 : J ≤ 170) (hm : IsM J m) (hp : IsM J mp) :
    retVal (fullD J mp m (-β)) = retVal (fullD J m mp β) := by
  obtain ⟨n, i, rfl, hi, rfl⟩ := isM_index h0 hm
  obtain ⟨n', l, hn', hl, rfl⟩ := isM_index h0 hp
  have : n' = n := by omega
  subst this
  rw [fullD_value n' i l _ (by omega) hi hl, fullD_value n' l i _ (by omega) hl hi]
  have : rotY (-β) = ⟨(rotY β).a, (rotY β).c, (rotY β).b, (rotY β).d⟩ := by
    unfold rotY
    rw [neg_div, Real.cos_neg, Real.sin_neg]
    simp
  rw [this, sym_transpose _ n' i l hi hl]

theorem isM_of_index {J : ℤ} {t : ℕ} (ht : t ∈ Finset.range (J.toNat + 1)) (h0 : 0 ≤ J) : IsM J (J - 2 * t) := by
  have := Finset.mem_range.1 ht
  constructor <;> omega

/-- **C61**: the matrix is orthogonal for every angle. -/
theorem C61_orthogonal (J m mp : ℤ) (β : ℝ) (h0 : 0 ≤ J) (h1 : J ≤ 170) (hm : IsM J m) (hp : IsM J mp) :
    ∑ t ∈ Finset.range (J.toNat + 1), retVal (fullD J m (J - 2 * t) β) * retVal (fullD J mp (J - 2 * t) β) =
      if m = mp then 1 else 0 := by
  have h := C61_group J m mp β (-β) h0 h1 hm hp
  rw [add_neg_cancel, C61_zero J m mp h0 h1 hm hp] at h
  change (if m = mp then (1 : ℝ) else 0) = _ at h
  rw [h]
  refine Finset.sum_congr rfl fun t ht => ?_
  rw [C61_transpose J mp (J - 2 * t) β h0 h1 hp (isM_of_index ht h0)]

/-! ## The generator -/

/-- Derivative of a polynomial valued function, coefficient by coefficient. -/
def HasCoeffDeriv (f : ℝ → ℂ[X]) (f' : ℂ[X]) (x : ℝ) : Prop := ∀ i, HasDerivAt (fun b => (f b).coeff i) (f'.coeff i) x

theorem HasCoeffDeriv.mul {f g : ℝ → ℂ[X]} {f' g' : ℂ[X]} {x : ℝ} (hf : HasCoeffDeriv f f' x) (hg : HasCoeffDeriv g g' x) :
    HasCoeffDeriv (fun b => f b * g b) (f' * g x + f x * g') x := by
  intro i
  simp only [coeff_mul, coeff_add]
  rw [← Finset.sum_add_distrib]
  exact HasDerivAt.fun_sum fun p _ => (hf p.1).mul (hg p.2)

theorem HasCoeffDeriv.pow {f : ℝ → ℂ[X]} {f' : ℂ[X]} {x : ℝ} (hf : HasCoeffDeriv f f' x) (k : ℕ) :
    HasCoeffDeriv (fun b => f b ^ k) ((k : ℂ[X]) * f x ^ (k - 1) * f') x := by
  induction k with
  | zero =>
    intro i
    simp only [pow_zero, Nat.cast_zero, zero_mul, coeff_zero]
    exact hasDerivAt_const x _
  | succ k ih =>
    have h := ih.mul hf
    have e : ((k : ℂ[X]) * f x ^ (k - 1) * f' * f x + f x ^ k * f') = ((k + 1 : ℕ) : ℂ[X]) * f x ^ (k + 1 - 1) * f' := by
      cases k with
      | zero => simp
      | succ k =>
        push_cast
        simp only [pow_succ]
        ring
    rw [e] at h
    simpa only [pow_succ] using h

theorem hasCoeffDeriv_linear (u v : ℝ → ℝ) (u' v' x : ℝ) (hu : HasDerivAt u u' x) (hv : HasDerivAt v v' x) :
    HasCoeffDeriv (fun b => C (u b : ℂ) + C (v b : ℂ) * X) (C (u' : ℂ) + C (v' : ℂ) * X) x := by
  intro i
  have hu' := hu.ofReal_comp
  have hv' := hv.ofReal_comp
  rcases i with _ | _ | i
  · simpa using hu'
  · simpa [coeff_X] using hv'
  · simpa [coeff_X, coeff_C] using hasDerivAt_const x (0 : ℂ)

theorem rotY_poly_deriv (n l i : ℕ) :
    HasDerivAt (fun b => ((rotY b).poly n l).coeff i)
      (if i = l + 1 then ((n - l : ℕ) : ℂ) / 2 else if l = i + 1 then -((l : ℕ) : ℂ) / 2 else 0) 0 := by
  have hc : HasDerivAt (fun b : ℝ => Real.cos (b / 2)) 0 0 := by
    have := (Real.hasDerivAt_cos ((0 : ℝ) / 2)).comp 0 ((hasDerivAt_id (0 : ℝ)).div_const 2)
    simpa [Function.comp_def] using this
  have hs : HasDerivAt (fun b : ℝ => Real.sin (b / 2)) (1 / 2) 0 := by
    have := (Real.hasDerivAt_sin ((0 : ℝ) / 2)).comp 0 ((hasDerivAt_id (0 : ℝ)).div_const 2)
    simpa [Function.comp_def] using this
  have A := (hasCoeffDeriv_linear _ _ _ _ 0 hc hs).pow (n - l)
  have B := (hasCoeffDeriv_linear _ _ _ _ 0 hs.neg hc).pow l
  have h := (A.mul B) i
  have e : ∀ b, ((C ((Real.cos (b / 2) : ℝ) : ℂ) + C ((Real.sin (b / 2) : ℝ) : ℂ) * X) ^ (n - l) *
      (C (((-fun b : ℝ => Real.sin (b / 2)) b : ℝ) : ℂ) + C ((Real.cos (b / 2) : ℝ) : ℂ) * X) ^ l).coeff i =
      ((rotY b).poly n l).coeff i := by
    intro b
    unfold rotY M2.poly
    simp only [Pi.neg_apply, Complex.ofReal_neg]
  simp only [e] at h
  refine h.congr_deriv ?_
  simp only [Pi.neg_apply, zero_div, Real.cos_zero, Real.sin_zero, Complex.ofReal_zero, Complex.ofReal_one, C_0, C_1, zero_mul, add_zero,
    one_mul, one_pow, mul_one, neg_zero, zero_add, Complex.ofReal_neg]
  rw [coeff_add]
  have t1 : (((n - l : ℕ) : ℂ[X]) * (C (((1 / 2 : ℝ)) : ℂ) * X) * X ^ l).coeff i = if i = l + 1 then ((n - l : ℕ) : ℂ) / 2 else 0 := by
    rw [show (((n - l : ℕ) : ℂ[X]) * (C (((1 / 2 : ℝ)) : ℂ) * X) * X ^ l) = C (((n - l : ℕ) : ℂ) * ((1 / 2 : ℝ) : ℂ)) * X ^ (l + 1) by
      rw [C_mul, ← C_eq_natCast, pow_succ]; ring, coeff_C_mul, coeff_X_pow]
    split_ifs
    · push_cast; ring
    · ring
  have t2 : (((l : ℕ) : ℂ[X]) * X ^ (l - 1) * C (-((1 / 2 : ℝ) : ℂ))).coeff i = if l = i + 1 then -((l : ℕ) : ℂ) / 2 else 0 := by
    rw [show (((l : ℕ) : ℂ[X]) * X ^ (l - 1) * C (-((1 / 2 : ℝ) : ℂ))) = C (((l : ℕ) : ℂ) * -((1 / 2 : ℝ) : ℂ)) * X ^ (l - 1) by
      rw [C_mul, ← C_eq_natCast]; ring, coeff_C_mul, coeff_X_pow]
    by_cases hl : l = 0
    · subst hl; simp
    · by_cases h : i = l - 1
      · rw [if_pos h, if_pos (by omega)]; push_cast; ring
      · rw [if_neg h, if_neg (by omega)]; ring
  rw [t1, t2]
  by_cases h1 : i = l + 1
  · rw [if_pos h1, if_pos h1, if_neg (by omega), add_zero]
  · rw [if_neg h1, if_neg h1, zero_add]

theorem sqrt_choose_up (n l : ℕ) (h : l + 1 ≤ n) :
    Real.sqrt (n.choose l) / Real.sqrt (n.choose (l + 1)) * ((n - l : ℕ) : ℝ) = Real.sqrt (((n - l : ℕ) : ℝ) * ((l : ℝ) + 1)) := by
  have c1 : (0 : ℝ) < n.choose l := by exact_mod_cast Nat.choose_pos (by omega)
  have c2 : (0 : ℝ) < n.choose (l + 1) := by exact_mod_cast Nat.choose_pos h
  have c3 : (0 : ℝ) < ((n - l : ℕ) : ℝ) := by exact_mod_cast Nat.sub_pos_of_lt (by omega)
  have e : (n.choose (l + 1) : ℝ) * ((l : ℝ) + 1) = (n.choose l : ℝ) * ((n - l : ℕ) : ℝ) := by
    exact_mod_cast Nat.choose_succ_right_eq n l
  rw [← Real.sqrt_div c1.le, ← Real.sqrt_sq c3.le, ← Real.sqrt_mul (by positivity), Real.sqrt_sq c3.le]
  congr 1
  field_simp
  linear_combination -e

theorem sqrt_choose_down (n l : ℕ) (h : l + 1 ≤ n) :
    Real.sqrt (n.choose (l + 1)) / Real.sqrt (n.choose l) * ((l : ℝ) + 1) = Real.sqrt (((n - l : ℕ) : ℝ) * ((l : ℝ) + 1)) := by
  have c1 : (0 : ℝ) < n.choose l := by exact_mod_cast Nat.choose_pos (by omega)
  have c2 : (0 : ℝ) < n.choose (l + 1) := by exact_mod_cast Nat.choose_pos h
  have c3 : (0 : ℝ) < (l : ℝ) + 1 := by positivity
  have e : (n.choose (l + 1) : ℝ) * ((l : ℝ) + 1) = (n.choose l : ℝ) * ((n - l : ℕ) : ℝ) := by
    exact_mod_cast Nat.choose_succ_right_eq n l
  rw [← Real.sqrt_div c2.le, ← Real.sqrt_sq c3.le, ← Real.sqrt_mul (by positivity), Real.sqrt_sq c3.le]
  congr 1
  field_simp
  linear_combination e

theorem rotY_sym_deriv (n i l : ℕ) (hi : i ≤ n) (hl : l ≤ n) :
    HasDerivAt (fun b => ((rotY b).sym n i l).re) (genY n ((n : ℤ) - 2 * i) ((n : ℤ) - 2 * l)) 0 := by
  have h := (rotY_poly_deriv n l i).const_mul (((Real.sqrt (n.choose l) / Real.sqrt (n.choose i) : ℝ)) : ℂ)
  have h2 := Complex.reCLM.hasFDerivAt.comp_hasDerivAt (0 : ℝ) h
  have h3 : HasDerivAt (fun b => ((rotY b).sym n i l).re) _ 0 := h2
  refine h3.congr_deriv ?_
  change (_ : ℂ).re = _
  rw [Complex.re_ofReal_mul]
  unfold genY
  by_cases c1 : i = l + 1
  · subst c1
    rw [if_pos rfl, if_neg (by push_cast; omega), if_pos (by push_cast; omega)]
    have e : (((n - l : ℕ) : ℂ) / 2).re = ((n - l : ℕ) : ℝ) / 2 := by
      rw [show (((n - l : ℕ) : ℂ) / 2) = ((((n - l : ℕ) : ℝ) / 2 : ℝ) : ℂ) by push_cast; ring, Complex.ofReal_re]
    rw [e, mul_div_assoc', sqrt_choose_up n l hi]
    have : ((n - l : ℕ) : ℝ) = (n : ℝ) - l := by rw [Nat.cast_sub hl]
    rw [this]
    push_cast
    rw [show ((n : ℝ) + ((n : ℝ) - 2 * l)) / 2 = n - l by ring, show ((n : ℝ) - ((n : ℝ) - 2 * l)) / 2 + 1 = l + 1 by ring]
    ring
  · rw [if_neg c1]
    by_cases c2 : l = i + 1
    · subst c2
      rw [if_pos rfl, if_pos (by push_cast; omega)]
      have e : (-((i + 1 : ℕ) : ℂ) / 2).re = -((i : ℝ) + 1) / 2 := by
        rw [show (-((i + 1 : ℕ) : ℂ) / 2) = ((-((i : ℝ) + 1) / 2 : ℝ) : ℂ) by push_cast; ring, Complex.ofReal_re]
      rw [e, show Real.sqrt (n.choose (i + 1)) / Real.sqrt (n.choose i) * (-((i : ℝ) + 1) / 2) =
        -(1 / 2) * (Real.sqrt (n.choose (i + 1)) / Real.sqrt (n.choose i) * ((i : ℝ) + 1)) by ring, sqrt_choose_down n i hl]
      have : ((n - i : ℕ) : ℝ) = (n : ℝ) - i := by rw [Nat.cast_sub hi]
      rw [this]
      push_cast
      congr 2
      ring
    · rw [if_neg c2, if_neg (by omega), if_neg (by omega)]
      simp

/-- **C61**: the matrix is that of the rotation `exp(-i β J_y)`: it obeys `d' = (-i J_y) d` (and is the identity for `β = 0`). -/
theorem C61_generator (J m mp : ℤ) (β : ℝ) (h0 : 0 ≤ J) (h1 : J ≤ 170) (hm : IsM J m) (hp : IsM J mp) :
    HasDerivAt (fun b => retVal (fullD J m mp b))
      (∑ t ∈ Finset.range (J.toNat + 1), genY J m (J - 2 * t) * retVal (fullD J (J - 2 * t) mp β)) β := by
  have hf : (fun b => retVal (fullD J m mp b)) = fun b => ∑ t ∈ Finset.range (J.toNat + 1),
      retVal (fullD J m (J - 2 * t) (b - β)) * retVal (fullD J (J - 2 * t) mp β) := by
    funext b
    rw [← C61_group J m mp (b - β) β h0 h1 hm hp, sub_add_cancel]
  rw [hf]
  refine HasDerivAt.fun_sum fun t ht => HasDerivAt.mul_const ?_ _
  obtain ⟨n, i, rfl, hi, rfl⟩ := isM_index h0 hm
  rw [Int.toNat_natCast] at ht
  have ht' : t ≤ n := by have := Finset.mem_range.1 ht; omega
  have e : (fun b => retVal (fullD (n : ℤ) ((n : ℤ) - 2 * i) ((n : ℤ) - 2 * t) (b - β))) =
      (fun b => ((rotY b).sym n i t).re) ∘ fun b => b - β := by
    funext b
    rw [fullD_value n i t _ (by omega) hi ht']
    rfl
  rw [e]
  have h := rotY_sym_deriv n i t hi ht'
  rw [show (0 : ℝ) = β - β by ring] at h
  have h2 : HasDerivAt (fun b : ℝ => b - β) 1 β := (hasDerivAt_id β).sub_const β
  have := HasDerivAt.comp (h := fun b : ℝ => b - β) β h h2
  simpa using this

/-- Example: spin 3/2, `m = 1/2`, `mp = -3/2`. -/
example : (0 : ℤ) ≤ 3 ∧ (3 : ℤ) ≤ 170 ∧ IsM 3 1 ∧ IsM 3 (-3) := ⟨by decide, by decide, by constructor <;> decide, by constructor <;> decide⟩

/-! ## The function the other classes call -/

/-- **C61**: the function with the tolerance returns the exact matrix of one and the same angle for all pairs of magnetic quantum
numbers, the given one or a right angle that differs from it by less than `1e-16`. -/
theorem C61_operator (β : ℝ) : ∃ β', (β' = β ∨ (β' = Real.pi / 2 ∧ |β - β'| < 1e-16)) ∧
    ∀ J m mp : ℤ, 0 ≤ J → J ≤ 170 → IsM J m → IsM J mp → wignerd J m mp β = fullD J m mp β' := by
  by_cases h : |β - Real.pi / 2| < 1e-16
  · refine ⟨Real.pi / 2, Or.inr ⟨rfl, h⟩, fun J m mp h0 h1 hm hp => ?_⟩
    unfold wignerd
    rw [if_pos h, C61_right_angle J m mp h0 h1 hm hp]
  · refine ⟨β, Or.inl rfl, fun J m mp h0 h1 hm hp => ?_⟩
    unfold wignerd
    rw [if_neg h]

/-- **C61**: the matrix for three Euler angles is unitary. -/
theorem C61_unitary (J m mp : ℤ) (α β γ : ℝ) (h0 : 0 ≤ J) (h1 : J ≤ 170) (hm : IsM J m) (hp : IsM J mp) :
    ∑ t ∈ Finset.range (J.toNat + 1), retVal (wignerD J m (J - 2 * t) α β γ) * (starRingEnd ℂ) (retVal (wignerD J mp (J - 2 * t) α β γ)) =
      if m = mp then 1 else 0 := by
  obtain ⟨β', _, hb⟩ := C61_operator β
  have hv : ∀ {m t : ℤ}, IsM J m → IsM J t → retVal (wignerD J m t α β γ) =
      Complex.exp (((-((m : ℝ) / 2) * α : ℝ) : ℂ) * Complex.I) * ((retVal (fullD J m t β') : ℝ) : ℂ) *
        Complex.exp (((-((t : ℝ) / 2) * γ : ℝ) : ℂ) * Complex.I) := by
    intro m t hm ht
    unfold wignerD
    rw [hb J m t h0 h1 hm ht, mk_cos_sin, mk_cos_sin]
    obtain ⟨n, i, rfl, hi, rfl⟩ := isM_index h0 hm
    obtain ⟨n', l, hn', hl, rfl⟩ := isM_index h0 ht
    have : n' = n := by omega
    subst this
    rw [fullD_value n' i l _ (by omega) hi hl]
    rfl
  have unit : ∀ x : ℝ, Complex.exp ((x : ℂ) * Complex.I) * (starRingEnd ℂ) (Complex.exp ((x : ℂ) * Complex.I)) = 1 := by
    intro x
    rw [← Complex.exp_conj, ← Complex.exp_add, map_mul, Complex.conj_ofReal, Complex.conj_I]
    rw [show (x : ℂ) * Complex.I + x * -Complex.I = 0 by ring, Complex.exp_zero]
  have : ∀ t ∈ Finset.range (J.toNat + 1), retVal (wignerD J m (J - 2 * t) α β γ) *
      (starRingEnd ℂ) (retVal (wignerD J mp (J - 2 * t) α β γ)) =
      Complex.exp (((-((m : ℝ) / 2) * α : ℝ) : ℂ) * Complex.I) * (starRingEnd ℂ) (Complex.exp (((-((mp : ℝ) / 2) * α : ℝ) : ℂ) * Complex.I)) *
        ((retVal (fullD J m (J - 2 * t) β') * retVal (fullD J mp (J - 2 * t) β') : ℝ) : ℂ) := by
    intro t ht
    rw [hv hm (isM_of_index ht h0), hv hp (isM_of_index ht h0), map_mul, map_mul, Complex.conj_ofReal]
    have u := unit (-((((J - 2 * t : ℤ)) : ℝ) / 2) * γ)
    push_cast at u ⊢
    linear_combination (Complex.exp (-((m : ℂ) / 2) * α * Complex.I) * ((retVal (fullD J m (J - 2 * t) β') : ℝ) : ℂ) *
      (starRingEnd ℂ) (Complex.exp (-((mp : ℂ) / 2) * α * Complex.I)) * ((retVal (fullD J mp (J - 2 * t) β') : ℝ) : ℂ)) * u
  rw [Finset.sum_congr rfl this, ← Finset.mul_sum, ← Complex.ofReal_sum, C61_orthogonal J m mp β' h0 h1 hm hp]
  by_cases h : m = mp
  · subst h
    rw [if_pos rfl, if_pos rfl, unit]
    simp
  · rw [if_neg h, if_neg h]; simp

end PI
