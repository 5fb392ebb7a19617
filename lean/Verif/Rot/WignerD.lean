import Verif.Basic
import Verif.Rot.Rep
import Mathlib.Analysis.SpecialFunctions.Pow.Real
import Mathlib.Analysis.SpecialFunctions.Trigonometric.Basic
import Mathlib.Analysis.SpecialFunctions.Complex.Circle
import Mathlib.Data.Nat.Factorial.Basic

/-!
# WignerD.cpp (C61)

`J`, `m`, `mp` are twice the quantum numbers; floating point numbers are reals.
-/

namespace PI

/-- `boost::math::binomial_coefficient<double>(n, k)`: a domain error is thrown for `k > n`; a negative `float` converted to
`unsigned` is undefined behaviour. -/
noncomputable def boostBinomial (n k : ℤ) : Out ℝ :=
  if n < 0 ∨ k < 0 then .ub else if n < k then .throw else .ok (n.toNat.choose k.toNat)

/-- `boost::math::factorial<double>(n)`: an overflow error is thrown for `n > 170`. -/
noncomputable def boostFactorial (n : ℤ) : Out ℝ :=
  if n < 0 then .ub else if 170 < n then .throw else .ok (n.toNat.factorial)

/-- A sum over a list of terms that may fail. -/
def sumOut {α R : Type} [Zero R] [Add R] (f : α → Out R) : List α → Out R
  | [] => .ok 0
  | x :: xs => f x >>= fun a => sumOut f xs >>= fun r => .ok (a + r)

/-- `WignerD::evalWignerdPiHalf` (WignerD.cpp:39-51). -/
noncomputable def halfD (J m mp : ℤ) : Out ℝ :=
  let lo := max 0 ((mp - m) / 2)
  let hi := (J + min mp (-m)) / 2
  sumOut (fun k : ℤ => boostBinomial ((J + mp) / 2) k >>= fun b1 => boostBinomial ((J - mp) / 2) (k + (m - mp) / 2) >>= fun b2 =>
      .ok ((-1) ^ k * b1 * b2)) ((List.range (hi + 1 - lo).toNat).map fun t : ℕ => lo + t) >>= fun r =>
  boostFactorial ((J + m) / 2) >>= fun f1 => boostFactorial ((J - m) / 2) >>= fun f2 =>
  boostFactorial ((J + mp) / 2) >>= fun f3 => boostFactorial ((J - mp) / 2) >>= fun f4 =>
  .ok (r * ((-1) ^ ((m - mp) / 2) / (2 : ℝ) ^ ((J : ℝ) / 2) * Real.sqrt (f1 * f2 / (f3 * f4))))

/-- The complex number `r` of `WignerD::evalWignerd` before its real part is taken (WignerD.cpp:52-60). -/
noncomputable def fullDC (J m mp : ℤ) (β : ℝ) : Out ℂ :=
  sumOut (fun mpp : ℤ => halfD J m mpp >>= fun x => halfD J mpp (-mp) >>= fun y =>
      .ok ((x : ℂ) * ⟨Real.cos (-((mpp : ℝ) / 2) * β), Real.sin (-((mpp : ℝ) / 2) * β)⟩ * (y : ℂ)))
    ((List.range (J + 1).toNat).map fun t : ℕ => J - 2 * t) >>= fun r =>
  .ok (r * (Complex.I ^ (J - (m + mp) / 2) * (-1) ^ m))

/-- `WignerD::evalWignerd` (WignerD.cpp:52-61). -/
noncomputable def fullD (J m mp : ℤ) (β : ℝ) : Out ℝ := fullDC J m mp β >>= fun r => .ok r.re

open Classical in
/-- `WignerD::operator()(j, m, mp, beta)` (WignerD.cpp:24-30). -/
noncomputable def wignerd (J m mp : ℤ) (β : ℝ) : Out ℝ :=
  if |β - Real.pi / 2| < 1e-16 then halfD J m mp else fullD J m mp β

/-- `WignerD::operator()(j, m, mp, alpha, beta, gamma)` (WignerD.cpp:32-37). -/
noncomputable def wignerD (J m mp : ℤ) (α β γ : ℝ) : Out ℂ :=
  wignerd J m mp β >>= fun d =>
  .ok (⟨Real.cos (-((m : ℝ) / 2) * α), Real.sin (-((m : ℝ) / 2) * α)⟩ * (d : ℂ) *
    ⟨Real.cos (-((mp : ℝ) / 2) * γ), Real.sin (-((mp : ℝ) / 2) * γ)⟩)

/-! ## Specification -/

/-- Rotation of a spin 1/2 about the y axis. -/
noncomputable def rotY (β : ℝ) : M2 := ⟨Real.cos (β / 2), Real.sin (β / 2), -Real.sin (β / 2), Real.cos (β / 2)⟩

/-! ## The value at a right angle -/

theorem sumOut_ok {α R : Type} [AddMonoid R] (f : α → Out R) (g : α → R) (L : List α) (h : ∀ x ∈ L, f x = .ok (g x)) :
    sumOut f L = .ok (L.map g).sum := by
  induction L with
  | nil => rfl
  | cons x xs ih =>
    unfold sumOut
    rw [h x (by simp), ih fun y hy => h y (by simp [hy])]
    simp

theorem list_sum_range {R : Type} [AddCommMonoid R] (N : ℕ) (f : ℕ → R) :
    ((List.range N).map f).sum = ∑ t ∈ Finset.range N, f t := by
  induction N with
  | zero => rfl
  | succ N ih => rw [List.range_succ, Finset.sum_range_succ, ← ih]; simp

theorem boostFactorial_nat (k : ℕ) (h : k ≤ 170) : boostFactorial (k : ℤ) = .ok (k.factorial : ℝ) := by
  unfold boostFactorial
  rw [if_neg (by omega), if_neg (by omega), Int.toNat_natCast]

theorem boostBinomial_nat (n k : ℕ) (h : k ≤ n) : boostBinomial (n : ℤ) (k : ℤ) = .ok (n.choose k : ℝ) := by
  unfold boostBinomial
  rw [if_neg (by omega), if_neg (by omega), Int.toNat_natCast, Int.toNat_natCast]

open Polynomial in
theorem coeff_half (n i l : ℕ) (hl : l ≤ n) :
    ((1 + X : ℂ[X]) ^ (n - l) * (-1 + X) ^ l).coeff i =
      ∑ t ∈ Finset.range (min (n - l) i + 1 - (i - l)),
        (-1 : ℂ) ^ (i - l + t) * ((n - l).choose (i - l + t)) * (l.choose (i - l + t + l - i)) * (-1) ^ ((l : ℤ) - i) := by
  have h1 : ∀ k, ((1 + X : ℂ[X]) ^ (n - l)).coeff k = ((n - l).choose k : ℂ) := fun k => by
    rw [coeff_one_add_X_pow]
  have h2 : ∀ k, ((-1 + X : ℂ[X]) ^ l).coeff k = (-1) ^ (l - k) * (l.choose k : ℂ) := fun k => by
    have := coeff_X_add_C_pow (-1 : ℂ) l k
    rw [show (-1 + X : ℂ[X]) = X + C (-1) by rw [C_neg, C_1]; ring]
    rw [this]
  rw [coeff_mul, Finset.Nat.sum_antidiagonal_eq_sum_range_succ_mk]
  simp only [h1, h2]
  have e : ∑ k ∈ Finset.Ico (i - l) (min (n - l) i + 1), ((n - l).choose k : ℂ) * ((-1) ^ (l - (i - k)) * (l.choose (i - k) : ℂ)) =
      ∑ k ∈ Finset.range (i + 1), ((n - l).choose k : ℂ) * ((-1) ^ (l - (i - k)) * (l.choose (i - k) : ℂ)) := by
    refine Finset.sum_subset ?_ ?_
    · intro k hk
      rw [Finset.mem_Ico] at hk
      rw [Finset.mem_range]
      have := min_le_right (n - l) i
      omega
    · intro k hk hk'
      rw [Finset.mem_range] at hk
      rw [Finset.mem_Ico] at hk'
      by_cases h : k < i - l
      · rw [Nat.choose_eq_zero_of_lt (by omega : l < i - k)]; simp
      · rw [Nat.choose_eq_zero_of_lt (by omega : n - l < k)]; simp
  rw [← e, Finset.sum_Ico_eq_sum_range]
  refine Finset.sum_congr rfl fun t ht => ?_
  rw [Finset.mem_range] at ht
  generalize hk : i - l + t = k
  have k1 : k ≤ i := by omega
  have k2 : i ≤ k + l := by omega
  have k3 : i - k ≤ l := by omega
  have c : l.choose (k + l - i) = l.choose (i - k) := by
    rw [← Nat.choose_symm k3]; congr 1; omega
  rw [c]
  have s : (-1 : ℂ) ^ (l - (i - k)) = (-1) ^ k * (-1) ^ ((l : ℤ) - i) := by
    rw [← zpow_natCast, ← zpow_natCast, ← zpow_add₀ (by norm_num)]
    congr 1
    omega
  rw [s]; ring

/-- The matrix at a right angle. -/
noncomputable def gHalf : M2 := ⟨1 / Real.sqrt 2, 1 / Real.sqrt 2, -(1 / Real.sqrt 2), 1 / Real.sqrt 2⟩

open Polynomial in
theorem gHalf_poly (n i l : ℕ) (hl : l ≤ n) :
    (gHalf.poly n l).coeff i = (1 / (Real.sqrt 2 : ℂ)) ^ n * ((1 + X : ℂ[X]) ^ (n - l) * (-1 + X) ^ l).coeff i := by
  have e1 : (C gHalf.a + C gHalf.b * X : ℂ[X]) = C (1 / (Real.sqrt 2 : ℂ)) * (1 + X) := by unfold gHalf; ring
  have e2 : (C gHalf.c + C gHalf.d * X : ℂ[X]) = C (1 / (Real.sqrt 2 : ℂ)) * (-1 + X) := by
    unfold gHalf; simp only [C_neg]; ring
  unfold M2.poly
  rw [e1, e2, mul_pow, mul_pow]
  have : (C (1 / (Real.sqrt 2 : ℂ)) : ℂ[X]) ^ (n - l) * (1 + X) ^ (n - l) * (C (1 / (Real.sqrt 2 : ℂ)) ^ l * (-1 + X) ^ l) =
      C ((1 / (Real.sqrt 2 : ℂ)) ^ n) * ((1 + X) ^ (n - l) * (-1 + X) ^ l) := by
    have : (C ((1 / (Real.sqrt 2 : ℂ)) ^ n) : ℂ[X]) = C (1 / (Real.sqrt 2 : ℂ)) ^ (n - l) * C (1 / (Real.sqrt 2 : ℂ)) ^ l := by
      rw [← pow_add, Nat.sub_add_cancel hl, C_pow]
    rw [this]; ring
  rw [this, coeff_C_mul]

theorem sqrt_choose_ratio (n i l : ℕ) (hi : i ≤ n) (hl : l ≤ n) :
    Real.sqrt (((n - i).factorial : ℝ) * (i.factorial : ℝ) / (((n - l).factorial : ℝ) * (l.factorial : ℝ))) =
      Real.sqrt (n.choose l) / Real.sqrt (n.choose i) := by
  rw [← Real.sqrt_div (by positivity)]
  congr 1
  have a : ((n.choose i : ℕ) : ℝ) * i.factorial * (n - i).factorial = n.factorial := by exact_mod_cast Nat.choose_mul_factorial_mul_factorial hi
  have b : ((n.choose l : ℕ) : ℝ) * l.factorial * (n - l).factorial = n.factorial := by exact_mod_cast Nat.choose_mul_factorial_mul_factorial hl
  have c1 : (0 : ℝ) < n.choose i := by exact_mod_cast Nat.choose_pos hi
  have f1 : (0 : ℝ) < l.factorial := by exact_mod_cast Nat.factorial_pos l
  have f2 : (0 : ℝ) < (n - l).factorial := by exact_mod_cast Nat.factorial_pos _
  rw [div_eq_div_iff (by positivity) c1.ne']
  nlinarith

theorem halfD_value (n i l : ℕ) (hn : n ≤ 170) (hi : i ≤ n) (hl : l ≤ n) :
    ∃ x : ℝ, halfD n ((n : ℤ) - 2 * i) ((n : ℤ) - 2 * l) = .ok x ∧ (x : ℂ) = gHalf.sym n i l := by
  have d1 : ((n : ℤ) - 2 * l - ((n : ℤ) - 2 * i)) / 2 = (i : ℤ) - l := by omega
  have d2 : ((n : ℤ) - 2 * i - ((n : ℤ) - 2 * l)) / 2 = (l : ℤ) - i := by omega
  have d3 : ((n : ℤ) + min ((n : ℤ) - 2 * l) (-((n : ℤ) - 2 * i))) / 2 = ((min (n - l) i : ℕ) : ℤ) := by omega
  have d4 : ((n : ℤ) + ((n : ℤ) - 2 * l)) / 2 = ((n - l : ℕ) : ℤ) := by omega
  have d5 : ((n : ℤ) - ((n : ℤ) - 2 * l)) / 2 = (l : ℤ) := by omega
  have d6 : ((n : ℤ) + ((n : ℤ) - 2 * i)) / 2 = ((n - i : ℕ) : ℤ) := by omega
  have d7 : ((n : ℤ) - ((n : ℤ) - 2 * i)) / 2 = (i : ℤ) := by omega
  have d8 : max 0 ((i : ℤ) - l) = ((i - l : ℕ) : ℤ) := by omega
  unfold halfD
  dsimp only
  rw [d1, d2, d3, d4, d5, d6, d7, d8]
  have d9 : (((min (n - l) i : ℕ) : ℤ) + 1 - ((i - l : ℕ) : ℤ)).toNat = min (n - l) i + 1 - (i - l) := by omega
  rw [d9]
  rw [sumOut_ok _ (fun k : ℤ => (-1 : ℝ) ^ k * ((n - l).choose k.toNat) * (l.choose (k + ((l : ℤ) - i)).toNat))]
  swap
  · intro k hk
    rw [List.mem_map] at hk
    obtain ⟨t, ht, rfl⟩ := hk
    rw [List.mem_range] at ht
    have c1 : ((i - l : ℕ) : ℤ) + (t : ℤ) = ((i - l + t : ℕ) : ℤ) := by omega
    have c2 : ((i - l : ℕ) : ℤ) + (t : ℤ) + ((l : ℤ) - i) = ((i - l + t + l - i : ℕ) : ℤ) := by omega
    rw [c2, c1, boostBinomial_nat _ _ (by omega), boostBinomial_nat _ _ (by omega)]
    simp only [Out.ok_bind, Int.toNat_natCast, zpow_natCast]
  rw [boostFactorial_nat _ (by omega), boostFactorial_nat _ (by omega), boostFactorial_nat _ (by omega), boostFactorial_nat _ (by omega)]
  simp only [Out.ok_bind]
  refine ⟨_, rfl, ?_⟩
  rw [sqrt_choose_ratio n i l hi hl]
  unfold M2.sym
  rw [gHalf_poly n i l hl, coeff_half n i l hl]
  have r2 : (2 : ℝ) ^ (((n : ℤ) : ℝ) / 2) = Real.sqrt 2 ^ n := by
    rw [Real.sqrt_eq_rpow, ← Real.rpow_natCast, ← Real.rpow_mul (by norm_num)]
    congr 1
    push_cast; ring
  rw [r2, List.map_map, list_sum_range]
  push_cast
  rw [Finset.sum_mul, Finset.mul_sum, Finset.mul_sum]
  refine Finset.sum_congr rfl fun t ht => ?_
  rw [Finset.mem_range] at ht
  have c1 : ((i - l : ℕ) : ℤ) + (t : ℤ) = ((i - l + t : ℕ) : ℤ) := by omega
  have c2 : ((i - l : ℕ) : ℤ) + (t : ℤ) + ((l : ℤ) - i) = ((i - l + t + l - i : ℕ) : ℤ) := by omega
  simp only [Function.comp]
  rw [c2, c1]
  simp only [Int.toNat_natCast, zpow_natCast]
  push_cast
  rw [div_pow, one_pow]
  ring


/-! ## All angles -/

theorem sym_diag_left (X : M2) (e f : ℂ) (n i l : ℕ) (hi : i ≤ n) (hl : l ≤ n) :
    (X.mul ⟨e, 0, 0, f⟩).sym n i l = e ^ (n - i) * f ^ i * X.sym n i l := by
  rw [← sym_mul ⟨e, 0, 0, f⟩ X n i l hl, Finset.sum_eq_single i]
  · rw [sym_diag e f n i i hi, if_pos rfl]
  · intro b hb hbi
    have : b ≤ n := by have := Finset.mem_range.1 hb; omega
    rw [sym_diag e f n i b this, if_neg (Ne.symm hbi), zero_mul]
  · intro h; exact absurd (Finset.mem_range.2 (by omega)) h

theorem sym_diag_right (X : M2) (e f : ℂ) (n i l : ℕ) (hl : l ≤ n) :
    ((⟨e, 0, 0, f⟩ : M2).mul X).sym n i l = X.sym n i l * (e ^ (n - l) * f ^ l) := by
  rw [← sym_mul X ⟨e, 0, 0, f⟩ n i l hl, Finset.sum_eq_single l]
  · rw [sym_diag e f n l l hl, if_pos rfl]
  · intro b hb hbi
    rw [sym_diag e f n b l hl, if_neg hbi, mul_zero]
  · intro h; exact absurd (Finset.mem_range.2 (by omega)) h

theorem sym_swap_right (X : M2) (n i l : ℕ) (hl : l ≤ n) : ((⟨0, 1, 1, 0⟩ : M2).mul X).sym n i l = X.sym n i (n - l) := by
  rw [← sym_mul X ⟨0, 1, 1, 0⟩ n i l hl, Finset.sum_eq_single (n - l)]
  · rw [sym_swap n (n - l) l hl, if_pos rfl, mul_one]
  · intro b hb hbi
    rw [sym_swap n b l hl, if_neg hbi, mul_zero]
  · intro h; exact absurd (Finset.mem_range.2 (by omega)) h

/-- The phases `exp(-i β / 2)` and `exp(i β / 2)`. -/
noncomputable def ePh (β : ℝ) : ℂ := Complex.exp (-(β / 2 : ℝ) * Complex.I)
/-- The conjugate phase. -/
noncomputable def fPh (β : ℝ) : ℂ := Complex.exp ((β / 2 : ℝ) * Complex.I)

theorem mk_cos_sin (x : ℝ) : (⟨Real.cos x, Real.sin x⟩ : ℂ) = Complex.exp ((x : ℂ) * Complex.I) := by
  rw [Complex.exp_mul_I, ← Complex.ofReal_cos, ← Complex.ofReal_sin]
  apply Complex.ext <;> simp [Complex.cos_ofReal_re, Complex.sin_ofReal_re]

theorem ePh_pow (β : ℝ) (n t : ℕ) (ht : t ≤ n) :
    (⟨Real.cos (-((((n : ℤ) - 2 * t : ℤ) : ℝ) / 2) * β), Real.sin (-((((n : ℤ) - 2 * t : ℤ) : ℝ) / 2) * β)⟩ : ℂ) =
      ePh β ^ (n - t) * fPh β ^ t := by
  unfold ePh fPh
  rw [← Complex.exp_nat_mul, ← Complex.exp_nat_mul, ← Complex.exp_add]
  rw [mk_cos_sin]
  congr 1
  push_cast [Nat.cast_sub ht]
  ring

theorem rotY_factor (β : ℝ) :
    rotY β = ⟨-1 * ((⟨1, 0, 0, Complex.I⟩ : M2).mul (((⟨0, 1, 1, 0⟩ : M2).mul (gHalf.mul ((⟨ePh β, 0, 0, fPh β⟩ : M2).mul gHalf))).mul
        ⟨1, 0, 0, Complex.I⟩)).a,
      -1 * ((⟨1, 0, 0, Complex.I⟩ : M2).mul (((⟨0, 1, 1, 0⟩ : M2).mul (gHalf.mul ((⟨ePh β, 0, 0, fPh β⟩ : M2).mul gHalf))).mul
        ⟨1, 0, 0, Complex.I⟩)).b,
      -1 * ((⟨1, 0, 0, Complex.I⟩ : M2).mul (((⟨0, 1, 1, 0⟩ : M2).mul (gHalf.mul ((⟨ePh β, 0, 0, fPh β⟩ : M2).mul gHalf))).mul
        ⟨1, 0, 0, Complex.I⟩)).c,
      -1 * ((⟨1, 0, 0, Complex.I⟩ : M2).mul (((⟨0, 1, 1, 0⟩ : M2).mul (gHalf.mul ((⟨ePh β, 0, 0, fPh β⟩ : M2).mul gHalf))).mul
        ⟨1, 0, 0, Complex.I⟩)).d⟩ := by
  have he : ePh β = Real.cos (β / 2) - Real.sin (β / 2) * Complex.I := by
    unfold ePh
    rw [neg_mul, Complex.exp_neg, Complex.exp_mul_I, ← Complex.ofReal_cos, ← Complex.ofReal_sin]
    rw [inv_eq_of_mul_eq_one_right]
    have := Real.cos_sq_add_sin_sq (β / 2)
    have h : ((Real.cos (β / 2) : ℂ)) ^ 2 + (Real.sin (β / 2) : ℂ) ^ 2 = 1 := by exact_mod_cast this
    linear_combination h - (Real.sin (β / 2) : ℂ) ^ 2 * Complex.I_sq
  have hf : fPh β = Real.cos (β / 2) + Real.sin (β / 2) * Complex.I := by
    unfold fPh
    rw [Complex.exp_mul_I, ← Complex.ofReal_cos, ← Complex.ofReal_sin]
  have hs : (1 / (Real.sqrt 2 : ℂ)) * (1 / (Real.sqrt 2 : ℂ)) = 1 / 2 := by
    rw [div_mul_div_comm, ← Complex.ofReal_mul, Real.mul_self_sqrt (by norm_num)]; norm_num
  have h1 : gHalf.mul ((⟨ePh β, 0, 0, fPh β⟩ : M2).mul gHalf) =
      ⟨-Real.sin (β / 2) * Complex.I, Real.cos (β / 2), -Real.cos (β / 2), Real.sin (β / 2) * Complex.I⟩ := by
    rw [he, hf]
    unfold gHalf M2.mul
    generalize (1 / (Real.sqrt 2 : ℂ)) = q at hs ⊢
    generalize (Real.cos (β / 2) : ℂ) = c
    generalize (Real.sin (β / 2) : ℂ) = s
    simp only [M2.mk.injEq]
    refine ⟨?_, ?_, ?_, ?_⟩
    · linear_combination (-2 * s * Complex.I) * hs
    · linear_combination (2 * c) * hs
    · linear_combination (-2 * c) * hs
    · linear_combination (2 * s * Complex.I) * hs
  rw [h1]
  unfold rotY M2.mul
  generalize (Real.cos (β / 2) : ℂ) = c
  generalize (Real.sin (β / 2) : ℂ) = s
  have hI := Complex.I_sq
  simp only [M2.mk.injEq]
  refine ⟨?_, ?_, ?_, ?_⟩
  · ring
  · linear_combination s * hI
  · linear_combination -s * hI
  · linear_combination c * hI

theorem fullDC_value (n i l : ℕ) (β : ℝ) (hn : n ≤ 170) (hi : i ≤ n) (hl : l ≤ n) :
    fullDC n ((n : ℤ) - 2 * i) ((n : ℤ) - 2 * l) β = .ok ((rotY β).sym n i l) := by
  unfold fullDC
  have d1 : -((n : ℤ) - 2 * l) = (n : ℤ) - 2 * ((n - l : ℕ) : ℤ) := by omega
  have d2 : (n : ℤ) - ((n : ℤ) - 2 * i + ((n : ℤ) - 2 * l)) / 2 = ((i + l : ℕ) : ℤ) := by omega
  have d3 : ((n : ℤ) + 1).toNat = n + 1 := by omega
  rw [d1, d2, d3]
  rw [sumOut_ok _ (fun mpp : ℤ => gHalf.sym n i (((n : ℤ) - mpp) / 2).toNat *
    ⟨Real.cos (-((mpp : ℝ) / 2) * β), Real.sin (-((mpp : ℝ) / 2) * β)⟩ * gHalf.sym n (((n : ℤ) - mpp) / 2).toNat (n - l))]
  swap
  · intro x hx
    rw [List.mem_map] at hx
    obtain ⟨t, ht, rfl⟩ := hx
    rw [List.mem_range] at ht
    obtain ⟨x, hx1, hx2⟩ := halfD_value n i t hn hi (by omega)
    obtain ⟨y, hy1, hy2⟩ := halfD_value n t (n - l) hn (by omega) (by omega)
    rw [hx1, hy1]
    simp only [Out.ok_bind]
    have : (((n : ℤ) - ((n : ℤ) - 2 * t)) / 2).toNat = t := by omega
    rw [this, hx2, hy2]
  simp only [Out.ok_bind]
  congr 1
  rw [List.map_map, list_sum_range]
  have hsum : ∑ t ∈ Finset.range (n + 1), ((fun mpp : ℤ => gHalf.sym n i (((n : ℤ) - mpp) / 2).toNat *
      (⟨Real.cos (-((mpp : ℝ) / 2) * β), Real.sin (-((mpp : ℝ) / 2) * β)⟩ : ℂ) * gHalf.sym n (((n : ℤ) - mpp) / 2).toNat (n - l)) ∘
        fun t : ℕ => (n : ℤ) - 2 * t) t =
      (gHalf.mul ((⟨ePh β, 0, 0, fPh β⟩ : M2).mul gHalf)).sym n i (n - l) := by
    rw [← sym_mul _ _ n i (n - l) (by omega)]
    refine Finset.sum_congr rfl fun t ht => ?_
    have ht' : t ≤ n := by have := Finset.mem_range.1 ht; omega
    have : (((n : ℤ) - ((n : ℤ) - 2 * t)) / 2).toNat = t := by omega
    simp only [Function.comp]
    rw [this, ePh_pow β n t ht', sym_diag_right _ _ _ n i t ht']
  rw [hsum, rotY_factor, sym_smul _ _ n i l hl, sym_diag_right _ _ _ n i l hl, sym_diag_left _ _ _ n i l hi hl,
    sym_swap_right _ n i l hl]
  rw [one_pow, one_pow, one_mul, one_mul, zpow_natCast, pow_add]
  have : (-1 : ℂ) ^ ((n : ℤ) - 2 * i) = (-1) ^ n := by
    rw [zpow_sub₀ (by norm_num), zpow_natCast, zpow_mul]
    norm_num
  rw [this]; ring

end PI
