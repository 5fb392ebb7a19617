import Verif.Rot.Covariance
import Mathlib.LinearAlgebra.Matrix.Charpoly.Basic

/-!
# C80: the Hamiltonian in rotated fields
-/

namespace PI

open Matrix

variable {N : ℕ}

/-! ## Spherical components of rotated vectors -/

/-- The conjugate spherical components `q = 1, 0, -1` at the indices 0, 1, 2. -/
noncomputable def conjSph (v : Vec3) (p : ℕ) : ℂ := (starRingEnd ℂ) (sph v (1 - p))

/-- The quadratic form of a vector. -/
noncomputable def quadForm (v : Vec3) (u w : ℂ) : ℂ := ∑ p ∈ Finset.range 3, conjSph v p * (rtC 2 p * monoN 2 p u w)

/-- The spin rotation `g` moves the vector `v` to `v'`. -/
def Moves (g : M2) (v v' : Vec3) : Prop := ∀ q ∈ Finset.range 3, conjSph v' q = ∑ p ∈ Finset.range 3, g.sym 2 q p * conjSph v p

theorem rtC_ne (n l : ℕ) (h : l ≤ n) : rtC n l ≠ 0 := by
  unfold rtC
  rw [Complex.ofReal_ne_zero, Real.sqrt_ne_zero']
  exact_mod_cast Nat.choose_pos h

theorem expand_coeffs (g : M2) (n : ℕ) (c c' : ℕ → ℂ) :
    (∀ q ∈ Finset.range (n + 1), c' q = ∑ p ∈ Finset.range (n + 1), g.sym n q p * c p) ↔
      ∀ x : ℂ, ∑ q ∈ Finset.range (n + 1), c' q * (rtC n q * monoN n q 1 x) =
        ∑ p ∈ Finset.range (n + 1), c p * (rtC n p * monoN n p (g.a + g.b * x) (g.c + g.d * x)) := by
  have e : ∀ x : ℂ, ∑ p ∈ Finset.range (n + 1), c p * (rtC n p * monoN n p (g.a + g.b * x) (g.c + g.d * x)) =
      ∑ q ∈ Finset.range (n + 1), (∑ p ∈ Finset.range (n + 1), g.sym n q p * c p) * (rtC n q * monoN n q 1 x) := by
    intro x
    have : ∀ p ∈ Finset.range (n + 1), c p * (rtC n p * monoN n p (g.a + g.b * x) (g.c + g.d * x)) =
        ∑ q ∈ Finset.range (n + 1), g.sym n q p * c p * (rtC n q * monoN n q 1 x) := by
      intro p hp
      rw [sym_expand g n p (by have := Finset.mem_range.1 hp; omega) x, Finset.mul_sum]
      refine Finset.sum_congr rfl fun q _ => ?_
      unfold monoN
      rw [one_pow]; ring
    rw [Finset.sum_congr rfl this, Finset.sum_comm]
    exact Finset.sum_congr rfl fun q _ => (Finset.sum_mul _ _ _).symm
  constructor
  · intro h x
    rw [e x]
    exact Finset.sum_congr rfl fun q hq => by rw [h q hq]
  · intro h q hq
    have z := coeff_zero_of_fun n (fun q => (c' q - ∑ p ∈ Finset.range (n + 1), g.sym n q p * c p) * rtC n q) (by
      intro x
      have := h x
      rw [e x] at this
      rw [← sub_eq_zero, ← Finset.sum_sub_distrib] at this
      rw [← this]
      refine Finset.sum_congr rfl fun q _ => ?_
      unfold monoN
      rw [one_pow]; ring) q hq
    have := (mul_eq_zero.1 z).resolve_right (rtC_ne n q (by have := Finset.mem_range.1 hq; omega))
    exact sub_eq_zero.1 this

theorem moves_iff (g : M2) (v v' : Vec3) : Moves g v v' ↔ ∀ x : ℂ, quadForm v' 1 x = quadForm v (g.a + g.b * x) (g.c + g.d * x) :=
  expand_coeffs g 2 (conjSph v) (conjSph v')

theorem conjSph_0 (v : Vec3) : conjSph v 0 = ((-v.x / Real.sqrt 2 : ℝ) : ℂ) + ((v.y / Real.sqrt 2 : ℝ) : ℂ) * Complex.I := by
  unfold conjSph sph
  norm_num
  apply Complex.ext <;> simp [neg_div]

theorem conjSph_1 (v : Vec3) : conjSph v 1 = v.z := by
  unfold conjSph sph
  norm_num
  apply Complex.ext <;> simp

theorem conjSph_2 (v : Vec3) : conjSph v 2 = ((v.x / Real.sqrt 2 : ℝ) : ℂ) + ((v.y / Real.sqrt 2 : ℝ) : ℂ) * Complex.I := by
  unfold conjSph sph
  norm_num
  apply Complex.ext <;> simp [neg_div]

/-- √2 as a complex number. -/
noncomputable def rt2 : ℂ := ((Real.sqrt 2 : ℝ) : ℂ)

theorem rt2_sq : rt2 * rt2 = 2 := by
  unfold rt2; exact_mod_cast fsqrt2_sq

theorem rt2_ne : rt2 ≠ 0 := by
  unfold rt2; exact_mod_cast fsqrt2_ne

theorem quadForm_eq (v : Vec3) (u w : ℂ) : rt2 * quadForm v u w = (-v.x + v.y * Complex.I) * u ^ 2 + 2 * v.z * (u * w) + (v.x + v.y * Complex.I) * w ^ 2 := by
  unfold quadForm
  rw [Finset.sum_range_succ, Finset.sum_range_succ, Finset.sum_range_one, conjSph_0, conjSph_1, conjSph_2]
  have r0 : rtC 2 0 = 1 := by unfold rtC; norm_num
  have r1 : rtC 2 1 = rt2 := by unfold rtC rt2; norm_num
  have r2 : rtC 2 2 = 1 := by unfold rtC; norm_num
  rw [r0, r1, r2]
  unfold monoN
  have e : ∀ t : ℝ, ((t / Real.sqrt 2 : ℝ) : ℂ) = t / rt2 := by intro t; unfold rt2; push_cast; rfl
  rw [e, e, e]
  have h := rt2_ne
  have h2 := rt2_sq
  simp only [Nat.sub_zero, pow_zero, pow_one, Nat.sub_self, mul_one, one_mul, show 2 - 1 = 1 from rfl]
  push_cast
  have e1 : rt2 * ((-v.x / rt2 + v.y / rt2 * Complex.I) * u ^ 2 + v.z * (rt2 * (u * w)) + (v.x / rt2 + v.y / rt2 * Complex.I) * w ^ 2) =
      (rt2 / rt2) * ((-v.x + v.y * Complex.I) * u ^ 2 + (v.x + v.y * Complex.I) * w ^ 2) + rt2 * rt2 * (v.z * (u * w)) := by ring
  rw [e1, div_self h, h2]
  ring

theorem moves_of_quad (g : M2) (v v' : Vec3) (h : ∀ x : ℂ, (-v'.x + v'.y * Complex.I) + 2 * v'.z * x + (v'.x + v'.y * Complex.I) * x ^ 2 =
    (-v.x + v.y * Complex.I) * (g.a + g.b * x) ^ 2 + 2 * v.z * ((g.a + g.b * x) * (g.c + g.d * x)) + (v.x + v.y * Complex.I) * (g.c + g.d * x) ^ 2) :
    Moves g v v' := by
  rw [moves_iff]
  intro x
  apply mul_left_cancel₀ rt2_ne
  rw [quadForm_eq, quadForm_eq, ← h x]
  ring

theorem moves_rotZ (θ : ℝ) (v : Vec3) : Moves (rotZ2 θ) v (Vec3.ofFn ((rotZ3 θ).mulVec v.fn)) := by
  apply moves_of_quad
  intro x
  have ex : (Vec3.ofFn ((rotZ3 θ).mulVec v.fn)).x = Real.cos θ * v.x - Real.sin θ * v.y := by
    simp [Vec3.ofFn, Vec3.fn, rotZ3, Matrix.mulVec, dotProduct, Fin.sum_univ_three]; ring
  have ey : (Vec3.ofFn ((rotZ3 θ).mulVec v.fn)).y = Real.sin θ * v.x + Real.cos θ * v.y := by
    simp [Vec3.ofFn, Vec3.fn, rotZ3, Matrix.mulVec, dotProduct, Fin.sum_univ_three]
  have ez : (Vec3.ofFn ((rotZ3 θ).mulVec v.fn)).z = v.z := by
    simp [Vec3.ofFn, Vec3.fn, rotZ3, Matrix.mulVec, dotProduct, Fin.sum_univ_three]
  rw [ex, ey, ez]
  unfold rotZ2
  dsimp only
  have he : ePh θ ^ 2 = Complex.cos θ - Complex.sin θ * Complex.I := by
    unfold ePh
    rw [← Complex.exp_nat_mul, show ((2 : ℕ) : ℂ) * (-((θ / 2 : ℝ) : ℂ) * Complex.I) = (-(θ : ℂ)) * Complex.I by push_cast; ring, Complex.exp_mul_I,
      Complex.cos_neg, Complex.sin_neg]
    ring
  have hf : fPh θ ^ 2 = Complex.cos θ + Complex.sin θ * Complex.I := by
    unfold fPh
    rw [← Complex.exp_nat_mul, show ((2 : ℕ) : ℂ) * (((θ / 2 : ℝ) : ℂ) * Complex.I) = (θ : ℂ) * Complex.I by push_cast; ring, Complex.exp_mul_I]
  have hef := ePh_norm θ
  have hI := Complex.I_sq
  push_cast
  linear_combination (-(-(v.x : ℂ) + v.y * Complex.I)) * he - (v.x + v.y * Complex.I) * x ^ 2 * hf - 2 * v.z * x * hef + (Complex.sin θ * v.y * (1 - x ^ 2)) * hI

theorem moves_rotY (θ : ℝ) (v : Vec3) : Moves (rotY θ) v (Vec3.ofFn ((rotY3 θ).mulVec v.fn)) := by
  apply moves_of_quad
  intro x
  have ex : (Vec3.ofFn ((rotY3 θ).mulVec v.fn)).x = Real.cos θ * v.x + Real.sin θ * v.z := by
    simp [Vec3.ofFn, Vec3.fn, rotY3, Matrix.mulVec, dotProduct, Fin.sum_univ_three]
  have ey : (Vec3.ofFn ((rotY3 θ).mulVec v.fn)).y = v.y := by
    simp [Vec3.ofFn, Vec3.fn, rotY3, Matrix.mulVec, dotProduct, Fin.sum_univ_three]
  have ez : (Vec3.ofFn ((rotY3 θ).mulVec v.fn)).z = -Real.sin θ * v.x + Real.cos θ * v.z := by
    simp [Vec3.ofFn, Vec3.fn, rotY3, Matrix.mulVec, dotProduct, Fin.sum_univ_three]
  rw [ex, ey, ez]
  unfold rotY
  dsimp only
  have hc : Real.cos θ = 2 * Real.cos (θ / 2) ^ 2 - 1 := by rw [← Real.cos_two_mul]; congr 1; ring
  have hs : Real.sin θ = 2 * Real.sin (θ / 2) * Real.cos (θ / 2) := by rw [← Real.sin_two_mul]; congr 1; ring
  have hcs := Real.sin_sq_add_cos_sq (θ / 2)
  have hcs' : ((Real.sin (θ / 2) : ℝ) : ℂ) ^ 2 + ((Real.cos (θ / 2) : ℝ) : ℂ) ^ 2 = 1 := by exact_mod_cast hcs
  rw [hc, hs]
  generalize Real.cos (θ / 2) = c at *
  generalize Real.sin (θ / 2) = s at *
  push_cast
  linear_combination (-(v.x : ℂ) - v.y * Complex.I + 2 * v.z * x + (v.x - v.y * Complex.I) * x ^ 2) * hcs'

theorem Moves.comp {g h : M2} {v v' v'' : Vec3} (h1 : Moves g v v') (h2 : Moves h v' v'') : Moves (g.mul h) v v'' := by
  intro q hq
  rw [h2 q hq]
  rw [Finset.sum_congr rfl fun p hp => by rw [h1 p hp, Finset.mul_sum]]
  rw [Finset.sum_comm]
  refine Finset.sum_congr rfl fun p hp => ?_
  rw [← sym_mul h g 2 q p (by have := Finset.mem_range.1 hp; omega), Finset.sum_mul]
  exact Finset.sum_congr rfl fun l _ => by ring

/-- The rotation of states by the given Euler angles moves fields as `rotateVector` does. -/
theorem moves_euler (α β γ : ℝ) (v : Vec3) : Moves (euler2 (-γ) (-β) (-α)) v (rotateVectorEuler v α β γ) := by
  have h := (moves_rotZ (-α) v).comp ((moves_rotY (-β) _).comp (moves_rotZ (-γ) _))
  rw [fn_ofFn, fn_ofFn, Matrix.mulVec_mulVec, Matrix.mulVec_mulVec, rotZ3_neg, rotZ3_neg, rotY3_neg] at h
  rw [rotateVectorEuler_eq]
  unfold buildRotatorEuler
  rw [Matrix.transpose_mul, Matrix.transpose_mul, ← Matrix.mul_assoc]
  exact h

/-! ## Operators in fields -/

theorem dotOp_conj (v : Vec3) (T : ℤ → Matrix (Fin N) (Fin N) ℂ) : dotOp v T = ∑ p ∈ Finset.range 3, conjSph v p • T ((1 : ℕ) - p) := by
  rw [dotOp_eq, Finset.sum_range_succ, Finset.sum_range_succ, Finset.sum_range_one]
  have e0 : conjSph v 0 = -sph v (-1) := by unfold conjSph; rw [sph_minus]; simp
  have e1 : conjSph v 1 = sph v 0 := by unfold conjSph; rw [Nat.cast_one, sub_self, sph_zero_conj]
  have e2 : conjSph v 2 = -sph v 1 := by
    unfold conjSph
    rw [sph_plus]; norm_num
  rw [e0, e1, e2]
  simp only [Nat.cast_zero, Nat.cast_one, sub_zero, sub_self, Nat.cast_ofNat]
  norm_num
  module

theorem conj_sum_smul (M : Matrix (Fin N) (Fin N) ℂ) (n : ℕ) (c : ℕ → ℂ) (A : ℕ → Matrix (Fin N) (Fin N) ℂ) :
    M * (∑ p ∈ Finset.range n, c p • A p) * Mᴴ = ∑ p ∈ Finset.range n, c p • (M * A p * Mᴴ) := by
  rw [Finset.mul_sum, Finset.sum_mul]
  refine Finset.sum_congr rfl fun p _ => ?_
  rw [Matrix.mul_smul, Matrix.smul_mul]

/-- Coefficients times components of a tensor operator. -/
theorem tensor_sum_rotate (st : Fin N → Option QN) (hst : RotStates st) (hz : AllZeeman st) {g : M2} (hg : g.SU) (κ : ℕ) (f ρ : QN → QN → ℝ)
    (hf : WignerEckart st κ f ρ) (c c' : ℕ → ℂ)
    (hc : ∀ q ∈ Finset.range (2 * κ + 1), c' q = ∑ p ∈ Finset.range (2 * κ + 1), g.sym (2 * κ) q p * c p) :
    rotSymMat st g * (∑ p ∈ Finset.range (2 * κ + 1), c p • tensorMat st f ((κ : ℤ) - p)) * (rotSymMat st g)ᴴ =
      ∑ q ∈ Finset.range (2 * κ + 1), c' q • tensorMat st f ((κ : ℤ) - q) := by
  rw [conj_sum_smul]
  rw [Finset.sum_congr rfl fun p hp => by
    rw [tensor_rotate st hst hz hg κ f ρ hf p (by have := Finset.mem_range.1 hp; omega), Finset.smul_sum]]
  rw [Finset.sum_comm]
  refine Finset.sum_congr rfl fun q hq => ?_
  rw [hc q hq, Finset.sum_smul]
  refine Finset.sum_congr rfl fun p _ => ?_
  rw [smul_smul, mul_comm]

theorem dotOp_rotate (st : Fin N → Option QN) (hst : RotStates st) (hz : AllZeeman st) {g : M2} (hg : g.SU) (f ρ : QN → QN → ℝ)
    (hf : WignerEckart st 1 f ρ) (v v' : Vec3) (hv : Moves g v v') :
    rotSymMat st g * dotOp v (tensorMat st f) * (rotSymMat st g)ᴴ = dotOp v' (tensorMat st f) := by
  rw [dotOp_conj, dotOp_conj]
  exact tensor_sum_rotate st hst hz hg 1 f ρ hf (conjSph v) (conjSph v') hv

/-! ## The diamagnetic terms -/

/-- √6 as a complex number. -/
noncomputable def rt6 : ℂ := ((Real.sqrt 6 : ℝ) : ℂ)

theorem rt6_sq : rt6 * rt6 = 6 := by
  unfold rt6; exact_mod_cast Real.mul_self_sqrt (by norm_num : (0:ℝ) ≤ 6)

theorem rt6_ne : rt6 ≠ 0 := by
  intro h
  have := rt6_sq
  rw [h] at this
  norm_num at this

/-- The components of rank 2 of a vector with itself. -/
noncomputable def squareForm (v : Vec3) (s : ℕ) : ℂ :=
  if s = 0 then conjSph v 0 * conjSph v 0
  else if s = 1 then rt2 * (conjSph v 0 * conjSph v 1)
  else if s = 2 then 2 * (conjSph v 1 * conjSph v 1 + conjSph v 0 * conjSph v 2) / rt6
  else if s = 3 then rt2 * (conjSph v 1 * conjSph v 2)
  else conjSph v 2 * conjSph v 2

theorem squareForm_eq (v : Vec3) (u w : ℂ) :
    ∑ s ∈ Finset.range 5, squareForm v s * (rtC 4 s * monoN 4 s u w) = quadForm v u w ^ 2 := by
  unfold quadForm
  simp only [Finset.sum_range_succ, Finset.sum_range_zero, zero_add]
  have r0 : rtC 2 0 = 1 := by unfold rtC; norm_num
  have r1 : rtC 2 1 = rt2 := by unfold rtC rt2; norm_num
  have r2 : rtC 2 2 = 1 := by unfold rtC; norm_num
  have s0 : rtC 4 0 = 1 := by unfold rtC; norm_num
  have hs4 : Real.sqrt 4 = 2 := by rw [show (4:ℝ) = 2 ^ 2 by norm_num, Real.sqrt_sq (by norm_num)]
  have s1 : rtC 4 1 = 2 := by unfold rtC; norm_num [hs4]
  have s2 : rtC 4 2 = rt6 := by unfold rtC rt6; rw [show Nat.choose 4 2 = 6 by decide]; norm_num
  have s3 : rtC 4 3 = 2 := by unfold rtC; rw [show Nat.choose 4 3 = 4 by decide]; norm_num [hs4]
  have s4 : rtC 4 4 = 1 := by unfold rtC; norm_num
  rw [r0, r1, r2, s0, s1, s2, s3, s4]
  unfold monoN squareForm
  norm_num
  have h6 := rt6_ne
  have h2 := rt2_sq
  have e : 2 * (conjSph v 1 * conjSph v 1 + conjSph v 0 * conjSph v 2) / rt6 * (rt6 * (u ^ 2 * w ^ 2)) =
      2 * (conjSph v 1 * conjSph v 1 + conjSph v 0 * conjSph v 2) * (u ^ 2 * w ^ 2) := by
    field_simp
  rw [e]
  linear_combination (-(conjSph v 1) ^ 2 * (u * w) ^ 2) * h2

theorem square_moves {g : M2} {v v' : Vec3} (h : Moves g v v') :
    ∀ q ∈ Finset.range 5, squareForm v' q = ∑ p ∈ Finset.range 5, g.sym 4 q p * squareForm v p := by
  rw [expand_coeffs g 4]
  intro x
  rw [squareForm_eq, squareForm_eq, (moves_iff g v v').1 h x]

theorem sqrt15 : ((Real.sqrt 1.5 : ℝ) : ℂ) * rt2 = ((Real.sqrt 3 : ℝ) : ℂ) := by
  unfold rt2
  rw [← Complex.ofReal_mul, ← Real.sqrt_mul (by norm_num)]
  norm_num

theorem sqrt15' : ((Real.sqrt 1.5 : ℝ) : ℂ) * 2 / rt6 = 1 := by
  rw [div_eq_one_iff_eq rt6_ne]
  unfold rt6
  have : Real.sqrt 1.5 * 2 = Real.sqrt 6 := by
    rw [show (6 : ℝ) = 1.5 * 2 ^ 2 by norm_num, Real.sqrt_mul (by norm_num), Real.sqrt_sq (by norm_num)]
  exact_mod_cast this

/-- The diamagnetic operator as scalar and rank 2 tensor. -/
theorem dia_sum (p : FieldParams) (D : ℤ → ℤ → Matrix (Fin N) (Fin N) ℂ) :
    (diaKeys.map fun i => addCoef p (.d i.1 i.2) • D i.1 i.2).sum =
      ((p.B.dot p.B : ℝ) : ℂ) • D 0 0 - ((Real.sqrt 1.5 : ℝ) : ℂ) • ∑ s ∈ Finset.range 5, squareForm p.B s • D 2 ((2 : ℕ) - s) := by
  have e0 : conjSph p.B 0 = -sph p.B (-1) := by unfold conjSph; rw [sph_minus]; simp
  have e1 : conjSph p.B 1 = sph p.B 0 := by unfold conjSph; rw [Nat.cast_one, sub_self, sph_zero_conj]
  have e2 : conjSph p.B 2 = -sph p.B 1 := by
    unfold conjSph
    rw [sph_plus]; norm_num
  have hd := (C39_spherical_components p.B p.B).2.1
  have hdot : ((p.B.dot p.B : ℝ) : ℂ) = diaTerm p.B 0 0 := by
    unfold Vec3.dot
    rw [hd]
    unfold diaTerm
    norm_num
    ring
  have s3 := sqrt15
  have s6 := sqrt15'
  set r := ((Real.sqrt 1.5 : ℝ) : ℂ) with hr
  have c00 : addCoef p (.d 0 0) = ((p.B.dot p.B : ℝ) : ℂ) := by rw [hdot]; simp [addCoef]
  have c0 : addCoef p (.d 2 0) = -r * squareForm p.B 2 := by
    have d0 : diaTerm p.B 2 0 = sph p.B 0 * sph p.B 0 + sph p.B 1 * sph p.B (-1) := by unfold diaTerm; norm_num
    have : squareForm p.B 2 = 2 * (conjSph p.B 1 * conjSph p.B 1 + conjSph p.B 0 * conjSph p.B 2) / rt6 := by simp [squareForm]
    rw [this, e0, e1, e2]
    have a : addCoef p (.d 2 0) = -diaTerm p.B 2 0 := by simp [addCoef]
    rw [a, d0]
    linear_combination (sph p.B 0 * sph p.B 0 + sph p.B 1 * sph p.B (-1)) * s6
  have c1 : addCoef p (.d 2 1) = -r * squareForm p.B 1 := by
    have d1 : diaTerm p.B 2 1 = sph p.B 0 * sph p.B (-1) := by unfold diaTerm; norm_num
    have : squareForm p.B 1 = rt2 * (conjSph p.B 0 * conjSph p.B 1) := by simp [squareForm]
    have a : addCoef p (.d 2 1) = diaTerm p.B 2 1 * (Real.sqrt 3 : ℝ) := by simp [addCoef]
    rw [this, e0, e1, a, d1, ← s3]
    ring
  have cm1 : addCoef p (.d 2 (-1)) = -r * squareForm p.B 3 := by
    have d1 : diaTerm p.B 2 (-1) = sph p.B 0 * sph p.B 1 := by unfold diaTerm; norm_num
    have : squareForm p.B 3 = rt2 * (conjSph p.B 1 * conjSph p.B 2) := by simp [squareForm]
    have a : addCoef p (.d 2 (-1)) = diaTerm p.B 2 (-1) * (Real.sqrt 3 : ℝ) := by simp [addCoef]
    rw [this, e1, e2, a, d1, ← s3]
    ring
  have c2 : addCoef p (.d 2 2) = -r * squareForm p.B 0 := by
    have d1 : diaTerm p.B 2 2 = sph p.B (-1) * sph p.B (-1) := by unfold diaTerm; norm_num
    have : squareForm p.B 0 = conjSph p.B 0 * conjSph p.B 0 := by simp [squareForm]
    have a : addCoef p (.d 2 2) = -(diaTerm p.B 2 2 * r) := by rw [hr]; simp only [addCoef]; norm_num
    rw [this, e0, a, d1]
    ring
  have cm2 : addCoef p (.d 2 (-2)) = -r * squareForm p.B 4 := by
    have d1 : diaTerm p.B 2 (-2) = sph p.B 1 * sph p.B 1 := by unfold diaTerm; norm_num
    have : squareForm p.B 4 = conjSph p.B 2 * conjSph p.B 2 := by simp [squareForm]
    have a : addCoef p (.d 2 (-2)) = -(diaTerm p.B 2 (-2) * r) := by rw [hr]; simp only [addCoef]; norm_num
    rw [this, e2, a, d1]
    ring
  unfold diaKeys
  simp only [Finset.sum_range_succ, Finset.sum_range_zero, zero_add, List.map_cons, List.map_nil, List.sum_cons, List.sum_nil, add_zero]
  rw [c00, c0, c1, cm1, c2, cm2]
  rw [show ((2 : ℕ) : ℤ) - ((0 : ℕ) : ℤ) = 2 by norm_num, show ((2 : ℕ) : ℤ) - ((1 : ℕ) : ℤ) = 1 by norm_num, show ((2 : ℕ) : ℤ) - ((2 : ℕ) : ℤ) = 0 by norm_num,
    show ((2 : ℕ) : ℤ) - ((3 : ℕ) : ℤ) = -1 by norm_num, show ((2 : ℕ) : ℤ) - ((4 : ℕ) : ℤ) = -2 by norm_num]
  module

/-! ## The matrix elements have the Wigner-Eckart form -/

theorem multipole_we (C : ElemConsts) (radial : RadKey → ℝ) (me : Method) (st : Fin N → Option QN) (hst : GoodStates st) (kr : ℤ) (κ : ℕ) (x : ℝ) :
    WignerEckart st κ (fun a b => x * outVal (electricMultipole C radial me a b kr κ))
      (fun a b => x * (C.e * radial (RadKey.make me a.species kr a.n b.n a.l b.l a.j b.j) * (commutesSSpec a.s κ a.l b.l a.j b.j * multipoleSpec κ a.l b.l))) := by
  refine ⟨?_, fun a b m m' => rfl⟩
  intro i j a b ha hb
  rw [electricMultipole_eq C radial me a b kr κ (hst i a ha).1 (hst j b hb).1 ((hst i a ha).2 j b hb).1 ((hst i a ha).2 j b hb).2]
  simp only [outVal]
  ring

theorem dipole_we (C : FieldConsts) (radial : RadKey → ℝ) (me : Method) (st : Fin N → Option QN) (hst : GoodStates st) :
    ∃ ρ, WignerEckart st 1 (fun a b => outVal (electricMultipole C.elem radial me a b 1 1)) ρ := by
  have h : (fun a b => outVal (electricMultipole C.elem radial me a b 1 1)) = fun a b => 1 * outVal (electricMultipole C.elem radial me a b 1 (1 : ℕ)) := by
    funext a b; rw [one_mul, Nat.cast_one]
  rw [h]
  exact ⟨_, multipole_we C.elem radial me st hst 1 1 1⟩

theorem dia_we (C : FieldConsts) (radial : RadKey → ℝ) (me : Method) (st : Fin N → Option QN) (hst : GoodStates st) (κ : ℕ) :
    ∃ ρ, WignerEckart st κ (fun a b => 1 / (8 * C.mass) * (2 / 3 * C.elem.e * outVal (electricMultipole C.elem radial me a b 2 κ))) ρ := by
  have h : (fun a b => 1 / (8 * C.mass) * (2 / 3 * C.elem.e * outVal (electricMultipole C.elem radial me a b 2 κ))) =
      fun a b => (1 / (8 * C.mass) * (2 / 3 * C.elem.e)) * outVal (electricMultipole C.elem radial me a b 2 κ) := by
    funext a b; ring
  rw [h]
  exact ⟨_, multipole_we C.elem radial me st hst 2 κ _⟩

theorem magnetic_we (C : FieldConsts) (radial : RadKey → ℝ) (me : Method) (st : Fin N → Option QN) (hst : GoodStates st) :
    ∃ ρ, WignerEckart st 1 (magSpec C radial me) ρ := by
  refine ⟨fun a b => if a.l = b.l then (-C.elem.muB * radial (RadKey.make me a.species 0 a.n b.n a.l b.l a.j b.j) *
      (C.elem.gL * commutesSSpec a.s 1 a.l b.l a.j b.j * Real.sqrt (a.l * (a.l + 1) * (2 * a.l + 1)) +
       C.elem.gS * commutesLSpec a.s 1 a.l b.l a.j b.j * Real.sqrt ((a.s : ℝ) / 2 * (a.s / 2 + 1) * (a.s + 1)))) else 0, ?_, fun a b m m' => rfl⟩
  intro i j a b ha hb
  unfold magSpec
  by_cases hl : a.l = b.l
  · rw [if_pos hl, if_pos hl]
    unfold valB
    rw [magneticDipole_eq C.elem radial me a b (hst i a ha).1 (hst j b hb).1 ((hst i a ha).2 j b hb).1 ((hst i a ha).2 j b hb).2 hl]
    simp only [outVal, Nat.cast_one]
    ring
  · rw [if_neg hl, if_neg hl, zero_mul]

/-! ## The theorem -/

/-- The interaction with fields, as in C37. -/
noncomputable def fieldOperator (C : FieldConsts) (radial : RadKey → ℝ) (me : Method) (st : Fin N → Option QN) (E B : Vec3) (dia : Bool) :
    Matrix (Fin N) (Fin N) ℂ :=
  - dotOp E (dipoleT C radial me st) - dotOp B (magneticT C radial me st)
    + (if dia then (diaKeys.map fun i => addCoef ⟨E, B, dia, 0, 0, none⟩ (.d i.1 i.2) • diaT C radial me st i.1 i.2).sum else 0)

theorem scalar_rotate (st : Fin N → Option QN) (hst : RotStates st) (hz : AllZeeman st) {g : M2} (hg : g.SU) (f ρ : QN → QN → ℝ)
    (hf : WignerEckart st 0 f ρ) : rotSymMat st g * tensorMat st f 0 * (rotSymMat st g)ᴴ = tensorMat st f 0 := by
  have h := tensor_rotate st hst hz hg 0 f ρ hf 0 (by norm_num)
  have e : g.sym 0 0 0 = 1 := by unfold M2.sym M2.poly; simp
  simpa [e] using h

theorem fieldOperator_rotate (C : FieldConsts) (radial : RadKey → ℝ) (me : Method) (st : Fin N → Option QN) (hst : RotStates st) (hz : AllZeeman st)
    (hg0 : GoodStates st) {g : M2} (hg : g.SU) (E B E' B' : Vec3) (hE : Moves g E E') (hB : Moves g B B') (hn : B'.dot B' = B.dot B) (dia : Bool) :
    rotSymMat st g * fieldOperator C radial me st E B dia * (rotSymMat st g)ᴴ = fieldOperator C radial me st E' B' dia := by
  obtain ⟨ρ1, w1⟩ := dipole_we C radial me st hg0
  obtain ⟨ρ2, w2⟩ := magnetic_we C radial me st hg0
  unfold fieldOperator
  have t1 := dotOp_rotate st hst hz hg _ ρ1 w1 E E' hE
  have t2 := dotOp_rotate st hst hz hg _ ρ2 w2 B B' hB
  rw [Matrix.mul_add, Matrix.add_mul, Matrix.mul_sub, Matrix.sub_mul, Matrix.mul_neg, Matrix.neg_mul]
  unfold dipoleT magneticT
  rw [t1, t2]
  congr 1
  cases dia with
  | false => simp
  | true =>
    rw [if_pos rfl, if_pos rfl, dia_sum, dia_sum]
    dsimp only
    obtain ⟨ρ3, w3⟩ := dia_we C radial me st hg0 0
    obtain ⟨ρ4, w4⟩ := dia_we C radial me st hg0 2
    have t3 := scalar_rotate st hst hz hg _ ρ3 w3
    have t4 := tensor_sum_rotate st hst hz hg 2 _ ρ4 w4 (squareForm B) (squareForm B') (square_moves hB)
    rw [Matrix.mul_sub, Matrix.sub_mul, Matrix.mul_smul, Matrix.smul_mul, Matrix.mul_smul, Matrix.smul_mul]
    unfold diaT
    rw [hn]
    congr 2

/-! ## The ion -/

theorem ion_we (C : FieldConsts) (radial : RadKey → ℝ) (me : Method) (st : Fin N → Option QN) (hst : GoodStates st) (o : ℕ) :
    ∃ ρ, WignerEckart st o (fun a b => -C.ke * C.elem.e * outVal (electricMultipole C.elem radial me a b o o)) ρ :=
  ⟨_, multipole_we C.elem radial me st hst o o _⟩

theorem euler2_axis (α γ : ℝ) : ∃ θ, euler2 (-γ) (-0) (-α) = rotZ2 θ := by
  refine ⟨-α + -γ, ?_⟩
  unfold euler2
  rw [neg_zero, rotY_zero, M2.one_mul, rotZ2_add]

theorem ion_rotate (C : FieldConsts) (radial : RadKey → ℝ) (me : Method) (st : Fin N → Option QN) (hst : RotStates st) (hz : AllZeeman st)
    (hg0 : GoodStates st) (θ : ℝ) (o : ℕ) :
    rotSymMat st (rotZ2 θ) * ionT C radial me st o * (rotSymMat st (rotZ2 θ))ᴴ = ionT C radial me st o := by
  obtain ⟨ρ, w⟩ := ion_we C radial me st hg0 o
  have h := tensor_rotate st hst hz (rotZ2_su θ) o _ ρ w o (by omega)
  rw [sub_self] at h
  unfold ionT
  rw [h, Finset.sum_eq_single o]
  · unfold rotZ2
    rw [sym_diag _ _ _ _ _ (by omega), if_pos rfl, show 2 * o - o = o by omega, ← mul_pow, ePh_norm, one_pow, one_smul, sub_self]
  · intro q _ hq
    unfold rotZ2
    rw [sym_diag _ _ _ _ _ (by omega), if_neg hq, zero_smul]
  · intro h; exact absurd (Finset.mem_range.2 (by omega)) h

/-! ## Energies -/

/-- The energies do not depend on the magnetic quantum number. -/
def LevelEnergies (st : Fin N → Option QN) (e : Fin N → ℝ) : Prop :=
  ∀ i k a b, st i = some a → st k = some b → b = { a with m := b.m } → e i = e k

theorem energies_rotate (st : Fin N → Option QN) (hst : RotStates st) (hz : AllZeeman st) {g : M2} (hg : g.SU) (e : Fin N → ℝ) (he : LevelEnergies st e) :
    rotSymMat st g * Matrix.diagonal (fun i => (e i : ℂ)) * (rotSymMat st g)ᴴ = Matrix.diagonal fun i => (e i : ℂ) := by
  have : rotSymMat st g * Matrix.diagonal (fun i => (e i : ℂ)) = Matrix.diagonal (fun i => (e i : ℂ)) * rotSymMat st g := by
    ext r c
    rw [Matrix.mul_diagonal, Matrix.diagonal_mul]
    obtain ⟨a, ha⟩ := hst.all r
    obtain ⟨b, hb⟩ := hst.all c
    unfold rotSymMat
    rw [ha, hb]
    dsimp only
    unfold rotSym
    by_cases h : a = { b with m := a.m }
    · rw [he r c a b ha hb (same_level_symm h)]; ring
    · rw [if_neg h]; ring
  rw [this, Matrix.mul_assoc, rotSymMat_row st hst hz hg, Matrix.mul_one]

/-! ## The Hamiltonian -/

/-- Parameters with the fields passed through `setEfield(field, α, β, γ)` and `setBfield(field, α, β, γ)`. -/
noncomputable def FieldParams.rotated (p : FieldParams) (α β γ : ℝ) : FieldParams :=
  { p with E := rotateVectorEuler p.E α β γ, B := rotateVectorEuler p.B α β γ }

/-- The operator that a SystemOne with all states as basis vectors represents (`C35_system_one`). -/
noncomputable def oneOperator (C : FieldConsts) (radial : RadKey → ℝ) (me : Method) (st : Fin N → Option QN) (e : Fin N → ℝ) (p : FieldParams) :
    Matrix (Fin N) (Fin N) ℂ := freshOper (fieldInter C radial me st) (Matrix.diagonal fun i => (e i : ℂ)) 1 p

theorem oneOperator_eq (C : FieldConsts) (radial : RadKey → ℝ) (me : Method) (st : Fin N → Option QN) (hst : GoodStates st) (e : Fin N → ℝ) (p : FieldParams)
    (hp : NoTiny p) : oneOperator C radial me st e p = Matrix.diagonal (fun i => (e i : ℂ)) + (fieldOperator C radial me st p.E p.B p.dia +
      (match p.dist with
        | some R => (p.charge : ℂ) • ((List.range p.order).map fun o => ((1 / R ^ (o + 2) : ℝ) : ℂ) • ionT C radial me st (o + 1)).sum
        | none => 0)) := by
  unfold oneOperator
  rw [C37_physical_operator C radial me st hst _ _ p hp, Matrix.one_mul, Matrix.mul_one]
  rfl

theorem conj_list_sum (M : Matrix (Fin N) (Fin N) ℂ) (L : List ℕ) (A : ℕ → Matrix (Fin N) (Fin N) ℂ) (h : ∀ o, M * A o * Mᴴ = A o) :
    M * (L.map A).sum * Mᴴ = (L.map A).sum := by
  induction L with
  | nil => simp
  | cons x xs ih => rw [List.map_cons, List.sum_cons, Matrix.mul_add, Matrix.add_mul, ih, h x]

/-- **C80**: for every set of states with all Zeeman levels, all fields and all angles, the rotator of the system transforms the Hamiltonian into the one of
the rotated fields: rotating the system and rotating the fields with `setEfield(field, α, β, γ)`, `setBfield(field, α, β, γ)` are the same. An ion on the z
axis allows rotations about this axis only. -/
theorem C80_covariance (C : FieldConsts) (radial : RadKey → ℝ) (me : Method) (st : Fin N → Option QN) (hst : RotStates st) (hz : AllZeeman st)
    (hg0 : GoodStates st) (e : Fin N → ℝ) (he : LevelEnergies st e) (p : FieldParams) (α β γ : ℝ) (hb : PlainAngle (-β))
    (hion : p.charge = 0 ∨ p.dist = none ∨ β = 0) (hp : NoTiny p) (hp' : NoTiny (p.rotated α β γ)) :
    ∃ M, rotator1 false st α β γ = .ok M ∧ M * Mᴴ = 1 ∧
      M * oneOperator C radial me st e p * Mᴴ = oneOperator C radial me st e (p.rotated α β γ) := by
  have hsu := euler2_su (-γ) (-β) (-α)
  refine ⟨_, rotator1_plain st hst α β γ hb, rotSymMat_row st hst hz hsu, ?_⟩
  rw [oneOperator_eq C radial me st hg0 e p hp, oneOperator_eq C radial me st hg0 e _ hp']
  rw [Matrix.mul_add, Matrix.add_mul, energies_rotate st hst hz hsu e he]
  congr 1
  rw [Matrix.mul_add, Matrix.add_mul, fieldOperator_rotate C radial me st hst hz hg0 hsu p.E p.B (rotateVectorEuler p.E α β γ) (rotateVectorEuler p.B α β γ)
    (moves_euler α β γ p.E) (moves_euler α β γ p.B) (C79_euler_isometry p.B p.B α β γ)]
  have r1 : (p.rotated α β γ).dist = p.dist := rfl
  have r2 : (p.rotated α β γ).charge = p.charge := rfl
  have r3 : (p.rotated α β γ).order = p.order := rfl
  rw [r1, r2, r3]
  refine congrArg₂ (· + ·) rfl ?_
  cases hd : p.dist with
  | none => simp
  | some R =>
    dsimp only
    rcases hion with h | h | h
    · rw [h]; simp
    · rw [hd] at h; simp at h
    · subst h
      obtain ⟨θ, hθ⟩ := euler2_axis α γ
      rw [hθ, Matrix.mul_smul, Matrix.smul_mul, conj_list_sum]
      intro o
      rw [Matrix.mul_smul, Matrix.smul_mul, ion_rotate C radial me st hst hz hg0]

/-- **C80**: the energies (with multiplicities) do not depend on the orientation of the fields. -/
theorem C80_spectrum (C : FieldConsts) (radial : RadKey → ℝ) (me : Method) (st : Fin N → Option QN) (hst : RotStates st) (hz : AllZeeman st)
    (hg0 : GoodStates st) (e : Fin N → ℝ) (he : LevelEnergies st e) (p : FieldParams) (α β γ : ℝ) (hb : PlainAngle (-β))
    (hion : p.charge = 0 ∨ p.dist = none ∨ β = 0) (hp : NoTiny p) (hp' : NoTiny (p.rotated α β γ)) :
    (oneOperator C radial me st e (p.rotated α β γ)).charpoly = (oneOperator C radial me st e p).charpoly := by
  obtain ⟨M, _, h1, h2⟩ := C80_covariance C radial me st hst hz hg0 e he p α β γ hb hion hp hp'
  rw [← h2, Matrix.charpoly_mul_comm, ← Matrix.mul_assoc, mul_eq_one_comm.1 h1, Matrix.one_mul]

/-- **C80**: a built system that represents its Hamiltonian represents, after `rotate`, the Hamiltonian of the rotated fields. -/
theorem C80_rotate {k : Type} [Fintype k] [DecidableEq k] (C : FieldConsts) (radial : RadKey → ℝ) (me : Method) (st : Fin N → Option QN) (hst : RotStates st)
    (hz : AllZeeman st) (hg0 : GoodStates st) (e : Fin N → ℝ) (he : LevelEnergies st e) (p : FieldParams) (α β γ : ℝ) (hb : PlainAngle (-β))
    (hion : p.charge = 0 ∨ p.dist = none ∨ β = 0) (hp : NoTiny p) (hp' : NoTiny (p.rotated α β γ)) (s : CSys FieldParams FKey (Fin N) k)
    (hs : s.V * s.H * s.Vᴴ = oneOperator C radial me st e p) :
    ∃ M, rotator1 false st α β γ = .ok M ∧
      (s.rotate M).V * (s.rotate M).H * (s.rotate M).Vᴴ = oneOperator C radial me st e (p.rotated α β γ) := by
  obtain ⟨M, h0, h1, h2⟩ := C80_covariance C radial me st hst hz hg0 e he p α β γ hb hion hp hp'
  refine ⟨M, h0, ?_⟩
  rw [← h2, ← hs]
  unfold CSys.rotate
  rw [Matrix.conjTranspose_mul]
  simp only [Matrix.mul_assoc]

/-! ## An example: S1/2 in a field along z, rotated to the x axis -/

theorem exS_good : GoodStates exS := by
  intro i a h
  simp only [exS, Option.some.injEq] at h
  subst h
  constructor
  · unfold QN.Physical
    fin_cases i <;> decide
  · intro j b hb
    simp only [exS, Option.some.injEq] at hb
    subst hb
    exact ⟨rfl, rfl⟩

theorem exNoTiny (x z : ℝ) (hx : x = 0 ∨ |x| = 1) (hz : z = 0 ∨ |z| = 1) : NoTiny ⟨⟨x, 0, z⟩, ⟨0, 0, 0⟩, true, 0, 0, none⟩ := by
  have z0 : ∀ q, sph ⟨0, 0, 0⟩ q = 0 := by
    intro q; unfold sph; split_ifs <;> first | rfl | (apply Complex.ext <;> simp)
  refine ⟨?_, fun q => Or.inl (z0 q), fun k q => Or.inl (by unfold diaTerm; simp [z0])⟩
  intro q
  have s2 : Real.sqrt 2 < 2 := by rw [Real.sqrt_lt' (by norm_num)]; norm_num
  have s0 : 0 < Real.sqrt 2 := by positivity
  have big : ∀ (y : ℝ), |y| = 1 → ‖((y / Real.sqrt 2 : ℝ) : ℂ)‖ > 1e-24 := by
    intro y hy
    rw [Complex.norm_real, Real.norm_eq_abs, abs_div, hy, abs_of_pos s0]
    have : (1 : ℝ) / 2 < 1 / Real.sqrt 2 := by rw [div_lt_div_iff₀ (by norm_num) s0]; linarith
    exact lt_trans (by norm_num) this
  dsimp only
  by_cases h1 : q = 1
  · subst h1
    have e : sph ⟨x, 0, z⟩ 1 = ((-x / Real.sqrt 2 : ℝ) : ℂ) := by
      unfold sph; rw [if_pos rfl]; apply Complex.ext <;> simp
    rw [e]
    rcases hx with rfl | hx
    · left; simp
    · right; unfold isBig; rw [decide_eq_true_eq]; exact big _ (by rw [abs_neg]; exact hx)
  · by_cases h2 : q = -1
    · subst h2
      have e : sph ⟨x, 0, z⟩ (-1) = ((x / Real.sqrt 2 : ℝ) : ℂ) := by
        unfold sph; rw [if_neg (by norm_num), if_pos rfl]; apply Complex.ext <;> simp
      rw [e]
      rcases hx with rfl | hx
      · left; simp
      · right; unfold isBig; rw [decide_eq_true_eq]; exact big _ hx
    · by_cases h3 : q = 0
      · subst h3
        have e : sph ⟨x, 0, z⟩ 0 = (z : ℂ) := by
          unfold sph; rw [if_neg (by norm_num), if_neg (by norm_num), if_pos rfl]; apply Complex.ext <;> simp
        rw [e]
        rcases hz with rfl | hz
        · left; simp
        · right; unfold isBig; rw [decide_eq_true_eq, Complex.norm_real, Real.norm_eq_abs, hz]; norm_num
      · left; unfold sph; rw [if_neg h1, if_neg h2, if_neg h3]

example (C : FieldConsts) (radial : RadKey → ℝ) (me : Method) :
    ∃ M, rotator1 false exS 0 (-(Real.pi / 2)) 0 = .ok M ∧ M * Mᴴ = 1 ∧
      M * oneOperator C radial me exS (fun _ => 7) ⟨⟨0, 0, 1⟩, ⟨0, 0, 0⟩, true, 0, 0, none⟩ * Mᴴ =
        oneOperator C radial me exS (fun _ => 7) ⟨⟨1, 0, 0⟩, ⟨0, 0, 0⟩, true, 0, 0, none⟩ := by
  have hv : rotateVectorEuler ⟨0, 0, 1⟩ 0 (-(Real.pi / 2)) 0 = ⟨1, 0, 0⟩ := by
    rw [rotateVectorEuler_eq]
    unfold buildRotatorEuler rotZ3 rotY3 Vec3.ofFn Vec3.fn
    rw [Vec3.mk.injEq]
    simp [Matrix.mulVec, dotProduct, Fin.sum_univ_three, Matrix.mul_apply, Matrix.transpose_apply]
  have hv0 : rotateVectorEuler ⟨0, 0, 0⟩ 0 (-(Real.pi / 2)) 0 = ⟨0, 0, 0⟩ := by
    unfold rotateVectorEuler; simp [Vec3.dot]
  have hr : (FieldParams.rotated ⟨⟨0, 0, 1⟩, ⟨0, 0, 0⟩, true, 0, 0, none⟩ 0 (-(Real.pi / 2)) 0) = ⟨⟨1, 0, 0⟩, ⟨0, 0, 0⟩, true, 0, 0, none⟩ := by
    unfold FieldParams.rotated
    rw [hv, hv0]
  have := C80_covariance C radial me exS exS_rot exS_all exS_good (fun _ => 7) (fun _ _ _ _ _ _ _ => rfl) ⟨⟨0, 0, 1⟩, ⟨0, 0, 0⟩, true, 0, 0, none⟩
    0 (-(Real.pi / 2)) 0 (by unfold PlainAngle; intro _; ring) (Or.inl rfl) (exNoTiny 0 1 (by simp) (by simp)) (by rw [hr]; exact exNoTiny 1 0 (by simp) (by simp))
  rwa [hr] at this

end PI
