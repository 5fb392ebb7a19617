import Verif.Rot.StateMore
import Verif.Field.Props
import Mathlib.Tactic.FinCases
import Mathlib.LinearAlgebra.Matrix.Notation

/-!
# C79: rotated fields
-/

namespace PI

open Matrix

theorem vec3_ofFn_fn (v : Vec3) : Vec3.ofFn v.fn = v := rfl

theorem fn_ofFn (f : Fin 3 → ℝ) : (Vec3.ofFn f).fn = f := by
  funext i; fin_cases i <;> rfl

theorem dot_fn (v w : Vec3) : v.dot w = v.fn ⬝ᵥ w.fn := by
  unfold Vec3.dot Vec3.fn
  simp [dotProduct, Fin.sum_univ_three]

theorem rotZ3_neg (a : ℝ) : rotZ3 (-a) = (rotZ3 a)ᵀ := by
  ext i j
  fin_cases i <;> fin_cases j <;> simp [rotZ3, Matrix.transpose_apply]

theorem rotY3_neg (a : ℝ) : rotY3 (-a) = (rotY3 a)ᵀ := by
  ext i j
  fin_cases i <;> fin_cases j <;> simp [rotY3, Matrix.transpose_apply]

theorem rotZ3_ortho (a : ℝ) : (rotZ3 a)ᵀ * rotZ3 a = 1 := by
  have h := Real.sin_sq_add_cos_sq a
  ext i j
  fin_cases i <;> fin_cases j <;> simp [rotZ3, Matrix.mul_apply, Fin.sum_univ_three, Matrix.transpose_apply] <;> nlinarith

theorem rotY3_ortho (a : ℝ) : (rotY3 a)ᵀ * rotY3 a = 1 := by
  have h := Real.sin_sq_add_cos_sq a
  ext i j
  fin_cases i <;> fin_cases j <;> simp [rotY3, Matrix.mul_apply, Fin.sum_univ_three, Matrix.transpose_apply] <;> nlinarith

theorem euler3_ortho (α β γ : ℝ) : (buildRotatorEuler α β γ)ᵀ * buildRotatorEuler α β γ = 1 := by
  unfold buildRotatorEuler
  rw [Matrix.transpose_mul, Matrix.transpose_mul]
  have e : (rotZ3 γ)ᵀ * ((rotY3 β)ᵀ * (rotZ3 α)ᵀ) * (rotZ3 α * rotY3 β * rotZ3 γ) =
      (rotZ3 γ)ᵀ * ((rotY3 β)ᵀ * ((rotZ3 α)ᵀ * rotZ3 α) * rotY3 β) * rotZ3 γ := by simp only [Matrix.mul_assoc]
  rw [e, rotZ3_ortho, Matrix.mul_one, rotY3_ortho, Matrix.mul_one, rotZ3_ortho]

theorem euler3_neg (α β γ : ℝ) : buildRotatorEuler (-γ) (-β) (-α) = (buildRotatorEuler α β γ)ᵀ := by
  unfold buildRotatorEuler
  rw [rotZ3_neg, rotZ3_neg, rotY3_neg, Matrix.transpose_mul, Matrix.transpose_mul, Matrix.mul_assoc]

theorem vec_zero_of_norm (v : Vec3) (h : Real.sqrt (v.dot v) = 0) : v = ⟨0, 0, 0⟩ := by
  unfold Vec3.dot at h
  have h0 : 0 ≤ v.x * v.x + v.y * v.y + v.z * v.z := by nlinarith [mul_self_nonneg v.x, mul_self_nonneg v.y, mul_self_nonneg v.z]
  rw [Real.sqrt_eq_zero h0] at h
  have hx : v.x = 0 := by nlinarith [mul_self_nonneg v.x, mul_self_nonneg v.y, mul_self_nonneg v.z]
  have hy : v.y = 0 := by nlinarith [mul_self_nonneg v.x, mul_self_nonneg v.y, mul_self_nonneg v.z]
  have hz : v.z = 0 := by nlinarith [mul_self_nonneg v.x, mul_self_nonneg v.y, mul_self_nonneg v.z]
  cases v; simp_all

/-- The test for a zero field makes no difference for the Euler angles. -/
theorem rotateVectorEuler_eq (v : Vec3) (α β γ : ℝ) : rotateVectorEuler v α β γ = Vec3.ofFn ((buildRotatorEuler α β γ)ᵀ.mulVec v.fn) := by
  unfold rotateVectorEuler
  by_cases h : Real.sqrt (v.dot v) ≠ 0
  · rw [if_pos h]
  · rw [if_neg h, vec_zero_of_norm v (not_not.1 h)]
    have : (Vec3.mk 0 0 0).fn = 0 := by funext i; fin_cases i <;> rfl
    rw [this, Matrix.mulVec_zero]; rfl

/-- **C79**: for all angles the rotated fields keep their lengths and the angles between them. -/
theorem C79_euler_isometry (v w : Vec3) (α β γ : ℝ) : (rotateVectorEuler v α β γ).dot (rotateVectorEuler w α β γ) = v.dot w := by
  rw [rotateVectorEuler_eq, rotateVectorEuler_eq, dot_fn, dot_fn, fn_ofFn, fn_ofFn]
  rw [Matrix.dotProduct_mulVec, Matrix.vecMul_transpose, Matrix.mulVec_mulVec]
  have : buildRotatorEuler α β γ * (buildRotatorEuler α β γ)ᵀ = 1 := mul_eq_one_comm.1 (euler3_ortho α β γ)
  rw [this, Matrix.one_mulVec]

/-- **C79**: the angles (−γ, −β, −α) undo the rotation of a field by (α, β, γ). -/
theorem C79_euler_inverse (v : Vec3) (α β γ : ℝ) : rotateVectorEuler (rotateVectorEuler v α β γ) (-γ) (-β) (-α) = v := by
  rw [rotateVectorEuler_eq, rotateVectorEuler_eq, fn_ofFn, euler3_neg, Matrix.transpose_transpose, Matrix.mulVec_mulVec,
    mul_eq_one_comm.1 (euler3_ortho α β γ), Matrix.one_mulVec, vec3_ofFn_fn]

/-! ## Axes -/

theorem normalized_unit (a : Vec3) (h : a.dot a > 0) : a.normalized.dot a.normalized = 1 := by
  unfold Vec3.normalized
  rw [if_pos h]
  have hs : Real.sqrt (a.dot a) * Real.sqrt (a.dot a) = a.dot a := Real.mul_self_sqrt h.le
  have hne : Real.sqrt (a.dot a) ≠ 0 := (Real.sqrt_pos.2 h).ne'
  generalize Real.sqrt (a.dot a) = s at hs hne
  unfold Vec3.dot at hs ⊢
  field_simp
  nlinarith

theorem normalized_ortho (a b : Vec3) (ha : a.dot a > 0) (hb : b.dot b > 0) (h : a.dot b = 0) : a.normalized.dot b.normalized = 0 := by
  unfold Vec3.normalized
  rw [if_pos ha, if_pos hb]
  generalize Real.sqrt (a.dot a) = s
  generalize Real.sqrt (b.dot b) = t
  unfold Vec3.dot at h ⊢
  have : a.x / s * (b.x / t) + a.y / s * (b.y / t) + a.z / s * (b.z / t) = (a.x * b.x + a.y * b.y + a.z * b.z) / (s * t) := by
    ring
  rw [this, h, zero_div]

/-- **C79**: with two orthogonal, non-zero axes the components of the field with respect to the new axes `y × z`, `y`, `z` (normalised) are set, and its
length is kept. -/
theorem C79_axes (v z y : Vec3) (hz : z.dot z > 0) (hy : y.dot y > 0) (h : z.dot y = 0) :
    ∃ w, rotateVectorAxes v z y = .ok w ∧ w.x = (y.normalized.cross z.normalized).dot v ∧ w.y = y.normalized.dot v ∧ w.z = z.normalized.dot v ∧
      w.dot w = v.dot v := by
  have h1 := normalized_unit z hz
  have h2 := normalized_unit y hy
  have h3 := normalized_ortho z y hz hy h
  have key : ∀ w : Vec3, w.x = (y.normalized.cross z.normalized).dot v → w.y = y.normalized.dot v → w.z = z.normalized.dot v → w.dot w = v.dot v := by
    intro w hx hy' hz'
    generalize y.normalized = Y at *
    generalize z.normalized = Z at *
    unfold Vec3.dot
    rw [hx, hy', hz']
    unfold Vec3.dot Vec3.cross at *
    dsimp only
    -- the three axes are orthonormal: R Rᵀ = 1
    set M : Matrix (Fin 3) (Fin 3) ℝ := !![Y.y * Z.z - Y.z * Z.y, Y.z * Z.x - Y.x * Z.z, Y.x * Z.y - Y.y * Z.x; Y.x, Y.y, Y.z; Z.x, Z.y, Z.z] with hM
    have hMM : M * Mᵀ = 1 := by
      have hc : (Y.y * Z.z - Y.z * Z.y) * (Y.y * Z.z - Y.z * Z.y) + (Y.z * Z.x - Y.x * Z.z) * (Y.z * Z.x - Y.x * Z.z) +
          (Y.x * Z.y - Y.y * Z.x) * (Y.x * Z.y - Y.y * Z.x) = 1 := by
        have lag : (Y.y * Z.z - Y.z * Z.y) * (Y.y * Z.z - Y.z * Z.y) + (Y.z * Z.x - Y.x * Z.z) * (Y.z * Z.x - Y.x * Z.z) +
          (Y.x * Z.y - Y.y * Z.x) * (Y.x * Z.y - Y.y * Z.x) = (Y.x * Y.x + Y.y * Y.y + Y.z * Y.z) * (Z.x * Z.x + Z.y * Z.y + Z.z * Z.z) -
            (Z.x * Y.x + Z.y * Y.y + Z.z * Y.z) ^ 2 := by ring
        rw [lag, h1, h2, h3]; norm_num
      ext i j
      fin_cases i <;> fin_cases j <;> simp [hM, Matrix.mul_apply, Fin.sum_univ_three, Matrix.transpose_apply] <;> linarith
    have hMM' : Mᵀ * M = 1 := mul_eq_one_comm.1 hMM
    have e := congrArg (fun A : Matrix (Fin 3) (Fin 3) ℝ => v.fn ⬝ᵥ A.mulVec v.fn) hMM'
    simp only [Matrix.one_mulVec] at e
    rw [← Matrix.mulVec_mulVec, Matrix.dotProduct_mulVec, Matrix.vecMul_transpose] at e
    simp [hM, Vec3.fn, dotProduct, Matrix.mulVec, Fin.sum_univ_three] at e
    linarith
  unfold rotateVectorAxes
  by_cases hv : Real.sqrt (v.dot v) ≠ 0
  · rw [if_pos hv]
    unfold buildRotatorAxes
    dsimp only
    rw [if_neg (by rw [h3]; norm_num), Out.ok_bind]
    exact ⟨_, rfl, rfl, rfl, rfl, key _ rfl rfl rfl⟩
  · rw [if_neg hv, vec_zero_of_norm v (not_not.1 hv)]
    refine ⟨_, rfl, ?_, ?_, ?_, rfl⟩ <;> simp [Vec3.dot]

/-- **C79**: non-zero axes that are not orthogonal (cosine of the angle above 1e-16) are refused for every non-zero field. -/
theorem C79_axes_rejects (v z y : Vec3) (hv : v.dot v > 0) (h : |z.normalized.dot y.normalized| > 1e-16) : rotateVectorAxes v z y = .throw := by
  unfold rotateVectorAxes
  rw [if_pos (Real.sqrt_pos.2 hv).ne']
  unfold buildRotatorAxes
  dsimp only
  rw [if_pos h]; rfl

/-- A column of the rotation matrix as a vector. -/
def colVec (R : Matrix (Fin 3) (Fin 3) ℝ) (j : Fin 3) : Vec3 := ⟨R 0 j, R 1 j, R 2 j⟩

/-- **C79**: the two ways to specify a rotation agree: passing the third and second column of the rotation matrix as axes gives the same field as
passing the Euler angles. -/
theorem C79_axes_euler (v : Vec3) (α β γ : ℝ) :
    rotateVectorAxes v (colVec (buildRotatorEuler α β γ) 2) (colVec (buildRotatorEuler α β γ) 1) = .ok (rotateVectorEuler v α β γ) := by
  have ho := euler3_ortho α β γ
  have col : ∀ i j, (colVec (buildRotatorEuler α β γ) i).dot (colVec (buildRotatorEuler α β γ) j) = if i = j then 1 else 0 := by
    intro i j
    have := congrFun (congrFun ho i) j
    rw [Matrix.mul_apply, Matrix.one_apply, Fin.sum_univ_three] at this
    simp only [Matrix.transpose_apply] at this
    exact this
  have nrm : ∀ a : Vec3, a.dot a = 1 → a.normalized = a := by
    intro a ha
    unfold Vec3.normalized
    rw [if_pos (by rw [ha]; norm_num), ha, Real.sqrt_one, div_one, div_one, div_one]
  have det : (colVec (buildRotatorEuler α β γ) 1).cross (colVec (buildRotatorEuler α β γ) 2) = colVec (buildRotatorEuler α β γ) 0 := by
    have s1 := Real.sin_sq_add_cos_sq α
    have s2 := Real.sin_sq_add_cos_sq β
    have s3 := Real.sin_sq_add_cos_sq γ
    unfold colVec Vec3.cross buildRotatorEuler rotZ3 rotY3
    simp only [Vec3.mk.injEq]
    simp [Matrix.mul_apply, Fin.sum_univ_three]
    refine ⟨?_, ?_, ?_⟩
    · linear_combination (-Real.sin α * Real.sin γ) * s2
    · linear_combination (Real.sin γ * Real.cos α) * s2
    · linear_combination (-Real.sin β * Real.cos γ) * s1
  rw [rotateVectorEuler_eq]
  unfold rotateVectorAxes
  by_cases hv : Real.sqrt (v.dot v) ≠ 0
  · rw [if_pos hv]
    unfold buildRotatorAxes
    dsimp only
    rw [nrm _ (by rw [col]; simp), nrm _ (by rw [col]; simp), if_neg (by rw [col, if_neg (by decide)]; norm_num), Out.ok_bind, det]
    congr 1
    unfold Vec3.ofFn Vec3.fn colVec Vec3.dot
    simp [Matrix.mulVec, dotProduct, Fin.sum_univ_three, Matrix.transpose_apply]
  · rw [if_neg hv, vec_zero_of_norm v (not_not.1 hv)]
    have : (Vec3.mk 0 0 0).fn = 0 := by funext i; fin_cases i <;> rfl
    rw [this, Matrix.mulVec_zero]; rfl

/-- **C79** fails for an axis of length zero: it is accepted and the field disappears. -/
theorem C79_zero_axis_fails : ∃ v z y : Vec3, v.dot v = 1 ∧ rotateVectorAxes v z y = .ok ⟨0, 0, 0⟩ := by
  refine ⟨⟨0, 0, 1⟩, ⟨0, 0, 0⟩, ⟨0, 1, 0⟩, by norm_num [Vec3.dot], ?_⟩
  unfold rotateVectorAxes
  rw [if_pos (by norm_num [Vec3.dot])]
  unfold buildRotatorAxes Vec3.normalized
  norm_num [Vec3.dot, Vec3.cross]

/-- The hypotheses of C79_axes are met by orthogonal axes that are not unit vectors. -/
example : ∃ w, rotateVectorAxes ⟨1, 2, 3⟩ ⟨1, 1, 0⟩ ⟨1, -1, 5 - 5⟩ = .ok w ∧ w.dot w = (Vec3.mk 1 2 3).dot ⟨1, 2, 3⟩ := by
  obtain ⟨w, h, _, _, _, h2⟩ := C79_axes ⟨1, 2, 3⟩ ⟨1, 1, 0⟩ ⟨1, -1, 5 - 5⟩ (by norm_num [Vec3.dot]) (by norm_num [Vec3.dot]) (by norm_num [Vec3.dot])
  exact ⟨w, h, h2⟩

end PI
