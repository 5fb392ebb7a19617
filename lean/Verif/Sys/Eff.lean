import Verif.Sys.EffModel
import Mathlib.Analysis.Matrix.Order
import Mathlib.LinearAlgebra.Matrix.Charpoly.Basic

/-!
# C82, C83: effective Hamiltonians and forgotten mixing
-/

namespace PI
open Matrix
open scoped ComplexOrder

variable {n k : Type} [Fintype n] [DecidableEq n] [Fintype k] [DecidableEq k]

/-! ## The principal square root of a unitary matrix -/

/-- Specification of the matrix square root: the unitary root whose Hermitian part is positive, that is the root all of whose eigenvalues have positive
real part. -/
structure PrincipalSqrt (A U : Matrix n n ℂ) : Prop where
  sq : U * U = A
  unit : U * Uᴴ = 1
  pos : (U + Uᴴ).PosDef

open scoped MatrixOrder in
theorem posSemidef_sq_inj {C D : Matrix n n ℂ} (hC : C.PosSemidef) (hD : D.PosSemidef) (h : C * C = D * D) : C = D := by
  have h1 := CFC.sqrt_unique h hC.nonneg
  have h2 := CFC.sqrt_unique (rfl : D * D = D * D) hD.nonneg
  exact h1.symm.trans h2

theorem principal_unique {A U W : Matrix n n ℂ} (hU : PrincipalSqrt A U) (hW : PrincipalSqrt A W) : U = W := by
  have u2 : Uᴴ * U = 1 := mul_eq_one_comm.1 hU.unit
  have w2 : Wᴴ * W = 1 := mul_eq_one_comm.1 hW.unit
  have key : ∀ X : Matrix n n ℂ, X * Xᴴ = 1 → Xᴴ * X = 1 → X * X = A → (X + Xᴴ) * (X + Xᴴ) = A + Aᴴ + 1 + 1 := by
    intro X h1 h2 h3
    rw [Matrix.add_mul, Matrix.mul_add, Matrix.mul_add, h1, h2, h3, ← h3, Matrix.conjTranspose_mul]
    abel
  have e : U + Uᴴ = W + Wᴴ :=
    posSemidef_sq_inj hU.pos.posSemidef hW.pos.posSemidef ((key U hU.unit u2 hU.sq).trans (key W hW.unit w2 hW.sq).symm)
  have f : U * (U + Uᴴ) = W * (U + Uᴴ) := by
    rw [Matrix.mul_add, hU.sq, hU.unit, e, Matrix.mul_add, hW.sq, hW.unit]
  have hi := hU.pos.isUnit
  exact hi.mul_right_cancel f

open scoped MatrixOrder in
theorem principal_exists {A : Matrix n n ℂ} (hA : A * Aᴴ = 1) (h1 : IsUnit (1 + A)) : ∃ U, PrincipalSqrt A U := by
  have hA' : Aᴴ * A = 1 := mul_eq_one_comm.1 hA
  set S : Matrix n n ℂ := (1 + A) * (1 + A)ᴴ with hS
  have hSe : S = 1 + A + Aᴴ + 1 := by
    rw [hS, Matrix.conjTranspose_add, Matrix.conjTranspose_one, Matrix.add_mul, Matrix.mul_add, Matrix.mul_add, hA, Matrix.one_mul, Matrix.mul_one,
      Matrix.one_mul]
    abel
  have hSpos : S.PosDef := by
    have := (Matrix.PosDef.one (n := n) (R := ℂ)).mul_mul_conjTranspose_same (B := 1 + A) (Matrix.vecMul_injective_of_isUnit h1)
    rwa [Matrix.mul_one] at this
  set C : Matrix n n ℂ := CFC.sqrt S with hC
  have hCC : C * C = S := CFC.sqrt_mul_sqrt_self S hSpos.posSemidef.nonneg
  have hCp : C.PosSemidef := (CFC.sqrt_nonneg S).posSemidef
  have hCu : IsUnit C := by
    have := hSpos.isUnit
    rw [← hCC] at this
    exact isUnit_of_mul_isUnit_left this
  have hCd : C.PosDef := hCp.posDef_iff_isUnit.2 hCu
  have hCA : A * C = C * A := by
    have e1 : (A * C * Aᴴ).PosSemidef := hCp.mul_mul_conjTranspose_same A
    have e2 : (A * C * Aᴴ) * (A * C * Aᴴ) = C * C := by
      have : (A * C * Aᴴ) * (A * C * Aᴴ) = A * C * (Aᴴ * A) * C * Aᴴ := by simp only [Matrix.mul_assoc]
      rw [this, hA', Matrix.mul_one, Matrix.mul_assoc A C C, hCC, hSe]
      have : A * (1 + A + Aᴴ + 1) * Aᴴ = (1 + A + Aᴴ + 1) * (A * Aᴴ) := by
        have : A * (1 + A + Aᴴ + 1) = (1 + A + Aᴴ + 1) * A := by
          simp only [Matrix.add_mul, Matrix.mul_add, Matrix.one_mul, Matrix.mul_one, hA, hA']
        rw [this, Matrix.mul_assoc]
      rw [this, hA, Matrix.mul_one]
    have e3 := posSemidef_sq_inj e1 hCp e2
    calc A * C = A * C * (Aᴴ * A) := by rw [hA', Matrix.mul_one]
      _ = (A * C * Aᴴ) * A := by simp only [Matrix.mul_assoc]
      _ = C * A := by rw [e3]
  have hCh : Cᴴ = C := hCp.isHermitian
  have hdet : IsUnit C.det := (Matrix.isUnit_iff_isUnit_det C).1 hCu
  have i1 : C⁻¹ * C = 1 := Matrix.nonsing_inv_mul C hdet
  have i2 : C * C⁻¹ = 1 := Matrix.mul_nonsing_inv C hdet
  have hih : (C⁻¹)ᴴ = C⁻¹ := by rw [Matrix.conjTranspose_nonsing_inv, hCh]
  have c1 : (1 + A) * C⁻¹ = C⁻¹ * (1 + A) := by
    have : C * (1 + A) = (1 + A) * C := by rw [Matrix.mul_add, Matrix.add_mul, hCA, Matrix.one_mul, Matrix.mul_one]
    calc (1 + A) * C⁻¹ = C⁻¹ * C * ((1 + A) * C⁻¹) := by rw [i1, Matrix.one_mul]
      _ = C⁻¹ * (C * (1 + A)) * C⁻¹ := by simp only [Matrix.mul_assoc]
      _ = C⁻¹ * (1 + A) * (C * C⁻¹) := by rw [this]; simp only [Matrix.mul_assoc]
      _ = C⁻¹ * (1 + A) := by rw [i2, Matrix.mul_one]
  have hUh : ((1 + A) * C⁻¹)ᴴ = (1 + Aᴴ) * C⁻¹ := by
    rw [c1, Matrix.conjTranspose_mul, hih, Matrix.conjTranspose_add, Matrix.conjTranspose_one]
  have hsum : (1 + A) * C⁻¹ + ((1 + A) * C⁻¹)ᴴ = C := by
    rw [hUh, ← Matrix.add_mul]
    have : (1 + A) + (1 + Aᴴ) = S := by rw [hSe]; abel
    rw [this, ← hCC, Matrix.mul_assoc, i2, Matrix.mul_one]
  have hunit : ((1 + A) * C⁻¹) * ((1 + A) * C⁻¹)ᴴ = 1 := by
    rw [Matrix.conjTranspose_mul, hih, c1]
    have : C⁻¹ * (1 + A) * (C⁻¹ * (1 + A)ᴴ) = C⁻¹ * ((1 + A) * C⁻¹) * (1 + A)ᴴ := by simp only [Matrix.mul_assoc]
    rw [this, c1]
    have : C⁻¹ * (C⁻¹ * (1 + A)) * (1 + A)ᴴ = C⁻¹ * (C⁻¹ * S) := by rw [hS]; simp only [Matrix.mul_assoc]
    rw [this, ← hCC, ← Matrix.mul_assoc C⁻¹ C C, i1, Matrix.one_mul, i1]
  refine ⟨(1 + A) * C⁻¹, ?_, hunit, ?_⟩
  · have e : A * ((1 + A) * C⁻¹)ᴴ = (1 + A) * C⁻¹ := by
      rw [hUh, ← Matrix.mul_assoc, Matrix.mul_add, Matrix.mul_one, hA, add_comm]
    calc ((1 + A) * C⁻¹) * ((1 + A) * C⁻¹) = A * ((1 + A) * C⁻¹)ᴴ * ((1 + A) * C⁻¹) := by rw [e]
      _ = A := by rw [Matrix.mul_assoc, mul_eq_one_comm.1 hunit, Matrix.mul_one]
  · rw [hsum]; exact hCd

theorem principal_conj {A U : Matrix n n ℂ} (h : PrincipalSqrt A U) : PrincipalSqrt Aᴴ Uᴴ := by
  refine ⟨?_, ?_, ?_⟩
  · rw [← h.sq, Matrix.conjTranspose_mul]
  · rw [Matrix.conjTranspose_conjTranspose]; exact mul_eq_one_comm.1 h.unit
  · rw [Matrix.conjTranspose_conjTranspose, add_comm]; exact h.pos

/-- A reflection that inverts A inverts the root of A. -/
theorem principal_reflect {A U R : Matrix n n ℂ} (h : PrincipalSqrt A U) (hR : Rᴴ = R) (hRR : R * R = 1) (hA : R * A * R = Aᴴ) : R * U * R = Uᴴ := by
  refine principal_unique (A := Aᴴ) ⟨?_, ?_, ?_⟩ (principal_conj h)
  · have : R * U * R * (R * U * R) = R * U * (R * R) * U * R := by simp only [Matrix.mul_assoc]
    rw [this, hRR, Matrix.mul_one, Matrix.mul_assoc R U U, h.sq, hA]
  · rw [Matrix.conjTranspose_mul, Matrix.conjTranspose_mul, hR]
    have : R * U * R * (R * (Uᴴ * R)) = R * U * (R * R) * Uᴴ * R := by simp only [Matrix.mul_assoc]
    rw [this, hRR, Matrix.mul_one, Matrix.mul_assoc R U, h.unit, Matrix.mul_one, hRR]
  · have e : R * U * R + (R * U * R)ᴴ = R * (U + Uᴴ) * Rᴴ := by
      rw [Matrix.conjTranspose_mul, Matrix.conjTranspose_mul, hR, Matrix.mul_add, Matrix.add_mul]
      simp only [Matrix.mul_assoc]
    rw [e]
    exact h.pos.mul_mul_conjTranspose_same (Matrix.vecMul_injective_of_isUnit (IsUnit.of_mul_eq_one R hRR))

/-! ## The direct rotation between two subspaces -/

section Direct
variable {k0 : Type} [Fintype k0] [DecidableEq k0] {B B0 : Matrix n k0 ℂ}

/-- The reflection about the complement of the space spanned by B. -/
noncomputable def reflOf (B : Matrix n k0 ℂ) : Matrix n n ℂ := 1 - (2 : ℂ) • (B * Bᴴ)

theorem reflOf_herm (B : Matrix n k0 ℂ) : (reflOf B)ᴴ = reflOf B := by
  unfold reflOf
  rw [Matrix.conjTranspose_sub, Matrix.conjTranspose_one, Matrix.conjTranspose_smul, Matrix.conjTranspose_mul, Matrix.conjTranspose_conjTranspose]
  simp

theorem proj_idem (hB : Bᴴ * B = 1) : B * Bᴴ * (B * Bᴴ) = B * Bᴴ := by
  have : B * Bᴴ * (B * Bᴴ) = B * (Bᴴ * B) * Bᴴ := by simp only [Matrix.mul_assoc]
  rw [this, hB, Matrix.mul_one]

theorem reflOf_sq (hB : Bᴴ * B = 1) : reflOf B * reflOf B = 1 := by
  unfold reflOf
  rw [Matrix.sub_mul, Matrix.mul_sub, Matrix.mul_sub, Matrix.one_mul, Matrix.mul_one, Matrix.one_mul, Matrix.smul_mul, Matrix.mul_smul, proj_idem hB]
  module

theorem refl_prod_unit (hB : Bᴴ * B = 1) (hB0 : B0ᴴ * B0 = 1) : reflOf B0 * reflOf B * (reflOf B0 * reflOf B)ᴴ = 1 := by
  rw [Matrix.conjTranspose_mul, reflOf_herm, reflOf_herm]
  have : reflOf B0 * reflOf B * (reflOf B * reflOf B0) = reflOf B0 * (reflOf B * reflOf B) * reflOf B0 := by simp only [Matrix.mul_assoc]
  rw [this, reflOf_sq hB, Matrix.mul_one, reflOf_sq hB0]

/-- If no vector of one subspace is orthogonal to the other one, the product of the reflections has no eigenvalue −1. -/
theorem refl_prod_root (hB : Bᴴ * B = 1) (hB0 : B0ᴴ * B0 = 1) (h : IsUnit (B0ᴴ * B)) : IsUnit (1 + reflOf B0 * reflOf B) := by
  rw [← Matrix.mulVec_injective_iff_isUnit]
  have h' : IsUnit (Bᴴ * B0) := by
    have e : Bᴴ * B0 = (B0ᴴ * B)ᴴ := by rw [Matrix.conjTranspose_mul, Matrix.conjTranspose_conjTranspose]
    rw [e, Matrix.isUnit_iff_isUnit_det, Matrix.det_conjTranspose]
    exact ((Matrix.isUnit_iff_isUnit_det _).1 h).star
  intro x y hxy
  rw [← sub_eq_zero]
  have hz : (1 + reflOf B0 * reflOf B) *ᵥ (x - y) = 0 := by
    have := sub_eq_zero.2 hxy
    rwa [← Matrix.mulVec_sub] at this
  set z := x - y
  -- R z = −R0 z
  have h1 : reflOf B *ᵥ z = -(reflOf B0 *ᵥ z) := by
    rw [Matrix.add_mulVec, Matrix.one_mulVec] at hz
    have : reflOf B0 *ᵥ z + reflOf B0 *ᵥ ((reflOf B0 * reflOf B) *ᵥ z) = 0 := by rw [← Matrix.mulVec_add, hz, Matrix.mulVec_zero]
    rw [Matrix.mulVec_mulVec, ← Matrix.mul_assoc, reflOf_sq hB0, Matrix.one_mul] at this
    rw [eq_neg_iff_add_eq_zero, add_comm]; exact this
  have h2 : z = (B * Bᴴ) *ᵥ z + (B0 * B0ᴴ) *ᵥ z := by
    unfold reflOf at h1
    rw [Matrix.sub_mulVec, Matrix.sub_mulVec, Matrix.one_mulVec, Matrix.smul_mulVec, Matrix.smul_mulVec] at h1
    have h3 : (2 : ℂ) • z = (2 : ℂ) • ((B * Bᴴ) *ᵥ z + (B0 * B0ᴴ) *ᵥ z) := by
      rw [smul_add, two_smul ℂ z]
      have : z + z - (2 : ℂ) • ((B * Bᴴ) *ᵥ z) - (2 : ℂ) • ((B0 * B0ᴴ) *ᵥ z) = 0 := by
        have := sub_eq_zero.2 h1
        rw [← this]; abel
      rw [sub_sub, sub_eq_zero] at this
      exact this
    exact smul_right_injective _ (two_ne_zero : (2 : ℂ) ≠ 0) h3
  have a1 : Bᴴ *ᵥ z = 0 := by
    have e : B0ᴴ *ᵥ z = B0ᴴ *ᵥ ((B * Bᴴ) *ᵥ z) + B0ᴴ *ᵥ z := by
      conv_lhs => rw [h2]
      rw [Matrix.mulVec_add, Matrix.mulVec_mulVec (v := z) (M := B0ᴴ) (N := B0 * B0ᴴ), ← Matrix.mul_assoc B0ᴴ B0, hB0, Matrix.one_mul]
    have e2 : (B0ᴴ * B) *ᵥ (Bᴴ *ᵥ z) = 0 := by
      have := left_eq_add.1 (e.trans (add_comm _ _))
      rw [Matrix.mulVec_mulVec] at this ⊢
      rwa [← Matrix.mul_assoc] at this
    exact Matrix.mulVec_injective_of_isUnit h (e2.trans (Matrix.mulVec_zero _).symm)
  have a2 : B0ᴴ *ᵥ z = 0 := by
    have e : Bᴴ *ᵥ z = Bᴴ *ᵥ z + Bᴴ *ᵥ ((B0 * B0ᴴ) *ᵥ z) := by
      conv_lhs => rw [h2]
      rw [Matrix.mulVec_add, Matrix.mulVec_mulVec (v := z) (M := Bᴴ) (N := B * Bᴴ), ← Matrix.mul_assoc Bᴴ B, hB, Matrix.one_mul]
    have e2 : (Bᴴ * B0) *ᵥ (B0ᴴ *ᵥ z) = 0 := by
      have := left_eq_add.1 e
      rw [Matrix.mulVec_mulVec] at this ⊢
      rwa [← Matrix.mul_assoc] at this
    exact Matrix.mulVec_injective_of_isUnit h' (e2.trans (Matrix.mulVec_zero _).symm)
  rw [h2, ← Matrix.mulVec_mulVec, ← Matrix.mulVec_mulVec, a1, a2, Matrix.mulVec_zero, Matrix.mulVec_zero, add_zero]

/-- The root of the product of the reflections rotates one subspace onto the other. -/
theorem direct_rotation (hB : Bᴴ * B = 1) (hB0 : B0ᴴ * B0 = 1) {U : Matrix n n ℂ} (hU : PrincipalSqrt (reflOf B0 * reflOf B) U) :
    U * (B * Bᴴ) * Uᴴ = B0 * B0ᴴ ∧ (B0ᴴ * Uᴴ * B0).PosDef := by
  have r1 : reflOf B * U * reflOf B = Uᴴ := by
    refine principal_reflect hU (reflOf_herm B) (reflOf_sq hB) ?_
    rw [Matrix.conjTranspose_mul, reflOf_herm, reflOf_herm]
    simp only [Matrix.mul_assoc, reflOf_sq hB, Matrix.mul_one]
  have r0 : reflOf B0 * U * reflOf B0 = Uᴴ := by
    refine principal_reflect hU (reflOf_herm B0) (reflOf_sq hB0) ?_
    rw [Matrix.conjTranspose_mul, reflOf_herm, reflOf_herm, ← Matrix.mul_assoc, reflOf_sq hB0, Matrix.one_mul]
  constructor
  · have e : U * reflOf B * Uᴴ = reflOf B0 := by
      rw [← r1]
      have : U * reflOf B * (reflOf B * U * reflOf B) = U * (reflOf B * reflOf B) * U * reflOf B := by simp only [Matrix.mul_assoc]
      rw [this, reflOf_sq hB, Matrix.mul_one, hU.sq, Matrix.mul_assoc, reflOf_sq hB, Matrix.mul_one]
    unfold reflOf at e
    rw [Matrix.mul_sub, Matrix.sub_mul, Matrix.mul_one, hU.unit, Matrix.mul_smul, Matrix.smul_mul] at e
    have := sub_right_injective e
    exact smul_right_injective _ (two_ne_zero : (2 : ℂ) ≠ 0) this
  · have b0 : reflOf B0 * B0 = -B0 := by
      unfold reflOf
      rw [Matrix.sub_mul, Matrix.one_mul, Matrix.smul_mul, Matrix.mul_assoc, hB0, Matrix.mul_one]
      module
    have b1 : B0ᴴ * reflOf B0 = -B0ᴴ := by
      have := congrArg Matrix.conjTranspose b0
      rwa [Matrix.conjTranspose_mul, reflOf_herm, Matrix.conjTranspose_neg] at this
    have e : B0ᴴ * U * B0 = B0ᴴ * Uᴴ * B0 := by
      conv_rhs => rw [← r0]
      have : B0ᴴ * (reflOf B0 * U * reflOf B0) * B0 = (B0ᴴ * reflOf B0) * U * (reflOf B0 * B0) := by simp only [Matrix.mul_assoc]
      rw [this, b0, b1]
      simp
    have f : (2 : ℂ) • (B0ᴴ * Uᴴ * B0) = B0ᴴ * (U + Uᴴ) * B0 := by
      rw [Matrix.mul_add, Matrix.add_mul, e, two_smul]
    have g : B0ᴴ * Uᴴ * B0 = (2⁻¹ : ℂ) • (B0ᴴ * (U + Uᴴ) * B0) := by rw [← f, smul_smul]; norm_num
    rw [g]
    refine Matrix.PosDef.smul (hU.pos.conjTranspose_mul_mul_same ?_) (by simp [Complex.zero_lt_real] )
    intro x y hxy
    have := congrArg (B0ᴴ *ᵥ ·) hxy
    simpa only [Matrix.mulVec_mulVec, hB0, Matrix.one_mulVec] using this

end Direct

end PI
