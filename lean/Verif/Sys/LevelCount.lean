import Mathlib.LinearAlgebra.FiniteDimensional.Lemmas
import Mathlib.LinearAlgebra.Matrix.ToLin
import Mathlib.Data.Matrix.ColumnRowPartitioned
import Mathlib.Analysis.Complex.Norm
import Mathlib.Data.Complex.BigOperators
import Mathlib.LinearAlgebra.Matrix.ConjTranspose
import Mathlib.Tactic.Linarith
import Mathlib.Tactic.LinearCombination

/-!
# Counting the levels of Hermitian matrices

`A * U = U * diagonal d` with a unitary `U` is what a diagonalization returns: `d` are the energies.
-/

namespace PI

open Matrix

variable {n m : Type} [Fintype n] [DecidableEq n] [Fintype m] [DecidableEq m]

/-- `U`, `d` are a complete set of orthonormal eigenvectors and the energies of `A`. -/
def Diagonalizes (A U : Matrix n n ℂ) (d : n → ℝ) : Prop :=
  Uᴴ * U = 1 ∧ A * U = U * Matrix.diagonal fun i => (d i : ℂ)

/-- The number of energies not above `E`. -/
noncomputable def levelsUpTo (d : n → ℝ) (E : ℝ) : ℕ := (Finset.univ.filter fun i => d i ≤ E).card

/-- The expectation value of `A` in the (not normalised) state `x`. -/
noncomputable def expect (A : Matrix n n ℂ) (x : n → ℂ) : ℝ := (star x ⬝ᵥ A *ᵥ x).re

/-- The squared norm of a state. -/
noncomputable def sqNorm (x : n → ℂ) : ℝ := (star x ⬝ᵥ x).re

theorem sqNorm_eq (x : n → ℂ) : sqNorm x = ∑ i, ‖x i‖ ^ 2 := by
  unfold sqNorm dotProduct
  rw [Complex.re_sum]
  refine Finset.sum_congr rfl fun i _ => ?_
  rw [Pi.star_apply, Complex.star_def, ← Complex.normSq_eq_conj_mul_self, Complex.ofReal_re, Complex.normSq_eq_norm_sq]

theorem sqNorm_nonneg (x : n → ℂ) : 0 ≤ sqNorm x := by
  rw [sqNorm_eq]
  exact Finset.sum_nonneg fun i _ => by positivity

theorem sqNorm_pos {x : n → ℂ} (h : x ≠ 0) : 0 < sqNorm x := by
  rw [sqNorm_eq]
  obtain ⟨i, hi⟩ := Function.ne_iff.1 h
  have hi' : 0 < ‖x i‖ := norm_pos_iff.2 hi
  exact Finset.sum_pos' (fun i _ => by positivity) ⟨i, Finset.mem_univ _, by positivity⟩

theorem expect_conj (A : Matrix n n ℂ) (W : Matrix n m ℂ) (x : m → ℂ) : expect (Wᴴ * A * W) x = expect A (W *ᵥ x) := by
  unfold expect
  rw [star_mulVec, ← dotProduct_mulVec, mulVec_mulVec, mulVec_mulVec, Matrix.mul_assoc]

theorem sqNorm_isometry (W : Matrix n m ℂ) (h : Wᴴ * W = 1) (x : m → ℂ) : sqNorm (W *ᵥ x) = sqNorm x := by
  unfold sqNorm
  rw [star_mulVec, ← dotProduct_mulVec, mulVec_mulVec, h, one_mulVec]

theorem expect_diagonal (d : n → ℝ) (x : n → ℂ) : expect (Matrix.diagonal fun i => (d i : ℂ)) x = ∑ i, d i * ‖x i‖ ^ 2 := by
  unfold expect dotProduct
  rw [Complex.re_sum]
  refine Finset.sum_congr rfl fun i _ => ?_
  rw [mulVec_diagonal, Pi.star_apply, Complex.star_def]
  have : (starRingEnd ℂ) (x i) * ((d i : ℂ) * x i) = (d i : ℂ) * ((starRingEnd ℂ) (x i) * x i) := by ring
  rw [this, ← Complex.normSq_eq_conj_mul_self, ← Complex.ofReal_mul, Complex.ofReal_re, Complex.normSq_eq_norm_sq]

/-- In the eigenbasis the expectation value is the mean of the energies. -/
theorem expect_eigen {A U : Matrix n n ℂ} {d : n → ℝ} (h : Diagonalizes A U d) (x : n → ℂ) :
    expect A (U *ᵥ x) = ∑ i, d i * ‖x i‖ ^ 2 := by
  rw [← expect_conj, Matrix.mul_assoc, h.2, ← Matrix.mul_assoc, h.1, Matrix.one_mul, expect_diagonal]

open Classical in
/-- Levels of two matrices: when expectation values in the small space are at least those in the large space up to `δ`, then the large space has at least as many levels
up to `E + δ` as the small one up to `E`. -/
theorem levels_compare {A U : Matrix n n ℂ} {B X : Matrix m m ℂ} {d : n → ℝ} {e : m → ℝ} (hA : Diagonalizes A U d) (hB : Diagonalizes B X e)
    (W : Matrix n m ℂ) (hW : Wᴴ * W = 1) (δ : ℝ) (hle : ∀ x, expect A (W *ᵥ x) ≤ expect B x + δ * sqNorm x) (E : ℝ) :
    levelsUpTo e E ≤ levelsUpTo d (E + δ) := by
  by_contra hlt
  push Not at hlt
  let F : ({i // e i ≤ E} ⊕ {j // ¬ d j ≤ E + δ} → ℂ) →ₗ[ℂ] (n → ℂ) :=
    { toFun := fun v => W *ᵥ X *ᵥ (fun i => if h : e i ≤ E then v (.inl ⟨i, h⟩) else 0) - U *ᵥ (fun j => if h : ¬ d j ≤ E + δ then v (.inr ⟨j, h⟩) else 0)
      map_add' := by
        intro v w
        have e1 : (fun i => if h : e i ≤ E then (v + w) (.inl ⟨i, h⟩) else 0) = (fun i => if h : e i ≤ E then v (.inl ⟨i, h⟩) else 0) +
            fun i => if h : e i ≤ E then w (.inl ⟨i, h⟩) else 0 := by
          funext i; by_cases h : e i ≤ E <;> simp [h]
        have e2 : (fun j => if h : ¬ d j ≤ E + δ then (v + w) (.inr ⟨j, h⟩) else 0) = (fun j => if h : ¬ d j ≤ E + δ then v (.inr ⟨j, h⟩) else 0) +
            fun j => if h : ¬ d j ≤ E + δ then w (.inr ⟨j, h⟩) else 0 := by
          funext j
          by_cases h : ¬ d j ≤ E + δ
          · simp only [dif_pos h, Pi.add_apply, Pi.smul_apply]
          · simp only [dif_neg h, Pi.add_apply, Pi.smul_apply, add_zero, smul_zero]
        rw [e1, e2, mulVec_add, mulVec_add, mulVec_add]
        abel
      map_smul' := by
        intro c v
        have e1 : (fun i => if h : e i ≤ E then (c • v) (.inl ⟨i, h⟩) else 0) = c • (fun i => if h : e i ≤ E then v (.inl ⟨i, h⟩) else 0) := by
          funext i; by_cases h : e i ≤ E <;> simp [h]
        have e2 : (fun j => if h : ¬ d j ≤ E + δ then (c • v) (.inr ⟨j, h⟩) else 0) = c • (fun j => if h : ¬ d j ≤ E + δ then v (.inr ⟨j, h⟩) else 0) := by
          funext j
          by_cases h : ¬ d j ≤ E + δ
          · simp only [dif_pos h, Pi.add_apply, Pi.smul_apply]
          · simp only [dif_neg h, Pi.add_apply, Pi.smul_apply, add_zero, smul_zero]
        rw [e1, e2, mulVec_smul, mulVec_smul, mulVec_smul, RingHom.id_apply, smul_sub] }
  have hdim : Module.finrank ℂ (n → ℂ) < Module.finrank ℂ ({i // e i ≤ E} ⊕ {j // ¬ d j ≤ E + δ} → ℂ) := by
    rw [Module.finrank_fintype_fun_eq_card, Module.finrank_fintype_fun_eq_card, Fintype.card_sum, Fintype.card_subtype, Fintype.card_subtype_compl, Fintype.card_subtype]
    unfold levelsUpTo at hlt
    have : (Finset.univ.filter fun i => d i ≤ E + δ).card ≤ Fintype.card n := Finset.card_le_univ _
    have h1 : (Finset.univ.filter fun i => d i ≤ E + δ).card < (Finset.univ.filter fun i => e i ≤ E).card := by convert hlt
    omega
  obtain ⟨v, hv, hv0⟩ := (Submodule.ne_bot_iff _).1 (LinearMap.ker_ne_bot_of_finrank_lt (f := F) hdim)
  let a : m → ℂ := fun i => if h : e i ≤ E then v (.inl ⟨i, h⟩) else 0
  let b : n → ℂ := fun j => if h : ¬ d j ≤ E + δ then v (.inr ⟨j, h⟩) else 0
  have hab : W *ᵥ X *ᵥ a = U *ᵥ b := sub_eq_zero.1 (LinearMap.mem_ker.1 hv)
  have hn : sqNorm a = sqNorm b := by
    rw [← sqNorm_isometry X hB.1 a, ← sqNorm_isometry W hW, hab, sqNorm_isometry U hA.1]
  have hb0 : b ≠ 0 := by
    intro hb
    have ha : a = 0 := by
      by_contra ha
      have := sqNorm_pos ha
      rw [hn, hb] at this
      simp [sqNorm] at this
    apply hv0
    funext x
    rcases x with ⟨i, hi⟩ | ⟨j, hj⟩
    · have := congrFun ha i
      simpa [a, hi] using this
    · have := congrFun hb j
      simp only [b] at this
      rw [dif_pos hj] at this
      exact this
  -- the energies
  have h1 : expect A (U *ᵥ b) > (E + δ) * sqNorm b := by
    rw [expect_eigen hA, sqNorm_eq, Finset.mul_sum]
    obtain ⟨j, hj⟩ := Function.ne_iff.1 hb0
    have hbz : ∀ j, d j ≤ E + δ → b j = 0 := by
      intro j hj
      simp only [b]
      rw [dif_neg (not_not.2 hj)]
    refine Finset.sum_lt_sum ?_ ⟨j, Finset.mem_univ _, ?_⟩
    · intro i _
      by_cases hi : d i ≤ E + δ
      · rw [hbz i hi]; simp
      · exact mul_le_mul_of_nonneg_right (le_of_lt (not_le.1 hi)) (by positivity)
    · have hj' : ¬ d j ≤ E + δ := fun h => hj (hbz j h)
      have : 0 < ‖b j‖ := norm_pos_iff.2 hj
      exact mul_lt_mul_of_pos_right (not_le.1 hj') (by positivity)
  have h2 : expect B (X *ᵥ a) ≤ E * sqNorm a := by
    rw [expect_eigen hB, sqNorm_eq, Finset.mul_sum]
    refine Finset.sum_le_sum fun i _ => ?_
    by_cases hi : e i ≤ E
    · exact mul_le_mul_of_nonneg_right hi (by positivity)
    · have : a i = 0 := by simp only [a]; rw [dif_neg hi]
      rw [this]; simp
  have h3 := hle (X *ᵥ a)
  rw [hab, sqNorm_isometry X hB.1] at h3
  rw [hn] at h2 h3
  nlinarith

/-- Interlacing: compressing a Hermitian matrix to a subspace removes levels but moves none past another; at most as many levels are lost as there are missing dimensions. -/
theorem levels_interlace {A U : Matrix n n ℂ} {B X : Matrix m m ℂ} {d : n → ℝ} {e : m → ℝ} (hA : Diagonalizes A U d) (hB : Diagonalizes B X e)
    (W : Matrix n m ℂ) (hW : Wᴴ * W = 1) (hc : B = Wᴴ * A * W) (E : ℝ) :
    levelsUpTo e E ≤ levelsUpTo d E ∧ levelsUpTo d E + Fintype.card m ≤ levelsUpTo e E + Fintype.card n := by
  constructor
  · have := levels_compare hA hB W hW 0 (fun x => by rw [hc, expect_conj]; simp) E
    rwa [add_zero] at this
  · -- the same for the levels above E: apply the first part to −A, −B with all thresholds below −E
    have hneg : ∀ {k : Type} [Fintype k] [DecidableEq k] {M V : Matrix k k ℂ} {f : k → ℝ}, Diagonalizes M V f → Diagonalizes (-M) V (fun i => -f i) := by
      intro k _ _ M V f h
      refine ⟨h.1, ?_⟩
      rw [Matrix.neg_mul, h.2, ← Matrix.mul_neg]
      congr 1
      ext i j
      by_cases hij : i = j
      · subst hij; simp
      · simp [hij]
    -- a threshold between E and the next level
    obtain ⟨ε, hε, hgap⟩ : ∃ ε > 0, ∀ i, e i ≤ E ∨ E + ε ≤ e i := by
      classical
      by_cases hne : (Finset.univ.filter fun i => E < e i).Nonempty
      · obtain ⟨i0, hi0, hmin⟩ := Finset.exists_min_image _ e hne
        rw [Finset.mem_filter] at hi0
        refine ⟨e i0 - E, sub_pos.2 hi0.2, fun i => ?_⟩
        by_cases h : e i ≤ E
        · exact Or.inl h
        · right
          have := hmin i (Finset.mem_filter.2 ⟨Finset.mem_univ _, not_le.1 h⟩)
          linarith
      · refine ⟨1, one_pos, fun i => ?_⟩
        left
        by_contra h
        exact hne ⟨i, Finset.mem_filter.2 ⟨Finset.mem_univ _, not_le.1 h⟩⟩
    have h := levels_compare (hneg hA) (hneg hB) W hW 0 (fun x => by
      rw [hc]
      have : -(Wᴴ * A * W) = Wᴴ * (-A) * W := by rw [Matrix.mul_neg, Matrix.neg_mul]
      rw [this, expect_conj]; simp) (-(E + ε))
    rw [add_zero] at h
    have c1 : levelsUpTo (fun i => -e i) (-(E + ε)) + levelsUpTo e E = Fintype.card m := by
      unfold levelsUpTo
      have : (Finset.univ.filter fun i => -e i ≤ -(E + ε)) = Finset.univ.filter fun i => ¬ e i ≤ E := by
        ext i
        simp only [Finset.mem_filter, Finset.mem_univ, true_and, neg_le_neg_iff, not_le]
        constructor
        · intro h; linarith
        · intro h
          rcases hgap i with h' | h'
          · linarith
          · exact h'
      rw [this, add_comm, Finset.card_filter_add_card_filter_not, Finset.card_univ]
    have c2 : levelsUpTo (fun i => -d i) (-(E + ε)) + levelsUpTo d E ≤ Fintype.card n := by
      unfold levelsUpTo
      rw [← Finset.card_union_of_disjoint]
      · exact Finset.card_le_univ _
      · rw [Finset.disjoint_left]
        intro i h1 h2
        simp only [Finset.mem_filter, Finset.mem_univ, true_and] at h1 h2
        linarith
    omega

end PI
