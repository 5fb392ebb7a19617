import Verif.Rot.Vector

/-!
# C80: rotated systems and rotated fields
-/

namespace PI

open Matrix

variable {N : ℕ}

/-! ## Tensor operators -/

/-- The Wigner-Eckart form of matrix elements: a factor that does not depend on the magnetic quantum numbers times the angular factor of rank κ. -/
structure WignerEckart (st : Fin N → Option QN) (κ : ℕ) (f ρ : QN → QN → ℝ) : Prop where
  eq : ∀ i j a b, st i = some a → st j = some b → f a b = ρ a b * angularSpec κ a.j b.j a.m b.m
  indep : ∀ a b m m', ρ { a with m := m } { b with m := m' } = ρ a b

theorem rotSymMat_sum_left (st : Fin N → Option QN) (hst : RotStates st) (hz : AllZeeman st) (g : M2) (r : Fin N) (a : QN) (ha : st r = some a)
    (X : Fin N → ℂ) (G : QN → ℂ) (hX : ∀ k d, st k = some d → X k = G d) :
    ∑ k, rotSymMat st g r k * X k = ∑ l ∈ Finset.range (a.j.toNat + 1), g.sym a.j.toNat a.idx l * G { a with m := a.j - 2 * l } := by
  have h := sum_multiplet st hst hz r a ha fun d => g.sym a.j.toNat a.idx d.idx * G d
  simp only [idx_level] at h
  rw [← h]
  refine Finset.sum_congr rfl fun k _ => ?_
  unfold rotSymMat
  rw [ha]
  cases hk : st k with
  | none => simp
  | some d =>
    dsimp only
    rw [hX k d hk]
    by_cases h' : d = { a with m := d.m }
    · rw [if_pos h']
      have hj : d.j = a.j := by rw [h']
      unfold rotSym
      rw [if_pos (same_level_symm h'), hj]
    · rw [if_neg h']
      unfold rotSym
      rw [if_neg fun h2 => h' (same_level_symm h2), zero_mul]

theorem rotSymMat_sum_right (st : Fin N → Option QN) (hst : RotStates st) (hz : AllZeeman st) (g : M2) (c : Fin N) (b : QN) (hb : st c = some b)
    (X : Fin N → ℂ) (G : QN → ℂ) (hX : ∀ k d, st k = some d → X k = G d) :
    ∑ k, X k * (rotSymMat st g)ᴴ k c = ∑ l ∈ Finset.range (b.j.toNat + 1), G { b with m := b.j - 2 * l } * (starRingEnd ℂ) (g.sym b.j.toNat b.idx l) := by
  have h := rotSymMat_sum_left st hst hz g c b hb (fun k => (starRingEnd ℂ) (X k)) (fun d => (starRingEnd ℂ) (G d)) (by
    intro k d hk; rw [hX k d hk])
  have h' := congrArg (starRingEnd ℂ) h
  simp only [map_sum, map_mul, Complex.conj_conj] at h'
  refine Eq.trans (Finset.sum_congr rfl fun k _ => ?_) (h'.trans (Finset.sum_congr rfl fun l _ => mul_comm _ _))
  rw [Matrix.conjTranspose_apply, mul_comm]; rfl

/-- An element of a tensor operator. -/
noncomputable def tensorElt (f : QN → QN → ℝ) (q : ℤ) (a b : QN) : ℂ := if a.m - b.m = 2 * q then (f a b : ℂ) else 0

theorem tensorMat_elt (st : Fin N → Option QN) (f : QN → QN → ℝ) (q : ℤ) (r c : Fin N) (a b : QN) (ha : st r = some a) (hb : st c = some b) :
    tensorMat st f q r c = tensorElt f q a b := by
  unfold tensorMat tensorElt; rw [ha, hb]

theorem tensorElt_ang (f : QN → QN → ℝ) (κ q : ℕ) (ρ : ℝ) (a b : QN) (a0 : 0 ≤ a.j) (am : IsM a.j a.m) (b0 : 0 ≤ b.j) (bm : IsM b.j b.m)
    (hf : f a b = ρ * angularSpec κ a.j b.j a.m b.m) :
    tensorElt f ((κ : ℤ) - q) a b = ρ * angN a.j.toNat (2 * κ) b.j.toNat a.idx q b.idx := by
  obtain ⟨a1, a2⟩ := QN.idx_spec a0 am
  obtain ⟨b1, b2⟩ := QN.idx_spec b0 bm
  have ja : ((a.j.toNat : ℕ) : ℤ) = a.j := by omega
  have jb : ((b.j.toNat : ℕ) : ℤ) = b.j := by omega
  unfold tensorElt angN w3n
  rw [show ((a.j.toNat : ℕ) : ℤ) - 2 * ((a.j.toNat - a.idx : ℕ) : ℤ) = -a.m by omega, ← b2, ja, jb,
    show ((2 * κ : ℕ) : ℤ) - 2 * (q : ℤ) = 2 * ((κ : ℤ) - q) by push_cast; ring]
  by_cases hm : a.m - b.m = 2 * ((κ : ℤ) - q)
  · rw [if_pos hm, hf]
    unfold angularSpec
    rw [hm, show (a.j - a.m) / 2 = ((a.idx : ℕ) : ℤ) by omega, inv_sgn_nat]
    push_cast
    ring
  · rw [if_neg hm]
    have : w3j a.j ((2 * κ : ℕ) : ℤ) b.j (-a.m) (2 * ((κ : ℤ) - q)) b.m = 0 := by
      unfold w3j
      rw [if_neg]
      intro h
      exact hm (by have := h.1; omega)
    rw [this]; simp

theorem isM_level (a : QN) (l : ℕ) (a0 : 0 ≤ a.j) (hl : l ∈ Finset.range (a.j.toNat + 1)) :
    IsM ({ a with m := a.j - 2 * l } : QN).j ({ a with m := a.j - 2 * l } : QN).m := isM_of_index hl a0

/-- Tensor operators rotate with the matrix of their rank. -/
theorem tensor_rotate (st : Fin N → Option QN) (hst : RotStates st) (hz : AllZeeman st) {g : M2} (hg : g.SU) (κ : ℕ) (f ρ : QN → QN → ℝ)
    (hf : WignerEckart st κ f ρ) (p : ℕ) (hp : p ≤ 2 * κ) :
    rotSymMat st g * tensorMat st f ((κ : ℤ) - p) * (rotSymMat st g)ᴴ =
      ∑ q ∈ Finset.range (2 * κ + 1), g.sym (2 * κ) q p • tensorMat st f ((κ : ℤ) - q) := by
  ext r c
  obtain ⟨a, ha⟩ := hst.all r
  obtain ⟨b, hb⟩ := hst.all c
  obtain ⟨a0, _, am⟩ := hst.isM r a ha
  obtain ⟨b0, _, bm⟩ := hst.isM c b hb
  rw [Matrix.mul_apply]
  rw [rotSymMat_sum_right st hst hz g c b hb _ (fun d => ∑ l ∈ Finset.range (a.j.toNat + 1), g.sym a.j.toNat a.idx l *
    tensorElt f ((κ : ℤ) - p) { a with m := a.j - 2 * l } d)]
  swap
  · intro k d hk
    rw [Matrix.mul_apply]
    exact rotSymMat_sum_left st hst hz g r a ha _ (fun e => tensorElt f ((κ : ℤ) - p) e d) fun i e he => tensorMat_elt st f _ i k e d he hk
  rw [Matrix.sum_apply]
  have rhs : ∀ q ∈ Finset.range (2 * κ + 1), (g.sym (2 * κ) q p • tensorMat st f ((κ : ℤ) - q)) r c =
      ρ a b * (g.sym (2 * κ) q p * angN a.j.toNat (2 * κ) b.j.toNat a.idx q b.idx) := by
    intro q _
    rw [Matrix.smul_apply, tensorMat_elt st f _ r c a b ha hb, tensorElt_ang f κ q (ρ a b) a b a0 am b0 bm (hf.eq r c a b ha hb), smul_eq_mul]
    ring
  rw [Finset.sum_congr rfl rhs, ← Finset.mul_sum,
    ← angN_rotate hg a.j.toNat (2 * κ) b.j.toNat a.idx b.idx p (QN.idx_spec a0 am).1 (QN.idx_spec b0 bm).1 hp, Finset.sum_comm, Finset.mul_sum]
  refine Finset.sum_congr rfl fun lb hlb => ?_
  rw [Finset.sum_mul, Finset.mul_sum]
  refine Finset.sum_congr rfl fun la hla => ?_
  obtain ⟨i, hi⟩ := hz r a ha _ (isM_of_index hla a0)
  obtain ⟨k, hk⟩ := hz c b hb _ (isM_of_index hlb b0)
  rw [tensorElt_ang f κ p (ρ a b) { a with m := a.j - 2 * la } { b with m := b.j - 2 * lb } a0 (isM_level a la a0 hla) b0 (isM_level b lb b0 hlb)
    (by rw [hf.eq i k _ _ hi hk, hf.indep]), idx_level, idx_level]
  ring

end PI
