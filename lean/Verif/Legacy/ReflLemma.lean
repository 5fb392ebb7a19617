import Verif.Legacy.BlockLemma

/-!
# Splitting a matrix with an involution that exchanges two halves of the indices
-/

namespace PI

open Matrix

/-- The matrix between the vectors (1 + ε ω) / √2. -/
noncomputable def halfMat {P : Type} [Fintype P] [DecidableEq P] (G ω : Matrix P P ℂ) (ε : ℂ) : Matrix P P ℂ := (1 / 2 : ℂ) • ((1 + ε • ω) * G * (1 + ε • ω))

/-- The characteristic polynomial of a matrix that commutes with an involution is the product of those on the symmetric and the antisymmetric vectors of one half. -/
theorem refl_split_all {P : Type} [Fintype P] [DecidableEq P] (G ω : Matrix P P ℂ) (pos : P → Prop) [DecidablePred pos] (h1 : ω * ω = 1) (h2 : G * ω = ω * G)
    (h3 : ∀ p q, ω p q ≠ 0 → (pos p ↔ ¬ pos q)) :
    G.charpoly = (subMat (halfMat G ω 1) pos).charpoly * (subMat (halfMat G ω (-1)) pos).charpoly := by
  classical
  have hne := sqrt2_ne
  have hsq := sqrt2_sq
  set c : ℂ := ((Real.sqrt 2 : ℝ) : ℂ) with hc
  have hcc : c⁻¹ * c⁻¹ = 1 / 2 := by
    rw [← mul_inv, hsq]; norm_num
  clear_value c
  set S : Matrix P ({p // pos p} ⊕ {p // pos p}) ℂ := of fun r x => Sum.elim (fun p => c⁻¹ * (1 + ω) r p.1) (fun p => c⁻¹ * (1 - ω) r p.1) x with hS
  set T : Matrix ({p // pos p} ⊕ {p // pos p}) P ℂ := of fun x r => Sum.elim (fun p => c⁻¹ * (1 + ω) p.1 r) (fun p => c⁻¹ * (1 - ω) p.1 r) x with hT
  have Sl : ∀ r p, S r (.inl p) = c⁻¹ * (1 + ω) r p.1 := fun _ _ => rfl
  have Sr : ∀ r p, S r (.inr p) = c⁻¹ * (1 - ω) r p.1 := fun _ _ => rfl
  have Tl : ∀ r p, T (.inl p) r = c⁻¹ * (1 + ω) p.1 r := fun _ _ => rfl
  have Tr : ∀ r p, T (.inr p) r = c⁻¹ * (1 - ω) p.1 r := fun _ _ => rfl
  clear_value S T
  have zero : ∀ p q, pos p → pos q → ω p q = 0 := by
    intro p q hp hq
    by_contra h
    exact (h3 p q h).mp hp hq
  -- the general product
  have prod : ∀ (X Y Z : Matrix P P ℂ) (p q : P), ∑ r, (∑ t, c⁻¹ * X p t * Y t r) * (c⁻¹ * Z r q) = 1 / 2 * (X * Y * Z) p q := by
    intro X Y Z p q
    rw [mul_apply, Finset.mul_sum]
    refine Finset.sum_congr rfl fun r _ => ?_
    rw [mul_apply, ← hcc, Finset.sum_mul, Finset.sum_mul, Finset.mul_sum]
    refine Finset.sum_congr rfl fun t _ => ?_
    ring
  have TGS : ∀ (Y : Matrix P P ℂ), T * Y * S = fromBlocks (subMat ((1 / 2 : ℂ) • ((1 + ω) * Y * (1 + ω))) pos) (subMat ((1 / 2 : ℂ) • ((1 + ω) * Y * (1 - ω))) pos)
      (subMat ((1 / 2 : ℂ) • ((1 - ω) * Y * (1 + ω))) pos) (subMat ((1 / 2 : ℂ) • ((1 - ω) * Y * (1 - ω))) pos) := by
    intro Y
    ext a b
    rw [mul_apply]
    simp only [mul_apply (M := T)]
    rcases a with a | a <;> rcases b with b | b <;> simp only [Sl, Sr, Tl, Tr, prod] <;> rfl
  have e11 : (1 + ω) * (1 + ω) = (2 : ℂ) • (1 + ω) := by
    rw [add_mul, mul_add, mul_add, h1]; simp only [one_mul, mul_one]; rw [two_smul]; abel
  have e22 : (1 - ω) * (1 - ω) = (2 : ℂ) • (1 - ω) := by
    rw [sub_mul, mul_sub, mul_sub, h1]; simp only [one_mul, mul_one]; rw [two_smul]; abel
  have e12 : (1 + ω) * (1 - ω) = 0 := by
    rw [add_mul, mul_sub, mul_sub, h1]; simp only [one_mul, mul_one]; abel
  have e21 : (1 - ω) * (1 + ω) = 0 := by
    rw [sub_mul, mul_add, mul_add, h1]; simp only [one_mul, mul_one]; abel
  have k1 : T * S = 1 := by
    have := TGS 1
    rw [Matrix.mul_one, Matrix.mul_one, Matrix.mul_one, e11, e22, e12, e21] at this
    rw [this, ← fromBlocks_one]
    have sub1 : ∀ (X : Matrix P P ℂ), (∀ p q, pos p → pos q → X p q = if p = q then 1 else 0) → subMat X pos = (1 : Matrix {p // pos p} {p // pos p} ℂ) := by
      intro X hX
      ext p q
      show X p.1 q.1 = _
      rw [hX p.1 q.1 p.2 q.2, one_apply]
      simp only [Subtype.ext_iff]
    congr 1
    · refine sub1 _ fun p q hp hq => ?_
      show (1 / 2 : ℂ) * (2 * ((1 : Matrix P P ℂ) p q + ω p q)) = _
      rw [zero p q hp hq, one_apply, add_zero, ← mul_assoc]; norm_num
    · ext p q
      show ((1 / 2 : ℂ) • (0 : Matrix P P ℂ)) p.1 q.1 = 0
      simp
    · ext p q
      show ((1 / 2 : ℂ) • (0 : Matrix P P ℂ)) p.1 q.1 = 0
      simp
    · refine sub1 _ fun p q hp hq => ?_
      show (1 / 2 : ℂ) * (2 * ((1 : Matrix P P ℂ) p q - ω p q)) = _
      rw [zero p q hp hq, one_apply, sub_zero, ← mul_assoc]; norm_num
  have k2 : S * T = 1 := by
    ext r t
    rw [mul_apply, Fintype.sum_sum_type]
    simp only [Sl, Sr, Tl, Tr]
    rw [← Finset.sum_add_distrib]
    have : ∀ p : {p // pos p}, c⁻¹ * (1 + ω) r p.1 * (c⁻¹ * (1 + ω) p.1 t) + c⁻¹ * (1 - ω) r p.1 * (c⁻¹ * (1 - ω) p.1 t) =
        (1 : Matrix P P ℂ) r p.1 * (1 : Matrix P P ℂ) p.1 t + ω r p.1 * ω p.1 t := by
      intro p
      simp only [Matrix.add_apply, Matrix.sub_apply]
      linear_combination (2 * ((1 : Matrix P P ℂ) r p.1 * (1 : Matrix P P ℂ) p.1 t + ω r p.1 * ω p.1 t)) * hcc
    simp only [this]
    rw [Finset.sum_add_distrib]
    have s1 : ∀ f : P → ℂ, ∑ p : {p // pos p}, f p.1 = ∑ p, if pos p then f p else 0 := by
      intro f
      rw [← Finset.sum_filter]
      exact (Finset.sum_subtype (Finset.univ.filter pos) (by simp) f).symm
    rw [s1 fun p => (1 : Matrix P P ℂ) r p * (1 : Matrix P P ℂ) p t, s1 fun p => ω r p * ω p t]
    have w : ∑ p, (if pos p then ω r p * ω p t else 0) = if pos r then 0 else (1 : Matrix P P ℂ) r t := by
      by_cases hr : pos r
      · rw [if_pos hr]
        refine Finset.sum_eq_zero fun p _ => ?_
        by_cases hp : pos p
        · rw [if_pos hp, zero r p hr hp, zero_mul]
        · rw [if_neg hp]
      · rw [if_neg hr, ← h1, mul_apply]
        refine Finset.sum_congr rfl fun p _ => ?_
        by_cases hp : pos p
        · rw [if_pos hp]
        · rw [if_neg hp]
          by_cases hz : ω r p = 0
          · rw [hz, zero_mul]
          · exact absurd ((h3 r p hz).mpr hp) hr
    have o : ∑ p, (if pos p then (1 : Matrix P P ℂ) r p * (1 : Matrix P P ℂ) p t else 0) = if pos r then (1 : Matrix P P ℂ) r t else 0 := by
      rw [Finset.sum_eq_single r]
      · by_cases hr : pos r
        · simp [hr]
        · simp [hr]
      · intro p _ hp
        rw [one_apply_ne (Ne.symm hp)]
        simp
      · simp
    rw [w, o]
    by_cases hr : pos r
    · simp [hr]
    · simp [hr]
  have hcard : Fintype.card ({p // pos p} ⊕ {p // pos p}) = Fintype.card P := by
    have t := Matrix.trace_mul_comm T S
    rw [k1, k2, trace_one, trace_one] at t
    exact_mod_cast t
  have com : G * (1 - ω) = (1 - ω) * G := by rw [mul_sub, sub_mul, h2]; simp
  have com' : G * (1 + ω) = (1 + ω) * G := by rw [mul_add, add_mul, h2]; simp
  have key : T * G * S = fromBlocks (subMat (halfMat G ω 1) pos) 0 0 (subMat (halfMat G ω (-1)) pos) := by
    rw [TGS G]
    unfold halfMat
    rw [one_smul, neg_one_smul, ← sub_eq_add_neg]
    congr 1
    · rw [Matrix.mul_assoc, com, ← Matrix.mul_assoc, e12]
      ext p q
      rw [Matrix.zero_mul]
      exact mul_zero _
    · rw [Matrix.mul_assoc, com', ← Matrix.mul_assoc, e21]
      ext p q
      rw [Matrix.zero_mul]
      exact mul_zero _
  rw [← charpoly_fromBlocks_zero₂₁ _ 0, ← key, Matrix.mul_assoc, charpoly_mul_comm_of_le _ _ hcard.ge, hcard, Nat.sub_self, pow_zero, one_mul, Matrix.mul_assoc, k2, Matrix.mul_one]

/-- The same on a set of indices that the involution maps to itself. -/
theorem refl_split {P : Type} [Fintype P] [DecidableEq P] (G ω : Matrix P P ℂ) (K pos : P → Prop) [Fintype {p // K p}] [Fintype {p // K p ∧ pos p}] (h1 : ω * ω = 1)
    (h2 : G * ω = ω * G) (h3 : ∀ p q, ω p q ≠ 0 → (pos p ↔ ¬ pos q)) (h4 : ∀ p q, ω p q ≠ 0 → (K p ↔ K q)) :
    (subMat G K).charpoly = (subMat (halfMat G ω 1) fun p => K p ∧ pos p).charpoly * (subMat (halfMat G ω (-1)) fun p => K p ∧ pos p).charpoly := by
  classical
  have s1 : ∀ f : P → ℂ, (∀ p, ¬ K p → f p = 0) → ∑ p : {p // K p}, f p.1 = ∑ p, f p := by
    intro f hf
    rw [← Finset.sum_subtype (Finset.univ.filter K) (by simp) f, Finset.sum_filter]
    refine Finset.sum_congr rfl fun p _ => ?_
    by_cases h : K p
    · rw [if_pos h]
    · rw [if_neg h, hf p h]
  have out : ∀ p q, K p → ¬ K q → ω p q = 0 := by
    intro p q hp hq
    by_contra h
    exact hq ((h4 p q h).mp hp)
  have out' : ∀ p q, ¬ K p → K q → ω p q = 0 := by
    intro p q hp hq
    by_contra h
    exact hp ((h4 p q h).mpr hq)
  have mulL : ∀ X : Matrix P P ℂ, (subMat ω K : Matrix {p // K p} {p // K p} ℂ) * subMat X K = subMat (ω * X) K := by
    intro X
    ext p q
    show ∑ r : {p // K p}, ω p.1 r.1 * X r.1 q.1 = (ω * X) p.1 q.1
    rw [mul_apply]
    exact s1 (fun r => ω p.1 r * X r q.1) fun r hr => by rw [out p.1 r p.2 hr, zero_mul]
  have mulR : ∀ X : Matrix P P ℂ, (subMat X K : Matrix {p // K p} {p // K p} ℂ) * subMat ω K = subMat (X * ω) K := by
    intro X
    ext p q
    show ∑ r : {p // K p}, X p.1 r.1 * ω r.1 q.1 = (X * ω) p.1 q.1
    rw [mul_apply]
    exact s1 (fun r => X p.1 r * ω r q.1) fun r hr => by rw [out' r q.1 hr q.2, mul_zero]
  have one : (subMat (1 : Matrix P P ℂ) K : Matrix {p // K p} {p // K p} ℂ) = 1 := by
    ext p q
    show (1 : Matrix P P ℂ) p.1 q.1 = _
    rw [one_apply, one_apply]
    simp only [Subtype.ext_iff]
  have add : ∀ X Y : Matrix P P ℂ, (subMat (X + Y) K : Matrix {p // K p} {p // K p} ℂ) = subMat X K + subMat Y K := fun _ _ => rfl
  have smul : ∀ (a : ℂ) (X : Matrix P P ℂ), (subMat (a • X) K : Matrix {p // K p} {p // K p} ℂ) = a • subMat X K := fun _ _ => rfl
  have half : ∀ ε : ℂ, halfMat (subMat G K : Matrix {p // K p} {p // K p} ℂ) (subMat ω K) ε = subMat (halfMat G ω ε) K := by
    intro ε
    unfold halfMat
    rw [smul]
    congr 1
    simp only [Matrix.add_mul, Matrix.mul_add, Matrix.one_mul, Matrix.mul_one, smul_mul_assoc, mul_smul_comm, add, smul, mulL, mulR]
  have fin : ∀ ε : ℂ, (subMat (halfMat (subMat G K : Matrix {p // K p} {p // K p} ℂ) (subMat ω K) ε) fun p : {p // K p} => pos p.1).charpoly =
      (subMat (halfMat G ω ε) fun p => K p ∧ pos p).charpoly := by
    intro ε
    rw [half, ← Matrix.charpoly_reindex (Equiv.subtypeSubtypeEquivSubtypeInter K pos)]
    congr 1
  rw [refl_split_all (subMat G K) (subMat ω K) (fun p => pos p.1) (by rw [mulL, h1, one]) (by rw [mulL, mulR, h2]) (fun p q h => h3 p.1 q.1 h), fin, fin]

end PI
