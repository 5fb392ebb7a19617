import Verif.Legacy.Sector

/-! # The necessary states of a pair calculation: on the vectors of a block they are decided by `sametrafo` and the parity alone -/

namespace PI

open Classical in
theorem tripletSum_ne {t : List (Option ℕ × ℂ)} {i : ℕ} (h : tripletSum t i ≠ 0) : ∃ x ∈ t, x.1 = some i := by
  by_contra hn
  push Not at hn
  apply h
  unfold tripletSum
  rw [List.filter_eq_nil_iff.2 fun x hx => by simpa using hn x hx]
  rfl

/-- Where a column of a block is not zero. -/
theorem combine_support (sym : OldSym) (hr : sym.reflection = none) {n1 n2 : ℕ} (s1 : Fin n1 → Old1) (s2 : Fin n2 → Old1) (A : OldOne n1) (B : OldOne n2) (deltaE : ℝ)
    (cols : List (ℝ × (Fin (n1 * n2) → ℂ))) (h : oldCombine sym s1 s2 A B deltaE = .ok cols) (col : ℝ × (Fin (n1 * n2) → ℂ)) (hc : col ∈ cols) (i : Fin (n1 * n2))
    (hi : col.2 i ≠ 0) :
    ∃ (p : Fin A.nb × Fin B.nb) (r1 : Fin n1) (r2 : Fin n2), ¬ sym.skips p.1 p.2 ∧ inCutoff deltaE (A.diag p.1 + B.diag p.2) ∧ A.basis r1 p.1 ≠ 0 ∧ B.basis r2 p.2 ≠ 0 ∧
      (sym.rotation ≠ none → sym.rotation.map (2 * ·) = some ((s1 r1).m + (s2 r2).m)) ∧
      (sym.inversion ≠ none → sym.permutation ≠ none → (p.1 : ℕ) ≠ p.2 → sym.invSign (s1 r1, s2 r2) = sym.perSign) ∧
      ((i : ℕ) = n2 * r1 + r2 ∨ (sym.inversion ≠ none ∨ sym.permutation ≠ none) ∧ (i : ℕ) = n2 * r2 + r1) := by
  classical
  unfold oldCombine at h
  dsimp only at h
  by_cases hif : ∀ c ∈ (((oldPairIdx A.nb B.nb).filter fun p => ¬ sym.skips p.1 p.2 ∧ inCutoff deltaE (A.diag p.1 + B.diag p.2)).map fun p =>
      (A.diag p.1 + B.diag p.2, combineTriplets sym s1 s2 (oldMapping sym (number 0 (List.ofFn (pairState s1 s2)))) A B p)).filter fun c => c.2 ≠ [],
      ∀ t ∈ c.2, ∃ i < n1 * n2, t.1 = some i
  · rw [if_pos hif] at h
    injection h with h
    rw [← h, List.mem_map] at hc
    obtain ⟨c, hc, rfl⟩ := hc
    rw [List.mem_filter, List.mem_map] at hc
    obtain ⟨⟨p, hp, rfl⟩, -⟩ := hc
    rw [List.mem_filter] at hp
    have hp2 := of_decide_eq_true hp.2
    obtain ⟨t, ht, hti⟩ := tripletSum_ne hi
    unfold combineTriplets at ht
    rw [List.mem_flatMap] at ht
    obtain ⟨⟨r1, r2⟩, hrr, ht⟩ := ht
    rw [List.mem_product, List.mem_filter, List.mem_filter] at hrr
    have b1 := of_decide_eq_true hrr.1.2
    have b2 := of_decide_eq_true hrr.2.2
    dsimp only at ht
    rw [combineCell_plain _ hr] at ht
    unfold plainCell at ht
    by_cases g1 : (sym.inversion ≠ none ∧ sym.permutation ≠ none ∧ (p.1 : ℕ) ≠ p.2 ∧ sym.invSign (s1 r1, s2 r2) ≠ sym.perSign) ∨
        (sym.rotation ≠ none ∧ sym.rotation.map (2 * ·) ≠ some ((s1 r1, s2 r2).1.m + (s1 r1, s2 r2).2.m))
    · rw [if_pos g1] at ht; cases ht
    · rw [if_neg g1] at ht
      rw [not_or] at g1
      refine ⟨p, r1, r2, hp2.1, hp2.2, b1, b2, ?_, ?_, ?_⟩
      · intro hm
        by_contra hne
        exact g1.2 ⟨hm, hne⟩
      · intro h1 h2 h3
        by_contra hne
        exact g1.1 ⟨h1, h2, h3, hne⟩
      · by_cases g2 : (sym.inversion ≠ none ∨ sym.permutation ≠ none) ∧ (p.1 : ℕ) ≠ p.2
        · rw [if_pos g2] at ht
          simp only [List.mem_cons, List.not_mem_nil, or_false] at ht
          rcases ht with rfl | rfl
          · left; exact (Option.some.inj hti).symm
          · right; exact ⟨g2.1, (Option.some.inj hti).symm⟩
        · rw [if_neg g2, List.mem_singleton] at ht
          rw [ht] at hti
          left; exact (Option.some.inj hti).symm
  · rw [if_neg hif] at h
    cases h

theorem mem_blocks {c : OldSymConf} {init : Old1 × Old1} {basis : List (Old1 × Old1)} {sym : OldSym} (h : sym ∈ oldSymmetries c init basis) :
    sym.inversion ∈ parityList c.inv ∧ sym.permutation ∈ parityList c.per ∧
    (sym.inversion ≠ none → sym.permutation ≠ none → c.sametrafo = true → (sym.inversion.map OldParity.int).getD 0 * (sym.permutation.map OldParity.int).getD 0 = parityL init) := by
  unfold oldSymmetries at h
  dsimp only at h
  rw [List.mem_dedup, List.mem_flatMap] at h
  obtain ⟨inv, hi, h⟩ := h
  by_cases g1 : inv = some .even ∧ init.1 = init.2 ∧ c.sametrafo = true
  · rw [if_pos g1] at h; cases h
  · rw [if_neg g1, List.mem_flatMap] at h
    obtain ⟨per, hp, h⟩ := h
    by_cases g2 : per = some .even ∧ init.1 = init.2 ∧ c.sametrafo = true
    · rw [if_pos g2] at h; cases h
    · rw [if_neg g2] at h
      by_cases g3 : inv ≠ none ∧ per ≠ none ∧ c.sametrafo = true ∧ (inv.map OldParity.int).getD 0 * (per.map OldParity.int).getD 0 ≠ parityL init
      · rw [if_pos g3] at h; cases h
      · rw [if_neg g3, List.mem_flatMap] at h
        obtain ⟨ref, -, h⟩ := h
        rw [List.mem_map] at h
        obtain ⟨rot, -, rfl⟩ := h
        refine ⟨hi, hp, fun h1 h2 h3 => ?_⟩
        by_contra h4
        exact g3 ⟨h1, h2, h3, h4⟩

theorem parityList_none {f : Bool × Bool} {x y : Option OldParity} (hx : x ∈ parityList f) (hy : y ∈ parityList f) : x = none ↔ y = none := by
  obtain ⟨a, b⟩ := f
  unfold parityList at hx hy
  cases a <;> cases b <;> simp at hx hy <;> aesop

/-- On the vectors of a block the necessary states are decided by `sametrafo` and the parity alone: neither the other steps of the scan nor the other blocks matter. -/
theorem nec_support (c : OldSymConf) (init : Old1 × Old1) {n1 n2 : ℕ} (s1 : Fin n1 → Old1) (s2 : Fin n2 → Old1) (A : OldOne n1) (B : OldOne n2)
    (steps : List (OldOne n1 × OldOne n2)) (hst : (A, B) ∈ steps) (deltaE : ℝ) (sym : OldSym) (hr : sym.reflection = none)
    (hm : sym ∈ oldSymmetries c init (List.ofFn (pairState s1 s2)))
    (hex : (sym.inversion ≠ none ∨ sym.permutation ≠ none) → ∀ (p : Fin A.nb × Fin B.nb) (r1 : Fin n1) (r2 : Fin n2), inCutoff deltaE (A.diag p.1 + B.diag p.2) →
      A.basis r1 p.1 ≠ 0 → B.basis r2 p.2 ≠ 0 → ∀ i : Fin (n1 * n2), (i : ℕ) = n2 * r2 + r1 →
      oldCutoff steps deltaE i = true ∧ (pairState s1 s2 i).1.m + (pairState s1 s2 i).2.m = (s1 r1).m + (s2 r2).m)
    (cols : List (ℝ × (Fin (n1 * n2) → ℂ))) (h : oldCombine sym s1 s2 A B deltaE = .ok cols) (col : ℝ × (Fin (n1 * n2) → ℂ)) (hc : col ∈ cols) (i : Fin (n1 * n2))
    (hi : col.2 i ≠ 0) :
    oldNecessary c (oldSymmetries c init (List.ofFn (pairState s1 s2))) init (pairState s1 s2) (oldCutoff steps deltaE) i = true ↔
      ¬ (sym.inversion ≠ none ∧ sym.permutation ≠ none ∧ parityL (pairState s1 s2 i) ≠ parityL init ∧ c.sametrafo = true) := by
  obtain ⟨p, r1, r2, -, hcut, b1, b2, hrot, -, hrow⟩ := combine_support sym hr s1 s2 A B deltaE cols h col hc i hi
  have key : oldCutoff steps deltaE i = true ∧ (pairState s1 s2 i).1.m + (pairState s1 s2 i).2.m = (s1 r1).m + (s2 r2).m := by
    rcases hrow with hrow | ⟨hs, hrow⟩
    · have e := (row_inj r1 r2 i).1 hrow.symm
      refine ⟨cutoff_kron steps deltaE A B hst p hcut i ?_, ?_⟩
      · unfold kronCol
        rw [← e]
        exact mul_ne_zero b1 b2
      · show (s1 (finProdFinEquiv.symm i).1).m + (s2 (finProdFinEquiv.symm i).2).m = _
        rw [← e]
    · exact hex hs p r1 r2 hcut b1 b2 i hrow
  rw [necessary_iff]
  constructor
  · rintro ⟨-, sym', hm', -, hno⟩ ⟨g1, g2, g3, g4⟩
    have m1 := mem_blocks hm
    have m2 := mem_blocks hm'
    exact hno ⟨⟨fun e => g1 ((parityList_none m1.1 m2.1).2 e), fun e => g2 ((parityList_none m1.2.1 m2.2.1).2 e), g3⟩, g4⟩
  · intro hno
    refine ⟨key.1, sym, hm, ?_, ?_⟩
    · rintro ⟨g1, g2, -⟩
      exact g2 (by rw [hrot g1, key.2])
    · rintro ⟨⟨g1, g2, g3⟩, g4⟩
      exact hno ⟨g1, g2, g3, g4⟩

open Matrix in
/-- The matrix depends on the necessary states only where the vectors of the block are not zero. -/
theorem total_support (U : Units) (c1 c2 : Cells) {N : ℕ} (nec nec' : Fin N → Bool) (b : Fin N → Old1 × Old1) (exponent : ℤ) (R : ℝ)
    (cols : List (ℝ × (Fin N → ℂ))) (hn : ∀ col ∈ cols, ∀ i, col.2 i ≠ 0 → nec i = nec' i) :
    oldTotalTwo U c1 c2 nec b exponent R cols = oldTotalTwo U c1 c2 nec' b exponent R cols := by
  have T : ∀ nec : Fin N → Bool, ∀ a k, ((necMat nec)ᴴ * colMat cols) a k = if nec a = true then (cols.get k).2 a else 0 := by
    intro nec a k
    unfold necMat
    rw [diagonal_conjTranspose, diagonal_mul]
    by_cases h : nec a = true
    · simp [h, colMat]
    · simp [h]
  have hT : (necMat nec)ᴴ * colMat cols = (necMat nec')ᴴ * colMat cols := by
    ext a k
    rw [T, T]
    by_cases h0 : (cols.get k).2 a = 0
    · rw [h0]; simp
    · rw [hn _ (List.get_mem cols k) a h0]
  have n1 : ∀ a k, ((necMat nec')ᴴ * colMat cols) a k ≠ 0 → nec' a = true ∧ nec a = true := by
    intro a k hne
    rw [T] at hne
    have h1 : nec' a = true := by
      by_contra h; rw [if_neg h] at hne; exact hne rfl
    rw [if_pos h1] at hne
    exact ⟨h1, by rw [hn _ (List.get_mem cols k) a hne, h1]⟩
  have core : ∀ sum, ((necMat nec')ᴴ * colMat cols)ᴴ * oldPairMat U c1 c2 nec b sum * ((necMat nec')ᴴ * colMat cols) =
      ((necMat nec')ᴴ * colMat cols)ᴴ * oldPairMat U c1 c2 nec' b sum * ((necMat nec')ᴴ * colMat cols) := by
    generalize (necMat nec')ᴴ * colMat cols = M at n1
    intro sum
    have hg : ∀ a c, nec a = true → nec c = true → nec' a = true → nec' c = true → oldPairMat U c1 c2 nec b sum a c = oldPairMat U c1 c2 nec' b sum a c := by
      intro a c g1 g2 g3 g4
      rw [oldPairMat_nec U c1 c2 nec, oldPairMat_nec U c1 c2 nec', if_pos ⟨g1, g2⟩, if_pos ⟨g3, g4⟩]
    generalize oldPairMat U c1 c2 nec b sum = Q at hg
    generalize oldPairMat U c1 c2 nec' b sum = Q' at hg
    ext x y
    rw [mul_apply, mul_apply]
    refine Finset.sum_congr rfl fun c _ => ?_
    rw [mul_apply, mul_apply]
    by_cases hc : M c y = 0
    · rw [hc, mul_zero, mul_zero]
    congr 1
    refine Finset.sum_congr rfl fun a _ => ?_
    by_cases ha : M a x = 0
    · rw [conjTranspose_apply, ha]; simp
    rw [hg a c (n1 a x ha).2 (n1 c y hc).2 (n1 a x ha).1 (n1 c y hc).1]
  unfold oldTotalTwo
  dsimp only
  rw [hT]
  simp only [core]

theorem bind_congr_ok {α β : Type} (o : Out α) (f g : α → Out β) (h : ∀ a, o = .ok a → f a = g a) : o >>= f = o >>= g := by
  cases o with
  | ok a => exact h a rfl
  | throw => rfl
  | ub => rfl

/-- A block depends on the necessary states only where its vectors are not zero. -/
theorem block_support (U : Units) (c1 c2 : Cells) (sym : OldSym) {n1 n2 : ℕ} (s1 : Fin n1 → Old1) (s2 : Fin n2 → Old1) (A : OldOne n1) (B : OldOne n2)
    (deltaE : ℝ) (nec nec' : Fin (n1 * n2) → Bool) (exponent : ℤ) (R : ℝ)
    (hn : ∀ cols, oldCombine sym s1 s2 A B deltaE = .ok cols → ∀ col ∈ cols, ∀ i, col.2 i ≠ 0 → nec i = nec' i) :
    oldBlock U c1 c2 sym s1 s2 A B deltaE nec exponent R = oldBlock U c1 c2 sym s1 s2 A B deltaE nec' exponent R := by
  unfold oldBlock
  refine bind_congr_ok _ _ _ fun cols hc => ?_
  have hp : ∀ col ∈ oldPrune cols, ∀ i, col.2 i ≠ 0 → nec i = nec' i := fun col hcol => by
    unfold oldPrune at hcol
    exact hn cols hc col (List.mem_filter.1 hcol).1
  exact congrArg (fun M => Out.ok (Sigma.mk (oldPrune cols).length M)) (total_support U c1 c2 nec nec' (pairState s1 s2) exponent R (oldPrune cols) hp)

/-- A column of an exchange-symmetric block with definite parities of the one-atom vectors holds states of one parity: the product of the signs. -/
theorem parity_support (sym : OldSym) (hr : sym.reflection = none) {n : ℕ} (s : Fin n → Old1) (A : OldOne n) (deltaE : ℝ) (hinv : sym.inversion ≠ none) (hper : sym.permutation ≠ none)
    (hdef : ∀ r r' c, A.basis r c ≠ 0 → A.basis r' c ≠ 0 → parityOf (s r).l = parityOf (s r').l)
    (cols : List (ℝ × (Fin (n * n) → ℂ))) (h : oldCombine sym s s A A deltaE = .ok cols) (col : ℝ × (Fin (n * n) → ℂ)) (hc : col ∈ cols) (i : Fin (n * n))
    (hi : col.2 i ≠ 0) : parityL (pairState s s i) = (sym.inversion.map OldParity.int).getD 0 * (sym.permutation.map OldParity.int).getD 0 := by
  obtain ⟨p, r1, r2, hsk, -, b1, b2, -, hsg, hrow⟩ := combine_support sym hr s s A A deltaE cols h col hc i hi
  have hp : parityL (pairState s s i) = parityL (s r1, s r2) := by
    rcases hrow with hrow | ⟨-, hrow⟩
    · have e := (row_inj r1 r2 i).1 hrow.symm
      show parityL (s (finProdFinEquiv.symm i).1, s (finProdFinEquiv.symm i).2) = _
      rw [← e]
    · have e := (row_inj r2 r1 i).1 hrow.symm
      show parityL (s (finProdFinEquiv.symm i).1, s (finProdFinEquiv.symm i).2) = _
      rw [← e]
      unfold parityL
      dsimp only
      rw [add_comm]
  rw [hp]
  rcases hi' : sym.inversion with _ | a
  · exact absurd hi' hinv
  rcases hp' : sym.permutation with _ | b
  · exact absurd hp' hper
  by_cases hne : (p.1 : ℕ) ≠ p.2
  · have := hsg hinv hper hne
    unfold OldSym.invSign OldSym.perSign at this
    rw [hi', hp'] at this
    cases a <;> cases b <;> simp [OldParity.int] at this ⊢ <;> omega
  · have heq : p.1 = p.2 := Fin.ext (not_not.1 hne)
    unfold OldSym.skips at hsk
    rw [hi', hp', heq] at hsk
    have hpar : parityL (s r1, s r2) = 1 := by
      unfold parityL
      dsimp only
      rw [parityOf_add, hdef r1 r2 p.2 (heq ▸ b1) b2, parityOf_sq]
    rw [hpar]
    cases a <;> cases b <;> simp [OldParity.int] at hsk ⊢

end PI
