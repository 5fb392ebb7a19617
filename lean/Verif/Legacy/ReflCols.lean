import Verif.Legacy.Spectrum
import Verif.Legacy.ReflLemma

/-!
# Legacy pair Hamiltonian: the columns of the blocks with reflection (C91)
-/

namespace PI

open Matrix

/-- The state with reversed magnetic quantum number. -/
def Old1.flip (a : Old1) : Old1 := { a with m := -a.m }

theorem flip_flip (a : Old1) : a.flip.flip = a := by
  unfold Old1.flip
  simp

theorem flip_inj {a b : Old1} (h : a.flip = b.flip) : a = b := by rw [← flip_flip a, h, flip_flip]

theorem reflected_eq (x : Old1 × Old1) : reflected x = (x.1.flip, x.2.flip) := rfl

/-! ## The map of the rows -/

theorem foldl_update {α β γ : Type} [DecidableEq β] (c : α → Prop) [DecidablePred c] (k : α → β) (v : α → γ) (y : β) (t : γ) : ∀ (L : List α) (g : β → γ),
    (∀ x ∈ L, ¬ c x → k x = y → v x = t) → ((∃ x ∈ L, ¬ c x ∧ k x = y) ∨ g y = t) →
    L.foldl (fun g x => if c x then g else Function.update g (k x) (v x)) g y = t := by
  intro L
  induction L with
  | nil =>
    rintro g - (⟨x, hx, -⟩ | h)
    · simp at hx
    · exact h
  | cons a L ih =>
    intro g h1 h2
    rw [List.foldl_cons]
    refine ih _ (fun x hx => h1 x (List.mem_cons_of_mem _ hx)) ?_
    by_cases hc : c a
    · rw [if_pos hc]
      rcases h2 with ⟨x, hx, hx2⟩ | h
      · rcases List.mem_cons.mp hx with rfl | hx
        · exact absurd hc hx2.1
        · exact .inl ⟨x, hx, hx2⟩
      · exact .inr h
    · rw [if_neg hc]
      by_cases hk : k a = y
      · right
        rw [hk, Function.update_self]
        exact h1 a List.mem_cons_self hc hk
      · rcases h2 with ⟨x, hx, hx2⟩ | h
        · rcases List.mem_cons.mp hx with rfl | hx
          · exact absurd hx2.2 hk
          · exact .inl ⟨x, hx, hx2⟩
        · right
          rw [Function.update_of_ne (Ne.symm hk)]
          exact h

theorem mem_number {α : Type} {n : ℕ} (f : Fin n → α) (x : Named α) : x ∈ number 0 (List.ofFn f) ↔ ∃ i : Fin n, x = (i.1, f i) := by
  rw [List.mem_iff_getElem?]
  simp only [number_getElem?, Nat.zero_add]
  constructor
  · rintro ⟨i, hi⟩
    rw [List.getElem?_ofFn] at hi
    by_cases h : i < n
    · rw [dif_pos h] at hi
      simp only [Option.map_some, Option.some.injEq] at hi
      exact ⟨⟨i, h⟩, hi.symm⟩
    · rw [dif_neg h] at hi
      simp at hi
  · rintro ⟨i, rfl⟩
    refine ⟨i.1, ?_⟩
    rw [List.getElem?_ofFn, dif_pos i.2]
    rfl

section
variable {n1 n2 : ℕ} (s1 : Fin n1 → Old1) (s2 : Fin n2 → Old1) (r1 : Fin n1 → Fin n1) (r2 : Fin n2 → Fin n2)

/-- The row of the reflected pair of states. -/
def reflRow (i : Fin (n1 * n2)) : Fin (n1 * n2) := finProdFinEquiv (r1 (finProdFinEquiv.symm i).1, r2 (finProdFinEquiv.symm i).2)

/-- The one-atom bases are closed under the reversal of the magnetic quantum numbers. -/
structure Closed {n : ℕ} (s : Fin n → Old1) (r : Fin n → Fin n) : Prop where
  inj : Function.Injective s
  flip : ∀ i, s (r i) = (s i).flip
  odd : ∀ i, (s i).m % 2 = 1

theorem Closed.invol {n : ℕ} {s : Fin n → Old1} {r : Fin n → Fin n} (h : Closed s r) (i : Fin n) : r (r i) = i :=
  h.inj (by rw [h.flip, h.flip, flip_flip])

theorem reflRow_state (h1 : Closed s1 r1) (h2 : Closed s2 r2) (i : Fin (n1 * n2)) : pairState s1 s2 (reflRow r1 r2 i) = reflected (pairState s1 s2 i) := by
  unfold pairState reflRow
  rw [Equiv.symm_apply_apply, h1.flip, h2.flip]
  rfl

theorem reflRow_invol (h1 : Closed s1 r1) (h2 : Closed s2 r2) (i : Fin (n1 * n2)) : reflRow r1 r2 (reflRow r1 r2 i) = i := by
  unfold reflRow
  rw [Equiv.symm_apply_apply, h1.invol, h2.invol, Prod.mk.eta, Equiv.apply_symm_apply]

theorem pairState_inj (h1 : Closed s1 r1) (h2 : Closed s2 r2) : Function.Injective (pairState s1 s2) := by
  intro i j h
  unfold pairState at h
  rw [Prod.mk.injEq] at h
  apply finProdFinEquiv.symm.injective
  exact Prod.ext (h1.inj h.1) (h2.inj h.2)

theorem buffer_eq (h1 : Closed s1 r1) (h2 : Closed s2 r2) (i : Fin (n1 * n2)) (hi : ¬ 0 < (pairState s1 s2 i).1.m) :
    oldBuffer (number 0 (List.ofFn (pairState s1 s2))) (pairState s1 s2 i) = (reflRow r1 r2 i : ℕ) := by
  unfold oldBuffer
  refine foldl_update (fun x : Named (Old1 × Old1) => x.2.1.m < 0) (fun x => reflected x.2) (fun x => x.1) _ _ _ _ ?_ (.inl ?_)
  · intro x hx _ hk
    rw [mem_number] at hx
    obtain ⟨k, rfl⟩ := hx
    dsimp only at hk ⊢
    rw [← reflRow_state s1 s2 r1 r2 h1 h2] at hk
    rw [← pairState_inj s1 s2 r1 r2 h1 h2 hk, reflRow_invol s1 s2 r1 r2 h1 h2]
  · refine ⟨((reflRow r1 r2 i : ℕ), pairState s1 s2 (reflRow r1 r2 i)), (mem_number _ _).mpr ⟨_, rfl⟩, ?_, ?_⟩
    · dsimp only
      rw [reflRow_state s1 s2 r1 r2 h1 h2]
      show ¬ -(pairState s1 s2 i).1.m < 0
      omega
    · dsimp only
      rw [← reflRow_state s1 s2 r1 r2 h1 h2, reflRow_invol s1 s2 r1 r2 h1 h2]

theorem mapping_eq (h1 : Closed s1 r1) (h2 : Closed s2 r2) (e : OldParity) (rot : Option ℤ) (i : Fin (n1 * n2)) (hi : 0 < (pairState s1 s2 i).1.m) :
    oldMapping ⟨none, none, some e, rot⟩ (number 0 (List.ofFn (pairState s1 s2))) i = some (reflRow r1 r2 i : ℕ) := by
  unfold oldMapping
  rw [if_neg (by simp)]
  simp only [ne_eq, not_true_eq_false, or_self, if_false]
  refine foldl_update (fun x : Named (Old1 × Old1) => 0 < x.2.1.m) (fun x => oldBuffer (number 0 (List.ofFn (pairState s1 s2))) x.2) (fun x => some x.1) _ _ _ _ ?_ (.inl ?_)
  · intro x hx hm hk
    rw [mem_number] at hx
    obtain ⟨k, rfl⟩ := hx
    dsimp only at hk hm ⊢
    rw [buffer_eq s1 s2 r1 r2 h1 h2 k hm, ← Fin.ext_iff] at hk
    rw [← hk, reflRow_invol s1 s2 r1 r2 h1 h2]
  · have hm : ¬ 0 < (pairState s1 s2 (reflRow r1 r2 i)).1.m := by
      rw [reflRow_state s1 s2 r1 r2 h1 h2]
      show ¬ 0 < -(pairState s1 s2 i).1.m
      omega
    refine ⟨((reflRow r1 r2 i : ℕ), pairState s1 s2 (reflRow r1 r2 i)), (mem_number _ _).mpr ⟨_, rfl⟩, hm, ?_⟩
    dsimp only
    rw [buffer_eq s1 s2 r1 r2 h1 h2 _ hm, reflRow_invol s1 s2 r1 r2 h1 h2]

end

/-! ## The columns -/

theorem cell_refl (e : OldParity) (rot : Option ℤ) (x : Old1 × Old1) (mp : ℕ → Option ℕ) (neq : Prop) (row rowS : ℕ) (v : ℂ) :
    open Classical in
    combineCell ⟨none, none, some e, rot⟩ x mp neq row rowS v =
      if (∀ m, rot = some m → x.1.m + x.2.m = 2 * m ∨ -(x.1.m + x.2.m) = 2 * m) ∧ ¬ x.1.m < 0 then
        [(some row, v / (Real.sqrt 2 : ℝ)), (mp row, v / (Real.sqrt 2 : ℝ) * OldSym.refSign ⟨none, none, some e, rot⟩ x)] else [] := by
  classical
  unfold combineCell
  dsimp only
  rcases rot with _ | m
  · by_cases h : x.1.m < 0
    · simp [h]
    · simp [h]
  · by_cases h : x.1.m < 0
    · simp [h]
    · simp only [ne_eq, not_true_eq_false, false_and, if_false, reduceCtorEq, not_false_eq_true, true_and, Option.map_some, Option.some.injEq, false_or, and_false, h,
        or_self, and_true, forall_eq', List.append_nil]
      by_cases h1 : x.1.m + x.2.m = 2 * m
      · simp [h1]
      · by_cases h2 : -(x.1.m + x.2.m) = 2 * m
        · simp [h2]
        · rw [if_pos ⟨fun h => h1 h.symm, fun h => h2 h.symm⟩, if_neg (by simp only [h1, h2, or_self, not_false_eq_true])]

/-- The sign of a pair of states under reflection, in the even block. -/
def reflSign (x : Old1 × Old1) : ℤ := parityL x * parityJ x * parityM x

theorem refSign_eq (e : OldParity) (rot : Option ℤ) (x : Old1 × Old1) : OldSym.refSign ⟨none, none, some e, rot⟩ x = e.int * reflSign x := by
  unfold OldSym.refSign reflSign
  cases e <;> simp [OldParity.int]

theorem parityOf_neg (k : ℤ) : parityOf (-k) = parityOf k := by
  unfold parityOf
  split_ifs <;> first | rfl | omega

theorem reflSign_refl (x : Old1 × Old1) (h1 : x.1.m % 2 = 1) (h2 : x.2.m % 2 = 1) : reflSign (reflected x) = reflSign x := by
  unfold reflSign
  have : parityM (reflected x) = parityM x := by
    unfold parityM reflected
    dsimp only
    rw [← parityOf_neg ((x.1.m + x.2.m) / 2)]
    congr 1
    omega
  rw [this]
  rfl

theorem parityOf_sq (k : ℤ) : parityOf k * parityOf k = 1 := by
  unfold parityOf
  split_ifs <;> norm_num

theorem reflSign_sq (x : Old1 × Old1) : reflSign x * reflSign x = 1 := by
  unfold reflSign parityL parityJ parityM
  linear_combination (parityOf ((x.1.j + x.2.j) / 2)) ^ 2 * (parityOf ((x.1.m + x.2.m) / 2)) ^ 2 * parityOf_sq (x.1.l + x.2.l) +
    (parityOf ((x.1.m + x.2.m) / 2)) ^ 2 * parityOf_sq ((x.1.j + x.2.j) / 2) + parityOf_sq ((x.1.m + x.2.m) / 2)

/-- The pairs of basis vectors in a block with reflection. -/
def inRefl (rot : Option ℤ) (a b : ℤ) : Prop := (∀ m, rot = some m → a + b = 2 * m ∨ -(a + b) = 2 * m) ∧ ¬ a < 0

section
variable {n1 n2 : ℕ} (s1 : Fin n1 → Old1) (s2 : Fin n2 → Old1) (r1 : Fin n1 → Fin n1) (r2 : Fin n2 → Fin n2)

/-- The vector of a pair in a block with reflection. -/
noncomputable def reflVec (A : OldOne n1) (B : OldOne n2) (ε : ℤ) (p : Fin A.nb × Fin B.nb) (i : Fin (n1 * n2)) : ℂ :=
  (kronCol A B p i + (ε * reflSign (pairState s1 s2 i) : ℤ) * kronCol A B p (reflRow r1 r2 i)) / (Real.sqrt 2 : ℝ)

theorem triplets_refl (h1 : Closed s1 r1) (h2 : Closed s2 r2) (e : OldParity) (rot : Option ℤ) (mp : ℕ → Option ℕ)
    (hmp : ∀ i : Fin (n1 * n2), 0 < (pairState s1 s2 i).1.m → mp i = some (reflRow r1 r2 i : ℕ)) (A : OldOne n1) (B : OldOne n2) (mu1 : Fin A.nb → ℤ) (mu2 : Fin B.nb → ℤ)
    (d1 : ∀ r c, A.basis r c ≠ 0 → (s1 r).m = mu1 c) (d2 : ∀ r c, B.basis r c ≠ 0 → (s2 r).m = mu2 c) (zA : ∀ c, ∃ r, A.basis r c ≠ 0) (zB : ∀ c, ∃ r, B.basis r c ≠ 0)
    (p : Fin A.nb × Fin B.nb) :
    (combineTriplets ⟨none, none, some e, rot⟩ s1 s2 mp A B p ≠ [] ↔ inRefl rot (mu1 p.1) (mu2 p.2)) ∧
    (∀ t ∈ combineTriplets ⟨none, none, some e, rot⟩ s1 s2 mp A B p, ∃ i < n1 * n2, t.1 = some i) ∧
    (inRefl rot (mu1 p.1) (mu2 p.2) → ∀ i : Fin (n1 * n2), tripletSum (combineTriplets ⟨none, none, some e, rot⟩ s1 s2 mp A B p) i = reflVec s1 s2 r1 r2 A B e.int p i) := by
  classical
  have cell : ∀ a b, A.basis a p.1 ≠ 0 → B.basis b p.2 ≠ 0 → ∀ rowS v, combineCell ⟨none, none, some e, rot⟩ (s1 a, s2 b) mp ((p.1 : ℕ) ≠ p.2) (n2 * a + b) rowS v =
      if inRefl rot (mu1 p.1) (mu2 p.2) then [(some (n2 * a + b), v / (Real.sqrt 2 : ℝ)),
        (some (reflRow r1 r2 (finProdFinEquiv (a, b)) : ℕ), v / (Real.sqrt 2 : ℝ) * (e.int * reflSign (s1 a, s2 b) : ℤ))] else [] := by
    intro a b a1 a2 rowS v
    rw [cell_refl, refSign_eq]
    dsimp only
    rw [d1 a p.1 a1, d2 b p.2 a2]
    by_cases h : inRefl rot (mu1 p.1) (mu2 p.2)
    · rw [if_pos h]
      refine (if_pos h).trans ?_
      rw [row_eq, hmp]
      unfold pairState
      rw [Equiv.symm_apply_apply]
      have := h1.odd a
      have := d1 a p.1 a1
      have := h.2
      show 0 < (s1 a).m
      omega
    · rw [if_neg h]
      exact if_neg h
  unfold combineTriplets
  refine ⟨?_, ?_, ?_⟩
  · rw [Ne, List.flatMap_eq_nil_iff]
    push Not
    constructor
    · rintro ⟨r, hr1, hr2⟩
      rw [List.mem_product] at hr1
      simp only [List.mem_filter, List.mem_finRange, true_and, decide_eq_true_eq] at hr1
      rw [cell r.1 r.2 hr1.1 hr1.2] at hr2
      by_contra h
      rw [if_neg h] at hr2
      exact hr2 rfl
    · intro h
      obtain ⟨a, a1⟩ := zA p.1
      obtain ⟨b, a2⟩ := zB p.2
      refine ⟨(a, b), ?_, ?_⟩
      · rw [List.mem_product]
        simp [a1, a2]
      · rw [cell a b a1 a2, if_pos h]
        simp
  · intro t ht
    rw [List.mem_flatMap] at ht
    obtain ⟨r, hr1, ht⟩ := ht
    rw [List.mem_product] at hr1
    simp only [List.mem_filter, List.mem_finRange, true_and, decide_eq_true_eq] at hr1
    rw [cell r.1 r.2 hr1.1 hr1.2, row_eq] at ht
    split_ifs at ht
    · simp only [List.mem_cons, List.not_mem_nil, or_false] at ht
      rcases ht with rfl | rfl
      · exact ⟨_, Fin.is_lt _, rfl⟩
      · exact ⟨_, Fin.is_lt _, rfl⟩
    · simp at ht
  · intro h i
    rw [tripletSum_flatMap, sum_product]
    simp only [decide_eq_true_eq]
    have c1 : ∀ (k : Fin (n1 * n2)) (a : Fin n1) (b : Fin n2), ((finProdFinEquiv (a, b) : Fin (n1 * n2)) : ℕ) = (k : ℕ) ↔ a = (finProdFinEquiv.symm k).1 ∧ b = (finProdFinEquiv.symm k).2 := by
      intro k a b
      rw [← row_eq, row_inj, Prod.ext_iff]
    have c2 : ∀ (a : Fin n1) (b : Fin n2), ((reflRow r1 r2 (finProdFinEquiv (a, b)) : Fin (n1 * n2)) : ℕ) = (i : ℕ) ↔
        a = (finProdFinEquiv.symm (reflRow r1 r2 i)).1 ∧ b = (finProdFinEquiv.symm (reflRow r1 r2 i)).2 := by
      intro a b
      rw [← c1, ← Fin.ext_iff, ← Fin.ext_iff]
      constructor
      · intro h
        rw [← h, reflRow_invol s1 s2 r1 r2 h1 h2]
      · intro h
        rw [h, reflRow_invol s1 s2 r1 r2 h1 h2]
    have : ∀ (a : Fin n1) (b : Fin n2), (if A.basis a p.1 ≠ 0 ∧ B.basis b p.2 ≠ 0 then
        tripletSum (combineCell ⟨none, none, some e, rot⟩ (s1 a, s2 b) mp ((p.1 : ℕ) ≠ p.2) (n2 * a + b) (n2 * b + a) (A.basis a p.1 * B.basis b p.2)) i else 0) =
        (if a = (finProdFinEquiv.symm i).1 then (if b = (finProdFinEquiv.symm i).2 then A.basis a p.1 * B.basis b p.2 / (Real.sqrt 2 : ℝ) else 0) else 0) +
        (if a = (finProdFinEquiv.symm (reflRow r1 r2 i)).1 then (if b = (finProdFinEquiv.symm (reflRow r1 r2 i)).2 then
          A.basis a p.1 * B.basis b p.2 / (Real.sqrt 2 : ℝ) * (e.int * reflSign (s1 a, s2 b) : ℤ) else 0) else 0) := by
      intro a b
      by_cases hz' : A.basis a p.1 ≠ 0 ∧ B.basis b p.2 ≠ 0
      · rw [if_pos hz', cell a b hz'.1 hz'.2, if_pos h, tripletSum_cons, tripletSum_cons, tripletSum_nil, add_zero, ← ite_and, ← ite_and, row_eq]
        simp only [c1, c2]
      · rw [if_neg hz']
        have : A.basis a p.1 * B.basis b p.2 = 0 := by
          rw [mul_eq_zero]; by_contra hc; push Not at hc; exact hz' hc
        simp [this]
    simp only [this, Finset.sum_add_distrib, Finset.sum_ite_eq', Finset.mem_univ, if_true, Finset.sum_const_zero, Finset.sum_ite_irrel]
    unfold reflVec
    have e1 : reflSign (s1 (finProdFinEquiv.symm (reflRow r1 r2 i)).1, s2 (finProdFinEquiv.symm (reflRow r1 r2 i)).2) = reflSign (pairState s1 s2 i) := by
      show reflSign (pairState s1 s2 (reflRow r1 r2 i)) = _
      rw [reflRow_state s1 s2 r1 r2 h1 h2, reflSign_refl _ (h1.odd _) (h2.odd _)]
    rw [e1]
    unfold kronCol
    ring

/-- The list of the pairs of a block with reflection. -/
noncomputable def pairsRefl (rot : Option ℤ) (A : OldOne n1) (B : OldOne n2) (deltaE : ℝ) (mu1 : Fin A.nb → ℤ) (mu2 : Fin B.nb → ℤ) : List (Fin A.nb × Fin B.nb) :=
  open Classical in (oldPairIdx A.nb B.nb).filter fun p => inCutoff deltaE (A.diag p.1 + B.diag p.2) ∧ inRefl rot (mu1 p.1) (mu2 p.2)

theorem mem_pairsRefl (rot : Option ℤ) (A : OldOne n1) (B : OldOne n2) (deltaE : ℝ) (mu1 : Fin A.nb → ℤ) (mu2 : Fin B.nb → ℤ) (p : Fin A.nb × Fin B.nb) :
    p ∈ pairsRefl rot A B deltaE mu1 mu2 ↔ inCutoff deltaE (A.diag p.1 + B.diag p.2) ∧ inRefl rot (mu1 p.1) (mu2 p.2) := by
  classical
  unfold pairsRefl
  rw [List.mem_filter]
  simp [mem_oldPairIdx]

theorem pairsRefl_nodup (rot : Option ℤ) (A : OldOne n1) (B : OldOne n2) (deltaE : ℝ) (mu1 : Fin A.nb → ℤ) (mu2 : Fin B.nb → ℤ) :
    (pairsRefl rot A B deltaE mu1 mu2).Nodup := (oldPairIdx_nodup _ _).filter _

theorem combine_refl (h1 : Closed s1 r1) (h2 : Closed s2 r2) (e : OldParity) (rot : Option ℤ) (A : OldOne n1) (B : OldOne n2) (deltaE : ℝ) (mu1 : Fin A.nb → ℤ) (mu2 : Fin B.nb → ℤ)
    (d1 : ∀ r c, A.basis r c ≠ 0 → (s1 r).m = mu1 c) (d2 : ∀ r c, B.basis r c ≠ 0 → (s2 r).m = mu2 c) (zA : ∀ c, ∃ r, A.basis r c ≠ 0) (zB : ∀ c, ∃ r, B.basis r c ≠ 0) :
    oldCombine ⟨none, none, some e, rot⟩ s1 s2 A B deltaE = .ok ((pairsRefl rot A B deltaE mu1 mu2).map fun p => (A.diag p.1 + B.diag p.2, reflVec s1 s2 r1 r2 A B e.int p)) := by
  classical
  unfold oldCombine
  dsimp only
  have hmp := mapping_eq s1 s2 r1 r2 h1 h2 e rot
  set mp := oldMapping ⟨none, none, some e, rot⟩ (number 0 (List.ofFn (pairState s1 s2)))
  have sp := triplets_refl s1 s2 r1 r2 h1 h2 e rot mp hmp A B mu1 mu2 d1 d2 zA zB
  have ns : ∀ a b : ℕ, ¬ OldSym.skips ⟨none, none, some e, rot⟩ a b := by
    intro a b
    unfold OldSym.skips
    simp
  rw [if_pos]
  · congr 1
    rw [List.filter_map, List.filter_filter, List.map_map]
    have : (oldPairIdx A.nb B.nb).filter (fun p => ((fun c : ℝ × List (Option ℕ × ℂ) => decide (c.2 ≠ [])) ∘ fun p : Fin A.nb × Fin B.nb =>
        (A.diag p.1 + B.diag p.2, combineTriplets ⟨none, none, some e, rot⟩ s1 s2 mp A B p)) p &&
        decide (¬ OldSym.skips ⟨none, none, some e, rot⟩ p.1 p.2 ∧ inCutoff deltaE (A.diag p.1 + B.diag p.2))) = pairsRefl rot A B deltaE mu1 mu2 := by
      unfold pairsRefl
      refine List.filter_congr fun p _ => ?_
      rw [Bool.eq_iff_iff]
      simp only [Function.comp, Bool.and_eq_true, decide_eq_true_eq]
      rw [(sp p).1]
      simp only [ns, not_false_eq_true, true_and]
      exact and_comm
    rw [this]
    refine List.map_congr_left fun p hp => ?_
    rw [mem_pairsRefl] at hp
    simp only [Function.comp, Prod.mk.injEq, true_and]
    funext i
    exact (sp p).2.2 hp.2 i
  · intro c hc t ht
    rw [List.mem_filter, List.mem_map] at hc
    obtain ⟨⟨p, -, rfl⟩, -⟩ := hc
    exact (sp p).2.1 t ht

end

end PI
