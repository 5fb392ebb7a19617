import Verif.Pair.SelectThm

/-!
# C106: user-defined states of a pair system

`SystemTwo::addStates` adds pair states to the basis that do not come from the one-atom systems (SystemTwo.cpp:460-571). The model is
`pairUser`, `pairUsers`, `userPairOk`, `pairBuild` (Pair/BasisModel.lean).
-/

namespace PI

/-! ## Specification -/

/-- Specification: the same settings without user-defined states. -/
def PairSet.without (P : PairSet) : PairSet := { P with toAdd := [] }

/-- Specification: without user-defined states, and nothing is removed because of a small norm. -/
def PairSet.unpruned (P : PairSet) : PairSet := { P with toAdd := [], thr := -1 }

/-- Specification: a physical state of another species than the atom it is meant for. -/
def WrongSpecies (P : PairSet) (t : AState × AState) : Prop :=
  (∃ sp n l j m, t.1 = .phys sp n l j m ∧ sp ≠ P.species.1) ∨ (∃ sp n l j m, t.2 = .phys sp n l j m ∧ sp ≠ P.species.2)

/-- Specification: the energy of a user-defined state: the energies of the physical one-atom states; artificial states have the energy zero. -/
def energyAdded (E : AState → ℝ) (t : AState × AState) : ℝ := (if t.1.isArt then 0 else E t.1) + (if t.2.isArt then 0 else E t.2)

/-- Specification: does the total momentum of the state belong to the chosen ones? States with an artificial part are not restricted. -/
def MomentumOk (P : PairSet) (t : AState × AState) : Prop :=
  t.1.isArt = true ∨ t.2.isArt = true ∨ ∀ ms, P.sym.rot = some ms → totalM t ∈ ms

/-- Specification: is the inversion symmetry used for the state? -/
def UsesInv (P : PairSet) (t : AState × AState) : Prop := t.1.isArt = false ∧ t.2.isArt = false ∧ P.sym.inv ≠ .na

/-- Specification: does a chosen symmetry exchange the atoms? -/
def Exchanges (P : PairSet) (t : AState × AState) : Prop := UsesInv P t ∨ P.sym.perm ≠ .na

/-- Specification: the sign with which the exchanged state occurs: `-(-1)^(l1+l2)` for even inversion, `-1` for even permutation; the opposite for odd. -/
def invSign (P : PairSet) (t : AState × AState) : ℤ := (if P.sym.inv = .even then -1 else 1) * sgnZ (t.1.l + t.2.l)
/-- See `invSign`. -/
def permSign (P : PairSet) : ℤ := if P.sym.perm = .even then -1 else 1

open Classical in
/-- Specification: the sign of the exchanged state. -/
noncomputable def exSign (P : PairSet) (t : AState × AState) : ℤ := if UsesInv P t then invSign P t else permSign P

/-- Specification: states that belong to the chosen momenta and to both exchange symmetries. -/
def Fits (P : PairSet) (t : AState × AState) : Prop :=
  MomentumOk P t ∧ (UsesInv P t → P.sym.perm ≠ .na → t.1 ≠ t.2 → invSign P t = permSign P)

/-- Specification: a state the exchanged state of which was not added. -/
def PartnerMissing (P : PairSet) (t : AState × AState) : Prop :=
  Fits P t ∧ Exchanges P t ∧ t.1 ≠ t.2 ∧ (t.2, t.1) ∉ P.toAdd

/-- Specification: of a state and the exchanged state, the one with the larger first state stands for the pair; a state of two equal parts has no
antisymmetric combination (which the program calls even). -/
def Stands (P : PairSet) (lt : AState → AState → Bool) (t : AState × AState) : Prop :=
  Exchanges P t → (t.1 ≠ t.2 → lt t.2 t.1 = true) ∧ (t.1 = t.2 → (UsesInv P t → P.sym.inv ≠ .even) ∧ P.sym.perm ≠ .even)

open Classical in
/-- Specification: the vector of an added state. -/
noncomputable def vecAdded (P : PairSet) (t p : AState × AState) : ℂ :=
  if Exchanges P t ∧ t.1 ≠ t.2 then
    (if p = t then 1 / (Real.sqrt 2 : ℂ) else 0) + (if p = (t.2, t.1) then (exSign P t : ℂ) / (Real.sqrt 2 : ℂ) else 0)
  else if p = t then 1 else 0

open Classical in
/-- Specification: the added states that give a basis vector. -/
noncomputable def addedReps (P : PairSet) (lt : AState → AState → Bool) : List (AState × AState) :=
  P.toAdd.filter fun t => decide (Fits P t ∧ Stands P lt t)

/-- Specification: a strict total order. -/
structure StrictTotal (lt : AState → AState → Bool) : Prop where
  irrefl : ∀ a, lt a a = false
  asymm : ∀ a b, lt a b = true → lt b a = false
  total : ∀ a b, a ≠ b → lt a b = true ∨ lt b a = true

/-! ## The loop does not depend on the added states -/

theorem pairLoop_congr (P Q : PairSet) (S1 S2 : OneSys) (hs : P.sym = Q.sym) (he : ∀ x, P.energyOk x = Q.energyOk x) (cs : List (ℕ × ℕ)) :
    pairLoop P S1 S2 cs = pairLoop Q S1 S2 cs := by
  induction cs with
  | nil => rfl
  | cons c cs ih => unfold pairLoop; rw [ih, hs]; simp only [he]

theorem pairLoop_ne_throw (P : PairSet) (S1 S2 : OneSys) (cs : List (ℕ × ℕ)) : pairLoop P S1 S2 cs ≠ .throw := by
  induction cs with
  | nil => simp [pairLoop]
  | cons c cs ih =>
    unfold pairLoop
    dsimp only
    split
    · split_ifs
      · exact ih
      · exact ih
      · simp
      · cases h : pairLoop P S1 S2 cs <;> simp_all
    · simp

/-- The columns of the first loop, if the build without user-defined states succeeds. -/
theorem without_ok {P : PairSet} {lt : AState → AState → Bool} {E : AState → ℝ} {S1 S2 : OneSys} {B0 : PairBasis}
    (h : pairBuild P.without lt E S1 S2 = .ok B0) :
    ∃ cs, pairLoop P S1 S2 (P.usedPairs S1 S2) = .ok cs ∧ B0 = prunePairs P.thr cs ∧
      (statesOf (cs.flatMap (·.2))).length ≤ S1.states.length * S2.states.length ∧ B0.states ≠ [] ∧ B0.cols ≠ [] := by
  unfold pairBuild at h
  rw [pairLoop_congr P.without P S1 S2 rfl (fun _ => rfl), show P.without.usedPairs S1 S2 = P.usedPairs S1 S2 from rfl,
    show P.without.toAdd = [] from rfl, show P.without.thr = P.thr from rfl] at h
  cases h1 : pairLoop P S1 S2 (P.usedPairs S1 S2) with
  | throw => rw [h1] at h; simp at h
  | ub => rw [h1] at h; simp at h
  | ok cs =>
    rw [h1] at h
    dsimp only at h
    by_cases a1 : S1.states.length * S2.states.length + ([] : List (AState × AState)).length < (statesOf (cs.flatMap (·.2))).length
    · rw [if_pos a1] at h; simp at h
    rw [if_neg a1, if_neg (by simp)] at h
    rw [show pairUsers P.without lt E [] = .ok [] from rfl] at h
    dsimp only at h
    rw [List.append_nil, if_neg a1] at h
    by_cases a4 : (prunePairs P.thr cs).states = [] ∨ (prunePairs P.thr cs).cols = []
    · rw [if_pos a4] at h; simp at h
    rw [if_neg a4] at h
    have := Out.ok.inj h
    rw [not_or] at a4
    subst this
    exact ⟨cs, rfl, rfl, by simpa using a1, a4.1, a4.2⟩

theorem unpruned_ok {P : PairSet} {lt : AState → AState → Bool} {E : AState → ℝ} {S1 S2 : OneSys} {B1 : PairBasis}
    (h : pairBuild P.unpruned lt E S1 S2 = .ok B1) :
    ∃ cs, pairLoop P S1 S2 (P.usedPairs S1 S2) = .ok cs ∧ B1.states = statesOf (cs.flatMap (·.2)) := by
  obtain ⟨cs, h1, h2, -⟩ := without_ok (P := P.unpruned) (B0 := B1) h
  rw [pairLoop_congr P.unpruned P S1 S2 rfl (fun _ => rfl), show P.unpruned.usedPairs S1 S2 = P.usedPairs S1 S2 from rfl] at h1
  refine ⟨cs, h1, ?_⟩
  rw [h2]
  unfold prunePairs
  dsimp only
  rw [List.filter_eq_self]
  intro p _
  rw [decide_eq_true_eq]
  have := weightP_nonneg (cs.flatMap (·.2)) p
  show (-1 : ℝ) < _
  linarith

/-! ## Translation of the tests -/

theorem speciesOk_iff (P : PairSet) (t : AState × AState) :
    (speciesOk P.species.1 t.1 && speciesOk P.species.2 t.2) = true ↔ ¬ WrongSpecies P t := by
  obtain ⟨a, b⟩ := t
  unfold WrongSpecies
  rw [Bool.and_eq_true, not_or]
  refine and_congr ?_ ?_
  · cases a with
    | art s => simp [speciesOk]
    | phys sp n l j m =>
      unfold speciesOk
      rw [decide_eq_true_eq]
      constructor
      · rintro h ⟨sp', n', l', j', m', he, hne⟩
        cases he
        exact hne h
      · intro h
        by_contra hne
        exact h ⟨sp, n, l, j, m, rfl, hne⟩
  · cases b with
    | art s => simp [speciesOk]
    | phys sp n l j m =>
      unfold speciesOk
      rw [decide_eq_true_eq]
      constructor
      · rintro h ⟨sp', n', l', j', m', he, hne⟩
        cases he
        exact hne h
      · intro h
        by_contra hne
        exact h ⟨sp, n, l, j, m, rfl, hne⟩

/-- The symmetries used for a user-defined state. -/
abbrev PairSet.symFor (P : PairSet) (t : AState × AState) : PairSym := P.sym.local_ (t.1.isArt || t.2.isArt)

theorem symFor_inv (P : PairSet) (t : AState × AState) : (P.symFor t).inv ≠ .na ↔ UsesInv P t := by
  unfold PairSet.symFor PairSym.local_ UsesInv
  cases t.1.isArt <;> cases t.2.isArt <;> simp

theorem symFor_perm (P : PairSet) (t : AState × AState) : (P.symFor t).perm = P.sym.perm := local_perm _ _

theorem symFor_inv_eq {P : PairSet} {t : AState × AState} (h : UsesInv P t) : (P.symFor t).inv = P.sym.inv := by
  unfold PairSet.symFor PairSym.local_
  rw [h.1, h.2.1]; rfl

theorem symFor_exch (P : PairSet) (t : AState × AState) : ((P.symFor t).inv ≠ .na ∨ (P.symFor t).perm ≠ .na) ↔ Exchanges P t := by
  rw [symFor_inv, symFor_perm]; rfl

theorem symFor_rot (P : PairSet) (t : AState × AState) : (P.symFor t).rotExcludes (totalM t) = true ↔ ¬ MomentumOk P t := by
  unfold PairSet.symFor PairSym.local_ PairSym.rotExcludes MomentumOk
  cases t.1.isArt <;> cases t.2.isArt <;> simp
  cases P.sym.rot <;> simp

theorem symFor_permS (P : PairSet) (t : AState × AState) : (P.symFor t).permS = permSign P := by
  unfold PairSym.permS permSign; rw [symFor_perm]

theorem symFor_invS {P : PairSet} {t : AState × AState} (h : UsesInv P t) : (P.symFor t).invS t = invSign P t := by
  unfold PairSym.invS invSign parL
  rw [symFor_inv_eq h]
  split_ifs <;> ring

open Classical in
theorem symFor_swapS (P : PairSet) (t : AState × AState) : (P.symFor t).swapS t = exSign P t := by
  unfold PairSym.swapS exSign
  by_cases h : UsesInv P t
  · rw [if_pos ((symFor_inv P t).2 h), if_pos h, symFor_invS h]
  · rw [if_neg (fun hh => h ((symFor_inv P t).1 hh)), if_neg h, symFor_permS]

/-- The two tests before the partner is looked for. -/
theorem fits_iff (P : PairSet) (t : AState × AState) :
    Fits P t ↔ ¬ ((P.symFor t).rotExcludes (totalM t) = true) ∧
      ¬ ((P.symFor t).inv ≠ .na ∧ (P.symFor t).perm ≠ .na ∧ decide (t.1 ≠ t.2) = true ∧ (P.symFor t).invS t ≠ (P.symFor t).permS) := by
  rw [symFor_rot, not_not, symFor_inv, symFor_perm, symFor_permS, decide_eq_true_eq]
  unfold Fits
  refine and_congr_right fun _ => ?_
  constructor
  · rintro h ⟨a, b, c, d⟩
    rw [symFor_invS a] at d
    exact d (h a b c)
  · intro h a b c
    by_contra hn
    exact h ⟨a, b, c, by rw [symFor_invS a]; exact hn⟩

theorem stands_iff (P : PairSet) (lt : AState → AState → Bool) (hlt : StrictTotal lt) (t : AState × AState) :
    Stands P lt t ↔ (P.symFor t).skips (lt t.1 t.2 || decide (t.1 = t.2)) (lt t.1 t.2) = false := by
  have hE := symFor_exch P t
  have hI := symFor_inv P t
  have hP := symFor_perm P t
  unfold Stands PairSym.skips
  rw [← hE]
  by_cases he : t.1 = t.2
  · have h1 : lt t.1 t.2 = false := by rw [he]; exact hlt.irrefl _
    rw [h1]
    simp only [he, ne_eq, not_true_eq_false, decide_true, Bool.or_true, Bool.and_true, Bool.and_false, Bool.or_false,
      Bool.or_eq_false_iff, decide_eq_false_iff_not, false_imp_iff, true_and, true_imp_iff]
    rw [hP]
    by_cases hi : UsesInv P t
    · have hi' := symFor_inv_eq hi
      rw [hi']
      constructor
      · intro h
        exact ⟨(h (Or.inl hi.2.2)).1 hi, (h (Or.inl hi.2.2)).2⟩
      · intro h _
        exact ⟨fun _ => h.1, h.2⟩
    · have hi' : (P.symFor t).inv = .na := by
        by_contra hn
        exact hi (hI.1 hn)
      rw [hi']
      constructor
      · intro h
        refine ⟨by simp, fun hp => ?_⟩
        exact (h (Or.inr (by rw [hp]; simp))).2 hp
      · intro h _
        exact ⟨fun hh => absurd hh hi, h.2⟩
  · simp only [he, ne_eq, not_false_eq_true, decide_false, Bool.or_false, true_imp_iff, false_imp_iff, and_true]
    rcases hlt.total _ _ he with h | h
    · have h' := hlt.asymm _ _ h
      rw [h, h']
      cases (P.symFor t).inv <;> cases (P.symFor t).perm <;> simp
    · have h' := hlt.asymm _ _ h
      rw [h, h']
      cases (P.symFor t).inv <;> cases (P.symFor t).perm <;> simp

open Classical in
/-- The entries of the column of an added state. -/
noncomputable def entriesAdded (P : PairSet) (t : AState × AState) : List PEntry :=
  if Exchanges P t ∧ t.1 ≠ t.2 then [(t, 1 / (Real.sqrt 2 : ℂ)), (swapP t, 1 / (Real.sqrt 2 : ℂ) * (exSign P t : ℂ))] else [(t, 1)]

open Classical in
theorem pairUser_eq (P : PairSet) (lt : AState → AState → Bool) (hlt : StrictTotal lt) (E : AState → ℝ) (t : AState × AState) :
    pairUser P lt E t = if Fits P t then (if PartnerMissing P t then .throw else if Stands P lt t then .ok (some (energyAdded E t, entriesAdded P t)) else .ok none)
      else .ok none := by
  unfold pairUser
  dsimp only
  rw [show P.sym.local_ (t.1.isArt || t.2.isArt) = P.symFor t from rfl]
  by_cases hf : Fits P t
  · have hf' := (fits_iff P t).1 hf
    rw [if_neg hf'.1, if_neg hf'.2, if_pos hf]
    by_cases hp : PartnerMissing P t
    · rw [if_pos hp, if_pos]
      exact ⟨(symFor_exch P t).2 hp.2.1, by simpa using hp.2.2.1, hp.2.2.2⟩
    · rw [if_neg hp, if_neg (fun hh => hp ⟨hf, (symFor_exch P t).1 hh.1, by simpa using hh.2.1, hh.2.2⟩)]
      by_cases hs : Stands P lt t
      · rw [if_pos hs, if_neg (by rw [(stands_iff P lt hlt t).1 hs]; simp)]
        show Out.ok (some (energyAdded E t, _)) = _
        unfold entriesAdded
        rw [symFor_swapS]
        by_cases hx : Exchanges P t ∧ t.1 ≠ t.2
        · have : ((P.symFor t).inv ≠ .na ∨ (P.symFor t).perm ≠ .na) ∧ decide (t.1 ≠ t.2) = true := ⟨(symFor_exch P t).2 hx.1, by simpa using hx.2⟩
          rw [if_pos this, if_pos ⟨this.2, this.1⟩, if_pos hx]; rfl
        · have : ¬ (((P.symFor t).inv ≠ .na ∨ (P.symFor t).perm ≠ .na) ∧ decide (t.1 ≠ t.2) = true) :=
            fun hh => hx ⟨(symFor_exch P t).1 hh.1, by simpa using hh.2⟩
          rw [if_neg this, if_neg (fun hh => this ⟨hh.2, hh.1⟩), if_neg hx]; rfl
      · rw [if_neg hs, if_pos]
        by_contra hn
        exact hs ((stands_iff P lt hlt t).2 (by simpa using hn))
  · rw [if_neg hf]
    by_cases h1 : (P.symFor t).rotExcludes (totalM t) = true
    · rw [if_pos h1]
    · rw [if_neg h1, if_pos]
      by_contra h2
      exact hf ((fits_iff P t).2 ⟨h1, h2⟩)

open Classical in
theorem pairUsers_eq (P : PairSet) (lt : AState → AState → Bool) (hlt : StrictTotal lt) (E : AState → ℝ) (ts : List (AState × AState)) :
    pairUsers P lt E ts = if ∃ t ∈ ts, PartnerMissing P t then .throw else
      .ok ((ts.filter fun t => decide (Fits P t ∧ Stands P lt t)).map fun t => (energyAdded E t, entriesAdded P t)) := by
  induction ts with
  | nil => simp [pairUsers]
  | cons t ts ih =>
    unfold pairUsers
    rw [pairUser_eq P lt hlt, ih]
    have hex : (∃ u ∈ t :: ts, PartnerMissing P u) ↔ PartnerMissing P t ∨ ∃ u ∈ ts, PartnerMissing P u := by simp
    by_cases hm : PartnerMissing P t
    · rw [if_pos hm.1, if_pos hm, if_pos (hex.2 (Or.inl hm))]
    · have hex' : (∃ u ∈ t :: ts, PartnerMissing P u) ↔ ∃ u ∈ ts, PartnerMissing P u := by rw [hex]; exact or_iff_right hm
      rw [if_neg hm]
      by_cases hf : Fits P t
      · rw [if_pos hf]
        by_cases hs : Stands P lt t
        · rw [if_pos hs, List.filter_cons_of_pos (by simpa using ⟨hf, hs⟩)]
          by_cases hr : ∃ u ∈ ts, PartnerMissing P u
          · rw [if_pos hr, if_pos (hex'.2 hr)]
          · rw [if_neg hr, if_neg (fun hh => hr (hex'.1 hh))]; rfl
        · rw [if_neg hs, List.filter_cons_of_neg (by simpa using fun _ => hs)]
          by_cases hr : ∃ u ∈ ts, PartnerMissing P u
          · rw [if_pos hr, if_pos (hex'.2 hr)]
          · rw [if_neg hr, if_neg (fun hh => hr (hex'.1 hh))]
      · rw [if_neg hf, List.filter_cons_of_neg (by simpa using fun hh => absurd hh hf)]
        by_cases hr : ∃ u ∈ ts, PartnerMissing P u
        · rw [if_pos hr, if_pos (hex'.2 hr)]
        · rw [if_neg hr, if_neg (fun hh => hr (hex'.1 hh))]

/-! ## Removing small vectors and states -/

theorem statesOf_append (A B : List PEntry) (h : ∀ p ∈ B.map (·.1), p ∉ A.map (·.1)) : statesOf (A ++ B) = statesOf A ++ statesOf B := by
  have aux : ∀ (B : List PEntry) (l m : List (AState × AState)), (∀ p ∈ B.map (·.1), p ∉ l) →
      B.foldl (fun l e => if e.1 ∈ l then l else l ++ [e.1]) (l ++ m) = l ++ B.foldl (fun l e => if e.1 ∈ l then l else l ++ [e.1]) m := by
    intro B
    induction B with
    | nil => intro l m _; rfl
    | cons e B ih =>
      intro l m hl
      have he : e.1 ∉ l := hl _ (by simp)
      rw [List.foldl_cons, List.foldl_cons]
      by_cases hm : e.1 ∈ m
      · rw [if_pos (List.mem_append_right _ hm), if_pos hm]
        exact ih l m fun p hp => hl p (by rw [List.map_cons]; exact List.mem_cons_of_mem _ hp)
      · rw [if_neg (by rw [List.mem_append, not_or]; exact ⟨he, hm⟩), if_neg hm, List.append_assoc]
        exact ih l (m ++ [e.1]) fun p hp => hl p (by rw [List.map_cons]; exact List.mem_cons_of_mem _ hp)
  unfold statesOf
  rw [List.foldl_append]
  have := aux B (statesOf A) [] fun p hp hn => h p hp ((mem_statesOf A p).1 hn)
  rw [List.append_nil] at this
  exact this

theorem statesOf_nodup (A : List PEntry) (h : (A.map (·.1)).Nodup) : statesOf A = A.map (·.1) := by
  induction A with
  | nil => rfl
  | cons e A ih =>
    rw [List.map_cons, List.nodup_cons] at h
    have : statesOf ([e] ++ A) = statesOf [e] ++ statesOf A := by
      refine statesOf_append _ _ fun p hp hn => ?_
      simp only [List.map_cons, List.map_nil, List.mem_singleton] at hn
      exact h.1 (hn ▸ hp)
    rw [List.singleton_append] at this
    rw [this, ih h.2]
    rfl

theorem prune_append (thr : ℝ) (cs us : List (ℝ × List PEntry))
    (h : ∀ p ∈ (us.flatMap (·.2)).map (·.1), p ∉ (cs.flatMap (·.2)).map (·.1)) :
    (prunePairs thr (cs ++ us)).states = (prunePairs thr cs).states ++ (prunePairs thr us).states ∧
    (prunePairs thr (cs ++ us)).cols = (prunePairs thr cs).cols ++ (prunePairs thr us).cols := by
  set A := cs.flatMap (·.2) with hA
  set B := us.flatMap (·.2) with hB
  have hAB : (cs ++ us).flatMap (·.2) = A ++ B := by rw [List.flatMap_append]
  have hst : statesOf (A ++ B) = statesOf A ++ statesOf B := statesOf_append A B h
  have wA : ∀ p ∈ statesOf A, weightP (A ++ B) p = weightP A p := by
    intro p hp
    rw [weightP_append, weightP_of_not_mem B p (fun hh => h p hh ((mem_statesOf A p).1 hp)), add_zero]
  have wB : ∀ p ∈ statesOf B, weightP (A ++ B) p = weightP B p := by
    intro p hp
    rw [weightP_append, weightP_of_not_mem A p (h p ((mem_statesOf B p).1 hp)), zero_add]
  have hk : (statesOf (A ++ B)).filter (fun p => decide (thr < weightP (A ++ B) p)) =
      (statesOf A).filter (fun p => decide (thr < weightP A p)) ++ (statesOf B).filter (fun p => decide (thr < weightP B p)) := by
    rw [hst, List.filter_append]
    congr 1
    · exact List.filter_congr fun p hp => by rw [wA p hp]
    · exact List.filter_congr fun p hp => by rw [wB p hp]
  have cA : ∀ c ∈ cs, ∀ p ∈ statesOf B, coefP c.2 p = 0 := by
    intro c hc p hp
    refine coefP_of_not_mem _ _ fun hh => h p ((mem_statesOf B p).1 hp) ?_
    obtain ⟨e, he, rfl⟩ := List.mem_map.1 hh
    exact List.mem_map_of_mem (List.mem_flatMap.2 ⟨c, hc, he⟩)
  have cB : ∀ c ∈ us, ∀ p ∈ statesOf A, coefP c.2 p = 0 := by
    intro c hc p hp
    refine coefP_of_not_mem _ _ fun hh => h p ?_ ((mem_statesOf A p).1 hp)
    obtain ⟨e, he, rfl⟩ := List.mem_map.1 hh
    exact List.mem_map_of_mem (List.mem_flatMap.2 ⟨c, hc, he⟩)
  have zero : ∀ (L : List (AState × AState)) (es : List PEntry), (∀ p ∈ L, coefP es p = 0) → (L.map fun p => Complex.normSq (coefP es p)).sum = 0 := by
    intro L es hL
    rw [List.map_congr_left (g := fun _ => (0 : ℝ)) (fun p hp => by rw [hL p hp]; simp)]
    simp
  unfold prunePairs
  dsimp only
  rw [hAB, hk, ← hA, ← hB]
  refine ⟨rfl, ?_⟩
  rw [List.filter_append, List.map_append, hst]
  congr 1
  · have hf : cs.filter (fun c => decide (thr < ((statesOf A ++ statesOf B).map fun p => Complex.normSq (coefP c.2 p)).sum)) =
        cs.filter (fun c => decide (thr < ((statesOf A).map fun p => Complex.normSq (coefP c.2 p)).sum)) :=
      List.filter_congr fun c hc => by rw [List.map_append, List.sum_append, zero (statesOf B) c.2 (cA c hc), add_zero]
    rw [hf]
    refine List.map_congr_left fun c hc => ?_
    have hc := (List.mem_filter.1 hc).1
    congr 1
    funext p
    by_cases h1 : p ∈ (statesOf A).filter (fun p => decide (thr < weightP A p))
    · rw [if_pos (List.mem_append_left _ h1), if_pos h1]
    · rw [if_neg h1]
      by_cases h2 : p ∈ (statesOf B).filter (fun p => decide (thr < weightP B p))
      · rw [if_pos (List.mem_append_right _ h2), cA c hc p (List.mem_filter.1 h2).1]
      · rw [if_neg (by rw [List.mem_append, not_or]; exact ⟨h1, h2⟩)]
  · have hf : us.filter (fun c => decide (thr < ((statesOf A ++ statesOf B).map fun p => Complex.normSq (coefP c.2 p)).sum)) =
        us.filter (fun c => decide (thr < ((statesOf B).map fun p => Complex.normSq (coefP c.2 p)).sum)) :=
      List.filter_congr fun c hc => by rw [List.map_append, List.sum_append, zero (statesOf A) c.2 (cB c hc), zero_add]
    rw [hf]
    refine List.map_congr_left fun c hc => ?_
    have hc := (List.mem_filter.1 hc).1
    congr 1
    funext p
    by_cases h1 : p ∈ (statesOf B).filter (fun p => decide (thr < weightP B p))
    · rw [if_pos (List.mem_append_right _ h1), if_pos h1]
    · rw [if_neg h1]
      by_cases h2 : p ∈ (statesOf A).filter (fun p => decide (thr < weightP A p))
      · rw [if_pos (List.mem_append_left _ h2), cB c hc p (List.mem_filter.1 h2).1]
      · rw [if_neg (by rw [List.mem_append, not_or]; exact ⟨h2, h1⟩)]

open Classical in
/-- Specification: the states that occur in the vector of an added state. -/
noncomputable def statesAdded (P : PairSet) (t : AState × AState) : List (AState × AState) :=
  if Exchanges P t ∧ t.1 ≠ t.2 then [t, (t.2, t.1)] else [t]

theorem entriesAdded_keys (P : PairSet) (t : AState × AState) : (entriesAdded P t).map (·.1) = statesAdded P t := by
  unfold entriesAdded statesAdded
  split <;> rfl

theorem exSign_sq (P : PairSet) (t : AState × AState) : exSign P t * exSign P t = 1 := by
  rw [← symFor_swapS]; exact swapS_sq _ _

theorem entriesAdded_coef (P : PairSet) (t p : AState × AState) : coefP (entriesAdded P t) p = vecAdded P t p := by
  unfold entriesAdded vecAdded
  by_cases h : Exchanges P t ∧ t.1 ≠ t.2
  · rw [if_pos h, if_pos h, coefP_cons, coefP_cons, coefP_nil, add_zero]
    congr 1
    · simp only [eq_comm]
    · simp only [eq_comm, swapP]
      split_ifs
      · ring
      · rfl
  · rw [if_neg h, if_neg h, coefP_cons, coefP_nil, add_zero]
    simp only [eq_comm]

theorem exchanges_swap {P : PairSet} {t : AState × AState} (h : Exchanges P t) : Exchanges P (t.2, t.1) := by
  rcases h with h | h
  · exact Or.inl ⟨h.2.1, h.1, h.2.2⟩
  · exact Or.inr h

theorem sqrt2_normSq : Complex.normSq (1 / (Real.sqrt 2 : ℂ)) = 1 / 2 := by
  rw [Complex.normSq_div, Complex.normSq_one, Complex.normSq_ofReal, Real.mul_self_sqrt (by norm_num)]

theorem entriesAdded_big (P : PairSet) (t : AState × AState) : ∀ e ∈ entriesAdded P t, 1 / 2 ≤ Complex.normSq e.2 := by
  intro e he
  unfold entriesAdded at he
  by_cases h : Exchanges P t ∧ t.1 ≠ t.2
  · rw [if_pos h] at he
    simp only [List.mem_cons, List.not_mem_nil, or_false] at he
    rcases he with rfl | rfl
    · rw [sqrt2_normSq]
    · dsimp only
      have h1 : Complex.normSq ((exSign P t : ℤ) : ℂ) = 1 := by
        have : ((exSign P t : ℤ) : ℂ) = (((exSign P t : ℤ) : ℝ) : ℂ) := by push_cast; rfl
        rw [this, Complex.normSq_ofReal]
        exact_mod_cast exSign_sq P t
      rw [Complex.normSq_mul, sqrt2_normSq, h1]; norm_num
  · rw [if_neg h, List.mem_singleton] at he
    rw [he]; simp; norm_num

open Classical in
theorem keys_nodup (P : PairSet) (lt : AState → AState → Bool) (hlt : StrictTotal lt) (ts : List (AState × AState)) (hn : ts.Nodup)
    (hs : ∀ t ∈ ts, Stands P lt t) : (ts.flatMap (statesAdded P)).Nodup := by
  rw [List.nodup_flatMap]
  constructor
  · intro t _
    unfold statesAdded
    by_cases h : Exchanges P t ∧ t.1 ≠ t.2
    · rw [if_pos h]
      simp only [List.nodup_cons, List.mem_singleton, List.not_mem_nil, not_false_eq_true, List.nodup_nil, and_true]
      intro he
      exact h.2 (congrArg Prod.fst he)
    · rw [if_neg h]; simp
  · refine List.Pairwise.imp_of_mem ?_ hn
    intro t u ht hu htu p hpt hpu
    have key : ∀ t, p ∈ statesAdded P t → p = t ∨ (p = (t.2, t.1) ∧ Exchanges P t ∧ t.1 ≠ t.2) := by
      intro t h
      unfold statesAdded at h
      by_cases hx : Exchanges P t ∧ t.1 ≠ t.2
      · rw [if_pos hx] at h
        simp only [List.mem_cons, List.not_mem_nil, or_false] at h
        rcases h with h | h
        · exact Or.inl h
        · exact Or.inr ⟨h, hx⟩
      · rw [if_neg hx, List.mem_singleton] at h
        exact Or.inl h
    have clash : ∀ t u, Stands P lt t → Stands P lt u → Exchanges P t → t.1 ≠ t.2 → u = (t.2, t.1) → False := by
      rintro t u h1 h2 hx hne rfl
      have a := (h1 hx).1 hne
      have b := (h2 (exchanges_swap hx)).1 (fun h => hne h.symm)
      dsimp only at b
      rw [hlt.asymm _ _ a] at b
      cases b
    rcases key t hpt with h1 | ⟨h1, hx, hne⟩ <;> rcases key u hpu with h2 | ⟨h2, hx', hne'⟩
    · exact htu (h1.symm.trans h2)
    · exact clash u t (hs u hu) (hs t ht) hx' hne' (h1.symm.trans h2)
    · exact clash t u (hs t ht) (hs u hu) hx hne (h2.symm.trans h1)
    · have : (t.2, t.1) = (u.2, u.1) := h1.symm.trans h2
      exact htu (Prod.ext (congrArg Prod.snd this) (congrArg Prod.fst this))

theorem flatMap_keys (P : PairSet) (E : AState → ℝ) (ts : List (AState × AState)) :
    ((ts.map fun t => (energyAdded E t, entriesAdded P t)).flatMap (·.2)).map (·.1) = ts.flatMap (statesAdded P) := by
  rw [List.flatMap_map, List.map_flatMap]
  dsimp only
  simp_rw [entriesAdded_keys]

theorem prune_users (P : PairSet) (E : AState → ℝ) (ts : List (AState × AState)) (thr : ℝ) (h1 : thr < 1 / 2)
    (hn : (ts.flatMap (statesAdded P)).Nodup) :
    prunePairs thr (ts.map fun t => (energyAdded E t, entriesAdded P t)) = ⟨ts.flatMap (statesAdded P), ts.map fun t => (energyAdded E t, vecAdded P t)⟩ := by
  set us := ts.map fun t => (energyAdded E t, entriesAdded P t) with hus
  have hkeys : (us.flatMap (·.2)).map (·.1) = ts.flatMap (statesAdded P) := flatMap_keys P E ts
  have hst : statesOf (us.flatMap (·.2)) = ts.flatMap (statesAdded P) := by rw [statesOf_nodup _ (by rw [hkeys]; exact hn), hkeys]
  have hkept : (statesOf (us.flatMap (·.2))).filter (fun p => decide (thr < weightP (us.flatMap (·.2)) p)) = ts.flatMap (statesAdded P) := by
    rw [hst, List.filter_eq_self]
    intro p hp
    rw [decide_eq_true_eq]
    rw [← hkeys] at hp
    obtain ⟨e, he, rfl⟩ := List.mem_map.1 hp
    have hb : 1 / 2 ≤ Complex.normSq e.2 := by
      obtain ⟨c, hc, hec⟩ := List.mem_flatMap.1 he
      obtain ⟨t, -, rfl⟩ := List.mem_map.1 hc
      exact entriesAdded_big P t e hec
    have : Complex.normSq e.2 ≤ weightP (us.flatMap (·.2)) e.1 := by
      unfold weightP
      refine List.single_le_sum ?_ _ (List.mem_map.2 ⟨e, he, if_pos rfl⟩)
      intro x hx
      obtain ⟨f, -, rfl⟩ := List.mem_map.1 hx
      split_ifs
      · exact Complex.normSq_nonneg _
      · exact le_refl _
    linarith
  unfold prunePairs
  dsimp only
  rw [hkept, hst]
  congr 1
  have hall : us.filter (fun c => decide (thr < ((ts.flatMap (statesAdded P)).map fun p => Complex.normSq (coefP c.2 p)).sum)) = us := by
    rw [List.filter_eq_self]
    intro c hc
    obtain ⟨t, ht, rfl⟩ := List.mem_map.1 hc
    rw [decide_eq_true_eq]
    dsimp only
    have hmem : t ∈ ts.flatMap (statesAdded P) := List.mem_flatMap.2 ⟨t, ht, by unfold statesAdded; split_ifs <;> simp⟩
    have hv : 1 / 2 ≤ Complex.normSq (coefP (entriesAdded P t) t) := by
      rw [entriesAdded_coef]
      unfold vecAdded
      by_cases h : Exchanges P t ∧ t.1 ≠ t.2
      · rw [if_pos h, if_pos rfl, if_neg (fun he => h.2 (congrArg Prod.fst he)), add_zero, sqrt2_normSq]
      · rw [if_neg h, if_pos rfl]; simp; norm_num
    have := List.single_le_sum (l := (ts.flatMap (statesAdded P)).map fun p => Complex.normSq (coefP (entriesAdded P t) p))
      (by intro x hx; obtain ⟨f, -, rfl⟩ := List.mem_map.1 hx; exact Complex.normSq_nonneg _) _ (List.mem_map.2 ⟨t, hmem, rfl⟩)
    linarith
  rw [hall, hus, List.map_map]
  refine List.map_congr_left fun t ht => ?_
  dsimp only [Function.comp]
  congr 1
  funext p
  rw [← entriesAdded_coef]
  split_ifs with hp
  · rfl
  · refine (coefP_of_not_mem _ _ fun hh => hp ?_).symm
    rw [entriesAdded_keys] at hh
    exact List.mem_flatMap.2 ⟨t, ht, hh⟩

/-! ## The theorems -/

/-- **C106.** For all one-atom systems, symmetries, windows and selections, if the pair basis can be built without the user-defined states: a user-defined state
with a physical part of the wrong species, or one that is already in the list of states (before states with small weight are removed), or one whose exchanged
state is needed for the chosen symmetries but was not added, makes the build throw. -/
theorem C106_refused (P : PairSet) (lt : AState → AState → Bool) (hlt : StrictTotal lt) (E : AState → ℝ) (S1 S2 : OneSys) (B0 B1 : PairBasis)
    (h0 : pairBuild P.without lt E S1 S2 = .ok B0) (h1 : pairBuild P.unpruned lt E S1 S2 = .ok B1) (t : AState × AState) (ht : t ∈ P.toAdd)
    (hbad : WrongSpecies P t ∨ t ∈ B1.states ∨ PartnerMissing P t) : pairBuild P lt E S1 S2 = .throw := by
  obtain ⟨cs, hcs, -, hlen, -, -⟩ := without_ok h0
  obtain ⟨cs', hcs', hst⟩ := unpruned_ok h1
  have : cs' = cs := Out.ok.inj (hcs'.symm.trans hcs)
  subst this
  unfold pairBuild
  rw [hcs]
  dsimp only
  rw [if_neg (by omega)]
  by_cases hok : P.toAdd.all (userPairOk P (statesOf (cs'.flatMap (·.2)))) = false
  · rw [if_pos hok]
  rw [if_neg hok]
  have hall := List.all_eq_true.1 (by simpa using hok) t ht
  unfold userPairOk at hall
  rw [Bool.and_assoc, Bool.and_eq_true, speciesOk_iff, decide_eq_true_eq, ← hst] at hall
  rcases hbad with h | h | h
  · exact absurd h hall.2
  · exact absurd h hall.1
  · rw [pairUsers_eq P lt hlt, if_pos ⟨t, ht, h⟩]

open Classical in
/-- **C106.** For all one-atom systems, symmetries, windows and selections, if the pair basis can be built without the user-defined states and no user-defined
state is refused: the basis is that one, followed by one vector for each user-defined state that belongs to the chosen momenta and symmetries (for a state and
the exchanged one: one vector), with the sum of the one-atom energies; the vector is the state itself, or the combination of the state and the exchanged one
that the symmetry asks for. The energy window does not apply to user-defined states. -/
theorem C106_added (P : PairSet) (lt : AState → AState → Bool) (hlt : StrictTotal lt) (E : AState → ℝ) (S1 S2 : OneSys) (B0 B1 : PairBasis)
    (h0 : pairBuild P.without lt E S1 S2 = .ok B0) (h1 : pairBuild P.unpruned lt E S1 S2 = .ok B1) (hn : P.toAdd.Nodup) (hthr : P.thr < 1 / 2)
    (hok : ∀ t ∈ P.toAdd, ¬ WrongSpecies P t ∧ t ∉ B1.states ∧ ¬ PartnerMissing P t) :
    ∃ B, pairBuild P lt E S1 S2 = .ok B ∧ B.states = B0.states ++ (addedReps P lt).flatMap (statesAdded P) ∧
      B.cols = B0.cols ++ (addedReps P lt).map fun t => (energyAdded E t, vecAdded P t) := by
  obtain ⟨cs, hcs, hB0, hlen, hne1, hne2⟩ := without_ok h0
  obtain ⟨cs', hcs', hst⟩ := unpruned_ok h1
  have : cs' = cs := Out.ok.inj (hcs'.symm.trans hcs)
  subst this
  have hreps : ∀ t ∈ addedReps P lt, t ∈ P.toAdd ∧ Fits P t ∧ Stands P lt t := by
    intro t ht
    unfold addedReps at ht
    rw [List.mem_filter, decide_eq_true_eq] at ht
    exact ht
  have hnk : ((addedReps P lt).flatMap (statesAdded P)).Nodup :=
    keys_nodup P lt hlt _ (hn.filter _) fun t ht => (hreps t ht).2.2
  have hsub : ∀ p ∈ (addedReps P lt).flatMap (statesAdded P), p ∈ P.toAdd := by
    intro p hp
    obtain ⟨t, ht, hpt⟩ := List.mem_flatMap.1 hp
    obtain ⟨h1, h2, -⟩ := hreps t ht
    unfold statesAdded at hpt
    by_cases hx : Exchanges P t ∧ t.1 ≠ t.2
    · rw [if_pos hx] at hpt
      simp only [List.mem_cons, List.not_mem_nil, or_false] at hpt
      rcases hpt with rfl | rfl
      · exact h1
      · by_contra hnot
        exact (hok t h1).2.2 ⟨h2, hx.1, hx.2, hnot⟩
    · rw [if_neg hx, List.mem_singleton] at hpt
      exact hpt ▸ h1
  set us := (addedReps P lt).map fun t => (energyAdded E t, entriesAdded P t) with hus
  have hkeys : (us.flatMap (·.2)).map (·.1) = (addedReps P lt).flatMap (statesAdded P) := flatMap_keys P E _
  have hdis : ∀ p ∈ (us.flatMap (·.2)).map (·.1), p ∉ (cs'.flatMap (·.2)).map (·.1) := by
    intro p hp hc
    rw [hkeys] at hp
    refine (hok p (hsub p hp)).2.1 ?_
    rw [hst, mem_statesOf]
    exact hc
  obtain ⟨p1, p2⟩ := prune_append P.thr cs' us hdis
  rw [prune_users P E _ P.thr hthr hnk] at p1 p2
  dsimp only at p1 p2
  rw [← hB0] at p1 p2
  refine ⟨prunePairs P.thr (cs' ++ us), ?_, p1, p2⟩
  unfold pairBuild
  rw [hcs]
  dsimp only
  rw [if_neg (by omega), if_neg]
  · rw [pairUsers_eq P lt hlt, if_neg (by rintro ⟨t, ht, hm⟩; exact (hok t ht).2.2 hm)]
    dsimp only
    rw [show ((P.toAdd.filter fun t => decide (Fits P t ∧ Stands P lt t)).map fun t => (energyAdded E t, entriesAdded P t)) = us from rfl]
    rw [if_neg, if_neg]
    · rw [p1, p2, not_or]
      exact ⟨fun h => hne1 (List.append_eq_nil_iff.1 h).1, fun h => hne2 (List.append_eq_nil_iff.1 h).1⟩
    · rw [List.flatMap_append, statesOf_append _ _ hdis, List.length_append, statesOf_nodup (us.flatMap (·.2)) (by rw [hkeys]; exact hnk), hkeys]
      have : ((addedReps P lt).flatMap (statesAdded P)).length ≤ P.toAdd.length := (hnk.subperm hsub).length_le
      omega
  · rw [Bool.not_eq_false, List.all_eq_true]
    intro t ht
    obtain ⟨a, b, -⟩ := hok t ht
    unfold userPairOk
    rw [Bool.and_assoc, Bool.and_eq_true, speciesOk_iff, decide_eq_true_eq, ← hst]
    exact ⟨b, a⟩

end PI
