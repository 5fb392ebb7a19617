import Verif.Sys.LookupModel
import Verif.Sys.Add
import Verif.SysOne.LifeThm

/-!
# C103: looking up states
-/

namespace PI

theorem find_states {σ : Type} [DecidableEq σ] {s : SysB σ} (h : s.WF) (st : σ) (i : ℕ) :
    (s.states.find? fun e => decide (e.2 = st)).map Prod.fst = some i ↔ s.getStates[i]? = some st := by
  have hget : ∀ k (e : ℕ × σ), s.states[k]? = some e → e.1 = k := by
    intro k e hk
    have h1 : (s.states.map Prod.fst)[k]? = some e.1 := by rw [List.getElem?_map, hk]; rfl
    have hlt : k < s.states.length := (List.getElem?_eq_some_iff.1 hk).1
    rw [h.idx, List.getElem?_range hlt] at h1
    exact (Option.some.inj h1).symm
  unfold SysB.getStates
  constructor
  · intro hf
    obtain ⟨e, he, rfl⟩ := Option.map_eq_some_iff.1 hf
    have hm := List.mem_of_find?_eq_some he
    have hp : e.2 = st := by simpa using List.find?_some he
    obtain ⟨k, hk⟩ := List.getElem?_of_mem hm
    rw [hget k e hk, List.getElem?_map, hk, Option.map_some, hp]
  · intro hg
    rw [List.getElem?_map] at hg
    obtain ⟨e, he, rfl⟩ := Option.map_eq_some_iff.1 hg
    have hlt : i < s.states.length := (List.getElem?_eq_some_iff.1 he).1
    cases hf : s.states.find? fun e' => decide (e'.2 = e.2) with
    | none =>
      have := List.find?_eq_none.1 hf e (List.mem_of_getElem? he)
      simp at this
    | some e' =>
      have hm := List.mem_of_find?_eq_some hf
      have hp : e'.2 = e.2 := by simpa using List.find?_some hf
      obtain ⟨k, hk⟩ := List.getElem?_of_mem hm
      have hlt' : k < s.states.length := (List.getElem?_eq_some_iff.1 hk).1
      have : k = i := by
        refine (List.Nodup.getElem_inj_iff h.nodup (hi := by simpa using hlt') (hj := by simpa using hlt)).1 ?_
        have a := (List.getElem?_eq_some_iff.1 hk).2
        have b := (List.getElem?_eq_some_iff.1 he).2
        simp only [List.getElem_map, a, b, hp]
      rw [Option.map_some, hget k e' hk, this]

/-- **C103, one state.** For all systems with numbered, distinct states and all states asked for: the index is `i` if and only if the state is not a wildcard and is the `i`-th of
`getStates()`; otherwise the call throws. -/
theorem C103_state_index {σ : Type} [DecidableEq σ] (gen : σ → Bool) (s : SysB σ) (h : s.WF) (st : σ) :
    (∀ i, s.stateIndex gen st = .ok i ↔ gen st = false ∧ s.getStates[i]? = some st) ∧
    (s.stateIndex gen st = .throw ↔ gen st = true ∨ st ∉ s.getStates) ∧ s.stateIndex gen st ≠ .ub := by
  have hf := find_states h st
  have hmem : st ∈ s.getStates ↔ ∃ i, s.getStates[i]? = some st := List.mem_iff_getElem?
  unfold SysB.stateIndex
  by_cases hg : gen st = true
  · rw [if_pos hg]
    refine ⟨fun i => ⟨fun h => (by cases h), fun h => (by rw [hg] at h; cases h.1)⟩, ⟨fun _ => Or.inl hg, fun _ => rfl⟩, by intro h; cases h⟩
  · rw [if_neg hg]
    have hg' : gen st = false := by simpa using hg
    cases hx : s.states.find? fun e => decide (e.2 = st) with
    | none =>
      have hno : st ∉ s.getStates := by
        rw [hmem]
        rintro ⟨i, hi⟩
        rw [← hf, hx] at hi
        cases hi
      dsimp only
      refine ⟨fun i => ⟨fun h => (by cases h), fun h => absurd (List.mem_of_getElem? h.2) hno⟩, ⟨fun _ => Or.inr hno, fun _ => rfl⟩, by intro h; cases h⟩
    | some e =>
      have he : s.getStates[e.1]? = some st := by rw [← hf, hx]; rfl
      dsimp only
      refine ⟨fun i => ?_, ⟨fun h => (by cases h), fun h => ?_⟩, by intro h; cases h⟩
      · rw [← hf, hx, Option.map_some]
        constructor
        · intro h; injection h with h; exact ⟨hg', by rw [h]⟩
        · rintro ⟨-, h⟩; injection h with h; rw [h]
      · rcases h with h | h
        · exact absurd h hg
        · exact absurd (List.mem_of_getElem? he) h

theorem stateIndices_go {σ : Type} [DecidableEq σ] (gen : σ → Bool) (s : SysB σ) (sts : List σ) :
    s.stateIndices gen sts =
    foldOut (fun l st => match s.stateIndex gen st with | .ok i => .ok (l ++ [i]) | .throw => .throw | .ub => .ub) [] sts := by
  unfold SysB.stateIndices
  congr 1
  funext l st
  unfold SysB.stateIndex
  by_cases hg : gen st = true
  · rw [if_pos hg, if_pos hg]
  · rw [if_neg hg, if_neg hg]
    cases s.states.find? fun e => decide (e.2 = st) <;> rfl

/-- **C103, list of states.** For all systems and lists: the call succeeds if and only if the call for each member does, and then returns their indices in the order of the
list; otherwise it throws. -/
theorem C103_state_indices {σ : Type} [DecidableEq σ] (gen : σ → Bool) (s : SysB σ) (h : s.WF) (sts : List σ) :
    (∀ is, s.stateIndices gen sts = .ok is ↔ List.Forall₂ (fun st i => gen st = false ∧ s.getStates[i]? = some st) sts is) ∧
    (s.stateIndices gen sts = .throw ↔ ∃ st ∈ sts, gen st = true ∨ st ∉ s.getStates) ∧ s.stateIndices gen sts ≠ .ub := by
  rw [stateIndices_go]
  have key : ∀ (sts : List σ) (l : List ℕ), let r := foldOut (fun l st => match s.stateIndex gen st with | .ok i => Out.ok (l ++ [i]) | .throw => .throw | .ub => .ub) l sts
      (∀ is, r = .ok is ↔ ∃ js, is = l ++ js ∧ List.Forall₂ (fun st i => gen st = false ∧ s.getStates[i]? = some st) sts js) ∧
      (r = .throw ↔ ∃ st ∈ sts, gen st = true ∨ st ∉ s.getStates) ∧ r ≠ .ub := by
    intro sts
    induction sts with
    | nil =>
      intro l r
      have hr : r = .ok l := rfl
      rw [hr]
      refine ⟨fun is => ?_, ⟨fun h => (by cases h), fun ⟨_, h, _⟩ => (by cases h)⟩, by intro h; cases h⟩
      constructor
      · intro h; injection h with h; exact ⟨[], by rw [List.append_nil, h], .nil⟩
      · rintro ⟨js, rfl, hj⟩; cases hj; rw [List.append_nil]
    | cons st sts ih =>
      intro l r
      obtain ⟨c1, c2, c3⟩ := C103_state_index gen s h st
      cases hx : s.stateIndex gen st with
      | ub => exact absurd hx c3
      | throw =>
        have hr : r = .throw := by show foldOut _ l (st :: sts) = _; unfold foldOut; simp only [hx]
        have hbad := c2.1 hx
        refine ⟨fun is => ⟨fun h' => (by rw [hr] at h'; cases h'), ?_⟩, ⟨fun _ => ⟨st, List.mem_cons_self, hbad⟩, fun _ => hr⟩, by rw [hr]; intro h'; cases h'⟩
        rintro ⟨js, -, hj⟩
        cases hj with
        | cons h1 _ =>
          rcases hbad with hb | hb
          · rw [h1.1] at hb; cases hb
          · exact absurd (List.mem_of_getElem? h1.2) hb
      | ok i =>
        have hi := (c1 i).1 hx
        have hr : r = foldOut (fun l st => match s.stateIndex gen st with | .ok i => Out.ok (l ++ [i]) | .throw => .throw | .ub => .ub) (l ++ [i]) sts := by
          show foldOut _ l (st :: sts) = _
          conv_lhs => unfold foldOut
          simp only [hx]
        obtain ⟨i1, i2, i3⟩ := ih (l ++ [i])
        rw [hr]
        refine ⟨fun is => ?_, ?_, i3⟩
        · rw [i1]
          constructor
          · rintro ⟨js, rfl, hj⟩
            exact ⟨i :: js, by simp, .cons hi hj⟩
          · rintro ⟨js, rfl, hj⟩
            cases hj with
            | @cons _ j _ js h1 h2 =>
              have : s.stateIndex gen st = .ok j := (c1 j).2 h1
              rw [hx] at this
              injection this with this
              subst this
              exact ⟨js, by simp, h2⟩
        · rw [i2]
          constructor
          · rintro ⟨t, ht, hb⟩
            exact ⟨t, List.mem_cons_of_mem _ ht, hb⟩
          · rintro ⟨t, ht, hb⟩
            rcases List.mem_cons.1 ht with rfl | ht
            · exfalso
              rcases hb with hb | hb
              · rw [hi.1] at hb; cases hb
              · exact hb (List.mem_of_getElem? hi.2)
            · exact ⟨t, ht, hb⟩
  obtain ⟨k1, k2, k3⟩ := key sts []
  refine ⟨fun is => ?_, k2, k3⟩
  rw [k1]
  simp

/-- **C103, reachable systems.** For all histories of calls on a new one-atom system, including failed ones: if the last getter succeeded, every state of `getStates()` that is no
wildcard is found at its own position, and nothing else is found. -/
theorem C103_one_atom (e : OneEnv) (h : List OneOp) (hok : ((OneAtomObj.fresh.run e h).2.step e .get).1 = false) (st : AState) (i : ℕ) :
    let s := ((OneAtomObj.fresh.run e h).2.step e .get).2.sys
    s.stateIndex AState.isGen st = .ok i ↔ st.isGen = false ∧ s.getStates[i]? = some st :=
  (C103_state_index AState.isGen _ (C98_getter_ok e h hok).1 st).1 i

/-- **C103, overlaps by index.** For all systems and all lists of row numbers of the system: the call succeeds, and the overlap of a basis vector is the sum of its squared
coefficients at these rows; with all rows it is the squared norm. -/
theorem C103_overlap_at {σ : Type} (s : SysB σ) (h : s.WF) (ix : List ℕ) (hix : ∀ x ∈ ix, x < s.getStates.length) :
    s.overlapsAt ix = .ok ((List.range s.V.cols).map fun k => (ix.map fun x => Complex.normSq (s.V.val x k)).sum) ∧
    s.overlapsAt (List.range s.getStates.length) = .ok ((List.range s.V.cols).map s.V.colNorm) := by
  have hl : s.getStates.length = s.V.rows := by unfold SysB.getStates; rw [List.length_map, h.rows]
  have key : ∀ ix : List ℕ, (∀ x ∈ ix, x < s.getStates.length) →
      s.overlapsAt ix = .ok ((List.range s.V.cols).map fun k => (ix.map fun x => Complex.normSq (s.V.val x k)).sum) := by
    intro ix hix
    unfold SysB.overlapsAt
    rw [if_neg]
    · congr 1
      refine List.map_congr_left fun k _ => ?_
      rw [getOverlap_eq _ _ (fun x hx => by rw [← hl]; exact hix x hx)]
    · simp only [List.any_eq_true, decide_eq_true_eq, not_exists, not_and, not_le]
      intro x hx
      rw [← hl]
      exact hix x hx
  refine ⟨key ix hix, ?_⟩
  rw [key _ (fun x hx => List.mem_range.1 hx)]
  congr 1
  refine List.map_congr_left fun k _ => ?_
  unfold Mat.colNorm
  rw [hl, Finset.sum_range, ← List.sum_ofFn, List.ofFn_eq_map, ← List.map_coe_finRange_eq_range, List.map_map]
  rfl

/-- **C103, overlaps by state.** For all systems and all lists of plain states of the system: asking with the states and asking with their indices is the same; states that are not in
the system, asked for in addition, change nothing. -/
theorem C103_overlap_of {σ : Type} [DecidableEq σ] (gen : σ → Bool) (sub : σ → σ → Bool) (s : SysB σ) (h : s.WF) (sts : List σ) (is : List ℕ)
    (hok : s.stateIndices gen (sts.filter fun st => decide (st ∈ s.getStates)) = .ok is) (hg : ∀ st ∈ sts, gen st = false) :
    s.overlapsOf gen sub sts = s.overlapsAt is := by
  unfold SysB.overlapsOf
  congr 1
  rw [(C103_state_indices gen s h _).1] at hok
  unfold overlapIndices
  induction sts generalizing is with
  | nil => cases hok; rfl
  | cons st sts ih =>
    have hg0 := hg st List.mem_cons_self
    rw [List.map_cons, List.flatMap_cons, if_neg (by rw [hg0]; simp)]
    dsimp only
    by_cases hm : st ∈ s.getStates
    · rw [List.filter_cons_of_pos (by simpa using hm)] at hok
      cases hok with
      | @cons _ i _ is h1 h2 =>
        have hf := (find_states h st i).2 h1.2
        rw [hf, ih is h2 (fun st hst => hg st (List.mem_cons_of_mem _ hst))]
        rfl
    · rw [List.filter_cons_of_neg (by simpa using hm)] at hok
      have hn : (s.states.find? fun e => decide (e.2 = st)) = none := by
        rw [List.find?_eq_none]
        intro e he hc
        have : e.2 = st := by simpa using hc
        exact hm (this ▸ List.mem_map_of_mem he)
      rw [hn, ih is hok (fun st hst => hg st (List.mem_cons_of_mem _ hst))]
      rfl

/-- **C103, violated: row numbers are not checked.** An index that is no row of the system is accepted by `getOverlap` and written through (undefined behaviour), for every system. -/
theorem C103_overlap_index_fails {σ : Type} (s : SysB σ) (h : s.WF) : s.overlapsAt [s.getStates.length] = .ub := by
  unfold SysB.overlapsAt
  have hl : s.getStates.length = s.V.rows := by unfold SysB.getStates; rw [List.length_map, h.rows]
  rw [if_pos (by simp [hl])]

theorem oneStatesSet_go (f : AState × AState → AState) (states : List (ℕ × (AState × AState))) (l : List AState) (hl : l.Nodup) :
    (states.foldl (fun l e => if f e.2 ∈ l then l else l ++ [f e.2]) l).Nodup ∧
    ∀ a, a ∈ states.foldl (fun l e => if f e.2 ∈ l then l else l ++ [f e.2]) l ↔ a ∈ l ∨ ∃ e ∈ states, f e.2 = a := by
  induction states generalizing l with
  | nil => simp [hl]
  | cons e states ih =>
    rw [List.foldl_cons]
    by_cases hm : f e.2 ∈ l
    · rw [if_pos hm]
      refine ⟨(ih l hl).1, fun a => ?_⟩
      rw [(ih l hl).2 a]
      constructor
      · rintro (h | ⟨x, hx, rfl⟩)
        · exact Or.inl h
        · exact Or.inr ⟨x, List.mem_cons_of_mem _ hx, rfl⟩
      · rintro (h | ⟨x, hx, rfl⟩)
        · exact Or.inl h
        · rcases List.mem_cons.1 hx with rfl | hx
          · exact Or.inl hm
          · exact Or.inr ⟨x, hx, rfl⟩
    · rw [if_neg hm]
      have hl' : (l ++ [f e.2]).Nodup := List.Nodup.append hl (List.nodup_singleton _) (by simpa using hm)
      refine ⟨(ih _ hl').1, fun a => ?_⟩
      rw [(ih _ hl').2 a, List.mem_append, List.mem_singleton]
      constructor
      · rintro ((h | rfl) | ⟨x, hx, rfl⟩)
        · exact Or.inl h
        · exact Or.inr ⟨e, List.mem_cons_self, rfl⟩
        · exact Or.inr ⟨x, List.mem_cons_of_mem _ hx, rfl⟩
      · rintro (h | ⟨x, hx, rfl⟩)
        · exact Or.inl (Or.inl h)
        · rcases List.mem_cons.1 hx with rfl | hx
          · exact Or.inl (Or.inr rfl)
          · exact Or.inr ⟨x, hx, rfl⟩

/-- **C103, states of the atoms.** For all pair systems and every order in which the hash table lists its members: `getStatesFirst` returns every state that is the first of a pair state of
the system, and nothing else, once; `getStatesSecond` the same for the second. So every pair state of the system is made of a returned first and a returned second state. -/
theorem C103_atom_states (order : List AState → List AState) (ho : ∀ l, (order l).Perm l) (s : SysB (AState × AState)) :
    (statesFirst order s).Nodup ∧ (statesSecond order s).Nodup ∧
    (∀ a, a ∈ statesFirst order s ↔ ∃ b, (a, b) ∈ s.getStates) ∧ (∀ b, b ∈ statesSecond order s ↔ ∃ a, (a, b) ∈ s.getStates) := by
  have h1 := oneStatesSet_go Prod.fst s.states [] List.nodup_nil
  have h2 := oneStatesSet_go Prod.snd s.states [] List.nodup_nil
  refine ⟨((ho _).nodup_iff).2 h1.1, ((ho _).nodup_iff).2 h2.1, fun a => ?_, fun a => ?_⟩
  · refine ((ho _).mem_iff.trans (h1.2 a)).trans ?_
    unfold SysB.getStates
    constructor
    · rintro (h | ⟨e, he, rfl⟩)
      · cases h
      · exact ⟨e.2.2, List.mem_map.2 ⟨e, he, rfl⟩⟩
    · rintro ⟨b, hb⟩
      obtain ⟨e, he, hab⟩ := List.mem_map.1 hb
      exact Or.inr ⟨e, he, by rw [hab]⟩
  · refine ((ho _).mem_iff.trans (h2.2 a)).trans ?_
    unfold SysB.getStates
    constructor
    · rintro (h | ⟨e, he, rfl⟩)
      · cases h
      · exact ⟨e.2.1, List.mem_map.2 ⟨e, he, rfl⟩⟩
    · rintro ⟨b, hb⟩
      obtain ⟨e, he, hab⟩ := List.mem_map.1 hb
      exact Or.inr ⟨e, he, by rw [hab]⟩

/-! ## Wildcards as states -/

/-- The state 61 S 1/2 with any m. -/
def wildState : AState := .phys "Rb" 61 0 1 ARB2

theorem wild_build (cplx : Bool) (S : OneSet) (hn : S.rangeN = {1}) (hl : S.rangeL = ∅) (hj : S.rangeJ = ∅) (hm : S.rangeM = ∅) (h1 : S.energyMin = none)
    (h2 : S.energyMax = none) (hr : S.symRefl = .na) (ha : S.toAdd = [wildState]) (hrot : S.symRot = none) :
    ∃ b, S.build cplx "Rb" 1 (fun _ _ _ => 0) = .ok b ∧ wildState ∈ b.states := by
  obtain ⟨b, hb, -⟩ := exN_ok { S with toAdd := [] } cplx hn hl hj hm h1 h2 hr rfl (Or.inl hrot)
  have hfit : ({ S with toAdd := [] } : OneSet).Fits 1 := by constructor <;> intro x hx <;> simp_all
  have hnot : wildState ∉ b.states := by
    rw [(C26_one_atom_basis_partial cplx _ "Rb" 1 (by decide) _ hfit hr List.nodup_nil b hb).2.1]
    rintro (⟨n, l, j, m, h, hw⟩ | ⟨h, -⟩)
    · injection h with _ h2 h3 h4 h5
      subst h2
      have : (61 : ℤ) ∈ S.rangeN := hw.inN
      rw [hn] at this
      simp at this
    · cases h
  have hfold : foldOut (addCandidate cplx S "Rb" (fun _ _ _ => 0)) ⟨[], []⟩ (S.candidates 1 fun _ _ _ => 0) = .ok b := by
    have hc : ({ S with toAdd := [] } : OneSet).candidates 1 (fun _ _ _ => 0) = S.candidates 1 (fun _ _ _ => 0) := rfl
    have ha' : addCandidate cplx ({ S with toAdd := [] } : OneSet) "Rb" (fun _ _ _ => 0) = addCandidate cplx S "Rb" (fun _ _ _ => 0) := rfl
    unfold OneSet.build at hb
    rw [if_neg (by rw [hn]; simp), hc, ha'] at hb
    cases hx : foldOut (addCandidate cplx S "Rb" (fun _ _ _ => 0)) ⟨[], []⟩ (S.candidates 1 fun _ _ _ => 0) with
    | ok b' =>
      rw [hx] at hb
      dsimp only at hb
      rw [if_neg (by simp)] at hb
      unfold foldOut at hb
      dsimp only at hb
      split_ifs at hb
      injection hb with hb
      rw [hb]
    | throw => rw [hx] at hb; cases hb
    | ub => rw [hx] at hb; cases hb
  have hidx : b.states.idxOf? wildState = none := by
    rw [List.idxOf?_eq_none_iff]; exact hnot
  refine ⟨⟨b.states ++ [wildState], b.cols ++ [(0, [(b.states.length, 1)])]⟩, ?_, by simp⟩
  unfold OneSet.build
  rw [if_neg (by rw [hn]; simp), hfold, ha]
  dsimp only
  rw [if_neg (by simp [userOk, hnot]; simp [wildState])]
  have hadd : addUser cplx S (fun _ _ _ => 0) b wildState = .ok ⟨b.states ++ [wildState], b.cols ++ [(0, [(b.states.length, 1)])]⟩ := by
    unfold wildState addUser
    dsimp only
    rw [if_neg (by simp [OneSet.rotExcludes, hrot]), if_neg (by simp [hr])]
    unfold addSym
    dsimp only
    rw [if_pos (Or.inl hr)]
    unfold addRow
    rw [show b.states.idxOf? (AState.phys "Rb" 61 0 1 ARB2) = none from hidx]
  unfold foldOut
  rw [hadd]
  dsimp only
  unfold foldOut
  dsimp only
  rw [if_neg (by simp)]

/-- **C103, violated: wildcards as states.** `addStates` accepts the wildcard "61 S 1/2, any m": all calls succeed, the basis contains a state with the momentum 32767, which is no state of
an atom; `getStates()` returns it and `getStateIndex` of it throws. -/
theorem C103_wildcard_fails (cplx : Bool) :
    let r := OneAtomObj.fresh.run (exEnv cplx) [.restrictN {1}, .addStates wildState, .get]
    r.1 = [false, false, false] ∧ wildState ∈ r.2.sys.getStates ∧ r.2.sys.stateIndex AState.isGen wildState = .throw := by
  intro r
  have hh : OneOp.get ∉ [OneOp.restrictN {1}, .addStates wildState] := by simp
  obtain ⟨-, -, -, hiff, hget⟩ := C98_first_get (exEnv cplx) [.restrictN {1}, .addStates wildState] hh
  obtain ⟨b, hb, hmem⟩ := wild_build cplx (OneAtomObj.fresh.run (exEnv cplx) [.restrictN {1}, .addStates wildState]).2.set rfl rfl rfl rfl rfl rfl rfl
    (by show insertState (exEnv cplx).lt wildState [] = _; simp [insertState]) rfl
  obtain ⟨hs, hst, -⟩ := hget b hb
  have hr : r = ([false, false, ((OneAtomObj.fresh.run (exEnv cplx) [.restrictN {1}, .addStates wildState]).2.step (exEnv cplx) .get).1],
      ((OneAtomObj.fresh.run (exEnv cplx) [.restrictN {1}, .addStates wildState]).2.step (exEnv cplx) .get).2) := rfl
  rw [hr, hs]
  refine ⟨rfl, ?_, ?_⟩
  · show wildState ∈ b.toSys.states.map Prod.snd
    rw [hst]; exact hmem
  · unfold SysB.stateIndex
    rw [if_pos (by decide)]

/-- The rows of all states with a property. -/
theorem overlapsOf_wild {σ : Type} [DecidableEq σ] (gen : σ → Bool) (sub : σ → σ → Bool) (s : SysB σ) (h : s.WF) (q : σ) (hg : gen q = true) :
    s.overlapsOf gen sub [q] = s.overlapsAt ((List.range s.getStates.length).filter fun i => (s.getStates[i]?).any fun st => sub st q) := by
  unfold SysB.overlapsOf overlapIndices
  congr 1
  simp only [List.map_cons, List.map_nil, hg, if_true, List.flatMap_cons, List.flatMap_nil, List.append_nil]
  have hl : s.getStates.length = s.states.length := by unfold SysB.getStates; rw [List.length_map]
  have hi := h.idx
  rw [hl, ← hi, List.filter_map]
  congr 1
  apply List.filter_congr
  intro e he
  obtain ⟨k, hk, hke⟩ := List.mem_iff_getElem.1 he
  have h1 : (s.states.map Prod.fst)[k]? = some e.1 := by rw [List.getElem?_map, List.getElem?_eq_getElem hk, hke]; rfl
  rw [hi, List.getElem?_range hk] at h1
  have h2 : s.getStates[e.1]? = some e.2 := by
    unfold SysB.getStates
    rw [← Option.some.inj h1, List.getElem?_map, List.getElem?_eq_getElem hk, hke]; rfl
  simp only [Function.comp, h2, Option.any_some]

/-- **C103, wildcards.** For all well-formed systems of one atom and all queried states with a wildcard, and for all well-formed pair systems and all queried pair states with
a wildcard in both atoms: the overlaps are those with all states of `getStates` that agree with the query at all quantum numbers that are no wildcard. -/
theorem C103_wildcards (s : SysB AState) (h : s.WF) (q : AState) (hg : q.isGen = true) (s2 : SysB (AState × AState)) (h2 : s2.WF) (q2 : AState × AState)
    (hg1 : q2.1.isGen = true) (hg2 : q2.2.isGen = true) :
    s.overlapsOf AState.isGen AState.within [q] = s.overlapsAt ((List.range s.getStates.length).filter fun i => (s.getStates[i]?).any fun st => st.within q) ∧
    s2.overlapsOf genTwo withinTwo [q2] =
      s2.overlapsAt ((List.range s2.getStates.length).filter fun i => (s2.getStates[i]?).any fun st => st.1.within q2.1 && st.2.within q2.2) :=
  ⟨overlapsOf_wild _ _ s h q hg, overlapsOf_wild _ _ s2 h2 q2 (by unfold genTwo; rw [hg1, hg2]; rfl)⟩

/-- What `^` decides for physical states: equal where the right one has no wildcard. -/
theorem C103_within (s s' : String) (n l j m n' l' j' m' : ℤ) :
    (AState.phys s n l j m).within (.phys s' n' l' j' m') = true ↔
    s = s' ∧ (n' ≠ ARB → n = n') ∧ (l' ≠ ARB → l = l') ∧ (j' ≠ ARB2 → j = j') ∧ (m' ≠ ARB2 → m = m') := by
  simp only [AState.within, Bool.and_eq_true, Bool.or_eq_true, decide_eq_true_eq]
  constructor
  · rintro ⟨⟨⟨⟨h1, h2⟩, h3⟩, h4⟩, h5⟩
    exact ⟨h1, fun h => h2.resolve_left h, fun h => h3.resolve_left h, fun h => h4.resolve_left h, fun h => h5.resolve_left h⟩
  · rintro ⟨h1, h2, h3, h4, h5⟩
    exact ⟨⟨⟨⟨h1, or_iff_not_imp_left.2 h2⟩, or_iff_not_imp_left.2 h3⟩, or_iff_not_imp_left.2 h4⟩, or_iff_not_imp_left.2 h5⟩

/-- **C103 fails for a wildcard in one atom only.** For all well-formed pair systems whose states have no wildcard and all queried pair states with a wildcard in one atom and
none in the other: all overlaps are zero, no matter how many states of the system agree with the query. The reason: `is_true` of the pair `isGeneralized` asks for both. -/
theorem C103_half_wildcard_fails (s : SysB (AState × AState)) (h : s.WF) (hno : ∀ st ∈ s.getStates, st.1.isGen = false ∧ st.2.isGen = false)
    (q : AState × AState) (hq : q.1.isGen ≠ q.2.isGen) :
    s.overlapsOf genTwo withinTwo [q] = .ok (List.replicate s.V.cols 0) := by
  have hg : genTwo q = false := by
    unfold genTwo
    cases h1 : q.1.isGen <;> cases h2 : q.2.isGen <;> simp_all
  have hmem : q ∉ s.getStates := by
    intro hm
    obtain ⟨h1, h2⟩ := hno q hm
    exact hq (h1.trans h2.symm)
  have h0 := C103_overlap_of genTwo withinTwo s h [q] [] (by
    rw [List.filter_cons_of_neg (by simpa using hmem)]; rfl) (by intro st hst; rw [List.mem_singleton.1 hst]; exact hg)
  rw [h0, (C103_overlap_at s h [] (by simp)).1]
  congr 1
  apply List.ext_getElem
  · simp
  · intro i h1 h2; simp

/-! ## Examples -/

/-- A system with the states a, b, c: the index of b is 1, d throws, and so does a list with d. -/
example : exSys.stateIndex (fun _ => false) "b" = .ok 1 ∧ exSys.stateIndex (fun _ => false) "d" = .throw ∧
    exSys.stateIndices (fun _ => false) ["c", "b", "c"] = .ok [2, 1, 2] ∧ exSys.stateIndices (fun _ => false) ["c", "d"] = .throw := by
  have h := fun st => C103_state_index (fun _ => false) exSys exSys_wf st
  have g := fun sts => C103_state_indices (fun _ => false) exSys exSys_wf sts
  refine ⟨((h "b").1 1).2 ⟨rfl, rfl⟩, (h "d").2.1.2 (Or.inr (by decide)), ((g _).1 _).2 ?_, (g _).2.1.2 ⟨"d", by simp, Or.inr (by decide)⟩⟩
  exact .cons ⟨rfl, rfl⟩ (.cons ⟨rfl, rfl⟩ (.cons ⟨rfl, rfl⟩ .nil))

/-- Asking for c, b and the unknown d is asking for the rows 2 and 1. -/
example : exSys.overlapsOf (fun _ => false) (fun _ _ => false) ["c", "d", "b"] = exSys.overlapsAt [2, 1] :=
  C103_overlap_of _ _ exSys exSys_wf ["c", "d", "b"] [2, 1]
    (((C103_state_indices (fun _ => false) exSys exSys_wf _).1 _).2 (.cons ⟨rfl, rfl⟩ (.cons ⟨rfl, rfl⟩ .nil))) (fun _ _ => rfl)

/-- All rows: the squared norms. -/
example : exSys.overlapsAt [0, 1, 2] = .ok ((List.range exSys.V.cols).map exSys.V.colNorm) := (C103_overlap_at exSys exSys_wf [] (by simp)).2

/-- A getter that succeeds (`exGet`), and a state that is found. -/
example : ∃ i, ((OneAtomObj.fresh.run (exEnv true) [.restrictN {1}]).2.step (exEnv true) .get).2.sys.stateIndex AState.isGen (.phys "Rb" 1 0 1 1) = .ok i := by
  obtain ⟨-, -, -, -, hget⟩ := C98_first_get (exEnv true) [.restrictN {1}] (by simp)
  obtain ⟨b, hb, hmem⟩ := exN_ok _ true (rfl : (OneAtomObj.fresh.run (exEnv true) [.restrictN {1}]).2.set.rangeN = {1}) rfl rfl rfl rfl rfl rfl rfl (Or.inl rfl)
  obtain ⟨hs, hst, -⟩ := hget b hb
  obtain ⟨i, hi⟩ := List.getElem?_of_mem hmem
  refine ⟨i, (C103_one_atom (exEnv true) [.restrictN {1}] (exGet true) _ i).2 ⟨by decide, ?_⟩⟩
  rw [hs]
  show (b.toSys.states.map Prod.snd)[i]? = _
  rw [hst]; exact hi

/-- A pair system of one state |Rb 60 S1/2 1/2; Rb 60 S1/2 1/2>. -/
noncomputable def exLookTwo : SysB (AState × AState) :=
  { states := [(0, (.phys "Rb" 60 0 1 1, .phys "Rb" 60 0 1 1))], V := Mat.ofTriplets 1 1 [(0, 0, 1)], H := Mat.ofTriplets 1 1 [], Vc := none, Hc := none }

/-- The state of the first atom given as a wildcard `m`, that of the second in full: agrees with the only state, but the overlap is zero; with wildcards in both atoms it is the overlap with row 0. -/
example : exLookTwo.overlapsOf genTwo withinTwo [(.phys "Rb" 60 0 1 ARB2, .phys "Rb" 60 0 1 1)] = .ok [0] ∧
    (AState.phys "Rb" 60 0 1 1).within (.phys "Rb" 60 0 1 ARB2) = true ∧
    exLookTwo.overlapsOf genTwo withinTwo [(.phys "Rb" 60 0 1 ARB2, .phys "Rb" 60 0 1 ARB2)] = exLookTwo.overlapsAt [0] := by
  have hwf : exLookTwo.WF := by
    constructor <;> first | rfl | (simp [exLookTwo])
  refine ⟨C103_half_wildcard_fails exLookTwo hwf ?_ _ (by decide), by decide, ?_⟩
  · intro st hst
    have : st = (.phys "Rb" 60 0 1 1, .phys "Rb" 60 0 1 1) := by simpa [exLookTwo, SysB.getStates] using hst
    rw [this]; decide
  · rw [overlapsOf_wild _ _ exLookTwo hwf _ (by decide)]
    congr 1

end PI
