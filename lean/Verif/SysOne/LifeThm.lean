import Verif.SysOne.Life

/-!
# C98: failed and repeated calls on a one-atom system, theorems
-/

namespace PI

/-! ## Histories -/

theorem run_nil (e : OneEnv) (o : OneAtomObj) : o.run e [] = ([], o) := rfl

theorem run_cons (e : OneEnv) (o : OneAtomObj) (x : OneOp) (h : List OneOp) :
    o.run e (x :: h) = ((o.step e x).1 :: ((o.step e x).2.run e h).1, ((o.step e x).2.run e h).2) := rfl

theorem run_append (e : OneEnv) (o : OneAtomObj) (h k : List OneOp) :
    o.run e (h ++ k) = ((o.run e h).1 ++ ((o.run e h).2.run e k).1, ((o.run e h).2.run e k).2) := by
  induction h generalizing o with
  | nil => rfl
  | cons x h ih => rw [List.cons_append, run_cons, ih, run_cons]; rfl

/-- Every getter in the history throws. -/
def OneAtomObj.allGetsThrow (e : OneEnv) (o : OneAtomObj) (h : List OneOp) : Prop :=
  ∀ i : ℕ, h[i]? = some .get → (o.run e h).1[i]? = some true

theorem allGetsThrow_nil (e : OneEnv) (o : OneAtomObj) : o.allGetsThrow e [] := by
  intro i hi; simp at hi

theorem allGetsThrow_cons {e : OneEnv} {o : OneAtomObj} {x : OneOp} {h : List OneOp} :
    o.allGetsThrow e (x :: h) ↔ (x = .get → (o.step e x).1 = true) ∧ (o.step e x).2.allGetsThrow e h := by
  unfold OneAtomObj.allGetsThrow
  constructor
  · intro H
    refine ⟨fun hx => ?_, fun i hi => ?_⟩
    · have := H 0 (by simp [hx])
      rw [run_cons] at this
      simpa using this
    · have := H (i + 1) (by simpa using hi)
      rw [run_cons] at this
      simpa using this
  · rintro ⟨h1, h2⟩ i hi
    rw [run_cons]
    cases i with
    | zero => simp only [List.getElem?_cons_zero, Option.some.injEq] at hi ⊢; exact h1 hi
    | succ i => simp only [List.getElem?_cons_succ] at hi ⊢; exact h2 i hi

theorem run_sys {e : OneEnv} {o : OneAtomObj} {h : List OneOp} (hg : OneOp.get ∉ h) : (o.run e h).2.sys = o.sys := by
  induction h generalizing o with
  | nil => rfl
  | cons x h ih =>
    rw [run_cons]
    dsimp only
    rw [ih (fun hm => hg (List.mem_cons_of_mem _ hm)), step_sys e o x (by rintro rfl; exact hg List.mem_cons_self)]

/-! ## Specification of the settings: of each kind of call the last one counts -/

/-- The last value that `f` finds in a history. -/
def lastCall {α : Type} (f : OneOp → Option α) (d : α) (h : List OneOp) : α := ((h.filterMap f).getLast?).getD d

def OneOp.asN : OneOp → Option (Finset ℤ) | .restrictN r => some r | _ => none
def OneOp.asL : OneOp → Option (Finset ℤ) | .restrictL r => some r | _ => none
def OneOp.asJ : OneOp → Option (Finset ℤ) | .restrictJ r => some r | _ => none
def OneOp.asM : OneOp → Option (Finset ℤ) | .restrictM r => some r | _ => none
def OneOp.asEnergy : OneOp → Option (Option ℝ × Option ℝ) | .restrictEnergy a b => some (a, b) | _ => none
def OneOp.asParity : OneOp → Option Par | .parity p => some p | _ => none
def OneOp.asMomenta : OneOp → Option (Option (Finset ℤ)) | .momenta ms => some ms | _ => none
def OneOp.asState : OneOp → Option AState | .addStates st => some st | _ => none

theorem lastCall_cons {α : Type} (f : OneOp → Option α) (d : α) (x : OneOp) (h : List OneOp) :
    lastCall f d (x :: h) = lastCall f ((f x).getD d) h := by
  unfold lastCall
  cases hx : f x with
  | none => rw [List.filterMap_cons_none hx]; rfl
  | some a =>
    rw [List.filterMap_cons_some hx]
    rw [List.getLast?_cons]
    rfl

/-- The settings after a history without getters on an object without states. -/
structure SettingsAfter (lt : AState → AState → Bool) (S : OneSet) (h : List OneOp) (S' : OneSet) : Prop where
  n : S'.rangeN = lastCall OneOp.asN S.rangeN h
  l : S'.rangeL = lastCall OneOp.asL S.rangeL h
  j : S'.rangeJ = lastCall OneOp.asJ S.rangeJ h
  m : S'.rangeM = lastCall OneOp.asM S.rangeM h
  energy : (S'.energyMin, S'.energyMax) = lastCall OneOp.asEnergy (S.energyMin, S.energyMax) h
  refl : S'.symRefl = lastCall OneOp.asParity S.symRefl h
  rot : S'.symRot = lastCall OneOp.asMomenta S.symRot h
  add : S'.toAdd = (h.filterMap OneOp.asState).foldl (fun L st => insertState lt st L) S.toAdd

theorem settings_run {e : OneEnv} {o : OneAtomObj} {h : List OneOp} (hg : OneOp.get ∉ h) (hs : o.sys.states = []) :
    SettingsAfter e.lt o.set h (o.run e h).2.set := by
  induction h generalizing o with
  | nil => exact ⟨rfl, rfl, rfl, rfl, rfl, rfl, rfl, rfl⟩
  | cons x h ih =>
    have hx : x ≠ .get := by rintro rfl; exact hg List.mem_cons_self
    have I := ih (o := (o.step e x).2) (fun hm => hg (List.mem_cons_of_mem _ hm)) (by rw [step_sys e o x hx, hs])
    rw [run_cons]
    dsimp only
    have hn : ¬ o.sys.states ≠ [] := by simp [hs]
    refine ⟨?_, ?_, ?_, ?_, ?_, ?_, ?_, ?_⟩
    · rw [I.n, lastCall_cons]; cases x <;> first | rfl | (unfold OneAtomObj.step; dsimp only; rw [if_neg hn]; rfl) | exact absurd rfl hx
    · rw [I.l, lastCall_cons]; cases x <;> first | rfl | (unfold OneAtomObj.step; dsimp only; rw [if_neg hn]; rfl) | exact absurd rfl hx
    · rw [I.j, lastCall_cons]; cases x <;> first | rfl | (unfold OneAtomObj.step; dsimp only; rw [if_neg hn]; rfl) | exact absurd rfl hx
    · rw [I.m, lastCall_cons]; cases x <;> first | rfl | (unfold OneAtomObj.step; dsimp only; rw [if_neg hn]; rfl) | exact absurd rfl hx
    · rw [I.energy, lastCall_cons]; cases x <;> first | rfl | (unfold OneAtomObj.step; dsimp only; rw [if_neg hn]; rfl) | exact absurd rfl hx
    · rw [I.refl, lastCall_cons]; cases x <;> first | rfl | (unfold OneAtomObj.step; dsimp only; rw [if_neg hn]; rfl) | exact absurd rfl hx
    · rw [I.rot, lastCall_cons]; cases x <;> first | rfl | (unfold OneAtomObj.step; dsimp only; rw [if_neg hn]; rfl) | exact absurd rfl hx
    · rw [I.add]; cases x <;> first | rfl | (unfold OneAtomObj.step; dsimp only; rw [if_neg hn]; rfl) | exact absurd rfl hx

theorem mem_insertState (lt : AState → AState → Bool) (st st' : AState) (L : List AState) : st' ∈ insertState lt st L ↔ st' = st ∨ st' ∈ L := by
  unfold insertState
  by_cases h : st ∈ L
  · rw [if_pos h]
    constructor
    · exact Or.inr
    · rintro (rfl | h') <;> assumption
  · rw [if_neg h, List.mem_orderedInsert]

theorem nodup_insertState (lt : AState → AState → Bool) (st : AState) {L : List AState} (hL : L.Nodup) : (insertState lt st L).Nodup := by
  unfold insertState
  by_cases h : st ∈ L
  · rw [if_pos h]; exact hL
  · rw [if_neg h]
    exact (List.perm_orderedInsert _ st L).nodup_iff.2 (List.nodup_cons.2 ⟨h, hL⟩)

theorem mem_foldl_insert (lt : AState → AState → Bool) (M L : List AState) (st : AState) :
    st ∈ M.foldl (fun L st => insertState lt st L) L ↔ st ∈ L ∨ st ∈ M := by
  induction M generalizing L with
  | nil => simp
  | cons a M ih => rw [List.foldl_cons, ih, mem_insertState, List.mem_cons]; tauto

theorem nodup_foldl_insert (lt : AState → AState → Bool) (M : List AState) {L : List AState} (hL : L.Nodup) :
    (M.foldl (fun L st => insertState lt st L) L).Nodup := by
  induction M generalizing L with
  | nil => exact hL
  | cons a M ih => exact ih (nodup_insertState lt a hL)

/-- **C98 (first getter).** Restrictions, symmetries and user-defined states on a new object, in any order, and then a getter: of every kind of setting the last call
counts, user-defined states add up; the getter throws exactly if the basis of these settings (C26) cannot be built, and otherwise the object holds that basis, with
states that are distinct, numbered in order and matched by the matrices, and no pending restrictions. -/
theorem C98_first_get (e : OneEnv) (h : List OneOp) (hg : OneOp.get ∉ h) :
    let o := (OneAtomObj.fresh.run e h).2
    SettingsAfter e.lt OneSet.fresh h o.set ∧ o.set.toAdd.Nodup ∧ (∀ st, st ∈ o.set.toAdd ↔ OneOp.addStates st ∈ h) ∧
    ((o.step e .get).1 = false ↔ ∃ b, o.set.build e.cplx e.sp e.s e.E = .ok b) ∧
    ∀ b, o.set.build e.cplx e.sp e.s e.E = .ok b →
      o.step e .get = (false, ⟨o.set.forget, b.toSys⟩) ∧ b.toSys.states.map Prod.snd = b.states ∧ b.toSys.WF := by
  intro o
  have hset : SettingsAfter e.lt OneSet.fresh h o.set := settings_run (e := e) (o := OneAtomObj.fresh) hg rfl
  have hsys : o.sys = OneAtomObj.fresh.sys := run_sys (e := e) (o := OneAtomObj.fresh) hg
  have hbl : o.Blank := by
    refine ⟨?_, ?_, ?_, ?_, ?_⟩ <;> rw [hsys] <;> rfl
  refine ⟨hset, ?_, ?_, ?_, ?_⟩
  · rw [hset.add]; exact nodup_foldl_insert _ _ List.nodup_nil
  · intro st
    rw [hset.add, mem_foldl_insert, List.mem_filterMap]
    constructor
    · rintro (h' | ⟨x, hx, hs⟩)
      · simp [OneSet.fresh] at h'
      · cases x <;> first | (cases hs; exact hx) | cases hs
    · intro hm; exact Or.inr ⟨_, hm, rfl⟩
  · show (o.buildBasis e).1 = false ↔ _
    rw [buildBasis_blank hbl]
    cases hi : initTr e o.set with
    | throw st =>
      simp only [Bool.true_eq_false, false_iff]
      rintro ⟨b, hb⟩
      have := ((initTr_build e o.set b).1 hb).1
      rw [hi] at this; cases this
    | ok b =>
      simp only [decide_eq_false_iff_not]
      constructor
      · intro hne
        exact ⟨b, (initTr_build e o.set b).2 ⟨hi, hne, fun hc => hne ((initTr_sound hi).2.2 hc)⟩⟩
      · rintro ⟨b', hb'⟩
        have := (initTr_build e o.set b').1 hb'
        rw [hi] at this
        injection this.1 with hbb
        subst hbb
        exact this.2.1
  · intro b hb
    have hb' := (initTr_build e o.set b).1 hb
    refine ⟨?_, ?_, toSys_wf (initTr_sound hb'.1)⟩
    · show o.buildBasis e = _
      rw [buildBasis_blank hbl, hb'.1]
      simp [hb'.2.1]
    · show (enumStates b.states).map Prod.snd = b.states
      unfold enumStates
      refine List.ext_getElem (by simp) fun i h1 h2 => ?_
      simp

/-! ## Successful getters -/

theorem built_of_ok {e : OneEnv} {o : OneAtomObj} (hk : o.Kind) (hok : (o.buildBasis e).1 = false) :
    (o.buildBasis e).2.Built ∧ (o.buildBasis e).2.set.idle := by
  rcases hk with h | h | h
  · have hb := buildBasis_blank (e := e) h
    cases hi : initTr e o.set with
    | throw st => rw [hi] at hb; rw [hb] at hok; cases hok
    | ok b =>
      rw [hi] at hb
      dsimp only at hb
      rw [hb] at hok ⊢
      have hne : b.states ≠ [] := by simpa using hok
      have hs := initTr_sound hi
      refine ⟨⟨toSys_wf hs, ?_, ?_⟩, forget_idle _⟩
      · show enumStates b.states ≠ []
        rw [Ne, enumStates_eq_nil]; exact hne
      · show b.cols.length ≠ 0
        rw [Ne, List.length_eq_zero_iff, ← hs.2]; exact hne
  · by_cases hi : o.set.idle
    · rw [buildBasis_idle h hi]; exact ⟨h, hi⟩
    · have hb := buildBasis_built (e := e) h hi
      by_cases ha : o.set.toAdd ≠ []
      · rw [if_pos ha] at hb; rw [hb] at hok; cases hok
      · rw [if_neg ha] at hb
        rw [hb] at hok ⊢
        simp only [decide_eq_false_iff_not, not_or] at hok
        have hw := update_wf h.wf o.set.pending
        refine ⟨⟨hw, ?_, hok.2⟩, forget_idle _⟩
        intro hnil
        apply hok.1
        rw [hw.rows]
        exact congrArg List.length hnil
  · rw [buildBasis_inconsistent h] at hok; cases hok

theorem run_gets {e : OneEnv} {o : OneAtomObj} (hb : o.Built) (hi : o.set.idle) (k : ℕ) :
    o.run e (List.replicate k .get) = (List.replicate k false, o) := by
  induction k with
  | zero => rfl
  | succ k ih =>
    have hs : o.step e .get = (false, o) := buildBasis_idle hb hi
    rw [List.replicate_succ, run_cons, hs, List.replicate_succ]
    dsimp only
    rw [ih]

/-- **C98 (successful getter).** Whatever was called before, and whatever threw: if a getter succeeds, the object has at least one state and one basis vector, distinct
states numbered in order, matrices of matching sizes and no pending restrictions; further getters succeed and change nothing; symmetries are refused and change nothing. -/
theorem C98_getter_ok (e : OneEnv) (h : List OneOp) (hok : ((OneAtomObj.fresh.run e h).2.step e .get).1 = false) :
    let o := ((OneAtomObj.fresh.run e h).2.step e .get).2
    o.sys.WF ∧ o.sys.states ≠ [] ∧ o.sys.V.cols ≠ 0 ∧ o.set.idle ∧
    (∀ k, o.run e (List.replicate k .get) = (List.replicate k false, o)) ∧
    (∀ p, o.step e (.parity p) = (true, o)) ∧ ∀ ms, o.step e (.momenta ms) = (true, o) := by
  intro o
  obtain ⟨hb, hi⟩ := built_of_ok (e := e) (kind_run e h _ (Or.inl blank_fresh)) hok
  refine ⟨hb.wf, hb.states, hb.cols, hi, run_gets hb hi, fun p => ?_, fun ms => ?_⟩
  · unfold OneAtomObj.step; dsimp only; exact if_pos hb.states
  · unfold OneAtomObj.step; dsimp only; exact if_pos hb.states

/-! ## Broken objects -/

theorem inconsistent_congr {o o' : OneAtomObj} (h : o'.sys = o.sys) (hi : o.inconsistent) : o'.inconsistent := by
  unfold OneAtomObj.inconsistent at hi ⊢; rw [h]; exact hi

theorem broken_run {e : OneEnv} {o : OneAtomObj} (hi : o.inconsistent) (h : List OneOp) : o.allGetsThrow e h ∧ (o.run e h).2.sys = o.sys := by
  induction h generalizing o with
  | nil => exact ⟨allGetsThrow_nil e o, rfl⟩
  | cons x h ih =>
    by_cases hx : x = .get
    · subst hx
      have hs : o.step e .get = (true, o) := buildBasis_inconsistent hi
      rw [allGetsThrow_cons, run_cons, hs]
      exact ⟨⟨fun _ => rfl, (ih hi).1⟩, (ih hi).2⟩
    · have hsys := step_sys e o x hx
      have := ih (inconsistent_congr hsys hi)
      rw [allGetsThrow_cons, run_cons]
      exact ⟨⟨fun h' => absurd h' hx, this.1⟩, this.2.trans hsys⟩

/-- **C98 (three kinds of objects).** After any history on a new object, the object has no basis, or a complete one, or it is broken for good: whatever is called
afterwards, every getter throws and states and matrices never change again. -/
theorem C98_kinds (e : OneEnv) (h : List OneOp) :
    let o := (OneAtomObj.fresh.run e h).2
    (o.sys.states = [] ∧ o.sys.V.rows = 0 ∧ o.sys.V.cols = 0 ∧ o.sys.H.rows = 0 ∧ o.sys.H.cols = 0) ∨
    (o.sys.WF ∧ o.sys.states ≠ [] ∧ o.sys.V.cols ≠ 0) ∨
    ∀ k : List OneOp, o.allGetsThrow e k ∧ (o.run e k).2.sys = o.sys := by
  intro o
  rcases kind_run e h _ (Or.inl blank_fresh) with hb | hb | hb
  · exact Or.inl ⟨hb.states, hb.rows, hb.cols, hb.hrows, hb.hcols⟩
  · exact Or.inr (Or.inl ⟨hb.wf, hb.states, hb.cols⟩)
  · exact Or.inr (Or.inr fun k => broken_run hb k)

/-! ## Retrying after failed getters -/

theorem fold_na_ok (e : OneEnv) (S : OneSet) (hr : S.symRefl = .na) (b : OneBasis) (L : List (ℤ × ℤ × ℤ × ℤ)) : ∃ b', foldTr (addCandidateT e S) b L = .ok b' := by
  induction L generalizing b with
  | nil => exact ⟨b, rfl⟩
  | cons c L ih =>
    rw [foldTr]
    have : addCandidateT e S b c = .ok ⟨(addRow b.states (.phys e.sp c.1 c.2.1 c.2.2.1 c.2.2.2)).1,
        b.cols ++ [(e.E c.1 c.2.1 c.2.2.1, [((addRow b.states (.phys e.sp c.1 c.2.1 c.2.2.1 c.2.2.2)).2, 1)])]⟩ := by
      unfold addCandidateT addSymT addSym
      simp [hr]
    rw [this]
    exact ih _

theorem blank_throw {e : OneEnv} {o : OneAtomObj} (hb : o.Blank) (hr : o.set.symRefl = .na) (ha : o.set.toAdd = []) (ht : (o.buildBasis e).1 = true) :
    (o.buildBasis e).2.Blank ∧ ((o.buildBasis e).2.set = o.set ∨ (o.buildBasis e).2.set = o.set.forget) := by
  have hB := buildBasis_blank (e := e) hb
  cases hi : initTr e o.set with
  | throw st =>
    rw [hi] at hB
    have hst : st = [] := by
      unfold initTr at hi
      by_cases hn : o.set.rangeN = ∅
      · rw [if_pos hn] at hi; injection hi with hi; exact hi.symm
      · rw [if_neg hn] at hi
        obtain ⟨b1, h1⟩ := fold_na_ok e o.set hr ⟨[], []⟩ (o.set.candidates e.s e.E)
        rw [h1, ha] at hi
        dsimp only at hi
        rw [if_neg (by simp)] at hi
        cases hi
    subst hst
    dsimp only at hB
    rw [hB]
    exact ⟨⟨rfl, hb.rows, hb.cols, hb.hrows, hb.hcols⟩, Or.inl rfl⟩
  | ok b =>
    rw [hi] at hB
    dsimp only at hB
    rw [hB] at ht ⊢
    have hnil : b.states = [] := by simpa using ht
    have hc : b.cols = [] := (initTr_sound hi).2.1 hnil
    refine ⟨⟨enumStates_eq_nil.2 hnil, ?_, ?_, ?_, ?_⟩, Or.inr rfl⟩
    · show b.states.length = 0; rw [hnil]; rfl
    all_goals show b.cols.length = 0; rw [hc]; rfl

/-- A restriction or a getter. -/
def OneOp.isPlain : OneOp → Bool
  | .addStates _ | .parity _ | .momenta _ => false
  | _ => true

theorem failed_stays_blank {e : OneEnv} {o : OneAtomObj} {h : List OneOp} (hp : ∀ x ∈ h, x.isPlain = true) (hb : o.Blank) (hr : o.set.symRefl = .na)
    (hrot : o.set.symRot = none) (ha : o.set.toAdd = []) (ht : o.allGetsThrow e h) :
    (o.run e h).2.Blank ∧ (o.run e h).2.set.symRefl = .na ∧ (o.run e h).2.set.symRot = none ∧ (o.run e h).2.set.toAdd = [] := by
  induction h generalizing o with
  | nil => exact ⟨hb, hr, hrot, ha⟩
  | cons x h ih =>
    rw [allGetsThrow_cons] at ht
    rw [run_cons]
    have hp' : ∀ y ∈ h, y.isPlain = true := fun y hy => hp y (List.mem_cons_of_mem _ hy)
    have hx := hp x List.mem_cons_self
    cases x with
    | get =>
      have ⟨h1, h2⟩ := blank_throw hb hr ha (ht.1 rfl)
      refine ih hp' h1 ?_ ?_ ?_ ht.2
      · rcases h2 with h2 | h2
        · exact (congrArg OneSet.symRefl h2).trans hr
        · exact (congrArg OneSet.symRefl h2).trans hr
      · rcases h2 with h2 | h2
        · exact (congrArg OneSet.symRot h2).trans hrot
        · exact (congrArg OneSet.symRot h2).trans hrot
      · rcases h2 with h2 | h2
        · exact (congrArg OneSet.toAdd h2).trans ha
        · exact congrArg OneSet.toAdd h2
    | addStates st => cases hx
    | parity p => cases hx
    | momenta ms => cases hx
    | restrictN r => exact ih hp' ⟨hb.1, hb.2, hb.3, hb.4, hb.5⟩ hr hrot ha ht.2
    | restrictL r => exact ih hp' ⟨hb.1, hb.2, hb.3, hb.4, hb.5⟩ hr hrot ha ht.2
    | restrictJ r => exact ih hp' ⟨hb.1, hb.2, hb.3, hb.4, hb.5⟩ hr hrot ha ht.2
    | restrictM r => exact ih hp' ⟨hb.1, hb.2, hb.3, hb.4, hb.5⟩ hr hrot ha ht.2
    | restrictEnergy a b => exact ih hp' ⟨hb.1, hb.2, hb.3, hb.4, hb.5⟩ hr hrot ha ht.2

theorem lastCall_indep {α : Type} (f : OneOp → Option α) (d d' : α) (h : List OneOp) (hx : ∃ x ∈ h, (f x).isSome) : lastCall f d h = lastCall f d' h := by
  unfold lastCall
  have hne : h.filterMap f ≠ [] := by
    obtain ⟨x, hx, hs⟩ := hx
    obtain ⟨a, ha⟩ := Option.isSome_iff_exists.1 hs
    exact List.ne_nil_of_mem (List.mem_filterMap.2 ⟨x, hx, ha⟩)
  rw [List.getLast?_eq_some_getLast hne]
  rfl

/-- The history contains a restriction of every kind. -/
def restrictsAll (h : List OneOp) : Prop :=
  (∃ r, OneOp.restrictN r ∈ h) ∧ (∃ r, OneOp.restrictL r ∈ h) ∧ (∃ r, OneOp.restrictJ r ∈ h) ∧ (∃ r, OneOp.restrictM r ∈ h) ∧ ∃ a b, OneOp.restrictEnergy a b ∈ h

/-- **C98 (retry, partial).** Restrictions and getters on a new object such that every getter throws, in any order and number; if then all five restrictions are
specified anew (and any symmetries and user-defined states), the getter does what it does on a new object with the same specification. Not so in general: a failed
getter may forget the restrictions (`C98_forgotten_fails`), may leave the object broken (`C98_real_scalar_fails`), and a refused symmetry stays
(`C98_refused_symmetry_fails`). -/
theorem C98_retry_partial (e : OneEnv) (h1 h2 : List OneOp) (hp : ∀ x ∈ h1, x.isPlain = true) (ht : OneAtomObj.fresh.allGetsThrow e h1) (hg : OneOp.get ∉ h2)
    (hall : restrictsAll h2) :
    let o := (OneAtomObj.fresh.run e (h1 ++ h2)).2
    let f := (OneAtomObj.fresh.run e h2).2
    o.set = f.set ∧ (o.step e .get).1 = (f.step e .get).1 ∧ ((f.step e .get).1 = false → (o.step e .get).2 = (f.step e .get).2) := by
  intro o f
  obtain ⟨hb, hr, hrot, ha⟩ := failed_stays_blank hp blank_fresh rfl rfl rfl ht
  have ho : o = ((OneAtomObj.fresh.run e h1).2.run e h2).2 := by show (OneAtomObj.fresh.run e (h1 ++ h2)).2 = _; rw [run_append]
  generalize hq : (OneAtomObj.fresh.run e h1).2 = q at *
  have hsets : o.set = f.set := by
    have A := settings_run (e := e) (o := q) hg hb.states
    have B := settings_run (e := e) (o := OneAtomObj.fresh) hg rfl
    rw [← ho] at A
    obtain ⟨⟨r1, m1⟩, ⟨r2, m2⟩, ⟨r3, m3⟩, ⟨r4, m4⟩, ⟨a, b, m5⟩⟩ := hall
    have e1 := (A.n.trans (lastCall_indep _ _ _ _ ⟨_, m1, rfl⟩)).trans B.n.symm
    have e2 := (A.l.trans (lastCall_indep _ _ _ _ ⟨_, m2, rfl⟩)).trans B.l.symm
    have e3 := (A.j.trans (lastCall_indep _ _ _ _ ⟨_, m3, rfl⟩)).trans B.j.symm
    have e4 := (A.m.trans (lastCall_indep _ _ _ _ ⟨_, m4, rfl⟩)).trans B.m.symm
    have e5 := (A.energy.trans (lastCall_indep _ _ _ _ ⟨_, m5, rfl⟩)).trans B.energy.symm
    have e6 : o.set.symRefl = f.set.symRefl := by rw [A.refl, hr]; exact B.refl.symm
    have e7 : o.set.symRot = f.set.symRot := by rw [A.rot, hrot]; exact B.rot.symm
    have e8 : o.set.toAdd = f.set.toAdd := by rw [A.add, ha]; exact B.add.symm
    change o.set.rangeN = f.set.rangeN at e1
    change o.set.rangeL = f.set.rangeL at e2
    change o.set.rangeJ = f.set.rangeJ at e3
    change o.set.rangeM = f.set.rangeM at e4
    change (o.set.energyMin, o.set.energyMax) = (f.set.energyMin, f.set.energyMax) at e5
    injection e5 with e5 e5'
    generalize o.set = S at *
    generalize f.set = T at *
    rcases S with ⟨⟩
    rcases T with ⟨⟩
    simp only at e1 e2 e3 e4 e5 e5' e6 e7 e8
    simp [e1, e2, e3, e4, e5, e5', e6, e7, e8]
  have hos : o.sys = q.sys := by rw [ho]; exact run_sys hg
  have hfs : f.sys = OneAtomObj.fresh.sys := run_sys hg
  have hob : o.Blank := by
    refine ⟨?_, ?_, ?_, ?_, ?_⟩ <;> rw [hos]
    exacts [hb.states, hb.rows, hb.cols, hb.hrows, hb.hcols]
  have hfb : f.Blank := by
    refine ⟨?_, ?_, ?_, ?_, ?_⟩ <;> rw [hfs] <;> rfl
  have h1' := buildBasis_blank (e := e) hob
  have h2' := buildBasis_blank (e := e) hfb
  rw [hsets] at h1'
  refine ⟨hsets, ?_, ?_⟩
  · show (o.buildBasis e).1 = (f.buildBasis e).1
    cases hi : initTr e f.set with
    | throw st => rw [hi] at h1' h2'; rw [h1', h2']
    | ok b => rw [hi] at h1' h2'; rw [h1', h2']
  · show (f.buildBasis e).1 = false → (o.buildBasis e).2 = (f.buildBasis e).2
    cases hi : initTr e f.set with
    | throw st => rw [hi] at h1' h2'; rw [h2']; intro h; cases h
    | ok b => rw [hi] at h1' h2'; rw [h1', h2']; intro _; rfl

/-! ## User-defined states after the basis was built -/

/-- Not a restriction. -/
def OneOp.noRestriction : OneOp → Bool
  | .addStates _ | .parity _ | .momenta _ | .get => true
  | _ => false

theorem keepsAdding {e : OneEnv} {o : OneAtomObj} (h : List OneOp) (hh : ∀ x ∈ h, x.noRestriction = true) (hb : o.Built) (ha : o.set.toAdd ≠ [])
    (hf : { o.set with toAdd := [] }.idle) : o.allGetsThrow e h ∧ (o.run e h).2.sys = o.sys := by
  induction h generalizing o with
  | nil => exact ⟨allGetsThrow_nil e o, rfl⟩
  | cons x h ih =>
    have hh' : ∀ y ∈ h, y.noRestriction = true := fun y hy => hh y (List.mem_cons_of_mem _ hy)
    have hx := hh x List.mem_cons_self
    rw [allGetsThrow_cons, run_cons]
    cases x with
    | get =>
      have hni : ¬ o.set.idle := fun hi => ha hi.1
      have hB := buildBasis_built (e := e) hb hni
      rw [if_pos ha] at hB
      have hp : o.set.pending = ⟨none, none, none, 0.05, true⟩ := by
        obtain ⟨-, hn, hl, hj, hm, he1, he2⟩ := hf
        change o.set.rangeN = ∅ at hn
        change o.set.rangeL = ∅ at hl
        change o.set.rangeJ = ∅ at hj
        change o.set.rangeM = ∅ at hm
        change o.set.energyMin = none at he1
        change o.set.energyMax = none at he2
        unfold OneSet.pending
        rw [if_pos ⟨hn, hl, hj, hm⟩, he1, he2]
        congr 1
        simpa using ha
      have hsame : (o.sys.updateQn o.set.pending).updateVec o.set.pending = o.sys := by
        rw [hp]
        unfold SysB.updateVec
        rw [if_pos ⟨rfl, rfl, rfl⟩]
        rfl
      rw [hsame] at hB
      have hs : o.step e .get = (true, o) := hB
      rw [hs]
      exact ⟨⟨fun _ => rfl, (ih hh' hb ha hf).1⟩, (ih hh' hb ha hf).2⟩
    | addStates st =>
      have := ih (o := (o.step e (.addStates st)).2) hh' ⟨hb.1, hb.2, hb.3⟩
        (List.ne_nil_of_mem ((mem_insertState e.lt st st o.set.toAdd).2 (Or.inl rfl))) hf
      exact ⟨⟨(fun h' => by cases h'), this.1⟩, this.2⟩
    | parity p =>
      have hs : o.step e (.parity p) = (true, o) := by unfold OneAtomObj.step; dsimp only; exact if_pos hb.states
      rw [hs]
      exact ⟨⟨(fun h' => by cases h'), (ih hh' hb ha hf).1⟩, (ih hh' hb ha hf).2⟩
    | momenta p =>
      have hs : o.step e (.momenta p) = (true, o) := by unfold OneAtomObj.step; dsimp only; exact if_pos hb.states
      rw [hs]
      exact ⟨⟨(fun h' => by cases h'), (ih hh' hb ha hf).1⟩, (ih hh' hb ha hf).2⟩
    | restrictN r => cases hx
    | restrictL r => cases hx
    | restrictJ r => cases hx
    | restrictM r => cases hx
    | restrictEnergy a b => cases hx

/-- **C98 fails** for user-defined states after the basis was built: after any successful getter, one `addStates` makes every later getter throw, as long as no
restriction is called; states and matrices are not changed, but can no longer be read. -/
theorem C98_add_after_build_fails (e : OneEnv) (h : List OneOp) (hok : ((OneAtomObj.fresh.run e h).2.step e .get).1 = false) (st : AState) (k : List OneOp)
    (hk : ∀ x ∈ k, x.noRestriction = true) :
    let o := (((OneAtomObj.fresh.run e h).2.step e .get).2.step e (.addStates st)).2
    o.allGetsThrow e k ∧ (o.run e k).2.sys = ((OneAtomObj.fresh.run e h).2.step e .get).2.sys := by
  intro o
  obtain ⟨hb, hi⟩ := built_of_ok (e := e) (kind_run e h _ (Or.inl blank_fresh)) hok
  exact keepsAdding k hk ⟨hb.1, hb.2, hb.3⟩ (List.ne_nil_of_mem ((mem_insertState e.lt st st _).2 (Or.inl rfl))) ⟨rfl, hi.2⟩

/-! ## Real scalars -/

theorem fold_real_throws {e : OneEnv} {S : OneSet} (hc : e.cplx = false) (hr : S.symRefl ≠ .na) (L : List (ℤ × ℤ × ℤ × ℤ)) (b : OneBasis)
    (hsym : ∀ c ∈ L, -c.2.2.2 ∈ S.allowedM c.2.2.1) (hpos : ∃ c ∈ L, 0 < c.2.2.2) : ∃ st, st ≠ [] ∧ foldTr (addCandidateT e S) b L = .throw st := by
  induction L generalizing b with
  | nil => obtain ⟨c, hc, -⟩ := hpos; cases hc
  | cons c L ih =>
    have hs := hsym c List.mem_cons_self
    have hstep : addCandidateT e S b c = addSymT e.cplx S.symRefl (.phys e.sp c.1 c.2.1 c.2.2.1 c.2.2.2) (e.E c.1 c.2.1 c.2.2.1) b := by
      unfold addCandidateT
      rw [if_neg (by rintro ⟨-, -, h⟩; exact h hs)]
    rw [foldTr, hstep]
    by_cases hm : 0 < c.2.2.2
    · have : addSymT e.cplx S.symRefl (.phys e.sp c.1 c.2.1 c.2.2.1 c.2.2.2) (e.E c.1 c.2.1 c.2.2.1) b = .throw (addRow b.states (.phys e.sp c.1 c.2.1 c.2.2.1 c.2.2.2)).1 := by
        unfold addSymT addSym
        dsimp only
        rw [if_neg (by rintro (h | h); exacts [hr h, by omega]), if_neg (by omega), if_pos hc]
      rw [this]
      exact ⟨_, addRow_ne_nil _ _, rfl⟩
    · have hpos' : ∃ c ∈ L, 0 < c.2.2.2 := by
        obtain ⟨d, hd, hdm⟩ := hpos
        rcases List.mem_cons.1 hd with rfl | hd
        · exact absurd hdm hm
        · exact ⟨d, hd, hdm⟩
      cases hf : addSymT e.cplx S.symRefl (.phys e.sp c.1 c.2.1 c.2.2.1 c.2.2.2) (e.E c.1 c.2.1 c.2.2.1) b with
      | ok b' => exact ih b' (fun d hd => hsym d (List.mem_cons_of_mem _ hd)) hpos'
      | throw st =>
        refine ⟨st, ?_, rfl⟩
        unfold addSymT at hf
        split at hf
        · cases hf
        · injection hf with hf; rw [← hf]; exact addRow_ne_nil _ _

/-- **C98 fails** for real scalars and a conserved parity: the getter throws after the first state was added, and the object is broken for good. All settings with a
parity, without restriction of m and with at least one state with m > 0. -/
theorem C98_real_scalar_fails (e : OneEnv) (h : List OneOp) (hg : OneOp.get ∉ h) (hc : e.cplx = false)
    (hr : (OneAtomObj.fresh.run e h).2.set.symRefl ≠ .na) (hm : (OneAtomObj.fresh.run e h).2.set.rangeM = ∅) (hrot : (OneAtomObj.fresh.run e h).2.set.symRot = none)
    (hpos : ∃ c ∈ (OneAtomObj.fresh.run e h).2.set.candidates e.s e.E, 0 < c.2.2.2) (k : List OneOp) :
    let o := (OneAtomObj.fresh.run e h).2
    (o.step e .get).1 = true ∧ (o.step e .get).2.allGetsThrow e k := by
  intro o
  have hsys : o.sys = OneAtomObj.fresh.sys := run_sys hg
  have hbl : o.Blank := by
    refine ⟨?_, ?_, ?_, ?_, ?_⟩ <;> rw [hsys] <;> rfl
  have hsym : ∀ c ∈ o.set.candidates e.s e.E, -c.2.2.2 ∈ o.set.allowedM c.2.2.1 := by
    rintro ⟨n, l, j, m⟩ hc
    have := ((mem_candidates _ _ _ _ _ _ _).1 hc).2.2.2.2.2.2.2.2.1
    dsimp only
    unfold OneSet.allowedM OneSet.adaptedM at this ⊢
    rw [hrot, hm] at this ⊢
    dsimp only at this ⊢
    rw [if_pos rfl, mem_rangeFlt] at this ⊢
    omega
  obtain ⟨st, hst, hth⟩ := fold_real_throws hc hr _ ⟨[], []⟩ hsym hpos
  have hn : o.set.rangeN ≠ ∅ := by
    obtain ⟨⟨n, l, j, m⟩, hc, -⟩ := hpos
    have := ((mem_candidates _ _ _ _ _ _ _).1 hc).1
    intro he
    rw [show (OneAtomObj.fresh.run e h).2.set.rangeN = ∅ from he] at this
    simp at this
  have hi : initTr e o.set = .throw st := by
    unfold initTr
    rw [if_neg hn, hth]
  have hB := buildBasis_blank (e := e) hbl
  rw [hi] at hB
  dsimp only at hB
  have hs : o.step e .get = (true, { o with sys := { o.sys with states := enumStates st } }) := hB
  rw [hs]
  refine ⟨rfl, (broken_run ?_ k).1⟩
  left
  show ¬ (o.sys.H.isEmpty ↔ enumStates st = [])
  rw [enumStates_eq_nil]
  unfold Mat.isEmpty
  simp [hbl.hrows, hst]

/-! ## Examples -/

/-- An atom with spin 1/2. -/
noncomputable def exEnv (cplx : Bool) : OneEnv := ⟨cplx, "Rb", 1, fun _ _ _ => 0, fun _ _ => false⟩

theorem exN_ok (S : OneSet) (cplx : Bool) (hn : S.rangeN = {1}) (hl : S.rangeL = ∅) (hj : S.rangeJ = ∅) (hm : S.rangeM = ∅) (h1 : S.energyMin = none) (h2 : S.energyMax = none)
    (hr : S.symRefl = .na) (ha : S.toAdd = []) (hrot : S.symRot = none ∨ S.symRot = some {1}) :
    ∃ b, S.build cplx "Rb" 1 (fun _ _ _ => 0) = .ok b ∧ AState.phys "Rb" 1 0 1 1 ∈ b.states := by
  have hfit : S.Fits 1 := by constructor <;> intro x hx <;> simp_all
  have hw : Wanted S 1 (fun _ _ _ => 0) 1 0 1 1 := by
    refine ⟨by decide, by decide, by decide, by decide, by decide, by decide, by decide, by rw [hn]; decide, Or.inl hl, Or.inl hj, Or.inl hm, ?_, ?_, ?_⟩
    · rw [h1]; intro a h; cases h
    · rw [h2]; intro a h; cases h
    · intro ms h
      rcases hrot with hr | hr
      · rw [hr] at h; cases h
      · rw [hr] at h; injection h with h; subst h; decide
  obtain ⟨b, hb⟩ := C26_build_succeeds cplx S "Rb" 1 (by decide) _ hfit hr ha _ _ _ _ hw
  refine ⟨b, hb, ?_⟩
  rw [(C26_one_atom_basis_partial cplx S "Rb" 1 (by decide) _ hfit hr (by rw [ha]; exact List.nodup_nil) b hb).2.1]
  exact Or.inl ⟨_, _, _, _, rfl, hw⟩

/-- A getter that succeeds. -/
theorem exGet (cplx : Bool) : ((OneAtomObj.fresh.run (exEnv cplx) [.restrictN {1}]).2.step (exEnv cplx) .get).1 = false := by
  refine (C98_first_get (exEnv cplx) [.restrictN {1}] (by simp)).2.2.2.1.2 ?_
  obtain ⟨b, hb, -⟩ := exN_ok _ cplx (rfl : (OneAtomObj.fresh.run (exEnv cplx) [.restrictN {1}]).2.set.rangeN = {1}) rfl rfl rfl rfl rfl rfl rfl (Or.inl rfl)
  exact ⟨b, hb⟩

/-- The hypotheses of `C98_getter_ok` and `C98_add_after_build_fails` are met. -/
example : let o := ((OneAtomObj.fresh.run (exEnv true) [.restrictN {1}]).2.step (exEnv true) .get).2
    o.sys.states ≠ [] ∧ (o.step (exEnv true) (.addStates (.art "x"))).2.allGetsThrow (exEnv true) [.get, .addStates (.art "y"), .get] :=
  ⟨(C98_getter_ok (exEnv true) _ (exGet true)).2.1, (C98_add_after_build_fails (exEnv true) _ (exGet true) (.art "x") _ (by simp [OneOp.noRestriction])).1⟩

/-- The hypotheses of `C98_real_scalar_fails` are met: hydrogen-like n = 1, even parity, real scalars; choosing another parity, or none, does not repair the object. -/
example : ((OneAtomObj.fresh.run (exEnv false) [.restrictN {1}, .parity .even, .get]).2).allGetsThrow (exEnv false) [.parity .na, .restrictN {1}, .get, .momenta none, .get] := by
  refine (C98_real_scalar_fails (exEnv false) [.restrictN {1}, .parity .even] (by simp) rfl ?_ ?_ ?_ ?_ _).2
  · rw [(C98_first_get (exEnv false) [.restrictN {1}, .parity .even] (by simp)).1.refl]; intro h; cases h
  · rw [(C98_first_get (exEnv false) [.restrictN {1}, .parity .even] (by simp)).1.m]; rfl
  · rw [(C98_first_get (exEnv false) [.restrictN {1}, .parity .even] (by simp)).1.rot]; rfl
  · have A := (C98_first_get (exEnv false) [.restrictN {1}, .parity .even] (by simp)).1
    refine ⟨(1, 0, 1, 1), ?_, by decide⟩
    refine (mem_candidates_iff_wanted _ 1 (by decide) _ ?_ _ _ _ _).2 ?_
    · constructor
      · rw [A.j]; intro j hj; cases hj
      · rw [A.m]; intro j hj; cases hj
    · refine ⟨by decide, by decide, by decide, by decide, by decide, by decide, by decide, by rw [A.n]; decide, Or.inl (by rw [A.l]; rfl), Or.inl (by rw [A.j]; rfl),
        Or.inl (by rw [A.m]; rfl), ?_, ?_, ?_⟩
      · have := A.energy; intro a h; rw [h] at this; cases congrArg Prod.fst this
      · have := A.energy; intro a h; rw [h] at this; cases congrArg Prod.snd this
      · rw [A.rot]; intro ms h; cases h

/-- A getter on an object without n restriction throws, and does not change the object. -/
theorem exThrow (cplx : Bool) : OneAtomObj.fresh.step (exEnv cplx) .get = (true, OneAtomObj.fresh) := by
  show OneAtomObj.fresh.buildBasis (exEnv cplx) = _
  rw [buildBasis_blank blank_fresh]
  have : initTr (exEnv cplx) OneAtomObj.fresh.set = .throw [] := by unfold initTr; exact if_pos rfl
  rw [this]
  rfl

/-- The hypotheses of `C98_retry_partial` are met: a getter on the new object throws, then everything is specified. -/
example : let o := (OneAtomObj.fresh.run (exEnv true) ([.get] ++ [.restrictN {1}, .restrictL ∅, .restrictJ ∅, .restrictM ∅, .restrictEnergy none none])).2
    (o.step (exEnv true) .get).1 = false := by
  intro o
  refine (C98_retry_partial (exEnv true) [.get] [.restrictN {1}, .restrictL ∅, .restrictJ ∅, .restrictM ∅, .restrictEnergy none none] (by simp [OneOp.isPlain]) ?_ (by simp) ?_).2.1.trans ?_
  · rw [allGetsThrow_cons, exThrow]
    exact ⟨fun _ => rfl, allGetsThrow_nil _ _⟩
  · exact ⟨⟨{1}, by simp⟩, ⟨∅, by simp⟩, ⟨∅, by simp⟩, ⟨∅, by simp⟩, ⟨none, none, by simp⟩⟩
  · refine (C98_first_get (exEnv true) [.restrictN {1}, .restrictL ∅, .restrictJ ∅, .restrictM ∅, .restrictEnergy none none] (by simp)).2.2.2.1.2 ?_
    obtain ⟨b, hb, -⟩ := exN_ok (OneAtomObj.fresh.run (exEnv true) [.restrictN {1}, .restrictL ∅, .restrictJ ∅, .restrictM ∅, .restrictEnergy none none]).2.set
      true rfl rfl rfl rfl rfl rfl rfl rfl (Or.inl rfl)
    exact ⟨b, hb⟩

/-- **C98 fails:** a getter that throws because no state fulfils the restrictions forgets all of them. `restrictN({1})`, `restrictEnergy(1, 1)` on an atom all of whose
energies are 0: the getter throws; `restrictN({1})` again, and the next getter succeeds and puts a state outside of the requested energies into the basis. -/
theorem C98_forgotten_fails (cplx : Bool) :
    let e := exEnv cplx
    let o := (OneAtomObj.fresh.run e [.restrictN {1}, .restrictEnergy (some 1) (some 1), .get, .restrictN {1}, .get])
    o.1 = [false, false, true, false, false] ∧ AState.phys "Rb" 1 0 1 1 ∈ o.2.sys.states.map Prod.snd ∧ ¬ (1 < e.E 1 0 1) := by
  intro e o
  -- the first getter
  let q : OneAtomObj := (OneAtomObj.fresh.run e [.restrictN {1}, .restrictEnergy (some 1) (some 1)]).2
  have hq : q.Blank := ⟨rfl, rfl, rfl, rfl, rfl⟩
  have hcand : q.set.candidates e.s e.E = [] := by
    rw [List.eq_nil_iff_forall_not_mem]
    rintro ⟨n, l, j, m⟩ hc
    have := ((mem_candidates _ _ _ _ _ _ _).1 hc).2.2.2.2.2.2.2.1
    have h2 : q.set.energyOk 0 = true := this
    have h3 : q.set.energyOk 0 = ((decide ((1 : ℝ) < 0)) && decide ((0 : ℝ) < 1)) := rfl
    rw [h3] at h2
    norm_num at h2
  have hinit : initTr e q.set = .ok ⟨[], []⟩ := by
    unfold initTr
    rw [if_neg (by show ¬ ({1} : Finset ℤ) = ∅; simp), hcand]
    rfl
  have hget : q.step e .get = (true, ⟨q.set.forget, OneBasis.toSys ⟨[], []⟩⟩) := by
    show q.buildBasis e = _
    rw [buildBasis_blank hq, hinit]
    rfl
  let r : OneAtomObj := ⟨{ q.set.forget with rangeN := {1} }, OneBasis.toSys ⟨[], []⟩⟩
  have hr : r.Blank := ⟨rfl, rfl, rfl, rfl, rfl⟩
  obtain ⟨b, hb, hmem⟩ := exN_ok r.set cplx rfl rfl rfl rfl rfl rfl rfl rfl (Or.inl rfl)
  have hb' := (initTr_build e r.set b).1 hb
  have hget2 : r.step e .get = (false, ⟨r.set.forget, b.toSys⟩) := by
    show r.buildBasis e = _
    rw [buildBasis_blank hr, hb'.1]
    simp [hb'.2.1]
  have ho : o = ([false, false, true, false, false], ⟨r.set.forget, b.toSys⟩) := by
    show ((OneAtomObj.fresh.run e [.restrictN {1}, .restrictEnergy (some 1) (some 1), .get, .restrictN {1}, .get])) = _
    rw [run_cons, run_cons]
    have h1 : ((OneAtomObj.fresh.step e (.restrictN {1})).2.step e (.restrictEnergy (some 1) (some 1))).2 = q := rfl
    rw [h1, run_cons, hget, run_cons]
    have h2 : (OneAtomObj.step e ⟨q.set.forget, OneBasis.toSys ⟨[], []⟩⟩ (.restrictN {1})).2 = r := rfl
    dsimp only
    rw [h2, run_cons, hget2]
    rfl
  rw [ho]
  refine ⟨rfl, ?_, ?_⟩
  · show _ ∈ (enumStates b.states).map Prod.snd
    have : (enumStates b.states).map Prod.snd = b.states := by
      unfold enumStates
      refine List.ext_getElem (by simp) fun i h1 h2 => ?_
      simp
    rw [this]; exact hmem
  · show ¬ ((1 : ℝ) < 0); norm_num

/-- **C98 fails:** a refused symmetry is stored. Momentum 1/2 is conserved; `setConservedParityUnderReflection` throws because the set is not symmetric, and the getter
throws as well; without the refused call it succeeds. -/
theorem C98_refused_symmetry_fails (cplx : Bool) :
    let e := exEnv cplx
    (OneAtomObj.fresh.run e [.restrictN {1}, .momenta (some {1}), .parity .even, .get]).1 = [false, false, true, true] ∧
    (OneAtomObj.fresh.run e [.restrictN {1}, .momenta (some {1}), .get]).1 = [false, false, false] := by
  intro e
  have hm : ∀ o : OneAtomObj, o.sys.states = [] → o.set.symRefl = .na → o.step e (.momenta (some {1})) = (false, { o with set := { o.set with symRot := some {1} } }) := by
    intro o ho hr
    unfold OneAtomObj.step
    dsimp only
    rw [if_neg (by simp [ho])]
    congr 1
    simp [OneSet.compatible, hr]
  constructor
  · let q : OneAtomObj := ⟨{ OneSet.fresh with rangeN := {1}, symRot := some {1}, symRefl := .even }, OneAtomObj.fresh.sys⟩
    have hq : q.Blank := ⟨rfl, rfl, rfl, rfl, rfl⟩
    have hp : OneAtomObj.step e ⟨{ OneSet.fresh with rangeN := {1}, symRot := some {1} }, OneAtomObj.fresh.sys⟩ (.parity .even) = (true, q) := by
      unfold OneAtomObj.step
      dsimp only
      rw [if_neg (by simp [OneAtomObj.fresh])]
      congr 1
      simp [OneSet.compatible]
    have hg : (q.step e .get).1 = true := by
      show (q.buildBasis e).1 = true
      rw [buildBasis_blank hq]
      have hw : ((1, 0, 1, 1) : ℤ × ℤ × ℤ × ℤ) ∈ q.set.candidates e.s e.E := by
        refine (mem_candidates_iff_wanted _ 1 (by decide) _ ?_ _ _ _ _).2 ?_
        · constructor <;> intro j hj <;> cases hj
        · refine ⟨by decide, by decide, by decide, by decide, by decide, by decide, by decide, by show (1 : ℤ) ∈ ({1} : Finset ℤ); decide, Or.inl rfl, Or.inl rfl,
            Or.inl rfl, ?_, ?_, ?_⟩
          · intro a h; cases h
          · intro a h; cases h
          · intro ms h; injection h with h; subst h; decide
      cases hi : initTr e q.set with
      | throw st => rfl
      | ok b =>
        exfalso
        unfold initTr at hi
        rw [if_neg (by show ¬ ({1} : Finset ℤ) = ∅; simp)] at hi
        cases hf : foldTr (addCandidateT e q.set) ⟨[], []⟩ (q.set.candidates e.s e.E) with
        | throw st => rw [hf] at hi; cases hi
        | ok b1 =>
          have hall : ∀ (L : List (ℤ × ℤ × ℤ × ℤ)) (b0 : OneBasis), foldTr (addCandidateT e q.set) b0 L = .ok b1 → ((1, 0, 1, 1) : ℤ × ℤ × ℤ × ℤ) ∉ L := by
            intro L
            induction L with
            | nil => intro b0 _ h; cases h
            | cons c L ih =>
              intro b0 h hm
              rw [foldTr] at h
              cases ha : addCandidateT e q.set b0 c with
              | throw st => rw [ha] at h; cases h
              | ok b2 =>
                rw [ha] at h
                rcases List.mem_cons.1 hm with rfl | hm
                · unfold addCandidateT at ha
                  rw [if_pos] at ha
                  · cases ha
                  · refine ⟨(by intro h; cases h), by decide, ?_⟩
                    show (-1 : ℤ) ∉ ({1} : Finset ℤ) ∩ _
                    simp
                · exact ih b2 h hm
          exact hall _ _ hf hw
    rw [run_cons, run_cons]
    have h1 : (OneAtomObj.fresh.step e (.restrictN {1})) = (false, ⟨{ OneSet.fresh with rangeN := {1} }, OneAtomObj.fresh.sys⟩) := rfl
    rw [h1]
    dsimp only
    rw [hm _ rfl rfl, run_cons]
    dsimp only
    rw [hp, run_cons, hg]
    rfl
  · rw [run_cons, run_cons]
    have h1 : (OneAtomObj.fresh.step e (.restrictN {1})) = (false, ⟨{ OneSet.fresh with rangeN := {1} }, OneAtomObj.fresh.sys⟩) := rfl
    rw [h1]
    dsimp only
    rw [hm _ rfl rfl, run_cons]
    dsimp only
    obtain ⟨b, hb, -⟩ := exN_ok ({ OneSet.fresh with rangeN := {1}, symRot := some {1} } : OneSet) cplx rfl rfl rfl rfl rfl rfl rfl rfl (Or.inr rfl)
    have hb' := (initTr_build e _ b).1 hb
    have hg : (OneAtomObj.step e ⟨{ OneSet.fresh with rangeN := {1}, symRot := some {1} }, OneAtomObj.fresh.sys⟩ .get).1 = false := by
      show (OneAtomObj.buildBasis e _).1 = false
      rw [buildBasis_blank ⟨rfl, rfl, rfl, rfl, rfl⟩, hb'.1]
      simp [hb'.2.1]
    rw [hg]
    rfl

/-! ## Accepted symmetries are compatible -/

open Classical in
theorem symmetries_run {e : OneEnv} {o : OneAtomObj} (h : List OneOp) (hc : o.set.compatible)
    (hok : ∀ (i : ℕ) (x : OneOp), h[i]? = some x → (o.run e h).1[i]? = some true → x = .get) : (o.run e h).2.set.compatible := by
  induction h generalizing o with
  | nil => exact hc
  | cons x h ih =>
    rw [run_cons]
    refine ih ?_ fun i y hy hr => hok (i + 1) y (by simpa using hy) (by rw [run_cons]; simpa using hr)
    have h0 : (o.step e x).1 = true → x = .get := fun ht => hok 0 x rfl (by rw [run_cons]; simpa using ht)
    cases x with
    | parity p =>
      by_cases hs : o.sys.states ≠ []
      · have : (o.step e (.parity p)).1 = true := by unfold OneAtomObj.step; dsimp only; rw [if_pos hs]
        cases h0 this
      · have he : o.step e (.parity p) = (decide (¬ OneSet.compatible { o.set with symRefl := p }), { o with set := { o.set with symRefl := p } }) := by
          unfold OneAtomObj.step; dsimp only; rw [if_neg hs]
        by_contra hn
        rw [he] at hn
        have : (o.step e (.parity p)).1 = true := by rw [he]; exact decide_eq_true hn
        cases h0 this
    | momenta p =>
      by_cases hs : o.sys.states ≠ []
      · have : (o.step e (.momenta p)).1 = true := by unfold OneAtomObj.step; dsimp only; rw [if_pos hs]
        cases h0 this
      · have he : o.step e (.momenta p) = (decide (¬ OneSet.compatible { o.set with symRot := p }), { o with set := { o.set with symRot := p } }) := by
          unfold OneAtomObj.step; dsimp only; rw [if_neg hs]
        by_contra hn
        rw [he] at hn
        have : (o.step e (.momenta p)).1 = true := by rw [he]; exact decide_eq_true hn
        cases h0 this
    | get =>
      have : (o.buildBasis e).2.set.symRefl = o.set.symRefl ∧ (o.buildBasis e).2.set.symRot = o.set.symRot := by
        unfold OneAtomObj.buildBasis
        by_cases h1 : o.inconsistent
        · rw [if_pos h1]; exact ⟨rfl, rfl⟩
        rw [if_neg h1]
        by_cases h2 : o.sys.states ≠ [] ∧ o.set.idle
        · rw [if_pos h2]; exact ⟨rfl, rfl⟩
        rw [if_neg h2]
        by_cases h3 : o.sys.states = []
        · rw [if_pos h3]; cases initTr e o.set <;> exact ⟨rfl, rfl⟩
        rw [if_neg h3]
        dsimp only
        by_cases h4 : o.set.toAdd ≠ []
        · rw [if_pos h4]; exact ⟨rfl, rfl⟩
        · rw [if_neg h4]; exact ⟨rfl, rfl⟩
      show (o.buildBasis e).2.set.compatible
      unfold OneSet.compatible at hc ⊢
      rw [this.1, this.2]; exact hc
    | _ => exact hc

/-- **C98 (symmetries).** If in a history no call other than getters threw, the stored symmetries are compatible: no parity, arbitrary momenta, or a set of momenta that
contains -m with every m. -/
theorem C98_symmetries (e : OneEnv) (h : List OneOp) (hok : ∀ (i : ℕ) (x : OneOp), h[i]? = some x → (OneAtomObj.fresh.run e h).1[i]? = some true → x = .get) :
    let S := (OneAtomObj.fresh.run e h).2.set
    S.symRefl = .na ∨ S.symRot = none ∨ ∃ ms, S.symRot = some ms ∧ ∀ m ∈ ms, -m ∈ ms := by
  intro S
  have := symmetries_run (e := e) h (o := OneAtomObj.fresh) trivial hok
  unfold OneSet.compatible at this
  cases hr : S.symRot with
  | none => exact Or.inr (Or.inl rfl)
  | some ms =>
    rw [show (OneAtomObj.fresh.run e h).2.set.symRot = some ms from hr] at this
    rcases this with h1 | h1
    · exact Or.inl h1
    · exact Or.inr (Or.inr ⟨ms, rfl, h1⟩)

/-- Parity and symmetric momenta together: no call throws. -/
example : (OneAtomObj.fresh.run (exEnv true) [.parity .odd, .momenta (some {1, -1})]).1 = [false, false] := by
  rw [run_cons, run_cons]
  have h1 : OneAtomObj.fresh.step (exEnv true) (.parity .odd) = (false, ⟨{ OneSet.fresh with symRefl := .odd }, OneAtomObj.fresh.sys⟩) := by
    unfold OneAtomObj.step
    dsimp only
    rw [if_neg (by simp [OneAtomObj.fresh])]
    congr 1
    simp [OneSet.compatible, OneAtomObj.fresh, OneSet.fresh]
  have h2 : OneAtomObj.step (exEnv true) ⟨{ OneSet.fresh with symRefl := .odd }, OneAtomObj.fresh.sys⟩ (.momenta (some {1, -1})) =
      (false, ⟨{ OneSet.fresh with symRefl := .odd, symRot := some {1, -1} }, OneAtomObj.fresh.sys⟩) := by
    unfold OneAtomObj.step
    dsimp only
    rw [if_neg (by simp [OneAtomObj.fresh])]
    congr 1
    simp [OneSet.compatible]
  rw [h1]
  dsimp only
  rw [h2]
  rfl

end PI
