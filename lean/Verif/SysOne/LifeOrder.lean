import Verif.SysOne.LifeThm

/-!
# C98: restrictions in several rounds
-/

namespace PI

/-- **Specification.** A state within restrictions: an empty range is no restriction; energies strictly inside the bounds. -/
def Within (S : OneSet) (E : ℤ → ℤ → ℤ → ℝ) : AState → Prop
  | .phys _ n l j m => (S.rangeN = ∅ ∨ n ∈ S.rangeN) ∧ (S.rangeL = ∅ ∨ l ∈ S.rangeL) ∧ (S.rangeJ = ∅ ∨ j ∈ S.rangeJ) ∧ (S.rangeM = ∅ ∨ m ∈ S.rangeM) ∧
      (∀ a, S.energyMin = some a → a < E n l j) ∧ ∀ b, S.energyMax = some b → E n l j < b
  | .art _ => (∀ a, S.energyMin = some a → a < 0) ∧ ∀ b, S.energyMax = some b → 0 < b

/-- **Specification.** The restrictions that are in force at the getters of a history: every getter uses those called since the previous one, the last of each kind. -/
def rounds : List OneOp → List OneOp → List (List OneOp)
  | _, [] => []
  | cur, .get :: h => cur :: rounds [] h
  | cur, x :: h => rounds (cur ++ [x]) h

/-- The restrictions of a round. -/
def roundSet (cur : List OneOp) : OneSet :=
  ⟨lastCall OneOp.asN ∅ cur, lastCall OneOp.asL ∅ cur, lastCall OneOp.asJ ∅ cur, lastCall OneOp.asM ∅ cur, (lastCall OneOp.asEnergy (none, none) cur).1,
    (lastCall OneOp.asEnergy (none, none) cur).2, [], .na, none⟩

/-- A built object whose basis vectors are its states, with their own energies. -/
structure PlainObj (e : OneEnv) (o : OneAtomObj) : Prop where
  canon : o.sys.Canon
  energy : ∀ x ∈ o.sys.states, o.sys.H.val x.1 x.1 = (x.2.energy e.E : ℂ)
  ne : o.sys.states ≠ []
  add : o.set.toAdd = []

theorem within_congr {S T : OneSet} (E : ℤ → ℤ → ℤ → ℝ) (h1 : S.rangeN = T.rangeN) (h2 : S.rangeL = T.rangeL) (h3 : S.rangeJ = T.rangeJ) (h4 : S.rangeM = T.rangeM)
    (h5 : S.energyMin = T.energyMin) (h6 : S.energyMax = T.energyMax) (st : AState) : Within S E st ↔ Within T E st := by
  cases st <;> simp only [Within, h1, h2, h3, h4, h5, h6]

theorem within_pending {e : OneEnv} {o : OneAtomObj} (hp : PlainObj e o) (x : ℕ × AState) (hx : x ∈ o.sys.states) :
    Inside o.sys o.set.pending x ↔ Within o.set e.E x.2 := by
  unfold Inside OneSet.pending
  dsimp only
  rw [hp.energy x hx, Complex.ofReal_re]
  by_cases hall : o.set.rangeN = ∅ ∧ o.set.rangeL = ∅ ∧ o.set.rangeJ = ∅ ∧ o.set.rangeM = ∅
  · rw [if_pos hall]
    obtain ⟨h1, h2, h3, h4⟩ := hall
    rcases x with ⟨i, st⟩
    cases st <;> simp [Within, AState.energy, h1, h2, h3, h4]
  · rw [if_neg hall]
    rcases x with ⟨i, st⟩
    cases st with
    | art lab => simp [Within, AState.energy, OneSet.qnValid]
    | phys sp n l j m =>
      simp only [Option.some.injEq, forall_eq', OneSet.qnValid, decide_eq_true_eq, Within, AState.energy]
      tauto

theorem plain_built {e : OneEnv} {o : OneAtomObj} (hp : PlainObj e o) : o.Built :=
  ⟨hp.canon.wf, hp.ne, by rw [hp.canon.cols]; simpa using hp.ne⟩

theorem plain_idle_within {e : OneEnv} {o : OneAtomObj} (hi : o.set.idle) (st : AState) : Within o.set e.E st := by
  obtain ⟨-, h1, h2, h3, h4, h5, h6⟩ := hi
  cases st <;> simp [Within, h1, h2, h3, h4, h5, h6]

/-- A getter on a plain object: it throws if no state is within the pending restrictions, and otherwise keeps exactly the states within them. -/
theorem plain_get {e : OneEnv} {o : OneAtomObj} (hp : PlainObj e o) :
    ((o.buildBasis e).1 = true ∧ ∀ x ∈ o.sys.states, ¬ Within o.set e.E x.2) ∨
    ((o.buildBasis e).1 = false ∧ PlainObj e (o.buildBasis e).2 ∧ (o.buildBasis e).2.set.idle ∧
      ∀ st, st ∈ (o.buildBasis e).2.sys.states.map Prod.snd ↔ st ∈ o.sys.states.map Prod.snd ∧ Within o.set e.E st) := by
  by_cases hi : o.set.idle
  · rw [buildBasis_idle (plain_built hp) hi]
    exact Or.inr ⟨rfl, hp, hi, fun st => ⟨fun h => ⟨h, plain_idle_within (e := e) hi st⟩, fun h => h.1⟩⟩
  · have hadd : o.set.pending.addStates = false := by show (!o.set.toAdd.isEmpty) = false; rw [hp.add]; rfl
    have h66 := C66_restrict_built_system o.sys hp.canon o.set.pending hadd (by show (0 : ℝ) ≤ 0.05; norm_num) (by show (0.05 : ℝ) < 1; norm_num)
    have hB := buildBasis_built (e := e) (plain_built hp) hi
    rw [if_neg (by simp [hp.add])] at hB
    unfold SysB.update at h66
    rw [if_neg (by simp [hadd])] at h66
    by_cases hz : ((o.sys.updateQn o.set.pending).updateVec o.set.pending).V.rows = 0 ∨ ((o.sys.updateQn o.set.pending).updateVec o.set.pending).V.cols = 0
    · rw [if_pos hz] at h66
      rcases h66 with ⟨-, h⟩ | ⟨s', h, -⟩
      · refine Or.inl ⟨by rw [hB]; exact decide_eq_true hz, fun x hx hw => h x hx ((within_pending hp x hx).2 hw)⟩
      · cases h
    · rw [if_neg hz] at h66
      rcases h66 with ⟨h, -⟩ | ⟨s', h, hc, ⟨x, hx, hin⟩, ⟨q, hq, hst⟩, hH⟩
      · cases h
      · injection h with h
        rw [h] at hB hz
        have hmem : ∀ st, st ∈ s'.states.map Prod.snd ↔ st ∈ o.sys.states.map Prod.snd ∧ Within o.set e.E st := by
          intro st
          rw [hst]
          simp only [List.mem_map, List.mem_filter]
          constructor
          · rintro ⟨y, ⟨hy, hqy⟩, rfl⟩
            exact ⟨⟨y, hy, rfl⟩, (within_pending hp y hy).1 ((hq y hy).1 hqy)⟩
          · rintro ⟨⟨y, hy, rfl⟩, hw⟩
            exact ⟨y, ⟨hy, (hq y hy).2 ((within_pending hp y hy).2 hw)⟩, rfl⟩
        refine Or.inr ⟨by rw [hB]; exact decide_eq_false hz, ?_, by rw [hB]; exact forget_idle _, by rw [hB]; exact hmem⟩
        rw [hB]
        refine ⟨hc, ?_, ?_, rfl⟩
        · intro y hy
          obtain ⟨z, hz1, hz2⟩ := List.mem_map.1 ((hmem y.2).1 (List.mem_map.2 ⟨y, hy, rfl⟩)).1
          have := hH z.1 y.2 z.1 y.2 y.1 y.1 (by rw [← hz2]; exact hz1) hy (by rw [← hz2]; exact hz1) hy
          show s'.H.val y.1 y.1 = _
          rw [this, hp.energy z hz1, hz2]
        · intro hnil
          apply hz
          left
          rw [hc.wf.rows]
          have : s'.states = [] := hnil
          rw [this]; rfl

theorem lastCall_snoc {α : Type} (f : OneOp → Option α) (d : α) (x : OneOp) (h : List OneOp) : lastCall f d (h ++ [x]) = (f x).getD (lastCall f d h) := by
  unfold lastCall
  rw [List.filterMap_append]
  cases hx : f x with
  | none => rw [List.filterMap_cons_none hx]; simp
  | some a => rw [List.filterMap_cons_some hx]; simp

/-- The pending restrictions of an object are those of the current round. -/
structure PendingIs (o : OneAtomObj) (cur : List OneOp) : Prop where
  n : o.set.rangeN = (roundSet cur).rangeN
  l : o.set.rangeL = (roundSet cur).rangeL
  j : o.set.rangeJ = (roundSet cur).rangeJ
  m : o.set.rangeM = (roundSet cur).rangeM
  emin : o.set.energyMin = (roundSet cur).energyMin
  emax : o.set.energyMax = (roundSet cur).energyMax

theorem matches_idle {o : OneAtomObj} (hi : o.set.idle) : PendingIs o [] := by
  obtain ⟨-, h1, h2, h3, h4, h5, h6⟩ := hi
  exact ⟨h1, h2, h3, h4, h5, h6⟩

theorem matches_step {e : OneEnv} {o : OneAtomObj} {cur : List OneOp} (h : PendingIs o cur) (x : OneOp) (hx : x.isPlain = true) (hg : x ≠ .get) :
    PendingIs (o.step e x).2 (cur ++ [x]) := by
  cases x with
  | get => exact absurd rfl hg
  | addStates st => cases hx
  | parity p => cases hx
  | momenta ms => cases hx
  | restrictN r => exact ⟨by simp only [roundSet, lastCall_snoc]; rfl, by simp only [roundSet, lastCall_snoc]; exact h.l, by simp only [roundSet, lastCall_snoc]; exact h.j,
      by simp only [roundSet, lastCall_snoc]; exact h.m, by simp only [roundSet, lastCall_snoc]; exact h.emin, by simp only [roundSet, lastCall_snoc]; exact h.emax⟩
  | restrictL r => exact ⟨by simp only [roundSet, lastCall_snoc]; exact h.n, by simp only [roundSet, lastCall_snoc]; rfl, by simp only [roundSet, lastCall_snoc]; exact h.j,
      by simp only [roundSet, lastCall_snoc]; exact h.m, by simp only [roundSet, lastCall_snoc]; exact h.emin, by simp only [roundSet, lastCall_snoc]; exact h.emax⟩
  | restrictJ r => exact ⟨by simp only [roundSet, lastCall_snoc]; exact h.n, by simp only [roundSet, lastCall_snoc]; exact h.l, by simp only [roundSet, lastCall_snoc]; rfl,
      by simp only [roundSet, lastCall_snoc]; exact h.m, by simp only [roundSet, lastCall_snoc]; exact h.emin, by simp only [roundSet, lastCall_snoc]; exact h.emax⟩
  | restrictM r => exact ⟨by simp only [roundSet, lastCall_snoc]; exact h.n, by simp only [roundSet, lastCall_snoc]; exact h.l, by simp only [roundSet, lastCall_snoc]; exact h.j,
      by simp only [roundSet, lastCall_snoc]; rfl, by simp only [roundSet, lastCall_snoc]; exact h.emin, by simp only [roundSet, lastCall_snoc]; exact h.emax⟩
  | restrictEnergy a b => exact ⟨by simp only [roundSet, lastCall_snoc]; exact h.n, by simp only [roundSet, lastCall_snoc]; exact h.l, by simp only [roundSet, lastCall_snoc]; exact h.j,
      by simp only [roundSet, lastCall_snoc]; exact h.m, by simp only [roundSet, lastCall_snoc]; rfl, by simp only [roundSet, lastCall_snoc]; rfl⟩

/-- No getter in the history throws. -/
def OneAtomObj.noGetThrows (e : OneEnv) (o : OneAtomObj) (h : List OneOp) : Prop := ∀ i : ℕ, h[i]? = some .get → (o.run e h).1[i]? = some false

theorem noGetThrows_cons {e : OneEnv} {o : OneAtomObj} {x : OneOp} {h : List OneOp} (H : o.noGetThrows e (x :: h)) :
    (x = .get → (o.step e x).1 = false) ∧ (o.step e x).2.noGetThrows e h := by
  refine ⟨fun hx => ?_, fun i hi => ?_⟩
  · have := H 0 (by simp [hx])
    rw [run_cons] at this
    simpa using this
  · have := H (i + 1) (by simpa using hi)
    rw [run_cons] at this
    simpa using this

theorem rounds_step {cur : List OneOp} {x : OneOp} {h : List OneOp} (hg : x ≠ .get) : rounds cur (x :: h) = rounds (cur ++ [x]) h := by
  cases x <;> first | rfl | exact absurd rfl hg

theorem plain_rounds {e : OneEnv} {o : OneAtomObj} {cur : List OneOp} (h : List OneOp) (hpl : ∀ x ∈ h, x.isPlain = true) (hp : PlainObj e o) (hm : PendingIs o cur)
    (hok : o.noGetThrows e h) :
    PlainObj e (o.run e h).2 ∧
    ∀ st, st ∈ (o.run e h).2.sys.states.map Prod.snd ↔ st ∈ o.sys.states.map Prod.snd ∧ ∀ c ∈ rounds cur h, Within (roundSet c) e.E st := by
  induction h generalizing o cur with
  | nil => exact ⟨hp, fun st => by simp [run_nil, rounds]⟩
  | cons x h ih =>
    have hpl' : ∀ y ∈ h, y.isPlain = true := fun y hy => hpl y (List.mem_cons_of_mem _ hy)
    have hx := hpl x List.mem_cons_self
    obtain ⟨ok1, ok2⟩ := noGetThrows_cons hok
    rw [run_cons]
    dsimp only
    by_cases hg : x = .get
    · subst hg
      have h1 : (o.buildBasis e).1 = false := ok1 rfl
      rcases plain_get hp with ⟨hth, -⟩ | ⟨-, hp', hi', hmem⟩
      · rw [h1] at hth; cases hth
      · obtain ⟨I1, I2⟩ := ih (o := (o.step e .get).2) (cur := []) hpl' hp' (matches_idle hi') ok2
        refine ⟨I1, fun st => ?_⟩
        rw [I2, show (o.step e .get).2 = (o.buildBasis e).2 from rfl, hmem, rounds, List.forall_mem_cons,
          within_congr e.E hm.n hm.l hm.j hm.m hm.emin hm.emax]
        tauto
    · have hsys := step_sys e o x hg
      have hadd : (o.step e x).2.set.toAdd = [] := by
        cases x with
        | get => exact absurd rfl hg
        | addStates st => cases hx
        | parity p => cases hx
        | momenta ms => cases hx
        | _ => exact hp.add
      have hp' : PlainObj e (o.step e x).2 := ⟨by rw [hsys]; exact hp.canon, by rw [hsys]; exact hp.energy, by rw [hsys]; exact hp.ne, hadd⟩
      obtain ⟨I1, I2⟩ := ih hpl' hp' (matches_step (e := e) hm x hx hg) ok2
      refine ⟨I1, fun st => ?_⟩
      rw [I2, hsys, rounds_step hg]

theorem enum_mem {L : List AState} {x : ℕ × AState} (hx : x ∈ enumStates L) : L[x.1]? = some x.2 := by
  unfold enumStates at hx
  obtain ⟨i, hi, rfl⟩ := List.mem_mapIdx.1 hx
  simp [hi]

theorem enum_map_snd (L : List AState) : (enumStates L).map Prod.snd = L := by
  unfold enumStates
  refine List.ext_getElem (by simp) fun i h1 h2 => ?_
  simp

theorem plain_toSys {e : OneEnv} {S T : OneSet} (hs : 0 ≤ e.s) (hfit : S.Fits e.s) (hr : S.symRefl = .na) (hu : S.toAdd.Nodup) {b : OneBasis}
    (hb : S.build e.cplx e.sp e.s e.E = .ok b) (hT : T.toAdd = []) : PlainObj e ⟨T, b.toSys⟩ := by
  obtain ⟨-, -, hlen, hcol⟩ := C26_one_atom_basis_partial e.cplx S e.sp e.s hs e.E hfit hr hu b hb
  have hb' := (initTr_build e S b).1 hb
  have hwf := toSys_wf (initTr_sound hb'.1)
  have hst : b.toSys.states.length = b.states.length := by show (enumStates b.states).length = _; unfold enumStates; simp
  refine ⟨⟨hwf, ?_, ?_⟩, ?_, ?_, hT⟩
  · show b.cols.length = _
    rw [hst, hlen]
  · intro i hi c hc
    rw [hst] at hi hc
    have := hcol c _ (List.getElem?_eq_getElem hc)
    show (((b.cols[c]?).map fun col => ((col.2.filter fun x => decide (x.1 = i)).map (·.2)).sum)).getD 0 = _
    rw [this]
    by_cases h : i = c
    · subst h; simp
    · have h' : ¬ c = i := fun h'' => h h''.symm
      simp [h, h']
  · intro x hx
    have := hcol x.1 x.2 (enum_mem hx)
    show (if x.1 = x.1 then (((b.cols[x.1]?).map fun col => (col.1 : ℂ))).getD 0 else 0) = _
    rw [if_pos rfl, this]
    rfl
  · show enumStates b.states ≠ []
    rw [Ne, enumStates_eq_nil]; exact hb'.2.1

/-- **C98 (rounds).** A system without reflection symmetry, specified by any calls and then built, with ranges that fit the species; then any number of rounds of restrictions
and getters. If no getter throws, the basis contains, at the end, exactly the states of the first specification that are within the restrictions of all rounds, the last of each
kind counting in every round; its vectors are these states, with their own energies. -/
theorem C98_rounds (e : OneEnv) (hs : 0 ≤ e.s) (h1 h2 : List OneOp) (hg : OneOp.get ∉ h1) (hpl : ∀ x ∈ h2, x.isPlain = true)
    (hfit : (OneAtomObj.fresh.run e h1).2.set.Fits e.s) (hr : (OneAtomObj.fresh.run e h1).2.set.symRefl = .na)
    (hok : ((OneAtomObj.fresh.run e h1).2.step e .get).1 = false) (hok2 : ((OneAtomObj.fresh.run e h1).2.step e .get).2.noGetThrows e h2) :
    let S := (OneAtomObj.fresh.run e h1).2.set
    let o := (((OneAtomObj.fresh.run e h1).2.step e .get).2.run e h2).2
    o.sys.Canon ∧ (∀ x ∈ o.sys.states, o.sys.H.val x.1 x.1 = (x.2.energy e.E : ℂ)) ∧
    ∀ st, st ∈ o.sys.states.map Prod.snd ↔
      ((∃ n l j m, st = .phys e.sp n l j m ∧ Wanted S e.s e.E n l j m) ∨ (st ∈ S.toAdd ∧ UserWanted S st)) ∧ ∀ c ∈ rounds [] h2, Within (roundSet c) e.E st := by
  intro S o
  obtain ⟨-, hnd, -, hiff, hget⟩ := C98_first_get e h1 hg
  obtain ⟨b, hb⟩ := hiff.1 hok
  obtain ⟨hstep, hsnd, -⟩ := hget b hb
  have hp : PlainObj e ((OneAtomObj.fresh.run e h1).2.step e .get).2 := by rw [hstep]; exact plain_toSys hs hfit hr hnd hb rfl
  have hi : ((OneAtomObj.fresh.run e h1).2.step e .get).2.set.idle := by rw [hstep]; exact forget_idle _
  obtain ⟨I1, I2⟩ := plain_rounds h2 hpl hp (matches_idle hi) hok2
  refine ⟨I1.canon, I1.energy, fun st => ?_⟩
  rw [I2, hstep, hsnd, (C26_one_atom_basis_partial e.cplx _ e.sp e.s hs e.E hfit hr hnd b hb).2.1]

/-- The hypotheses are met: n = 1, then two rounds that restrict m. -/
example : let e := exEnv true
    let o := (((OneAtomObj.fresh.run e [.restrictN {1}]).2.step e .get).2.run e [.restrictM {1}, .get, .restrictL {0}, .get]).2
    AState.phys "Rb" 1 0 1 1 ∈ o.sys.states.map Prod.snd ∧ AState.phys "Rb" 1 0 1 (-1) ∉ o.sys.states.map Prod.snd := by
  intro e o
  have hA := (C98_first_get e [.restrictN {1}] (by simp)).1
  have hfit : (OneAtomObj.fresh.run e [.restrictN {1}]).2.set.Fits e.s := by
    constructor
    · rw [hA.j]; intro x hx; cases hx
    · rw [hA.m]; intro x hx; cases hx
  have hw : Wanted (OneAtomObj.fresh.run e [.restrictN {1}]).2.set 1 e.E 1 0 1 1 := by
    refine ⟨by decide, by decide, by decide, by decide, by decide, by decide, by decide, by rw [hA.n]; decide, Or.inl (by rw [hA.l]; rfl), Or.inl (by rw [hA.j]; rfl),
        Or.inl (by rw [hA.m]; rfl), ?_, ?_, ?_⟩
    · have := hA.energy; intro a h; rw [h] at this; cases congrArg Prod.fst this
    · have := hA.energy; intro a h; rw [h] at this; cases congrArg Prod.snd this
    · rw [hA.rot]; intro ms h; cases h
  -- the state is within all rounds, so no getter throws
  have hno : ((OneAtomObj.fresh.run e [.restrictN {1}]).2.step e .get).2.noGetThrows e [.restrictM {1}, .get, .restrictL {0}, .get] := by
    have hok := exGet true
    obtain ⟨-, hnd, -, hiff, hget⟩ := C98_first_get e [.restrictN {1}] (by simp)
    obtain ⟨b, hb⟩ := hiff.1 hok
    obtain ⟨hstep, hsnd, -⟩ := hget b hb
    have hp : PlainObj e ((OneAtomObj.fresh.run e [.restrictN {1}]).2.step e .get).2 := by
      rw [hstep]; exact plain_toSys (by decide) hfit hA.refl hnd hb rfl
    have hmem : AState.phys "Rb" 1 0 1 1 ∈ ((OneAtomObj.fresh.run e [.restrictN {1}]).2.step e .get).2.sys.states.map Prod.snd := by
      rw [hstep, hsnd, (C26_one_atom_basis_partial e.cplx _ e.sp e.s (by decide) e.E hfit hA.refl hnd b hb).2.1]
      exact Or.inl ⟨_, _, _, _, rfl, hw⟩
    have hset : ((OneAtomObj.fresh.run e [.restrictN {1}]).2.step e .get).2.set = OneSet.fresh := by rw [hstep]; rfl
    generalize ((OneAtomObj.fresh.run e [.restrictN {1}]).2.step e .get).2 = p at *
    -- first round
    have hp1 : PlainObj e (p.step e (.restrictM {1})).2 := ⟨hp.canon, hp.energy, hp.ne, hp.add⟩
    have hg1 : ((p.step e (.restrictM {1})).2.step e .get).1 = false ∧ PlainObj e ((p.step e (.restrictM {1})).2.step e .get).2 ∧
        ((p.step e (.restrictM {1})).2.step e .get).2.set.idle ∧
        AState.phys "Rb" 1 0 1 1 ∈ ((p.step e (.restrictM {1})).2.step e .get).2.sys.states.map Prod.snd := by
      have hwi : Within (p.step e (.restrictM {1})).2.set e.E (.phys "Rb" 1 0 1 1) := by
        show Within { p.set with rangeM := {1} } _ _
        rw [hset]
        simp [Within, OneSet.fresh]
      rcases plain_get hp1 with ⟨-, hn⟩ | ⟨hf, hp2, hi2, hm2⟩
      · obtain ⟨x, hx, hxe⟩ := List.mem_map.1 hmem
        exact absurd (by rw [hxe]; exact hwi) (hn x hx)
      · exact ⟨hf, hp2, hi2, (hm2 _).2 ⟨hmem, hwi⟩⟩
    obtain ⟨g1, g2, g3, g4⟩ := hg1
    intro i hi
    rw [run_cons, run_cons, run_cons, run_cons, run_nil]
    generalize ((p.step e (.restrictM {1})).2.step e .get) = z at *
    have hp3 : PlainObj e (z.2.step e (.restrictL {0})).2 := ⟨g2.canon, g2.energy, g2.ne, g2.add⟩
    have g5 : ((z.2.step e (.restrictL {0})).2.step e .get).1 = false := by
      have hwi : Within (z.2.step e (.restrictL {0})).2.set e.E (.phys "Rb" 1 0 1 1) := by
        show Within { z.2.set with rangeL := {0} } _ _
        obtain ⟨-, h1, h2, h3, h4, h5, h6⟩ := g3
        simp [Within, h1, h3, h4, h5, h6]
      rcases plain_get hp3 with ⟨-, hn⟩ | ⟨hf, -⟩
      · obtain ⟨x, hx, hxe⟩ := List.mem_map.1 g4
        exact absurd (by rw [hxe]; exact hwi) (hn x hx)
      · exact hf
    rcases i with _ | _ | _ | _ | i
    · cases hi
    · simp [g1]
    · cases hi
    · simp [g5]
    · simp at hi
  have H := (C98_rounds e (by decide) [.restrictN {1}] [.restrictM {1}, .get, .restrictL {0}, .get] (by simp) (by simp [OneOp.isPlain]) hfit hA.refl (exGet true) hno).2.2
  constructor
  · rw [H]
    refine ⟨Or.inl ⟨1, 0, 1, 1, rfl, hw⟩, ?_⟩
    simp [rounds, Within, roundSet, lastCall, OneOp.asN, OneOp.asL, OneOp.asJ, OneOp.asM, OneOp.asEnergy]
  · rw [H]
    rintro ⟨-, h⟩
    have := h [.restrictM {1}] (by simp [rounds])
    simp [Within, roundSet, lastCall, OneOp.asN, OneOp.asL, OneOp.asJ, OneOp.asM, OneOp.asEnergy] at this

end PI
