import Verif.SysOne.LifeModel
import Verif.SysOne.Props
import Verif.Sys.Update

/-!
# C98: failed and repeated calls on a one-atom system
-/

namespace PI

/-! ## `initializeBasis` with its exceptions -/

/-- The result without the states left behind by an exception. -/
def Tr.out : Tr → Out OneBasis
  | .ok b => .ok b
  | .throw _ => .throw

theorem addSym_ne_ub (cplx : Bool) (p : Par) (st : AState) (energy : ℝ) (b : OneBasis) : addSym cplx p st energy b ≠ .ub := by
  unfold addSym
  cases st with
  | art lab => simp
  | phys sp n l j m =>
    dsimp only
    by_cases h1 : p = .na ∨ m = 0
    · rw [if_pos h1]; simp
    · rw [if_neg h1]
      by_cases h2 : m < 0
      · rw [if_pos h2]; simp
      · rw [if_neg h2]
        by_cases h3 : cplx = false
        · rw [if_pos h3]; simp
        · rw [if_neg h3]; simp

theorem addSymT_out (cplx : Bool) (p : Par) (st : AState) (energy : ℝ) (b : OneBasis) : (addSymT cplx p st energy b).out = addSym cplx p st energy b := by
  unfold addSymT
  have := addSym_ne_ub cplx p st energy b
  cases h : addSym cplx p st energy b with
  | ok b' => rfl
  | throw => rfl
  | ub => exact absurd h this

theorem addCandidateT_out (e : OneEnv) (S : OneSet) (b : OneBasis) (c : ℤ × ℤ × ℤ × ℤ) : (addCandidateT e S b c).out = addCandidate e.cplx S e.sp e.E b c := by
  unfold addCandidateT addCandidate
  by_cases h : S.symRefl ≠ .na ∧ c.2.2.2 ≠ 0 ∧ -c.2.2.2 ∉ S.allowedM c.2.2.1
  · rw [if_pos h, if_pos h]; rfl
  · rw [if_neg h, if_neg h, addSymT_out]

theorem addUserT_out (e : OneEnv) (S : OneSet) (b : OneBasis) (st : AState) : (addUserT e S b st).out = addUser e.cplx S e.E b st := by
  unfold addUserT addUser
  cases st with
  | art lab => exact addSymT_out _ _ _ _ _
  | phys sp n l j m =>
    dsimp only
    by_cases h1 : S.rotExcludes m = true
    · rw [if_pos h1, if_pos h1]; rfl
    · rw [if_neg h1, if_neg h1]
      by_cases h2 : S.symRefl ≠ .na ∧ m ≠ 0 ∧ AState.phys sp n l j (-m) ∉ S.toAdd
      · rw [if_pos h2, if_pos h2]; rfl
      · rw [if_neg h2, if_neg h2]; exact addSymT_out _ _ _ _ _

theorem foldTr_out {α : Type} (f : OneBasis → α → Tr) (g : OneBasis → α → Out OneBasis) (h : ∀ b a, (f b a).out = g b a) (b : OneBasis) (L : List α) :
    (foldTr f b L).out = foldOut g b L := by
  induction L generalizing b with
  | nil => rfl
  | cons a L ih =>
    rw [foldTr, foldOut, ← h b a]
    cases f b a with
    | ok b' => exact ih b'
    | throw st => rfl

/-- Relation to the basis of C26. -/
theorem initTr_build (e : OneEnv) (S : OneSet) :
    (∀ b, S.build e.cplx e.sp e.s e.E = .ok b ↔ initTr e S = .ok b ∧ b.states ≠ [] ∧ b.cols ≠ []) := by
  intro b
  unfold OneSet.build initTr
  by_cases hn : S.rangeN = ∅
  · rw [if_pos hn, if_pos hn]; simp
  rw [if_neg hn, if_neg hn, ← foldTr_out (addCandidateT e S) _ (addCandidateT_out e S)]
  cases hf : foldTr (addCandidateT e S) ⟨[], []⟩ (S.candidates e.s e.E) with
  | throw st => simp [Tr.out]
  | ok b1 =>
    simp only [Tr.out]
    by_cases hu : S.toAdd.all (userOk e.sp b1) = false
    · rw [if_pos hu, if_pos hu]; simp
    · rw [if_neg hu, if_neg hu, ← foldTr_out (addUserT e S) _ (addUserT_out e S)]
      cases foldTr (addUserT e S) b1 S.toAdd with
      | throw st => simp [Tr.out]
      | ok b2 =>
        simp only [Tr.out, Tr.ok.injEq]
        by_cases hemp : b2.states = [] ∨ b2.cols = []
        · rw [if_pos hemp]
          constructor
          · intro h; cases h
          · rintro ⟨rfl, h1, h2⟩; rcases hemp with h | h <;> contradiction
        · rw [if_neg hemp]
          push Not at hemp
          constructor
          · intro h; injection h with h; subst h; exact ⟨rfl, hemp.1, hemp.2⟩
          · rintro ⟨rfl, -, -⟩; rfl

/-- Distinct states, and no vectors exactly if there are no states. -/
def OneBasis.Sound (b : OneBasis) : Prop := b.states.Nodup ∧ (b.states = [] ↔ b.cols = [])

theorem addRow_nodup {L : List AState} (h : L.Nodup) (st : AState) : (addRow L st).1.Nodup := by
  unfold addRow
  cases hi : L.idxOf? st with
  | some r => exact h
  | none =>
    rw [List.idxOf?_eq_none_iff] at hi
    simp only
    exact List.nodup_append.2 ⟨h, by simp, by intro a ha b hb; simp only [List.mem_singleton] at hb; subst hb; rintro rfl; exact hi ha⟩

theorem addRow_ne_nil (L : List AState) (st : AState) : (addRow L st).1 ≠ [] := by
  unfold addRow
  cases hi : L.idxOf? st with
  | some r => intro h; simp only at h; subst h; simp at hi
  | none => simp

theorem addSym_sound {cplx : Bool} {p : Par} {st : AState} {energy : ℝ} {b b' : OneBasis} (hb : b.Sound) (h : addSym cplx p st energy b = .ok b') : b'.Sound := by
  have plain : ∀ b', Out.ok (⟨(addRow b.states st).1, b.cols ++ [(energy, [((addRow b.states st).2, 1)])]⟩ : OneBasis) = .ok b' → b'.Sound := by
    intro b' h; injection h with h; subst h
    exact ⟨addRow_nodup hb.1 st, by simp [addRow_ne_nil]⟩
  unfold addSym at h
  cases st with
  | art lab => exact plain _ h
  | phys sp n l j m =>
    dsimp only at h
    by_cases h1 : p = .na ∨ m = 0
    · rw [if_pos h1] at h; exact plain _ h
    · rw [if_neg h1] at h
      by_cases h2 : m < 0
      · rw [if_pos h2] at h; injection h with h; subst h; exact hb
      · rw [if_neg h2] at h
        by_cases h3 : cplx = false
        · rw [if_pos h3] at h; cases h
        · rw [if_neg h3] at h; injection h with h; subst h
          exact ⟨addRow_nodup (addRow_nodup hb.1 _) _, by simp [addRow_ne_nil]⟩

theorem addSymT_sound {cplx : Bool} {p : Par} {st : AState} {energy : ℝ} {b b' : OneBasis} (hb : b.Sound) (h : addSymT cplx p st energy b = .ok b') : b'.Sound := by
  have := addSymT_out cplx p st energy b
  rw [h] at this
  exact addSym_sound hb this.symm

theorem foldTr_sound {α : Type} (f : OneBasis → α → Tr) (hf : ∀ b a b', b.Sound → f b a = .ok b' → b'.Sound) (b b' : OneBasis) (L : List α) (hb : b.Sound)
    (h : foldTr f b L = .ok b') : b'.Sound := by
  induction L generalizing b with
  | nil => rw [foldTr] at h; injection h with h; subst h; exact hb
  | cons a L ih =>
    rw [foldTr] at h
    cases hfa : f b a with
    | ok b1 => rw [hfa] at h; exact ih b1 (hf b a b1 hb hfa) h
    | throw st => rw [hfa] at h; cases h

theorem initTr_sound {e : OneEnv} {S : OneSet} {b : OneBasis} (h : initTr e S = .ok b) : b.Sound := by
  unfold initTr at h
  by_cases hn : S.rangeN = ∅
  · rw [if_pos hn] at h; cases h
  rw [if_neg hn] at h
  cases hf : foldTr (addCandidateT e S) ⟨[], []⟩ (S.candidates e.s e.E) with
  | throw st => rw [hf] at h; cases h
  | ok b1 =>
    rw [hf] at h
    dsimp only at h
    have s1 : b1.Sound := by
      refine foldTr_sound _ ?_ _ _ _ ⟨List.nodup_nil, by simp⟩ hf
      intro b c b' hb hc
      unfold addCandidateT at hc
      split_ifs at hc
      exact addSymT_sound hb hc
    by_cases hu : S.toAdd.all (userOk e.sp b1) = false
    · rw [if_pos hu] at h; cases h
    · rw [if_neg hu] at h
      refine foldTr_sound _ ?_ _ _ _ s1 h
      intro b st b' hb hc
      unfold addUserT at hc
      cases st with
      | art lab => exact addSymT_sound hb hc
      | phys sp n l j m =>
        dsimp only at hc
        split_ifs at hc
        · injection hc with hc; subst hc; exact hb
        · exact addSymT_sound hb hc

/-! ## The three kinds of objects -/

/-- No basis. -/
structure OneAtomObj.Blank (o : OneAtomObj) : Prop where
  states : o.sys.states = []
  rows : o.sys.V.rows = 0
  cols : o.sys.V.cols = 0
  hrows : o.sys.H.rows = 0
  hcols : o.sys.H.cols = 0

/-- A basis: distinct states, numbered from 0, at least one state and one vector, matrices of matching sizes. -/
structure OneAtomObj.Built (o : OneAtomObj) : Prop where
  wf : o.sys.WF
  states : o.sys.states ≠ []
  cols : o.sys.V.cols ≠ 0

theorem Blank.consistent {o : OneAtomObj} (h : o.Blank) : ¬ o.inconsistent := by
  unfold OneAtomObj.inconsistent Mat.isEmpty
  simp [h.states, h.rows, h.hrows]

theorem Built.consistent {o : OneAtomObj} (h : o.Built) : ¬ o.inconsistent := by
  unfold OneAtomObj.inconsistent Mat.isEmpty
  have hl : o.sys.states.length ≠ 0 := by simpa using h.states
  simp [h.states, h.wf.hrows, h.wf.hcols, h.cols, h.wf.rows]

theorem enumStates_eq_nil {L : List AState} : enumStates L = [] ↔ L = [] := by
  unfold enumStates
  simp

theorem toSys_wf {b : OneBasis} (hb : b.Sound) : b.toSys.WF := by
  refine ⟨?_, ?_, ?_, rfl, rfl, (by intro A h; cases h), (by intro A h; cases h)⟩
  · show (enumStates b.states).map Prod.fst = List.range (enumStates b.states).length
    unfold enumStates
    refine List.ext_getElem (by simp) fun i h1 h2 => ?_
    simp
  · show ((enumStates b.states).map Prod.snd).Nodup
    have : (enumStates b.states).map Prod.snd = b.states := by
      unfold enumStates
      refine List.ext_getElem (by simp) fun i h1 h2 => ?_
      simp
    rw [this]; exact hb.1
  · show b.states.length = (enumStates b.states).length
    unfold enumStates
    simp

theorem keepCols_wf {σ : Type} {s : SysB σ} (h : s.WF) (ix : List ℕ) : (s.keepCols ix).WF := by
  refine ⟨h.idx, h.nodup, h.rows, rfl, rfl, ?_, ?_⟩
  · intro A hA
    change s.Vc.map _ = some A at hA
    cases hv : s.Vc with
    | none => rw [hv] at hA; cases hA
    | some B =>
      rw [hv] at hA
      injection hA with hA
      subst hA
      exact ⟨(h.cacheV B hv).1, rfl⟩
  · intro A hA
    change s.Hc.map _ = some A at hA
    cases hv : s.Hc with
    | none => rw [hv] at hA; cases hA
    | some B =>
      rw [hv] at hA
      injection hA with hA
      subst hA
      exact ⟨rfl, rfl⟩

theorem update_wf {σ : Type} {s : SysB σ} (h : s.WF) (p : Pending σ) : ((s.updateQn p).updateVec p).WF := by
  have h1 : (s.updateQn p).WF := (updateQn_spec s h p).wf
  unfold SysB.updateVec
  by_cases hn : p.valid.isNone ∧ p.energyMin.isNone ∧ p.energyMax.isNone
  · rw [if_pos hn]; exact h1
  · rw [if_neg hn]
    exact (C30_remove_states _ (keepCols_wf h1 _) _).1

theorem wf_cases {o : OneAtomObj} (h : o.sys.WF) : o.Blank ∨ o.Built ∨ o.inconsistent := by
  by_cases hs : o.sys.states = []
  · have hr : o.sys.V.rows = 0 := by rw [h.rows, hs]; rfl
    by_cases hc : o.sys.V.cols = 0
    · exact Or.inl ⟨hs, hr, hc, h.hrows.trans hc, h.hcols.trans hc⟩
    · refine Or.inr (Or.inr (Or.inl ?_))
      unfold Mat.isEmpty
      simp [hs, h.hrows, h.hcols, hc]
  · by_cases hc : o.sys.V.cols = 0
    · refine Or.inr (Or.inr (Or.inl ?_))
      unfold Mat.isEmpty
      simp [hs, h.hrows, hc]
    · exact Or.inr (Or.inl ⟨h, hs, hc⟩)

theorem buildBasis_inconsistent {e : OneEnv} {o : OneAtomObj} (h : o.inconsistent) : o.buildBasis e = (true, o) := by
  unfold OneAtomObj.buildBasis; rw [if_pos h]

theorem buildBasis_idle {e : OneEnv} {o : OneAtomObj} (h : o.Built) (hi : o.set.idle) : o.buildBasis e = (false, o) := by
  unfold OneAtomObj.buildBasis; rw [if_neg (Built.consistent h), if_pos ⟨h.states, hi⟩]

theorem buildBasis_blank {e : OneEnv} {o : OneAtomObj} (h : o.Blank) : o.buildBasis e = match initTr e o.set with
    | .throw st => (true, { o with sys := { o.sys with states := enumStates st } })
    | .ok b => (decide (b.states = []), ⟨o.set.forget, b.toSys⟩) := by
  unfold OneAtomObj.buildBasis
  rw [if_neg (Blank.consistent h), if_neg (by simp [h.states]), if_pos h.states]
  cases hi : initTr e o.set with
  | throw st => rfl
  | ok b =>
    dsimp only
    congr 1
    have hb := initTr_sound hi
    have : (b.toSys.V.rows = 0 ∨ b.toSys.V.cols = 0) ↔ b.states = [] := by
      show b.states.length = 0 ∨ b.cols.length = 0 ↔ _
      rw [List.length_eq_zero_iff, List.length_eq_zero_iff, ← hb.2, or_self]
    simp only [this]

theorem buildBasis_built {e : OneEnv} {o : OneAtomObj} (h : o.Built) (hi : ¬ o.set.idle) :
    o.buildBasis e = if o.set.toAdd ≠ [] then (true, { o with sys := (o.sys.updateQn o.set.pending).updateVec o.set.pending })
      else (decide (((o.sys.updateQn o.set.pending).updateVec o.set.pending).V.rows = 0 ∨ ((o.sys.updateQn o.set.pending).updateVec o.set.pending).V.cols = 0),
        ⟨o.set.forget, (o.sys.updateQn o.set.pending).updateVec o.set.pending⟩) := by
  unfold OneAtomObj.buildBasis
  rw [if_neg (Built.consistent h), if_neg (by simp [hi]), if_neg h.states]

theorem forget_idle (S : OneSet) : S.forget.idle := ⟨rfl, rfl, rfl, rfl, rfl, rfl, rfl⟩

/-- Every object is of one of the three kinds. -/
def OneAtomObj.Kind (o : OneAtomObj) : Prop := o.Blank ∨ o.Built ∨ o.inconsistent

theorem kind_congr {o o' : OneAtomObj} (h : o.sys = o'.sys) (hk : o.Kind) : o'.Kind := by
  rcases o with ⟨S, s⟩
  rcases o' with ⟨S', s'⟩
  dsimp only at h
  subst h
  rcases hk with h | h | h
  · exact Or.inl ⟨h.1, h.2, h.3, h.4, h.5⟩
  · exact Or.inr (Or.inl ⟨h.1, h.2, h.3⟩)
  · exact Or.inr (Or.inr h)

theorem kind_build (e : OneEnv) (o : OneAtomObj) (hk : o.Kind) : (o.buildBasis e).2.Kind := by
  rcases hk with h | h | h
  · rw [buildBasis_blank h]
    cases hi : initTr e o.set with
    | throw st =>
      by_cases hst : st = []
      · subst hst
        refine Or.inl ⟨rfl, h.2, h.3, h.4, h.5⟩
      · refine Or.inr (Or.inr (Or.inl ?_))
        show ¬ (o.sys.H.isEmpty ↔ enumStates st = [])
        rw [enumStates_eq_nil]
        unfold Mat.isEmpty
        simp [h.hrows, hst]
    | ok b => exact wf_cases (o := ⟨_, _⟩) (toSys_wf (initTr_sound hi))
  · by_cases hid : o.set.idle
    · rw [buildBasis_idle h hid]; exact Or.inr (Or.inl h)
    · rw [buildBasis_built h hid]
      by_cases ha : o.set.toAdd ≠ []
      · rw [if_pos ha]; exact wf_cases (o := ⟨_, _⟩) (update_wf h.wf _)
      · rw [if_neg ha]; exact wf_cases (o := ⟨_, _⟩) (update_wf h.wf _)
  · rw [buildBasis_inconsistent h]; exact Or.inr (Or.inr h)

theorem step_sys (e : OneEnv) (o : OneAtomObj) (x : OneOp) (hx : x ≠ .get) : (o.step e x).2.sys = o.sys := by
  cases x with
  | get => exact absurd rfl hx
  | parity p =>
    unfold OneAtomObj.step
    dsimp only
    by_cases h : o.sys.states ≠ []
    · rw [if_pos h]
    · rw [if_neg h]
  | momenta ms =>
    unfold OneAtomObj.step
    dsimp only
    by_cases h : o.sys.states ≠ []
    · rw [if_pos h]
    · rw [if_neg h]
  | _ => rfl

theorem kind_step (e : OneEnv) (o : OneAtomObj) (x : OneOp) (hk : o.Kind) : (o.step e x).2.Kind := by
  by_cases hx : x = .get
  · subst hx; exact kind_build e o hk
  · exact kind_congr (step_sys e o x hx).symm hk

theorem blank_fresh : OneAtomObj.fresh.Blank := ⟨rfl, rfl, rfl, rfl, rfl⟩

theorem kind_run (e : OneEnv) (h : List OneOp) (o : OneAtomObj) (hk : o.Kind) : (o.run e h).2.Kind := by
  induction h generalizing o with
  | nil => exact hk
  | cons x xs ih => exact ih _ (kind_step e o x hk)

end PI
