import Verif.Sys.Props
import Mathlib.Tactic.FieldSimp

/-! # C66 restrictions on a built system, C67 combining systems, C68 overlaps -/

namespace PI

/-! ## C66 -/

/-- A system whose basis vectors are its states (no mixing): the coefficient matrix is the identity. -/
structure SysB.Canon {σ : Type} (s : SysB σ) : Prop where
  wf : s.WF
  cols : s.V.cols = s.states.length
  unit : ∀ i < s.states.length, ∀ c < s.states.length, s.V.val i c = if i = c then 1 else 0

/-- Is a state inside all pending restrictions?  (Specification: quantum numbers allowed, energy strictly inside the
window.) -/
def Inside {σ : Type} (s : SysB σ) (p : Pending σ) (e : ℕ × σ) : Prop :=
  (∀ f, p.valid = some f → f e.2 = true) ∧
  (∀ a, p.energyMin = some a → a < (s.H.val e.1 e.1).re) ∧ (∀ b, p.energyMax = some b → (s.H.val e.1 e.1).re < b)

theorem energyOk_spec {σ : Type} (p : Pending σ) (e : ℝ) :
    p.energyOk e = true ↔ (∀ a, p.energyMin = some a → a < e) ∧ (∀ b, p.energyMax = some b → e < b) := by
  unfold Pending.energyOk
  cases p.energyMin <;> cases p.energyMax <;> simp

/-- The quantum number test of the pending restrictions. -/
def Pending.qn {σ : Type} (p : Pending σ) (st : σ) : Bool :=
  match p.valid with
  | none => true
  | some f => f st

theorem states_get {σ : Type} {s : SysB σ} (h : s.WF) (i : ℕ) (hi : i < s.states.length) : (s.states[i]).1 = i := by
  have := congrArg (fun L => L[i]?) h.idx
  simp only [List.getElem?_map, List.getElem?_eq_getElem hi, List.getElem?_range hi, Option.map_some, Option.some.injEq] at this
  exact this

/-- What is left after the removal of states by quantum numbers. -/
structure AfterQn {σ : Type} (s : SysB σ) (p : Pending σ) (s1 : SysB σ) : Prop where
  wf : s1.WF
  states : s1.states.map Prod.snd = (s.states.filter fun e => p.qn e.2).map Prod.snd
  cols : s1.V.cols = s.V.cols
  H : s1.H = s.H
  val : ∀ i x c, ((s.states.filter fun e => p.qn e.2).map Prod.fst)[i]? = some x → s1.V.val i c = s.V.val x c

theorem updateQn_spec {σ : Type} (s : SysB σ) (h : s.WF) (p : Pending σ) : AfterQn s p (s.updateQn p) := by
  unfold SysB.updateQn
  cases hv : p.valid with
  | none =>
    have hq : (s.states.filter fun e => p.qn e.2) = s.states := by
      apply List.filter_eq_self.mpr
      intro e _
      simp [Pending.qn, hv]
    refine ⟨h, by rw [hq], rfl, rfl, ?_⟩
    intro i x c hi
    rw [hq, h.idx] at hi
    have : i < s.states.length := by
      by_contra hc
      rw [List.getElem?_eq_none (by simp; omega)] at hi
      cases hi
    rw [List.getElem?_range this] at hi
    injection hi with hi
    rw [hi]
  | some f =>
    have hq : (fun e : ℕ × σ => p.qn e.2) = fun e => f e.2 := by
      funext e; simp [Pending.qn, hv]
    obtain ⟨r1, r2, -, r4, r5, -, -⟩ := C30_remove_states s h fun e => f e.2
    refine ⟨r1, by rw [hq]; exact r2, r4, r5, ?_⟩
    intro i x c hi
    rw [hq] at hi
    exact removeStates_val s h _ i x c hi

/-- Selecting from an identity-like matrix: squared norms are 1 or 0. -/
theorem sum_indicator (R : List ℕ) (hR : R.Nodup) (c : ℕ) :
    ∑ i ∈ Finset.range R.length, (if R[i]? = some c then (1 : ℝ) else 0) = if c ∈ R then 1 else 0 := by
  by_cases hc : c ∈ R
  · rw [if_pos hc]
    obtain ⟨i, hi, rfl⟩ := List.mem_iff_getElem.mp hc
    rw [Finset.sum_eq_single i]
    · rw [List.getElem?_eq_getElem hi, if_pos rfl]
    · intro k hk hne
      rw [List.getElem?_eq_getElem (Finset.mem_range.mp hk), if_neg]
      intro e
      injection e with e
      exact hne ((List.Nodup.getElem_inj_iff hR).mp e)
    · intro h; exact absurd (Finset.mem_range.mpr hi) h
  · rw [if_neg hc]
    apply Finset.sum_eq_zero
    intro i _
    rw [if_neg]
    intro e
    exact hc (List.mem_of_getElem? e)

theorem filter_range_map {σ : Type} {s : SysB σ} (h : s.WF) (q : ℕ × σ → Bool) (c : ℕ) :
    c ∈ (s.states.filter q).map Prod.fst ↔ ∃ hc : c < s.states.length, q s.states[c] = true := by
  rw [List.mem_map]
  constructor
  · rintro ⟨e, he, rfl⟩
    obtain ⟨h1, h2⟩ := List.mem_filter.mp he
    obtain ⟨i, hi, rfl⟩ := List.mem_iff_getElem.mp h1
    rw [states_get h i hi]
    exact ⟨hi, h2⟩
  · rintro ⟨hc, hq⟩
    exact ⟨s.states[c], List.mem_filter.mpr ⟨List.getElem_mem hc, hq⟩, states_get h c hc⟩

/-- **C66.** For all systems without mixing, all quantum number restrictions, energy windows and norm thresholds in
[0, 1): restricting a system whose basis is already built leaves exactly the states inside all restrictions, in their old
order and enumerated 0..N-1; the basis vectors are again exactly these states (identity coefficients), with unchanged
energies and Hamiltonian entries; if nothing is left the call throws. -/
theorem C66_restrict_built_system {σ : Type} (s : SysB σ) (hs : s.Canon) (p : Pending σ) (hadd : p.addStates = false)
    (h0 : 0 ≤ p.thr) (h1 : p.thr < 1) :
    (s.update p = .throw ∧ ∀ e ∈ s.states, ¬ Inside s p e) ∨
    ∃ s', s.update p = .ok s' ∧ s'.Canon ∧ (∃ e ∈ s.states, Inside s p e) ∧
      (∃ q : ℕ × σ → Bool, (∀ e ∈ s.states, q e = true ↔ Inside s p e) ∧
        s'.states.map Prod.snd = (s.states.filter q).map Prod.snd) ∧
      (∀ i st i' st' j j', (i, st) ∈ s.states → (j, st) ∈ s'.states → (i', st') ∈ s.states → (j', st') ∈ s'.states →
        s'.H.val j j' = s.H.val i i') := by
  have hwf := hs.wf
  have A := updateQn_spec s hwf p
  generalize hs1 : s.updateQn p = s1 at A
  -- the test that decides which states stay
  let q : ℕ × σ → Bool := fun e => p.qn e.2 && p.energyOk (s.H.val e.1 e.1).re
  have hq : ∀ e ∈ s.states, q e = true ↔ Inside s p e := by
    intro e _
    simp only [q, Bool.and_eq_true, energyOk_spec, Inside]
    have : p.qn e.2 = true ↔ ∀ f, p.valid = some f → f e.2 = true := by
      unfold Pending.qn
      cases p.valid <;> simp
    rw [this]
  let n := s.states.length
  let R := (s.states.filter fun e => p.qn e.2).map Prod.fst
  have hRn : R.Nodup := by
    have : (s.states.map Prod.fst).Nodup := by rw [hwf.idx]; exact List.nodup_range
    exact this.sublist (List.Sublist.map _ List.filter_sublist)
  have hRlen : s1.states.length = R.length := by
    have := congrArg List.length A.states
    simpa [R] using this
  have hRlt : ∀ x ∈ R, x < n := by
    intro x hx
    obtain ⟨hc, -⟩ := (filter_range_map hwf _ x).mp hx
    exact hc
  have hV1 : ∀ i x c, R[i]? = some x → c < n → s1.V.val i c = if x = c then 1 else 0 := by
    intro i x c hi hc
    rw [A.val i x c hi]
    exact hs.unit x (hRlt x (List.mem_of_getElem? hi)) c hc
  have hcol : ∀ c < n, s1.V.colNorm c = if c ∈ R then 1 else 0 := by
    intro c hc
    unfold Mat.colNorm
    rw [A.wf.rows, hRlen, ← sum_indicator R hRn c]
    apply Finset.sum_congr rfl
    intro i hi
    have hi' := Finset.mem_range.mp hi
    rw [List.getElem?_eq_getElem hi', hV1 i R[i] c (List.getElem?_eq_getElem hi') hc]
    by_cases e : R[i] = c
    · simp [e]
    · simp [e]
  -- the kept columns
  let C := (List.range n).filter fun c => p.energyOk (s.H.val c c).re && decide (c ∈ R)
  have hcols1 : s1.V.cols = n := A.cols.trans hs.cols
  have hC : s1.keptCols p = C := by
    unfold SysB.keptCols
    rw [hcols1, A.H]
    apply List.filter_congr
    intro c hc
    rw [hcol c (List.mem_range.mp hc)]
    by_cases hcr : c ∈ R
    · simp [hcr, h1]
    · simp [hcr, h0]
  have hCn : C.Nodup := List.nodup_range.filter _
  have hCmem : ∀ c, c ∈ C ↔ ∃ hc : c < n, q s.states[c] = true := by
    intro c
    simp only [C, List.mem_filter, List.mem_range, Bool.and_eq_true, decide_eq_true_eq, R, filter_range_map hwf, q]
    constructor
    · rintro ⟨h1, h2, h3, h4⟩
      refine ⟨h1, h4, ?_⟩
      rw [states_get hwf c h1]; exact h2
    · rintro ⟨h1, h2, h3⟩
      rw [states_get hwf c h1] at h3
      exact ⟨h1, h3, h1, h2⟩
  have hClt : ∀ c ∈ C, c < n := fun c hc => ((hCmem c).mp hc).1
  have hCq : C = (s.states.filter q).map Prod.fst := by
    -- both are the sub-list of 0..n-1 of the states that stay
    have : (s.states.filter q).map Prod.fst = (List.range n).filter fun c => decide (∃ hc : c < n, q s.states[c] = true) := by
      rw [← hwf.idx, List.filter_map]
      congr 1
      apply List.filter_congr
      intro e he
      obtain ⟨i, hi, rfl⟩ := List.mem_iff_getElem.mp he
      simp only [Function.comp_apply]
      by_cases hqi : q s.states[i] = true
      · rw [hqi]
        symm
        rw [decide_eq_true_eq]
        refine ⟨?_, ?_⟩
        · rw [states_get hwf i hi]; exact hi
        · simp only [states_get hwf i hi]; exact hqi
      · have : q s.states[i] = false := by simpa using hqi
        rw [this]
        symm
        rw [decide_eq_false_iff_not]
        rintro ⟨h1, h2⟩
        simp only [states_get hwf i hi] at h2
        exact hqi h2
    rw [this]
    apply List.filter_congr
    intro c hc
    have hc' := List.mem_range.mp hc
    by_cases hcC : c ∈ C
    · have g := (hCmem c).mp hcC
      rw [decide_eq_true g]
      exact (List.mem_filter.mp hcC).2
    · rw [decide_eq_false (fun g => hcC ((hCmem c).mpr g))]
      by_contra hne
      exact hcC (List.mem_filter.mpr ⟨hc, by simpa using hne⟩)
  -- no restriction at all: nothing changes, and everything is inside
  by_cases hnone : p.valid.isNone ∧ p.energyMin.isNone ∧ p.energyMax.isNone
  · have hup : (s.updateQn p).updateVec p = s := by
      unfold SysB.updateVec
      rw [if_pos hnone]
      unfold SysB.updateQn
      rw [Option.isNone_iff_eq_none.mp hnone.1]
    have hall : ∀ e ∈ s.states, Inside s p e := by
      intro e _
      refine ⟨?_, ?_, ?_⟩
      · intro f hf; rw [Option.isNone_iff_eq_none.mp hnone.1] at hf; cases hf
      · intro f hf; rw [Option.isNone_iff_eq_none.mp hnone.2.1] at hf; cases hf
      · intro f hf; rw [Option.isNone_iff_eq_none.mp hnone.2.2] at hf; cases hf
    unfold SysB.update
    rw [hup, hadd, if_neg (by simp)]
    by_cases hemp : s.V.rows = 0 ∨ s.V.cols = 0
    · left
      rw [if_pos hemp]
      refine ⟨rfl, ?_⟩
      intro e he
      have : s.states.length = 0 := by
        rcases hemp with h | h
        · rw [← hwf.rows]; exact h
        · rw [← hs.cols]; exact h
      have := WF.lt hwf he
      omega
    · right
      rw [if_neg hemp]
      have hne : s.states ≠ [] := by
        intro e
        apply hemp
        left
        rw [hwf.rows, e]; rfl
      obtain ⟨e, he⟩ := List.exists_mem_of_ne_nil _ hne
      refine ⟨s, rfl, hs, ⟨e, he, hall e he⟩, ⟨fun _ => true, ?_, ?_⟩, ?_⟩
      · intro e he; simp [hall e he]
      · simp
      · intro i st i' st' j j' g1 g2 g3 g4
        have e1 : (i, st) = (j, st) := List.inj_on_of_nodup_map hwf.nodup g1 g2 rfl
        have e2 : (i', st') = (j', st') := List.inj_on_of_nodup_map hwf.nodup g3 g4 rfl
        injection e1 with e1
        injection e2 with e2
        rw [e1, e2]
  · -- columns are removed, then states
    let s2 := s1.keepCols C
    have hs2wf : s2.WF := by
      refine ⟨A.wf.idx, A.wf.nodup, A.wf.rows, rfl, rfl, ?_, ?_⟩
      · intro B hB
        change s1.Vc.map _ = some B at hB
        cases hv : s1.Vc with
        | none => rw [hv] at hB; cases hB
        | some D =>
          rw [hv] at hB; injection hB with hB; subst hB
          exact ⟨(A.wf.cacheV D hv).1, rfl⟩
      · intro B hB
        change s1.Hc.map _ = some B at hB
        cases hv : s1.Hc with
        | none => rw [hv] at hB; cases hB
        | some D =>
          rw [hv] at hB; injection hB with hB; subst hB
          exact ⟨rfl, rfl⟩
    have hs2cols : s2.V.cols = C.length := by
      change (selTriplets 0 C).length = _
      rw [selTriplets_length]
    have hV2 : ∀ i x k c, R[i]? = some x → C[k]? = some c → s2.V.val i k = if x = c then 1 else 0 := by
      intro i x k c hi hk
      have hc := hClt c (List.mem_of_getElem? hk)
      rw [(keepCols_val s1 A.wf C k c hk (by rw [hcols1]; exact hc)).1]
      exact hV1 i x c hi hc
    have hrow : ∀ i x, R[i]? = some x → s2.V.rowNorm i = if x ∈ C then 1 else 0 := by
      intro i x hi
      unfold Mat.rowNorm
      rw [hs2cols, ← sum_indicator C hCn x]
      apply Finset.sum_congr rfl
      intro k hk
      have hk' := Finset.mem_range.mp hk
      rw [List.getElem?_eq_getElem hk', hV2 i x k C[k] hi (List.getElem?_eq_getElem hk')]
      by_cases e : x = C[k]
      · simp [e]
      · simp [e, Ne.symm e]
    let ok : ℕ × σ → Bool := fun e => decide (p.thr < s2.V.rowNorm e.1)
    let s3 := s2.removeStates ok
    have hup : (s.updateQn p).updateVec p = s3 := by
      unfold SysB.updateVec
      rw [if_neg hnone, hs1, hC]
    have hs2st : s2.states = s1.states := rfl
    -- which states pass: those whose old row is a kept column
    have hok : ∀ i x, R[i]? = some x → ∀ (hi : i < s2.states.length), ok s2.states[i] = decide (x ∈ C) := by
      intro i x hx hi
      simp only [ok]
      rw [states_get hs2wf i hi, hrow i x hx]
      by_cases hxC : x ∈ C
      · simp [hxC, h1]
      · simp [hxC, h0]
    -- the states of s1 are the filtered states of s
    have hs1st : s1.states = (s.states.filter fun e => p.qn e.2).mapIdx fun i e => (i, e.2) := by
      apply List.ext_getElem
      · rw [List.length_mapIdx, hRlen]; simp [R]
      · intro i hi1 hi2
        rw [List.getElem_mapIdx]
        have e1 := states_get A.wf i hi1
        have e2 := congrArg (fun L => L[i]?) A.states
        simp only [List.getElem?_map] at e2
        rw [List.length_mapIdx] at hi2
        rw [List.getElem?_eq_getElem hi1, List.getElem?_eq_getElem hi2] at e2
        simp only [Option.map_some, Option.some.injEq] at e2
        exact Prod.ext e1 e2
    have hkept : (s2.states.filter ok).map Prod.snd = (s.states.filter q).map Prod.snd := by
      have key : ∀ (L : List (ℕ × σ)) (off : ℕ),
          (∀ i (hi : i < L.length), ok (off + i, L[i].2) = p.energyOk (s.H.val L[i].1 L[i].1).re) →
          (((L.mapIdx fun i e => (off + i, e.2)).filter ok).map Prod.snd) =
            (L.filter fun e => p.energyOk (s.H.val e.1 e.1).re).map Prod.snd := by
        intro L
        induction L with
        | nil => intro off _; simp
        | cons e L ih =>
          intro off hL
          rw [List.mapIdx_cons, List.filter_cons, List.filter_cons]
          have h0' := hL 0 (by simp)
          simp only [List.getElem_cons_zero] at h0'
          have hrest := ih (off + 1) (by
            intro i hi
            have := hL (i + 1) (by simpa using hi)
            simp only [List.getElem_cons_succ] at this
            rw [← this, show off + (i + 1) = off + 1 + i by ring])
          have hfun : (L.mapIdx fun i e => (off + (i + 1), e.2)) = L.mapIdx fun i e => (off + 1 + i, e.2) := by
            congr 1
            funext i e
            rw [show off + (i + 1) = off + 1 + i by ring]
          rw [hfun, h0']
          split
          · rw [List.map_cons, List.map_cons, hrest]
          · exact hrest
      rw [hs2st, hs1st]
      have := key (s.states.filter fun e => p.qn e.2) 0 (by
        intro i hi
        have hRi : R[i]? = some ((s.states.filter fun e => p.qn e.2)[i].1) := by
          simp only [R]; rw [List.getElem?_map, List.getElem?_eq_getElem hi]; rfl
        have hi2 : i < s2.states.length := by
          rw [hs2st, hRlen]; simpa [R] using hi
        have h2 := hok i _ hRi hi2
        have h3 : s2.states[i] = (0 + i, (s.states.filter fun e => p.qn e.2)[i].2) := by
          have : s2.states[i]? = some (i, (s.states.filter fun e => p.qn e.2)[i].2) := by
            rw [hs2st, hs1st, List.getElem?_mapIdx, List.getElem?_eq_getElem hi]; rfl
          rw [List.getElem?_eq_getElem hi2] at this
          injection this with this
          rw [this, Nat.zero_add]
        rw [h3] at h2
        rw [h2]
        have hm := List.getElem_mem hi
        obtain ⟨m1, m2⟩ := List.mem_filter.mp hm
        generalize (s.states.filter fun e => p.qn e.2)[i] = e at m1 m2
        obtain ⟨k, hk, rfl⟩ := List.mem_iff_getElem.mp m1
        by_cases hCk : (s.states[k]).1 ∈ C
        · have := (hCmem _).mp hCk
          rw [decide_eq_true hCk]
          obtain ⟨g1, g2⟩ := this
          simp only [states_get hwf k hk] at g2
          simp only [q, Bool.and_eq_true] at g2
          exact g2.2.symm
        · rw [decide_eq_false hCk]
          symm
          by_contra hcon
          apply hCk
          rw [hCmem]
          refine ⟨by rw [states_get hwf k hk]; exact hk, ?_⟩
          simp only [states_get hwf k hk]
          simp only [q, Bool.and_eq_true]
          exact ⟨m2, by simpa using hcon⟩)
      simp only [Nat.zero_add] at this
      rw [this, List.filter_filter]
      congr 2
      funext e
      simp only [q]
      rw [Bool.and_comm]
    obtain ⟨w1, w2, w3, w4, w5, -, w7⟩ := C30_remove_states s2 hs2wf ok
    have hs3st : s3.states.map Prod.snd = (s.states.filter q).map Prod.snd := w2.trans hkept
    have hs3len : s3.states.length = C.length := by
      have := congrArg List.length hs3st
      rw [hCq]
      simpa using this
    -- row i of s3 is the old state C[i]
    have hrow3 : ∀ i (hi : i < C.length), ∃ i1, R[i1]? = some C[i] ∧ ∀ c, s3.V.val i c = s2.V.val i1 c := by
      intro i hi
      have hi3 : i < s3.states.length := by rw [hs3len]; exact hi
      have hmem3 : (i, (s3.states[i]).2) ∈ s3.states := by
        have : s3.states[i] = (i, (s3.states[i]).2) := Prod.ext (states_get w1 i hi3) rfl
        rw [← this]; exact List.getElem_mem hi3
      have hsnd : (s3.states[i]).2 ∈ s2.states.map Prod.snd := by
        have : (s3.states[i]).2 ∈ s3.states.map Prod.snd := List.mem_map_of_mem (List.getElem_mem hi3)
        rw [w2] at this
        obtain ⟨e, he, hee⟩ := List.mem_map.mp this
        rw [← hee]
        exact List.mem_map_of_mem (List.mem_filter.mp he).1
      obtain ⟨e, he, hee⟩ := List.mem_map.mp hsnd
      have hw := fun c => (w7 (s3.states[i]).2 e.1 i c (by rw [← hee]; exact he) hmem3).1
      refine ⟨e.1, ?_, hw⟩
      -- e is (i1, st) in s1, st is the state of C[i]
      have hst : (s.states.filter q)[i]? = some (C[i], (s3.states[i]).2) := by
        have hlen : i < (s.states.filter q).length := by
          have : C.length = (s.states.filter q).length := by rw [hCq]; simp
          omega
        rw [List.getElem?_eq_getElem hlen]
        congr 1
        apply Prod.ext
        · have : C[i]? = some ((s.states.filter q)[i]).1 := by
            rw [hCq, List.getElem?_map, List.getElem?_eq_getElem hlen]; rfl
          rw [List.getElem?_eq_getElem hi] at this
          injection this with this
          exact this.symm
        · have := congrArg (fun L => L[i]?) hs3st
          simp only [List.getElem?_map] at this
          rw [List.getElem?_eq_getElem hi3, List.getElem?_eq_getElem hlen] at this
          simp only [Option.map_some, Option.some.injEq] at this
          exact this.symm
      have hin : (C[i], (s3.states[i]).2) ∈ s.states := (List.mem_filter.mp (List.mem_of_getElem? hst)).1
      rw [hs2st, hs1st, List.mem_mapIdx] at he
      obtain ⟨k, hk, hke⟩ := he
      have hk2 : (s.states.filter fun e => p.qn e.2)[k] = (C[i], (s3.states[i]).2) := by
        apply List.inj_on_of_nodup_map hwf.nodup (List.mem_filter.mp (List.getElem_mem hk)).1 hin
        rw [← hee, ← hke]
      have : e.1 = k := by rw [← hke]
      rw [this]
      simp only [R]
      rw [List.getElem?_map, List.getElem?_eq_getElem hk, hk2]; rfl
    have hcanon : s3.Canon := by
      refine ⟨w1, ?_, ?_⟩
      · rw [hs3len, ← hs2cols]; exact w4
      · intro i hi c hc
        rw [hs3len] at hi hc
        obtain ⟨i1, g1, g2⟩ := hrow3 i hi
        rw [g2, hV2 i1 C[i] c C[c] g1 (List.getElem?_eq_getElem hc)]
        by_cases e : i = c
        · subst e; simp
        · rw [if_neg e, if_neg]
          intro h
          exact e ((List.Nodup.getElem_inj_iff hCn).mp h)
    have hH3 : ∀ i (hi : i < C.length) j (hj : j < C.length), s3.H.val i j = s.H.val C[i] C[j] := by
      intro i hi j hj
      have : s3.H = s2.H := w5
      rw [this, (keepCols_val s1 A.wf C i C[i] (List.getElem?_eq_getElem hi)
        (by rw [hcols1]; exact hClt _ (List.getElem_mem hi))).2 j C[j] (List.getElem?_eq_getElem hj)
        (by rw [hcols1]; exact hClt _ (List.getElem_mem hj)), A.H]
    have hold : ∀ i st j, (i, st) ∈ s.states → (j, st) ∈ s3.states → ∃ hj : j < C.length, C[j] = i := by
      intro i st j g1 g2
      have hj3 := WF.lt w1 g2
      dsimp only at hj3
      have hj : j < C.length := by rw [← hs3len]; exact hj3
      refine ⟨hj, ?_⟩
      have e1 : s3.states[j] = (j, st) := by
        obtain ⟨k, hk, hke⟩ := List.mem_iff_getElem.mp g2
        have := states_get w1 k hk
        rw [hke] at this
        dsimp only at this
        subst this
        exact hke
      have hlen : j < (s.states.filter q).length := by
        have : C.length = (s.states.filter q).length := by rw [hCq]; simp
        omega
      have e2 := congrArg (fun L => L[j]?) hs3st
      simp only [List.getElem?_map] at e2
      rw [List.getElem?_eq_getElem hj3, List.getElem?_eq_getElem hlen] at e2
      simp only [Option.map_some, Option.some.injEq] at e2
      have e2' : (s.states.filter q)[j].2 = st := e2.symm.trans (congrArg Prod.snd e1)
      have e3 : (s.states.filter q)[j] = (i, st) :=
        List.inj_on_of_nodup_map hwf.nodup (List.mem_filter.mp (List.getElem_mem hlen)).1 g1 e2'
      have e4 : C[j]? = some ((s.states.filter q)[j]).1 := by
        rw [hCq, List.getElem?_map, List.getElem?_eq_getElem hlen]; rfl
      rw [List.getElem?_eq_getElem hj, e3] at e4
      injection e4
    unfold SysB.update
    rw [hup, hadd, if_neg (by simp)]
    have hrows3 : s3.V.rows = C.length := by rw [← hs3len]; exact w1.rows
    have hcols3 : s3.V.cols = C.length := hs2cols ▸ w4
    rw [hrows3, hcols3]
    by_cases hemp : C.length = 0 ∨ C.length = 0
    · left
      rw [if_pos hemp]
      refine ⟨rfl, ?_⟩
      intro e he hin
      have hC0 : C.length = 0 := by tauto
      have : (s.states.filter q).length = 0 := by rw [hCq] at hC0; simpa using hC0
      have hnil := List.length_eq_zero_iff.mp this
      have : e ∈ s.states.filter q := List.mem_filter.mpr ⟨he, (hq e he).mpr hin⟩
      rw [hnil] at this
      simp at this
    · right
      rw [if_neg hemp]
      have hCpos : 0 < C.length := by omega
      refine ⟨s3, rfl, hcanon, ?_, ⟨q, hq, hs3st⟩, ?_⟩
      · obtain ⟨hc, hqc⟩ := (hCmem _).mp (List.getElem_mem hCpos)
        exact ⟨_, List.getElem_mem hc, (hq _ (List.getElem_mem hc)).mp hqc⟩
      · intro i st i' st' j j' g1 g2 g3 g4
        obtain ⟨hj, e1⟩ := hold i st j g1 g2
        obtain ⟨hj', e2⟩ := hold i' st' j' g3 g4
        rw [hH3 j hj j' hj', e1, e2]

theorem exSys_canon : exSys.Canon := ⟨exSys_wf, rfl, fun i _ c _ => rfl⟩

/-- The three-state example (energies 0, 1, 2) restricted to the energy window (0.5, 5): two states are left. -/
example : ∃ s', exSys.update ⟨none, some (1/2), some 5, 1/20, false⟩ = .ok s' ∧ s'.states.map Prod.snd = ["b", "c"] := by
  rcases C66_restrict_built_system exSys exSys_canon ⟨none, some (1/2), some 5, 1/20, false⟩ rfl (by norm_num) (by norm_num)
    with ⟨-, h⟩ | ⟨s', h1, -, -, ⟨q, hq, h2⟩, -⟩
  · exfalso
    apply h (1, "b") (by simp [exSys])
    refine ⟨by simp, ?_, ?_⟩
    · intro a ha; injection ha with ha; rw [← ha]; norm_num [exSys]
    · intro a ha; injection ha with ha; rw [← ha]; norm_num [exSys]
  · refine ⟨s', h1, ?_⟩
    rw [h2]
    have qa : q (0, "a") = false := by
      by_contra hc
      have := ((hq (0, "a") (by simp [exSys])).mp (by simpa using hc)).2.1 (1/2) rfl
      norm_num [exSys] at this
    have qb : q (1, "b") = true := by
      rw [hq (1, "b") (by simp [exSys])]
      refine ⟨by simp, ?_, ?_⟩
      · intro a ha; injection ha with ha; rw [← ha]; norm_num [exSys]
      · intro a ha; injection ha with ha; rw [← ha]; norm_num [exSys]
    have qc : q (2, "c") = true := by
      rw [hq (2, "c") (by simp [exSys])]
      refine ⟨by simp, ?_, ?_⟩
      · intro a ha; injection ha with ha; rw [← ha]; norm_num [exSys]
      · intro a ha; injection ha with ha; rw [← ha]; norm_num [exSys]
    simp [exSys, List.filter_cons, qa, qb, qc]

end PI
