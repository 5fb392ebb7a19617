import Verif.Pair.SectorIff

/-!
# Symmetry sectors of a pair system: the total momentum along z
-/

namespace PI

open Matrix

/-- The settings: conserved momenta, nothing else. -/
def rotSet (ms : Finset ℤ) (thr : ℝ) (sp : String × String) : PairSet := ⟨⟨.na, .na, .na, some ms⟩, none, none, [], [], thr, sp⟩

/-- The settings: selected pairs of basis vectors, nothing else. -/
def selSet (K : List (ℕ × ℕ)) (thr : ℝ) (sp : String × String) : PairSet := ⟨.trivial, none, none, K, [], thr, sp⟩

/-- All pairs of states of the two atoms. -/
def sq2 (S1 S2 : OneSys) : Finset (AState × AState) := S1.states.toFinset ×ˢ S2.states.toFinset

theorem mem_sq2 {S1 S2 : OneSys} {x : AState × AState} : x ∈ sq2 S1 S2 ↔ x.1 ∈ S1.states ∧ x.2 ∈ S2.states := by
  unfold sq2
  rw [Finset.mem_product, List.mem_toFinset, List.mem_toFinset]

/-- States of two species with physical quantum numbers; the sum of the spins is an integer. -/
def TwoAtoms (S1 S2 : OneSys) : Prop := ∃ (sp1 : String) (s1 : ℤ) (sp2 : String) (s2 : ℤ), (s1 + s2) % 2 = 0 ∧
  (∀ x ∈ S1.states, ∃ a, x.qn = some a ∧ a.Physical ∧ a.species = sp1 ∧ a.s = s1) ∧ (∀ x ∈ S2.states, ∃ a, x.qn = some a ∧ a.Physical ∧ a.species = sp2 ∧ a.s = s2)

/-- Every basis vector has a definite momentum along z (doubled). -/
def OneMomentum (S : OneSys) (m : ℕ → ℤ) : Prop := ∀ a < S.cols.length, ∀ e ∈ (S.col a).2, e.1.m = m a

theorem TwoAtoms.spin {S1 S2 : OneSys} (h : TwoAtoms S1 S2) : ∀ s ∈ S1.states, ∀ t ∈ S2.states, (s.j + t.j) % 2 = 0 := by
  obtain ⟨sp1, s1, sp2, s2, h0, h1, h2⟩ := h
  intro s hs t ht
  obtain ⟨a, ha, pa, -, ea⟩ := h1 s hs
  obtain ⟨b, hb, pb, -, eb⟩ := h2 t ht
  have ja := (qn_l ha).2.1
  have jb := (qn_l hb).2.1
  have := pa.2.2.2.2.1
  have := pb.2.2.2.2.1
  omega

theorem TwoAtoms.noArt1 {S1 S2 : OneSys} (h : TwoAtoms S1 S2) (hS : UnitarySys S1) : NoArt S1 := by
  obtain ⟨sp1, s1, sp2, s2, h0, h1, h2⟩ := h
  intro u hu e he
  obtain ⟨a, ha, -⟩ := h1 _ ((hS.rows u hu).2 e he)
  exact (qn_l ha).2.2.2

theorem TwoAtoms.noArt2 {S1 S2 : OneSys} (h : TwoAtoms S1 S2) (hS : UnitarySys S2) : NoArt S2 := by
  obtain ⟨sp1, s1, sp2, s2, h0, h1, h2⟩ := h
  intro u hu e he
  obtain ⟨a, ha, -⟩ := h2 _ ((hS.rows u hu).2 e he)
  exact (qn_l ha).2.2.2

theorem TwoAtoms.pair {S1 S2 : OneSys} (h : TwoAtoms S1 S2) {x : AState × AState} (hx : x ∈ sq2 S1 S2) :
    ∃ a : QN × QN, qnPair x = some a ∧ x.1.qn = some a.1 ∧ x.2.qn = some a.2 := by
  obtain ⟨sp1, s1, sp2, s2, h0, h1, h2⟩ := h
  rw [mem_sq2] at hx
  obtain ⟨a, ha, -⟩ := h1 _ hx.1
  obtain ⟨b, hb, -⟩ := h2 _ hx.2
  exact ⟨(a, b), by unfold qnPair; rw [ha, hb], ha, hb⟩

theorem TwoAtoms.phys {S1 S2 : OneSys} (h : TwoAtoms S1 S2) : ∃ (sp1 : String) (s1 : ℤ) (sp2 : String) (s2 : ℤ), ∀ x ∈ sq2 S1 S2, ∀ a, qnPair x = some a →
    (a.1.Physical ∧ a.1.species = sp1 ∧ a.1.s = s1) ∧ (a.2.Physical ∧ a.2.species = sp2 ∧ a.2.s = s2) := by
  have h' := h
  obtain ⟨sp1, s1, sp2, s2, h0, h1, h2⟩ := h
  refine ⟨sp1, s1, sp2, s2, fun x hx a ha => ?_⟩
  obtain ⟨a', e, e1, e2⟩ := h'.pair hx
  rw [ha] at e
  obtain rfl := Option.some.inj e
  rw [mem_sq2] at hx
  obtain ⟨c, hc, hc'⟩ := h1 _ hx.1
  obtain ⟨d, hd, hd'⟩ := h2 _ hx.2
  rw [e1] at hc
  rw [e2] at hd
  obtain rfl := Option.some.inj hc
  obtain rfl := Option.some.inj hd
  exact ⟨hc', hd'⟩

theorem TwoAtoms.good {S1 S2 : OneSys} (h : TwoAtoms S1 S2) (B : PairBasis) (hs : ∀ x ∈ B.states, x ∈ sq2 S1 S2) : GoodPairs B.st := by
  intro i a ha
  have hi := hs _ (List.get_mem B.states i)
  obtain ⟨sp1, s1, sp2, s2, h⟩ := h.phys
  obtain ⟨⟨a1, a2, a3⟩, a4, a5, a6⟩ := h _ hi a ha
  refine ⟨a1, a4, fun j b hb => ?_⟩
  obtain ⟨⟨b1, b2, b3⟩, b4, b5, b6⟩ := h _ (hs _ (List.get_mem B.states j)) b hb
  exact ⟨a2.trans b2.symm, a3.trans b3.symm, a5.trans b5.symm, a6.trans b6.symm⟩

/-! ## The basis with conserved momenta is the one of the selected pairs -/

theorem prune_empty (thr : ℝ) (h0 : 0 ≤ thr) (cs : List (ℝ × List PEntry)) : prunePairs thr cs = prunePairs thr (cs.filter fun c => decide (c.2 ≠ [])) := by
  have e : (cs.filter fun c => decide (c.2 ≠ [])).flatMap (·.2) = cs.flatMap (·.2) := by
    induction cs with
    | nil => rfl
    | cons c cs ih =>
      by_cases h : c.2 = []
      · rw [List.filter_cons_of_neg (by simpa using h), ih, List.flatMap_cons, h, List.nil_append]
      · rw [List.filter_cons_of_pos (by simpa using h), List.flatMap_cons, ih, List.flatMap_cons]
  unfold prunePairs
  dsimp only
  rw [e, List.filter_filter]
  congr 2
  refine List.filter_congr fun c _ => ?_
  by_cases h : c.2 = []
  · rw [h, Bool.eq_iff_iff]
    simp only [decide_eq_true_eq, Bool.and_eq_true]
    constructor
    · intro h'
      exfalso
      rw [show (List.map (fun p => Complex.normSq (coefP [] p)) (statesOf (List.flatMap (fun x => x.2) cs))).sum = 0 from by
        apply List.sum_eq_zero
        intro x hx
        obtain ⟨p, -, rfl⟩ := List.mem_map.1 hx
        simp [coefP]] at h'
      linarith
    · intro h'; exact absurd rfl h'.2
  · simp [h]

theorem flat_empty (cs : List (ℝ × List PEntry)) : cs.flatMap (·.2) = (cs.filter fun c => decide (c.2 ≠ [])).flatMap (·.2) := by
  induction cs with
  | nil => rfl
  | cons c cs ih =>
    by_cases h : c.2 = []
    · rw [List.filter_cons_of_neg (by simpa using h), ← ih, List.flatMap_cons, h, List.nil_append]
    · rw [List.filter_cons_of_pos (by simpa using h), List.flatMap_cons, List.flatMap_cons, ← ih]

/-- The total momentum of a pair of basis vectors. -/
def colM (m1 m2 : ℕ → ℤ) (ab : ℕ × ℕ) : ℤ := (m1 ab.1 + m2 ab.2).tdiv 2

/-- The pairs of basis vectors with momenta in the set. -/
def momPairs (S1 S2 : OneSys) (m1 m2 : ℕ → ℤ) (ms : Finset ℤ) : List (ℕ × ℕ) := (allPairs S1.cols.length S2.cols.length).filter fun ab => decide (colM m1 m2 ab ∈ ms)

theorem rot_column (ms : Finset ℤ) (d : Bool) (u w : List (AState × ℂ)) (M : ℤ) (hM : ∀ e1 ∈ u, ∀ e2 ∈ w, totalM (e1.1, e2.1) = M) :
    pairColumn ⟨.na, .na, .na, some ms⟩ d u w = if M ∈ ms then pairColumn .trivial d u w else [] := by
  have body : ∀ p v, pairBody ⟨.na, .na, .na, some ms⟩ d p v = if totalM p ∈ ms then [(p, v)] else [] := by
    intro p v
    by_cases h : totalM p ∈ ms
    · rw [if_pos h, pairBody_plain _ _ _ _ (by simp) (by unfold PairSym.drops PairSym.rotExcludes; simp [h])]
      unfold PairSym.scale
      simp
    · rw [if_neg h]
      unfold pairBody
      rw [if_pos]
      left
      unfold PairSym.rotExcludes
      simp [h]
  unfold pairColumn
  by_cases h : M ∈ ms
  · rw [if_pos h]
    refine List.flatMap_congr fun e1 h1 => List.flatMap_congr fun e2 h2 => ?_
    rw [body, if_pos (by rw [hM e1 h1 e2 h2]; exact h), trivial_body]
  · rw [if_neg h, List.flatMap_eq_nil_iff]
    intro e1 h1
    rw [List.flatMap_eq_nil_iff]
    intro e2 h2
    rw [body, if_neg (by rw [hM e1 h1 e2 h2]; exact h)]

theorem noArt_col {S : OneSys} (h : NoArt S) {a : ℕ} (ha : a < S.cols.length) : artCol (S.col a).2 = false := by
  unfold artCol
  rw [List.any_eq_false]
  intro e he
  rw [h _ (col_mem S ha) e he]
  simp

theorem nanJ_false {S1 S2 : OneSys} (h : TwoAtoms S1 S2) (u1 : UnitarySys S1) (u2 : UnitarySys S2) {a b : ℕ} (ha : a < S1.cols.length) (hb : b < S2.cols.length) :
    nanJ (S1.col a).2 (S2.col b).2 = false := by
  unfold nanJ
  rw [List.any_eq_false]
  intro e1 h1
  rw [Bool.not_eq_true, List.any_eq_false]
  intro e2 h2
  rw [decide_eq_true_eq, not_not]
  exact h.spin _ ((u1.rows _ (col_mem S1 ha)).2 e1 h1) _ ((u2.rows _ (col_mem S2 hb)).2 e2 h2)

/-- Conserved momenta select pairs of basis vectors. -/
theorem rot_build (S1 S2 : OneSys) (u1 : UnitarySys S1) (u2 : UnitarySys S2) (h : TwoAtoms S1 S2) (m1 m2 : ℕ → ℤ) (d1 : OneMomentum S1 m1) (d2 : OneMomentum S2 m2) (ms : Finset ℤ)
    (thr : ℝ) (h0 : 0 ≤ thr) (sp : String × String) (lt : AState → AState → Bool) (E : AState → ℝ) (hne : momPairs S1 S2 m1 m2 ms ≠ []) :
    pairBuild (rotSet ms thr sp) lt E S1 S2 = pairBuild (selSet (momPairs S1 S2 m1 m2 ms) thr sp) lt E S1 S2 := by
  have a1 := h.noArt1 u1
  have a2 := h.noArt2 u2
  have l1 : pairLoop (rotSet ms thr sp) S1 S2 ((rotSet ms thr sp).usedPairs S1 S2) =
      .ok ((allPairs S1.cols.length S2.cols.length).map (colOf (rotSet ms thr sp) S1 S2)) := by
    rw [pairLoop_eq]
    · congr 2
      show List.filter _ (allPairs S1.cols.length S2.cols.length) = _
      rw [List.filter_eq_self]
      · intro ab hab
        have hab := (mem_allPairs _ _ _).1 hab
        unfold keepOf
        rw [noArt_col a1 hab.1, noArt_col a2 hab.2]
        simp [rotSet, PairSym.local_, PairSym.skips, PairSet.energyOk]
    · intro ab hab
      exact (mem_allPairs _ _ _).1 hab
    · intro ab hab _ _ _
      have hab := (mem_allPairs _ _ _).1 hab
      exact nanJ_false h u1 u2 hab.1 hab.2
  have mem2 : ∀ ab ∈ momPairs S1 S2 m1 m2 ms, ab.1 < S1.cols.length ∧ ab.2 < S2.cols.length := fun ab hab => (mem_allPairs _ _ _).1 (List.mem_filter.1 hab).1
  have used : (selSet (momPairs S1 S2 m1 m2 ms) thr sp).usedPairs S1 S2 = momPairs S1 S2 m1 m2 ms := by
    unfold PairSet.usedPairs selSet
    rw [if_neg hne]
  have l2 : pairLoop (selSet (momPairs S1 S2 m1 m2 ms) thr sp) S1 S2 ((selSet (momPairs S1 S2 m1 m2 ms) thr sp).usedPairs S1 S2) =
      .ok ((momPairs S1 S2 m1 m2 ms).map (colOf (selSet (momPairs S1 S2 m1 m2 ms) thr sp) S1 S2)) := by
    rw [used, pairLoop_eq]
    · congr 2
      rw [List.filter_eq_self]
      intro ab hab
      unfold keepOf
      simp [selSet, trivial_local, PairSym.trivial, PairSym.local_, PairSym.skips, PairSet.energyOk]
    · exact mem2
    · intro ab hab _ _ _
      exact nanJ_false h u1 u2 (mem2 ab hab).1 (mem2 ab hab).2
  have same : ((allPairs S1.cols.length S2.cols.length).map (colOf (rotSet ms thr sp) S1 S2)).filter (fun c => decide (c.2 ≠ [])) =
      ((momPairs S1 S2 m1 m2 ms).map (colOf (selSet (momPairs S1 S2 m1 m2 ms) thr sp) S1 S2)).filter (fun c => decide (c.2 ≠ [])) := by
    have key : ∀ ab, ab.1 < S1.cols.length → ab.2 < S2.cols.length → colOf (rotSet ms thr sp) S1 S2 ab =
        if colM m1 m2 ab ∈ ms then colOf (selSet (momPairs S1 S2 m1 m2 ms) thr sp) S1 S2 ab else ((S1.col ab.1).1 + (S2.col ab.2).1, []) := by
      intro ab b1 b2
      unfold colOf
      rw [noArt_col a1 b1, noArt_col a2 b2]
      have := rot_column ms (decide (ab.1 ≠ ab.2)) (S1.col ab.1).2 (S2.col ab.2).2 (colM m1 m2 ab) (fun e1 h1 e2 h2 => by
        unfold totalM colM
        dsimp only
        rw [d1 _ b1 e1 h1, d2 _ b2 e2 h2])
      unfold rotSet selSet
      dsimp only
      rw [trivial_local]
      show (_, pairColumn ⟨.na, .na, .na, some ms⟩ _ _ _) = _
      rw [this]
      split_ifs <;> rfl
    generalize hP : selSet (momPairs S1 S2 m1 m2 ms) thr sp = P at key ⊢
    unfold momPairs
    have hmem : ∀ ab ∈ allPairs S1.cols.length S2.cols.length, ab.1 < S1.cols.length ∧ ab.2 < S2.cols.length := fun ab hab => (mem_allPairs _ _ _).1 hab
    clear hP l1 l2 used mem2 hne
    revert hmem
    generalize allPairs S1.cols.length S2.cols.length = L
    intro hmem
    induction L with
    | nil => rfl
    | cons ab L ih =>
      have ih := ih fun x hx => hmem x (List.mem_cons_of_mem _ hx)
      have k := key ab (hmem ab List.mem_cons_self).1 (hmem ab List.mem_cons_self).2
      by_cases hm : colM m1 m2 ab ∈ ms
      · rw [if_pos hm] at k
        rw [List.filter_cons_of_pos (by simpa using hm), List.map_cons, List.map_cons, k]
        by_cases he : (colOf P S1 S2 ab).2 = []
        · rw [List.filter_cons_of_neg (by simpa using he), List.filter_cons_of_neg (by simpa using he), ih]
        · rw [List.filter_cons_of_pos (by simpa using he), List.filter_cons_of_pos (by simpa using he), ih]
      · rw [if_neg hm] at k
        rw [List.filter_cons_of_neg (by simpa using hm), List.map_cons, k, List.filter_cons_of_neg (by simp), ih]
  have fl : ((allPairs S1.cols.length S2.cols.length).map (colOf (rotSet ms thr sp) S1 S2)).flatMap (·.2) =
      ((momPairs S1 S2 m1 m2 ms).map (colOf (selSet (momPairs S1 S2 m1 m2 ms) thr sp) S1 S2)).flatMap (·.2) := by
    rw [flat_empty, same, ← flat_empty]
  have pr : prunePairs thr ((allPairs S1.cols.length S2.cols.length).map (colOf (rotSet ms thr sp) S1 S2)) =
      prunePairs thr ((momPairs S1 S2 m1 m2 ms).map (colOf (selSet (momPairs S1 S2 m1 m2 ms) thr sp) S1 S2)) := by
    rw [prune_empty thr h0, same, ← prune_empty thr h0]
  unfold pairBuild
  rw [l1, l2]
  dsimp only
  have t1 : (rotSet ms thr sp).toAdd = [] := rfl
  have t2 : (selSet (momPairs S1 S2 m1 m2 ms) thr sp).toAdd = [] := rfl
  have th1 : (rotSet ms thr sp).thr = thr := rfl
  have th2 : (selSet (momPairs S1 S2 m1 m2 ms) thr sp).thr = thr := rfl
  rw [t1, t2, th1, th2, fl]
  simp only [pairUsers, List.append_nil, List.all_nil]
  rw [fl, pr]

/-! ## States and basis vectors of a sector -/

theorem coef1_m {S : OneSys} {m : ℕ → ℤ} (d : OneMomentum S m) {a : ℕ} (ha : a < S.cols.length) (s : AState) (h : coef1 (S.col a).2 s ≠ 0) : s.m = m a := by
  by_contra hc
  refine h (coef1_of_not_mem _ _ fun hm => hc ?_)
  obtain ⟨e, he, rfl⟩ := List.mem_map.1 hm
  exact d a ha e he

theorem prodVec_m {S1 S2 : OneSys} {m1 m2 : ℕ → ℤ} (d1 : OneMomentum S1 m1) (d2 : OneMomentum S2 m2) {ab : ℕ × ℕ} (h1 : ab.1 < S1.cols.length) (h2 : ab.2 < S2.cols.length)
    (p : AState × AState) (h : prodVec S1 S2 ab p ≠ 0) : totalM p = colM m1 m2 ab := by
  unfold prodVec at h
  have e1 := coef1_m d1 h1 p.1 (fun h' => h (by rw [h', zero_mul]))
  have e2 := coef1_m d2 h2 p.2 (fun h' => h (by rw [h', mul_zero]))
  unfold totalM colM
  rw [e1, e2]

theorem prodVec_out {S1 S2 : OneSys} (u1 : UnitarySys S1) (u2 : UnitarySys S2) (ab : ℕ × ℕ) (p : AState × AState) (h : p ∉ sq2 S1 S2) : prodVec S1 S2 ab p = 0 := by
  rw [mem_sq2, not_and_or] at h
  unfold prodVec
  rcases h with h | h
  · rw [coef1_zero_of_not_mem S1 u1 _ _ h, zero_mul]
  · rw [coef1_zero_of_not_mem S2 u2 _ _ h, mul_zero]

theorem mom_occurs (S1 S2 : OneSys) (u1 : UnitarySys S1) (u2 : UnitarySys S2) (m1 m2 : ℕ → ℤ) (d1 : OneMomentum S1 m1) (d2 : OneMomentum S2 m2) (ms : Finset ℤ)
    (p : AState × AState) : occurs S1 S2 (momPairs S1 S2 m1 m2 ms) p = if p ∈ sq2 S1 S2 ∧ totalM p ∈ ms then 1 else 0 := by
  unfold occurs momPairs
  rw [sum_allPairs]
  by_cases hp : p ∈ sq2 S1 S2
  · have hp' := mem_sq2.1 hp
    by_cases hm : totalM p ∈ ms
    · rw [if_pos ⟨hp, hm⟩]
      have e : ∀ a ∈ Finset.range S1.cols.length, ∀ b ∈ Finset.range S2.cols.length,
          (if decide (colM m1 m2 (a, b) ∈ ms) = true then Complex.normSq (prodVec S1 S2 (a, b) p) else 0) =
            Complex.normSq (coef1 (S1.col a).2 p.1) * Complex.normSq (coef1 (S2.col b).2 p.2) := by
        intro a ha b hb
        rw [Finset.mem_range] at ha hb
        by_cases hz : prodVec S1 S2 (a, b) p = 0
        · rw [hz, map_zero, ite_self, ← Complex.normSq_mul]
          show 0 = Complex.normSq (prodVec S1 S2 (a, b) p)
          rw [hz, map_zero]
        · rw [if_pos (by rw [decide_eq_true_eq, ← prodVec_m d1 d2 (ab := (a, b)) ha hb p hz]; exact hm), ← Complex.normSq_mul]
          rfl
      rw [Finset.sum_congr rfl fun a ha => Finset.sum_congr rfl fun b hb => e a ha b hb, ← Finset.sum_mul_sum, row_weight S1 u1 _ hp'.1, row_weight S2 u2 _ hp'.2, one_mul]
    · rw [if_neg (fun h => hm h.2)]
      refine Finset.sum_eq_zero fun a ha => Finset.sum_eq_zero fun b hb => ?_
      rw [Finset.mem_range] at ha hb
      by_cases hz : prodVec S1 S2 (a, b) p = 0
      · rw [hz, map_zero, ite_self]
      · rw [if_neg]
        rw [decide_eq_true_eq, ← prodVec_m d1 d2 (ab := (a, b)) ha hb p hz]
        exact hm
  · rw [if_neg (fun h => hp h.1)]
    refine Finset.sum_eq_zero fun a _ => Finset.sum_eq_zero fun b _ => ?_
    rw [prodVec_out u1 u2 _ p hp, map_zero, ite_self]

/-- Specification: the total momenta that occur. -/
def momenta (S1 S2 : OneSys) : Finset ℤ := (sq2 S1 S2).image totalM

/-- The basis of a sector: all pair states with these momenta, all products of basis vectors with these momenta. -/
theorem mom_basis (S1 S2 : OneSys) (u1 : UnitarySys S1) (u2 : UnitarySys S2) (h : TwoAtoms S1 S2) (m1 m2 : ℕ → ℤ) (d1 : OneMomentum S1 m1) (d2 : OneMomentum S2 m2) (ms : Finset ℤ)
    (thr : ℝ) (h0 : 0 ≤ thr) (h1 : thr < 1) (sp : String × String) (lt : AState → AState → Bool) (E : AState → ℝ) (hm : ∃ M ∈ momenta S1 S2, M ∈ ms) :
    ∃ B, pairBuild (rotSet ms thr sp) lt E S1 S2 = .ok B ∧ B.states.Nodup ∧ (∀ x, x ∈ B.states ↔ x ∈ sq2 S1 S2 ∧ totalM x ∈ ms) ∧
      B.cols = (momPairs S1 S2 m1 m2 ms).map (fun ab => ((S1.col ab.1).1 + (S2.col ab.2).1, prodVec S1 S2 ab)) := by
  obtain ⟨M, hM, hms⟩ := hm
  obtain ⟨p, hp, rfl⟩ := Finset.mem_image.1 hM
  have occ := mom_occurs S1 S2 u1 u2 m1 m2 d1 d2 ms
  have hne : momPairs S1 S2 m1 m2 ms ≠ [] := by
    intro hn
    have := occ p
    rw [hn, if_pos ⟨hp, hms⟩] at this
    simp [occurs] at this
  rw [rot_build S1 S2 u1 u2 h m1 m2 d1 d2 ms thr h0 sp lt E hne]
  have hK : pairsInside (selSet (momPairs S1 S2 m1 m2 ms) thr sp).energyMin (selSet (momPairs S1 S2 m1 m2 ms) thr sp).energyMax
      (selSet (momPairs S1 S2 m1 m2 ms) thr sp).pairs S1 S2 = momPairs S1 S2 m1 m2 ms := by
    show pairsInside none none (momPairs S1 S2 m1 m2 ms) S1 S2 = _
    rw [pairsInside_none]
    unfold pairsOf
    rw [if_neg hne]
  have mem2 : ∀ ab ∈ momPairs S1 S2 m1 m2 ms, ab.1 < S1.cols.length ∧ ab.2 < S2.cols.length := fun ab hab => (mem_allPairs _ _ _).1 (List.mem_filter.1 hab).1
  have hsel : SelOk (selSet (momPairs S1 S2 m1 m2 ms) thr sp).pairs S1 S2 := ⟨u1.normed, u2.normed, mem2, fun s hs t ht _ _ => h.spin s hs t ht⟩
  obtain ⟨B, hB, hnd, hst, hc⟩ := (C100_products (selSet (momPairs S1 S2 m1 m2 ms) thr sp) lt E S1 S2 hsel rfl rfl h0 h1).2
    ⟨p, by rw [hK, occ, if_pos ⟨hp, hms⟩]; exact h1⟩
  rw [hK] at hst hc
  have hst' : ∀ x, x ∈ B.states ↔ x ∈ sq2 S1 S2 ∧ totalM x ∈ ms := by
    intro x
    rw [hst, occ]
    by_cases hx : x ∈ sq2 S1 S2 ∧ totalM x ∈ ms
    · rw [if_pos hx]; exact ⟨fun _ => hx, fun _ => h1⟩
    · rw [if_neg hx]; exact ⟨fun h' => absurd h' (not_lt.2 h0), fun h' => absurd h' hx⟩
  refine ⟨B, hB, hnd, hst', ?_⟩
  rw [hc]
  refine List.map_congr_left fun ab hab => ?_
  congr 1
  funext x
  by_cases hx : x ∈ B.states
  · rw [if_pos hx]
  · rw [if_neg hx]
    rw [hst', not_and_or] at hx
    by_contra hz
    rcases hx with hx | hx
    · exact hz (prodVec_out u1 u2 ab x hx).symm
    · apply hx
      rw [prodVec_m d1 d2 (mem2 ab hab).1 (mem2 ab hab).2 x (Ne.symm hz)]
      simpa using (List.mem_filter.1 hab).2

/-! ## The Hamiltonian of a sector -/

/-- The element between two vectors of coefficients. -/
noncomputable def between2 (Q : Finset (AState × AState)) (f : AState × AState → AState × AState → ℂ) (u w : AState × AState → ℂ) : ℂ :=
  ∑ x ∈ Q, ∑ y ∈ Q, (starRingEnd ℂ) (u x) * f x y * w y

/-- The Hamiltonian between products of one-atom vectors. -/
noncomputable def prodH2 (S1 S2 : OneSys) (f : AState × AState → AState × AState → ℂ) (p q : ℕ × ℕ) : ℂ :=
  (if p = q then (((S1.col p.1).1 + (S2.col p.2).1 : ℝ) : ℂ) else 0) + between2 (sq2 S1 S2) f (prodVec S1 S2 p) (prodVec S1 S2 q)

theorem hamiltonian_entry2 (C : FieldConsts) (radial : RadKey → ℝ) (me : Method) (Q : Finset (AState × AState)) (B : PairBasis) (p : PairParams) (F : QN × QN → QN × QN → ℂ)
    (hF : pairH C radial me B.st p = fullPairs B.st F) (hn : B.states.Nodup) (hs : ∀ x ∈ B.states, x ∈ Q)
    (h0 : ∀ c ∈ B.cols, ∀ x, x ∉ B.states → c.2 x = 0) (i j : Fin B.cols.length) :
    B.hamiltonian C radial me p i j = (if i = j then (((B.cols.get i).1 : ℝ) : ℂ) else 0) + between2 Q (elemOf F) (B.cols.get i).2 (B.cols.get j).2 := by
  unfold PairBasis.hamiltonian
  rw [Matrix.add_apply, Matrix.diagonal_apply, hF, Matrix.mul_apply]
  congr 1
  have hi := h0 _ (List.get_mem B.cols i)
  have hj := h0 _ (List.get_mem B.cols j)
  have e1 : ∀ y, (B.vecsᴴ * fullPairs B.st F) i y * B.vecs y j =
      (fun y => ∑ x ∈ Q, (starRingEnd ℂ) ((B.cols.get i).2 x) * elemOf F x y * (B.cols.get j).2 y) (B.states.get y) := by
    intro y
    rw [Matrix.mul_apply, Finset.sum_mul]
    have := sum_get B.states hn fun x => (starRingEnd ℂ) ((B.cols.get i).2 x) * elemOf F x (B.states.get y) * (B.cols.get j).2 (B.states.get y)
    refine Eq.trans (Finset.sum_congr rfl fun x _ => rfl) (this.trans ?_)
    refine Finset.sum_subset (fun x hx => hs x (List.mem_toFinset.1 hx)) fun x _ hx => ?_
    rw [hi x (by simpa using hx)]; simp
  rw [Finset.sum_congr rfl fun y _ => e1 y]
  refine (sum_get B.states hn (fun y => ∑ x ∈ Q, (starRingEnd ℂ) ((B.cols.get i).2 x) * elemOf F x y * (B.cols.get j).2 y)).trans ?_
  rw [Finset.sum_subset (s₂ := Q) (fun x hx => hs x (List.mem_toFinset.1 hx)) fun x _ hx => by
    rw [hj x (by simpa using hx)]; simp]
  unfold between2
  exact Finset.sum_comm

/-- The characteristic polynomial of a system whose basis vectors are products. -/
theorem products_charpoly (C : FieldConsts) (radial : RadKey → ℝ) (me : Method) (S1 S2 : OneSys) (B : PairBasis) (p : PairParams) (F : QN × QN → QN × QN → ℂ)
    (hF : pairH C radial me B.st p = fullPairs B.st F) (hn : B.states.Nodup) (hs : ∀ x ∈ B.states, x ∈ sq2 S1 S2)
    (h0 : ∀ c ∈ B.cols, ∀ x, x ∉ B.states → c.2 x = 0) (K : List (ℕ × ℕ)) (hK : K.Nodup)
    (hc : B.cols = K.map (fun ab => ((S1.col ab.1).1 + (S2.col ab.2).1, prodVec S1 S2 ab))) (R : ℕ × ℕ → Prop) [Fintype {p // R p}] (hR : ∀ p, p ∈ K ↔ R p) :
    (B.hamiltonian C radial me p).charpoly = (subMat (prodH2 S1 S2 (elemOf F)) R).charpoly := by
  classical
  rw [← listMat_charpoly (prodH2 S1 S2 (elemOf F)) K R hK hR]
  have hl : B.cols.length = K.length := by rw [hc, List.length_map]
  have hget : ∀ i : Fin B.cols.length, B.cols.get i = (fun ab : ℕ × ℕ => ((S1.col ab.1).1 + (S2.col ab.2).1, prodVec S1 S2 ab)) (K.get (i.cast hl)) := by
    intro i
    simp [hc]
  rw [← Matrix.charpoly_reindex (finCongr hl)]
  congr 1
  ext i j
  rw [reindex_apply, submatrix_apply, hamiltonian_entry2 C radial me (sq2 S1 S2) B p F hF hn hs h0, hget, hget]
  show _ = prodH2 S1 S2 (elemOf F) (K.get i) (K.get j)
  unfold prodH2
  have hi : ∀ i : Fin K.length, (((finCongr hl).symm i).cast hl) = i := fun i => Fin.ext rfl
  rw [hi, hi]
  congr 1
  by_cases hij : i = j
  · rw [if_pos (by rw [hij]), if_pos (by rw [hij])]
  · rw [if_neg (fun h => hij ((finCongr hl).symm.injective h)), if_neg (fun h => hij (hK.injective_get h))]

end PI
