import Verif.Pair.SelectNum

/-! # C100: one-atom systems with mixing, without ranges of the pair system -/

namespace PI

open Classical in
theorem oneSys_col (S : SysB AState) (c : ℕ) (hc : c < S.V.cols) :
    S.oneSys.col c = ((S.H.val c c).re, (S.states.filter fun x => decide (S.V.val x.1 c ≠ 0)).map fun x => (x.2, S.V.val x.1 c)) := by
  unfold OneSys.col SysB.oneSys
  dsimp only
  rw [List.getD_eq_getElem?_getD, List.getElem?_map, List.getElem?_range hc, Option.map_some, Option.getD_some]

theorem oneSys_len (S : SysB AState) : S.oneSys.cols.length = S.V.cols := by
  unfold SysB.oneSys
  rw [List.length_map, List.length_range]

theorem coef1_absent (u : List (AState × ℂ)) (s : AState) (h : ∀ e ∈ u, e.1 ≠ s) : coef1 u s = 0 := by
  unfold coef1
  apply List.sum_eq_zero
  intro z hz
  obtain ⟨e, he, rfl⟩ := List.mem_map.1 hz
  rw [if_neg (h e he)]

open Classical in
theorem oneSys_coef (S : SysB AState) (h : S.WF) (c : ℕ) (hc : c < S.V.cols) (x : ℕ × AState) (hx : x ∈ S.states) : coef1 (S.oneSys.col c).2 x.2 = S.V.val x.1 c := by
  rw [oneSys_col S c hc]
  dsimp only
  have key : ∀ L : List (ℕ × AState), (L.map Prod.snd).Nodup → x ∈ L →
      coef1 ((L.filter fun y => decide (S.V.val y.1 c ≠ 0)).map fun y => (y.2, S.V.val y.1 c)) x.2 = S.V.val x.1 c := by
    intro L
    induction L with
    | nil => intro _ h; cases h
    | cons a L ih =>
      intro hn hxL
      rw [List.map_cons, List.nodup_cons] at hn
      rcases List.mem_cons.1 hxL with rfl | hxL
      · have h0 : coef1 ((L.filter fun y => decide (S.V.val y.1 c ≠ 0)).map fun y => (y.2, S.V.val y.1 c)) x.2 = 0 := by
          apply coef1_absent
          intro e he hes
          obtain ⟨y, hy, rfl⟩ := List.mem_map.1 he
          exact hn.1 (List.mem_map.2 ⟨y, (List.mem_filter.1 hy).1, hes⟩)
        by_cases hz : S.V.val x.1 c = 0
        · rw [List.filter_cons_of_neg (by simpa using hz), h0, hz]
        · rw [List.filter_cons_of_pos (by simpa using hz), List.map_cons]
          unfold coef1 at h0 ⊢
          rw [List.map_cons, List.sum_cons, if_pos rfl, h0, add_zero]
      · have hax : a.2 ≠ x.2 := fun h => hn.1 (List.mem_map.2 ⟨x, hxL, h.symm⟩)
        by_cases hz : S.V.val a.1 c = 0
        · rw [List.filter_cons_of_neg (by simpa using hz), ih hn.2 hxL]
        · rw [List.filter_cons_of_pos (by simpa using hz), List.map_cons, ← ih hn.2 hxL]
          unfold coef1
          rw [List.map_cons, List.sum_cons, if_neg hax, zero_add]
  exact key S.states h.nodup hx

open Classical in
theorem oneSys_normed (S : SysB AState) (h : S.WF) (hn : ∀ c < S.V.cols, (S.states.map fun x => Complex.normSq (S.V.val x.1 c)).sum = 1) : NormedSys S.oneSys := by
  refine ⟨h.nodup, ?_, ?_⟩
  · intro u hu
    obtain ⟨c, hc, rfl⟩ := List.mem_map.1 hu
    dsimp only
    rw [List.map_map]
    refine ⟨?_, ?_⟩
    · have : (Prod.fst ∘ fun x : ℕ × AState => (x.2, S.V.val x.1 c)) = Prod.snd := rfl
      rw [this]
      exact (List.filter_sublist.map Prod.snd).nodup h.nodup
    · intro e he
      obtain ⟨y, hy, rfl⟩ := List.mem_map.1 he
      exact List.mem_map.2 ⟨y, (List.mem_filter.1 hy).1, rfl⟩
  · intro a ha
    rw [oneSys_len] at ha
    have e : S.oneSys.states = S.states.map Prod.snd := rfl
    rw [← hn a ha, e, List.sum_toFinset (M := ℝ) _ h.nodup, List.map_map]
    congr 1
    refine List.map_congr_left fun x hx => ?_
    show Complex.normSq (coef1 (S.oneSys.col a).2 x.2) = _
    rw [oneSys_coef S h a ha x hx]

open Classical in
/-- Specification: the chosen pairs of numbers whose energy sum is strictly inside of the window. -/
noncomputable def chosenInside (emin emax : Option ℝ) (sel : List (ℕ × ℕ)) (S1 S2 : SysB AState) : List (ℕ × ℕ) :=
  sel.filter fun ab => decide (InWindow emin emax ((S1.H.val ab.1 ab.1).re + (S2.H.val ab.2 ab.2).re))

/-- Specification: how much the pair of two numbered states occurs in the products of basis vectors. -/
noncomputable def mixOccurs (S1 S2 : SysB AState) (K : List (ℕ × ℕ)) (x y : ℕ × AState) : ℝ :=
  (K.map fun ab => Complex.normSq (S1.V.val x.1 ab.1 * S2.V.val y.1 ab.2)).sum

open Classical in
/-- **C100.** For all one-atom systems with normalised basis vectors, all selections and all energy windows, without ranges of the pair system: the basis vectors are
the products of the chosen basis vectors inside of the window in the order of the selection, with the sum of the diagonal entries; the states are the pairs that occur often
enough. -/
theorem C100_mixed_products (P : PairSet) (lt : AState → AState → Bool) (E : AState → ℝ) (S1 S2 : SysB AState) (w1 : S1.WF) (w2 : S2.WF)
    (n1 : ∀ c < S1.V.cols, (S1.states.map fun x => Complex.normSq (S1.V.val x.1 c)).sum = 1)
    (n2 : ∀ c < S2.V.cols, (S2.states.map fun x => Complex.normSq (S2.V.val x.1 c)).sum = 1)
    (hs : P.sym = .trivial) (ha : P.toAdd = []) (h0 : 0 ≤ P.thr) (h1 : P.thr < 1) (hne : P.pairs ≠ [])
    (hr : ∀ ab ∈ P.pairs, ab.1 < S1.V.cols ∧ ab.2 < S2.V.cols)
    (spin : ∀ s ∈ S1.states.map Prod.snd, ∀ t ∈ S2.states.map Prod.snd, s.isArt = false → t.isArt = false → (s.j + t.j) % 2 = 0)
    (hocc : ∃ x ∈ S1.states, ∃ y ∈ S2.states, P.thr < mixOccurs S1 S2 (chosenInside P.energyMin P.energyMax P.pairs S1 S2) x y) :
    ∃ B, pairInit P none lt E S1 S2 = .ok B ∧ B.states.Nodup ∧ B.cols.length = (chosenInside P.energyMin P.energyMax P.pairs S1 S2).length ∧
      (∀ p, p ∈ B.states ↔ ∃ x ∈ S1.states, ∃ y ∈ S2.states, p = (x.2, y.2) ∧
        P.thr < mixOccurs S1 S2 (chosenInside P.energyMin P.energyMax P.pairs S1 S2) x y) ∧
      ∀ (k : ℕ) (ab : ℕ × ℕ), (chosenInside P.energyMin P.energyMax P.pairs S1 S2)[k]? = some ab → ∃ v, B.cols[k]? = some v ∧
        v.1 = (S1.H.val ab.1 ab.1).re + (S2.H.val ab.2 ab.2).re ∧
        (∀ x ∈ S1.states, ∀ y ∈ S2.states, (x.2, y.2) ∈ B.states → v.2 (x.2, y.2) = S1.V.val x.1 ab.1 * S2.V.val y.1 ab.2) ∧ ∀ p, p ∉ B.states → v.2 p = 0 := by
  have hok : SelOk P.pairs S1.oneSys S2.oneSys :=
    ⟨oneSys_normed S1 w1 n1, oneSys_normed S2 w2 n2, fun ab hab => by rw [oneSys_len, oneSys_len]; exact hr ab hab, spin⟩
  have hpo : pairsOf P.pairs S1.oneSys S2.oneSys = P.pairs := by unfold pairsOf; rw [if_neg hne]
  have hcol : ∀ ab ∈ P.pairs, (S1.oneSys.col ab.1).1 + (S2.oneSys.col ab.2).1 = (S1.H.val ab.1 ab.1).re + (S2.H.val ab.2 ab.2).re := by
    intro ab hab
    rw [oneSys_col S1 _ (hr ab hab).1, oneSys_col S2 _ (hr ab hab).2]
  have hK : pairsInside P.energyMin P.energyMax P.pairs S1.oneSys S2.oneSys = chosenInside P.energyMin P.energyMax P.pairs S1 S2 := by
    unfold pairsInside chosenInside
    rw [hpo]
    refine List.filter_congr fun ab hab => ?_
    rw [hcol ab hab]
  have hKm : ∀ ab ∈ chosenInside P.energyMin P.energyMax P.pairs S1 S2, ab ∈ P.pairs := fun ab hab => (List.mem_filter.1 hab).1
  set K := chosenInside P.energyMin P.energyMax P.pairs S1 S2 with hKd
  have hprod : ∀ ab ∈ K, ∀ x ∈ S1.states, ∀ y ∈ S2.states, prodVec S1.oneSys S2.oneSys ab (x.2, y.2) = S1.V.val x.1 ab.1 * S2.V.val y.1 ab.2 := by
    intro ab hab x hx y hy
    unfold prodVec
    rw [oneSys_coef S1 w1 _ (hr ab (hKm ab hab)).1 x hx, oneSys_coef S2 w2 _ (hr ab (hKm ab hab)).2 y hy]
  have hocc1 : ∀ x ∈ S1.states, ∀ y ∈ S2.states, occurs S1.oneSys S2.oneSys K (x.2, y.2) = mixOccurs S1 S2 K x y := by
    intro x hx y hy
    unfold occurs mixOccurs
    congr 1
    refine List.map_congr_left fun ab hab => ?_
    rw [hprod ab hab x hx y hy]
  have hocc2 : ∀ p, P.thr < occurs S1.oneSys S2.oneSys K p → ∃ x ∈ S1.states, ∃ y ∈ S2.states, p = (x.2, y.2) := by
    intro p hp
    by_contra hno
    have hz : occurs S1.oneSys S2.oneSys K p = 0 := by
      unfold occurs
      apply List.sum_eq_zero
      intro z hz
      obtain ⟨ab, hab, rfl⟩ := List.mem_map.1 hz
      have hl := hr ab (hKm ab hab)
      by_cases m1 : ∃ x ∈ S1.states, p.1 = x.2
      · obtain ⟨x, hx, e1⟩ := m1
        have m2 : ∀ e ∈ (S2.oneSys.col ab.2).2, e.1 ≠ p.2 := by
          rw [oneSys_col S2 _ hl.2]
          intro e he hep
          obtain ⟨y, hy, rfl⟩ := List.mem_map.1 he
          exact hno ⟨x, hx, y, (List.mem_filter.1 hy).1, by rw [← e1]; exact Prod.ext rfl hep.symm⟩
        unfold prodVec
        rw [coef1_absent _ _ m2]; simp
      · have m2 : ∀ e ∈ (S1.oneSys.col ab.1).2, e.1 ≠ p.1 := by
          rw [oneSys_col S1 _ hl.1]
          intro e he hep
          obtain ⟨y, hy, rfl⟩ := List.mem_map.1 he
          exact m1 ⟨y, (List.mem_filter.1 hy).1, hep.symm⟩
        unfold prodVec
        rw [coef1_absent _ _ m2]; simp
    rw [hz] at hp
    exact absurd hp (not_lt.2 h0)
  obtain ⟨-, hB⟩ := C100_products P lt E S1.oneSys S2.oneSys hok hs ha h0 h1
  rw [hK] at hB
  obtain ⟨x, hx, y, hy, hxy⟩ := hocc
  obtain ⟨B, b1, b2, b3, b4⟩ := hB ⟨(x.2, y.2), by rw [hocc1 x hx y hy]; exact hxy⟩
  refine ⟨B, b1, b2, by rw [b4, List.length_map], ?_, ?_⟩
  · intro p
    rw [b3]
    constructor
    · intro hp
      obtain ⟨x, hx, y, hy, rfl⟩ := hocc2 p hp
      exact ⟨x, hx, y, hy, rfl, by rw [← hocc1 x hx y hy]; exact hp⟩
    · rintro ⟨x, hx, y, hy, rfl, hp⟩
      rw [hocc1 x hx y hy]; exact hp
  · intro k ab hk
    have hab := List.mem_of_getElem? hk
    refine ⟨_, by rw [b4, List.getElem?_map, hk, Option.map_some], hcol ab (hKm ab hab), ?_, ?_⟩
    · intro x hx y hy hp
      dsimp only
      rw [if_pos hp, hprod ab hab x hx y hy]
    · intro p hp
      dsimp only
      rw [if_neg hp]

/-- Two states, rotated by an angle with cosine 3/5. -/
noncomputable def exRotSys : SysB AState :=
  ⟨[(0, .phys "Rb" 60 0 1 1), (1, .phys "Rb" 61 0 1 1)], ⟨2, 2, fun i c => if i = c then 3 / 5 else if i = 0 then 4 / 5 else -4 / 5⟩,
    ⟨2, 2, fun i c => if i = c then (i : ℂ) else 0⟩, none, none⟩

theorem exRotSys_wf : exRotSys.WF := ⟨rfl, by decide, rfl, rfl, rfl, fun A h => (by cases h), fun A h => (by cases h)⟩

theorem exRotSys_norm : ∀ c < exRotSys.V.cols, (exRotSys.states.map fun x => Complex.normSq (exRotSys.V.val x.1 c)).sum = 1 := by
  intro c hc
  have hc : c < 2 := hc
  interval_cases c <;> norm_num [exRotSys, Complex.normSq_apply]

/-- The vector 1 of the first atom with the vector 0 of the second: the pair (0, 1) has the coefficient 4/5 * (-4/5). -/
example : ∃ B, pairInit (plainPair [(1, 0)] none none) none (fun _ _ => false) (fun _ => 0) exRotSys exRotSys = .ok B ∧
    ∃ v, B.cols[0]? = some v ∧ v.2 (.phys "Rb" 60 0 1 1, .phys "Rb" 61 0 1 1) = (-16 / 25 : ℂ) := by
  have hK : chosenInside none none [(1, 0)] exRotSys exRotSys = [(1, 0)] := by
    unfold chosenInside
    rw [List.filter_cons_of_pos (by simp [InWindow])]
    rfl
  have hm : mixOccurs exRotSys exRotSys [(1, 0)] (0, .phys "Rb" 60 0 1 1) (1, .phys "Rb" 61 0 1 1) = 256 / 625 := by
    norm_num [mixOccurs, exRotSys, Complex.normSq_apply]
  have hocc : (0.05 : ℝ) < mixOccurs exRotSys exRotSys (chosenInside none none [(1, 0)] exRotSys exRotSys) (0, .phys "Rb" 60 0 1 1) (1, .phys "Rb" 61 0 1 1) := by
    rw [hK, hm]; norm_num
  have m0 : (0, AState.phys "Rb" 60 0 1 1) ∈ exRotSys.states := by simp [exRotSys]
  have m1 : (1, AState.phys "Rb" 61 0 1 1) ∈ exRotSys.states := by simp [exRotSys]
  obtain ⟨B, b1, -, -, b4, b5⟩ := C100_mixed_products (plainPair [(1, 0)] none none) (fun _ _ => false) (fun _ => 0) exRotSys exRotSys exRotSys_wf exRotSys_wf exRotSys_norm
    exRotSys_norm rfl rfl (by norm_num [plainPair]) (by norm_num [plainPair]) (by simp [plainPair]) (by simp [plainPair, exRotSys])
    (by show ∀ s ∈ [AState.phys "Rb" 60 0 1 1, .phys "Rb" 61 0 1 1], ∀ t ∈ [AState.phys "Rb" 60 0 1 1, .phys "Rb" 61 0 1 1],
          s.isArt = false → t.isArt = false → (s.j + t.j) % 2 = 0
        decide)
    ⟨_, m0, _, m1, hocc⟩
  refine ⟨B, b1, ?_⟩
  obtain ⟨v, v1, -, v3, -⟩ := b5 0 (1, 0) (by show (chosenInside none none [(1, 0)] exRotSys exRotSys)[0]? = _; rw [hK]; rfl)
  refine ⟨v, v1, ?_⟩
  refine (v3 _ m0 _ m1 ((b4 _).2 ⟨_, m0, _, m1, rfl, hocc⟩)).trans ?_
  norm_num [exRotSys]

end PI
