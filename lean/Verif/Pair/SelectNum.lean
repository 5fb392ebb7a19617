import Verif.Pair.SelectThm

/-! # C100: the numbers of a selection count the basis vectors that are left after the ranges of the pair system were applied -/

namespace PI

theorem filter_fst {α : Type} (L : List (ℕ × α)) (hn : (L.map Prod.fst).Nodup) (x : ℕ × α) (hx : x ∈ L) : (L.filter fun y => decide (y.1 = x.1)) = [x] := by
  induction L with
  | nil => cases hx
  | cons a L ih =>
    rw [List.map_cons, List.nodup_cons] at hn
    by_cases h : a.1 = x.1
    · have hL : (L.filter fun y => decide (y.1 = x.1)) = [] := by
        rw [List.filter_eq_nil_iff]
        intro y hy hyx
        apply hn.1
        rw [h, ← of_decide_eq_true hyx]
        exact List.mem_map.2 ⟨y, hy, rfl⟩
      have : a = x := by
        rcases List.mem_cons.1 hx with rfl | hx'
        · rfl
        · exact absurd (List.mem_map.2 ⟨x, hx', rfl⟩) (h ▸ hn.1)
      rw [List.filter_cons_of_pos (by simpa using h), hL, this]
    · have hx' : x ∈ L := by
        rcases List.mem_cons.1 hx with rfl | hx'
        · exact absurd rfl h
        · exact hx'
      rw [List.filter_cons_of_neg (by simpa using h), ih hn.2 hx']

open Classical in
theorem canon_col {S : SysB AState} (h : S.Canon) (c : ℕ) (x : ℕ × AState) (hx : S.states[c]? = some x) :
    S.oneSys.col c = ((S.H.val x.1 x.1).re, [(x.2, 1)]) := by
  obtain ⟨hc, hxc⟩ := List.getElem?_eq_some_iff.1 hx
  have hx1 : x.1 = c := by rw [← hxc]; exact states_get h.wf c hc
  have hmem : x ∈ S.states := List.mem_of_getElem? hx
  unfold OneSys.col SysB.oneSys
  dsimp only
  rw [List.getD_eq_getElem?_getD, List.getElem?_map, h.cols, List.getElem?_range hc, Option.map_some, Option.getD_some, hx1]
  congr 1
  have hf : (S.states.filter fun y => decide (S.V.val y.1 c ≠ 0)) = S.states.filter fun y => @decide (y.1 = x.1) (instDecidableEqNat _ _) := by
    refine List.filter_congr fun y hy => ?_
    obtain ⟨i, hi, rfl⟩ := List.getElem_of_mem hy
    rw [Bool.eq_iff_iff, decide_eq_true_iff, decide_eq_true_iff, states_get h.wf i hi, h.unit i hi c hc, hx1]
    by_cases hic : i = c <;> simp [hic]
  rw [hf, filter_fst _ (by rw [h.wf.idx]; exact List.nodup_range) x hmem, List.map_singleton, hx1, h.unit c hc c hc, if_pos rfl]

theorem canon_len {S : SysB AState} (h : S.Canon) : S.oneSys.cols.length = S.states.length := by
  unfold SysB.oneSys
  rw [List.length_map, List.length_range, h.cols]

theorem canon_coef {S : SysB AState} (h : S.Canon) (c : ℕ) (x : ℕ × AState) (hx : S.states[c]? = some x) (s : AState) :
    coef1 (S.oneSys.col c).2 s = if s = x.2 then 1 else 0 := by
  rw [canon_col h c x hx]
  simp [coef1, eq_comm]

theorem canon_normed {S : SysB AState} (h : S.Canon) : NormedSys S.oneSys := by
  refine ⟨h.wf.nodup, ?_, ?_⟩
  · intro u hu
    obtain ⟨c, hc, rfl⟩ := List.getElem_of_mem hu
    have hc' : c < S.states.length := canon_len h ▸ hc
    have : S.oneSys.cols[c] = S.oneSys.col c := by simp [OneSys.col, List.getD_eq_getElem?_getD, List.getElem?_eq_getElem hc]
    rw [this, canon_col h c _ (List.getElem?_eq_getElem hc')]
    refine ⟨by simp, ?_⟩
    intro e he
    rw [List.mem_singleton] at he
    rw [he]
    exact List.mem_map.2 ⟨_, List.getElem_mem hc', rfl⟩
  · intro a ha
    rw [canon_len h] at ha
    simp_rw [canon_coef h a _ (List.getElem?_eq_getElem ha)]
    rw [Finset.sum_eq_single S.states[a].2]
    · simp
    · intro b _ hb; rw [if_neg hb]; simp
    · intro hn
      exact absurd (List.mem_toFinset.2 (List.mem_map.2 ⟨_, List.getElem_mem ha, rfl⟩)) hn

/-- What is left of a system without mixing after the ranges were applied. -/
theorem canon_restricted (S : SysB AState) (h : S.Canon) (f : AState → Bool) (hne : (S.states.filter fun x => f x.2) ≠ []) :
    ∃ T, S.restricted (some f) = .ok T ∧ T.Canon ∧ T.states.map Prod.snd = (S.states.filter fun x => f x.2).map Prod.snd ∧
      ∀ (c : ℕ) (x y : ℕ × AState), (S.states.filter fun x => f x.2)[c]? = some x → T.states[c]? = some y → y.2 = x.2 ∧ T.H.val y.1 y.1 = S.H.val x.1 x.1 := by
  have hI : ∀ x, Inside S ⟨some f, none, none, 0.05, false⟩ x ↔ f x.2 = true := by
    intro x
    constructor
    · intro h; exact h.1 f rfl
    · intro h
      refine ⟨fun g hg => ?_, fun a ha => (by cases ha), fun a ha => (by cases ha)⟩
      injection hg with hg
      rw [← hg]; exact h
  rcases C66_restrict_built_system S h ⟨some f, none, none, 0.05, false⟩ rfl (by norm_num) (by norm_num) with ⟨-, hno⟩ | ⟨T, h1, h2, -, ⟨q, hq, h3⟩, h4⟩
  · exfalso
    obtain ⟨x, hx⟩ := List.exists_mem_of_ne_nil _ hne
    rw [List.mem_filter] at hx
    exact hno x hx.1 ((hI x).2 hx.2)
  · have hqf : S.states.filter q = S.states.filter fun x => f x.2 := by
      refine List.filter_congr fun x hx => ?_
      rw [Bool.eq_iff_iff, hq x hx, hI]
    rw [hqf] at h3
    refine ⟨T, h1, h2, h3, ?_⟩
    intro c x y hx hy
    have := congrArg (fun L => L[c]?) h3
    simp only [List.getElem?_map, hx, hy, Option.map_some, Option.some.injEq] at this
    refine ⟨this, ?_⟩
    have hx' : (x.1, x.2) ∈ S.states := (List.mem_filter.1 (List.mem_of_getElem? hx)).1
    have hy' : (y.1, x.2) ∈ T.states := by rw [← this]; exact List.mem_of_getElem? hy
    exact h4 x.1 x.2 x.1 x.2 y.1 y.1 hx' hy' hx' hy'

/-- **C100.** For one-atom systems without mixing, all ranges of the pair system and all selections: the numbers of a selection count the states of the one-atom
systems that are left after the ranges were applied. The pair basis holds exactly the chosen pairs of these states, with the sum of their energies. -/
theorem C100_restricted (P : PairSet) (f : AState → Bool) (lt : AState → AState → Bool) (E : AState → ℝ) (S1 S2 : SysB AState) (c1 : S1.Canon) (c2 : S2.Canon)
    (hs : P.sym = .trivial) (ha : P.toAdd = []) (he : P.energyMin = none ∧ P.energyMax = none) (h0 : 0 ≤ P.thr) (h1 : P.thr < 1) (hne : P.pairs ≠ [])
    (hr : ∀ ab ∈ P.pairs, ab.1 < (S1.states.filter fun x => f x.2).length ∧ ab.2 < (S2.states.filter fun x => f x.2).length)
    (spin : ∀ s ∈ S1.states.map Prod.snd, ∀ t ∈ S2.states.map Prod.snd, s.isArt = false → t.isArt = false → (s.j + t.j) % 2 = 0) :
    ∃ B, pairInit P (some f) lt E S1 S2 = .ok B ∧ B.cols.length = P.pairs.length ∧
      (∀ p, p ∈ B.states ↔ ∃ ab ∈ P.pairs, ∃ x y, (S1.states.filter fun x => f x.2)[ab.1]? = some x ∧ (S2.states.filter fun x => f x.2)[ab.2]? = some y ∧
        p = (x.2, y.2)) ∧
      ∀ (k : ℕ) (ab : ℕ × ℕ) (x y : ℕ × AState), P.pairs[k]? = some ab → (S1.states.filter fun x => f x.2)[ab.1]? = some x → (S2.states.filter fun x => f x.2)[ab.2]? = some y →
        B.cols[k]? = some ((S1.H.val x.1 x.1).re + (S2.H.val y.1 y.1).re, fun p => if p = (x.2, y.2) then 1 else 0) := by
  obtain ⟨ab0, hab0⟩ := List.exists_mem_of_ne_nil _ hne
  obtain ⟨r1, r2⟩ := hr ab0 hab0
  obtain ⟨T1, t1, k1, m1, e1⟩ := canon_restricted S1 c1 f (fun h => by rw [h] at r1; simp at r1)
  obtain ⟨T2, t2, k2, m2, e2⟩ := canon_restricted S2 c2 f (fun h => by rw [h] at r2; simp at r2)
  have l1 : T1.states.length = (S1.states.filter fun x => f x.2).length := by simpa using congrArg List.length m1
  have l2 : T2.states.length = (S2.states.filter fun x => f x.2).length := by simpa using congrArg List.length m2
  have sub1 : ∀ s ∈ T1.oneSys.states, s ∈ S1.states.map Prod.snd := by
    intro s hs
    have hs : s ∈ T1.states.map Prod.snd := hs
    rw [m1] at hs
    obtain ⟨x, hx, rfl⟩ := List.mem_map.1 hs
    exact List.mem_map.2 ⟨x, (List.mem_filter.1 hx).1, rfl⟩
  have sub2 : ∀ s ∈ T2.oneSys.states, s ∈ S2.states.map Prod.snd := by
    intro s hs
    have hs : s ∈ T2.states.map Prod.snd := hs
    rw [m2] at hs
    obtain ⟨x, hx, rfl⟩ := List.mem_map.1 hs
    exact List.mem_map.2 ⟨x, (List.mem_filter.1 hx).1, rfl⟩
  have hsel : SelOk P.pairs T1.oneSys T2.oneSys := by
    refine ⟨canon_normed k1, canon_normed k2, ?_, ?_⟩
    · intro ab hab
      rw [canon_len k1, canon_len k2, l1, l2]
      exact hr ab hab
    · intro s hs t ht
      exact spin s (sub1 s hs) t (sub2 t ht)
  -- the product of two vectors is one pair state
  have hvec : ∀ (ab : ℕ × ℕ) (x y : ℕ × AState), (S1.states.filter fun x => f x.2)[ab.1]? = some x → (S2.states.filter fun x => f x.2)[ab.2]? = some y → ∀ p,
      prodVec T1.oneSys T2.oneSys ab p = if p = (x.2, y.2) then 1 else 0 := by
    intro ab x y hx hy p
    obtain ⟨b1, -⟩ := List.getElem?_eq_some_iff.1 hx
    obtain ⟨b2, -⟩ := List.getElem?_eq_some_iff.1 hy
    have g1 := List.getElem?_eq_getElem (l1 ▸ b1)
    have g2 := List.getElem?_eq_getElem (l2 ▸ b2)
    unfold prodVec
    rw [canon_coef k1 _ _ g1, canon_coef k2 _ _ g2, (e1 _ _ _ hx g1).1, (e2 _ _ _ hy g2).1]
    by_cases q1 : p.1 = x.2 <;> by_cases q2 : p.2 = y.2 <;> simp [q1, q2, Prod.ext_iff]
  have hK : pairsInside P.energyMin P.energyMax P.pairs T1.oneSys T2.oneSys = P.pairs := by
    rw [he.1, he.2, pairsInside_none]
    unfold pairsOf
    rw [if_neg hne]
  have hocc : ∀ p, (∃ ab ∈ P.pairs, ∃ x y, (S1.states.filter fun x => f x.2)[ab.1]? = some x ∧ (S2.states.filter fun x => f x.2)[ab.2]? = some y ∧ p = (x.2, y.2)) ↔
      P.thr < occurs T1.oneSys T2.oneSys P.pairs p := by
    intro p
    constructor
    · rintro ⟨ab, hab, x, y, hx, hy, hp⟩
      refine lt_of_lt_of_le h1 ?_
      have : Complex.normSq (prodVec T1.oneSys T2.oneSys ab p) = 1 := by rw [hvec ab x y hx hy, if_pos hp]; simp
      rw [← this]
      unfold occurs
      exact List.single_le_sum (by
        intro z hz
        obtain ⟨_, _, rfl⟩ := List.mem_map.1 hz
        exact Complex.normSq_nonneg _) _ (List.mem_map.2 ⟨ab, hab, rfl⟩)
    · intro hp
      by_contra hno
      have : occurs T1.oneSys T2.oneSys P.pairs p = 0 := by
        unfold occurs
        apply List.sum_eq_zero
        intro z hz
        obtain ⟨ab, hab, rfl⟩ := List.mem_map.1 hz
        obtain ⟨b1, b2⟩ := hr ab hab
        rw [hvec ab _ _ (List.getElem?_eq_getElem b1) (List.getElem?_eq_getElem b2), if_neg]
        · simp
        · intro hpp
          exact hno ⟨ab, hab, _, _, List.getElem?_eq_getElem b1, List.getElem?_eq_getElem b2, hpp⟩
      rw [this] at hp
      linarith
  obtain ⟨B, hB, -, hst, hc⟩ := (C100_products P lt E T1.oneSys T2.oneSys hsel hs ha h0 h1).2 (by
    rw [hK]
    exact ⟨_, (hocc _).1 ⟨ab0, hab0, _, _, List.getElem?_eq_getElem r1, List.getElem?_eq_getElem r2, rfl⟩⟩)
  rw [hK] at hst hc
  refine ⟨B, ?_, by rw [hc, List.length_map], fun p => by rw [hst, hocc], ?_⟩
  · unfold pairInit
    rw [t1, t2]
    exact hB
  · intro k ab x y hk hx hy
    obtain ⟨b1, -⟩ := List.getElem?_eq_some_iff.1 hx
    obtain ⟨b2, -⟩ := List.getElem?_eq_some_iff.1 hy
    have g1 := List.getElem?_eq_getElem (l1 ▸ b1)
    have g2 := List.getElem?_eq_getElem (l2 ▸ b2)
    rw [hc, List.getElem?_map, hk, Option.map_some, Option.some.injEq]
    refine Prod.ext ?_ ?_
    · dsimp only
      rw [canon_col k1 _ _ g1, canon_col k2 _ _ g2]
      dsimp only
      rw [(e1 _ _ _ hx g1).2, (e2 _ _ _ hy g2).2]
    · funext p
      dsimp only
      rw [hvec ab x y hx hy]
      by_cases hp : p = (x.2, y.2)
      · rw [if_pos ((hst p).2 ((hocc p).1 ⟨ab, List.mem_of_getElem? hk, x, y, hx, hy, hp⟩))]
      · rw [if_neg hp, ite_self]

/-- Three states with the energies 0, 1, 2. -/
noncomputable def exThree : SysB AState :=
  ⟨[(0, .phys "Rb" 60 0 1 1), (1, .phys "Rb" 61 0 1 1), (2, .phys "Rb" 62 0 1 1)], ⟨3, 3, fun i c => if i = c then 1 else 0⟩,
    ⟨3, 3, fun i c => if i = c then (i : ℂ) else 0⟩, none, none⟩

theorem exThree_canon : exThree.Canon :=
  ⟨⟨rfl, by decide, rfl, rfl, rfl, fun A h => (by cases h), fun A h => (by cases h)⟩, rfl, fun i _ c _ => rfl⟩

/-- The range n >= 61. -/
def exRange : AState → Bool
  | .phys _ n _ _ _ => decide (61 ≤ n)
  | .art _ => true

theorem exThree_filter : (exThree.states.filter fun x => exRange x.2) = [(1, .phys "Rb" 61 0 1 1), (2, .phys "Rb" 62 0 1 1)] := by
  show ([(0, AState.phys "Rb" 60 0 1 1), (1, .phys "Rb" 61 0 1 1), (2, .phys "Rb" 62 0 1 1)].filter fun x => exRange x.2) = _
  decide

theorem exThree_spin : ∀ s ∈ exThree.states.map Prod.snd, ∀ t ∈ exThree.states.map Prod.snd, s.isArt = false → t.isArt = false → (s.j + t.j) % 2 = 0 := by
  show ∀ s ∈ [AState.phys "Rb" 60 0 1 1, .phys "Rb" 61 0 1 1, .phys "Rb" 62 0 1 1], ∀ t ∈ [AState.phys "Rb" 60 0 1 1, .phys "Rb" 61 0 1 1, .phys "Rb" 62 0 1 1],
    s.isArt = false → t.isArt = false → (s.j + t.j) % 2 = 0
  decide

/-- The second of the two states that are left is n = 62. -/
example : ∃ B, pairInit (plainPair [(1, 0)] none none) (some exRange) (fun _ _ => false) (fun _ => 0) exThree exThree = .ok B ∧
    B.cols[0]? = some ((exThree.H.val 2 2).re + (exThree.H.val 1 1).re, fun p => if p = (.phys "Rb" 62 0 1 1, .phys "Rb" 61 0 1 1) then 1 else 0) := by
  obtain ⟨B, h1, -, -, h4⟩ := C100_restricted (plainPair [(1, 0)] none none) exRange (fun _ _ => false) (fun _ => 0) exThree exThree exThree_canon exThree_canon rfl rfl
    ⟨rfl, rfl⟩ (by norm_num [plainPair]) (by norm_num [plainPair]) (by simp [plainPair]) (by rw [exThree_filter]; simp [plainPair]) exThree_spin
  refine ⟨B, h1, ?_⟩
  rw [exThree_filter] at h4
  exact h4 0 (1, 0) _ _ rfl rfl rfl

/-- **C100, violated: numbers of the one-atom systems.** The number 1 belongs to n = 61 in the one-atom system, and this state is inside of the range. The pair (1, 1) is
chosen; the pair basis holds n = 62 only. -/
theorem C100_renumbered_fails : ∃ B, pairInit (plainPair [(1, 1)] none none) (some exRange) (fun _ _ => false) (fun _ => 0) exThree exThree = .ok B ∧
    exThree.states[1]? = some (1, .phys "Rb" 61 0 1 1) ∧ (∀ r < 3, exThree.V.val r 1 = if r = 1 then 1 else 0) ∧ exRange (.phys "Rb" 61 0 1 1) = true ∧
    B.states.all (fun p => decide (p = (.phys "Rb" 62 0 1 1, .phys "Rb" 62 0 1 1))) = true ∧ B.cols.length = 1 := by
  obtain ⟨B, h1, h2, h3, -⟩ := C100_restricted (plainPair [(1, 1)] none none) exRange (fun _ _ => false) (fun _ => 0) exThree exThree exThree_canon exThree_canon rfl rfl
    ⟨rfl, rfl⟩ (by norm_num [plainPair]) (by norm_num [plainPair]) (by simp [plainPair]) (by rw [exThree_filter]; simp [plainPair]) exThree_spin
  refine ⟨B, h1, rfl, fun r _ => rfl, by decide, ?_, h2⟩
  rw [List.all_eq_true]
  intro p hp
  rw [h3] at hp
  obtain ⟨ab, hab, x, y, hx, hy, rfl⟩ := hp
  have : ab = (1, 1) := by simpa [plainPair] using hab
  rw [exThree_filter, this] at hx hy
  have ex : (2, AState.phys "Rb" 62 0 1 1) = x := Option.some.inj hx
  have ey : (2, AState.phys "Rb" 62 0 1 1) = y := Option.some.inj hy
  rw [← ex, ← ey]
  simp

end PI
