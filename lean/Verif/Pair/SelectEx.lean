import Verif.Pair.SelectThm

/-! # C100: counterexamples, and the numbering of restricted systems -/

namespace PI

/-! ## Strongly mixed vectors -/

/-- Five states. -/
def fiveStates : List AState := [.phys "Rb" 60 0 1 1, .phys "Rb" 61 0 1 1, .phys "Rb" 62 0 1 1, .phys "Rb" 63 0 1 1, .phys "Rb" 64 0 1 1]

/-- One basis vector, spread evenly over five states. -/
noncomputable def exSpread : OneSys := ⟨fiveStates, [(0, fiveStates.map fun s => (s, ((1 / Real.sqrt 5 : ℝ) : ℂ)))]⟩

theorem exSpread_coef (s : AState) : Complex.normSq (coef1 (exSpread.col 0).2 s) = if s ∈ fiveStates then 1 / 5 else 0 := by
  have hn : fiveStates.Nodup := by decide
  have gen : ∀ (L : List AState) (c : ℂ), L.Nodup → coef1 (L.map fun s => (s, c)) s = if s ∈ L then c else 0 := by
    intro L c
    induction L with
    | nil => intro _; simp [coef1]
    | cons x L ih =>
      intro h
      rw [List.nodup_cons] at h
      have ih := ih h.2
      unfold coef1 at ih ⊢
      rw [List.map_cons, List.map_cons, List.sum_cons, ih]
      by_cases hx : x = s
      · subst hx; simp [h.1]
      · have : s ≠ x := fun h => hx h.symm
        simp [hx, this]
  have : coef1 (exSpread.col 0).2 s = if s ∈ fiveStates then ((1 / Real.sqrt 5 : ℝ) : ℂ) else 0 := gen fiveStates _ hn
  rw [this]
  by_cases h : s ∈ fiveStates
  · rw [if_pos h, if_pos h, Complex.normSq_ofReal, div_mul_div_comm, Real.mul_self_sqrt (by norm_num)]; norm_num
  · rw [if_neg h, if_neg h]; simp

theorem exSpread_normed : NormedSys exSpread := by
  refine ⟨by decide, ?_, ?_⟩
  · intro u hu
    simp only [exSpread, List.mem_singleton] at hu
    rw [hu]
    dsimp only
    rw [List.map_map]
    refine ⟨?_, ?_⟩
    · show (fiveStates.map fun s => s).Nodup
      rw [List.map_id']; decide
    · intro e he
      obtain ⟨s, hs, rfl⟩ := List.mem_map.1 he
      exact hs
  · intro a ha
    have : a = 0 := by
      have : exSpread.cols.length = 1 := rfl
      omega
    subst this
    simp_rw [exSpread_coef]
    rw [Finset.sum_congr (show exSpread.states.toFinset = fiveStates.toFinset from rfl) (g := fun _ => (1 / 5 : ℝ)) (fun s hs => if_pos (List.mem_toFinset.1 hs)), Finset.sum_const]
    show (fiveStates.toFinset.card) • (1 / 5 : ℝ) = 1
    rw [List.toFinset_card_of_nodup (by decide)]
    norm_num [fiveStates]

/-- **C100, violated: strongly mixed vectors.** Two one-atom systems with one normalised basis vector each; the only pair is chosen. The getter throws, and so does every getter
after it. -/
theorem C100_mixed_selection_fails (refine : PairBasis → Option ℝ → Option ℝ → Out PairBasis) :
    ∃ e : PairEnv, SelOk [(0, 0)] e.S1 e.S2 ∧ e.sym = .trivial ∧ e.thr = 0.05 ∧
      ∀ hist, ((PairObj.fresh.run e refine (.choose [(0, 0)] :: .get :: hist)).2.step e refine .get).1 = .throw := by
  have hok : SelOk [(0, 0)] exSpread exSpread := by
    refine ⟨exSpread_normed, exSpread_normed, ?_, ?_⟩
    · intro ab hab
      rw [List.mem_singleton] at hab
      subst hab
      exact ⟨Nat.one_pos, Nat.one_pos⟩
    · have : ∀ s ∈ fiveStates, s.j = 1 := by decide
      intro s hs t ht _ _
      rw [this s hs, this t ht]; rfl
  refine ⟨⟨exSpread, exSpread, .trivial, 0.05, ("Rb", "Rb")⟩, hok, rfl, rfl, fun hist => ?_⟩
  refine C100_mixed_selection _ refine [(0, 0)] hok (by simp) (by simp) rfl (by norm_num) (by norm_num) ?_ hist
  intro p
  unfold occurs prodVec
  rw [List.map_singleton, List.sum_singleton, Complex.normSq_mul]
  show Complex.normSq (coef1 (exSpread.col 0).2 p.1) * Complex.normSq (coef1 (exSpread.col 0).2 p.2) ≤ 0.05
  rw [exSpread_coef, exSpread_coef]
  split_ifs <;> norm_num

/-! ## Selections after the first getter, forgotten windows -/

theorem exPair_all : ∃ B, pairBuild (plainPair [] none none) (fun _ _ => false) (fun _ => 0) exMixed exPure = .ok B ∧ B.cols.length = 4 ∧
    ∃ f, B.cols[0]? = some (0 + 0, f) := by
  obtain ⟨B, h, -, -, h2, h3, -⟩ := C100_complete (plainPair [] none none) (fun _ _ => false) (fun _ => 0) exMixed exPure exMixed_unitary exPure_unitary
    (by simp [exMixed]) (by simp [exPure]) ex_spin rfl rfl rfl ⟨rfl, rfl⟩ (by norm_num [plainPair]) (by norm_num [plainPair])
  exact ⟨B, h, h2, _, h3 0 (by simp [exMixed]) 0 (by simp [exPure])⟩

/-- **C100, violated: selection after the first getter.** All calls succeed, the last selection is one pair, the basis has four vectors. -/
theorem C100_late_selection_fails (refine : PairBasis → Option ℝ → Option ℝ → Out PairBasis) :
    ∃ B, (PairObj.fresh.run exPairEnv refine [.get, .choose [(1, 0)], .get]).1 = [.ok (), .ok (), .ok ()] ∧
      (PairObj.fresh.run exPairEnv refine [.get, .choose [(1, 0)], .get]).2.phase = .built B ∧
      (PairObj.fresh.run exPairEnv refine [.get, .choose [(1, 0)], .get]).2.sel = [(1, 0)] ∧ B.cols.length = 4 := by
  obtain ⟨B, h, h2, -⟩ := exPair_all
  have g1 : PairObj.fresh.step exPairEnv refine .get = (.ok (), ⟨[], none, none, .built B⟩) := by
    rw [step_get]
    unfold PairObj.get
    show (match pairBuild (plainPair [] none none) (fun _ _ => false) (fun _ => 0) exMixed exPure with
      | .ok B => _ | .ub => _ | .throw => _) = _
    rw [h]
    rfl
  have g2 : (PairObj.mk [] none none (.built B)).step exPairEnv refine (.choose [(1, 0)]) = (.ok (), ⟨[(1, 0)], none, none, .built B⟩) :=
    (C100_selection exPairEnv refine _ _).1 (by simp)
  have g3 : (PairObj.mk [(1, 0)] none none (.built B)).step exPairEnv refine .get = (.ok (), ⟨[(1, 0)], none, none, .built B⟩) := by
    rw [step_get]
    unfold PairObj.get
    dsimp only
    rw [if_pos ⟨rfl, rfl⟩]
  refine ⟨B, ?_, ?_, ?_, h2⟩ <;> simp only [PairObj.run, g1, g2, g3]

open Classical in
/-- **C100, violated: forgotten window.** No pair of vectors lies in the energy window: the getter throws; the next getter returns a basis outside of the window. -/
theorem C100_forgotten_window_fails (refine : PairBasis → Option ℝ → Option ℝ → Out PairBasis) :
    ∃ B, (PairObj.fresh.run exPairEnv refine [.window (some 100) none, .get, .get]).1 = [.ok (), .throw, .ok ()] ∧
      (PairObj.fresh.run exPairEnv refine [.window (some 100) none, .get, .get]).2.phase = .built B ∧ ∃ c ∈ B.cols, ¬ InWindow (some 100) none c.1 := by
  obtain ⟨B, h, h2, f, h3⟩ := exPair_all
  have hK : pairsInside (some 100) none [] exMixed exPure = [] := by
    unfold pairsInside
    rw [List.filter_eq_nil_iff]
    intro ab hab
    obtain ⟨b1, b2⟩ := pairsOf_lt (by simp) hab
    intro hc
    have hc := (of_decide_eq_true hc).1 100 rfl
    have l1 : exMixed.cols.length = 2 := rfl
    have l2 : exPure.cols.length = 2 := rfl
    have e1 : (exMixed.col ab.1).1 ≤ 1 := by
      have : ab.1 = 0 ∨ ab.1 = 1 := by omega
      rcases this with h | h <;> rw [h] <;> simp [exMixed, OneSys.col]
    have e2 : (exPure.col ab.2).1 ≤ 1 := by
      have : ab.2 = 0 ∨ ab.2 = 1 := by omega
      rcases this with h | h <;> rw [h] <;> simp [exPure, OneSys.col]
    linarith
  have hth := (C100_products (plainPair [] (some 100) none) (fun _ _ => false) (fun _ => 0) exMixed exPure (exSel_ok _ (by simp [plainPair])) rfl rfl
    (by norm_num [plainPair]) (by norm_num [plainPair])).1 (by
      intro p
      show occurs exMixed exPure (pairsInside (some 100) none [] exMixed exPure) p ≤ _
      rw [hK]; norm_num [occurs, plainPair])
  have hl := sel_loop (plainPair [] (some 100) none) exMixed exPure rfl (exSel_ok _ (by simp [plainPair]))
  have hl' : pairLoop (plainPair [] (some 100) none) exMixed exPure ((plainPair [] (some 100) none).usedPairs exMixed exPure) = .ok [] := by
    rw [hl]
    show Out.ok ((pairsInside (some 100) none [] exMixed exPure).map _) = _
    rw [hK]; rfl
  have g1 : (PairObj.mk [] (some 100) none .empty).step exPairEnv refine .get = (.throw, ⟨[], none, none, .empty⟩) := by
    rw [step_get]
    unfold PairObj.get
    show (match pairBuild (plainPair [] (some 100) none) (fun _ _ => false) (fun _ => 0) exMixed exPure with
      | .ok B => _ | .ub => _ | .throw => (match pairLoop (plainPair [] (some 100) none) exMixed exPure ((plainPair [] (some 100) none).usedPairs exMixed exPure) with
        | .ok cs => _ | _ => _)) = _
    rw [hth, hl']
    dsimp only
    unfold phaseAfter
    rw [if_pos (by simp [prunePairs, statesOf])]
  have g2 : PairObj.fresh.step exPairEnv refine .get = (.ok (), ⟨[], none, none, .built B⟩) := by
    rw [step_get]
    unfold PairObj.get
    show (match pairBuild (plainPair [] none none) (fun _ _ => false) (fun _ => 0) exMixed exPure with
      | .ok B => _ | .ub => _ | .throw => _) = _
    rw [h]
    rfl
  have g0 : PairObj.fresh.step exPairEnv refine (.window (some 100) none) = (.ok (), ⟨[], some 100, none, .empty⟩) := rfl
  have g2' : (PairObj.mk [] none none .empty).step exPairEnv refine .get = (.ok (), ⟨[], none, none, .built B⟩) := g2
  refine ⟨B, ?_, ?_, (0 + 0, f), List.mem_of_getElem? h3, ?_⟩
  · simp only [PairObj.run, g0, g1, g2']
  · simp only [PairObj.run, g0, g1, g2']
  · intro hw
    have := hw.1 100 rfl
    norm_num at this

/-! ## Permutation symmetry -/

/-- **C100, violated: exchange symmetry.** With a conserved parity under permutation a chosen pair is used only if its first number is the larger one; otherwise the getter
throws, because there is no basis vector. -/
theorem C100_exchange_selection_fails (lt : AState → AState → Bool) (E : AState → ℝ) :
    pairBuild ⟨⟨.na, .even, .na, none⟩, none, none, [(0, 1)], [], 0.05, ("Rb", "Rb")⟩ lt E exMixed exMixed = .throw ∧
    ∃ B, pairBuild ⟨⟨.na, .even, .na, none⟩, none, none, [(1, 0)], [], 0.05, ("Rb", "Rb")⟩ lt E exMixed exMixed = .ok B := by
  constructor
  · have hl : pairLoop ⟨⟨.na, .even, .na, none⟩, none, none, [(0, 1)], [], 0.05, ("Rb", "Rb")⟩ exMixed exMixed [(0, 1)] = .ok [] := by
      unfold pairLoop
      simp only [exMixed, List.getElem?_cons_zero, List.getElem?_cons_succ]
      rw [if_pos]
      · rfl
      · simp [artCol, exA, exB, AState.isArt, PairSym.local_, PairSym.skips]
    unfold pairBuild
    rw [show PairSet.usedPairs ⟨⟨.na, .even, .na, none⟩, none, none, [(0, 1)], [], 0.05, ("Rb", "Rb")⟩ exMixed exMixed = [(0, 1)] from rfl, hl]
    simp [statesOf, pairUsers, prunePairs]
  · obtain ⟨B, C, hB, -⟩ := C41_permutation_basis exMixed exMixed_unitary (by simp [exMixed]) (by
      intro s hs t ht
      simp only [exMixed, List.mem_cons, List.not_mem_nil, or_false] at hs ht
      rcases hs with rfl | rfl <;> rcases ht with rfl | rfl <;> decide) 0.05 (by norm_num) (by norm_num) ("Rb", "Rb") lt E
    refine ⟨B, ?_⟩
    have hl : pairLoop (permSet .even 0.05 ("Rb", "Rb")) exMixed exMixed (allPairs 2 2) =
        pairLoop ⟨⟨.na, .even, .na, none⟩, none, none, [(1, 0)], [], 0.05, ("Rb", "Rb")⟩ exMixed exMixed [(1, 0)] := by
      rw [show allPairs 2 2 = [(0, 0), (0, 1), (1, 0), (1, 1)] from rfl]
      simp [pairLoop, exMixed, permSet, artCol, exA, exB, AState.isArt, PairSym.local_, PairSym.skips, PairSet.energyOk, nanJ, AState.j]
    rw [← hB]
    unfold pairBuild
    rw [show PairSet.usedPairs ⟨⟨.na, .even, .na, none⟩, none, none, [(1, 0)], [], 0.05, ("Rb", "Rb")⟩ exMixed exMixed = [(1, 0)] from rfl,
      show PairSet.usedPairs (permSet .even 0.05 ("Rb", "Rb")) exMixed exMixed = allPairs 2 2 from rfl, ← hl]
    rfl

end PI
