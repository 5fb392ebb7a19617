import Verif.Pair.User
import Mathlib.Order.WellFounded
import Mathlib.SetTheory.Cardinal.Order

/-! # C106: examples and counterexamples -/

namespace PI

theorem without_indep (P : PairSet) (h : P.toAdd = []) (lt lt' : AState → AState → Bool) (E E' : AState → ℝ) (S1 S2 : OneSys) :
    pairBuild P lt E S1 S2 = pairBuild P lt' E' S1 S2 := by
  unfold pairBuild
  rw [h]
  rfl

/-- If the basis can be built without user-defined states, then also without removing anything. -/
theorem unpruned_exists {P : PairSet} {lt : AState → AState → Bool} {E : AState → ℝ} {S1 S2 : OneSys} {B0 : PairBasis}
    (h : pairBuild P.without lt E S1 S2 = .ok B0) : ∃ B1, pairBuild P.unpruned lt E S1 S2 = .ok B1 := by
  obtain ⟨cs, hcs, hB0, hlen, hne1, hne2⟩ := without_ok h
  refine ⟨prunePairs (-1) cs, ?_⟩
  unfold pairBuild
  rw [pairLoop_congr P.unpruned P S1 S2 rfl (fun _ => rfl), show P.unpruned.usedPairs S1 S2 = P.usedPairs S1 S2 from rfl,
    show P.unpruned.toAdd = [] from rfl, show P.unpruned.thr = -1 from rfl, hcs]
  dsimp only
  rw [if_neg (by simpa using hlen), if_neg (by simp), show pairUsers P.unpruned lt E [] = .ok [] from rfl]
  dsimp only
  rw [List.append_nil, if_neg (by simpa using hlen), if_neg]
  rw [not_or]
  unfold prunePairs at hB0 ⊢
  dsimp only at hB0 ⊢
  constructor
  · intro hn
    obtain ⟨p, hp⟩ := List.exists_mem_of_ne_nil _ hne1
    rw [hB0] at hp
    have hp := (List.mem_filter.1 hp).1
    have : p ∈ (statesOf (cs.flatMap (·.2))).filter fun p => decide (-1 < weightP (cs.flatMap (·.2)) p) := by
      rw [List.mem_filter, decide_eq_true_eq]
      exact ⟨hp, by have := weightP_nonneg (cs.flatMap (·.2)) p; linarith⟩
    rw [hn] at this
    cases this
  · intro hn
    rw [List.map_eq_nil_iff] at hn
    rw [hB0] at hne2
    obtain ⟨c, hc⟩ := List.exists_mem_of_ne_nil _ hne2
    obtain ⟨d, hd, -⟩ := List.mem_map.1 hc
    have hd := (List.mem_filter.1 hd).1
    have : d ∈ cs.filter fun c => decide ((-1 : ℝ) < ((statesOf (cs.flatMap (·.2))).map fun p => Complex.normSq (coefP c.2 p)).sum) := by
      rw [List.mem_filter, decide_eq_true_eq]
      refine ⟨hd, ?_⟩
      have : 0 ≤ ((statesOf (cs.flatMap (·.2))).map fun p => Complex.normSq (coefP d.2 p)).sum :=
        List.sum_nonneg (by intro x hx; obtain ⟨f, -, rfl⟩ := List.mem_map.1 hx; exact Complex.normSq_nonneg _)
      linarith
    rw [hn] at this
    cases this

/-- Without artificial states in the one-atom systems and without reflection, the list contains products of states that occur in the systems. -/
theorem unpruned_states {P : PairSet} {lt : AState → AState → Bool} {E : AState → ℝ} {S1 S2 : OneSys} {B1 : PairBasis}
    (h : pairBuild P.unpruned lt E S1 S2 = .ok B1) (q : AState × AState → Prop)
    (hq : ∀ u ∈ S1.cols, ∀ w ∈ S2.cols, ∀ e1 ∈ u.2, ∀ e2 ∈ w.2, q (e1.1, e2.1) ∧ q (e2.1, e1.1) ∧ q (e1.1.refl, e2.1.refl) ∧ q (e2.1.refl, e1.1.refl)) :
    ∀ t ∈ B1.states, q t := by
  intro t ht
  obtain ⟨cs, hcs, hst⟩ := unpruned_ok h
  rw [hst, mem_statesOf, List.mem_map] at ht
  obtain ⟨x, hx, rfl⟩ := ht
  obtain ⟨d, hd, hx⟩ := List.mem_flatMap.1 hx
  obtain ⟨ab, _, u, w, f⟩ := pairLoop_mem P S1 S2 _ cs hcs d hd
  have hx' : x.1 ∈ d.2.map (·.1) := List.mem_map_of_mem hx
  rw [f.eq] at hx'
  obtain ⟨e1, he1, e2, he2, -, hc⟩ := column_keys _ _ _ _ _ hx'
  have := hq u (List.mem_of_getElem? f.fst) w (List.mem_of_getElem? f.snd) e1 he1 e2 he2
  rcases hc with h | ⟨-, -, h⟩ | ⟨-, h | ⟨-, -, h⟩⟩ <;> rw [h]
  · exact this.1
  · exact this.2.1
  · exact this.2.2.1
  · exact this.2.2.2

/-- There is a strict total order of the states. (Which one is used only decides which of two exchanged states stands for both.) -/
theorem exists_order : ∃ lt : AState → AState → Bool, StrictTotal lt := by
  classical
  refine ⟨fun a b => decide (WellOrderingRel a b), ⟨?_, ?_, ?_⟩⟩
  · intro a
    rw [decide_eq_false_iff_not]
    exact irrefl_of WellOrderingRel a
  · intro a b h
    rw [decide_eq_true_eq] at h
    rw [decide_eq_false_iff_not]
    exact asymm_of WellOrderingRel h
  · intro a b hab
    rw [decide_eq_true_eq, decide_eq_true_eq]
    rcases trichotomous_of WellOrderingRel a b with h | h | h
    · exact Or.inl h
    · exact absurd h hab
    · exact Or.inr h

theorem exPure_pairs (q : AState × AState → Prop) (h1 : q (exA, exA)) (h2 : q (exA, exB)) (h3 : q (exB, exA)) (h4 : q (exB, exB)) :
    ∀ u ∈ exPure.cols, ∀ w ∈ exPure.cols, ∀ e1 ∈ u.2, ∀ e2 ∈ w.2,
      q (e1.1, e2.1) ∧ q (e2.1, e1.1) ∧ q (e1.1.refl, e2.1.refl) ∧ q (e2.1.refl, e1.1.refl) := by
  intro u hu w hw e1 he1 e2 he2
  have rA : exA.refl = exB := rfl
  have rB : exB.refl = exA := rfl
  have key : ∀ u ∈ exPure.cols, ∀ e ∈ u.2, e.1 = exA ∨ e.1 = exB := by
    intro u hu e he
    simp only [exPure, List.mem_cons, List.not_mem_nil, or_false] at hu
    rcases hu with rfl | rfl
    · rw [List.mem_singleton] at he; rw [he]; exact Or.inl rfl
    · rw [List.mem_singleton] at he; rw [he]; exact Or.inr rfl
  rcases key u hu e1 he1 with a | a <;> rcases key w hw e2 he2 with b | b <;> rw [a, b] <;> simp only [rA, rB] <;> refine ⟨?_, ?_, ?_, ?_⟩ <;> assumption

/-- A state that does not occur in the one-atom systems. -/
def exNew : AState := .phys "Rb" 70 0 1 1

open Classical in
/-- Two user-defined states, exchanged: with the odd (symmetric) permutation symmetry there is one vector more than without them. -/
example : ∃ lt, StrictTotal lt ∧ ∃ B0 B, pairBuild (permSet .odd 0.05 ("Rb", "Rb")) lt (fun _ => 0) exPure exPure = .ok B0 ∧
    pairBuild { permSet .odd 0.05 ("Rb", "Rb") with toAdd := [(exNew, .art "x"), (.art "x", exNew)] } lt (fun _ => 0) exPure exPure = .ok B ∧
    B.cols.length = B0.cols.length + 1 := by
  obtain ⟨lt, hlt⟩ := exists_order
  obtain ⟨-, B0, -, h0, -⟩ := C41_permutation_basis exPure exPure_unitary (by simp [exPure])
    (by
      intro s hs t ht
      simp only [exPure, List.mem_cons, List.not_mem_nil, or_false] at hs ht
      rcases hs with rfl | rfl <;> rcases ht with rfl | rfl <;> decide) 0.05 (by norm_num) (by norm_num) ("Rb", "Rb") lt (fun _ => 0)
  set P : PairSet := { permSet .odd 0.05 ("Rb", "Rb") with toAdd := [(exNew, .art "x"), (.art "x", exNew)] } with hP
  have h0' : pairBuild P.without lt (fun _ => 0) exPure exPure = .ok B0 := h0
  obtain ⟨B1, h1⟩ := unpruned_exists h0'
  have hst := unpruned_states h1 (fun p => p.1 ≠ exNew ∧ p.2 ≠ exNew) (exPure_pairs (fun p => p.1 ≠ exNew ∧ p.2 ≠ exNew) (by decide) (by decide) (by decide) (by decide))
  have hmem : ∀ t ∈ P.toAdd, t = (exNew, .art "x") ∨ t = (.art "x", exNew) := by
    intro t ht
    simpa [hP] using ht
  obtain ⟨B, hB, -, hc⟩ := C106_added P lt hlt (fun _ => 0) exPure exPure B0 B1 h0' h1 (by rw [hP]; decide)
    (by rw [hP]; norm_num [permSet]) (by
      intro t ht
      rcases hmem t ht with rfl | rfl
      · refine ⟨?_, fun hh => (hst _ hh).1 rfl, ?_⟩
        · rintro (⟨sp, n, l, j, m, he, hne⟩ | ⟨sp, n, l, j, m, he, hne⟩)
          · cases he; exact hne rfl
          · cases he
        · rintro ⟨-, -, -, hn⟩
          exact hn (by rw [hP]; simp)
      · refine ⟨?_, fun hh => (hst _ hh).2 rfl, ?_⟩
        · rintro (⟨sp, n, l, j, m, he, hne⟩ | ⟨sp, n, l, j, m, he, hne⟩)
          · cases he
          · cases he; exact hne rfl
        · rintro ⟨-, -, -, hn⟩
          exact hn (by rw [hP]; simp))
  refine ⟨lt, hlt, B0, B, h0, hB, ?_⟩
  rw [hc, List.length_append, List.length_map]
  congr 1
  have hx : ∀ t, Exchanges P t := fun t => Or.inr (by rw [hP]; simp [permSet])
  have hf : ∀ t ∈ P.toAdd, Fits P t := by
    intro t ht
    rcases hmem t ht with rfl | rfl
    · exact ⟨Or.inr (Or.inl rfl), fun hi => by cases hi.2.1⟩
    · exact ⟨Or.inl rfl, fun hi => by cases hi.1⟩
  have s1 : Stands P lt (exNew, .art "x") ↔ lt (.art "x") exNew = true := by
    refine ⟨fun h => (h (hx _)).1 (by decide), fun h _ => ⟨fun _ => h, fun he => absurd he (by decide)⟩⟩
  have s2 : Stands P lt (.art "x", exNew) ↔ lt exNew (.art "x") = true := by
    refine ⟨fun h => (h (hx _)).1 (by decide), fun h _ => ⟨fun _ => h, fun he => absurd he (by decide)⟩⟩
  unfold addedReps
  rw [show P.toAdd = [(exNew, .art "x"), (.art "x", exNew)] from rfl]
  have f1 := hf (exNew, .art "x") (by rw [hP]; simp)
  have f2 := hf (.art "x", exNew) (by rw [hP]; simp)
  rcases hlt.total exNew (.art "x") (by decide) with h | h
  · have h' := hlt.asymm _ _ h
    rw [List.filter_cons_of_neg (by rw [decide_eq_true_eq, s1, h']; simp), List.filter_cons_of_pos (by rw [decide_eq_true_eq, s2, h]; exact ⟨f2, rfl⟩)]
    rfl
  · have h' := hlt.asymm _ _ h
    rw [List.filter_cons_of_pos (by rw [decide_eq_true_eq, s1, h]; exact ⟨f1, rfl⟩), List.filter_cons_of_neg (by rw [decide_eq_true_eq, s2, h']; simp)]
    rfl

/-- The missing exchanged state is refused. -/
example : ∃ lt, StrictTotal lt ∧
    pairBuild { permSet .odd 0.05 ("Rb", "Rb") with toAdd := [(exNew, .art "x")] } lt (fun _ => 0) exPure exPure = .throw := by
  obtain ⟨lt, hlt⟩ := exists_order
  obtain ⟨-, B0, -, h0, -⟩ := C41_permutation_basis exPure exPure_unitary (by simp [exPure])
    (by
      intro s hs t ht
      simp only [exPure, List.mem_cons, List.not_mem_nil, or_false] at hs ht
      rcases hs with rfl | rfl <;> rcases ht with rfl | rfl <;> decide) 0.05 (by norm_num) (by norm_num) ("Rb", "Rb") lt (fun _ => 0)
  set P : PairSet := { permSet .odd 0.05 ("Rb", "Rb") with toAdd := [(exNew, .art "x")] } with hP
  have h0' : pairBuild P.without lt (fun _ => 0) exPure exPure = .ok B0 := h0
  obtain ⟨B1, h1⟩ := unpruned_exists h0'
  refine ⟨lt, hlt, C106_refused P lt hlt _ _ _ B0 B1 h0' h1 (exNew, .art "x") (by rw [hP]; simp) (Or.inr (Or.inr ?_))⟩
  exact ⟨⟨Or.inr (Or.inl rfl), fun hi => by cases hi.2.1⟩, Or.inr (by rw [hP]; simp [permSet]), by decide, by rw [hP]; decide⟩

open Classical in
/-- **C106, violated: reflection.** With the even reflection symmetry a user-defined state is added as it is: the basis contains a vector that is no
eigenvector of the reflection. (The program prints a warning.) -/
theorem C106_reflection_fails : ∃ (lt : AState → AState → Bool) (B : PairBasis), StrictTotal lt ∧
    pairBuild { reflSet .even 0.05 ("Rb", "Rb") with toAdd := [(exNew, exNew)] } lt (fun _ => 0) exPure exPure = .ok B ∧
    ∃ c ∈ B.cols, c.2 (exNew, exNew) = 1 ∧ c.2 (exNew.refl, exNew.refl) = 0 := by
  obtain ⟨lt, hlt⟩ := exists_order
  obtain ⟨B0, h0, -, -⟩ := exRefl_build 0.05 ("Rb", "Rb") (by norm_num) (by norm_num)
  rw [without_indep _ rfl _ lt _ (fun _ => 0)] at h0
  set P : PairSet := { reflSet .even 0.05 ("Rb", "Rb") with toAdd := [(exNew, exNew)] } with hP
  have h0' : pairBuild P.without lt (fun _ => 0) exPure exPure = .ok B0 := h0
  obtain ⟨B1, h1⟩ := unpruned_exists h0'
  have hst := unpruned_states h1 (fun p => p.1 ≠ exNew ∧ p.2 ≠ exNew) (exPure_pairs (fun p => p.1 ≠ exNew ∧ p.2 ≠ exNew) (by decide) (by decide) (by decide) (by decide))
  have hx : ¬ Exchanges P (exNew, exNew) := by
    rintro (⟨-, -, h⟩ | h)
    · exact h rfl
    · exact h rfl
  have hf : Fits P (exNew, exNew) := ⟨Or.inr (Or.inr fun ms h => by cases h), fun hi => absurd rfl hi.2.2⟩
  obtain ⟨B, hB, -, hc⟩ := C106_added P lt hlt (fun _ => 0) exPure exPure B0 B1 h0' h1 (by rw [hP]; decide)
    (by rw [hP]; norm_num [reflSet]) (by
      intro t ht
      have : t = (exNew, exNew) := by simpa [hP] using ht
      subst this
      refine ⟨?_, fun hh => (hst _ hh).1 rfl, fun hm => hx hm.2.1⟩
      rintro (⟨sp, n, l, j, m, he, hne⟩ | ⟨sp, n, l, j, m, he, hne⟩) <;> cases he <;> exact hne rfl)
  refine ⟨lt, B, hlt, hB, ((energyAdded (fun _ => 0) (exNew, exNew)), vecAdded P (exNew, exNew)), ?_, ?_, ?_⟩
  · rw [hc]
    refine List.mem_append_right _ (List.mem_map.2 ⟨(exNew, exNew), ?_, rfl⟩)
    unfold addedReps
    rw [List.mem_filter, decide_eq_true_eq]
    exact ⟨by rw [hP]; simp, hf, fun h => absurd h hx⟩
  · dsimp only
    unfold vecAdded
    rw [if_neg (fun h => hx h.1), if_pos rfl]
  · dsimp only
    unfold vecAdded
    rw [if_neg (fun h => hx h.1), if_neg (by decide)]

/-- One basis vector with a small admixture. -/
noncomputable def exSmall : OneSys := ⟨[exA, exB], [(0, [(exA, 40 / 41), (exB, 9 / 41)])]⟩
/-- One unmixed basis vector. -/
noncomputable def exPlain1 : OneSys := ⟨[exA], [(0, [(exA, 1)])]⟩

theorem exSmall_normed : NormedSys exSmall := by
  have hab := exA_ne
  have hba := exA_ne.symm
  refine ⟨by decide, ?_, ?_⟩
  · intro u hu
    simp only [exSmall, List.mem_singleton] at hu
    rw [hu]
    refine ⟨by simp [hab], by simp [exSmall]⟩
  · intro a ha
    have : a = 0 := by
      have : exSmall.cols.length = 1 := rfl
      omega
    subst this
    rw [show exSmall.states.toFinset = {exA, exB} by simp [exSmall], Finset.sum_pair hab]
    simp [coef1, OneSys.col, exSmall, hab, hba, Complex.normSq_ofNat]
    norm_num

theorem exPlain1_normed : NormedSys exPlain1 := by
  refine ⟨by decide, ?_, ?_⟩
  · intro u hu
    simp only [exPlain1, List.mem_singleton] at hu
    rw [hu]
    refine ⟨by simp, by simp [exPlain1]⟩
  · intro a ha
    have : a = 0 := by
      have : exPlain1.cols.length = 1 := rfl
      omega
    subst this
    rw [show exPlain1.states.toFinset = {exA} by simp [exPlain1], Finset.sum_singleton]
    simp [coef1, OneSys.col, exPlain1]

/-- **C106, violated: removed states.** A state that is not in the basis, because its weight in the basis vectors is too small, cannot be added: the program
finds it in the list of states from which it is going to be removed. -/
theorem C106_removed_state_fails : ∃ (lt : AState → AState → Bool) (B0 : PairBasis), StrictTotal lt ∧
    pairBuild (plainPair [] none none) lt (fun _ => 0) exSmall exPlain1 = .ok B0 ∧ (exB, exA) ∉ B0.states ∧
    ¬ WrongSpecies (plainPair [] none none) (exB, exA) ∧
    pairBuild { plainPair [] none none with toAdd := [(exB, exA)] } lt (fun _ => 0) exSmall exPlain1 = .throw := by
  have hab := exA_ne
  have hba := exA_ne.symm
  obtain ⟨lt, hlt⟩ := exists_order
  have hsel : SelOk (plainPair [] none none).pairs exSmall exPlain1 := by
    refine ⟨exSmall_normed, exPlain1_normed, by simp [plainPair], ?_⟩
    intro s hs t ht _ _
    simp only [exSmall, exPlain1, List.mem_cons, List.not_mem_nil, or_false] at hs ht
    rcases hs with rfl | rfl <;> subst ht <;> decide
  have hK : pairsInside none none [] exSmall exPlain1 = [(0, 0)] := by
    rw [pairsInside_none]; rfl
  have hoc : ∀ p, occurs exSmall exPlain1 [(0, 0)] p = Complex.normSq (coef1 (exSmall.col 0).2 p.1) * Complex.normSq (coef1 (exPlain1.col 0).2 p.2) := by
    intro p
    unfold occurs prodVec
    rw [List.map_singleton, List.sum_singleton, Complex.normSq_mul]
  obtain ⟨-, hex⟩ := C100_products (plainPair [] none none) lt (fun _ => 0) exSmall exPlain1 hsel rfl rfl (by norm_num [plainPair]) (by norm_num [plainPair])
  rw [show pairsInside (plainPair [] none none).energyMin (plainPair [] none none).energyMax (plainPair [] none none).pairs exSmall exPlain1 = [(0, 0)] from hK] at hex
  obtain ⟨B0, h0, -, hmem, -⟩ := hex ⟨(exA, exA), by
    rw [hoc]
    simp [coef1, OneSys.col, exSmall, exPlain1, plainPair, hab, hba, Complex.normSq_ofNat]
    norm_num⟩
  have hnot : (exB, exA) ∉ B0.states := by
    rw [hmem, hoc, not_lt]
    simp [coef1, OneSys.col, exSmall, exPlain1, plainPair, hab, hba, Complex.normSq_ofNat]
    norm_num
  refine ⟨lt, B0, hlt, h0, hnot, ?_, ?_⟩
  · rintro (⟨sp, n, l, j, m, he, hne⟩ | ⟨sp, n, l, j, m, he, hne⟩) <;> cases he <;> exact hne rfl
  · set P : PairSet := { plainPair [] none none with toAdd := [(exB, exA)] } with hP
    have h0' : pairBuild P.without lt (fun _ => 0) exSmall exPlain1 = .ok B0 := h0
    obtain ⟨B1, h1⟩ := unpruned_exists h0'
    refine C106_refused P lt hlt _ _ _ B0 B1 h0' h1 (exB, exA) (by rw [hP]; simp) (Or.inr (Or.inl ?_))
    obtain ⟨cs, hcs, hst⟩ := unpruned_ok h1
    have hl := sel_loop (plainPair [] none none) exSmall exPlain1 rfl hsel
    rw [show pairsInside (plainPair [] none none).energyMin (plainPair [] none none).energyMax (plainPair [] none none).pairs exSmall exPlain1 = [(0, 0)] from hK] at hl
    rw [pairLoop_congr P (plainPair [] none none) exSmall exPlain1 rfl (fun _ => rfl)] at hcs
    have : cs = [(0, 0)].map (colOf (plainPair [] none none) exSmall exPlain1) := Out.ok.inj (hcs.symm.trans hl)
    rw [hst, this, mem_statesOf]
    have hcol : (colOf (plainPair [] none none) exSmall exPlain1 (0, 0)).2 = [((exA, exA), (40 / 41 : ℂ) * 1), ((exB, exA), (9 / 41 : ℂ) * 1)] := by
      unfold colOf
      rw [show (plainPair [] none none).sym = .trivial from rfl, trivial_local]
      unfold pairColumn
      simp only [trivial_body]
      simp [OneSys.col, exSmall, exPlain1]
    simp [hcol]

end PI
