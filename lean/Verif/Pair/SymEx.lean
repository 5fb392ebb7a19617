import Verif.Pair.Sym

/-!
# C104: a refused setting is used, and examples
-/

namespace PI

/-- The other settings of the examples. -/
noncomputable def exRest : PairSet := ⟨⟨.na, .na, .na, none⟩, none, none, [], [], 0.05, ("Rb", "Rb")⟩

/-- Conserved momentum 1 and even reflection parity at once: the getter builds a basis that contains the reflected pair state, whose momentum is -1. -/
theorem exClash_build : ∃ B, pairBuild { exRest with sym := ⟨.na, .na, .even, some {1}⟩ } (fun _ _ => false) (fun _ => 0) exPure exPure = .ok B ∧
    B.states = [(exA, exA), (exB, exB)] := by
  have hab := exA_ne
  have hba := exA_ne.symm
  have hs2 : (Real.sqrt 2 : ℂ) * (Real.sqrt 2 : ℂ) = 2 := by
    rw [← Complex.ofReal_mul, Real.mul_self_sqrt (by norm_num)]; norm_num
  obtain ⟨P, hP⟩ : ∃ P : PairSet, P = { exRest with sym := ⟨.na, .na, .even, some {1}⟩ } := ⟨_, rfl⟩
  rw [← hP]
  have hy : P.sym = ⟨.na, .na, .even, some {1}⟩ := by rw [hP]
  have body : ∀ (d : Bool) (p : AState × AState) (v : ℂ), pairBody P.sym d p v = if totalM p = 1 then [(p, v / 2), (reflP p, v / 2 * (parLJM p : ℂ))] else [] := by
    intro d p v
    by_cases h : totalM p = 1
    · rw [if_pos h, pairBody_plain _ d p v (by simp [hy]) (by simp [PairSym.drops, PairSym.rotExcludes, hy, h])]
      have : P.sym.scale d p v = v / 2 := by
        unfold PairSym.scale
        simp only [hs2]
        simp [hy, PairSym.skipRefl]
      rw [this, if_pos (by simp [hy])]
      simp [PairSym.reflS, hy]
    · rw [if_neg h]; unfold pairBody; rw [if_pos]; left; simp [PairSym.rotExcludes, hy, h]
  have hloop : pairLoop P exPure exPure [(0, 0), (0, 1), (1, 0), (1, 1)] =
      .ok [(0 + 0, [((exA, exA), 1 / 2), ((exB, exB), 1 / 2)]), (0 + 1, []), (1 + 0, []), (1 + 1, [])] := by
    rw [pairLoop_eq]
    · have k : ∀ ab ∈ [(0, 0), (0, 1), (1, 0), (1, 1)], keepOf P exPure exPure ab = true := by
        intro ab hab'
        simp only [List.mem_cons, List.not_mem_nil, or_false] at hab'
        rcases hab' with rfl | rfl | rfl | rfl <;>
          simp [keepOf, hP, exRest, PairSym.local_, PairSym.skips, PairSet.energyOk, artCol, OneSys.col, exPure, exA, exB, AState.isArt]
      rw [List.filter_eq_self.2 k]
      have A : artCol (exPure.col 0).2 = false := rfl
      have A' : artCol (exPure.col 1).2 = false := rfl
      have y0 : P.sym.local_ (false || false) = P.sym := rfl
      have p1 : totalM (exA, exA) = 1 := by decide
      have p2 : totalM (exA, exB) = 0 := by decide
      have p3 : totalM (exB, exA) = 0 := by decide
      have p4 : totalM (exB, exB) = -1 := by decide
      have r1 : reflP (exA, exA) = (exB, exB) := rfl
      have q1 : parLJM (exA, exA) = 1 := by decide
      simp only [List.map_cons, List.map_nil, colOf, A, A', y0, pairColumn, body]
      simp [OneSys.col, exPure, p1, p2, p3, p4, r1, q1]
    · intro ab hab'
      simp only [List.mem_cons, List.not_mem_nil, or_false] at hab'
      rcases hab' with rfl | rfl | rfl | rfl <;> simp [exPure]
    · intro ab hab' _ _ _
      simp only [List.mem_cons, List.not_mem_nil, or_false] at hab'
      rcases hab' with rfl | rfl | rfl | rfl <;> simp [nanJ, OneSys.col, exPure, exA, exB, AState.j]
  obtain ⟨cs, hcs⟩ : ∃ cs : List (ℝ × List PEntry), cs = [(0 + 0, [((exA, exA), 1 / 2), ((exB, exB), 1 / 2)]), (0 + 1, []), (1 + 0, []), (1 + 1, [])] := ⟨_, rfl⟩
  rw [← hcs] at hloop
  have hfm : cs.flatMap (·.2) = [((exA, exA), 1 / 2), ((exB, exB), 1 / 2)] := by rw [hcs]; rfl
  have hst : statesOf [((exA, exA), 1 / 2), ((exB, exB), 1 / 2)] = [(exA, exA), (exB, exB)] := by simp [statesOf, hba]
  have ht : P.thr = 0.05 := by rw [hP]; rfl
  have w1 : decide (P.thr < weightP [((exA, exA), 1 / 2), ((exB, exB), 1 / 2)] (exA, exA)) = true := by
    rw [decide_eq_true_eq, ht]; simp [weightP, hba, Complex.normSq_ofNat]; norm_num
  have w2 : decide (P.thr < weightP [((exA, exA), 1 / 2), ((exB, exB), 1 / 2)] (exB, exB)) = true := by
    rw [decide_eq_true_eq, ht]; simp [weightP, hab, Complex.normSq_ofNat]; norm_num
  have hs : (prunePairs P.thr cs).states = [(exA, exA), (exB, exB)] := by
    unfold prunePairs
    dsimp only
    rw [hfm, hst]
    exact List.filter_eq_self.2 (by
      intro a ha; simp only [List.mem_cons, List.not_mem_nil, or_false] at ha
      rcases ha with rfl | rfl
      · exact w1
      · exact w2)
  have hc : (prunePairs P.thr cs).cols ≠ [] := by
    unfold prunePairs
    dsimp only
    rw [hfm, hst]
    intro h
    rw [List.map_eq_nil_iff, List.filter_eq_nil_iff] at h
    apply h (0 + 0, [((exA, exA), 1 / 2), ((exB, exB), 1 / 2)]) (by rw [hcs]; exact List.mem_cons_self)
    rw [decide_eq_true_eq, ht]
    simp [coefP, hab, hba, Complex.normSq_ofNat]; norm_num
  refine ⟨_, ?_, hs⟩
  unfold pairBuild
  rw [show P.usedPairs exPure exPure = [(0, 0), (0, 1), (1, 0), (1, 1)] by rw [hP]; rfl, hloop]
  have hadd : P.toAdd = [] := by rw [hP]; rfl
  dsimp only
  rw [hadd, hfm, hst, if_neg (by simp [exPure]), if_neg (by simp)]
  rw [show pairUsers P (fun _ _ => false) (fun _ => 0) [] = .ok [] from rfl]
  dsimp only
  rw [List.append_nil, hfm, hst, if_neg (by simp [exPure]), if_neg (by rw [hs]; simpa using hc)]

/-- **C104 fails after a refusal.** The setters of the reflection parity and of the momenta store the new value before they throw. A program that catches the exception and
goes on gets a basis for the refused combination: with the only allowed momentum 1 it contains the pair state (b, b) with the momentum -1. -/
theorem C104_refused_fails :
    let r := SymObj.fresh.run [.rot {1}, .refl .even, .get exRest (fun _ _ => false) (fun _ => 0) exPure exPure []]
    r.1 = [.ok (), .throw, .ok ()] ∧ r.2.rot = {1} ∧ r.2.refl = .even ∧ ∃ B, r.2.basis = some B ∧ (exB, exB) ∈ B.states ∧
      (exB.m + exB.m) / 2 ∉ ({1} : Finset ℤ) := by
  obtain ⟨B, hB, hs⟩ := exClash_build
  intro r
  have e1 : SymObj.fresh.step (.rot {1}) = (.ok (), { SymObj.fresh with rot := {1} }) := by
    unfold SymObj.step; dsimp only
    rw [if_neg (by simp), if_neg (by simp [SymObj.fresh]), if_pos (by decide)]
  have e2 : ({ SymObj.fresh with rot := {1} } : SymObj).step (.refl .even) = (.throw, { SymObj.fresh with rot := {1}, refl := .even }) := by
    unfold SymObj.step; dsimp only
    rw [if_neg (by simp [SymObj.fresh]), if_neg (by decide)]
  have e3 : ({ SymObj.fresh with rot := {1}, refl := .even } : SymObj).step (.get exRest (fun _ _ => false) (fun _ => 0) exPure exPure []) =
      (.ok (), { SymObj.fresh with rot := {1}, refl := .even, states := B.states, basis := some B }) := by
    have hsym : ({ SymObj.fresh with rot := {1}, refl := .even } : SymObj).sym = ⟨.na, .na, .even, some {1}⟩ := rfl
    unfold SymObj.step; dsimp only
    rw [if_neg (by simp [SymObj.fresh]), hsym, hB]
  have hr : r = ([.ok (), .throw, .ok ()], { SymObj.fresh with rot := {1}, refl := .even, states := B.states, basis := some B }) := by
    show SymObj.run _ _ = _
    simp only [SymObj.run, e1, e2, e3]
  rw [hr]
  exact ⟨rfl, rfl, rfl, B, rfl, by rw [hs]; simp, by decide⟩

/-- Momenta -1 and 1 and the reflection parity EVEN, the permutation parity twice: all calls are accepted. -/
theorem exSymHist : ∀ r ∈ (SymObj.fresh.run [.perm .even, .rot {-1, 1}, .refl .even, .perm .na]).1, r = .ok () := by
  have e1 : SymObj.fresh.step (.perm .even) = (.ok (), { SymObj.fresh with perm := .even }) := by
    unfold SymObj.step; dsimp only; rw [if_neg (by simp [SymObj.fresh])]
  have e2 : ({ SymObj.fresh with perm := .even } : SymObj).step (.rot {-1, 1}) = (.ok (), { SymObj.fresh with perm := .even, rot := {-1, 1} }) := by
    unfold SymObj.step; dsimp only
    rw [if_neg (by decide), if_neg (by simp [SymObj.fresh]), if_pos (by decide)]
  have e3 : ({ SymObj.fresh with perm := .even, rot := {-1, 1} } : SymObj).step (.refl .even) =
      (.ok (), { SymObj.fresh with perm := .even, rot := {-1, 1}, refl := .even }) := by
    unfold SymObj.step; dsimp only
    rw [if_neg (by simp [SymObj.fresh]), if_pos (by decide)]
  have e4 : ({ SymObj.fresh with perm := .even, rot := {-1, 1}, refl := .even } : SymObj).step (.perm .na) =
      (.ok (), { SymObj.fresh with perm := .na, rot := {-1, 1}, refl := .even }) := by
    unfold SymObj.step; dsimp only; rw [if_neg (by simp [SymObj.fresh])]
  simp [SymObj.run, e1, e2, e3, e4]

example : let o := (SymObj.fresh.run [.perm .even, .rot {-1, 1}, .refl .even, .perm .na]).2
    o.perm = .na ∧ o.inv = .na ∧ o.refl = .even ∧ o.rot = {-1, 1} := by
  obtain ⟨h1, h2, h3, h4, -⟩ := C104_settings _ exSymHist
  exact ⟨h1, h2, h3, h4⟩

/-- A history with a basis: even reflection parity, all momenta. The reflection symmetry follows. -/
example : ∃ B, (SymObj.fresh.run ([.refl .even] ++ [.get exRest (fun _ _ => false) (fun _ => 0) exPure exPure []])).2.basis = some B ∧
    ∀ c ∈ B.cols, c.2 (exA.refl, exB.refl) = 1 * (signC 0 * signC 1 * signC 0) * c.2 (exA, exB) := by
  obtain ⟨B, hB, -⟩ := exRefl_build 0.05 ("Rb", "Rb") (by norm_num) (by norm_num)
  have na : NoArt exPure := by
    intro u hu e he; unfold exPure at hu; simp only [List.mem_cons, List.not_mem_nil, or_false] at hu
    rcases hu with rfl | rfl <;> simp only [List.mem_cons, List.not_mem_nil, or_false] at he <;> subst he <;> rfl
  have e2 : SymObj.fresh.step (.refl .even) = (.ok (), { SymObj.fresh with refl := .even }) := by
    unfold SymObj.step; dsimp only
    rw [if_neg (by simp [SymObj.fresh]), if_pos (by decide)]
  have e3 : (({ SymObj.fresh with refl := .even } : SymObj).step (.get exRest (fun _ _ => false) (fun _ => 0) exPure exPure [])).1 = .ok () := by
    have hsym : ({ exRest with sym := ({ SymObj.fresh with refl := .even } : SymObj).sym } : PairSet) = reflSet .even 0.05 ("Rb", "Rb") := rfl
    unfold SymObj.step; dsimp only
    rw [if_neg (by simp [SymObj.fresh]), hsym, hB]
  obtain ⟨B', h1, -, -, h2, -⟩ := C104_basis [.refl .even] (by simp [SymCall.isSetter]) exRest (fun _ _ => false) (fun _ => 0) exPure exPure [] (by
    intro r hr
    simp only [List.cons_append, List.nil_append, SymObj.run, e2, List.mem_cons, List.not_mem_nil, or_false] at hr
    rcases hr with rfl | rfl
    · rfl
    · exact e3) (by unfold exRest; norm_num) na na rfl
  refine ⟨B', h1, fun c hc => ?_⟩
  have := h2 (by simp [lastSet, SymCall.asRefl]) c hc exA exB (by decide)
  rw [if_pos (by simp [lastSet, SymCall.asRefl])] at this
  exact this

/-- Momenta 1 with the marker. -/
example (o : SymObj) : o.step (.rot {1, ARB}) = (.throw, o) := C104_mixed_momenta o {1, ARB} 1 (by simp) (by simp) (by decide)

/-- An object with states: every setter is refused. -/
example : (⟨.na, .na, .na, {ARB}, [(exA, exB)], none⟩ : SymObj).step (.rot {1}) = (.throw, ⟨.na, .na, .na, {ARB}, [(exA, exB)], none⟩) :=
  C104_locked _ (by simp) _ rfl

/-- Momentum 1 conserved: an odd reflection parity is refused. -/
example : (({ SymObj.fresh with rot := {1} } : SymObj).step (.refl .odd)).1 = .throw :=
  ((C104_refusal _ rfl).1 .odd).2 ⟨by decide, by decide, 1, by decide, by decide⟩

end PI
