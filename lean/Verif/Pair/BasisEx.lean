import Verif.Pair.BasisComplete
import Mathlib.Tactic.NormNum
import Mathlib.Tactic.IntervalCases

/-!
# C41: examples and counterexamples, and C73
-/

namespace PI

/-- Two states of one atom. -/
def exA : AState := .phys "Rb" 60 0 1 1
/-- The second state. -/
def exB : AState := .phys "Rb" 60 0 1 (-1)

theorem exA_ne : exA ≠ exB := by unfold exA exB; decide

/-- A one-atom system with two mixed states. -/
noncomputable def exMixed : OneSys := ⟨[exA, exB], [(0, [(exA, 3 / 5), (exB, 4 / 5)]), (1, [(exA, 4 / 5), (exB, -3 / 5)])]⟩

theorem exMixed_unitary : UnitarySys exMixed := by
  have hab := exA_ne
  have hba := exA_ne.symm
  have hset : exMixed.states.toFinset = {exA, exB} := by unfold exMixed; simp
  have c0 : ∀ s, coef1 (exMixed.col 0).2 s = (if exA = s then 3 / 5 else 0) + (if exB = s then 4 / 5 else 0) := by
    intro s; simp [coef1, OneSys.col, exMixed]
  have c1 : ∀ s, coef1 (exMixed.col 1).2 s = (if exA = s then 4 / 5 else 0) + (if exB = s then -3 / 5 else 0) := by
    intro s; simp [coef1, OneSys.col, exMixed]
  have hlen : exMixed.cols.length = 2 := rfl
  refine ⟨?_, ?_, ?_, ?_⟩
  · unfold exMixed; simp [hab]
  · intro u hu
    unfold exMixed at hu ⊢
    simp only [List.mem_cons, List.not_mem_nil, or_false] at hu
    rcases hu with rfl | rfl <;> simp [hab]
  · intro a ha b hb
    rw [hlen] at ha hb
    rw [hset, Finset.sum_pair hab]
    interval_cases a <;> interval_cases b <;> simp [c0, c1, hab, hba, Complex.conj_ofNat] <;> norm_num
  · intro s hs t ht
    rw [hlen, Finset.sum_range_succ, Finset.sum_range_one]
    have hs' : s = exA ∨ s = exB := by unfold exMixed at hs; simpa using hs
    have ht' : t = exA ∨ t = exB := by unfold exMixed at ht; simpa using ht
    rcases hs' with rfl | rfl <;> rcases ht' with rfl | rfl <;> simp [c0, c1, hab, hba, Complex.conj_ofNat] <;> norm_num

example : ∃ B C, pairBuild (permSet .even 0.05 ("Rb", "Rb")) (fun _ _ => false) (fun _ => 0) exMixed exMixed = .ok B ∧
    pairBuild (permSet .odd 0.05 ("Rb", "Rb")) (fun _ _ => false) (fun _ => 0) exMixed exMixed = .ok C ∧
    B.Ortho ∧ C.Ortho ∧ (∀ c ∈ B.cols, ∀ s t, c.2 (t, s) = - c.2 (s, t)) ∧ (∀ c ∈ C.cols, ∀ s t, c.2 (t, s) = c.2 (s, t)) ∧
    Splits exMixed B C :=
  C41_permutation_basis exMixed exMixed_unitary (le_refl 2)
    (by intro s hs t ht; unfold exMixed at hs ht; simp only [List.mem_cons, List.not_mem_nil, or_false] at hs ht
        rcases hs with rfl | rfl <;> rcases ht with rfl | rfl <;> decide) 0.05 (by norm_num) (by norm_num) _ _ _

example : ∃ B C, pairBuild (invSet .even 0.05 ("Rb", "Rb")) (fun _ _ => false) (fun _ => 0) exMixed exMixed = .ok B ∧
    pairBuild (invSet .odd 0.05 ("Rb", "Rb")) (fun _ _ => false) (fun _ => 0) exMixed exMixed = .ok C ∧ B.Ortho ∧ C.Ortho ∧
    (∀ c ∈ B.cols, ∀ s t, c.2 (t, s) = - signC (s.l + t.l) * c.2 (s, t)) ∧
    (∀ c ∈ C.cols, ∀ s t, c.2 (t, s) = signC (s.l + t.l) * c.2 (s, t)) ∧ Splits exMixed B C :=
  C74_inversion_basis exMixed exMixed_unitary (le_refl 2)
    (by intro u hu e he; unfold exMixed at hu; simp only [List.mem_cons, List.not_mem_nil, or_false] at hu
        rcases hu with rfl | rfl <;> simp only [List.mem_cons, List.not_mem_nil, or_false] at he <;> rcases he with rfl | rfl <;> rfl)
    (fun _ => 0)
    (by intro a ha e he
        have : e.1.l = 0 := by
          have hm := col_mem exMixed ha
          unfold exMixed at hm
          simp only [List.mem_cons, List.not_mem_nil, or_false] at hm
          rcases hm with h | h
          · unfold exMixed at he; rw [h] at he; simp only [List.mem_cons, List.not_mem_nil, or_false] at he; rcases he with rfl | rfl <;> rfl
          · unfold exMixed at he; rw [h] at he; simp only [List.mem_cons, List.not_mem_nil, or_false] at he; rcases he with rfl | rfl <;> rfl
        rw [this]; rfl)
    (by intro s hs t ht; unfold exMixed at hs ht; simp only [List.mem_cons, List.not_mem_nil, or_false] at hs ht
        rcases hs with rfl | rfl <;> rcases ht with rfl | rfl <;> decide) 0.05 (by norm_num) (by norm_num) _ _ _

/-- Exchange: if the atoms are described by different basis vectors, the permutation symmetric pair basis is not symmetric
(the code does not check that the systems agree). -/
theorem C41_different_systems_fails :
    ∃ (S1 S2 : OneSys) (B : PairBasis), pairBuild (permSet .odd 0.05 ("Rb", "Rb")) (fun _ _ => false) (fun _ => 0) S1 S2 = .ok B ∧
      ∃ c ∈ B.cols, ∃ s t, c.2 (t, s) ≠ c.2 (s, t) := by
  have hab := exA_ne
  have hba := exA_ne.symm
  refine ⟨⟨[exA], [(0, [(exA, 1)])]⟩, ⟨[exB], [(0, [(exB, 1)])]⟩,
    ⟨[(exA, exB)], [(0 + 0, fun p => if p ∈ [(exA, exB)] then coefP [((exA, exB), 1 * 1)] p else 0)]⟩, ?_, _, List.mem_singleton.2 rfl, exA, exB, ?_⟩
  · have hl : pairLoop (permSet .odd 0.05 ("Rb", "Rb")) ⟨[exA], [(0, [(exA, 1)])]⟩ ⟨[exB], [(0, [(exB, 1)])]⟩ [(0, 0)] =
        .ok [(0 + 0, [((exA, exB), 1 * 1)])] := by
      rw [pairLoop_eq]
      · have hk : ∀ P : PairSet, P = permSet .odd 0.05 ("Rb", "Rb") → keepOf P ⟨[exA], [(0, [(exA, 1)])]⟩ ⟨[exB], [(0, [(exB, 1)])]⟩ (0, 0) = true := by
          rintro P rfl
          simp [keepOf, permSet, PairSym.local_, PairSym.skips, PairSet.energyOk, artCol, OneSys.col, exA, exB, AState.isArt]
        rw [List.filter_cons_of_pos (hk _ rfl)]
        simp [colOf, OneSys.col, permSet, PairSym.local_, artCol, exA, exB, AState.isArt, pairColumn, pairBody, PairSym.drops,
          PairSym.rotExcludes, PairSym.scale]
      · intro ab hab; simp only [List.mem_singleton] at hab; subst hab; decide
      · intro ab hab _ _ _; simp only [List.mem_singleton] at hab; subst hab
        simp [nanJ, OneSys.col, exA, exB, AState.j]
    unfold pairBuild
    have hu : (permSet .odd 0.05 ("Rb", "Rb")).usedPairs ⟨[exA], [(0, [(exA, 1)])]⟩ ⟨[exB], [(0, [(exB, 1)])]⟩ = [(0, 0)] := rfl
    rw [hu, hl]
    simp [permSet, pairUsers, statesOf, prunePairs, weightP, coefP]
    norm_num
    funext p
    by_cases h : p = (exA, exB)
    · subst h; norm_num
    · simp [h]
  · simp [coefP, hab, hba]


/-- Removing states that barely occur breaks the normalisation if the one-atom basis is not complete: for the single
one-atom vector (24 a + 7 b)/25, the symmetric pair vector loses its component on (b, b). -/
theorem C41_restricted_basis_fails :
    ∃ (S : OneSys) (B : PairBasis), S.states.Nodup ∧ S.cols.length = 1 ∧
      (∑ s ∈ S.states.toFinset, (starRingEnd ℂ) (coef1 (S.col 0).2 s) * coef1 (S.col 0).2 s = 1) ∧
      pairBuild (permSet .odd 0.05 ("Rb", "Rb")) (fun _ _ => false) (fun _ => 0) S S = .ok B ∧ ¬ B.Ortho := by
  have hab := exA_ne
  have hba := exA_ne.symm
  let u : List (AState × ℂ) := [(exA, 24 / 25), (exB, 7 / 25)]
  let S : OneSys := ⟨[exA, exB], [(0, u)]⟩
  let es : List PEntry := [((exA, exA), 24 / 25 * (24 / 25)), ((exA, exB), 24 / 25 * (7 / 25)), ((exB, exA), 7 / 25 * (24 / 25)),
    ((exB, exB), 7 / 25 * (7 / 25))]
  have hst : statesOf es = [(exA, exA), (exA, exB), (exB, exA), (exB, exB)] := by
    simp [statesOf, es, hab, hba]
  have w1 : weightP es (exA, exA) = (576 / 625) ^ 2 := by
    simp [weightP, es, hab, hba, Complex.normSq_ofNat]; norm_num
  have w2 : weightP es (exA, exB) = 576 / 625 * (49 / 625) := by
    simp [weightP, es, hab, hba, Complex.normSq_ofNat]; norm_num
  have w3 : weightP es (exB, exA) = 576 / 625 * (49 / 625) := by
    simp [weightP, es, hab, hba, Complex.normSq_ofNat]; norm_num
  have w4 : weightP es (exB, exB) = (49 / 625) ^ 2 := by
    simp [weightP, es, hab, hba, Complex.normSq_ofNat]; norm_num
  have k1 : coefP es (exA, exA) = 576 / 625 := by simp [coefP, es, hab, hba]; norm_num
  have k2 : coefP es (exA, exB) = 168 / 625 := by simp [coefP, es, hab, hba]; norm_num
  have k3 : coefP es (exB, exA) = 168 / 625 := by simp [coefP, es, hab, hba]; norm_num
  have k4 : coefP es (exB, exB) = 49 / 625 := by simp [coefP, es, hab, hba]; norm_num
  have hkept : (statesOf es).filter (fun p => decide ((0.05 : ℝ) < weightP es p)) = [(exA, exA), (exA, exB), (exB, exA)] := by
    have d1 : (0.05 : ℝ) < weightP es (exA, exA) := by rw [w1]; norm_num
    have d2 : (0.05 : ℝ) < weightP es (exA, exB) := by rw [w2]; norm_num
    have d3 : (0.05 : ℝ) < weightP es (exB, exA) := by rw [w3]; norm_num
    have d4 : ¬ (0.05 : ℝ) < weightP es (exB, exB) := by rw [w4]; norm_num
    rw [hst, List.filter_cons_of_pos (by simpa using d1), List.filter_cons_of_pos (by simpa using d2),
      List.filter_cons_of_pos (by simpa using d3), List.filter_cons_of_neg (by simpa using d4), List.filter_nil]
  let B : PairBasis := ⟨[(exA, exA), (exA, exB), (exB, exA)],
    [(0 + 0, fun p => if p ∈ [(exA, exA), (exA, exB), (exB, exA)] then coefP es p else 0)]⟩
  have hprune : prunePairs 0.05 [(0 + 0, es)] = B := by
    unfold prunePairs
    dsimp only
    rw [show [((0 : ℝ) + 0, es)].flatMap (·.2) = es by simp, hkept]
    have hn : (0.05 : ℝ) < ((statesOf es).map fun p => Complex.normSq (coefP es p)).sum := by
      rw [hst]
      simp only [List.map_cons, List.map_nil, List.sum_cons, List.sum_nil, k1, k2, k3, k4]
      simp [Complex.normSq_ofNat]; norm_num
    rw [List.filter_cons_of_pos (by simpa using hn)]
    rfl
  have hy : SwapOnly (permSet .odd 0.05 ("Rb", "Rb")).sym := ⟨rfl, rfl, Or.inr (by unfold permSet; simp)⟩
  have hcol : colOf (permSet .odd 0.05 ("Rb", "Rb")) S S (0, 0) = (0 + 0, es) := by
    unfold colOf
    rw [show (S.col (0, 0).1) = (0, u) from rfl]
    refine Prod.ext rfl ?_
    dsimp only
    rw [show (permSet .odd 0.05 ("Rb", "Rb")).sym.local_ (artCol u || artCol u) = (permSet .odd 0.05 ("Rb", "Rb")).sym from rfl]
    unfold pairColumn
    rw [show decide ((0 : ℕ) ≠ 0) = false by simp]
    simp only [swapOnly_body_diag _ hy, u, es, List.flatMap_cons, List.flatMap_nil, List.append_nil]
    rfl
  have hloop : pairLoop (permSet .odd 0.05 ("Rb", "Rb")) S S [(0, 0)] = .ok [(0 + 0, es)] := by
    rw [pairLoop_eq]
    · have hk : keepOf (permSet .odd 0.05 ("Rb", "Rb")) S S (0, 0) = true := by
        simp [keepOf, permSet, PairSym.local_, PairSym.skips, PairSet.energyOk, artCol, OneSys.col, S, u, exA, exB, AState.isArt]
      rw [List.filter_cons_of_pos hk, List.filter_nil, List.map_cons, List.map_nil, hcol]
    · intro ab hab; simp only [List.mem_singleton] at hab; subst hab; exact ⟨by simp [S], by simp [S]⟩
    · intro ab hab _ _ _; simp only [List.mem_singleton] at hab; subst hab
      simp [nanJ, OneSys.col, S, u, exA, exB, AState.j]
  refine ⟨S, B, by simp [S, hab], rfl, ?_, ?_, ?_⟩
  · have hset : S.states.toFinset = {exA, exB} := by simp [S]
    rw [hset, Finset.sum_pair hab]
    simp [coef1, OneSys.col, S, u, hab, hba, Complex.conj_ofNat]; norm_num
  · unfold pairBuild
    rw [show (permSet .odd 0.05 ("Rb", "Rb")).usedPairs S S = [(0, 0)] from rfl, hloop]
    dsimp only
    rw [show [((0 : ℝ) + 0, es)].flatMap (·.2) = es by simp, hst]
    rw [if_neg (by simp [S, permSet]), if_neg (by simp [permSet])]
    rw [show pairUsers (permSet .odd 0.05 ("Rb", "Rb")) (fun _ _ => false) (fun _ => 0) (permSet .odd 0.05 ("Rb", "Rb")).toAdd = .ok [] from rfl]
    dsimp only
    rw [List.append_nil, show [((0 : ℝ) + 0, es)].flatMap (·.2) = es by simp, hst, if_neg (by simp [S, permSet]),
      show (permSet .odd 0.05 ("Rb", "Rb")).thr = 0.05 from rfl, hprune, if_neg (by simp [B])]
  · intro h
    have := h 0 0 _ _ rfl rfl
    rw [if_pos rfl] at this
    simp [B, hab, hba, k1, k2, k3, Complex.conj_ofNat] at this
    norm_num at this

/-- With a reflection symmetry every basis vector is the projection (1 ± R)/2 of the vector built without it: the code's
shortcut for vectors that are already symmetric only avoids double entries. -/
theorem body_projection (y : PairSym) (d : Bool) (p : AState × AState) (v : ℂ) (hr : y.refl ≠ .na) (q : AState × AState) :
    coefP (pairBody y d p v) q =
      (coefP (pairBody { y with refl := .na } d p v) q +
        (y.reflS q : ℂ) * coefP (pairBody { y with refl := .na } d p v) (reflP q)) / 2 := by
  set y0 : PairSym := { y with refl := .na } with hy0
  have hR : ((y.reflS p : ℂ)) * (y.reflS p : ℂ) = 1 := by exact_mod_cast reflS_sq y p
  have hS : ((y.swapS p : ℂ)) * (y.swapS p : ℂ) = 1 := by exact_mod_cast swapS_sq y p
  have swap0 : y0.swapS p = y.swapS p := rfl
  have d0 : y0.drops d p ↔ (y.rotExcludes (totalM p) = true ∨ (d = true ∧ y.inv ≠ .na ∧ y.perm ≠ .na ∧ y.invS p ≠ y.permS)) := by
    unfold PairSym.drops
    have e1 : y0.rotExcludes (totalM p) = y.rotExcludes (totalM p) := rfl
    have e2 : y0.invS p = y.invS p := rfl
    have e3 : y0.permS = y.permS := rfl
    rw [e1, e2, e3]
    simp [hy0]
  by_cases h0 : y0.drops d p
  · have h1 : y.drops d p := by
      rw [d0] at h0
      rcases h0 with h | h
      · exact Or.inl h
      · exact Or.inr (Or.inl h)
    unfold pairBody
    rw [if_pos h0, if_pos h1]
    simp [coefP_nil]
  have q1 : (p = reflP q) ↔ (reflP p = q) := reflP_eq p q
  have q2 : (swapP p = reflP q) ↔ (swapP (reflP p) = q) := by rw [reflP_eq, swapP_reflP]
  have h22 : (Real.sqrt 2 : ℂ) * (Real.sqrt 2 : ℂ) = 2 := by
    rw [← Complex.ofReal_mul, Real.mul_self_sqrt (by norm_num)]; norm_num
  have mv : ∀ a (x : ℂ), y.reflS a = y.reflS p →
      (y.reflS q : ℂ) * (if a = q then x else 0) = if a = q then (y.reflS p : ℂ) * x else 0 := by
    intro a x h
    by_cases ha : a = q
    · rw [if_pos ha, if_pos ha, ← ha, h]
    · rw [if_neg ha, if_neg ha, mul_zero]
  have rs : ∀ a, a = q → (y.reflS a = y.reflS p) → y.reflS q = y.reflS p := fun a h h2 => h ▸ h2
  by_cases hy : d = true ∧ (y.inv ≠ .na ∨ y.perm ≠ .na)
  · obtain ⟨rfl, hy⟩ := hy
    have b0 : pairBody y0 true p v = [(p, v / (Real.sqrt 2 : ℂ)), (swapP p, v / (Real.sqrt 2 : ℂ) * (y.swapS p : ℂ))] := by
      rw [pairBody_true y0 p v hy h0, if_neg (fun h => h.1 rfl), List.append_nil]
      unfold PairSym.scale
      rw [if_neg (fun h => h.1 rfl), if_pos ⟨hy, rfl⟩]; rfl
    rw [b0]
    have hs1 : y.skipRefl true p → y.scale true p v = v / (Real.sqrt 2 : ℂ) := by
      intro hsk
      unfold PairSym.scale
      rw [if_neg (fun h => h.2 hsk), if_pos ⟨hy, rfl⟩]
    have hs2 : ¬ y.skipRefl true p → y.scale true p v = v / (Real.sqrt 2 : ℂ) / 2 := by
      intro hsk
      unfold PairSym.scale
      rw [if_pos ⟨hr, hsk⟩, if_pos ⟨hy, rfl⟩, h22]
    generalize v / (Real.sqrt 2 : ℂ) = w at *
    by_cases hsk : y.skipRefl true p
    · have hrs := hsk.2.2.2
      have q1' : (p = reflP q) ↔ (swapP p = q) := by rw [q1, hrs]
      have q2' : (swapP p = reflP q) ↔ (p = q) := by rw [q2, hrs]; rfl
      by_cases hd : y.drops true p
      · -- the two symmetries contradict each other
        have hne : y.swapS p ≠ y.reflS p := by
          unfold PairSym.swapS
          rcases hd with h | h | h | h
          · exact absurd (d0.2 (Or.inl h)) h0
          · exact absurd (d0.2 (Or.inr h)) h0
          · rw [if_pos h.2.1]; exact h.2.2.2.2
          · have : ¬ y.inv ≠ .na := fun hi => h.2.1 ⟨hi, hsk.2.2.1, hrs⟩
            rw [if_neg this]; exact h.2.2.2.2.2
        have hneg : (y.swapS p : ℂ) = - (y.reflS p : ℂ) := by
          have h1 := swapS_sq y p
          have h2 := reflS_sq y p
          have : y.swapS p = - y.reflS p := by
            have c1 := Int.eq_one_or_neg_one_of_mul_eq_one h1
            have c2 := Int.eq_one_or_neg_one_of_mul_eq_one h2
            omega
          exact_mod_cast this
        have hz : pairBody y true p v = [] := by unfold pairBody; rw [if_pos hd]
        rw [hz]
        simp only [coefP_cons, coefP_nil, q1', q2', add_zero, hneg]
        by_cases ha : p = q
        · have := rs p ha rfl
          rw [this, if_pos ha, if_pos ha]
          by_cases hb : swapP p = q
          · rw [if_pos hb, if_pos hb]; linear_combination (-w / 2) * hR * (-1)
          · rw [if_neg hb, if_neg hb]; linear_combination (-w / 2) * hR * (-1)
        · by_cases hb : swapP p = q
          · have := rs (swapP p) hb (reflS_swapP y p)
            rw [this, if_neg ha, if_neg ha, if_pos hb, if_pos hb]; ring
          · rw [if_neg ha, if_neg ha, if_neg hb, if_neg hb]; ring
      · rw [pairBody_true y p v hy hd, if_neg (fun h => h.2 hsk), List.append_nil]
        rw [hs1 hsk, not_drops_skip hd hsk]
        simp only [coefP_cons, coefP_nil, q1', q2', add_zero]
        by_cases ha : p = q
        · have := rs p ha rfl
          rw [this, if_pos ha, if_pos ha]
          by_cases hb : swapP p = q
          · rw [if_pos hb, if_pos hb]; linear_combination (-w / 2) * hR
          · rw [if_neg hb, if_neg hb]; linear_combination (-w / 2) * hR
        · by_cases hb : swapP p = q
          · have := rs (swapP p) hb (reflS_swapP y p)
            rw [this, if_neg ha, if_neg ha, if_pos hb, if_pos hb]; ring
          · rw [if_neg ha, if_neg ha, if_neg hb, if_neg hb]; ring
    · have hd : ¬ y.drops true p := by
        rintro (h | h | h | h)
        · exact h0 (d0.2 (Or.inl h))
        · exact h0 (d0.2 (Or.inr h))
        · exact hsk ⟨rfl, Or.inl h.2.1, h.2.2.1, h.2.2.2.1⟩
        · exact hsk ⟨rfl, Or.inr h.2.2.1, h.2.2.2.1, h.2.2.2.2.1⟩
      rw [pairBody_true y p v hy hd, if_pos ⟨hr, hsk⟩, hs2 hsk]
      simp only [List.cons_append, List.nil_append, coefP_cons, coefP_nil, q1, q2, add_zero, mul_add]
      rw [mv _ _ (reflS_reflP y p), mv (swapP (reflP p)) _ (by rw [reflS_swapP, reflS_reflP])]
      split_ifs <;> ring
  · have hd : ¬ y.drops d p := by
      rintro (h | h | h | h)
      · exact h0 (d0.2 (Or.inl h))
      · exact h0 (d0.2 (Or.inr h))
      · exact hy ⟨h.1, Or.inl h.2.1⟩
      · exact hy ⟨h.1, Or.inr h.2.2.1⟩
    have hsk : ¬ y.skipRefl d p := fun h => hy ⟨h.1, h.2.1⟩
    have s0 : y0.scale d p v = v := by
      unfold PairSym.scale
      rw [if_neg (fun h => h.1 rfl), if_neg (fun h => hy ⟨h.2, h.1⟩)]
    have s1 : y.scale d p v = v / 2 := by
      unfold PairSym.scale
      rw [if_pos ⟨hr, hsk⟩, if_neg (fun h => hy ⟨h.2, h.1⟩), h22]
    rw [pairBody_plain y d p v hy hd, pairBody_plain y0 d p v hy h0, if_pos hr, if_neg (fun h => h rfl), s0, s1]
    simp only [List.cons_append, List.nil_append, coefP_cons, coefP_nil, q1, add_zero]
    rw [mv _ _ (reflS_reflP y p)]
    split_ifs <;> ring

theorem flatMap_projection {α : Type} (L : List α) (f g : α → List PEntry) (c : AState × AState → ℂ) (q : AState × AState)
    (h : ∀ a ∈ L, coefP (f a) q = (coefP (g a) q + c q * coefP (g a) (reflP q)) / 2) :
    coefP (L.flatMap f) q = (coefP (L.flatMap g) q + c q * coefP (L.flatMap g) (reflP q)) / 2 := by
  induction L with
  | nil => simp [coefP_nil]
  | cons a L ih =>
    rw [List.flatMap_cons, List.flatMap_cons, coefP_append, coefP_append, coefP_append, h a List.mem_cons_self,
      ih (fun b hb => h b (List.mem_cons_of_mem _ hb))]
    ring

/-- **C74** (reflection, what is stored): whatever the one-atom vectors are, the pair vector built with a reflection
symmetry is the projection (1 ± R)/2 of the pair vector built with the same other symmetries and without reflection, where
(R psi)(s, t) = (-1)^(l1 + l2 + j1 + j2 + m1 + m2) psi(s reflected, t reflected).  The projection is not normalised
again. -/
theorem C74_reflection_projection (y : PairSym) (different : Bool) (u w : List (AState × ℂ)) (hr : y.refl ≠ .na) (s t : AState)
    (hm : (s.m + t.m) % 2 = 0) :
    coefP (pairColumn y different u w) (s, t) =
      (coefP (pairColumn { y with refl := .na } different u w) (s, t) +
        (if y.refl = .even then 1 else -1) * (signC (s.l + t.l) * signC ((s.j + t.j) / 2) * signC ((s.m + t.m) / 2)) *
          coefP (pairColumn { y with refl := .na } different u w) (s.refl, t.refl)) / 2 := by
  have hM : totalM (s, t) = (s.m + t.m) / 2 := by
    unfold totalM
    rw [Int.tdiv_eq_ediv_of_dvd (Int.dvd_of_emod_eq_zero hm)]
  have hsg : ∀ k, ((sgnZ k : ℤ) : ℂ) = signC k := by
    intro k; rw [signC_eq]
  have hc : ((y.reflS (s, t) : ℤ) : ℂ) =
      (if y.refl = .even then 1 else -1) * (signC (s.l + t.l) * signC ((s.j + t.j) / 2) * signC ((s.m + t.m) / 2)) := by
    unfold PairSym.reflS parLJM parL
    rw [hM]
    split <;> push_cast <;> simp only [hsg] <;> ring
  rw [← hc]
  unfold pairColumn
  exact flatMap_projection u _ _ (fun q => (y.reflS q : ℂ)) (s, t) fun e1 _ =>
    flatMap_projection w _ _ (fun q => (y.reflS q : ℂ)) (s, t) fun e2 _ => body_projection y different _ _ hr (s, t)

/-- The settings: one reflection parity, nothing else. -/
def reflSet (p : Par) (thr : ℝ) (sp : String × String) : PairSet := ⟨⟨.na, .na, p, none⟩, none, none, [], [], thr, sp⟩

/-- The unmixed system. -/
noncomputable def exPure : OneSys := ⟨[exA, exB], [(0, [(exA, 1)]), (1, [(exB, 1)])]⟩

theorem exPure_unitary : UnitarySys exPure := by
  have hab := exA_ne
  have hba := exA_ne.symm
  have hset : exPure.states.toFinset = {exA, exB} := by unfold exPure; simp
  have c0 : ∀ s, coef1 (exPure.col 0).2 s = (if exA = s then 1 else 0) := by
    intro s; simp [coef1, OneSys.col, exPure]
  have c1 : ∀ s, coef1 (exPure.col 1).2 s = (if exB = s then 1 else 0) := by
    intro s; simp [coef1, OneSys.col, exPure]
  have hlen : exPure.cols.length = 2 := rfl
  refine ⟨?_, ?_, ?_, ?_⟩
  · unfold exPure; simp [hab]
  · intro u hu
    unfold exPure at hu ⊢
    simp only [List.mem_cons, List.not_mem_nil, or_false] at hu
    rcases hu with rfl | rfl <;> simp
  · intro a ha b hb
    rw [hlen] at ha hb
    rw [hset, Finset.sum_pair hab]
    interval_cases a <;> interval_cases b <;> simp [c0, c1, hab, hba]
  · intro s hs t ht
    rw [hlen, Finset.sum_range_succ, Finset.sum_range_one]
    have hs' : s = exA ∨ s = exB := by unfold exPure at hs; simpa using hs
    have ht' : t = exA ∨ t = exB := by unfold exPure at ht; simpa using ht
    rcases hs' with rfl | rfl <;> rcases ht' with rfl | rfl <;> simp [c0, c1, hab, hba]

/-- The columns built for the unmixed system with even reflection parity. -/
noncomputable def exRefl : List (ℝ × List PEntry) :=
  [(0 + 0, [((exA, exA), 1 / 2), ((exB, exB), 1 / 2)]), (0 + 1, [((exA, exB), 1 / 2), ((exB, exA), -(1 / 2))]),
   (1 + 0, [((exB, exA), 1 / 2), ((exA, exB), -(1 / 2))]), (1 + 1, [((exB, exB), 1 / 2), ((exA, exA), 1 / 2)])]

theorem exRefl_build (thr : ℝ) (sp : String × String) (h0 : 0 ≤ thr) (h1 : thr < 1 / 4) :
    ∃ B, pairBuild (reflSet .even thr sp) (fun _ _ => false) (fun _ => 0) exPure exPure = .ok B ∧
      B.states = [(exA, exA), (exB, exB), (exA, exB), (exB, exA)] ∧
      B.cols = exRefl.map fun c => (c.1, fun p => if p ∈ [(exA, exA), (exB, exB), (exA, exB), (exB, exA)] then coefP c.2 p else 0) := by
  have hab := exA_ne
  have hba := exA_ne.symm
  have hs2 : (Real.sqrt 2 : ℂ) * (Real.sqrt 2 : ℂ) = 2 := by
    rw [← Complex.ofReal_mul, Real.mul_self_sqrt (by norm_num)]; norm_num
  have body : ∀ (d : Bool) (p : AState × AState) (v : ℂ), pairBody (reflSet .even thr sp).sym d p v =
      [(p, v / 2), (reflP p, v / 2 * (parLJM p : ℂ))] := by
    intro d p v
    rw [pairBody_plain _ d p v (by simp [reflSet]) (by simp [PairSym.drops, PairSym.rotExcludes, reflSet])]
    have : (reflSet .even thr sp).sym.scale d p v = v / 2 := by
      unfold PairSym.scale
      simp only [hs2]
      simp [reflSet, PairSym.skipRefl]
    rw [this, if_pos (by simp [reflSet])]
    simp [PairSym.reflS, reflSet]
  have hloop : pairLoop (reflSet .even thr sp) exPure exPure [(0, 0), (0, 1), (1, 0), (1, 1)] = .ok exRefl := by
    rw [pairLoop_eq]
    · have k : ∀ ab ∈ [(0, 0), (0, 1), (1, 0), (1, 1)], keepOf (reflSet .even thr sp) exPure exPure ab = true := by
        intro ab hab'
        simp only [List.mem_cons, List.not_mem_nil, or_false] at hab'
        rcases hab' with rfl | rfl | rfl | rfl <;>
          simp [keepOf, reflSet, PairSym.local_, PairSym.skips, PairSet.energyOk, artCol, OneSys.col, exPure, exA, exB, AState.isArt]
      rw [List.filter_eq_self.2 k]
      have A : artCol (exPure.col 0).2 = false := rfl
      have A' : artCol (exPure.col 1).2 = false := rfl
      have y0 : (reflSet .even thr sp).sym.local_ (false || false) = (reflSet .even thr sp).sym := rfl
      have r1 : reflP (exA, exA) = (exB, exB) := rfl
      have r2 : reflP (exA, exB) = (exB, exA) := rfl
      have r3 : reflP (exB, exA) = (exA, exB) := rfl
      have r4 : reflP (exB, exB) = (exA, exA) := rfl
      have p1 : parLJM (exA, exA) = 1 := by decide
      have p2 : parLJM (exA, exB) = -1 := by decide
      have p3 : parLJM (exB, exA) = -1 := by decide
      have p4 : parLJM (exB, exB) = 1 := by decide
      unfold exRefl
      simp only [List.map_cons, List.map_nil, colOf, A, A', y0, pairColumn, body]
      simp [OneSys.col, exPure, r1, r2, r3, r4, p1, p2, p3, p4]
    · intro ab hab'
      simp only [List.mem_cons, List.not_mem_nil, or_false] at hab'
      rcases hab' with rfl | rfl | rfl | rfl <;> simp [exPure]
    · intro ab hab' _ _ _
      simp only [List.mem_cons, List.not_mem_nil, or_false] at hab'
      rcases hab' with rfl | rfl | rfl | rfl <;> simp [nanJ, OneSys.col, exPure, exA, exB, AState.j]
  have hst : statesOf (exRefl.flatMap (·.2)) = [(exA, exA), (exB, exB), (exA, exB), (exB, exA)] := by
    simp [statesOf, exRefl, hab, hba]
  have hpr : prunePairs thr exRefl = ⟨[(exA, exA), (exB, exB), (exA, exB), (exB, exA)],
      exRefl.map fun c => (c.1, fun p => if p ∈ [(exA, exA), (exB, exB), (exA, exB), (exB, exA)] then coefP c.2 p else 0)⟩ := by
    unfold prunePairs
    dsimp only
    have hw : ∀ p ∈ [(exA, exA), (exB, exB), (exA, exB), (exB, exA)], decide (thr < weightP (exRefl.flatMap (·.2)) p) = true := by
      intro p hp
      rw [decide_eq_true_eq]
      simp only [List.mem_cons, List.not_mem_nil, or_false] at hp
      rcases hp with rfl | rfl | rfl | rfl <;> simp [weightP, exRefl, hab, hba, Complex.normSq_ofNat] <;> linarith
    have hn : ∀ c ∈ exRefl, decide (thr < ((statesOf (exRefl.flatMap (·.2))).map fun p => Complex.normSq (coefP c.2 p)).sum) = true := by
      intro c hc
      rw [decide_eq_true_eq, hst]
      simp only [exRefl, List.mem_cons, List.not_mem_nil, or_false] at hc
      rcases hc with rfl | rfl | rfl | rfl <;> simp [coefP, hab, hba, Complex.normSq_ofNat] <;> linarith
    rw [List.filter_eq_self.2 hn, hst, List.filter_eq_self.2 hw]
  refine ⟨prunePairs thr exRefl, ?_, by rw [hpr], by rw [hpr]⟩
  unfold pairBuild
  rw [show (reflSet .even thr sp).usedPairs exPure exPure = [(0, 0), (0, 1), (1, 0), (1, 1)] from rfl, hloop]
  dsimp only
  rw [hst, if_neg (by simp [exPure, reflSet]), if_neg (by simp [reflSet])]
  rw [show pairUsers (reflSet .even thr sp) (fun _ _ => false) (fun _ => 0) (reflSet .even thr sp).toAdd = .ok [] from rfl]
  dsimp only
  rw [List.append_nil, hst, if_neg (by simp [exPure, reflSet]), show (reflSet .even thr sp).thr = thr from rfl,
    if_neg (by rw [hpr]; simp [exRefl])]

/-- Reflection symmetric pair bases are only usable if the one-atom vectors are already reflection symmetric (the source has
a to-do note): for two unmixed Zeeman states the even pair basis has four vectors of squared norm 1/2, the first and the
last of which are equal. -/
theorem C74_reflection_basis_fails :
    UnitarySys exPure ∧ ∃ B, pairBuild (reflSet .even 0.05 ("Rb", "Rb")) (fun _ _ => false) (fun _ => 0) exPure exPure = .ok B ∧
      B.cols.length = 4 ∧ ¬ B.Ortho ∧ ∃ c d, B.cols[0]? = some c ∧ B.cols[3]? = some d ∧ ∀ p, c.2 p = d.2 p := by
  have hab := exA_ne
  have hba := exA_ne.symm
  obtain ⟨B, hB, hs, hc⟩ := exRefl_build 0.05 ("Rb", "Rb") (by norm_num) (by norm_num)
  refine ⟨exPure_unitary, B, hB, by rw [hc]; rfl, ?_, ?_⟩
  · intro h
    have h2 := h 0 0 _ _ (by rw [hc]; rfl) (by rw [hc]; rfl)
    rw [if_pos rfl, hs] at h2
    simp [coefP, hab, hba, Complex.conj_ofNat] at h2
    norm_num at h2
  · refine ⟨_, _, by rw [hc]; rfl, by rw [hc]; rfl, ?_⟩
    intro p
    dsimp only
    rw [coefP_cons, coefP_cons, coefP_cons, coefP_cons, coefP_nil]
    ring_nf

-- non-vacuity of C74_reflection and C74_rotation
example : ∃ B, pairBuild (reflSet .even 0.05 ("Rb", "Rb")) (fun _ _ => false) (fun _ => 0) exPure exPure = .ok B ∧
    ∀ c ∈ B.cols, c.2 (exA.refl, exB.refl) = 1 * (1 * -1 * 1) * c.2 (exA, exB) := by
  obtain ⟨B, hB, hs, hc⟩ := exRefl_build 0.05 ("Rb", "Rb") (by norm_num) (by norm_num)
  refine ⟨B, hB, fun c hcB => ?_⟩
  have na : NoArt exPure := by
    intro u hu e he; unfold exPure at hu; simp only [List.mem_cons, List.not_mem_nil, or_false] at hu
    rcases hu with rfl | rfl <;> simp only [List.mem_cons, List.not_mem_nil, or_false] at he <;> subst he <;> rfl
  have := C74_reflection (reflSet .even 0.05 ("Rb", "Rb")) _ _ exPure exPure B (by unfold reflSet; norm_num) na na rfl
    (by simp [reflSet]) hB c hcB exA exB (by decide)
  rw [this, if_pos (show (reflSet .even 0.05 ("Rb", "Rb")).sym.refl = .even from rfl)]
  simp [signC, exA, exB, AState.l, AState.j, AState.m]

-- non-vacuity of C74_rotation: total m = 1 selects one of the four pair vectors
example : ∃ B, pairBuild ⟨⟨.na, .na, .na, some {1}⟩, none, none, [], [], 0.05, ("Rb", "Rb")⟩ (fun _ _ => false) (fun _ => 0) exPure exPure =
    .ok B ∧ (exA, exA) ∈ B.states ∧ ∀ s t, (s, t) ∈ B.states → (s.m + t.m) % 2 = 0 → (s.m + t.m) / 2 ∈ ({1} : Finset ℤ) := by
  have hab := exA_ne
  have hba := exA_ne.symm
  have na : NoArt exPure := by
    intro u hu e he; unfold exPure at hu; simp only [List.mem_cons, List.not_mem_nil, or_false] at hu
    rcases hu with rfl | rfl <;> simp only [List.mem_cons, List.not_mem_nil, or_false] at he <;> subst he <;> rfl
  obtain ⟨P, hP⟩ : ∃ P : PairSet, P = ⟨⟨.na, .na, .na, some {1}⟩, none, none, [], [], 0.05, ("Rb", "Rb")⟩ := ⟨_, rfl⟩
  rw [← hP]
  have body : ∀ (d : Bool) (p : AState × AState) (v : ℂ), pairBody P.sym d p v = if totalM p = 1 then [(p, v)] else [] := by
    intro d p v
    by_cases h : totalM p = 1
    · rw [if_pos h, pairBody_plain _ d p v (by simp [hP]) (by simp [PairSym.drops, PairSym.rotExcludes, hP, h])]
      simp [PairSym.scale, hP]
    · rw [if_neg h]; unfold pairBody; rw [if_pos]; left; simp [PairSym.rotExcludes, hP, h]
  have hloop : pairLoop P exPure exPure [(0, 0), (0, 1), (1, 0), (1, 1)] = .ok [(0 + 0, [((exA, exA), 1)]), (0 + 1, []), (1 + 0, []), (1 + 1, [])] := by
    rw [pairLoop_eq]
    · have k : ∀ ab ∈ [(0, 0), (0, 1), (1, 0), (1, 1)], keepOf P exPure exPure ab = true := by
        intro ab hab'
        simp only [List.mem_cons, List.not_mem_nil, or_false] at hab'
        rcases hab' with rfl | rfl | rfl | rfl <;>
          simp [keepOf, hP, PairSym.local_, PairSym.skips, PairSet.energyOk, artCol, OneSys.col, exPure, exA, exB, AState.isArt]
      rw [List.filter_eq_self.2 k]
      have A : artCol (exPure.col 0).2 = false := rfl
      have A' : artCol (exPure.col 1).2 = false := rfl
      have y0 : P.sym.local_ (false || false) = P.sym := rfl
      have p1 : totalM (exA, exA) = 1 := by decide
      have p2 : totalM (exA, exB) = 0 := by decide
      have p3 : totalM (exB, exA) = 0 := by decide
      have p4 : totalM (exB, exB) = -1 := by decide
      simp only [List.map_cons, List.map_nil, colOf, A, A', y0, pairColumn, body]
      simp [OneSys.col, exPure, p1, p2, p3, p4]
    · intro ab hab'
      simp only [List.mem_cons, List.not_mem_nil, or_false] at hab'
      rcases hab' with rfl | rfl | rfl | rfl <;> simp [exPure]
    · intro ab hab' _ _ _
      simp only [List.mem_cons, List.not_mem_nil, or_false] at hab'
      rcases hab' with rfl | rfl | rfl | rfl <;> simp [nanJ, OneSys.col, exPure, exA, exB, AState.j]
  have hfm : ([(0 + 0, [((exA, exA), 1)]), (0 + 1, []), (1 + 0, []), (1 + 1, [])] : List (ℝ × List PEntry)).flatMap (·.2) = [((exA, exA), 1)] := rfl
  have hst : statesOf [((exA, exA), 1)] = [(exA, exA)] := by simp [statesOf]
  have ht : P.thr = 0.05 := by rw [hP]
  have hw : decide (P.thr < weightP [((exA, exA), 1)] (exA, exA)) = true := by
    rw [decide_eq_true_eq, ht]; simp [weightP]; norm_num
  have hB : ∃ B, pairBuild P (fun _ _ => false) (fun _ => 0) exPure exPure = .ok B ∧ B.states = [(exA, exA)] := by
    have hs : (prunePairs P.thr [(0 + 0, [((exA, exA), 1)]), (0 + 1, []), (1 + 0, []), (1 + 1, [])]).states = [(exA, exA)] := by
      unfold prunePairs
      dsimp only
      rw [hfm, hst]
      exact List.filter_eq_self.2 (by intro a ha; rw [List.mem_singleton] at ha; subst ha; exact hw)
    have hc : (prunePairs P.thr [(0 + 0, [((exA, exA), 1)]), (0 + 1, []), (1 + 0, []), (1 + 1, [])]).cols ≠ [] := by
      unfold prunePairs
      dsimp only
      rw [hfm, hst]
      intro h
      rw [List.map_eq_nil_iff, List.filter_eq_nil_iff] at h
      apply h _ List.mem_cons_self
      rw [decide_eq_true_eq, ht]
      simp [coefP]; norm_num
    refine ⟨_, ?_, hs⟩
    unfold pairBuild
    rw [show P.usedPairs exPure exPure = [(0, 0), (0, 1), (1, 0), (1, 1)] by rw [hP]; rfl, hloop]
    have hadd : P.toAdd = [] := by rw [hP]
    dsimp only
    rw [hadd, hfm, hst, if_neg (by simp [exPure]), if_neg (by simp)]
    rw [show pairUsers P (fun _ _ => false) (fun _ => 0) [] = .ok [] from rfl]
    dsimp only
    rw [List.append_nil, hfm, hst, if_neg (by simp [exPure]), if_neg (by rw [hs]; simpa using hc)]
  obtain ⟨B, hB, hs⟩ := hB
  refine ⟨B, hB, by rw [hs]; simp, fun s t hst hm => ?_⟩
  exact C74_rotation P _ _ exPure exPure B na na (by rw [hP]; simp) {1} (by rw [hP]) (by rw [hP]; simp) hB s t hst hm

end PI
