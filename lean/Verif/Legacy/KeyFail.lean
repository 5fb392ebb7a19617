import Verif.Legacy.KeyEx

/-! # C102, the violation: `sametrafo` is not part of the key -/

namespace PI

/-- An s and a p state. -/
def mixState (r : Fin 2) : Old1 := if r = 0 then ⟨60, 0, 1, 1⟩ else ⟨60, 1, 1, 1⟩

/-- A normalised vector that mixes both. -/
noncomputable def mixVec {n : ℕ} (r : Fin n) : ℂ := if (r : ℕ) = 0 then 3 / 5 else 4 / 5

/-- One vector, energy 0. -/
noncomputable abbrev mixOne (n : ℕ) : OldOne n := ⟨1, fun r _ => mixVec r, fun _ => 0⟩

/-- Both parities odd. -/
def mixSym : OldSym := ⟨some .odd, some .odd, none, none⟩

/-- The settings: both parities odd, with or without `sametrafo`. -/
def mixSyms (b : Bool) : OldSymConf := ⟨(false, true), (false, true), (false, false), false, b, false⟩

/-- Matrix elements that are all 1. -/
def mixCells : Cells := fun _ => some (some 1)

open Classical in
theorem combine_single {n : ℕ} (s : Fin n → Old1) (b : Matrix (Fin n) (Fin 1) ℂ) (d : Fin 1 → ℝ) (deltaE : ℝ) :
    oldCombine mixSym s s ⟨1, b, d⟩ ⟨1, b, d⟩ deltaE = oldCombine ⟨none, none, none, none⟩ s s ⟨1, b, d⟩ ⟨1, b, d⟩ deltaE := by
  have hcell : ∀ (x : Old1 × Old1) (mp mp' : ℕ → Option ℕ) (p : Fin 1 × Fin 1) (row rowS : ℕ) (v : ℂ), combineCell mixSym x mp ((p.1 : ℕ) ≠ p.2) row rowS v =
      combineCell ⟨none, none, none, none⟩ x mp' ((p.1 : ℕ) ≠ p.2) row rowS v := by
    intro x mp mp' p row rowS v
    rw [combineCell_plain _ rfl, combineCell_plain _ rfl]
    unfold plainCell
    have : p.1 = p.2 := Subsingleton.elim _ _
    simp [mixSym, this]
  have ht : ∀ (mp mp' : ℕ → Option ℕ) (p : Fin 1 × Fin 1), combineTriplets mixSym s s mp ⟨1, b, d⟩ ⟨1, b, d⟩ p = combineTriplets ⟨none, none, none, none⟩ s s mp' ⟨1, b, d⟩ ⟨1, b, d⟩ p := by
    intro mp mp' p
    unfold combineTriplets
    congr 1
    funext r
    exact hcell _ _ _ _ _ _ _
  have hsk : ∀ p : Fin 1 × Fin 1, mixSym.skips p.1 p.2 ↔ OldSym.skips ⟨none, none, none, none⟩ p.1 p.2 := by
    intro p
    have : (p.1 : ℕ) = p.2 := by omega
    unfold OldSym.skips
    simp [mixSym, this]
  unfold oldCombine
  dsimp only
  have e1 : (fun p : Fin 1 × Fin 1 => (d p.1 + d p.2, combineTriplets mixSym s s (oldMapping mixSym (number 0 (List.ofFn (pairState s s)))) ⟨1, b, d⟩ ⟨1, b, d⟩ p)) =
      fun p : Fin 1 × Fin 1 => (d p.1 + d p.2, combineTriplets ⟨none, none, none, none⟩ s s (oldMapping ⟨none, none, none, none⟩ (number 0 (List.ofFn (pairState s s)))) ⟨1, b, d⟩ ⟨1, b, d⟩ p) := by
    funext p
    rw [ht]
  rw [e1]
  simp only [hsk]

theorem mixVec_ne {n : ℕ} (r : Fin n) : mixVec r ≠ 0 := by
  unfold mixVec
  split_ifs <;> norm_num

/-- The column: the product of the vectors. -/
noncomputable def mixCol (i : Fin (2 * 2)) : ℂ := mixVec (finProdFinEquiv.symm i).1 * mixVec (finProdFinEquiv.symm i).2

open Classical in
theorem mix_combine : oldCombine mixSym mixState mixState (mixOne 2) (mixOne 2) 0 = .ok [(0, mixCol)] := by
  refine (combine_single mixState (fun r _ => mixVec r) (fun _ => 0) 0).trans ?_
  rw [combine_two none mixState mixState _ _ 0 (fun _ => 0) (fun _ => 0) (by intro; simp_all) (by intro; simp_all) (fun _ => ⟨(0 : Fin 2), mixVec_ne (0 : Fin 2)⟩) (fun _ => ⟨(0 : Fin 2), mixVec_ne (0 : Fin 2)⟩)]
  have : pairsTwo none (mixOne 2) (mixOne 2) 0 (fun _ => 0) (fun _ => 0) = [((0 : Fin 1), (0 : Fin 1))] := by
    unfold pairsTwo
    rw [List.filter_eq_self.2]
    · rfl
    · intro p _
      refine decide_eq_true ?_
      unfold keepsTwo inCutoff
      exact ⟨Or.inl (by norm_num), by simp⟩
  rw [this]
  simp only [List.map_cons, List.map_nil, add_zero]
  rfl

theorem mixCol_vals : mixCol 0 = 9 / 25 ∧ mixCol 1 = 12 / 25 ∧ mixCol 2 = 12 / 25 ∧ mixCol 3 = 16 / 25 := by
  refine ⟨?_, ?_, ?_, ?_⟩
  · show mixVec (0 : Fin 2) * mixVec (0 : Fin 2) = _
    norm_num [mixVec]
  · show mixVec (0 : Fin 2) * mixVec (1 : Fin 2) = _
    norm_num [mixVec]
  · show mixVec (1 : Fin 2) * mixVec (0 : Fin 2) = _
    norm_num [mixVec]
  · show mixVec (1 : Fin 2) * mixVec (1 : Fin 2) = _
    norm_num [mixVec]

theorem mixCol_ne (i : Fin (2 * 2)) : mixCol i ≠ 0 := mul_ne_zero (mixVec_ne _) (mixVec_ne _)

theorem mix_prune : oldPrune [((0 : ℝ), mixCol)] = [(0, mixCol)] := by
  unfold oldPrune
  rw [List.filter_eq_self]
  intro c hc
  rw [List.mem_singleton] at hc
  subst hc
  refine decide_eq_true ?_
  have : ∑ i, ‖mixCol i‖ ^ 2 = 1 := by
    show ∑ i : Fin 4, ‖mixCol i‖ ^ 2 = 1
    obtain ⟨e0, e1, e2, e3⟩ := mixCol_vals
    rw [Fin.sum_univ_four]
    rw [e0, e1, e2, e3]
    norm_num
  rw [this]
  norm_num

theorem mix_mem (b : Bool) (basis : List (Old1 × Old1)) : mixSym ∈ oldSymmetries (mixSyms b) (mixState 0, mixState 0) basis := by
  show mixSym ∈ oldSymmetries (mixSyms b) (mixState 0, mixState 0) []
  cases b <;> decide +kernel

/-- The necessary states: with `sametrafo` the s-p states are left out. -/
theorem mix_nec (b : Bool) (steps : List (OldOne 2 × OldOne 2)) (hst : (mixOne 2, mixOne 2) ∈ steps) (i : Fin (2 * 2)) :
    oldNecessary (mixSyms b) (oldSymmetries (mixSyms b) (mixState 0, mixState 0) (List.ofFn (pairState mixState mixState))) (mixState 0, mixState 0) (pairState mixState mixState)
      (oldCutoff steps 0) i = decide (b = true → i = 0 ∨ i = 3) := by
  have h := nec_support (mixSyms b) (mixState 0, mixState 0) mixState mixState (mixOne 2) (mixOne 2) steps hst 0 mixSym rfl (mix_mem b _)
    (fun _ p r1 r2 => exchange_common mixState (mixOne 2) steps hst 0 p r1 r2) _ mix_combine (0, mixCol) (by simp) i (mixCol_ne i)
  rw [Bool.eq_iff_iff, h, decide_eq_true_eq]
  have hp : parityL (pairState mixState mixState i) ≠ parityL (mixState 0, mixState 0) ↔ ¬ (i = 0 ∨ i = 3) := by
    clear h
    revert i
    decide +kernel
  rw [hp]
  cases b
  · simp [mixSym, mixSyms]
  · simp only [mixSym, mixSyms, ne_eq, reduceCtorEq, not_false_eq_true, true_and, and_true, not_not, forall_const]

/-- The units of the example. -/
noncomputable def mixU : Units := ⟨1, 1, 1, 1, 1, 2⟩

theorem mix_val (a b : Fin (2 * 2)) :
    oldPairVal mixU mixCells mixCells 2 (pairState mixState mixState a) (pairState mixState mixState b) = if (a : ℕ) + b = 3 then -2 else 0 := by
  have hc : ∀ x y k, oldMultipole mixCells x y k = 1 := by
    intro x y k
    simp [oldMultipole, Cells.get, mixCells]
  have hs : (oldSelMultipole (pairState mixState mixState a).1 (pairState mixState mixState b).1 1 &&
      oldSelMultipole (pairState mixState mixState a).2 (pairState mixState mixState b).2 1) = decide ((a : ℕ) + b = 3) := by
    revert a b
    decide +kernel
  have hm : ∀ a : Fin (2 * 2), (pairState mixState mixState a).1.m = 1 ∧ (pairState mixState mixState a).2.m = 1 := by decide +kernel
  have hke : mixU.ke = 1 := by unfold mixU Units.ke; norm_num
  have hsq : Real.sqrt 4 = 2 := by
    rw [show (4 : ℝ) = 2 ^ 2 by norm_num, Real.sqrt_sq (by norm_num)]
  unfold oldPairVal oldPairTerm
  simp only [Nat.reduceSub, List.range_one, List.map_cons, List.map_nil, List.sum_cons, List.sum_nil, hc]
  norm_num
  have hiff : (oldSelMultipole (pairState mixState mixState a).1 (pairState mixState mixState b).1 1 = true ∧
      oldSelMultipole (pairState mixState mixState a).2 (pairState mixState mixState b).2 1 = true) ↔ (a : ℕ) + b = 3 := by
    rw [← Bool.and_eq_true, hs, decide_eq_true_eq]
  rw [(hm a).1, (hm a).2, (hm b).1, (hm b).2, hke]
  simp only [hiff]
  have hb2 : binom 2 1 = 2 := by decide
  by_cases h : (a : ℕ) + b = 3
  · rw [if_pos h, if_pos h]
    have hsg : sgn 1 = -1 := by norm_num [sgn]
    norm_num [hb2, hsg]
  · rw [if_neg h, if_neg h]

theorem mix_mat (a b : Fin (2 * 2)) : oldPairMat mixU mixCells mixCells (fun _ => true) (pairState mixState mixState) 2 a b = if (a : ℕ) + b = 3 then -2 else 0 := by
  have hm : ∀ a : Fin (2 * 2), ((pairState mixState mixState a).1.m + (pairState mixState mixState a).2.m).tdiv 2 = 1 := by decide +kernel
  have he : ∀ a b : Fin (2 * 2), oldPairEntry mixU mixCells mixCells (fun _ => true) (pairState mixState mixState) 2 a b = if (a : ℕ) + b = 3 then -2 else 0 := by
    intro a b
    unfold oldPairEntry
    rw [if_neg (by simp), if_neg (by rw [hm, hm]; simp), mix_val]
    by_cases h : (a : ℕ) + b = 3
    · rw [if_pos h, if_pos (by norm_num)]
    · rw [if_neg h]; simp
  unfold oldPairMat
  rw [he, he, add_comm (b : ℕ)]
  by_cases h : (a : ℕ) + b = 3
  · simp [h]
  · simp [h]

open Matrix in
/-- The 1 x 1 block: without `sametrafo` the exchange of the s-p states contributes. -/
theorem mix_total (b : Bool) : oldTotalTwo mixU mixCells mixCells (fun i => decide (b = true → i = 0 ∨ i = 3)) (pairState mixState mixState) 3 1 [((0 : ℝ), mixCol)]
    (0 : Fin 1) (0 : Fin 1) = if b = true then -576 / 625 else -1152 / 625 := by
  obtain ⟨e0, e1, e2, e3⟩ := mixCol_vals
  have T : ∀ (nec : Fin (2 * 2) → Bool) (a : Fin (2 * 2)), ((necMat nec)ᴴ * colMat [((0 : ℝ), mixCol)]) a (0 : Fin 1) = if nec a = true then mixCol a else 0 := by
    intro nec a
    unfold necMat
    rw [diagonal_conjTranspose, diagonal_mul]
    by_cases h : nec a = true
    · simp [h, colMat]
    · simp [h]
  unfold oldTotalTwo
  have hs : oldSums 3 = [2] := by decide
  rw [hs]
  simp only [List.map_cons, List.map_nil, List.sum_cons, List.sum_nil, add_zero]
  have core : ∀ (V : Matrix (Fin 4) (Fin 4) ℂ) (X : Matrix (Fin 4) (Fin 1) ℂ), (Xᴴ * V * X) 0 0 = ∑ c, (∑ a, star (X a 0) * V a c) * X c 0 := by
    intro V X
    rw [mul_apply]
    refine Finset.sum_congr rfl fun c _ => ?_
    rw [mul_apply]
    rfl
  rw [Matrix.add_apply, Matrix.smul_apply]
  have c' := core (oldPairMat mixU mixCells mixCells (fun i => decide (b = true → i = 0 ∨ i = 3)) (pairState mixState mixState) 2)
    ((necMat (fun i : Fin (2 * 2) => decide (b = true → i = 0 ∨ i = 3)))ᴴ * colMat [((0 : ℝ), mixCol)])
  refine (congrArg (fun z => _ + _ • z) c').trans ?_
  have e : ∀ a c : Fin 4, oldPairMat mixU mixCells mixCells (fun i => decide (b = true → i = 0 ∨ i = 3)) (pairState mixState mixState) 2 a c =
      if decide (b = true → a = 0 ∨ a = 3) = true ∧ decide (b = true → c = 0 ∨ c = 3) = true then (if (a : ℕ) + c = 3 then -2 else 0) else 0 := by
    intro a c
    refine (oldPairMat_nec mixU mixCells mixCells _ (pairState mixState mixState) 2 a c).trans ?_
    rw [show oldPairMat mixU mixCells mixCells (fun _ => true) (pairState mixState mixState) 2 a c = if (a : ℕ) + c = 3 then -2 else 0 from mix_mat a c]
  have T' : ∀ a : Fin 4, ((necMat (fun i : Fin (2 * 2) => decide (b = true → i = 0 ∨ i = 3)))ᴴ * colMat [((0 : ℝ), mixCol)]) a (0 : Fin 1) =
    if decide (b = true → a = 0 ∨ a = 3) = true then mixCol a else 0 := fun a => T _ a
  simp only [e, T']
  simp only [Fin.sum_univ_four]
  cases b
  · simp [e0, e1, e2, e3]
    norm_num
  · simp [e0, e1, e2, e3]
    norm_num

theorem mix_block_ne (steps steps' : List (OldOne 2 × OldOne 2)) (hst : (mixOne 2, mixOne 2) ∈ steps) (hst' : (mixOne 2, mixOne 2) ∈ steps') :
    oldBlock mixU mixCells mixCells mixSym mixState mixState (mixOne 2) (mixOne 2) 0 (oldNecessary (mixSyms true) (oldSymmetries (mixSyms true) (mixState 0, mixState 0)
      (List.ofFn (pairState mixState mixState))) (mixState 0, mixState 0) (pairState mixState mixState) (oldCutoff steps 0)) 3 1 ≠
    oldBlock mixU mixCells mixCells mixSym mixState mixState (mixOne 2) (mixOne 2) 0 (oldNecessary (mixSyms false) (oldSymmetries (mixSyms false) (mixState 0, mixState 0)
      (List.ofFn (pairState mixState mixState))) (mixState 0, mixState 0) (pairState mixState mixState) (oldCutoff steps' 0)) 3 1 := by
  rw [show oldNecessary (mixSyms true) (oldSymmetries (mixSyms true) (mixState 0, mixState 0) (List.ofFn (pairState mixState mixState))) (mixState 0, mixState 0)
    (pairState mixState mixState) (oldCutoff steps 0) = _ from funext fun i => mix_nec true steps hst i]
  rw [show oldNecessary (mixSyms false) (oldSymmetries (mixSyms false) (mixState 0, mixState 0) (List.ofFn (pairState mixState mixState))) (mixState 0, mixState 0)
    (pairState mixState mixState) (oldCutoff steps' 0) = _ from funext fun i => mix_nec false steps' hst' i]
  unfold oldBlock
  rw [mix_combine, Out.ok_bind, Out.ok_bind]
  intro h
  injection h with h
  rw [mix_prune] at h
  have h2 := eq_of_heq (Sigma.mk.inj h).2
  have h3 := congrFun (congrFun h2 (0 : Fin 1)) (0 : Fin 1)
  have t1 := mix_total true
  have t2 := mix_total false
  have := t1.symm.trans (h3.trans t2)
  norm_num at this

/-- A configuration: two atoms in an s state, p states of the same n in the basis, both parities odd. `b` is the setting `sametrafo`. -/
noncomputable def mixConf (b : Bool) : Config :=
  (([("species1", "Rb".toList), ("species2", "Rb".toList), ("n1", exNum.putI 60), ("l1", exNum.putI 0), ("j1", exNum.putF 1), ("m1", exNum.putF 1), ("n2", exNum.putI 60),
    ("l2", exNum.putI 0), ("j2", exNum.putF 1), ("m2", exNum.putF 1), ("deltaNSingle", exNum.putI 0), ("deltaLSingle", exNum.putI 1), ("deltaJSingle", exNum.putI 0),
    ("deltaMSingle", exNum.putI 0), ("missingCalc", "true".toList), ("missingWhittaker", "false".toList), ("deltaESingle", exNum.putD 5), ("diamagnetism", "false".toList),
    ("minBx", exNum.putD 0), ("minBy", exNum.putD 0), ("minBz", exNum.putD 0), ("maxBx", exNum.putD 0), ("maxBy", exNum.putD 0), ("maxBz", exNum.putD 0),
    ("minEx", exNum.putD 0), ("minEy", exNum.putD 0), ("maxEx", exNum.putD 0), ("maxEy", exNum.putD 0),
    ("minEz", exNum.putD 5), ("maxEz", exNum.putD 5), ("deltaEPair", exNum.putD 0), ("deltaNPair", exNum.putI 0), ("deltaLPair", exNum.putI 1),
    ("deltaJPair", exNum.putI 0), ("deltaMPair", exNum.putI 0), ("exponent", exNum.putI 3), ("invE", "false".toList), ("invO", "true".toList), ("perE", "false".toList),
    ("perO", "true".toList), ("refE", "false".toList), ("refO", "false".toList), ("conserveM", "false".toList), ("sametrafo", if b then "true".toList else "false".toList),
    ("zerotheta", "false".toList)] : List (String × Str))).foldl (fun c x => c.put x.1 x.2) []

/-- The strings of the basis. -/
noncomputable def mixStr : BaseStr := ⟨exNum.putI 0, exNum.putI 1, exNum.putI 0, exNum.putI 0, "true".toList, "false".toList⟩

/-- The common basis. -/
noncomputable def mixBasis : OldBasisOne := .double exNum mixStr.conf ⟨0, 1, 0, 0⟩ (mixState 0) (mixState 0) "Rb".toList

/-- The run of both atoms. -/
noncomputable def mixOneRun : OldOneRun :=
  ⟨mixBasis, (mixBasis.conf.put "deltaESingle" (exNum.putD 5)).put "diamagnetism" "false".toList, "Rb".toList, 5, some .numerov,
    ⟨true, ⟨0, 0, 5⟩, ⟨0, 0, 5⟩, ⟨0, 0, 0⟩, ⟨0, 0, 0⟩, false, 1⟩⟩

theorem mixOne_ok (b : Bool) : oldOneRun exNum true (mixConf b) .both = .ok mixOneRun := by
  have hi : ∀ n, exNum.stoi (exNum.putI n) = .ok n := exNum_lawful.int
  have hf : ∀ n, exNum.stof (exNum.putF n) = .ok n := exNum_lawful.half
  have ho : oldOrder ⟨60, 0, 1, 1⟩ ⟨60, 0, 1, 1⟩ = (mixState 0, mixState 0) := by decide +kernel
  unfold oldOneRun OldBasisOne.make readOld1 basisConfigure readVec mixConf
  simp only [List.foldl, at_put]
  simp [Out.ok_bind, hi, hf, ho, exNum_0, exNum_5, OldBasisOne.double, at_put, oldMethod, mixOneRun, mixBasis, mixStr, BaseStr.conf]

/-- The pair run. -/
noncomputable def mixRun (b : Bool) : OldPairRun :=
  ⟨mixOneRun, mixOneRun, true, (mixState 0, mixState 0), pairConf exNum true mixStr "Rb".toList "Rb".toList (mixState 0) (mixState 0)
    ⟨exNum.putD 0, exNum.putI 0, exNum.putI 1, exNum.putI 0, exNum.putI 0, exNum.putI 3⟩, 0, ⟨0, 1, 0, 0⟩, 3, some .numerov, mixSyms b⟩

theorem mixRun_ok (b : Bool) : oldPairRun exNum true (mixConf b) true = .ok (mixRun b) := by
  have hi : ∀ n, exNum.stoi (exNum.putI n) = .ok n := exNum_lawful.int
  have hf : ∀ n, exNum.stof (exNum.putF n) = .ok n := exNum_lawful.half
  have hn : ∀ n, exNum.putI n ≠ [] := exNum_lawful.some
  have hb : oldBasisTwo exNum true mixBasis.conf mixBasis.conf = .ok
      ((((((((((((mixStr.conf).put "combined" (exNum.putI 1)).put "species1" "Rb".toList).put "n1"
        (exNum.putI 60)).put "l1" (exNum.putI 0)).put "j1" (exNum.putF 1)).put "m1" (exNum.putF 1)).put "species2" "Rb".toList).put "n2" (exNum.putI 60)).put "l2"
        (exNum.putI 0)).put "j2" (exNum.putF 1)).put "m2" (exNum.putF 1), (mixState 0, mixState 0)) := by
    unfold oldBasisTwo basisConfigure readOld1 mixBasis OldBasisOne.double mixStr BaseStr.conf
    simp only [at_put]
    simp [Out.ok_bind, hi, hf, hn, mixState]
  unfold oldPairRun
  rw [if_pos rfl, mixOne_ok]
  rw [Out.ok_bind, if_pos rfl, Out.ok_bind]
  rw [show mixOneRun.basis.conf = mixBasis.conf from rfl, hb]
  unfold mixConf readSyms oldMethod Config.flag
  simp only [List.foldl, at_put]
  cases b <;> simp [Out.ok_bind, hi, exNum_0, mixRun, pairConf, mixState, mixSyms]

/-- What does not come from the configuration; the field mixes the s and the p state. -/
noncomputable def mixEnv : OldEnv := ⟨mixU, fun _ => 0, fun _ _ => 0, fun n _ => mixOne n⟩

theorem mix_states : mixOneRun.states mixEnv = [mixState 0, mixState 1] := by
  have hn : mixBasis.names.map Prod.snd = [mixState 0, mixState 1] := by
    show (buildBoth (mixState 0) (mixState 0) ⟨0, 1, 0, 0⟩).map Prod.snd = _
    decide +kernel
  show oldWindow (fun _ => 0) [mixState 0, mixState 0] 5 (mixBasis.names.map Prod.snd) = _
  rw [hn]
  unfold oldWindow
  rw [List.filter_eq_self]
  intro x _
  norm_num

theorem mix_tiny : NoTinyElements mixU (fun _ => 0) .numerov "Rb" [mixState 0, mixState 1] := by
  have hp : ∀ a ∈ [mixState 0, mixState 1], OldValid a := by
    intro a ha
    simp only [List.mem_cons, List.not_mem_nil, or_false] at ha
    rcases ha with rfl | rfl <;> constructor <;> decide
  have rad : ∀ k, mixU.radial (fun _ => 0) k = 0 := by
    intro k
    simp [Units.radial]
  intro a ha b hb
  have pa := Old1.qn_physical "Rb" a (hp a ha)
  have pb := Old1.qn_physical "Rb" b (hp b hb)
  refine ⟨Or.inl ?_, Or.inl ?_, fun k _ => Or.inl ?_⟩
  · unfold valE
    rw [electricMultipole_eq _ _ _ _ _ _ _ pa pb rfl rfl, rad]
    simp [outVal]
  · unfold valB
    unfold magneticDipole
    rw [if_neg (by simp [Old1.qn])]
    simp [outVal, rad]
  · unfold valD
    rw [electricMultipole_eq _ _ _ _ _ _ _ pa pb rfl rfl, rad]
    simp [outVal]

theorem mix_build : ∃ H, mixOneRun.build mixEnv (fun _ => none) = .ok H := by
  obtain ⟨-, h2⟩ := C86_hamiltonian mixU (fun _ => 0) .numerov "Rb" (by simp [mixU]) (fun _ => 0) mixBasis.init 5 (mixBasis.names.map Prod.snd) (by
    intro a ha
    have hn : mixBasis.names.map Prod.snd = [mixState 0, mixState 1] := by
      show (buildBoth (mixState 0) (mixState 0) ⟨0, 1, 0, 0⟩).map Prod.snd = _
      decide +kernel
    rw [hn] at ha
    simp only [List.mem_cons, List.not_mem_nil, or_false] at ha
    rcases ha with rfl | rfl <;> constructor <;> decide) (by
    rw [show oldWindow (fun _ => 0) mixBasis.init 5 (mixBasis.names.map Prod.snd) = _ from mix_states]
    exact mix_tiny) (fun _ => none) (by intro k v h; cases h) mixOneRun.scan
  obtain ⟨H, h, -⟩ := h2 (by simp [mixOneRun])
  exact ⟨H, h⟩

/-- The atom after the restriction. -/
noncomputable def mixAtom : OldAtom := ⟨[(0, mixState 0), (1, mixState 1)], 2, [mixOne 2]⟩

theorem mix_restrict : OldAtom.restrict ⟨0, 1, 0, 0⟩ [mixState 0, mixState 0] ⟨[(0, mixState 0), (1, mixState 1)], 2, [mixOne 2]⟩ = .ok mixAtom := by
  have hm : oldMask ⟨0, 1, 0, 0⟩ [mixState 0, mixState 0] [(0, mixState 0), (1, mixState 1)] = .ok [true, true] := by
    have h0 : oldNear ⟨0, 1, 0, 0⟩ [mixState 0, mixState 0] (mixState 0) = true := by decide +kernel
    have h1 : oldNear ⟨0, 1, 0, 0⟩ [mixState 0, mixState 0] (mixState 1) = true := by decide +kernel
    simp [oldMask, oldMaskStep, h0, h1, Out.ok_bind]
  unfold OldAtom.restrict
  dsimp only
  rw [hm, Out.ok_bind, if_neg (by simp)]
  have hr : removeOne [true, true] [(0, mixState 0), (1, mixState 1)] = .ok [(0, mixState 0), (1, mixState 1)] := by
    decide +kernel
  rw [hr, Out.ok_bind]
  have hk : oldKept [true, true] 2 = [0, 1] := by decide
  rw [hk]
  have hrows : (mixOne 2).rows [0, 1] = (mixOne 2 : OldOne 2) := by
    unfold OldOne.rows
    congr 1
    funext r c
    fin_cases r <;> rfl
  show Out.ok (OldAtom.mk _ 2 [(mixOne 2).rows [0, 1]]) = .ok mixAtom
  rw [hrows]
  rfl

theorem mix_atoms (b : Bool) : (mixRun b).atoms mixEnv (fun _ => none) (fun _ => none) = .ok (mixAtom, mixAtom) := by
  obtain ⟨H, hH⟩ := mix_build
  have hs : mixOneRun.scan.nSteps = 1 := by simp [OldScan.nSteps, mixOneRun]
  have ha : mixOneRun.atom mixEnv H = ⟨[(0, mixState 0), (1, mixState 1)], 2, [mixOne 2]⟩ := by
    have : mixOneRun.atom mixEnv H = ⟨number 0 (mixOneRun.states mixEnv), (mixOneRun.states mixEnv).length, [mixOne (mixOneRun.states mixEnv).length]⟩ := by
      unfold OldOneRun.atom
      rw [hs]
      rfl
    rw [this, mix_states]
    rfl
  unfold OldPairRun.atoms oldRestrictBoth
  rw [show (mixRun b).one1 = mixOneRun from rfl, show (mixRun b).one2 = mixOneRun from rfl, hH, Out.ok_bind, Out.ok_bind, ha]
  rw [show OldAtom.restrict (mixRun b).d mixOneRun.basis.init ⟨[(0, mixState 0), (1, mixState 1)], 2, [mixOne 2]⟩ = _ from mix_restrict, Out.ok_bind]
  exact if_pos rfl

theorem mixAtom_state : mixAtom.state = mixState := by
  funext i
  have : ∀ i : Fin 2, mixAtom.state i = mixState i := by
    intro i
    fin_cases i <;> rfl
  exact this i

/-- **C102, the violation.** `sametrafo` is not part of the key. Two runs that differ in this setting only store two different matrices under one key, if the vectors of the
atoms mix parities and both parities are asked for: the second run gets the matrix of the first. -/
theorem C102_sametrafo_fails : ∃ (P : ConfNum) (c c' : Config) (p p' : OldPairRun) (e : OldEnv) (cells : Option Method → String → Cells) (a : OldAtom × OldAtom) (R : ℝ) (sym : OldSym),
    P.Lawful ∧ (∀ k, k ≠ "sametrafo".toList → c.find? k = c'.find? k) ∧ oldPairRun P true c true = .ok p ∧ oldPairRun P true c' true = .ok p' ∧
    p.atoms e (fun _ => none) (fun _ => none) = .ok a ∧ p'.atoms e (fun _ => none) (fun _ => none) = .ok a ∧ 0 < p.one1.scan.nSteps ∧ sym ∈ p.blocks a ∧ sym ∈ p'.blocks a ∧
    (p.key P 0 R sym).eqMap (p'.key P 0 R sym) ∧ p.block e cells a 0 R sym ≠ p'.block e cells a 0 R sym := by
  refine ⟨exNum, mixConf true, mixConf false, mixRun true, mixRun false, mixEnv, fun _ _ => mixCells, (mixAtom, mixAtom), 1, mixSym, exNum_lawful, ?_, mixRun_ok true, mixRun_ok false,
    mix_atoms true, mix_atoms false, ?_, mix_mem true _, mix_mem false _, fun k => rfl, ?_⟩
  · intro k hk
    unfold mixConf
    simp only [List.foldl]
    unfold Config.put
    simp only [find?_set, if_neg hk]
  · have hs : mixOneRun.scan.nSteps = 1 := by simp [OldScan.nSteps, mixOneRun]
    show 0 < mixOneRun.scan.nSteps
    rw [hs]; decide
  · have h := mix_block_ne [(mixOne 2, mixOne 2)] [(mixOne 2, mixOne 2)] (by simp) (by simp)
    rw [← mixAtom_state] at h
    exact h

end PI
