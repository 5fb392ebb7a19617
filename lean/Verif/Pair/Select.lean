import Verif.Pair.SelectModel
import Verif.Pair.BasisComplete
import Verif.Sys.Update
import Mathlib.Tactic.Linarith
import Mathlib.Tactic.NormNum

/-! # C100: the pair basis consists of the products of the chosen one-atom basis vectors -/

namespace PI

/-! ## The check of the selection -/

theorem pairLe_iff (a b : ℕ × ℕ) : pairLe a b = true ↔ a.1 < b.1 ∨ a.1 = b.1 ∧ a.2 ≤ b.2 := by
  unfold pairLe; simp

theorem pairLe_antisymm {a b : ℕ × ℕ} (h1 : pairLe a b = true) (h2 : pairLe b a = true) : a = b := by
  rw [pairLe_iff] at h1 h2
  exact Prod.ext (by omega) (by omega)

theorem adjacentEq_sorted (l : List (ℕ × ℕ)) (h : l.Pairwise fun a b => pairLe a b = true) : adjacentEq l = true ↔ ¬ l.Nodup := by
  induction l with
  | nil => simp [adjacentEq]
  | cons a l ih =>
    cases l with
    | nil => simp [adjacentEq]
    | cons b l =>
      rw [List.pairwise_cons] at h
      have ih := ih h.2
      rw [adjacentEq, Bool.or_eq_true, ih, decide_eq_true_eq, List.nodup_cons (a := a) (l := b :: l), not_and_or, not_not]
      constructor
      · rintro (rfl | h')
        · exact Or.inl List.mem_cons_self
        · exact Or.inr h'
      · rintro (h' | h')
        · left
          rcases List.mem_cons.1 h' with h' | h'
          · exact h'
          · have hb := (List.pairwise_cons.1 h.2).1 a h'
            exact pairLe_antisymm (h.1 b List.mem_cons_self) hb
        · exact Or.inr h'

theorem selectionRefused_iff (l : List (ℕ × ℕ)) : selectionRefused l = true ↔ ¬ l.Nodup := by
  unfold selectionRefused
  have hp : (l.mergeSort pairLe).Pairwise fun a b => pairLe a b = true := by
    apply List.pairwise_mergeSort
    · intro a b c h1 h2
      rw [pairLe_iff] at *
      omega
    · intro a b
      rw [Bool.or_eq_true, pairLe_iff, pairLe_iff]
      omega
  rw [adjacentEq_sorted _ hp, (List.mergeSort_perm l pairLe).nodup_iff]

/-! ## Products -/

/-- A one-atom system whose basis vectors are normalised. -/
structure NormedSys (S : OneSys) : Prop where
  nodup : S.states.Nodup
  rows : ∀ u ∈ S.cols, (u.2.map (·.1)).Nodup ∧ ∀ e ∈ u.2, e.1 ∈ S.states
  norm : ∀ a < S.cols.length, ∑ s ∈ S.states.toFinset, Complex.normSq (coef1 (S.col a).2 s) = 1

/-- Specification: an energy strictly inside the window (`none`: no bound). -/
def InWindow (emin emax : Option ℝ) (x : ℝ) : Prop := (∀ a, emin = some a → a < x) ∧ (∀ b, emax = some b → x < b)

/-- Specification: no conserved quantities. -/
def PairSym.trivial : PairSym := ⟨.na, .na, .na, none⟩

/-- Specification: the product of two one-atom basis vectors. -/
noncomputable def prodVec (S1 S2 : OneSys) (ab : ℕ × ℕ) (p : AState × AState) : ℂ := coef1 (S1.col ab.1).2 p.1 * coef1 (S2.col ab.2).2 p.2

/-- Specification: the pairs of numbers that are combined: the chosen ones, or all. -/
def pairsOf (sel : List (ℕ × ℕ)) (S1 S2 : OneSys) : List (ℕ × ℕ) := if sel = [] then allPairs S1.cols.length S2.cols.length else sel

open Classical in
/-- Specification: those inside of the energy window. -/
noncomputable def pairsInside (emin emax : Option ℝ) (sel : List (ℕ × ℕ)) (S1 S2 : OneSys) : List (ℕ × ℕ) :=
  (pairsOf sel S1 S2).filter fun ab => decide (InWindow emin emax ((S1.col ab.1).1 + (S2.col ab.2).1))

/-- Specification: how much a pair state occurs in the products. -/
noncomputable def occurs (S1 S2 : OneSys) (K : List (ℕ × ℕ)) (p : AState × AState) : ℝ := (K.map fun ab => Complex.normSq (prodVec S1 S2 ab p)).sum

theorem trivial_local (b : Bool) : PairSym.trivial.local_ b = PairSym.trivial := by cases b <;> rfl

theorem trivial_body (d : Bool) (p : AState × AState) (v : ℂ) : pairBody .trivial d p v = [(p, v)] := by
  have hd : ¬ PairSym.trivial.drops d p := by
    unfold PairSym.drops PairSym.rotExcludes PairSym.trivial
    simp
  rw [pairBody_plain _ _ _ _ (by unfold PairSym.trivial; simp) hd]
  unfold PairSym.scale PairSym.trivial
  simp

theorem trivial_coef (d : Bool) (u w : List (AState × ℂ)) (s t : AState) :
    coefP (pairColumn .trivial d u w) (s, t) = coef1 u s * coef1 w t := by
  have hA := sum_pair_ite u w (fun z => z) s t
  unfold coef1
  rw [← hA]
  unfold pairColumn
  rw [coefP_flatMap]
  congr 1
  refine List.map_congr_left fun e1 _ => ?_
  rw [coefP_flatMap]
  congr 1
  refine List.map_congr_left fun e2 _ => ?_
  rw [trivial_body, coefP_cons, coefP_nil, add_zero]

theorem trivial_weight (d : Bool) (u w : List (AState × ℂ)) (s t : AState) :
    weightP (pairColumn .trivial d u w) (s, t) = weight1 u s * weight1 w t := by
  have hA := sum_pair_ite u w Complex.normSq s t
  unfold weight1
  rw [← hA]
  unfold pairColumn
  rw [weightP_flatMap]
  congr 1
  refine List.map_congr_left fun e1 _ => ?_
  rw [weightP_flatMap]
  congr 1
  refine List.map_congr_left fun e2 _ => ?_
  rw [trivial_body, weightP_cons, weightP_nil, add_zero, Complex.normSq_mul]

theorem inWindow_iff (P : PairSet) (x : ℝ) : P.energyOk x = true ↔ InWindow P.energyMin P.energyMax x := by
  unfold PairSet.energyOk InWindow
  cases P.energyMin <;> cases P.energyMax <;> simp

open Classical in
theorem trivial_keep (P : PairSet) (hs : P.sym = .trivial) (S1 S2 : OneSys) :
    (P.usedPairs S1 S2).filter (keepOf P S1 S2) = pairsInside P.energyMin P.energyMax P.pairs S1 S2 := by
  unfold pairsInside pairsOf PairSet.usedPairs
  refine List.filter_congr fun ab _ => ?_
  unfold keepOf
  rw [hs, trivial_local, Bool.eq_iff_iff, Bool.and_eq_true, inWindow_iff, decide_eq_true_eq]
  simp [PairSym.skips, PairSym.trivial]

theorem trivial_col (P : PairSet) (hs : P.sym = .trivial) (S1 S2 : OneSys) (ab : ℕ × ℕ) (p : AState × AState) :
    coefP (colOf P S1 S2 ab).2 p = prodVec S1 S2 ab p := by
  unfold colOf prodVec
  dsimp only
  rw [hs, trivial_local]
  exact trivial_coef _ _ _ p.1 p.2

theorem mem_pairsInside {emin emax : Option ℝ} {sel : List (ℕ × ℕ)} {S1 S2 : OneSys} {ab : ℕ × ℕ} (h : ab ∈ pairsInside emin emax sel S1 S2) :
    ab ∈ pairsOf sel S1 S2 := by
  unfold pairsInside at h
  exact (List.mem_filter.1 h).1

theorem pairsOf_lt {sel : List (ℕ × ℕ)} {S1 S2 : OneSys} (hr : ∀ ab ∈ sel, ab.1 < S1.cols.length ∧ ab.2 < S2.cols.length) {ab : ℕ × ℕ}
    (h : ab ∈ pairsOf sel S1 S2) : ab.1 < S1.cols.length ∧ ab.2 < S2.cols.length := by
  unfold pairsOf at h
  by_cases hs : sel = []
  · rw [if_pos hs] at h; exact (mem_allPairs _ _ _).1 h
  · rw [if_neg hs] at h; exact hr ab h

/-- The conditions on the one-atom systems and the selection. -/
structure SelOk (sel : List (ℕ × ℕ)) (S1 S2 : OneSys) : Prop where
  s1 : NormedSys S1
  s2 : NormedSys S2
  range : ∀ ab ∈ sel, ab.1 < S1.cols.length ∧ ab.2 < S2.cols.length
  spin : ∀ s ∈ S1.states, ∀ t ∈ S2.states, s.isArt = false → t.isArt = false → (s.j + t.j) % 2 = 0

theorem sel_loop (P : PairSet) (S1 S2 : OneSys) (hs : P.sym = .trivial) (h : SelOk P.pairs S1 S2) :
    pairLoop P S1 S2 (P.usedPairs S1 S2) = .ok ((pairsInside P.energyMin P.energyMax P.pairs S1 S2).map (colOf P S1 S2)) := by
  have hu : P.usedPairs S1 S2 = pairsOf P.pairs S1 S2 := rfl
  rw [pairLoop_eq, trivial_keep P hs]
  · intro ab hab
    exact pairsOf_lt h.range (hu ▸ hab)
  · intro ab hab _ a1 a2
    obtain ⟨b1, b2⟩ := pairsOf_lt h.range (hu ▸ hab)
    unfold nanJ
    rw [List.any_eq_false]
    intro e1 he1
    rw [Bool.not_eq_true, List.any_eq_false]
    intro e2 he2
    rw [decide_eq_true_eq, not_not]
    unfold artCol at a1 a2
    rw [List.any_eq_false] at a1 a2
    exact h.spin _ ((h.s1.rows _ (col_mem S1 b1)).2 e1 he1) _ ((h.s2.rows _ (col_mem S2 b2)).2 e2 he2) (by simpa using a1 e1 he1) (by simpa using a2 e2 he2)

theorem sel_keys (P : PairSet) (S1 S2 : OneSys) (hs : P.sym = .trivial) (h : SelOk P.pairs S1 S2) (K : List (ℕ × ℕ)) (hK : ∀ ab ∈ K, ab ∈ pairsOf P.pairs S1 S2)
    (p : AState × AState) (hp : p ∈ statesOf ((K.map (colOf P S1 S2)).flatMap (·.2))) : p ∈ S1.states.toFinset ×ˢ S2.states.toFinset := by
  rw [mem_statesOf, List.mem_map] at hp
  obtain ⟨x, hx, rfl⟩ := hp
  rw [List.mem_flatMap] at hx
  obtain ⟨c, hc, hx⟩ := hx
  rw [List.mem_map] at hc
  obtain ⟨ab, hab, rfl⟩ := hc
  obtain ⟨b1, b2⟩ := pairsOf_lt h.range (hK ab hab)
  obtain ⟨e1, m1, e2, m2, _, hq⟩ := column_keys _ _ _ _ x.1 (List.mem_map.2 ⟨x, hx, rfl⟩)
  rw [hs, trivial_local] at hq
  have s1 := (h.s1.rows _ (col_mem S1 b1)).2 e1 m1
  have s2 := (h.s2.rows _ (col_mem S2 b2)).2 e2 m2
  rw [Finset.mem_product, List.mem_toFinset, List.mem_toFinset]
  rcases hq with hq | ⟨_, hq, _⟩ | ⟨hr, _⟩
  · rw [hq]; exact ⟨s1, s2⟩
  · simp [PairSym.trivial] at hq
  · simp [PairSym.trivial] at hr

theorem prodVec_norm {S1 S2 : OneSys} (h1 : NormedSys S1) (h2 : NormedSys S2) (ab : ℕ × ℕ) (b1 : ab.1 < S1.cols.length) (b2 : ab.2 < S2.cols.length) :
    ∑ p ∈ S1.states.toFinset ×ˢ S2.states.toFinset, Complex.normSq (prodVec S1 S2 ab p) = 1 := by
  rw [Finset.sum_product]
  unfold prodVec
  simp_rw [Complex.normSq_mul]
  rw [← Finset.sum_mul_sum, h1.norm _ b1, h2.norm _ b2, one_mul]

theorem sel_occurs (P : PairSet) (S1 S2 : OneSys) (hs : P.sym = .trivial) (h : SelOk P.pairs S1 S2) (K : List (ℕ × ℕ)) (hK : ∀ ab ∈ K, ab ∈ pairsOf P.pairs S1 S2)
    (p : AState × AState) : weightP ((K.map (colOf P S1 S2)).flatMap (·.2)) p = occurs S1 S2 K p := by
  rw [weightP_flatMap, List.map_map]
  unfold occurs
  congr 1
  refine List.map_congr_left fun ab hab => ?_
  obtain ⟨b1, b2⟩ := pairsOf_lt h.range (hK ab hab)
  rw [Function.comp_apply]
  unfold colOf prodVec
  dsimp only
  rw [hs, trivial_local, show p = (p.1, p.2) from rfl, trivial_weight, weight1_eq _ (h.s1.rows _ (col_mem S1 b1)).1, weight1_eq _ (h.s2.rows _ (col_mem S2 b2)).1, Complex.normSq_mul]

theorem sel_prune (P : PairSet) (S1 S2 : OneSys) (hs : P.sym = .trivial) (h : SelOk P.pairs S1 S2) (h1 : P.thr < 1) (K : List (ℕ × ℕ))
    (hK : ∀ ab ∈ K, ab ∈ pairsOf P.pairs S1 S2) :
    prunePairs P.thr (K.map (colOf P S1 S2)) =
      ⟨(statesOf ((K.map (colOf P S1 S2)).flatMap (·.2))).filter (fun p => decide (P.thr < occurs S1 S2 K p)),
       K.map fun ab => ((S1.col ab.1).1 + (S2.col ab.2).1, fun p =>
        if p ∈ (statesOf ((K.map (colOf P S1 S2)).flatMap (·.2))).filter (fun p => decide (P.thr < occurs S1 S2 K p)) then prodVec S1 S2 ab p else 0)⟩ := by
  set es := (K.map (colOf P S1 S2)).flatMap (·.2) with hes
  have hnorm : ∀ ab ∈ K, ((statesOf es).map fun p => Complex.normSq (coefP (colOf P S1 S2 ab).2 p)).sum = 1 := by
    intro ab hab
    obtain ⟨b1, b2⟩ := pairsOf_lt h.range (hK ab hab)
    have hsum := sum_list_finset (statesOf es) (nodup_statesOf es) (S1.states.toFinset ×ˢ S2.states.toFinset) (sel_keys P S1 S2 hs h K hK)
      (fun p => Complex.normSq (coefP (colOf P S1 S2 ab).2 p)) (fun p _ hn => by
        have : coefP (colOf P S1 S2 ab).2 p = 0 := by
          apply coefP_of_not_mem
          intro hm
          apply hn
          rw [mem_statesOf, hes, List.mem_map]
          rw [List.mem_map] at hm
          obtain ⟨x, hx, rfl⟩ := hm
          exact ⟨x, List.mem_flatMap.2 ⟨_, List.mem_map.2 ⟨ab, hab, rfl⟩, hx⟩, rfl⟩
        rw [this]; simp)
    rw [hsum]
    simp_rw [trivial_col P hs]
    exact prodVec_norm h.s1 h.s2 ab b1 b2
  unfold prunePairs
  dsimp only
  have hf : (K.map (colOf P S1 S2)).filter (fun c => decide (P.thr < ((statesOf es).map fun p => Complex.normSq (coefP c.2 p)).sum)) =
      K.map (colOf P S1 S2) := by
    apply List.filter_eq_self.2
    intro c hc
    rw [List.mem_map] at hc
    obtain ⟨ab, hab, rfl⟩ := hc
    rw [decide_eq_true_eq, hnorm ab hab]
    exact h1
  rw [← hes, hf, List.map_map]
  have hw : ∀ p, weightP es p = occurs S1 S2 K p := sel_occurs P S1 S2 hs h K hK
  simp_rw [hw]
  congr 1
  refine List.map_congr_left fun ab hab => ?_
  rw [Function.comp_apply]
  refine Prod.ext rfl ?_
  funext p
  dsimp only
  rw [trivial_col P hs]

theorem sel_mem (P : PairSet) (S1 S2 : OneSys) (hs : P.sym = .trivial) (h : SelOk P.pairs S1 S2) (h0 : 0 ≤ P.thr) (K : List (ℕ × ℕ))
    (hK : ∀ ab ∈ K, ab ∈ pairsOf P.pairs S1 S2) (p : AState × AState) :
    p ∈ (statesOf ((K.map (colOf P S1 S2)).flatMap (·.2))).filter (fun p => decide (P.thr < occurs S1 S2 K p)) ↔ P.thr < occurs S1 S2 K p := by
  rw [List.mem_filter, decide_eq_true_eq]
  refine ⟨fun h => h.2, fun hp => ⟨?_, hp⟩⟩
  rw [mem_statesOf]
  by_contra hn
  rw [← sel_occurs P S1 S2 hs h K hK, weightP_of_not_mem _ _ hn] at hp
  linarith

/-- **C100.** For all one-atom systems with normalised basis vectors, all energy windows and all selections of numbers inside of the systems (an empty selection stands
for all pairs): without symmetries and user-defined states there is exactly one pair basis vector for each selected pair whose summed energy lies inside of
the window, in the order of the selection, with the summed energy and the products of the coefficients; states that occur in all products together with a weight
of not more than the threshold are left out. If no state is left the call throws. -/
theorem C100_products (P : PairSet) (lt : AState → AState → Bool) (E : AState → ℝ) (S1 S2 : OneSys) (h : SelOk P.pairs S1 S2) (hs : P.sym = .trivial)
    (ha : P.toAdd = []) (h0 : 0 ≤ P.thr) (h1 : P.thr < 1) :
    ((∀ p, occurs S1 S2 (pairsInside P.energyMin P.energyMax P.pairs S1 S2) p ≤ P.thr) → pairBuild P lt E S1 S2 = .throw) ∧
    ((∃ p, P.thr < occurs S1 S2 (pairsInside P.energyMin P.energyMax P.pairs S1 S2) p) → ∃ B, pairBuild P lt E S1 S2 = .ok B ∧ B.states.Nodup ∧
      (∀ p, p ∈ B.states ↔ P.thr < occurs S1 S2 (pairsInside P.energyMin P.energyMax P.pairs S1 S2) p) ∧
      B.cols = (pairsInside P.energyMin P.energyMax P.pairs S1 S2).map fun ab =>
        ((S1.col ab.1).1 + (S2.col ab.2).1, fun p => if p ∈ B.states then prodVec S1 S2 ab p else 0)) := by
  set K := pairsInside P.energyMin P.energyMax P.pairs S1 S2 with hKd
  have hK : ∀ ab ∈ K, ab ∈ pairsOf P.pairs S1 S2 := fun ab hab => mem_pairsInside hab
  have hloop := sel_loop P S1 S2 hs h
  rw [← hKd] at hloop
  set es := (K.map (colOf P S1 S2)).flatMap (·.2) with hes
  have hlen : (statesOf es).length ≤ S1.states.length * S2.states.length := by
    have : (statesOf es).toFinset ⊆ S1.states.toFinset ×ˢ S2.states.toFinset := fun p hp => sel_keys P S1 S2 hs h K hK p (List.mem_toFinset.1 hp)
    have := Finset.card_le_card this
    rwa [List.toFinset_card_of_nodup (nodup_statesOf es), Finset.card_product, List.toFinset_card_of_nodup h.s1.nodup, List.toFinset_card_of_nodup h.s2.nodup] at this
  have hus : pairUsers P lt E P.toAdd = .ok [] := by rw [ha]; rfl
  have hB : pairBuild P lt E S1 S2 = if (prunePairs P.thr (K.map (colOf P S1 S2))).states = [] ∨ (prunePairs P.thr (K.map (colOf P S1 S2))).cols = [] then .throw
      else .ok (prunePairs P.thr (K.map (colOf P S1 S2))) := by
    unfold pairBuild
    rw [hloop]
    dsimp only
    rw [← hes, if_neg (by rw [ha]; simpa using hlen), if_neg (by rw [ha]; simp), hus]
    dsimp only
    rw [List.append_nil, ← hes, if_neg (by rw [ha]; simpa using hlen)]
  have hmem := sel_mem P S1 S2 hs h h0 K hK
  have hp := sel_prune P S1 S2 hs h h1 K hK
  constructor
  · intro hno
    rw [hB, if_pos]
    left
    rw [hp]
    dsimp only
    rw [List.eq_nil_iff_forall_not_mem]
    intro p hp
    rw [hmem] at hp
    exact absurd hp (not_lt.2 (hno p))
  · rintro ⟨p, hpp⟩
    refine ⟨prunePairs P.thr (K.map (colOf P S1 S2)), ?_, ?_, ?_, ?_⟩
    · rw [hB, if_neg]
      rw [hp]
      dsimp only
      rw [not_or]
      constructor
      · intro hn
        have := (hmem p).2 hpp
        rw [hn] at this
        cases this
      · intro hn
        rw [List.map_eq_nil_iff] at hn
        rw [hn] at hpp
        unfold occurs at hpp
        simp at hpp
        linarith
    · rw [hp]; exact (nodup_statesOf _).filter _
    · intro q; rw [hp]; exact hmem q
    · rw [hp]

end PI
