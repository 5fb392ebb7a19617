import Verif.Pair.SectorRefl

/-!
# Symmetry sectors of a pair system: the bases of the reflection sectors
-/

namespace PI

open Matrix

/-- The pairs of basis vectors of a reflection sector. For half-integer momenta the square of the reflection of one atom is -1; the signs of the reflection of the pair are
chosen real, so that its eigenvalue is minus the product of the eigenvalues of the atoms. -/
def reflPairs (S1 S2 : OneSys) (r1 r2 : ℕ → ℤ) (e : Par) : List (ℕ × ℕ) :=
  (allPairs S1.cols.length S2.cols.length).filter fun ab => decide (r1 ab.1 * r2 ab.2 = -e.unit)

section
variable {S1 S2 : OneSys} (u1 : UnitarySys S1) (u2 : UnitarySys S2) (h : TwoAtoms S1 S2) {r1 r2 : ℕ → ℤ} (g1 : ReflVecs S1 r1) (g2 : ReflVecs S2 r2)
  (hh1 : HalfSys S1) (hh2 : HalfSys S2)
include u1 u2 g1 g2 hh1 hh2

theorem sq2_refl (p : AState × AState) (hp : p ∈ sq2 S1 S2) : reflP p ∈ sq2 S1 S2 := by
  rw [mem_sq2] at hp ⊢
  exact ⟨g1.closed u1 hh1 _ hp.1, g2.closed u2 hh2 _ hp.2⟩

/-- The columns: products of one-atom vectors with the right parity, and zero for the others. -/
theorem refl_column (e : Par) (he : e ≠ .na) (d : Bool) (ab : ℕ × ℕ) (b1 : ab.1 < S1.cols.length) (b2 : ab.2 < S2.cols.length) (q : AState × AState) :
    coefP (pairColumn ⟨.na, .na, e, none⟩ d (S1.col ab.1).2 (S2.col ab.2).2) q = if r1 ab.1 * r2 ab.2 = -e.unit then prodVec S1 S2 ab q else 0 := by
  rw [refl_coef e he]
  by_cases hq : q ∈ sq2 S1 S2
  · have hq' := mem_sq2.1 hq
    have hm1 := (hh1 _ hq'.1).2.2
    have hm2 := (hh2 _ hq'.2).2.2
    rw [parLJM_spec q (by omega)]
    have := prod_refl g1 g2 hh1 hh2 ab b1 b2 q hq
    have e1 : coef1 (S1.col ab.1).2 q.1.refl * coef1 (S2.col ab.2).2 q.2.refl = prodVec S1 S2 ab (reflP q) := rfl
    have e2 : coef1 (S1.col ab.1).2 q.1 * coef1 (S2.col ab.2).2 q.2 = prodVec S1 S2 ab q := rfl
    rw [e1, e2]
    push_cast at this ⊢
    rw [mul_assoc, this]
    rcases (g1 _ b1).1 with h1 | h1 <;> rcases (g2 _ b2).1 with h2 | h2 <;> rw [h1, h2] <;> unfold Par.unit <;> by_cases hev : e = .even <;>
      simp [hev] <;> ring
  · have z1 := prodVec_out u1 u2 ab q hq
    have z2 := prodVec_out u1 u2 ab (reflP q) (fun hr => hq (by
      have := sq2_refl u1 u2 g1 g2 hh1 hh2 _ hr
      rwa [reflP_reflP] at this))
    have e1 : coef1 (S1.col ab.1).2 q.1.refl * coef1 (S2.col ab.2).2 q.2.refl = prodVec S1 S2 ab (reflP q) := rfl
    have e2 : coef1 (S1.col ab.1).2 q.1 * coef1 (S2.col ab.2).2 q.2 = prodVec S1 S2 ab q := rfl
    rw [e1, e2, z1, z2]
    simp

theorem all_weight (p : AState × AState) (hp : p ∈ sq2 S1 S2) :
    ((allPairs S1.cols.length S2.cols.length).map fun ab => Complex.normSq (prodVec S1 S2 ab p)).sum = 1 := by
  have hp' := mem_sq2.1 hp
  have := sum_allPairs S1.cols.length S2.cols.length (fun _ => true) fun ab => Complex.normSq (prodVec S1 S2 ab p)
  rw [List.filter_true] at this
  rw [this]
  simp only [if_true]
  unfold prodVec
  simp_rw [Complex.normSq_mul]
  rw [← Finset.sum_mul_sum, row_weight S1 u1 _ hp'.1, row_weight S2 u2 _ hp'.2, one_mul]

include h

/-- The basis of a reflection sector: all pair states, the products of basis vectors with this parity. -/
theorem refl_basis (e : Par) (he : e ≠ .na) (hn1 : S1.states ≠ []) (hn2 : S2.states ≠ []) (thr : ℝ) (h0 : 0 ≤ thr) (h1 : thr < 1 / 2) (sp : String × String)
    (lt : AState → AState → Bool) (E : AState → ℝ) :
    ∃ B, pairBuild (reflSet e thr sp) lt E S1 S2 = .ok B ∧ B.states.Nodup ∧ (∀ x, x ∈ B.states ↔ x ∈ sq2 S1 S2) ∧
      B.cols = (reflPairs S1 S2 r1 r2 e).map (fun ab => ((S1.col ab.1).1 + (S2.col ab.2).1, prodVec S1 S2 ab)) := by
  have a1 := h.noArt1 u1
  have a2 := h.noArt2 u2
  set L := allPairs S1.cols.length S2.cols.length with hL
  have mem : ∀ ab ∈ L, ab.1 < S1.cols.length ∧ ab.2 < S2.cols.length := fun ab hab => (mem_allPairs _ _ _).1 hab
  set P := reflSet e thr sp with hP
  have hloop : pairLoop P S1 S2 (P.usedPairs S1 S2) = .ok (L.map (colOf P S1 S2)) := by
    rw [pairLoop_eq]
    · congr 2
      show List.filter _ L = _
      rw [List.filter_eq_self]
      intro ab hab
      unfold keepOf
      rw [noArt_col a1 (mem ab hab).1, noArt_col a2 (mem ab hab).2]
      simp [hP, reflSet, PairSym.local_, PairSym.skips, PairSet.energyOk]
    · exact mem
    · intro ab hab _ _ _
      exact nanJ_false h u1 u2 (mem ab hab).1 (mem ab hab).2
  have col : ∀ ab ∈ L, colOf P S1 S2 ab = ((S1.col ab.1).1 + (S2.col ab.2).1, pairColumn ⟨.na, .na, e, none⟩ (decide (ab.1 ≠ ab.2)) (S1.col ab.1).2 (S2.col ab.2).2) := by
    intro ab hab
    unfold colOf
    rw [noArt_col a1 (mem ab hab).1, noArt_col a2 (mem ab hab).2]
    rfl
  have ccoef : ∀ ab ∈ L, ∀ q, coefP (colOf P S1 S2 ab).2 q = if r1 ab.1 * r2 ab.2 = -e.unit then prodVec S1 S2 ab q else 0 := by
    intro ab hab q
    rw [col ab hab]
    exact refl_column u1 u2 g1 g2 hh1 hh2 e he _ ab (mem ab hab).1 (mem ab hab).2 q
  set es := (L.map (colOf P S1 S2)).flatMap (·.2) with hes
  have hkeys : ∀ p ∈ statesOf es, p ∈ sq2 S1 S2 := by
    intro p hp
    rw [mem_statesOf, List.mem_map] at hp
    obtain ⟨x, hx, rfl⟩ := hp
    rw [hes, List.mem_flatMap] at hx
    obtain ⟨c, hc, hx⟩ := hx
    rw [List.mem_map] at hc
    obtain ⟨ab, hab, rfl⟩ := hc
    rw [col ab hab] at hx
    unfold pairColumn at hx
    rw [List.mem_flatMap] at hx
    obtain ⟨e1, m1, hx⟩ := hx
    rw [List.mem_flatMap] at hx
    obtain ⟨e2, m2, hx⟩ := hx
    rw [refl_body e he] at hx
    have hs : (e1.1, e2.1) ∈ sq2 S1 S2 := mem_sq2.2 ⟨(u1.rows _ (col_mem S1 (mem ab hab).1)).2 e1 m1, (u2.rows _ (col_mem S2 (mem ab hab).2)).2 e2 m2⟩
    simp only [List.mem_cons, List.not_mem_nil, or_false] at hx
    rcases hx with rfl | rfl
    · exact hs
    · exact sq2_refl u1 u2 g1 g2 hh1 hh2 _ hs
  have hweight : ∀ p ∈ sq2 S1 S2, weightP es p = 1 / 2 := by
    intro p hp
    rw [hes, weightP_flatMap, List.map_map]
    have e1 : L.map ((fun c => weightP c.2 p) ∘ colOf P S1 S2) =
        L.map fun ab => (1 / 4 : ℝ) * Complex.normSq (prodVec S1 S2 ab p) + (1 / 4 : ℝ) * Complex.normSq (prodVec S1 S2 ab (reflP p)) := by
      refine List.map_congr_left fun ab hab => ?_
      have m := mem ab hab
      rw [Function.comp_apply, col ab hab]
      dsimp only
      rw [refl_weight e he]
      simp only [weight1_eq _ (u1.rows _ (col_mem S1 m.1)).1, weight1_eq _ (u2.rows _ (col_mem S2 m.2)).1]
      unfold prodVec reflP
      rw [Complex.normSq_mul, Complex.normSq_mul]
      ring
    rw [e1, List.sum_map_add, List.sum_map_mul_left, List.sum_map_mul_left, all_weight u1 u2 g1 g2 hh1 hh2 p hp,
      all_weight u1 u2 g1 g2 hh1 hh2 _ (sq2_refl u1 u2 g1 g2 hh1 hh2 p hp)]
    norm_num
  have hstates : ∀ p ∈ sq2 S1 S2, p ∈ statesOf es := by
    intro p hp
    rw [mem_statesOf]
    by_contra hn
    have := hweight p hp
    rw [weightP_of_not_mem _ _ hn] at this
    norm_num at this
  have hlen : (statesOf es).length ≤ S1.states.length * S2.states.length := by
    have : (statesOf es).toFinset ⊆ S1.states.toFinset ×ˢ S2.states.toFinset := fun p hp => hkeys p (List.mem_toFinset.1 hp)
    have := Finset.card_le_card this
    rwa [List.toFinset_card_of_nodup (nodup_statesOf es), Finset.card_product, List.toFinset_card_of_nodup u1.nodup, List.toFinset_card_of_nodup u2.nodup] at this
  have hnorm : ∀ ab ∈ L, ((statesOf es).map fun p => Complex.normSq (coefP (colOf P S1 S2 ab).2 p)).sum = if r1 ab.1 * r2 ab.2 = -e.unit then 1 else 0 := by
    intro ab hab
    obtain ⟨b1, b2⟩ := mem ab hab
    have hsum := sum_list_finset (statesOf es) (nodup_statesOf es) (sq2 S1 S2) hkeys
      (fun p => Complex.normSq (coefP (colOf P S1 S2 ab).2 p)) (fun p hp hn => absurd (hstates p hp) hn)
    rw [hsum]
    simp_rw [ccoef ab hab]
    by_cases hr : r1 ab.1 * r2 ab.2 = -e.unit
    · simp only [if_pos hr]
      exact prodVec_norm u1.normed u2.normed ab b1 b2
    · simp only [if_neg hr, map_zero, Finset.sum_const_zero]
  have hkept : ∀ p, p ∈ (statesOf es).filter (fun p => decide (thr < weightP es p)) ↔ p ∈ sq2 S1 S2 := by
    intro p
    rw [List.mem_filter, decide_eq_true_eq]
    constructor
    · exact fun hp => hkeys p hp.1
    · intro hp
      exact ⟨hstates p hp, by rw [hweight p hp]; exact h1⟩
  have hfilt : (L.map (colOf P S1 S2)).filter (fun c => decide (thr < ((statesOf es).map fun p => Complex.normSq (coefP c.2 p)).sum)) =
      (reflPairs S1 S2 r1 r2 e).map (colOf P S1 S2) := by
    unfold reflPairs
    rw [← hL, List.filter_map]
    congr 1
    refine List.filter_congr fun ab hab => ?_
    rw [Function.comp_apply, hnorm ab hab, Bool.eq_iff_iff, decide_eq_true_eq, decide_eq_true_eq]
    by_cases hr : r1 ab.1 * r2 ab.2 = -e.unit
    · rw [if_pos hr]; exact ⟨fun _ => hr, fun _ => by linarith⟩
    · rw [if_neg hr]; exact ⟨fun h' => absurd h' (not_lt.2 h0), fun h' => absurd h' hr⟩
  have hprune : (prunePairs thr (L.map (colOf P S1 S2))).states = (statesOf es).filter (fun p => decide (thr < weightP es p)) ∧
      (prunePairs thr (L.map (colOf P S1 S2))).cols = (reflPairs S1 S2 r1 r2 e).map (fun ab => ((S1.col ab.1).1 + (S2.col ab.2).1, prodVec S1 S2 ab)) := by
    unfold prunePairs
    dsimp only
    rw [← hes]
    refine ⟨rfl, ?_⟩
    rw [hfilt, List.map_map]
    refine List.map_congr_left fun ab hab => ?_
    have hab' := List.mem_filter.1 hab
    rw [Function.comp_apply]
    refine Prod.ext rfl ?_
    funext q
    dsimp only
    by_cases hq : q ∈ sq2 S1 S2
    · rw [if_pos ((hkept q).2 hq), ccoef ab hab'.1, if_pos (of_decide_eq_true hab'.2)]
    · rw [if_neg (fun h' => hq ((hkept q).1 h')), prodVec_out u1 u2 ab q hq]
  obtain ⟨p1, p2⟩ := hprune
  refine ⟨prunePairs thr (L.map (colOf P S1 S2)), ?_, ?_, ?_, p2⟩
  · unfold pairBuild
    rw [hloop]
    dsimp only
    have hus : pairUsers P lt E P.toAdd = .ok [] := rfl
    rw [← hes, if_neg (by rw [show P.toAdd = [] from rfl]; simpa using hlen), if_neg (by rw [show P.toAdd = [] from rfl]; simp), hus]
    dsimp only
    rw [List.append_nil, ← hes, if_neg (by rw [show P.toAdd = [] from rfl]; simpa using hlen), show P.thr = thr from rfl, if_neg]
    rw [p1, p2, not_or]
    constructor
    · obtain ⟨s, hs⟩ := List.exists_mem_of_ne_nil _ hn1
      obtain ⟨t, ht⟩ := List.exists_mem_of_ne_nil _ hn2
      intro hn
      have := (hkept (s, t)).2 (mem_sq2.2 ⟨hs, ht⟩)
      rw [hn] at this
      cases this
    · intro hn
      rw [List.map_eq_nil_iff] at hn
      obtain ⟨b, hb, rb⟩ := g2.both u2 hh2 hn2 1 (Or.inl rfl)
      obtain ⟨a, ha, ra⟩ := g1.both u1 hh1 hn1 (-e.unit) (by unfold Par.unit; split_ifs <;> simp)
      have : (a, b) ∈ reflPairs S1 S2 r1 r2 e := List.mem_filter.2 ⟨(mem_allPairs _ _ _).2 ⟨ha, hb⟩, by simp [ra, rb]⟩
      rw [hn] at this
      cases this
  · rw [p1]; exact (nodup_statesOf _).filter _
  · intro x; rw [p1]; exact hkept x

end

end PI
