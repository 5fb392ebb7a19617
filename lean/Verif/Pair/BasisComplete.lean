import Verif.Pair.Basis
import Mathlib.Algebra.BigOperators.Ring.Finset
import Mathlib.Algebra.BigOperators.Field
import Mathlib.Algebra.Order.BigOperators.Group.Finset

/-!
# C41: orthonormality and completeness of the permutation symmetric pair basis
-/

namespace PI

/-- The coefficient of a state in a one-atom basis vector. -/
noncomputable def coef1 (u : List (AState × ℂ)) (s : AState) : ℂ := (u.map fun e => if e.1 = s then e.2 else 0).sum

/-- The sum of the squared moduli of the stored entries of a state in a one-atom basis vector. -/
noncomputable def weight1 (u : List (AState × ℂ)) (s : AState) : ℝ :=
  (u.map fun e => if e.1 = s then Complex.normSq e.2 else 0).sum

/-- The basis vector with the number `a`. -/
def OneSys.col (S : OneSys) (a : ℕ) : ℝ × List (AState × ℂ) := S.cols.getD a (0, [])

/-- A one-atom system whose coefficient matrix is unitary: a complete basis, such as a diagonalised system without
restrictions on the basis vectors. -/
structure UnitarySys (S : OneSys) : Prop where
  nodup : S.states.Nodup
  rows : ∀ u ∈ S.cols, (u.2.map (·.1)).Nodup ∧ ∀ e ∈ u.2, e.1 ∈ S.states
  ortho : ∀ a < S.cols.length, ∀ b < S.cols.length,
    ∑ s ∈ S.states.toFinset, (starRingEnd ℂ) (coef1 (S.col a).2 s) * coef1 (S.col b).2 s = if a = b then 1 else 0
  complete : ∀ s ∈ S.states, ∀ t ∈ S.states,
    ∑ a ∈ Finset.range S.cols.length, (starRingEnd ℂ) (coef1 (S.col a).2 s) * coef1 (S.col a).2 t = if s = t then 1 else 0

theorem coef1_of_not_mem (u : List (AState × ℂ)) (s : AState) (h : s ∉ u.map (·.1)) : coef1 u s = 0 := by
  unfold coef1
  apply List.sum_eq_zero
  intro x hx
  rw [List.mem_map] at hx
  obtain ⟨e, he, rfl⟩ := hx
  rw [if_neg]
  rintro rfl
  exact h (List.mem_map.2 ⟨e, he, rfl⟩)

theorem weight1_of_not_mem (u : List (AState × ℂ)) (s : AState) (h : s ∉ u.map (·.1)) : weight1 u s = 0 := by
  unfold weight1
  apply List.sum_eq_zero
  intro x hx
  rw [List.mem_map] at hx
  obtain ⟨e, he, rfl⟩ := hx
  rw [if_neg]
  rintro rfl
  exact h (List.mem_map.2 ⟨e, he, rfl⟩)

theorem weight1_eq (u : List (AState × ℂ)) (hn : (u.map (·.1)).Nodup) (s : AState) :
    weight1 u s = Complex.normSq (coef1 u s) := by
  induction u with
  | nil => simp [weight1, coef1]
  | cons e u ih =>
    rw [List.map_cons, List.nodup_cons] at hn
    have ih := ih hn.2
    by_cases h : e.1 = s
    · have hs : s ∉ u.map (·.1) := h ▸ hn.1
      have a := coef1_of_not_mem u s hs
      have b := weight1_of_not_mem u s hs
      unfold coef1 at a ⊢
      unfold weight1 at b ⊢
      simp only [List.map_cons, List.sum_cons, a, b, if_pos h, add_zero]
    · unfold coef1 at ih ⊢
      unfold weight1 at ih ⊢
      simp only [List.map_cons, List.sum_cons, if_neg h, zero_add, ih]

/-! ## The loop over the pairs as a list -/

/-- The column of a pair of basis vectors. -/
noncomputable def colOf (P : PairSet) (S1 S2 : OneSys) (ab : ℕ × ℕ) : ℝ × List PEntry :=
  ((S1.col ab.1).1 + (S2.col ab.2).1,
    pairColumn (P.sym.local_ (artCol (S1.col ab.1).2 || artCol (S2.col ab.2).2)) (decide (ab.1 ≠ ab.2)) (S1.col ab.1).2 (S2.col ab.2).2)

/-- The pairs of basis vectors that are not skipped. -/
noncomputable def keepOf (P : PairSet) (S1 S2 : OneSys) (ab : ℕ × ℕ) : Bool :=
  !(P.sym.local_ (artCol (S1.col ab.1).2 || artCol (S2.col ab.2).2)).skips (decide (ab.1 ≤ ab.2)) (decide (ab.1 < ab.2)) &&
  P.energyOk ((S1.col ab.1).1 + (S2.col ab.2).1)

theorem pairLoop_eq (P : PairSet) (S1 S2 : OneSys) (ps : List (ℕ × ℕ))
    (hb : ∀ ab ∈ ps, ab.1 < S1.cols.length ∧ ab.2 < S2.cols.length)
    (hj : ∀ ab ∈ ps, keepOf P S1 S2 ab = true → artCol (S1.col ab.1).2 = false → artCol (S2.col ab.2).2 = false →
      nanJ (S1.col ab.1).2 (S2.col ab.2).2 = false) :
    pairLoop P S1 S2 ps = .ok ((ps.filter (keepOf P S1 S2)).map (colOf P S1 S2)) := by
  induction ps with
  | nil => rfl
  | cons ab ps ih =>
    have ih := ih (fun x hx => hb x (List.mem_cons_of_mem _ hx)) (fun x hx => hj x (List.mem_cons_of_mem _ hx))
    obtain ⟨b1, b2⟩ := hb ab List.mem_cons_self
    have e1 : S1.cols[ab.1]? = some (S1.col ab.1) := by
      simp [OneSys.col, List.getD_eq_getElem?_getD, List.getElem?_eq_getElem b1]
    have e2 : S2.cols[ab.2]? = some (S2.col ab.2) := by
      simp [OneSys.col, List.getD_eq_getElem?_getD, List.getElem?_eq_getElem b2]
    unfold pairLoop
    rw [e1, e2]
    dsimp only
    by_cases h1 : (P.sym.local_ (artCol (S1.col ab.1).2 || artCol (S2.col ab.2).2)).skips (decide (ab.1 ≤ ab.2)) (decide (ab.1 < ab.2)) = true
    · rw [if_pos h1, ih, List.filter_cons_of_neg]
      unfold keepOf; rw [h1]; simp
    rw [if_neg h1]
    by_cases h2 : P.energyOk ((S1.col ab.1).1 + (S2.col ab.2).1) = false
    · rw [if_pos h2, ih, List.filter_cons_of_neg]
      unfold keepOf; rw [h2]; simp
    rw [if_neg h2]
    have hk : keepOf P S1 S2 ab = true := by
      unfold keepOf
      rw [Bool.not_eq_true] at h1
      rw [h1, Bool.not_eq_false] at *
      rw [h2]; rfl
    rw [if_neg, ih, List.filter_cons_of_pos hk, List.map_cons]
    · rfl
    · rintro ⟨a, b, c⟩
      rw [hj ab List.mem_cons_self hk a b] at c
      exact absurd c (by simp)

theorem mem_allPairs (k1 k2 : ℕ) (ab : ℕ × ℕ) : ab ∈ allPairs k1 k2 ↔ ab.1 < k1 ∧ ab.2 < k2 := by
  unfold allPairs
  rw [List.mem_flatMap]
  constructor
  · rintro ⟨a, ha, hb⟩
    rw [List.mem_map] at hb
    obtain ⟨b, hb, rfl⟩ := hb
    exact ⟨List.mem_range.1 ha, List.mem_range.1 hb⟩
  · rintro ⟨h1, h2⟩
    exact ⟨ab.1, List.mem_range.2 h1, List.mem_map.2 ⟨ab.2, List.mem_range.2 h2, rfl⟩⟩

theorem sum_filter_list {α M : Type} [AddCommMonoid M] (L : List α) (q : α → Bool) (f : α → M) :
    ((L.filter q).map f).sum = (L.map fun x => if q x = true then f x else 0).sum := by
  induction L with
  | nil => rfl
  | cons x L ih =>
    by_cases h : q x = true
    · rw [List.filter_cons_of_pos h, List.map_cons, List.sum_cons, List.map_cons, List.sum_cons, ih, if_pos h]
    · rw [List.filter_cons_of_neg h, List.map_cons, List.sum_cons, ih, if_neg h, zero_add]

theorem sum_range_list {M : Type} [AddCommMonoid M] (k : ℕ) (f : ℕ → M) :
    ((List.range k).map f).sum = ∑ a ∈ Finset.range k, f a := by
  induction k with
  | zero => rfl
  | succ k ih => rw [List.range_succ, List.map_append, List.sum_append, ih, Finset.sum_range_succ]; simp

theorem sum_allPairs {M : Type} [AddCommMonoid M] (k1 k2 : ℕ) (q : ℕ × ℕ → Bool) (f : ℕ × ℕ → M) :
    (((allPairs k1 k2).filter q).map f).sum =
      ∑ a ∈ Finset.range k1, ∑ b ∈ Finset.range k2, if q (a, b) = true then f (a, b) else 0 := by
  rw [sum_filter_list]
  unfold allPairs
  rw [← sum_range_list]
  generalize List.range k1 = L
  induction L with
  | nil => rfl
  | cons a L ih =>
    rw [List.flatMap_cons, List.map_append, List.sum_append, ih, List.map_cons, List.sum_cons, List.map_map,
      ← sum_range_list]
    rfl

/-! ## The entries of a column -/

theorem sum_pair_ite {R : Type} [CommSemiring R] (u w : List (AState × ℂ)) (f : ℂ → R) (s t : AState) :
    (u.map fun e1 => (w.map fun e2 => if (e1.1, e2.1) = (s, t) then f e1.2 * f e2.2 else 0).sum).sum =
      (u.map fun e => if e.1 = s then f e.2 else 0).sum * (w.map fun e => if e.1 = t then f e.2 else 0).sum := by
  rw [← List.sum_map_mul_right]
  congr 1
  refine List.map_congr_left fun e1 _ => ?_
  rw [← List.sum_map_mul_left]
  congr 1
  refine List.map_congr_left fun e2 _ => ?_
  by_cases h1 : e1.1 = s <;> by_cases h2 : e2.1 = t <;> simp [h1, h2]

/-- A symmetry without reflection and rotation. -/
structure SwapOnly (y : PairSym) : Prop where
  refl : y.refl = .na
  rot : y.rot = none
  swap : y.inv ≠ .na ∨ y.perm ≠ .na

theorem swapOnly_body (y : PairSym) (h : SwapOnly y) (p : AState × AState) (v : ℂ) (hd : ¬ y.drops true p) :
    pairBody y true p v = [(p, v / (Real.sqrt 2 : ℂ)), (swapP p, v / (Real.sqrt 2 : ℂ) * (y.swapS p : ℂ))] := by
  rw [pairBody_true y p v h.swap hd, if_neg (fun hh => hh.1 h.refl), List.append_nil]
  unfold PairSym.scale
  rw [if_neg (fun hh => hh.1 h.refl), if_pos ⟨h.swap, rfl⟩]

theorem swapOnly_body_diag (y : PairSym) (h : SwapOnly y) (p : AState × AState) (v : ℂ) :
    pairBody y false p v = [(p, v)] := by
  have hd : ¬ y.drops false p := by
    unfold PairSym.drops PairSym.rotExcludes
    rw [h.rot]; simp
  rw [pairBody_plain y false p v (by simp) hd, if_neg (fun hh => hh h.refl), List.append_nil]
  unfold PairSym.scale
  rw [if_neg (fun hh => hh.1 h.refl), if_neg (by simp)]

/-- The coefficients of the column of two different basis vectors. -/
theorem column_coef (y : PairSym) (h : SwapOnly y) (u w : List (AState × ℂ)) (ε : ℤ)
    (hε : ∀ e1 ∈ u, ∀ e2 ∈ w, ¬ y.drops true (e1.1, e2.1) ∧ y.swapS (e1.1, e2.1) = ε) (s t : AState) :
    coefP (pairColumn y true u w) (s, t) =
      (coef1 u s * coef1 w t + (ε : ℂ) * (coef1 w s * coef1 u t)) / (Real.sqrt 2 : ℂ) := by
  have hA := sum_pair_ite u w (fun z => z) s t
  have hB := sum_pair_ite u w (fun z => z) t s
  have : coefP (pairColumn y true u w) (s, t) =
      (u.map fun e1 => (w.map fun e2 => ((if (e1.1, e2.1) = (s, t) then e1.2 * e2.2 else 0) +
        (ε : ℂ) * (if (e1.1, e2.1) = (t, s) then e1.2 * e2.2 else 0)) / (Real.sqrt 2 : ℂ)).sum).sum := by
    unfold pairColumn
    rw [coefP_flatMap]
    congr 1
    refine List.map_congr_left fun e1 h1 => ?_
    rw [coefP_flatMap]
    congr 1
    refine List.map_congr_left fun e2 h2 => ?_
    obtain ⟨hd, hs⟩ := hε e1 h1 e2 h2
    rw [swapOnly_body y h _ _ hd, hs, coefP_cons, coefP_cons, coefP_nil]
    have e : (swapP (e1.1, e2.1) = (s, t)) ↔ ((e1.1, e2.1) = (t, s)) := by
      unfold swapP; simp only [Prod.mk.injEq]; tauto
    simp only [e]
    split_ifs <;> ring
  rw [this]
  unfold coef1
  rw [← hA, mul_comm (List.sum (List.map _ w)), ← hB]
  simp only [div_eq_mul_inv, List.sum_map_mul_right, List.sum_map_add, List.sum_map_mul_left]

theorem column_coef_diag (y : PairSym) (h : SwapOnly y) (u : List (AState × ℂ)) (s t : AState) :
    coefP (pairColumn y false u u) (s, t) = coef1 u s * coef1 u t := by
  have hA := sum_pair_ite u u (fun z => z) s t
  unfold coef1
  rw [← hA]
  unfold pairColumn
  rw [coefP_flatMap]
  congr 1
  refine List.map_congr_left fun e1 h1 => ?_
  rw [coefP_flatMap]
  congr 1
  refine List.map_congr_left fun e2 h2 => ?_
  rw [swapOnly_body_diag y h, coefP_cons, coefP_nil, add_zero]

theorem normSq_div_sqrt2 (v : ℂ) : Complex.normSq (v / (Real.sqrt 2 : ℂ)) = Complex.normSq v / 2 := by
  rw [Complex.normSq_div, Complex.normSq_ofReal, Real.mul_self_sqrt (by norm_num)]

theorem normSq_sign (v : ℂ) (s : ℤ) (hs : s * s = 1) : Complex.normSq (v * (s : ℂ)) = Complex.normSq v := by
  rw [Complex.normSq_mul]
  have : Complex.normSq ((s : ℂ)) = 1 := by
    rw [show ((s : ℂ)) = ((s : ℝ) : ℂ) by push_cast; rfl, Complex.normSq_ofReal]
    exact_mod_cast hs
  rw [this, mul_one]

theorem column_weight (y : PairSym) (h : SwapOnly y) (u w : List (AState × ℂ))
    (hε : ∀ e1 ∈ u, ∀ e2 ∈ w, ¬ y.drops true (e1.1, e2.1)) (s t : AState) :
    weightP (pairColumn y true u w) (s, t) = (weight1 u s * weight1 w t + weight1 w s * weight1 u t) / 2 := by
  have hA := sum_pair_ite u w Complex.normSq s t
  have hB := sum_pair_ite u w Complex.normSq t s
  have : weightP (pairColumn y true u w) (s, t) =
      (u.map fun e1 => (w.map fun e2 => ((if (e1.1, e2.1) = (s, t) then Complex.normSq e1.2 * Complex.normSq e2.2 else 0) +
        (if (e1.1, e2.1) = (t, s) then Complex.normSq e1.2 * Complex.normSq e2.2 else 0)) / 2).sum).sum := by
    unfold pairColumn
    rw [weightP_flatMap]
    congr 1
    refine List.map_congr_left fun e1 h1 => ?_
    rw [weightP_flatMap]
    congr 1
    refine List.map_congr_left fun e2 h2 => ?_
    rw [swapOnly_body y h _ _ (hε e1 h1 e2 h2), weightP_cons, weightP_cons, weightP_nil]
    dsimp only
    rw [normSq_sign _ _ (swapS_sq y _), normSq_div_sqrt2, Complex.normSq_mul]
    have e : (swapP (e1.1, e2.1) = (s, t)) ↔ ((e1.1, e2.1) = (t, s)) := by
      unfold swapP; simp only [Prod.mk.injEq]; tauto
    simp only [e]
    split_ifs <;> ring
  rw [this]
  unfold weight1
  rw [← hA, mul_comm (List.sum (List.map _ w)), ← hB]
  simp only [div_eq_mul_inv, List.sum_map_mul_right, List.sum_map_add]

theorem column_weight_diag (y : PairSym) (h : SwapOnly y) (u : List (AState × ℂ)) (s t : AState) :
    weightP (pairColumn y false u u) (s, t) = weight1 u s * weight1 u t := by
  have hA := sum_pair_ite u u Complex.normSq s t
  unfold weight1
  rw [← hA]
  unfold pairColumn
  rw [weightP_flatMap]
  congr 1
  refine List.map_congr_left fun e1 h1 => ?_
  rw [weightP_flatMap]
  congr 1
  refine List.map_congr_left fun e2 h2 => ?_
  rw [swapOnly_body_diag y h, weightP_cons, weightP_nil, add_zero, Complex.normSq_mul]


/-! ## The symmetrised products of orthonormal vectors -/

/-- The symmetrised product of two basis vectors with the sign `sg`. -/
noncomputable def symProd (S : OneSys) (sg : ℤ) (a b : ℕ) (p : AState × AState) : ℂ :=
  if a = b then coef1 (S.col a).2 p.1 * coef1 (S.col a).2 p.2 else
  (coef1 (S.col a).2 p.1 * coef1 (S.col b).2 p.2 + (sg : ℂ) * (coef1 (S.col b).2 p.1 * coef1 (S.col a).2 p.2)) / (Real.sqrt 2 : ℂ)

/-- All pairs of one-atom states. -/
def OneSys.sq (S : OneSys) : Finset (AState × AState) := S.states.toFinset ×ˢ S.states.toFinset

theorem tens_ip (S : OneSys) (hS : UnitarySys S) {a b c d : ℕ} (ha : a < S.cols.length) (hb : b < S.cols.length)
    (hc : c < S.cols.length) (hd : d < S.cols.length) :
    ∑ p ∈ S.sq, (starRingEnd ℂ) (coef1 (S.col a).2 p.1 * coef1 (S.col b).2 p.2) * (coef1 (S.col c).2 p.1 * coef1 (S.col d).2 p.2) =
      (if a = c then 1 else 0) * (if b = d then 1 else 0) := by
  rw [← hS.ortho a ha c hc, ← hS.ortho b hb d hd, Finset.sum_mul_sum]
  unfold OneSys.sq
  rw [Finset.sum_product]
  refine Finset.sum_congr rfl fun s _ => Finset.sum_congr rfl fun t _ => ?_
  rw [map_mul]; ring

theorem sqrt2_mul : (Real.sqrt 2 : ℂ) * (Real.sqrt 2 : ℂ) = 2 := by
  rw [← Complex.ofReal_mul, Real.mul_self_sqrt (by norm_num)]; simp

theorem sqrt2_ne : (Real.sqrt 2 : ℂ) ≠ 0 := by
  intro h
  have := sqrt2_mul
  rw [h] at this
  norm_num at this

theorem conj_sqrt2 : (starRingEnd ℂ) (Real.sqrt 2 : ℂ) = (Real.sqrt 2 : ℂ) := Complex.conj_ofReal _

theorem symProd_ip (S : OneSys) (hS : UnitarySys S) (sg sg' : ℤ) {a b c d : ℕ} (ha : a < S.cols.length)
    (hc : c < S.cols.length) (hba : b ≤ a) (hdc : d ≤ c) :
    ∑ p ∈ S.sq, (starRingEnd ℂ) (symProd S sg a b p) * symProd S sg' c d p =
      if (a, b) = (c, d) then (if a = b then 1 else (1 + (sg : ℂ) * sg') / 2) else 0 := by
  have hb : b < S.cols.length := lt_of_le_of_lt hba ha
  have hd : d < S.cols.length := lt_of_le_of_lt hdc hc
  have h2 := sqrt2_mul
  have h0 := sqrt2_ne
  by_cases hab : a = b
  · by_cases hcd : c = d
    · subst hab; subst hcd
      unfold symProd
      simp only [if_true]
      rw [tens_ip S hS ha ha hc hc]
      by_cases h : a = c <;> simp [h]
    · subst hab
      unfold symProd
      simp only [if_true, if_neg hcd]
      have e : ∀ p : AState × AState, (starRingEnd ℂ) (coef1 (S.col a).2 p.1 * coef1 (S.col a).2 p.2) *
          ((coef1 (S.col c).2 p.1 * coef1 (S.col d).2 p.2 + (sg' : ℂ) * (coef1 (S.col d).2 p.1 * coef1 (S.col c).2 p.2)) / (Real.sqrt 2 : ℂ)) =
          (1 / (Real.sqrt 2 : ℂ)) * ((starRingEnd ℂ) (coef1 (S.col a).2 p.1 * coef1 (S.col a).2 p.2) * (coef1 (S.col c).2 p.1 * coef1 (S.col d).2 p.2)) +
          ((sg' : ℂ) / (Real.sqrt 2 : ℂ)) * ((starRingEnd ℂ) (coef1 (S.col a).2 p.1 * coef1 (S.col a).2 p.2) * (coef1 (S.col d).2 p.1 * coef1 (S.col c).2 p.2)) := by
        intro p; ring
      simp_rw [e, Finset.sum_add_distrib, ← Finset.mul_sum]
      rw [tens_ip S hS ha ha hc hd, tens_ip S hS ha ha hd hc]
      have hne : ¬ ((a, a) = (c, d)) := by
        intro h; rw [Prod.mk.injEq] at h; exact hcd (h.1.symm.trans h.2)
      rw [if_neg hne]
      by_cases h1 : a = c
      · rw [if_neg (fun h => hcd (h1.symm.trans h))]; ring
      · rw [if_neg h1]; ring
  · by_cases hcd : c = d
    · subst hcd
      unfold symProd
      simp only [if_true, if_neg hab]
      have e : ∀ p : AState × AState, (starRingEnd ℂ) ((coef1 (S.col a).2 p.1 * coef1 (S.col b).2 p.2 + (sg : ℂ) * (coef1 (S.col b).2 p.1 * coef1 (S.col a).2 p.2)) / (Real.sqrt 2 : ℂ)) *
          (coef1 (S.col c).2 p.1 * coef1 (S.col c).2 p.2) =
          (1 / (Real.sqrt 2 : ℂ)) * ((starRingEnd ℂ) (coef1 (S.col a).2 p.1 * coef1 (S.col b).2 p.2) * (coef1 (S.col c).2 p.1 * coef1 (S.col c).2 p.2)) +
          ((sg : ℂ) / (Real.sqrt 2 : ℂ)) * ((starRingEnd ℂ) (coef1 (S.col b).2 p.1 * coef1 (S.col a).2 p.2) * (coef1 (S.col c).2 p.1 * coef1 (S.col c).2 p.2)) := by
        intro p
        rw [map_div₀, map_add, map_mul (starRingEnd ℂ) (sg : ℂ), conj_sqrt2, map_intCast]
        ring
      simp_rw [e, Finset.sum_add_distrib, ← Finset.mul_sum]
      rw [tens_ip S hS ha hb hc hc, tens_ip S hS hb ha hc hc]
      have hne : ¬ ((a, b) = (c, c)) := by
        intro h; rw [Prod.mk.injEq] at h; exact hab (h.1.trans h.2.symm)
      rw [if_neg hne]
      by_cases h1 : a = c
      · rw [if_neg (fun h => hab (h1.trans (Eq.symm h)))]; ring
      · rw [if_neg h1]; ring
    · unfold symProd
      simp only [if_neg hcd, if_neg hab]
      have e : ∀ p : AState × AState, (starRingEnd ℂ) ((coef1 (S.col a).2 p.1 * coef1 (S.col b).2 p.2 + (sg : ℂ) * (coef1 (S.col b).2 p.1 * coef1 (S.col a).2 p.2)) / (Real.sqrt 2 : ℂ)) *
          ((coef1 (S.col c).2 p.1 * coef1 (S.col d).2 p.2 + (sg' : ℂ) * (coef1 (S.col d).2 p.1 * coef1 (S.col c).2 p.2)) / (Real.sqrt 2 : ℂ)) =
          (1 / 2) * ((starRingEnd ℂ) (coef1 (S.col a).2 p.1 * coef1 (S.col b).2 p.2) * (coef1 (S.col c).2 p.1 * coef1 (S.col d).2 p.2)) +
          ((sg' : ℂ) / 2) * ((starRingEnd ℂ) (coef1 (S.col a).2 p.1 * coef1 (S.col b).2 p.2) * (coef1 (S.col d).2 p.1 * coef1 (S.col c).2 p.2)) +
          ((sg : ℂ) / 2) * ((starRingEnd ℂ) (coef1 (S.col b).2 p.1 * coef1 (S.col a).2 p.2) * (coef1 (S.col c).2 p.1 * coef1 (S.col d).2 p.2)) +
          ((sg : ℂ) * sg' / 2) * ((starRingEnd ℂ) (coef1 (S.col b).2 p.1 * coef1 (S.col a).2 p.2) * (coef1 (S.col d).2 p.1 * coef1 (S.col c).2 p.2)) := by
        intro p
        rw [map_div₀, map_add, map_mul (starRingEnd ℂ) (sg : ℂ), conj_sqrt2, map_intCast, div_mul_div_comm, h2]
        ring
      simp_rw [e, Finset.sum_add_distrib, ← Finset.mul_sum]
      rw [tens_ip S hS ha hb hc hd, tens_ip S hS ha hb hd hc, tens_ip S hS hb ha hc hd, tens_ip S hS hb ha hd hc]
      have z1 : ((if a = d then (1 : ℂ) else 0) * (if b = c then 1 else 0)) = 0 := by
        by_cases h1 : a = d
        · rw [if_neg (fun h : b = c => by omega)]; ring
        · rw [if_neg h1]; ring
      have z2 : ((if b = c then (1 : ℂ) else 0) * (if a = d then 1 else 0)) = 0 := by rw [mul_comm]; exact z1
      rw [z1, z2]
      by_cases h1 : a = c <;> by_cases h2 : b = d <;> simp [h1, h2] <;> ring

theorem tri_sum {M : Type} [AddCommMonoid M] (k : ℕ) (g : ℕ → ℕ → M) :
    (∑ a ∈ Finset.range k, ∑ b ∈ Finset.range k, if b < a then g a b + g b a else 0) + ∑ a ∈ Finset.range k, g a a =
      ∑ a ∈ Finset.range k, ∑ b ∈ Finset.range k, g a b := by
  have e1 : (∑ a ∈ Finset.range k, ∑ b ∈ Finset.range k, if b < a then g a b + g b a else 0) =
      (∑ a ∈ Finset.range k, ∑ b ∈ Finset.range k, if b < a then g a b else 0) +
      (∑ a ∈ Finset.range k, ∑ b ∈ Finset.range k, if a < b then g a b else 0) := by
    rw [Finset.sum_comm (f := fun a b => if a < b then g a b else 0), ← Finset.sum_add_distrib]
    refine Finset.sum_congr rfl fun a _ => ?_
    rw [← Finset.sum_add_distrib]
    refine Finset.sum_congr rfl fun b _ => ?_
    by_cases h : b < a <;> simp [h]
  have e2 : ∑ a ∈ Finset.range k, g a a = ∑ a ∈ Finset.range k, ∑ b ∈ Finset.range k, if a = b then g a b else 0 := by
    refine Finset.sum_congr rfl fun a ha => ?_
    rw [Finset.sum_ite_eq, if_pos ha]
  rw [e1, e2, ← Finset.sum_add_distrib, ← Finset.sum_add_distrib]
  refine Finset.sum_congr rfl fun a _ => ?_
  rw [← Finset.sum_add_distrib, ← Finset.sum_add_distrib]
  refine Finset.sum_congr rfl fun b _ => ?_
  rcases lt_trichotomy a b with h | h | h
  · simp [h, h.not_gt, h.ne]
  · simp [h]
  · simp [h, h.not_gt, h.ne']

theorem symProd_complete (S : OneSys) (hS : UnitarySys S) (sg : ℕ → ℕ → ℤ) (hsg : ∀ a b, sg a b * sg a b = 1)
    (p q : AState × AState) (hp : p ∈ S.sq) (hq : q ∈ S.sq) :
    (∑ a ∈ Finset.range S.cols.length, ∑ b ∈ Finset.range S.cols.length,
      if b < a then (starRingEnd ℂ) (symProd S (sg a b) a b p) * symProd S (sg a b) a b q +
        (starRingEnd ℂ) (symProd S (- sg a b) a b p) * symProd S (- sg a b) a b q else 0) +
    ∑ a ∈ Finset.range S.cols.length, (starRingEnd ℂ) (symProd S 1 a a p) * symProd S 1 a a q =
      if p = q then 1 else 0 := by
  unfold OneSys.sq at hp hq
  rw [Finset.mem_product, List.mem_toFinset, List.mem_toFinset] at hp hq
  have h2 := sqrt2_mul
  let g : ℕ → ℕ → ℂ := fun a b =>
    (starRingEnd ℂ) (coef1 (S.col a).2 p.1 * coef1 (S.col b).2 p.2) * (coef1 (S.col a).2 q.1 * coef1 (S.col b).2 q.2)
  have e1 : ∀ a b : ℕ, (if b < a then (starRingEnd ℂ) (symProd S (sg a b) a b p) * symProd S (sg a b) a b q +
        (starRingEnd ℂ) (symProd S (- sg a b) a b p) * symProd S (- sg a b) a b q else 0) =
      if b < a then g a b + g b a else 0 := by
    intro a b
    by_cases h : b < a
    · rw [if_pos h, if_pos h]
      unfold symProd
      simp only [if_neg h.ne']
      have hs : ((sg a b : ℂ)) * (sg a b : ℂ) = 1 := by exact_mod_cast hsg a b
      rw [map_div₀, map_div₀, map_add, map_add, map_mul (starRingEnd ℂ) ((sg a b : ℤ) : ℂ),
        map_mul (starRingEnd ℂ) ((-(sg a b) : ℤ) : ℂ), conj_sqrt2, map_intCast, map_intCast,
        div_mul_div_comm, div_mul_div_comm, h2]
      push_cast
      dsimp only [g]
      rw [map_mul, map_mul]
      linear_combination ((starRingEnd ℂ) (coef1 (S.col b).2 p.1) * (starRingEnd ℂ) (coef1 (S.col a).2 p.2) * (coef1 (S.col b).2 q.1 * coef1 (S.col a).2 q.2)) * hs
    · rw [if_neg h, if_neg h]
  have e2 : ∀ a : ℕ, (starRingEnd ℂ) (symProd S 1 a a p) * symProd S 1 a a q = g a a := by
    intro a
    unfold symProd
    simp only [if_true]
    rfl
  simp_rw [e1, e2]
  rw [tri_sum]
  have e3 : ∑ a ∈ Finset.range S.cols.length, ∑ b ∈ Finset.range S.cols.length, g a b =
      (if p.1 = q.1 then 1 else 0) * (if p.2 = q.2 then 1 else 0) := by
    rw [← hS.complete p.1 hp.1 q.1 hq.1, ← hS.complete p.2 hp.2 q.2 hq.2, Finset.sum_mul_sum]
    refine Finset.sum_congr rfl fun a _ => Finset.sum_congr rfl fun b _ => ?_
    dsimp only [g]
    rw [map_mul]; ring
  rw [e3]
  by_cases h1 : p.1 = q.1 <;> by_cases h2 : p.2 = q.2 <;> simp [Prod.ext_iff, h1, h2]


/-! ## The build -/

theorem coef1_zero_of_not_mem (S : OneSys) (hS : UnitarySys S) (a : ℕ) (s : AState) (hs : s ∉ S.states) :
    coef1 (S.col a).2 s = 0 := by
  apply coef1_of_not_mem
  intro h
  rw [List.mem_map] at h
  obtain ⟨e, he, rfl⟩ := h
  apply hs
  by_cases ha : a < S.cols.length
  · have : S.col a ∈ S.cols := by
      have : S.col a = S.cols[a] := by simp [OneSys.col, List.getD_eq_getElem?_getD, List.getElem?_eq_getElem ha]
      rw [this]; exact List.getElem_mem ha
    exact (hS.rows _ this).2 e he
  · have : S.col a = (0, []) := by
      simp [OneSys.col, List.getD_eq_getElem?_getD, List.getElem?_eq_none (not_lt.1 ha)]
    rw [this] at he; simp at he

theorem col_mem (S : OneSys) {a : ℕ} (ha : a < S.cols.length) : S.col a ∈ S.cols := by
  have : S.col a = S.cols[a] := by simp [OneSys.col, List.getD_eq_getElem?_getD, List.getElem?_eq_getElem ha]
  rw [this]; exact List.getElem_mem ha

theorem symProd_outside (S : OneSys) (hS : UnitarySys S) (sg : ℤ) (a b : ℕ) (p : AState × AState) (hp : p ∉ S.sq) :
    symProd S sg a b p = 0 := by
  unfold OneSys.sq at hp
  rw [Finset.mem_product, List.mem_toFinset, List.mem_toFinset, not_and_or] at hp
  unfold symProd
  rcases hp with h | h
  · simp only [coef1_zero_of_not_mem S hS _ _ h]; simp
  · simp only [coef1_zero_of_not_mem S hS _ _ h]; simp

/-- Squared moduli of the entries of a row of a unitary matrix. -/
theorem row_weight (S : OneSys) (hS : UnitarySys S) (s : AState) (hs : s ∈ S.states) :
    ∑ a ∈ Finset.range S.cols.length, Complex.normSq (coef1 (S.col a).2 s) = 1 := by
  have h := hS.complete s hs s hs
  rw [if_pos rfl] at h
  have : ∀ a, (starRingEnd ℂ) (coef1 (S.col a).2 s) * coef1 (S.col a).2 s = (Complex.normSq (coef1 (S.col a).2 s) : ℂ) :=
    fun a => (Complex.normSq_eq_conj_mul_self).symm
  simp_rw [this, ← Complex.ofReal_sum] at h
  exact_mod_cast h

/-- Two different rows of a unitary matrix cannot have their weight in the same column. -/
theorem row_overlap (S : OneSys) (hS : UnitarySys S) (s t : AState) (hs : s ∈ S.states) (ht : t ∈ S.states) (hst : s ≠ t) :
    ∑ a ∈ Finset.range S.cols.length, Complex.normSq (coef1 (S.col a).2 s) * Complex.normSq (coef1 (S.col a).2 t) ≤ 1 / 2 := by
  set k := S.cols.length
  set x : ℕ → ℝ := fun a => ‖coef1 (S.col a).2 s‖ * ‖coef1 (S.col a).2 t‖ with hx
  have x0 : ∀ a, 0 ≤ x a := fun a => mul_nonneg (norm_nonneg _) (norm_nonneg _)
  have T1 : ∑ a ∈ Finset.range k, x a ≤ 1 := by
    have h1 := row_weight S hS s hs
    have h2 := row_weight S hS t ht
    have : ∀ a ∈ Finset.range k, x a ≤ (Complex.normSq (coef1 (S.col a).2 s) + Complex.normSq (coef1 (S.col a).2 t)) / 2 := by
      intro a _
      rw [Complex.normSq_eq_norm_sq, Complex.normSq_eq_norm_sq, hx]
      dsimp only
      nlinarith [sq_nonneg (‖coef1 (S.col a).2 s‖ - ‖coef1 (S.col a).2 t‖)]
    refine le_trans (Finset.sum_le_sum this) ?_
    rw [← Finset.sum_div, Finset.sum_add_distrib, h1, h2]
    norm_num
  have half : ∀ i ∈ Finset.range k, x i ≤ 1 / 2 := by
    intro i hi
    have h := hS.complete s hs t ht
    rw [if_neg hst, ← Finset.add_sum_erase _ _ hi] at h
    have h' : (starRingEnd ℂ) (coef1 (S.col i).2 s) * coef1 (S.col i).2 t =
        - ∑ a ∈ (Finset.range k).erase i, (starRingEnd ℂ) (coef1 (S.col a).2 s) * coef1 (S.col a).2 t := by
      linear_combination h
    have n1 : x i = ‖(starRingEnd ℂ) (coef1 (S.col i).2 s) * coef1 (S.col i).2 t‖ := by
      rw [norm_mul, RCLike.norm_conj]
    have n2 : x i ≤ ∑ a ∈ (Finset.range k).erase i, x a := by
      rw [n1, h', norm_neg]
      refine le_trans (norm_sum_le _ _) (Finset.sum_le_sum fun a _ => ?_)
      rw [norm_mul, RCLike.norm_conj]
    have n3 : x i + ∑ a ∈ (Finset.range k).erase i, x a = ∑ a ∈ Finset.range k, x a := Finset.add_sum_erase _ _ hi
    linarith
  have hs2 : ∀ a ∈ Finset.range k, Complex.normSq (coef1 (S.col a).2 s) * Complex.normSq (coef1 (S.col a).2 t) ≤ 1 / 2 * x a := by
    intro a ha
    have e : Complex.normSq (coef1 (S.col a).2 s) * Complex.normSq (coef1 (S.col a).2 t) = x a * x a := by
      rw [Complex.normSq_eq_norm_sq, Complex.normSq_eq_norm_sq, hx]; ring
    rw [e]
    exact mul_le_mul_of_nonneg_right (half a ha) (x0 a)
  refine le_trans (Finset.sum_le_sum hs2) ?_
  rw [← Finset.mul_sum]
  linarith

/-- Settings under which the columns are symmetrised products: an exchange symmetry only, with the sign `sg a b` for the
pair of basis vectors a, b. -/
structure SwapSet (P : PairSet) (S : OneSys) (sg : ℕ → ℕ → ℤ) : Prop where
  sym : SwapOnly P.sym
  emin : P.energyMin = none
  emax : P.energyMax = none
  pairs : P.pairs = []
  add : P.toAdd = []
  thr0 : 0 ≤ P.thr
  thr1 : P.thr < 1 / 4
  art : ∀ u ∈ S.cols, ∀ w ∈ S.cols, P.sym.local_ (artCol u.2 || artCol w.2) = P.sym
  spin : ∀ s ∈ S.states, ∀ t ∈ S.states, (s.j + t.j) % 2 = 0
  sq : ∀ a b, sg a b * sg a b = 1
  sign : ∀ a < S.cols.length, ∀ b < S.cols.length, ∀ e1 ∈ (S.col a).2, ∀ e2 ∈ (S.col b).2,
    a ≠ b → ¬ P.sym.drops true (e1.1, e2.1) ∧ P.sym.swapS (e1.1, e2.1) = sg a b
  same : P.sym.inv = .even ∨ P.sym.perm = .even → ∀ a b, a ≠ b → ∀ s, sg a b = -1 ∨ coef1 (S.col a).2 s * coef1 (S.col b).2 s = 0

/-- The pairs of basis vectors that become pair basis vectors. -/
def swapPairs (diag : Bool) (k : ℕ) : List (ℕ × ℕ) := (allPairs k k).filter fun ab => decide (ab.2 < ab.1) || (diag && decide (ab.1 = ab.2))

/-- Whether a basis vector is combined with itself. -/
def PairSym.diag (y : PairSym) : Bool := !(y.inv = .even || y.perm = .even)

theorem SwapSet.keep {P : PairSet} {S : OneSys} {sg : ℕ → ℕ → ℤ} (h : SwapSet P S sg) :
    (allPairs S.cols.length S.cols.length).filter (keepOf P S S) = swapPairs P.sym.diag S.cols.length := by
  unfold swapPairs
  refine List.filter_congr fun ab hab => ?_
  rw [mem_allPairs] at hab
  unfold keepOf
  rw [h.art _ (col_mem S hab.1) _ (col_mem S hab.2)]
  have he : ∀ e, P.energyOk e = true := by intro e; unfold PairSet.energyOk; rw [h.emin, h.emax]; rfl
  rw [he, Bool.and_true]
  unfold PairSym.skips PairSym.diag
  have hy := h.sym.swap
  rw [Bool.eq_iff_iff]
  cases hi : P.sym.inv <;> cases hp : P.sym.perm <;> rw [hi, hp] at hy <;> simp at hy ⊢ <;> omega

theorem SwapSet.coef {P : PairSet} {S : OneSys} {sg : ℕ → ℕ → ℤ} (h : SwapSet P S sg) (ab : ℕ × ℕ) (h1 : ab.1 < S.cols.length)
    (h2 : ab.2 < S.cols.length) (p : AState × AState) :
    coefP (colOf P S S ab).2 p = symProd S (sg ab.1 ab.2) ab.1 ab.2 p := by
  unfold colOf symProd
  dsimp only
  rw [h.art _ (col_mem S h1) _ (col_mem S h2)]
  by_cases hd : ab.1 = ab.2
  · rw [if_pos hd, show decide (ab.1 ≠ ab.2) = false by simpa using hd, ← hd]
    exact column_coef_diag _ h.sym _ p.1 p.2
  · rw [if_neg hd, show decide (ab.1 ≠ ab.2) = true by simpa using hd]
    exact column_coef _ h.sym _ _ _ (fun e1 m1 e2 m2 => h.sign _ h1 _ h2 e1 m1 e2 m2 hd) p.1 p.2

theorem SwapSet.weight {P : PairSet} {S : OneSys} {sg : ℕ → ℕ → ℤ} (h : SwapSet P S sg) (hS : UnitarySys S) (ab : ℕ × ℕ)
    (h1 : ab.1 < S.cols.length) (h2 : ab.2 < S.cols.length) (s t : AState) :
    weightP (colOf P S S ab).2 (s, t) =
      if ab.1 = ab.2 then Complex.normSq (coef1 (S.col ab.1).2 s) * Complex.normSq (coef1 (S.col ab.1).2 t)
      else (Complex.normSq (coef1 (S.col ab.1).2 s) * Complex.normSq (coef1 (S.col ab.2).2 t) +
        Complex.normSq (coef1 (S.col ab.2).2 s) * Complex.normSq (coef1 (S.col ab.1).2 t)) / 2 := by
  unfold colOf
  dsimp only
  rw [h.art _ (col_mem S h1) _ (col_mem S h2)]
  have w1 := weight1_eq _ (hS.rows _ (col_mem S h1)).1
  have w2 := weight1_eq _ (hS.rows _ (col_mem S h2)).1
  by_cases hd : ab.1 = ab.2
  · rw [if_pos hd, show decide (ab.1 ≠ ab.2) = false by simpa using hd, ← hd, column_weight_diag _ h.sym, w1, w1]
  · rw [if_neg hd, show decide (ab.1 ≠ ab.2) = true by simpa using hd,
      column_weight _ h.sym _ _ (fun e1 m1 e2 m2 => (h.sign _ h1 _ h2 e1 m1 e2 m2 hd).1), w1, w2, w1, w2]

/-- The accumulated weight of a pair state. -/
theorem SwapSet.total {P : PairSet} {S : OneSys} {sg : ℕ → ℕ → ℤ} (h : SwapSet P S sg) (hS : UnitarySys S) (s t : AState)
    (hs : s ∈ S.states) (ht : t ∈ S.states) :
    weightP (((swapPairs P.sym.diag S.cols.length).map (colOf P S S)).flatMap (·.2)) (s, t) =
      1 / 2 + (if P.sym.diag = true then 1 else -1) / 2 *
        ∑ a ∈ Finset.range S.cols.length, Complex.normSq (coef1 (S.col a).2 s) * Complex.normSq (coef1 (S.col a).2 t) := by
  rw [weightP_flatMap, List.map_map]
  unfold swapPairs
  rw [sum_allPairs]
  set k := S.cols.length
  let W : ℕ → AState → ℝ := fun a s => Complex.normSq (coef1 (S.col a).2 s)
  have e1 : ∀ a ∈ Finset.range k, ∀ b ∈ Finset.range k,
      (if (decide ((a, b).2 < (a, b).1) || (P.sym.diag && decide ((a, b).1 = (a, b).2))) = true
        then ((fun c : ℝ × List PEntry => weightP c.2 (s, t)) ∘ colOf P S S) (a, b) else 0) =
      (if b < a then W a s * W b t / 2 + W b s * W a t / 2 else 0) +
      (if a = b then (if P.sym.diag = true then W a s * W a t else 0) else 0) := by
    intro a ha b hb
    rw [Function.comp_apply, h.weight hS (a, b) (Finset.mem_range.1 ha) (Finset.mem_range.1 hb)]
    dsimp only
    by_cases hab : a = b
    · subst hab
      by_cases hd : P.sym.diag = true
      · simp [hd, W]
      · simp [hd]
    · by_cases hlt : b < a
      · simp only [hab, hlt, decide_true, decide_false, Bool.and_false, Bool.or_false, if_true, if_false, add_zero, W]; ring
      · simp only [hab, hlt, decide_false, Bool.and_false, Bool.or_false, if_false, add_zero]; simp
  rw [Finset.sum_congr rfl fun a ha => Finset.sum_congr rfl fun b hb => e1 a ha b hb]
  simp_rw [Finset.sum_add_distrib]
  have e2 := tri_sum k (fun a b => W a s * W b t / 2)
  have e3 : ∑ a ∈ Finset.range k, ∑ b ∈ Finset.range k, W a s * W b t / 2 = 1 / 2 := by
    have := Finset.sum_mul_sum (Finset.range k) (Finset.range k) (fun a => W a s) (fun b => W b t)
    rw [row_weight S hS s hs, row_weight S hS t ht] at this
    simp_rw [← Finset.sum_div]
    rw [← this]; norm_num
  have e4 : ∑ a ∈ Finset.range k, ∑ b ∈ Finset.range k, (if a = b then (if P.sym.diag = true then W a s * W a t else 0) else 0) =
      (if P.sym.diag = true then 1 else 0) * ∑ a ∈ Finset.range k, W a s * W a t := by
    rw [Finset.mul_sum]
    refine Finset.sum_congr rfl fun a ha => ?_
    rw [Finset.sum_ite_eq, if_pos ha]
    by_cases hd : P.sym.diag = true <;> simp [hd]
  rw [e4]
  rw [← Finset.sum_div, e3] at e2
  by_cases hd : P.sym.diag = true
  · simp only [hd, if_true]; linear_combination e2
  · simp only [hd]; simp only [Bool.false_eq_true, if_false]; linear_combination e2

theorem nodup_allPairs (k1 k2 : ℕ) : (allPairs k1 k2).Nodup := by
  unfold allPairs
  rw [List.nodup_flatMap]
  constructor
  · intro a _
    exact List.Nodup.map (fun x y h => (Prod.mk.inj h).2) List.nodup_range
  · refine List.Pairwise.imp ?_ (List.nodup_range (n := k1))
    intro a b hab x hx hy
    rw [List.mem_map] at hx hy
    obtain ⟨_, _, rfl⟩ := hx
    obtain ⟨_, _, h⟩ := hy
    exact hab (Prod.mk.inj h).1.symm

theorem mem_swapPairs (diag : Bool) (k : ℕ) (ab : ℕ × ℕ) :
    ab ∈ swapPairs diag k ↔ ab.1 < k ∧ (ab.2 < ab.1 ∨ diag = true ∧ ab.2 = ab.1) := by
  unfold swapPairs
  rw [List.mem_filter, mem_allPairs]
  simp only [Bool.or_eq_true, Bool.and_eq_true, decide_eq_true_eq]
  constructor
  · rintro ⟨⟨h1, h2⟩, h3⟩
    exact ⟨h1, h3.imp id fun h => ⟨h.1, h.2.symm⟩⟩
  · rintro ⟨h1, h3⟩
    exact ⟨⟨h1, by omega⟩, h3.imp id fun h => ⟨h.1, h.2.symm⟩⟩

theorem sum_list_finset {M : Type} [AddCommMonoid M] (L : List (AState × AState)) (hL : L.Nodup) (F : Finset (AState × AState))
    (hsub : ∀ p ∈ L, p ∈ F) (f : AState × AState → M) (h0 : ∀ p ∈ F, p ∉ L → f p = 0) : (L.map f).sum = ∑ p ∈ F, f p := by
  rw [← List.sum_toFinset f hL]
  apply Finset.sum_subset
  · intro p hp; exact hsub p (List.mem_toFinset.1 hp)
  · intro p hp hn; exact h0 p hp (fun h => hn (List.mem_toFinset.2 h))

/-- What `initializeBasis` produces for an exchange symmetry and a complete one-atom basis: no vector and no state with a
non-zero coefficient is removed. -/
theorem SwapSet.build {P : PairSet} {S : OneSys} {sg : ℕ → ℕ → ℤ} (h : SwapSet P S sg) (hS : UnitarySys S)
    (lt : AState → AState → Bool) (E : AState → ℝ) (hne : swapPairs P.sym.diag S.cols.length ≠ []) :
    ∃ B, pairBuild P lt E S S = .ok B ∧ B.states.Nodup ∧ (∀ p ∈ B.states, p ∈ S.sq) ∧
      B.cols = (swapPairs P.sym.diag S.cols.length).map
        (fun ab => ((S.col ab.1).1 + (S.col ab.2).1, symProd S (sg ab.1 ab.2) ab.1 ab.2)) ∧
      (∀ c ∈ B.cols, ∀ p, p ∉ B.states → c.2 p = 0) := by
  set k := S.cols.length with hk
  set L := swapPairs P.sym.diag k with hL
  have hLb : ∀ ab ∈ L, ab.1 < k ∧ ab.2 < k := by
    intro ab hab
    rw [hL, mem_swapPairs] at hab
    exact ⟨hab.1, by omega⟩
  have hloop : pairLoop P S S (P.usedPairs S S) = .ok (L.map (colOf P S S)) := by
    unfold PairSet.usedPairs
    rw [if_pos h.pairs, pairLoop_eq, h.keep]
    · intro ab hab
      exact (mem_allPairs _ _ _).1 hab
    · intro ab hab _ _ _
      rw [mem_allPairs] at hab
      unfold nanJ
      rw [List.any_eq_false]
      intro e1 he1
      rw [Bool.not_eq_true, List.any_eq_false]
      intro e2 he2
      rw [decide_eq_true_eq, not_not]
      exact h.spin _ ((hS.rows _ (col_mem S hab.1)).2 e1 he1) _ ((hS.rows _ (col_mem S hab.2)).2 e2 he2)
  set es := (L.map (colOf P S S)).flatMap (·.2) with hes
  have hkeys : ∀ p, p ∈ statesOf es → p ∈ S.sq := by
    intro p hp
    rw [mem_statesOf, hes, List.mem_map] at hp
    obtain ⟨x, hx, rfl⟩ := hp
    rw [List.mem_flatMap] at hx
    obtain ⟨c, hc, hx⟩ := hx
    rw [List.mem_map] at hc
    obtain ⟨ab, hab, rfl⟩ := hc
    obtain ⟨b1, b2⟩ := hLb ab hab
    obtain ⟨e1, m1, e2, m2, _, hq⟩ := column_keys _ _ _ _ x.1 (List.mem_map.2 ⟨x, hx, rfl⟩)
    have s1 := (hS.rows _ (col_mem S b1)).2 e1 m1
    have s2 := (hS.rows _ (col_mem S b2)).2 e2 m2
    unfold OneSys.sq
    rw [Finset.mem_product, List.mem_toFinset, List.mem_toFinset]
    rcases hq with hq | ⟨_, _, hq⟩ | ⟨hr, _⟩
    · rw [hq]; exact ⟨s1, s2⟩
    · rw [hq]; exact ⟨s2, s1⟩
    · exfalso
      rw [h.art _ (col_mem S b1) _ (col_mem S b2)] at hr
      exact hr h.sym.refl
  have hlen : (statesOf es).length ≤ S.states.length * S.states.length := by
    have : (statesOf es).toFinset ⊆ S.sq := fun p hp => hkeys p (List.mem_toFinset.1 hp)
    have := Finset.card_le_card this
    rw [List.toFinset_card_of_nodup (nodup_statesOf es)] at this
    refine le_trans this ?_
    unfold OneSys.sq
    rw [Finset.card_product, List.toFinset_card_of_nodup hS.nodup]
  have hus : pairUsers P lt E P.toAdd = .ok [] := by rw [h.add]; rfl
  -- a state with a non-zero coefficient is kept
  have hkept : ∀ ab ∈ L, ∀ p, ¬ P.thr < weightP es p → symProd S (sg ab.1 ab.2) ab.1 ab.2 p = 0 := by
    intro ab hab p hp
    by_cases hpS : p ∈ S.sq
    · have hpS' := hpS
      unfold OneSys.sq at hpS'
      rw [Finset.mem_product, List.mem_toFinset, List.mem_toFinset] at hpS'
      have hw := h.total hS p.1 p.2 hpS'.1 hpS'.2
      have h1 := h.thr1
      by_cases hd : P.sym.diag = true
      · exfalso
        apply hp
        rw [hes, hL, hk, show p = (p.1, p.2) from rfl, hw, if_pos hd]
        have : 0 ≤ ∑ a ∈ Finset.range S.cols.length, Complex.normSq (coef1 (S.col a).2 p.1) * Complex.normSq (coef1 (S.col a).2 p.2) :=
          Finset.sum_nonneg fun a _ => mul_nonneg (Complex.normSq_nonneg _) (Complex.normSq_nonneg _)
        linarith
      · have heq : p.1 = p.2 := by
          by_contra hst
          apply hp
          rw [hes, hL, hk, show p = (p.1, p.2) from rfl, hw, if_neg hd]
          have := row_overlap S hS p.1 p.2 hpS'.1 hpS'.2 hst
          linarith
        have hev : P.sym.inv = .even ∨ P.sym.perm = .even := by
          unfold PairSym.diag at hd
          simpa [or_iff_not_imp_left] using hd
        rw [hL, mem_swapPairs] at hab
        have hne' : ab.1 ≠ ab.2 := by
          rcases hab.2 with hh | hh
          · omega
          · exact absurd hh.1 hd
        unfold symProd
        rw [if_neg hne', ← heq]
        rcases h.same hev ab.1 ab.2 hne' p.1 with hh | hh
        · rw [hh]; push_cast; ring
        · rw [mul_comm (coef1 (S.col ab.2).2 p.1), hh]; simp
    · exact symProd_outside S hS _ _ _ p hpS
  have hnorm : ∀ ab ∈ L, ((statesOf es).map fun p => Complex.normSq (coefP (colOf P S S ab).2 p)).sum = 1 := by
    intro ab hab
    obtain ⟨b1, b2⟩ := hLb ab hab
    have hsum := sum_list_finset (statesOf es) (nodup_statesOf es) S.sq hkeys
      (fun p => Complex.normSq (coefP (colOf P S S ab).2 p)) (fun p _ hn => by
        have : coefP (colOf P S S ab).2 p = 0 := by
          apply coefP_of_not_mem
          intro hm
          apply hn
          rw [mem_statesOf, hes, List.mem_map]
          rw [List.mem_map] at hm
          obtain ⟨x, hx, rfl⟩ := hm
          exact ⟨x, List.mem_flatMap.2 ⟨_, List.mem_map.2 ⟨ab, hab, rfl⟩, hx⟩, rfl⟩
        rw [this]; simp)
    rw [hsum]
    have hba : ab.2 ≤ ab.1 := by
      rw [hL, mem_swapPairs] at hab
      omega
    have hip := symProd_ip S hS (sg ab.1 ab.2) (sg ab.1 ab.2) b1 b1 hba hba
    rw [if_pos rfl] at hip
    have hs1 : ((sg ab.1 ab.2 : ℂ)) * (sg ab.1 ab.2 : ℂ) = 1 := by exact_mod_cast h.sq ab.1 ab.2
    rw [hs1, show ((1 : ℂ) + 1) / 2 = 1 by norm_num, ite_self] at hip
    have : ∀ p, (starRingEnd ℂ) (symProd S (sg ab.1 ab.2) ab.1 ab.2 p) * symProd S (sg ab.1 ab.2) ab.1 ab.2 p =
        (Complex.normSq (coefP (colOf P S S ab).2 p) : ℂ) := by
      intro p
      rw [h.coef ab b1 b2, Complex.normSq_eq_conj_mul_self]
    simp_rw [this, ← Complex.ofReal_sum] at hip
    exact_mod_cast hip
  have hthr : P.thr < 1 := by have := h.thr1; linarith
  have hprune : prunePairs P.thr (L.map (colOf P S S)) =
      ⟨(statesOf es).filter (fun p => decide (P.thr < weightP es p)),
       L.map fun ab => ((S.col ab.1).1 + (S.col ab.2).1, symProd S (sg ab.1 ab.2) ab.1 ab.2)⟩ := by
    unfold prunePairs
    dsimp only
    have hf : (L.map (colOf P S S)).filter (fun c => decide (P.thr < ((statesOf es).map fun p => Complex.normSq (coefP c.2 p)).sum)) =
        L.map (colOf P S S) := by
      apply List.filter_eq_self.2
      intro c hc
      rw [List.mem_map] at hc
      obtain ⟨ab, hab, rfl⟩ := hc
      rw [decide_eq_true_eq, hnorm ab hab]
      exact hthr
    rw [← hes, hf, List.map_map]
    · congr 1
      refine List.map_congr_left fun ab hab => ?_
      obtain ⟨b1, b2⟩ := hLb ab hab
      rw [Function.comp_apply]
      refine Prod.ext rfl ?_
      funext p
      dsimp only
      rw [h.coef ab b1 b2]
      by_cases hp : p ∈ (statesOf es).filter (fun p => decide (P.thr < weightP es p))
      · rw [if_pos hp]
      · rw [if_neg hp, hkept ab hab p]
        intro hw
        apply hp
        rw [List.mem_filter]
        refine ⟨?_, by simpa using hw⟩
        rw [mem_statesOf]
        by_contra hn
        rw [weightP_of_not_mem _ _ hn] at hw
        have := h.thr0
        linarith
  refine ⟨⟨(statesOf es).filter (fun p => decide (P.thr < weightP es p)),
       L.map fun ab => ((S.col ab.1).1 + (S.col ab.2).1, symProd S (sg ab.1 ab.2) ab.1 ab.2)⟩, ?_, ?_, ?_, rfl, ?_⟩
  · unfold pairBuild
    rw [hloop]
    dsimp only
    rw [← hes, if_neg (by rw [h.add]; simpa using hlen), if_neg (by rw [h.add]; simp), hus]
    dsimp only
    rw [List.append_nil, ← hes, if_neg (by rw [h.add]; simpa using hlen), hprune, if_neg]
    rw [not_or]
    constructor
    · intro hnil
      obtain ⟨ab, hab⟩ := List.exists_mem_of_ne_nil L hne
      have h1 := hnorm ab hab
      obtain ⟨b1, b2⟩ := hLb ab hab
      have : ((statesOf es).map fun p => Complex.normSq (coefP (colOf P S S ab).2 p)).sum = 0 := by
        apply List.sum_eq_zero
        intro x hx
        rw [List.mem_map] at hx
        obtain ⟨p, hp, rfl⟩ := hx
        rw [h.coef ab b1 b2, hkept ab hab p]
        · simp
        · intro hw
          have : p ∈ (statesOf es).filter (fun p => decide (P.thr < weightP es p)) := List.mem_filter.2 ⟨hp, by simpa using hw⟩
          rw [show (statesOf es).filter (fun p => decide (P.thr < weightP es p)) = [] from hnil] at this
          simp at this
      rw [this] at h1
      norm_num at h1
    · intro hnil
      rw [List.map_eq_nil_iff] at hnil
      exact hne hnil
  · exact (nodup_statesOf es).filter _
  · intro p hp
    exact hkeys p (List.mem_filter.1 hp).1
  · intro c hc p hp
    rw [List.mem_map] at hc
    obtain ⟨ab, hab, rfl⟩ := hc
    apply hkept ab hab
    intro hw
    apply hp
    rw [List.mem_filter]
    refine ⟨?_, by simpa using hw⟩
    rw [mem_statesOf]
    by_contra hn
    rw [weightP_of_not_mem _ _ hn] at hw
    have := h.thr0
    linarith


/-! ## C41 -/

/-- The basis vectors are orthonormal: inner products over the stored states. -/
def PairBasis.Ortho (B : PairBasis) : Prop :=
  ∀ i j : ℕ, ∀ c d, B.cols[i]? = some c → B.cols[j]? = some d →
    (B.states.map fun p => (starRingEnd ℂ) (c.2 p) * d.2 p).sum = if i = j then 1 else 0

/-- Two pair bases over the pair states of the system `S` decompose the pair space: the vectors of the one are orthogonal
to those of the other, together they resolve the identity, and there are as many as pair states of the one-atom
vectors. -/
structure Splits (S : OneSys) (B C : PairBasis) : Prop where
  ortho : ∀ c ∈ B.cols, ∀ d ∈ C.cols, ∑ p ∈ S.sq, (starRingEnd ℂ) (c.2 p) * d.2 p = 0
  complete : ∀ p ∈ S.sq, ∀ q ∈ S.sq,
    (B.cols.map fun c => (starRingEnd ℂ) (c.2 p) * c.2 q).sum + (C.cols.map fun c => (starRingEnd ℂ) (c.2 p) * c.2 q).sum =
      if p = q then 1 else 0
  count : B.cols.length + C.cols.length = S.cols.length * S.cols.length

theorem swapPairs_nodup (diag : Bool) (k : ℕ) : (swapPairs diag k).Nodup := (nodup_allPairs k k).filter _

theorem swap_ortho (S : OneSys) (hS : UnitarySys S) (sg : ℕ → ℕ → ℤ) (hsg : ∀ a b, sg a b * sg a b = 1) (diag : Bool) (B : PairBasis)
    (hn : B.states.Nodup) (hB : ∀ p ∈ B.states, p ∈ S.sq)
    (hc : B.cols = (swapPairs diag S.cols.length).map
        (fun ab => ((S.col ab.1).1 + (S.col ab.2).1, symProd S (sg ab.1 ab.2) ab.1 ab.2)))
    (h0 : ∀ c ∈ B.cols, ∀ p, p ∉ B.states → c.2 p = 0) : B.Ortho := by
  intro i j c d hi hj
  have hcm := List.mem_of_getElem? hi
  rw [hc, List.getElem?_map, Option.map_eq_some_iff] at hi hj
  obtain ⟨ab, hab, rfl⟩ := hi
  obtain ⟨cd, hcd, rfl⟩ := hj
  have m1 := List.mem_of_getElem? hab
  have m2 := List.mem_of_getElem? hcd
  rw [mem_swapPairs] at m1 m2
  rw [sum_list_finset B.states hn S.sq hB _ (fun p _ hp => by rw [h0 _ hcm p hp]; simp)]
  dsimp only
  rw [symProd_ip S hS (sg ab.1 ab.2) (sg cd.1 cd.2) m1.1 m2.1 (by omega) (by omega)]
  by_cases hij : i = j
  · have : ab = cd := by
      rw [hij, hcd] at hab; exact (Option.some.inj hab).symm
    rw [if_pos hij, this, if_pos rfl]
    have hs1 : ((sg cd.1 cd.2 : ℂ)) * (sg cd.1 cd.2 : ℂ) = 1 := by exact_mod_cast hsg cd.1 cd.2
    rw [hs1, show ((1 : ℂ) + 1) / 2 = 1 by norm_num, ite_self]
  · rw [if_neg hij, if_neg]
    intro heq
    apply hij
    have heq' : ab = cd := heq
    rw [heq'] at hab
    have hi' : i < (swapPairs diag S.cols.length).length := (List.getElem?_eq_some_iff.1 hab).1
    exact (List.nodup_iff_injective_get.1 (swapPairs_nodup diag S.cols.length)
      (a₁ := ⟨i, hi'⟩) (a₂ := ⟨j, (List.getElem?_eq_some_iff.1 hcd).1⟩) (by
        rw [List.get_eq_getElem, List.get_eq_getElem, (List.getElem?_eq_some_iff.1 hab).2, (List.getElem?_eq_some_iff.1 hcd).2]) |> fun h => by
          simpa using h)

theorem swap_splits (S : OneSys) (hS : UnitarySys S) (sg : ℕ → ℕ → ℤ) (hsg : ∀ a b, sg a b * sg a b = 1) (B C : PairBasis)
    (hB : B.cols = (swapPairs false S.cols.length).map
        (fun ab => ((S.col ab.1).1 + (S.col ab.2).1, symProd S (sg ab.1 ab.2) ab.1 ab.2)))
    (hC : C.cols = (swapPairs true S.cols.length).map
        (fun ab => ((S.col ab.1).1 + (S.col ab.2).1, symProd S (- sg ab.1 ab.2) ab.1 ab.2))) : Splits S B C := by
  refine ⟨?_, ?_, ?_⟩
  · intro c hc d hd
    rw [hB, List.mem_map] at hc
    rw [hC, List.mem_map] at hd
    obtain ⟨ab, hab, rfl⟩ := hc
    obtain ⟨cd, hcd, rfl⟩ := hd
    rw [mem_swapPairs] at hab hcd
    dsimp only
    rw [symProd_ip S hS (sg ab.1 ab.2) (- sg cd.1 cd.2) hab.1 hcd.1 (by omega) (by omega)]
    by_cases h : (ab.1, ab.2) = (cd.1, cd.2)
    · have h' : ab = cd := h
      subst h'
      have hne : ab.1 ≠ ab.2 := by
        rcases hab.2 with hh | hh
        · omega
        · exact absurd hh.1 (by simp)
      rw [if_pos rfl, if_neg hne]
      have hs1 : ((sg ab.1 ab.2 : ℂ)) * (sg ab.1 ab.2 : ℂ) = 1 := by exact_mod_cast hsg ab.1 ab.2
      push_cast
      linear_combination (-1 / 2) * hs1
    · rw [if_neg h]
  · intro p hp q hq
    rw [hB, hC, List.map_map, List.map_map]
    unfold swapPairs
    rw [sum_allPairs, sum_allPairs, ← symProd_complete S hS sg hsg p q hp hq, ← Finset.sum_add_distrib, ← Finset.sum_add_distrib]
    refine Finset.sum_congr rfl fun a ha => ?_
    rw [← Finset.sum_add_distrib]
    have : (starRingEnd ℂ) (symProd S 1 a a p) * symProd S 1 a a q =
        ∑ b ∈ Finset.range S.cols.length, if a = b then (starRingEnd ℂ) (symProd S 1 a a p) * symProd S 1 a a q else 0 := by
      rw [Finset.sum_ite_eq, if_pos ha]
    rw [this, ← Finset.sum_add_distrib]
    refine Finset.sum_congr rfl fun b _ => ?_
    simp only [Function.comp_apply, Bool.false_and, Bool.true_and, Bool.or_false]
    rcases lt_trichotomy a b with h | h | h
    · have h1 : ¬ b < a := by omega
      have h2 : ¬ a = b := by omega
      simp [h1, h2]
    · subst h
      simp [symProd]
    · have h2 : ¬ a = b := by omega
      simp [h, h2]
  · rw [hB, hC, List.length_map, List.length_map]
    have len : ∀ diag, (swapPairs diag S.cols.length).length =
        ∑ a ∈ Finset.range S.cols.length, ∑ b ∈ Finset.range S.cols.length,
          if (decide (b < a) || (diag && decide (a = b))) = true then 1 else 0 := by
      intro diag
      have := sum_allPairs S.cols.length S.cols.length (fun ab => decide (ab.2 < ab.1) || (diag && decide (ab.1 = ab.2))) (fun _ => 1)
      rw [← this]
      unfold swapPairs
      simp
    rw [len, len]
    have t := tri_sum S.cols.length (fun _ _ => 1)
    simp only [Finset.sum_const, Finset.card_range, smul_eq_mul, mul_one] at t
    rw [← t, ← Finset.sum_add_distrib]
    rw [show S.cols.length = ∑ a ∈ Finset.range S.cols.length, 1 by simp]
    simp only [Finset.sum_const, Finset.card_range, smul_eq_mul, mul_one]
    rw [show (∑ a ∈ Finset.range S.cols.length, ∑ b ∈ Finset.range S.cols.length, if b < a then (1 + 1) else 0) + S.cols.length =
      ∑ a ∈ Finset.range S.cols.length, ((∑ b ∈ Finset.range S.cols.length, if b < a then (1 + 1) else 0) + 1) by
        rw [Finset.sum_add_distrib]; simp]
    refine Finset.sum_congr rfl fun a ha => ?_
    rw [← Finset.sum_add_distrib]
    have : (1 : ℕ) = ∑ b ∈ Finset.range S.cols.length, if a = b then 1 else 0 := by
      rw [Finset.sum_ite_eq, if_pos ha]
    refine Eq.trans ?_ (congrArg (fun z => (∑ b ∈ Finset.range S.cols.length, if b < a then (1 + 1) else 0) + z) this).symm
    rw [← Finset.sum_add_distrib]
    refine Finset.sum_congr rfl fun b _ => ?_
    rcases lt_trichotomy a b with h | h | h
    · have h1 : ¬ b < a := by omega
      have h2 : ¬ a = b := by omega
      simp [h1, h2]
    · subst h; simp
    · have h2 : ¬ a = b := by omega
      simp [h, h2]

/-- Settings with only a permutation symmetry. -/
def permSet (p : Par) (thr : ℝ) (sp : String × String) : PairSet := ⟨⟨.na, p, .na, none⟩, none, none, [], [], thr, sp⟩

theorem permSet_swap (p : Par) (hp : p ≠ .na) (thr : ℝ) (h0 : 0 ≤ thr) (h1 : thr < 1 / 4) (sp : String × String) (S : OneSys)
    (hj : ∀ s ∈ S.states, ∀ t ∈ S.states, (s.j + t.j) % 2 = 0) :
    SwapSet (permSet p thr sp) S (fun _ _ => if p = .even then -1 else 1) := by
  refine ⟨⟨rfl, rfl, Or.inr hp⟩, rfl, rfl, rfl, rfl, h0, h1, ?_, hj, ?_, ?_, ?_⟩
  · intro u _ w _
    unfold PairSym.local_ permSet
    split <;> rfl
  · intro a b; split <;> rfl
  · intro a _ b _ e1 _ e2 _ _
    constructor
    · unfold PairSym.drops PairSym.rotExcludes permSet
      simp
    · unfold PairSym.swapS PairSym.permS permSet
      simp
  · intro h a b _ s
    left
    rcases h with h | h
    · unfold permSet at h; simp at h
    · rw [if_pos (show p = .even from h)]

theorem swapPairs_ne (diag : Bool) (k : ℕ) (hk : 2 ≤ k) : swapPairs diag k ≠ [] :=
  List.ne_nil_of_mem ((mem_swapPairs diag k (1, 0)).2 ⟨by omega, Or.inl (by norm_num)⟩)

/-- **C41**: for every complete one-atom basis (unitary coefficient matrix with at least two vectors) used for both atoms,
the permutation symmetries EVEN and ODD give orthonormal pair bases whose vectors are eigenvectors of the exchange with
the eigenvalues -1 and +1, and which together span the pair space; nothing is lost by the removal of vectors of small norm
and of states that barely occur (any norm threshold below 1/4, the default being 0.05). -/
theorem C41_permutation_basis (S : OneSys) (hS : UnitarySys S) (hk : 2 ≤ S.cols.length)
    (hj : ∀ s ∈ S.states, ∀ t ∈ S.states, (s.j + t.j) % 2 = 0) (thr : ℝ) (h0 : 0 ≤ thr) (h1 : thr < 1 / 4) (sp : String × String)
    (lt : AState → AState → Bool) (E : AState → ℝ) :
    ∃ B C, pairBuild (permSet .even thr sp) lt E S S = .ok B ∧ pairBuild (permSet .odd thr sp) lt E S S = .ok C ∧
      B.Ortho ∧ C.Ortho ∧
      (∀ c ∈ B.cols, ∀ s t, c.2 (t, s) = - c.2 (s, t)) ∧ (∀ c ∈ C.cols, ∀ s t, c.2 (t, s) = c.2 (s, t)) ∧
      Splits S B C := by
  have hE := permSet_swap .even (by decide) thr h0 h1 sp S hj
  have hO := permSet_swap .odd (by decide) thr h0 h1 sp S hj
  obtain ⟨B, b1, b2, b3, b4, b5⟩ := hE.build hS lt E (swapPairs_ne _ _ hk)
  obtain ⟨C, c1, c2, c3, c4, c5⟩ := hO.build hS lt E (swapPairs_ne _ _ hk)
  refine ⟨B, C, b1, c1, swap_ortho S hS _ hE.sq _ B b2 b3 b4 b5, swap_ortho S hS _ hO.sq _ C c2 c3 c4 c5, ?_, ?_, ?_⟩
  · intro c hc s t
    have := C41_exchange (permSet .even thr sp) lt E S S B h0 rfl (by unfold permSet; simp) b1 c hc s t
    rw [this, if_pos (show (permSet .even thr sp).sym.perm = .even from rfl), neg_one_mul]
  · intro c hc s t
    have := C41_exchange (permSet .odd thr sp) lt E S S C h0 rfl (by unfold permSet; simp) c1 c hc s t
    rw [this, if_neg (by unfold permSet; simp), one_mul]
  · apply swap_splits S hS (fun _ _ => -1) (fun _ _ => rfl) B C
    · rw [b4]; rfl
    · rw [c4]; rfl

/-- Settings with only an inversion symmetry. -/
def invSet (p : Par) (thr : ℝ) (sp : String × String) : PairSet := ⟨⟨p, .na, .na, none⟩, none, none, [], [], thr, sp⟩

theorem invSet_swap (p : Par) (hp : p ≠ .na) (thr : ℝ) (h0 : 0 ≤ thr) (h1 : thr < 1 / 4) (sp : String × String) (S : OneSys)
    (ha : NoArt S) (par : ℕ → ℤ) (hpar : ∀ a < S.cols.length, ∀ e ∈ (S.col a).2, (e.1.l - par a) % 2 = 0)
    (hj : ∀ s ∈ S.states, ∀ t ∈ S.states, (s.j + t.j) % 2 = 0) :
    SwapSet (invSet p thr sp) S (fun a b => (if p = .even then -1 else 1) * sgnZ (par a + par b)) := by
  have hart : ∀ u ∈ S.cols, artCol u.2 = false := by
    intro u hu
    unfold artCol
    rw [List.any_eq_false]
    intro e he
    rw [ha u hu e he]; simp
  refine ⟨⟨rfl, rfl, Or.inl hp⟩, rfl, rfl, rfl, rfl, h0, h1, ?_, hj, ?_, ?_, ?_⟩
  · intro u hu w hw
    rw [hart u hu, hart w hw]; rfl
  · intro a b
    have := sgnZ_sq (par a + par b)
    split
    · linear_combination this
    · linear_combination this
  · intro a hA b hB e1 m1 e2 m2 _
    have p1 := hpar a hA e1 m1
    have p2 := hpar b hB e2 m2
    constructor
    · unfold PairSym.drops PairSym.rotExcludes invSet
      simp
    · unfold PairSym.swapS PairSym.invS parL invSet
      dsimp only
      rw [if_pos hp]
      have : sgnZ (e1.1.l + e2.1.l) = sgnZ (par a + par b) := by
        unfold sgnZ
        have : (e1.1.l + e2.1.l) % 2 = 0 ↔ (par a + par b) % 2 = 0 := by omega
        simp only [this]
      rw [this]
      split <;> ring
  · intro h a b _ s
    have hp' : p = .even := by
      rcases h with h | h
      · exact h
      · unfold invSet at h; simp at h
    rw [if_pos hp']
    by_cases hs : (par a + par b) % 2 = 0
    · left; unfold sgnZ; rw [if_pos hs]; rfl
    · right
      by_contra hne
      rw [mul_eq_zero, not_or] at hne
      have mem : ∀ c, coef1 (S.col c).2 s ≠ 0 → (s.l - par c) % 2 = 0 := by
        intro c hc
        have hm : s ∈ (S.col c).2.map (·.1) := by
          by_contra hn
          exact hc (coef1_of_not_mem _ _ hn)
        rw [List.mem_map] at hm
        obtain ⟨e, he, rfl⟩ := hm
        by_cases hlt : c < S.cols.length
        · exact hpar c hlt e he
        · exfalso
          have : S.col c = (0, []) := by
            simp [OneSys.col, List.getD_eq_getElem?_getD, List.getElem?_eq_none (not_lt.1 hlt)]
          rw [this] at he; simp at he
      have q1 := mem a hne.1
      have q2 := mem b hne.2
      omega

/-- **C74** for the inversion symmetry: for every complete one-atom basis of physical states whose vectors have a definite
parity of l, EVEN and ODD give orthonormal pair bases of eigenvectors of the inversion, which together span the pair
space. -/
theorem C74_inversion_basis (S : OneSys) (hS : UnitarySys S) (hk : 2 ≤ S.cols.length) (ha : NoArt S) (par : ℕ → ℤ)
    (hpar : ∀ a < S.cols.length, ∀ e ∈ (S.col a).2, (e.1.l - par a) % 2 = 0)
    (hj : ∀ s ∈ S.states, ∀ t ∈ S.states, (s.j + t.j) % 2 = 0) (thr : ℝ) (h0 : 0 ≤ thr) (h1 : thr < 1 / 4) (sp : String × String)
    (lt : AState → AState → Bool) (E : AState → ℝ) :
    ∃ B C, pairBuild (invSet .even thr sp) lt E S S = .ok B ∧ pairBuild (invSet .odd thr sp) lt E S S = .ok C ∧
      B.Ortho ∧ C.Ortho ∧
      (∀ c ∈ B.cols, ∀ s t, c.2 (t, s) = - signC (s.l + t.l) * c.2 (s, t)) ∧
      (∀ c ∈ C.cols, ∀ s t, c.2 (t, s) = signC (s.l + t.l) * c.2 (s, t)) ∧ Splits S B C := by
  have hE := invSet_swap .even (by decide) thr h0 h1 sp S ha par hpar hj
  have hO := invSet_swap .odd (by decide) thr h0 h1 sp S ha par hpar hj
  obtain ⟨B, b1, b2, b3, b4, b5⟩ := hE.build hS lt E (swapPairs_ne _ _ hk)
  obtain ⟨C, c1, c2, c3, c4, c5⟩ := hO.build hS lt E (swapPairs_ne _ _ hk)
  have hpar' : ∀ u ∈ S.cols, ∀ e ∈ u.2, ∀ e' ∈ u.2, (e.1.l + e'.1.l) % 2 = 0 := by
    intro u hu e he e' he'
    obtain ⟨a, hA, rfl⟩ := List.getElem_of_mem hu
    have hc : S.col a = S.cols[a] := by simp [OneSys.col, List.getD_eq_getElem?_getD, List.getElem?_eq_getElem hA]
    rw [← hc] at he he'
    have := hpar a hA e he
    have := hpar a hA e' he'
    omega
  refine ⟨B, C, b1, c1, swap_ortho S hS _ hE.sq _ B b2 b3 b4 b5, swap_ortho S hS _ hO.sq _ C c2 c3 c4 c5, ?_, ?_, ?_⟩
  · intro c hc s t
    have := C74_inversion (invSet .even thr sp) lt E S S B h0 rfl ha hpar' (by unfold invSet; simp) (by unfold invSet; simp) b1 c hc s t
    rw [this, if_pos (show (invSet .even thr sp).sym.inv = .even from rfl)]; ring
  · intro c hc s t
    have := C74_inversion (invSet .odd thr sp) lt E S S C h0 rfl ha hpar' (by unfold invSet; simp) (by unfold invSet; simp) c1 c hc s t
    rw [this, if_neg (by unfold invSet; simp)]; ring
  · apply swap_splits S hS (fun a b => -1 * sgnZ (par a + par b)) hE.sq B C
    · rw [b4]; rfl
    · rw [c4]
      refine List.map_congr_left fun ab _ => ?_
      simp

end PI
