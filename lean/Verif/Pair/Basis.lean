import Verif.Pair.BasisModel
import Mathlib.Tactic.LinearCombination
import Mathlib.Analysis.Complex.Basic

/-!
# C41: the symmetries of the pair basis
-/

namespace PI

/-! ## Sums over lists of entries -/

theorem coefP_nil (p : AState × AState) : coefP [] p = 0 := rfl

theorem coefP_cons (e : PEntry) (es : List PEntry) (p : AState × AState) :
    coefP (e :: es) p = (if e.1 = p then e.2 else 0) + coefP es p := by simp [coefP]

theorem coefP_append (a b : List PEntry) (p : AState × AState) : coefP (a ++ b) p = coefP a p + coefP b p := by
  simp [coefP]

theorem coefP_flatMap {α : Type} (L : List α) (f : α → List PEntry) (p : AState × AState) :
    coefP (L.flatMap f) p = (L.map fun a => coefP (f a) p).sum := by
  induction L with
  | nil => rfl
  | cons a L ih => rw [List.flatMap_cons, coefP_append, ih, List.map_cons, List.sum_cons]

theorem weightP_nil (p : AState × AState) : weightP [] p = 0 := rfl

theorem weightP_cons (e : PEntry) (es : List PEntry) (p : AState × AState) :
    weightP (e :: es) p = (if e.1 = p then Complex.normSq e.2 else 0) + weightP es p := by simp [weightP]

theorem weightP_append (a b : List PEntry) (p : AState × AState) : weightP (a ++ b) p = weightP a p + weightP b p := by
  simp [weightP]

theorem weightP_flatMap {α : Type} (L : List α) (f : α → List PEntry) (p : AState × AState) :
    weightP (L.flatMap f) p = (L.map fun a => weightP (f a) p).sum := by
  induction L with
  | nil => rfl
  | cons a L ih => rw [List.flatMap_cons, weightP_append, ih, List.map_cons, List.sum_cons]

theorem weightP_nonneg (es : List PEntry) (p : AState × AState) : 0 ≤ weightP es p := by
  induction es with
  | nil => exact le_refl _
  | cons e es ih =>
    rw [weightP_cons]
    refine add_nonneg ?_ ih
    split
    · exact Complex.normSq_nonneg _
    · exact le_refl _

theorem list_sum_comm {α β M : Type} [AddCommMonoid M] (A : List α) (B : List β) (f : α → β → M) :
    (A.map fun a => (B.map fun b => f a b).sum).sum = (B.map fun b => (A.map fun a => f a b).sum).sum := by
  induction A with
  | nil => simp
  | cons a A ih => simp [ih, List.sum_map_add]

theorem mem_statesOf_aux (es : List PEntry) (l : List (AState × AState)) (p : AState × AState) :
    p ∈ es.foldl (fun l e => if e.1 ∈ l then l else l ++ [e.1]) l ↔ p ∈ l ∨ p ∈ es.map (·.1) := by
  induction es generalizing l with
  | nil => simp
  | cons e es ih =>
    rw [List.foldl_cons, ih, List.map_cons, List.mem_cons]
    by_cases h : e.1 ∈ l
    · rw [if_pos h]
      constructor
      · rintro (h1 | h1)
        · exact Or.inl h1
        · exact Or.inr (Or.inr h1)
      · rintro (h1 | h1 | h1)
        · exact Or.inl h1
        · exact Or.inl (h1 ▸ h)
        · exact Or.inr h1
    · rw [if_neg h, List.mem_append, List.mem_singleton]
      tauto

theorem mem_statesOf (es : List PEntry) (p : AState × AState) : p ∈ statesOf es ↔ p ∈ es.map (·.1) := by
  unfold statesOf
  rw [mem_statesOf_aux]
  simp

theorem nodup_statesOf_aux (es : List PEntry) (l : List (AState × AState)) (hl : l.Nodup) :
    (es.foldl (fun l e => if e.1 ∈ l then l else l ++ [e.1]) l).Nodup := by
  induction es generalizing l with
  | nil => exact hl
  | cons e es ih =>
    rw [List.foldl_cons]
    apply ih
    by_cases h : e.1 ∈ l
    · rw [if_pos h]; exact hl
    · rw [if_neg h, List.nodup_append]
      refine ⟨hl, List.nodup_singleton _, ?_⟩
      intro a ha b hb hab
      rw [List.mem_singleton] at hb
      exact h (hb ▸ hab ▸ ha)

theorem nodup_statesOf (es : List PEntry) : (statesOf es).Nodup := nodup_statesOf_aux es [] List.nodup_nil

theorem coefP_of_not_mem (es : List PEntry) (p : AState × AState) (h : p ∉ es.map (·.1)) : coefP es p = 0 := by
  induction es with
  | nil => rfl
  | cons e es ih =>
    rw [List.map_cons, List.mem_cons, not_or] at h
    rw [coefP_cons, if_neg (fun h1 => h.1 h1.symm), ih h.2, add_zero]

theorem weightP_of_not_mem (es : List PEntry) (p : AState × AState) (h : p ∉ es.map (·.1)) : weightP es p = 0 := by
  induction es with
  | nil => rfl
  | cons e es ih =>
    rw [List.map_cons, List.mem_cons, not_or] at h
    rw [weightP_cons, if_neg (fun h1 => h.1 h1.symm), ih h.2, add_zero]

/-! ## Reflection and exchange of pair states -/

theorem swapP_swapP (p : AState × AState) : swapP (swapP p) = p := rfl

theorem AState.refl_refl (s : AState) : s.refl.refl = s := by
  cases s <;> simp [AState.refl]

theorem reflP_reflP (p : AState × AState) : reflP (reflP p) = p := by
  unfold reflP
  rw [AState.refl_refl, AState.refl_refl]

theorem swapP_reflP (p : AState × AState) : swapP (reflP p) = reflP (swapP p) := rfl

theorem swapP_eq (a q : AState × AState) : a = swapP q ↔ swapP a = q :=
  ⟨fun h => by rw [h, swapP_swapP], fun h => by rw [← h, swapP_swapP]⟩

theorem reflP_eq (a q : AState × AState) : a = reflP q ↔ reflP a = q :=
  ⟨fun h => by rw [h, reflP_reflP], fun h => by rw [← h, reflP_reflP]⟩

theorem sgnZ_neg (k : ℤ) : sgnZ (-k) = sgnZ k := by
  unfold sgnZ
  have : (-k) % 2 = 0 ↔ k % 2 = 0 := by omega
  simp only [this]

theorem sgnZ_sq (k : ℤ) : sgnZ k * sgnZ k = 1 := by
  unfold sgnZ; split <;> rfl

theorem AState.refl_l (s : AState) : s.refl.l = s.l := by cases s <;> rfl
theorem AState.refl_j (s : AState) : s.refl.j = s.j := by cases s <;> rfl
theorem AState.refl_m (s : AState) : s.refl.m = -s.m := by cases s <;> rfl
theorem AState.refl_isArt (s : AState) : s.refl.isArt = s.isArt := by cases s <;> rfl

theorem totalM_reflP (p : AState × AState) : totalM (reflP p) = - totalM p := by
  unfold totalM reflP
  simp only [AState.refl_m]
  rw [show -p.1.m + -p.2.m = -(p.1.m + p.2.m) by ring, Int.neg_tdiv]

theorem totalM_swapP (p : AState × AState) : totalM (swapP p) = totalM p := by
  unfold totalM swapP
  simp only [add_comm]

theorem parL_swapP (p : AState × AState) : parL (swapP p) = parL p := by
  unfold parL swapP
  simp only [add_comm]

theorem parL_reflP (p : AState × AState) : parL (reflP p) = parL p := by
  unfold parL reflP
  simp only [AState.refl_l]

theorem parLJM_swapP (p : AState × AState) : parLJM (swapP p) = parLJM p := by
  unfold parLJM
  rw [parL_swapP, totalM_swapP]
  unfold swapP
  simp only [add_comm]

theorem parLJM_reflP (p : AState × AState) : parLJM (reflP p) = parLJM p := by
  unfold parLJM
  rw [parL_reflP, totalM_reflP, sgnZ_neg]
  unfold reflP
  simp only [AState.refl_j]

theorem parL_sq (p : AState × AState) : parL p * parL p = 1 := sgnZ_sq _

theorem parLJM_sq (p : AState × AState) : parLJM p * parLJM p = 1 := by
  unfold parLJM
  have h1 := parL_sq p
  have h2 := sgnZ_sq ((p.1.j + p.2.j) / 2)
  have h3 := sgnZ_sq (totalM p)
  calc _ = (parL p * parL p) * (sgnZ ((p.1.j + p.2.j) / 2) * sgnZ ((p.1.j + p.2.j) / 2)) * (sgnZ (totalM p) * sgnZ (totalM p)) := by ring
    _ = 1 := by rw [h1, h2, h3]; rfl

theorem invS_sq (y : PairSym) (p : AState × AState) : y.invS p * y.invS p = 1 := by
  unfold PairSym.invS; split
  · rw [neg_mul_neg]; exact parL_sq p
  · exact parL_sq p

theorem permS_sq (y : PairSym) : y.permS * y.permS = 1 := by
  unfold PairSym.permS; split <;> rfl

theorem reflS_sq (y : PairSym) (p : AState × AState) : y.reflS p * y.reflS p = 1 := by
  unfold PairSym.reflS; split
  · exact parLJM_sq p
  · rw [neg_mul_neg]; exact parLJM_sq p

theorem swapS_sq (y : PairSym) (p : AState × AState) : y.swapS p * y.swapS p = 1 := by
  unfold PairSym.swapS; split
  · exact invS_sq y p
  · exact permS_sq y

theorem invS_swapP (y : PairSym) (p : AState × AState) : y.invS (swapP p) = y.invS p := by
  unfold PairSym.invS; rw [parL_swapP]
theorem invS_reflP (y : PairSym) (p : AState × AState) : y.invS (reflP p) = y.invS p := by
  unfold PairSym.invS; rw [parL_reflP]
theorem reflS_swapP (y : PairSym) (p : AState × AState) : y.reflS (swapP p) = y.reflS p := by
  unfold PairSym.reflS; rw [parLJM_swapP]
theorem reflS_reflP (y : PairSym) (p : AState × AState) : y.reflS (reflP p) = y.reflS p := by
  unfold PairSym.reflS; rw [parLJM_reflP]
theorem swapS_swapP (y : PairSym) (p : AState × AState) : y.swapS (swapP p) = y.swapS p := by
  unfold PairSym.swapS; rw [invS_swapP]
theorem swapS_reflP (y : PairSym) (p : AState × AState) : y.swapS (reflP p) = y.swapS p := by
  unfold PairSym.swapS; rw [invS_reflP]

/-! ## Two entries related by an involution -/

/-- Two entries at `a` and `τ a` whose values have the ratio `χ a = χ (τ a) = ±1`. -/
theorem coef_two (τ : AState × AState → AState × AState) (hτ : ∀ p, τ (τ p) = p) (χ : AState × AState → ℤ)
    (h2 : ∀ p, χ p * χ p = 1) (hχ : ∀ p, χ (τ p) = χ p) (a q : AState × AState) (w : ℂ) :
    coefP [(a, w), (τ a, w * (χ a : ℂ))] (τ q) = (χ q : ℂ) * coefP [(a, w), (τ a, w * (χ a : ℂ))] q := by
  have e1 : (a = τ q) ↔ (τ a = q) := ⟨fun h => by rw [h, hτ], fun h => by rw [← h, hτ]⟩
  have e2 : (τ a = τ q) ↔ (a = q) := ⟨fun h => by rw [← hτ a, h, hτ], fun h => by rw [h]⟩
  simp only [coefP_cons, coefP_nil, e1, e2, add_zero]
  have hs : ∀ p, ((χ p : ℂ)) * (χ p : ℂ) = 1 := fun p => by exact_mod_cast h2 p
  have A : (if τ a = q then w else 0) = (χ q : ℂ) * (if τ a = q then w * (χ a : ℂ) else 0) := by
    by_cases h : τ a = q
    · rw [if_pos h, if_pos h, ← h, hχ, mul_left_comm, hs, mul_one]
    · rw [if_neg h, if_neg h, mul_zero]
  have B : (if a = q then w * (χ a : ℂ) else 0) = (χ q : ℂ) * (if a = q then w else 0) := by
    by_cases h : a = q
    · rw [if_pos h, if_pos h, ← h, mul_comm]
    · rw [if_neg h, if_neg h, mul_zero]
  rw [A, B]; ring

theorem weight_two (τ : AState × AState → AState × AState) (hτ : ∀ p, τ (τ p) = p) (s : ℤ) (hs : s * s = 1)
    (a q : AState × AState) (w : ℂ) :
    weightP [(a, w), (τ a, w * (s : ℂ))] (τ q) = weightP [(a, w), (τ a, w * (s : ℂ))] q := by
  have e1 : (a = τ q) ↔ (τ a = q) := ⟨fun h => by rw [h, hτ], fun h => by rw [← h, hτ]⟩
  have e2 : (τ a = τ q) ↔ (a = q) := ⟨fun h => by rw [← hτ a, h, hτ], fun h => by rw [h]⟩
  have hn : Complex.normSq (w * (s : ℂ)) = Complex.normSq w := by
    rw [Complex.normSq_mul]
    have : Complex.normSq ((s : ℂ)) = 1 := by
      rw [show ((s : ℂ)) = ((s : ℝ) : ℂ) by push_cast; rfl, Complex.normSq_ofReal]
      exact_mod_cast hs
    rw [this, mul_one]
  simp only [weightP_cons, weightP_nil, e1, e2, add_zero, hn]
  ring

/-! ## The body of the inner loops -/

theorem not_drops_inv_perm {y : PairSym} {p : AState × AState} (h : ¬ y.drops true p) (h1 : y.inv ≠ .na)
    (h2 : y.perm ≠ .na) : y.invS p = y.permS := by
  by_contra hne
  exact h (Or.inr (Or.inl ⟨rfl, h1, h2, hne⟩))

theorem not_drops_skip {y : PairSym} {p : AState × AState} (h : ¬ y.drops true p) (hs : y.skipRefl true p) :
    y.swapS p = y.reflS p := by
  obtain ⟨_, h1, h2, h3⟩ := hs
  unfold PairSym.swapS
  by_cases hi : y.inv ≠ .na
  · rw [if_pos hi]
    by_contra hne
    exact h (Or.inr (Or.inr (Or.inl ⟨rfl, hi, h2, h3, hne⟩)))
  · rw [if_neg hi]
    by_contra hne
    exact h (Or.inr (Or.inr (Or.inr ⟨rfl, fun hh => hi hh.1, h1.resolve_left hi, h2, h3, hne⟩)))

/-- The entries of the body for two different basis vectors and a symmetry that exchanges the atoms. -/
theorem pairBody_true (y : PairSym) (p : AState × AState) (v : ℂ) (hy : y.inv ≠ .na ∨ y.perm ≠ .na) (hd : ¬ y.drops true p) :
    pairBody y true p v =
      [(p, y.scale true p v), (swapP p, y.scale true p v * (y.swapS p : ℂ))] ++
      (if y.refl ≠ .na ∧ ¬ y.skipRefl true p then
        [(reflP p, y.scale true p v * (y.reflS p : ℂ)),
         (swapP (reflP p), y.scale true p v * (y.reflS p : ℂ) * (y.swapS p : ℂ))] else []) := by
  unfold pairBody
  rw [if_neg hd]
  dsimp only
  rw [if_pos ⟨rfl, hy⟩]
  by_cases h : y.refl ≠ .na ∧ ¬ y.skipRefl true p
  · rw [if_pos h, if_pos h, if_pos ⟨rfl, hy⟩]; rfl
  · rw [if_neg h, if_neg h]; rfl

/-- The entries of the body without exchange. -/
theorem pairBody_plain (y : PairSym) (d : Bool) (p : AState × AState) (v : ℂ)
    (hy : ¬ (d = true ∧ (y.inv ≠ .na ∨ y.perm ≠ .na))) (hd : ¬ y.drops d p) :
    pairBody y d p v =
      [(p, y.scale d p v)] ++ (if y.refl ≠ .na then [(reflP p, y.scale d p v * (y.reflS p : ℂ))] else []) := by
  unfold pairBody
  rw [if_neg hd]
  dsimp only
  rw [if_neg hy]
  have hs : ¬ y.skipRefl d p := fun h => hy ⟨h.1, h.2.1⟩
  by_cases h : y.refl ≠ .na
  · rw [if_pos ⟨h, hs⟩, if_pos h, if_neg hy]; rfl
  · rw [if_neg (fun hh => h hh.1), if_neg h]; rfl

/-- For different basis vectors every body is by itself (anti)symmetric under the exchange, with the factor used for
the exchanged state. -/
theorem body_swap (y : PairSym) (p : AState × AState) (v : ℂ) (hy : y.inv ≠ .na ∨ y.perm ≠ .na) (q : AState × AState) :
    coefP (pairBody y true p v) (swapP q) = (y.swapS q : ℂ) * coefP (pairBody y true p v) q ∧
    weightP (pairBody y true p v) (swapP q) = weightP (pairBody y true p v) q := by
  by_cases hd : y.drops true p
  · unfold pairBody; rw [if_pos hd]; simp [coefP_nil, weightP_nil]
  rw [pairBody_true y p v hy hd]
  rw [coefP_append, coefP_append, weightP_append, weightP_append]
  have A := coef_two swapP swapP_swapP y.swapS (swapS_sq y) (swapS_swapP y) p q (y.scale true p v)
  have A' := weight_two swapP swapP_swapP (y.swapS p) (swapS_sq y p) p q (y.scale true p v)
  by_cases h : y.refl ≠ .na ∧ ¬ y.skipRefl true p
  · rw [if_pos h]
    have B := coef_two swapP swapP_swapP y.swapS (swapS_sq y) (swapS_swapP y) (reflP p) q (y.scale true p v * (y.reflS p : ℂ))
    have B' := weight_two swapP swapP_swapP (y.swapS (reflP p)) (swapS_sq y _) (reflP p) q (y.scale true p v * (y.reflS p : ℂ))
    rw [swapS_reflP] at B B'
    rw [A, B, A', B']
    exact ⟨by ring, rfl⟩
  · rw [if_neg h, A, A']
    simp [coefP_nil, weightP_nil]

/-- With a reflection symmetry every body is by itself reflection symmetric. -/
theorem body_refl (y : PairSym) (d : Bool) (p : AState × AState) (v : ℂ) (hr : y.refl ≠ .na) (q : AState × AState) :
    coefP (pairBody y d p v) (reflP q) = (y.reflS q : ℂ) * coefP (pairBody y d p v) q ∧
    weightP (pairBody y d p v) (reflP q) = weightP (pairBody y d p v) q := by
  by_cases hd : y.drops d p
  · unfold pairBody; rw [if_pos hd]; simp [coefP_nil, weightP_nil]
  have A := coef_two reflP reflP_reflP y.reflS (reflS_sq y) (reflS_reflP y) p q (y.scale d p v)
  have A' := weight_two reflP reflP_reflP (y.reflS p) (reflS_sq y p) p q (y.scale d p v)
  by_cases hy : d = true ∧ (y.inv ≠ .na ∨ y.perm ≠ .na)
  · obtain ⟨rfl, hy⟩ := hy
    rw [pairBody_true y p v hy hd]
    by_cases hs : y.skipRefl true p
    · rw [if_neg (fun h => h.2 hs), List.append_nil, not_drops_skip hd hs, ← hs.2.2.2]
      exact ⟨A, A'⟩
    · rw [if_pos ⟨hr, hs⟩]
      have B := coef_two reflP reflP_reflP y.reflS (reflS_sq y) (reflS_reflP y) (swapP p) q (y.scale true p v * (y.swapS p : ℂ))
      have B' := weight_two reflP reflP_reflP (y.reflS (swapP p)) (reflS_sq y _) (swapP p) q (y.scale true p v * (y.swapS p : ℂ))
      rw [reflS_swapP, mul_right_comm] at B B'
      rw [swapP_reflP]
      simp only [coefP_append, coefP_cons, coefP_nil, weightP_append, weightP_cons, weightP_nil, add_zero] at A A' B B' ⊢
      constructor
      · linear_combination A + B
      · linear_combination A' + B'
  · rw [pairBody_plain y d p v hy hd, if_pos hr]
    exact ⟨A, A'⟩

/-- For one basis vector combined with itself the body of the exchanged pair is the exchanged body. -/
theorem body_diag (y : PairSym) (p : AState × AState) (v : ℂ) (q : AState × AState) :
    coefP (pairBody y false p v) (swapP q) = coefP (pairBody y false (swapP p) v) q ∧
    weightP (pairBody y false p v) (swapP q) = weightP (pairBody y false (swapP p) v) q := by
  have hnd : ∀ p, y.drops false p ↔ y.rotExcludes (totalM p) = true := by
    intro p
    unfold PairSym.drops
    simp
  have hsk : ∀ p, ¬ y.skipRefl false p := fun p h => by have := h.1; simp at this
  have hsc : ∀ p, y.scale false p v = if y.refl ≠ .na then v / ((Real.sqrt 2 : ℂ) * (Real.sqrt 2 : ℂ)) else v := by
    intro p
    unfold PairSym.scale
    simp [hsk p]
  by_cases hd : y.drops false p
  · have hd' : y.drops false (swapP p) := by rw [hnd] at hd ⊢; rw [totalM_swapP]; exact hd
    unfold pairBody; rw [if_pos hd, if_pos hd']; simp [coefP_nil, weightP_nil]
  have hd' : ¬ y.drops false (swapP p) := by rw [hnd] at hd ⊢; rw [totalM_swapP]; exact hd
  rw [pairBody_plain y false p v (by simp) hd, pairBody_plain y false (swapP p) v (by simp) hd', hsc, hsc, reflS_swapP]
  have e1 : ∀ a, (a = swapP q) ↔ (swapP a = q) := fun a => swapP_eq a q
  by_cases hr : y.refl ≠ .na
  · simp only [if_pos hr, coefP_append, coefP_cons, coefP_nil, weightP_append, weightP_cons, weightP_nil, e1, swapP_reflP, and_self]
  · simp only [if_neg hr, coefP_append, coefP_cons, coefP_nil, weightP_append, weightP_cons, weightP_nil, e1, and_self]

/-! ## Columns -/

/-- How the coefficients of a list of entries transform under an involution. -/
structure SymEs (τ : AState × AState → AState × AState) (χ : AState × AState → ℂ) (es : List PEntry) : Prop where
  coef : ∀ q, coefP es (τ q) = χ q * coefP es q
  weight : ∀ q, weightP es (τ q) = weightP es q

theorem SymEs.flatMap {α : Type} {τ : AState × AState → AState × AState} {χ : AState × AState → ℂ} (L : List α)
    (f : α → List PEntry) (h : ∀ a ∈ L, SymEs τ χ (f a)) : SymEs τ χ (L.flatMap f) := by
  constructor
  · intro q
    rw [coefP_flatMap, coefP_flatMap, ← List.sum_map_mul_left]
    exact congrArg List.sum (List.map_congr_left fun a ha => (h a ha).coef q)
  · intro q
    rw [weightP_flatMap, weightP_flatMap]
    exact congrArg List.sum (List.map_congr_left fun a ha => (h a ha).weight q)

theorem column_swap (y : PairSym) (u w : List (AState × ℂ)) (hy : y.inv ≠ .na ∨ y.perm ≠ .na) :
    SymEs swapP (fun q => (y.swapS q : ℂ)) (pairColumn y true u w) := by
  unfold pairColumn
  refine SymEs.flatMap _ _ fun e1 _ => SymEs.flatMap _ _ fun e2 _ => ?_
  exact ⟨fun q => (body_swap y _ _ hy q).1, fun q => (body_swap y _ _ hy q).2⟩

/-- With inversion and permutation symmetry both factors agree wherever the column is not zero. -/
theorem column_perm (y : PairSym) (u w : List (AState × ℂ)) (hy : y.perm ≠ .na) :
    SymEs swapP (fun _ => (y.permS : ℂ)) (pairColumn y true u w) := by
  unfold pairColumn
  refine SymEs.flatMap _ _ fun e1 _ => SymEs.flatMap _ _ fun e2 _ => ?_
  refine ⟨fun q => ?_, fun q => (body_swap y _ _ (Or.inr hy) q).2⟩
  by_cases hd : y.drops true (e1.1, e2.1)
  · unfold pairBody; rw [if_pos hd]; simp [coefP_nil]
  rw [(body_swap y _ _ (Or.inr hy) q).1]
  by_cases hi : y.inv = .na
  · unfold PairSym.swapS
    rw [if_neg (by simpa using hi)]
  by_cases hz : coefP (pairBody y true (e1.1, e2.1) (e1.2 * e2.2)) q = 0
  · rw [hz, mul_zero, mul_zero]
  congr 2
  have hk := not_drops_inv_perm hd hi hy
  have hq : y.invS q = y.invS (e1.1, e2.1) := by
    by_contra hne
    apply hz
    rw [pairBody_true y _ _ (Or.inr hy) hd]
    have n1 : ∀ τ : AState × AState → AState × AState, (∀ r, y.invS (τ r) = y.invS r) → τ (e1.1, e2.1) ≠ q :=
      fun τ hτ h => hne (by rw [← h, hτ])
    apply coefP_of_not_mem
    by_cases h : y.refl ≠ .na ∧ ¬ y.skipRefl true (e1.1, e2.1)
    · rw [if_pos h]
      simp only [List.map_append, List.map_cons, List.map_nil, List.mem_append, List.mem_cons, List.not_mem_nil, or_false, not_or]
      exact ⟨⟨fun h => n1 id (fun _ => rfl) h.symm, fun h => n1 swapP (invS_swapP y) h.symm⟩,
        fun h => n1 reflP (invS_reflP y) h.symm, fun h => n1 (fun r => swapP (reflP r)) (fun r => by rw [invS_swapP, invS_reflP]) h.symm⟩
    · rw [if_neg h]
      simp only [List.append_nil, List.map_cons, List.map_nil, List.mem_cons, List.not_mem_nil, or_false, not_or]
      exact ⟨fun h => n1 id (fun _ => rfl) h.symm, fun h => n1 swapP (invS_swapP y) h.symm⟩
  unfold PairSym.swapS
  rw [if_pos hi, hq, hk]

theorem column_refl (y : PairSym) (d : Bool) (u w : List (AState × ℂ)) (hy : y.refl ≠ .na) :
    SymEs reflP (fun q => (y.reflS q : ℂ)) (pairColumn y d u w) := by
  unfold pairColumn
  refine SymEs.flatMap _ _ fun e1 _ => SymEs.flatMap _ _ fun e2 _ => ?_
  exact ⟨fun q => (body_refl y d _ _ hy q).1, fun q => (body_refl y d _ _ hy q).2⟩

/-- A basis vector combined with itself is symmetric under the exchange. -/
theorem column_diag (y : PairSym) (u : List (AState × ℂ)) : SymEs swapP (fun _ => 1) (pairColumn y false u u) := by
  constructor
  · intro q
    unfold pairColumn
    simp only [coefP_flatMap, one_mul]
    rw [list_sum_comm u u]
    congr 1; refine List.map_congr_left fun e1 _ => ?_
    congr 1; refine List.map_congr_left fun e2 _ => ?_
    rw [(body_diag y _ _ q).1, mul_comm]; rfl
  · intro q
    unfold pairColumn
    simp only [weightP_flatMap]
    rw [list_sum_comm u u]
    congr 1; refine List.map_congr_left fun e1 _ => ?_
    congr 1; refine List.map_congr_left fun e2 _ => ?_
    rw [(body_diag y _ _ q).2, mul_comm]; rfl

/-! ## Removing vectors and states keeps the symmetry -/

theorem prune_sym (thr : ℝ) (hthr : 0 ≤ thr) (cols : List (ℝ × List PEntry)) (τ : AState × AState → AState × AState)
    (χ : AState × AState → ℂ) (hw : ∀ c ∈ cols, ∀ q, weightP c.2 (τ q) = weightP c.2 q) (c : ℝ × (AState × AState → ℂ))
    (hc : c ∈ (prunePairs thr cols).cols) :
    ∃ d ∈ cols, c.1 = d.1 ∧ ((∀ q, coefP d.2 (τ q) = χ q * coefP d.2 q) → ∀ q, c.2 (τ q) = χ q * c.2 q) := by
  unfold prunePairs at hc
  dsimp only at hc
  rw [List.mem_map] at hc
  obtain ⟨d, hd, rfl⟩ := hc
  refine ⟨d, (List.mem_filter.1 hd).1, rfl, fun hs q => ?_⟩
  have hW : weightP (cols.flatMap (·.2)) (τ q) = weightP (cols.flatMap (·.2)) q := by
    rw [weightP_flatMap, weightP_flatMap]
    exact congrArg List.sum (List.map_congr_left fun a ha => hw a ha q)
  have hk : ∀ q, q ∈ (statesOf (cols.flatMap (·.2))).filter (fun p => decide (thr < weightP (cols.flatMap (·.2)) p)) ↔
      thr < weightP (cols.flatMap (·.2)) q := by
    intro q
    rw [List.mem_filter, decide_eq_true_eq]
    refine ⟨fun h => h.2, fun h => ⟨?_, h⟩⟩
    rw [mem_statesOf]
    by_contra hn
    rw [weightP_of_not_mem _ _ hn] at h
    linarith
  dsimp only
  by_cases h : thr < weightP (cols.flatMap (·.2)) q
  · rw [if_pos ((hk _).2 h), if_pos ((hk _).2 (hW ▸ h)), hs]
  · rw [if_neg (fun h1 => h ((hk _).1 h1)), if_neg (fun h1 => h (hW ▸ (hk _).1 h1)), mul_zero]

/-! ## What the loops produce -/

/-- Where a column of the first loop comes from. -/
structure FromPair (P : PairSet) (S1 S2 : OneSys) (ab : ℕ × ℕ) (u w : ℝ × List (AState × ℂ)) (c : ℝ × List PEntry) : Prop where
  fst : S1.cols[ab.1]? = some u
  snd : S2.cols[ab.2]? = some w
  skip : (P.sym.local_ (artCol u.2 || artCol w.2)).skips (decide (ab.1 ≤ ab.2)) (decide (ab.1 < ab.2)) = false
  energy : P.energyOk (u.1 + w.1) = true
  nan : artCol u.2 = false → artCol w.2 = false → nanJ u.2 w.2 = false
  eq : c = (u.1 + w.1, pairColumn (P.sym.local_ (artCol u.2 || artCol w.2)) (decide (ab.1 ≠ ab.2)) u.2 w.2)

theorem pairLoop_mem (P : PairSet) (S1 S2 : OneSys) (ps : List (ℕ × ℕ)) (cs : List (ℝ × List PEntry))
    (h : pairLoop P S1 S2 ps = .ok cs) (c : ℝ × List PEntry) (hc : c ∈ cs) :
    ∃ ab ∈ ps, ∃ u w, FromPair P S1 S2 ab u w c := by
  induction ps generalizing cs with
  | nil =>
    unfold pairLoop at h
    cases h
    simp at hc
  | cons ab ps ih =>
    unfold pairLoop at h
    cases hu : S1.cols[ab.1]? with
    | none => rw [hu] at h; simp at h
    | some u =>
      cases hw : S2.cols[ab.2]? with
      | none => rw [hu, hw] at h; simp at h
      | some w =>
        rw [hu, hw] at h
        dsimp only at h
        have rest : ∀ cs', pairLoop P S1 S2 ps = .ok cs' → c ∈ cs' → ∃ x ∈ ab :: ps, ∃ u w, FromPair P S1 S2 x u w c := by
          intro cs' h1 h2
          obtain ⟨x, hx, r⟩ := ih cs' h1 h2
          exact ⟨x, List.mem_cons_of_mem _ hx, r⟩
        by_cases h1 : (P.sym.local_ (artCol u.2 || artCol w.2)).skips (decide (ab.1 ≤ ab.2)) (decide (ab.1 < ab.2)) = true
        · rw [if_pos h1] at h; exact rest cs h hc
        rw [if_neg h1] at h
        by_cases h2 : P.energyOk (u.1 + w.1) = false
        · rw [if_pos h2] at h; exact rest cs h hc
        rw [if_neg h2] at h
        by_cases h3 : artCol u.2 = false ∧ artCol w.2 = false ∧ nanJ u.2 w.2 = true
        · rw [if_pos h3] at h; simp at h
        rw [if_neg h3] at h
        cases hr : pairLoop P S1 S2 ps with
        | throw => rw [hr] at h; simp at h
        | ub => rw [hr] at h; simp at h
        | ok r =>
          rw [hr] at h
          dsimp only at h
          have h' := Out.ok.inj h
          rw [← h', List.mem_cons] at hc
          rcases hc with hc | hc
          · refine ⟨ab, List.mem_cons_self, u, w, hu, hw, by simpa using h1, by simpa using h2, fun ha hb => ?_, hc⟩
            by_contra hn
            exact h3 ⟨ha, hb, by simpa using hn⟩
          · exact rest r hr hc

theorem pairUsers_mem (P : PairSet) (lt : AState → AState → Bool) (E : AState → ℝ) (ps : List (AState × AState))
    (us : List (ℝ × List PEntry)) (h : pairUsers P lt E ps = .ok us) (c : ℝ × List PEntry) (hc : c ∈ us) :
    ∃ p ∈ ps, pairUser P lt E p = .ok (some c) := by
  induction ps generalizing us with
  | nil => unfold pairUsers at h; cases h; simp at hc
  | cons p ps ih =>
    unfold pairUsers at h
    cases hp : pairUser P lt E p with
    | throw => rw [hp] at h; simp at h
    | ub => rw [hp] at h; simp at h
    | ok o =>
      rw [hp] at h
      cases o with
      | none =>
        obtain ⟨x, hx, r⟩ := ih us h hc
        exact ⟨x, List.mem_cons_of_mem _ hx, r⟩
      | some d =>
        dsimp only at h
        cases hr : pairUsers P lt E ps with
        | throw => rw [hr] at h; simp at h
        | ub => rw [hr] at h; simp at h
        | ok r =>
          rw [hr] at h
          have h' := Out.ok.inj h
          rw [← h', List.mem_cons] at hc
          rcases hc with rfl | hc
          · exact ⟨p, List.mem_cons_self, hp⟩
          · obtain ⟨x, hx, r'⟩ := ih r hr hc
            exact ⟨x, List.mem_cons_of_mem _ hx, r'⟩

theorem pairBuild_ok (P : PairSet) (lt : AState → AState → Bool) (E : AState → ℝ) (S1 S2 : OneSys) (B : PairBasis)
    (h : pairBuild P lt E S1 S2 = .ok B) :
    ∃ cs us, pairLoop P S1 S2 (P.usedPairs S1 S2) = .ok cs ∧ pairUsers P lt E P.toAdd = .ok us ∧
      B = prunePairs P.thr (cs ++ us) := by
  unfold pairBuild at h
  cases h1 : pairLoop P S1 S2 (P.usedPairs S1 S2) with
  | throw => rw [h1] at h; simp at h
  | ub => rw [h1] at h; simp at h
  | ok cs =>
    rw [h1] at h
    dsimp only at h
    by_cases a1 : S1.states.length * S2.states.length + P.toAdd.length < (statesOf (cs.flatMap (·.2))).length
    · rw [if_pos a1] at h; simp at h
    rw [if_neg a1] at h
    by_cases a2 : P.toAdd.all (userPairOk P (statesOf (cs.flatMap (·.2)))) = false
    · rw [if_pos a2] at h; simp at h
    rw [if_neg a2] at h
    cases h2 : pairUsers P lt E P.toAdd with
    | throw => rw [h2] at h; simp at h
    | ub => rw [h2] at h; simp at h
    | ok us =>
      rw [h2] at h
      dsimp only at h
      by_cases a3 : S1.states.length * S2.states.length + P.toAdd.length < (statesOf ((cs ++ us).flatMap (·.2))).length
      · rw [if_pos a3] at h; simp at h
      rw [if_neg a3] at h
      by_cases a4 : (prunePairs P.thr (cs ++ us)).states = [] ∨ (prunePairs P.thr (cs ++ us)).cols = []
      · rw [if_pos a4] at h; simp at h
      rw [if_neg a4] at h
      exact ⟨cs, us, rfl, rfl, (Out.ok.inj h).symm⟩

/-- The column of a user-defined state. -/
theorem pairUser_some (P : PairSet) (lt : AState → AState → Bool) (E : AState → ℝ) (p : AState × AState)
    (c : ℝ × List PEntry) (h : pairUser P lt E p = .ok (some c)) :
    let y := P.sym.local_ (p.1.isArt || p.2.isArt)
    y.rotExcludes (totalM p) = false ∧
    (y.inv ≠ .na → y.perm ≠ .na → p.1 ≠ p.2 → y.invS p = y.permS) ∧
    ((y.inv ≠ .na ∨ y.perm ≠ .na) → p.1 ≠ p.2 → swapP p ∈ P.toAdd) ∧
    (p.1 = p.2 → y.inv ≠ .even ∧ y.perm ≠ .even) ∧
    c.2 = (if p.1 ≠ p.2 ∧ (y.inv ≠ .na ∨ y.perm ≠ .na) then
      [(p, 1 / (Real.sqrt 2 : ℂ)), (swapP p, 1 / (Real.sqrt 2 : ℂ) * (y.swapS p : ℂ))] else [(p, 1)]) := by
  intro y
  unfold pairUser at h
  dsimp only at h
  by_cases h1 : y.rotExcludes (totalM p) = true
  · rw [if_pos h1] at h; simp at h
  rw [if_neg h1] at h
  by_cases h2 : y.inv ≠ .na ∧ y.perm ≠ .na ∧ decide (p.1 ≠ p.2) = true ∧ y.invS p ≠ y.permS
  · rw [if_pos h2] at h; simp at h
  rw [if_neg h2] at h
  by_cases h3 : (y.inv ≠ .na ∨ y.perm ≠ .na) ∧ decide (p.1 ≠ p.2) = true ∧ swapP p ∉ P.toAdd
  · rw [if_pos h3] at h; simp at h
  rw [if_neg h3] at h
  by_cases h4 : y.skips (lt p.1 p.2 || decide (p.1 = p.2)) (lt p.1 p.2) = true
  · rw [if_pos h4] at h; simp at h
  rw [if_neg h4] at h
  have h' := Option.some.inj (Out.ok.inj h)
  refine ⟨by simpa using h1, ?_, ?_, ?_, ?_⟩
  · intro a b c
    by_contra hn
    exact h2 ⟨a, b, by simpa using c, hn⟩
  · intro a b
    by_contra hn
    exact h3 ⟨a, by simpa using b, hn⟩
  · intro heq
    rw [heq] at h4
    unfold PairSym.skips at h4
    simp at h4
    exact ⟨h4.1.1.1, h4.1.2⟩
  · rw [← h']
    dsimp only
    by_cases hd : p.1 ≠ p.2
    · by_cases hy : y.inv ≠ .na ∨ y.perm ≠ .na
      · rw [if_pos ⟨hy, by simpa using hd⟩, if_pos ⟨by simpa using hd, hy⟩, if_pos ⟨hd, hy⟩]; rfl
      · rw [if_neg (fun hh => hy hh.1), if_neg (fun hh => hy hh.2), if_neg (fun hh => hy hh.2)]; rfl
    · rw [if_neg (fun hh => hd (by simpa using hh.2)), if_neg (fun hh => hd (by simpa using hh.1)), if_neg (fun hh => hd hh.1)]; rfl

theorem local_perm (y : PairSym) (a : Bool) : (y.local_ a).perm = y.perm := by
  unfold PairSym.local_; split <;> rfl

theorem local_false (y : PairSym) : y.local_ false = y := rfl

theorem local_permS (y : PairSym) (a : Bool) : (y.local_ a).permS = y.permS := by
  unfold PairSym.permS; rw [local_perm]

theorem coef_single_swap (p q : AState × AState) (hp : p.1 = p.2) : coefP [(p, 1)] (swapP q) = coefP [(p, 1)] q ∧
    weightP [(p, 1)] (swapP q) = weightP [(p, 1)] q := by
  have : swapP p = p := by unfold swapP; rw [← hp]; exact Prod.ext rfl hp
  have e : (p = swapP q) ↔ (p = q) := by rw [swapP_eq, this]
  simp only [coefP_cons, coefP_nil, weightP_cons, weightP_nil, e, and_self]

theorem user_sym (y : PairSym) (p : AState × AState) (es : List PEntry) (hy : y.inv ≠ .na ∨ y.perm ≠ .na)
    (hes : es = (if p.1 ≠ p.2 ∧ (y.inv ≠ .na ∨ y.perm ≠ .na) then
      [(p, 1 / (Real.sqrt 2 : ℂ)), (swapP p, 1 / (Real.sqrt 2 : ℂ) * (y.swapS p : ℂ))] else [(p, 1)])) (q : AState × AState) :
    coefP es (swapP q) = (if p.1 = p.2 then 1 else (y.swapS q : ℂ)) * coefP es q ∧ weightP es (swapP q) = weightP es q := by
  rw [hes]
  by_cases hp : p.1 = p.2
  · rw [if_neg (fun h => h.1 hp), if_pos hp, one_mul]
    exact coef_single_swap p q hp
  · rw [if_pos ⟨hp, hy⟩, if_neg hp]
    exact ⟨coef_two swapP swapP_swapP y.swapS (swapS_sq y) (swapS_swapP y) p q _,
      weight_two swapP swapP_swapP (y.swapS p) (swapS_sq y p) p q _⟩

/-- **C41** (exchange): if both atoms are described by the same basis vectors and a permutation symmetry is set, then
every basis vector of the pair basis, also those of user-defined states, is an eigenvector of the exchange of the
atoms, with the eigenvalue -1 for EVEN and +1 for ODD. -/
theorem C41_exchange (P : PairSet) (lt : AState → AState → Bool) (E : AState → ℝ) (S1 S2 : OneSys) (B : PairBasis)
    (hthr : 0 ≤ P.thr) (hcols : S1.cols = S2.cols) (hperm : P.sym.perm ≠ .na) (h : pairBuild P lt E S1 S2 = .ok B)
    (c : ℝ × (AState × AState → ℂ)) (hc : c ∈ B.cols) (s t : AState) :
    c.2 (t, s) = (if P.sym.perm = .even then -1 else 1) * c.2 (s, t) := by
  obtain ⟨cs, us, h1, h2, rfl⟩ := pairBuild_ok P lt E S1 S2 B h
  have key : ∀ d ∈ cs ++ us, SymEs swapP (fun _ => (P.sym.permS : ℂ)) d.2 := by
    intro d hd
    rw [List.mem_append] at hd
    rcases hd with hd | hd
    · obtain ⟨ab, _, u, w, f⟩ := pairLoop_mem P S1 S2 _ cs h1 d hd
      rw [f.eq]
      dsimp only
      by_cases hab : ab.1 = ab.2
      · have huw : u = w := by
          have := f.fst; rw [hab, hcols, f.snd] at this; exact (Option.some.inj this).symm
        have hodd : P.sym.permS = 1 := by
          have hs := f.skip
          unfold PairSym.skips at hs
          rw [local_perm] at hs
          simp [hab] at hs
          unfold PairSym.permS
          rw [if_neg hs.2]
        rw [huw, show decide (ab.1 ≠ ab.2) = false by simpa using hab, hodd]
        simpa using column_diag _ w.2
      · rw [show decide (ab.1 ≠ ab.2) = true by simpa using hab, ← local_permS P.sym (artCol u.2 || artCol w.2)]
        exact column_perm _ _ _ (by rw [local_perm]; exact hperm)
    · obtain ⟨p, _, hp⟩ := pairUsers_mem P lt E _ us h2 d hd
      obtain ⟨a1, a2, a3, a4, a5⟩ := pairUser_some P lt E p d hp
      have hy : (P.sym.local_ (p.1.isArt || p.2.isArt)).perm ≠ .na := by rw [local_perm]; exact hperm
      have hu := user_sym _ p d.2 (Or.inr hy) a5
      refine ⟨fun q => ?_, fun q => (hu q).2⟩
      rw [(hu q).1]
      by_cases hpp : p.1 = p.2
      · rw [if_pos hpp]
        have := (a4 hpp).2
        rw [local_perm] at this
        unfold PairSym.permS
        rw [if_neg this]; push_cast; rfl
      · rw [if_neg hpp]
        by_cases hz : coefP d.2 q = 0
        · rw [hz, mul_zero, mul_zero]
        congr 2
        unfold PairSym.swapS
        by_cases hi : (P.sym.local_ (p.1.isArt || p.2.isArt)).inv ≠ .na
        · rw [if_pos hi]
          have hk := a2 hi hy hpp
          rw [local_permS] at hk
          have hq : q = p ∨ q = swapP p := by
            by_contra hn
            rw [not_or] at hn
            apply hz
            rw [a5, if_pos ⟨hpp, Or.inl hi⟩]
            apply coefP_of_not_mem
            simpa using hn
          rcases hq with rfl | rfl
          · exact hk
          · rw [invS_swapP]; exact hk
        · rw [if_neg hi, local_permS]
  obtain ⟨d, hd, _, hs⟩ := prune_sym P.thr hthr (cs ++ us) swapP (fun _ => (P.sym.permS : ℂ)) (fun d hd => (key d hd).weight) c hc
  have := hs (key d hd).coef (s, t)
  unfold PairSym.permS at this
  rw [show (t, s) = swapP (s, t) from rfl, this]
  by_cases he : P.sym.perm = .even <;> simp [he]


/-- `(-1)^k` as a complex number, for the specifications below. -/
noncomputable def signC (k : ℤ) : ℂ := (-1) ^ k

theorem signC_eq (k : ℤ) : signC k = (sgnZ k : ℂ) := by
  unfold signC sgnZ
  rcases Int.emod_two_eq_zero_or_one k with h | h
  · rw [if_pos h]
    have : Even k := Int.even_iff.2 h
    rw [this.neg_one_zpow]; simp
  · rw [if_neg (by omega)]
    have : Odd k := Int.odd_iff.2 h
    rw [this.neg_one_zpow]; simp

/-- No basis vector of the system contains an artificial state. -/
def NoArt (S : OneSys) : Prop := ∀ u ∈ S.cols, ∀ e ∈ u.2, e.1.isArt = false

theorem NoArt.col {S : OneSys} (h : NoArt S) {a : ℕ} {u : ℝ × List (AState × ℂ)} (hu : S.cols[a]? = some u) :
    artCol u.2 = false := by
  unfold artCol
  rw [List.any_eq_false]
  intro e he
  rw [h u (List.mem_of_getElem? hu) e he]; simp

/-- **C74** (reflection): with a reflection symmetry (and physical states only, no user-defined states) every basis
vector is an eigenvector of the reflection, which maps (s, t) to the pair of states with opposite m and multiplies with
(-1)^(l1 + l2) (-1)^(j1 + j2) (-1)^(m1 + m2); the eigenvalue is +1 for EVEN and -1 for ODD.  (j and m are doubled.)
This needs no property of the one-atom basis vectors. -/
theorem C74_reflection (P : PairSet) (lt : AState → AState → Bool) (E : AState → ℝ) (S1 S2 : OneSys) (B : PairBasis)
    (hthr : 0 ≤ P.thr) (ha1 : NoArt S1) (ha2 : NoArt S2) (hadd : P.toAdd = []) (hr : P.sym.refl ≠ .na)
    (h : pairBuild P lt E S1 S2 = .ok B) (c : ℝ × (AState × AState → ℂ)) (hc : c ∈ B.cols) (s t : AState)
    (hm : (s.m + t.m) % 2 = 0) :
    c.2 (s.refl, t.refl) =
      (if P.sym.refl = .even then 1 else -1) * (signC (s.l + t.l) * signC ((s.j + t.j) / 2) * signC ((s.m + t.m) / 2)) *
        c.2 (s, t) := by
  obtain ⟨cs, us, h1, h2, rfl⟩ := pairBuild_ok P lt E S1 S2 B h
  have hus : us = [] := by
    rw [hadd] at h2; unfold pairUsers at h2; exact (Out.ok.inj h2).symm
  have key : ∀ d ∈ cs ++ us, SymEs reflP (fun q => (P.sym.reflS q : ℂ)) d.2 := by
    intro d hd
    rw [hus, List.append_nil] at hd
    obtain ⟨ab, _, u, w, f⟩ := pairLoop_mem P S1 S2 _ cs h1 d hd
    rw [f.eq, ha1.col f.fst, ha2.col f.snd]
    exact column_refl _ _ _ _ hr
  obtain ⟨d, hd, _, hs⟩ := prune_sym P.thr hthr (cs ++ us) reflP (fun q => (P.sym.reflS q : ℂ)) (fun d hd => (key d hd).weight) c hc
  have := hs (key d hd).coef (s, t)
  rw [show (s.refl, t.refl) = reflP (s, t) from rfl, this]
  have hM : totalM (s, t) = (s.m + t.m) / 2 := by
    unfold totalM
    rw [Int.tdiv_eq_ediv_of_dvd (Int.dvd_of_emod_eq_zero hm)]
  unfold PairSym.reflS parLJM parL
  rw [hM, signC_eq, signC_eq, signC_eq]
  by_cases he : P.sym.refl = .even
  · rw [if_pos he, if_pos he]; push_cast; ring
  · rw [if_neg he, if_neg he]; push_cast; ring

/-- **C74** (inversion): with an inversion symmetry, if both atoms are described by the same basis vectors and every
one-atom basis vector has a definite parity of l, every basis vector is an eigenvector of the inversion, which exchanges
the atoms and multiplies with -(-1)^(l1 + l2); the eigenvalue is +1 for EVEN (gerade) and -1 for ODD (ungerade). -/
theorem C74_inversion (P : PairSet) (lt : AState → AState → Bool) (E : AState → ℝ) (S1 S2 : OneSys) (B : PairBasis)
    (hthr : 0 ≤ P.thr) (hcols : S1.cols = S2.cols) (ha : NoArt S1) (hpar : ∀ u ∈ S1.cols, ∀ e ∈ u.2, ∀ e' ∈ u.2, (e.1.l + e'.1.l) % 2 = 0)
    (hadd : ∀ p ∈ P.toAdd, p.1.isArt = false ∧ p.2.isArt = false) (hi : P.sym.inv ≠ .na)
    (h : pairBuild P lt E S1 S2 = .ok B) (c : ℝ × (AState × AState → ℂ)) (hc : c ∈ B.cols) (s t : AState) :
    c.2 (t, s) = (if P.sym.inv = .even then -1 else 1) * signC (s.l + t.l) * c.2 (s, t) := by
  have ha2 : NoArt S2 := by unfold NoArt; rw [← hcols]; exact ha
  obtain ⟨cs, us, h1, h2, rfl⟩ := pairBuild_ok P lt E S1 S2 B h
  have hI : ∀ q, P.sym.swapS q = P.sym.invS q := by intro q; unfold PairSym.swapS; rw [if_pos hi]
  have key : ∀ d ∈ cs ++ us, SymEs swapP (fun q => (P.sym.invS q : ℂ)) d.2 := by
    intro d hd
    rw [List.mem_append] at hd
    rcases hd with hd | hd
    · obtain ⟨ab, _, u, w, f⟩ := pairLoop_mem P S1 S2 _ cs h1 d hd
      have hs := f.skip
      rw [f.eq]
      rw [ha.col f.fst, ha2.col f.snd] at hs ⊢
      dsimp only
      rw [show (false || false) = false from rfl, local_false] at hs ⊢
      by_cases hab : ab.1 = ab.2
      · have huw : u = w := by
          have := f.fst; rw [hab, hcols, f.snd] at this; exact (Option.some.inj this).symm
        have hodd : P.sym.inv ≠ .even := by
          unfold PairSym.skips at hs
          simp [hab] at hs
          exact hs.1
        rw [show decide (ab.1 ≠ ab.2) = false by simpa using hab, ← huw]
        have D := column_diag P.sym u.2
        refine ⟨fun q => ?_, D.weight⟩
        rw [D.coef q]
        by_cases hz : coefP (pairColumn P.sym false u.2 u.2) q = 0
        · rw [hz, mul_zero, mul_zero]
        congr 1
        have hq : parL q = 1 := by
          by_contra hne
          apply hz
          unfold pairColumn
          rw [coefP_flatMap]
          apply List.sum_eq_zero
          intro x hx
          rw [List.mem_map] at hx
          obtain ⟨e1, he1, rfl⟩ := hx
          rw [coefP_flatMap]
          apply List.sum_eq_zero
          intro x hx
          rw [List.mem_map] at hx
          obtain ⟨e2, he2, rfl⟩ := hx
          have hpl : parL (e1.1, e2.1) = 1 := by
            unfold parL sgnZ
            rw [if_pos (hpar u (List.mem_of_getElem? f.fst) e1 he1 e2 he2)]
          by_cases hd : P.sym.drops false (e1.1, e2.1)
          · unfold pairBody; rw [if_pos hd]; rfl
          rw [pairBody_plain P.sym false _ _ (by simp) hd]
          apply coefP_of_not_mem
          have n1 : q ≠ (e1.1, e2.1) := fun h => hne (h ▸ hpl)
          have n2 : q ≠ reflP (e1.1, e2.1) := fun h => hne (by rw [h, parL_reflP]; exact hpl)
          by_cases hr : P.sym.refl ≠ .na
          · rw [if_pos hr]
            simp only [List.map_append, List.map_cons, List.map_nil, List.mem_append, List.mem_cons, List.not_mem_nil, or_false, not_or]
            exact ⟨n1, n2⟩
          · rw [if_neg hr]
            simp only [List.append_nil, List.map_cons, List.map_nil, List.mem_cons, List.not_mem_nil, or_false]
            exact n1
        unfold PairSym.invS
        rw [if_neg hodd, hq]; simp
      · rw [show decide (ab.1 ≠ ab.2) = true by simpa using hab]
        have := column_swap P.sym u.2 w.2 (Or.inl hi)
        simp only [hI] at this
        exact this
    · obtain ⟨p, hpm, hp⟩ := pairUsers_mem P lt E _ us h2 d hd
      obtain ⟨a1, a2, a3, a4, a5⟩ := pairUser_some P lt E p d hp
      rw [(hadd p hpm).1, (hadd p hpm).2] at a1 a2 a3 a4 a5
      have hu := user_sym P.sym p d.2 (Or.inl hi) a5
      refine ⟨fun q => ?_, fun q => (hu q).2⟩
      rw [(hu q).1]
      by_cases hpp : p.1 = p.2
      · rw [if_pos hpp]
        by_cases hz : coefP d.2 q = 0
        · rw [hz, mul_zero, mul_zero]
        congr 1
        have hq : q = p := by
          by_contra hn
          apply hz
          rw [a5, if_neg (fun hh => hh.1 hpp)]
          apply coefP_of_not_mem
          simpa using hn
        have hl : parL q = 1 := by
          unfold parL sgnZ
          rw [hq, hpp, if_pos (by omega)]
        have he : P.sym.inv ≠ .even := (a4 hpp).1
        unfold PairSym.invS
        rw [if_neg he, hl]; simp
      · rw [if_neg hpp, hI]
  obtain ⟨d, hd, _, hs⟩ := prune_sym P.thr hthr (cs ++ us) swapP (fun q => (P.sym.invS q : ℂ)) (fun d hd => (key d hd).weight) c hc
  have := hs (key d hd).coef (s, t)
  rw [show (t, s) = swapP (s, t) from rfl, this, signC_eq]
  unfold PairSym.invS parL
  by_cases he : P.sym.inv = .even
  · rw [if_pos he, if_pos he]; push_cast; ring
  · rw [if_neg he, if_neg he]; push_cast; ring

/-- The states that a column of the first loop can contain. -/
theorem column_keys (y : PairSym) (d : Bool) (u w : List (AState × ℂ)) (q : AState × AState)
    (hq : q ∈ (pairColumn y d u w).map (·.1)) :
    ∃ e1 ∈ u, ∃ e2 ∈ w, ¬ y.drops d (e1.1, e2.1) ∧
      (q = (e1.1, e2.1) ∨ (d = true ∧ (y.inv ≠ .na ∨ y.perm ≠ .na) ∧ q = (e2.1, e1.1)) ∨
       (y.refl ≠ .na ∧ (q = (e1.1.refl, e2.1.refl) ∨
         (d = true ∧ (y.inv ≠ .na ∨ y.perm ≠ .na) ∧ q = (e2.1.refl, e1.1.refl))))) := by
  unfold pairColumn at hq
  rw [List.mem_map] at hq
  obtain ⟨x, hx, rfl⟩ := hq
  rw [List.mem_flatMap] at hx
  obtain ⟨e1, he1, hx⟩ := hx
  rw [List.mem_flatMap] at hx
  obtain ⟨e2, he2, hx⟩ := hx
  by_cases hd : y.drops d (e1.1, e2.1)
  · unfold pairBody at hx; rw [if_pos hd] at hx; simp at hx
  refine ⟨e1, he1, e2, he2, hd, ?_⟩
  by_cases hy : d = true ∧ (y.inv ≠ .na ∨ y.perm ≠ .na)
  · obtain ⟨rfl, hy⟩ := hy
    rw [pairBody_true y _ _ hy hd, List.mem_append] at hx
    rcases hx with hx | hx
    · simp only [List.mem_cons, List.not_mem_nil, or_false] at hx
      rcases hx with rfl | rfl
      · exact Or.inl rfl
      · exact Or.inr (Or.inl ⟨rfl, hy, rfl⟩)
    · by_cases hr : y.refl ≠ .na ∧ ¬ y.skipRefl true (e1.1, e2.1)
      · rw [if_pos hr] at hx
        simp only [List.mem_cons, List.not_mem_nil, or_false] at hx
        rcases hx with rfl | rfl
        · exact Or.inr (Or.inr ⟨hr.1, Or.inl rfl⟩)
        · exact Or.inr (Or.inr ⟨hr.1, Or.inr ⟨rfl, hy, rfl⟩⟩)
      · rw [if_neg hr] at hx; simp at hx
  · rw [pairBody_plain y d _ _ hy hd, List.mem_append] at hx
    rcases hx with hx | hx
    · simp only [List.mem_cons, List.not_mem_nil, or_false] at hx
      exact Or.inl (by rw [hx])
    · by_cases hr : y.refl ≠ .na
      · rw [if_pos hr] at hx
        simp only [List.mem_cons, List.not_mem_nil, or_false] at hx
        exact Or.inr (Or.inr ⟨hr, Or.inl (by rw [hx]; rfl)⟩)
      · rw [if_neg hr] at hx; simp at hx

/-- **C74** (rotation): with conserved momenta every state of the pair basis has an allowed total magnetic quantum
number (physical states; with a reflection symmetry the set of momenta has to be symmetric, which the setters
enforce). -/
theorem C74_rotation (P : PairSet) (lt : AState → AState → Bool) (E : AState → ℝ) (S1 S2 : OneSys) (B : PairBasis)
    (ha1 : NoArt S1) (ha2 : NoArt S2) (hadd : ∀ p ∈ P.toAdd, p.1.isArt = false ∧ p.2.isArt = false) (ms : Finset ℤ)
    (hrot : P.sym.rot = some ms) (hsym : P.sym.refl ≠ .na → ∀ M ∈ ms, -M ∈ ms)
    (h : pairBuild P lt E S1 S2 = .ok B) (s t : AState) (hst : (s, t) ∈ B.states) (hm : (s.m + t.m) % 2 = 0) :
    (s.m + t.m) / 2 ∈ ms := by
  obtain ⟨cs, us, h1, h2, rfl⟩ := pairBuild_ok P lt E S1 S2 B h
  have hM : totalM (s, t) = (s.m + t.m) / 2 := by
    unfold totalM
    rw [Int.tdiv_eq_ediv_of_dvd (Int.dvd_of_emod_eq_zero hm)]
  rw [← hM]
  have hrx : ∀ p, P.sym.rotExcludes (totalM p) = false → totalM p ∈ ms := by
    intro p hp
    unfold PairSym.rotExcludes at hp
    rw [hrot] at hp
    simpa using hp
  unfold prunePairs at hst
  dsimp only at hst
  rw [List.mem_filter, mem_statesOf, List.mem_map] at hst
  obtain ⟨⟨x, hx, hxe⟩, _⟩ := hst
  rw [List.mem_flatMap] at hx
  obtain ⟨d, hd, hx⟩ := hx
  rw [List.mem_append] at hd
  rcases hd with hd | hd
  · obtain ⟨ab, _, u, w, f⟩ := pairLoop_mem P S1 S2 _ cs h1 d hd
    have hx' : (s, t) ∈ d.2.map (·.1) := List.mem_map.2 ⟨x, hx, hxe⟩
    rw [f.eq, ha1.col f.fst, ha2.col f.snd] at hx'
    obtain ⟨e1, _, e2, _, hdr, hq⟩ := column_keys _ _ _ _ _ hx'
    have hok : totalM (e1.1, e2.1) ∈ ms := by
      apply hrx
      by_contra hn
      exact hdr (Or.inl (by rw [show (false || false) = false from rfl, local_false]; simpa using hn))
    rcases hq with hq | ⟨_, _, hq⟩ | ⟨hr, hq | ⟨_, _, hq⟩⟩
    · rw [hq]; exact hok
    · rw [hq, show (e2.1, e1.1) = swapP (e1.1, e2.1) from rfl, totalM_swapP]; exact hok
    · rw [hq, show (e1.1.refl, e2.1.refl) = reflP (e1.1, e2.1) from rfl, totalM_reflP]; exact hsym hr _ hok
    · rw [hq, show (e2.1.refl, e1.1.refl) = swapP (reflP (e1.1, e2.1)) from rfl, totalM_swapP, totalM_reflP]; exact hsym hr _ hok
  · obtain ⟨p, hpm, hp⟩ := pairUsers_mem P lt E _ us h2 d hd
    obtain ⟨a1, a2, a3, a4, a5⟩ := pairUser_some P lt E p d hp
    rw [(hadd p hpm).1, (hadd p hpm).2] at a1
    have hok := hrx p a1
    have hq : (s, t) = p ∨ (s, t) = swapP p := by
      rw [a5] at hx
      split at hx
      · simp only [List.mem_cons, List.not_mem_nil, or_false] at hx
        rcases hx with rfl | rfl
        · exact Or.inl hxe.symm
        · exact Or.inr hxe.symm
      · simp only [List.mem_cons, List.not_mem_nil, or_false] at hx
        rw [hx] at hxe
        exact Or.inl hxe.symm
    rcases hq with hq | hq
    · rw [hq]; exact hok
    · rw [hq, totalM_swapP]; exact hok

end PI
