import Verif.Sys.Update
import Mathlib.Tactic.IntervalCases

/-! # C67 combining systems, C68 overlaps -/

namespace PI

/-! ## C67 -/

/-- Specification: the coefficient of a state in column `j` of a coefficient matrix that belongs to a state list (zero if
the state is not in the list). -/
noncomputable def coefOf {σ : Type} [DecidableEq σ] (states : List (ℕ × σ)) (A : Mat) (st : σ) (j : ℕ) : ℂ :=
  match states.find? fun e => e.2 = st with
  | some e => A.val e.1 j
  | none => 0

theorem coefOf_mem {σ : Type} [DecidableEq σ] {states : List (ℕ × σ)} (hn : (states.map Prod.snd).Nodup) (A : Mat) (i : ℕ) (st : σ)
    (j : ℕ) (h : (i, st) ∈ states) : coefOf states A st j = A.val i j := by
  unfold coefOf
  have : states.find? (fun e => e.2 = st) = some (i, st) := by
    cases hf : states.find? fun e => e.2 = st with
    | none =>
      have := List.find?_eq_none.mp hf _ h
      simp at this
    | some e =>
      have h1 := List.mem_of_find?_eq_some hf
      have h2 := List.find?_some hf
      rw [List.inj_on_of_nodup_map hn h1 h (by simpa using h2)]
  rw [this]

theorem coefOf_not {σ : Type} [DecidableEq σ] {states : List (ℕ × σ)} (A : Mat) (st : σ)
    (j : ℕ) (h : st ∉ states.map Prod.snd) : coefOf states A st j = 0 := by
  unfold coefOf
  have : states.find? (fun e => e.2 = st) = none := by
    rw [List.find?_eq_none]
    intro e he hc
    exact h (List.mem_map.mpr ⟨e, he, by simpa using hc⟩)
  rw [this]

theorem idxOf_append_left {σ : Type} [DecidableEq σ] {L M : List σ} {x : σ} (h : x ∈ L) : (L ++ M).idxOf x = L.idxOf x := by
  rw [List.idxOf_append, if_pos h]

/-- What the state loop of `add` produces. -/
theorem addLoop_spec {σ : Type} [DecidableEq σ] (cur : List σ) (es : List (ℕ × σ)) (hn : (es.map Prod.snd).Nodup) :
    (addLoop cur es).1 = cur ++ (es.map Prod.snd).filter (fun st => st ∉ cur) ∧
    (addLoop cur es).2 = es.map fun e => ((addLoop cur es).1.idxOf e.2, e.1, 1) := by
  induction es generalizing cur with
  | nil => simp [addLoop]
  | cons e es ih =>
    rw [List.map_cons, List.nodup_cons] at hn
    rw [addLoop]
    by_cases h : e.2 ∈ cur
    · rw [idxOf?_eq_some cur e.2 h]
      obtain ⟨i1, i2⟩ := ih cur hn.2
      dsimp only
      refine ⟨?_, ?_⟩
      · rw [i1, List.map_cons, List.filter_cons_of_neg (by simpa using h)]
      · rw [List.map_cons, ← i2, i1, idxOf_append_left h]
    · have : cur.idxOf? e.2 = none := by
        rw [List.idxOf?_eq_none_iff]; exact h
      rw [this]
      obtain ⟨i1, i2⟩ := ih (cur ++ [e.2]) hn.2
      dsimp only
      have hf : (es.map Prod.snd).filter (fun st => st ∉ cur ++ [e.2]) = (es.map Prod.snd).filter (fun st => st ∉ cur) := by
        apply List.filter_congr
        intro x hx
        have : x ≠ e.2 := by rintro rfl; exact hn.1 hx
        simp [this]
      have h1 : (addLoop (cur ++ [e.2]) es).1 = cur ++ List.filter (fun st => st ∉ cur) (List.map Prod.snd (e :: es)) := by
        rw [i1, hf, List.map_cons, List.filter_cons_of_pos (by simpa using h)]
        simp
      refine ⟨h1, ?_⟩
      rw [List.map_cons, ← i2, i1]
      congr 2
      rw [idxOf_append_left (by simp), List.idxOf_append, if_neg h]
      simp

theorem addLoop_nodup {σ : Type} [DecidableEq σ] (cur : List σ) (es : List (ℕ × σ)) (hc : cur.Nodup)
    (hn : (es.map Prod.snd).Nodup) : (addLoop cur es).1.Nodup := by
  rw [(addLoop_spec cur es hn).1, List.nodup_append]
  refine ⟨hc, hn.filter _, ?_⟩
  intro a ha b hb
  have := (List.mem_filter.mp hb).2
  rintro rfl
  simp [ha] at this

/-- The transformator entry: 1 if the state of the new row is the state of the old row. -/
theorem addMat_mul {σ : Type} [DecidableEq σ] (L : List σ) (hL : L.Nodup) (es : List (ℕ × σ)) (hi : es.map Prod.fst = List.range es.length)
    (hn : (es.map Prod.snd).Nodup) (hsub : ∀ e ∈ es, e.2 ∈ L) (n m : ℕ) (hm : m = es.length) (A : Mat) (r : ℕ) (st : σ)
    (hr : L[r]? = some st) (j : ℕ) :
    ((Mat.ofTriplets n m (es.map fun e => (L.idxOf e.2, e.1, 1))).mul A).val r j = coefOf es A st j := by
  have hrl : r < L.length := by
    by_contra hc
    rw [List.getElem?_eq_none (by omega)] at hr
    cases hr
  rw [List.getElem?_eq_getElem hrl] at hr
  injection hr with hr
  have hidx : ∀ x ∈ L, L.idxOf x = r ↔ x = st := by
    intro x hx
    constructor
    · intro h
      have : L[L.idxOf x]'(List.idxOf_lt_length_of_mem hx) = x := List.getElem_idxOf _
      rw [← this, ← hr]
      congr 1
    · rintro rfl
      rw [← hr]
      exact List.Nodup.idxOf_getElem hL r hrl
  have hentry : ∀ c, (Mat.ofTriplets n m (es.map fun e => (L.idxOf e.2, e.1, (1 : ℂ)))).val r c =
      if (c, st) ∈ es then 1 else 0 := by
    intro c
    change ((((es.map fun e => (L.idxOf e.2, e.1, (1 : ℂ))).filter fun t => t.1 = r ∧ t.2.1 = c)).map fun t => t.2.2).sum = _
    rw [List.filter_map, List.map_map]
    have hf : es.filter ((fun t : ℕ × ℕ × ℂ => decide (t.1 = r ∧ t.2.1 = c)) ∘ fun e => (L.idxOf e.2, e.1, (1 : ℂ))) =
        es.filter fun e => e = (c, st) := by
      apply List.filter_congr
      intro e he
      simp only [Function.comp]
      apply decide_eq_decide.mpr
      rw [hidx e.2 (hsub e he)]
      constructor
      · rintro ⟨h1, h2⟩; exact Prod.ext h2 h1
      · rintro rfl; exact ⟨rfl, rfl⟩
    rw [hf]
    have hes : es.Nodup := List.Nodup.of_map _ hn
    by_cases hmem : (c, st) ∈ es
    · rw [if_pos hmem]
      have : es.filter (fun e => e = (c, st)) = [(c, st)] := by
        rw [List.filter_eq, List.count_eq_one_of_mem hes hmem]; rfl
      rw [this]; simp
    · rw [if_neg hmem]
      have : es.filter (fun e => e = (c, st)) = [] := by
        rw [List.filter_eq, List.count_eq_zero_of_not_mem hmem]; rfl
      rw [this]; simp
  change ∑ c ∈ Finset.range m, _ * _ = _
  simp only [hentry]
  by_cases hst : st ∈ es.map Prod.snd
  · obtain ⟨⟨c0, st'⟩, he, hst'⟩ := List.mem_map.mp hst
    dsimp only at hst'
    subst hst'
    rw [coefOf_mem hn A c0 st' j he]
    rw [Finset.sum_eq_single c0]
    · rw [if_pos he, one_mul]
    · intro c _ hc
      rw [if_neg, zero_mul]
      intro h
      apply hc
      have := List.inj_on_of_nodup_map hn h he rfl
      injection this
    · intro h
      exfalso
      apply h
      have : c0 ∈ es.map Prod.fst := List.mem_map_of_mem he
      rw [hi] at this
      rw [hm]
      exact Finset.mem_range.mpr (List.mem_range.mp this)
  · rw [coefOf_not A st j hst]
    apply Finset.sum_eq_zero
    intro c _
    rw [if_neg, zero_mul]
    intro h
    exact hst (List.mem_map_of_mem h)

/-- The combined states: those of the first system, then those of the second that are not yet there. -/
def unionStates {σ : Type} [DecidableEq σ] (s t : SysB σ) : List σ :=
  s.states.map Prod.snd ++ (t.states.map Prod.snd).filter fun st => st ∉ s.states.map Prod.snd

theorem glue_add_val {σ : Type} [DecidableEq σ] (s t : SysB σ) (hs : s.WF) (ht : t.WF) (A B : Mat) (hA : A.rows = s.states.length)
    (r : ℕ) (st : σ) (hr : (unionStates s t)[r]? = some st) (j : ℕ) :
    (j < A.cols → (glue (unionStates s t).length A
      ((Mat.ofTriplets (unionStates s t).length t.V.rows (addLoop (s.states.map Prod.snd) t.states).2).mul B)).val r j =
        coefOf s.states A st j) ∧
    (glue (unionStates s t).length A
      ((Mat.ofTriplets (unionStates s t).length t.V.rows (addLoop (s.states.map Prod.snd) t.states).2).mul B)).val r (A.cols + j) =
        coefOf t.states B st j := by
  obtain ⟨l1, l2⟩ := addLoop_spec (s.states.map Prod.snd) t.states ht.nodup
  have hN := addLoop_nodup (s.states.map Prod.snd) t.states hs.nodup ht.nodup
  rw [l1] at l2 hN
  constructor
  · intro hj
    change (if j < A.cols then (if r < A.rows then A.val r j else 0) else _) = _
    rw [if_pos hj]
    by_cases h : r < A.rows
    · rw [if_pos h]
      rw [hA] at h
      symm
      apply coefOf_mem hs.nodup
      have h2 := states_get hs r h
      unfold unionStates at hr
      rw [List.getElem?_append_left (by simpa using h), List.getElem?_map, List.getElem?_eq_getElem h] at hr
      injection hr with hr
      have : s.states[r] = (r, st) := Prod.ext h2 hr
      rw [← this]; exact List.getElem_mem h
    · rw [if_neg h]
      rw [hA] at h
      symm
      apply coefOf_not
      unfold unionStates at hr
      rw [List.getElem?_append_right (by simpa using Nat.not_lt.mp h)] at hr
      have := (List.mem_filter.mp (List.mem_of_getElem? hr)).2
      simpa using this
  · change (if A.cols + j < A.cols then _ else _) = _
    rw [if_neg (by omega)]
    change ((Mat.ofTriplets _ _ _).mul B).val r (A.cols + j - A.cols) = _
    rw [Nat.add_sub_cancel_left, l2]
    apply addMat_mul (unionStates s t) hN t.states ht.idx ht.nodup ?_ _ _ ht.rows B r st hr
    intro e he
    by_cases h : e.2 ∈ s.states.map Prod.snd
    · exact List.mem_append_left _ h
    · apply List.mem_append_right
      rw [List.mem_filter]
      exact ⟨List.mem_map_of_mem he, by simpa using h⟩

theorem shifter_val (a b i j : ℕ) : (shifter a b).val i j = if j < b ∧ i = a + j then 1 else 0 := by
  change ((((List.range b).map fun i => (a + i, i, (1 : ℂ))).filter fun t => t.1 = i ∧ t.2.1 = j).map fun t => t.2.2).sum = _
  rw [List.filter_map, List.map_map]
  have hf : (List.range b).filter ((fun t : ℕ × ℕ × ℂ => decide (t.1 = i ∧ t.2.1 = j)) ∘ fun i => (a + i, i, (1 : ℂ))) =
      (List.range b).filter fun k => decide (k = j) && decide (i = a + j) := by
    apply List.filter_congr
    intro e _
    simp only [Function.comp, ← Bool.decide_and]
    apply decide_eq_decide.mpr
    constructor
    · rintro ⟨h1, h2⟩; subst h2; exact ⟨rfl, h1.symm⟩
    · rintro ⟨h1, h2⟩; subst h1; exact ⟨h2.symm, rfl⟩
  rw [hf]
  by_cases h : j < b ∧ i = a + j
  · rw [if_pos h]
    have : ((List.range b).filter fun k => decide (k = j) && decide (i = a + j)) = [j] := by
      simp only [h.2, decide_true, Bool.and_true]
      rw [List.filter_eq, List.count_eq_one_of_mem List.nodup_range (List.mem_range.mpr h.1)]; rfl
    rw [this]; simp
  · rw [if_neg h]
    have : ((List.range b).filter fun k => decide (k = j) && decide (i = a + j)) = [] := by
      rw [List.filter_eq_nil_iff]
      intro k hk hc
      simp only [Bool.and_eq_true, decide_eq_true_eq] at hc
      apply h
      exact ⟨hc.1 ▸ List.mem_range.mp hk, hc.2⟩
    rw [this]; simp

/-- Specification: `M` is the block diagonal matrix of two square matrices. -/
def BlockDiag (A B M : Mat) (a b : ℕ) : Prop :=
  M.rows = a + b ∧ M.cols = a + b ∧ ∀ i j,
    (i < a → j < a → M.val i j = A.val i j) ∧
    (i < b → j < b → M.val (a + i) (a + j) = B.val i j) ∧
    (i < a → j < b → M.val i (a + j) = 0) ∧ (i < b → j < a → M.val (a + i) j = 0)

theorem glue_shift (A B : Mat) (a b : ℕ) (hA : A.rows = a) (hA' : A.cols = a) (hB : B.rows = b) (hB' : B.cols = b) :
    BlockDiag A B (glue (a + b) A ((shifter a b).mul B)) a b := by
  have hmul : ∀ i j, ((shifter a b).mul B).val i j = if a ≤ i ∧ i - a < b then B.val (i - a) j else 0 := by
    intro i j
    change ∑ r ∈ Finset.range b, (shifter a b).val i r * B.val r j = _
    by_cases h : a ≤ i ∧ i - a < b
    · rw [if_pos h, Finset.sum_eq_single (i - a)]
      · rw [shifter_val, if_pos ⟨h.2, by omega⟩, one_mul]
      · intro r _ hr
        rw [shifter_val, if_neg, zero_mul]
        rintro ⟨_, h2⟩
        apply hr; omega
      · intro hc
        exact absurd (Finset.mem_range.mpr h.2) hc
    · rw [if_neg h]
      apply Finset.sum_eq_zero
      intro r hr
      rw [shifter_val, if_neg, zero_mul]
      rintro ⟨h1, h2⟩
      apply h; omega
  refine ⟨rfl, ?_, ?_⟩
  · change A.cols + B.cols = _
    rw [hA', hB']
  · intro i j
    have hg : ∀ x y, (glue (a + b) A ((shifter a b).mul B)).val x y =
        if y < a then (if x < a then A.val x y else 0) else ((shifter a b).mul B).val x (y - a) := by
      intro x y
      change (if y < A.cols then (if x < A.rows then _ else _) else ((shifter a b).mul B).val x (y - A.cols)) = _
      rw [hA, hA']
    refine ⟨?_, ?_, ?_, ?_⟩
    · intro h1 h2
      rw [hg, if_pos h2, if_pos h1]
    · intro h1 h2
      rw [hg, if_neg (by omega), hmul, if_pos ⟨by omega, by omega⟩, Nat.add_sub_cancel_left, Nat.add_sub_cancel_left]
    · intro h1 h2
      rw [hg, if_neg (by omega), hmul, if_neg (by omega)]
    · intro h1 h2
      rw [hg, if_pos h2, if_neg (by omega)]

/-- Specification: the scalar product of vector `i` of one system with vector `j` of another, over all states they
share. -/
noncomputable def innerOf {σ : Type} [DecidableEq σ] (s t : SysB σ) (i j : ℕ) : ℂ :=
  (s.states.map fun e => (starRingEnd ℂ) (coefOf s.states s.V e.2 i) * coefOf t.states t.V e.2 j).sum

theorem sum_list_range {α : Type} (L : List α) (f : α → ℂ) (g : ℕ → ℂ) (h : ∀ i x, L[i]? = some x → g i = f x) :
    ∑ i ∈ Finset.range L.length, g i = (L.map f).sum := by
  induction L generalizing g with
  | nil => simp
  | cons a L ih =>
    rw [List.length_cons, Finset.sum_range_succ', List.map_cons, List.sum_cons, add_comm]
    rw [h 0 a rfl, ih (fun i => g (i + 1))]
    intro i x hx
    exact h (i + 1) x (by simpa using hx)

theorem addDot {σ : Type} [DecidableEq σ] (s t : SysB σ) (hs : s.WF) (ht : t.WF) (i j : ℕ) (hi : i < s.V.cols) :
    colDot (unionStates s t).length
      (fun q => (glue (unionStates s t).length s.V
        ((Mat.ofTriplets (unionStates s t).length t.V.rows (addLoop (s.states.map Prod.snd) t.states).2).mul t.V)).val q i)
      (fun q => (glue (unionStates s t).length s.V
        ((Mat.ofTriplets (unionStates s t).length t.V.rows (addLoop (s.states.map Prod.snd) t.states).2).mul t.V)).val q (s.V.cols + j)) =
    innerOf s t i j := by
  unfold colDot innerOf
  rw [sum_list_range (unionStates s t) (fun st => (starRingEnd ℂ) (coefOf s.states s.V st i) * coefOf t.states t.V st j)]
  · unfold unionStates
    rw [List.map_append, List.sum_append, List.map_map]
    have : (((t.states.map Prod.snd).filter fun st => st ∉ s.states.map Prod.snd).map fun st =>
        (starRingEnd ℂ) (coefOf s.states s.V st i) * coefOf t.states t.V st j).sum = 0 := by
      apply List.sum_eq_zero
      intro x hx
      obtain ⟨st, hst, rfl⟩ := List.mem_map.mp hx
      have h2 := (List.mem_filter.mp hst).2
      rw [coefOf_not s.V st i (by simpa using h2)]
      simp
    rw [this, add_zero]
    rfl
  · intro q st hq
    obtain ⟨g1, g2⟩ := glue_add_val s t hs ht s.V t.V hs.rows q st hq
      i
    obtain ⟨-, g3⟩ := glue_add_val s t hs ht s.V t.V hs.rows q st hq j
    dsimp only
    rw [g1 hi, g3]

/-- **C67.** For all well-formed systems whose caches are both present or both absent: `add` throws exactly if a basis
vector of the one has a scalar product above 1e-12 in modulus with a basis vector of the other.  Otherwise the combined system lists the states of the first
and then the new ones of the second, each once; its basis vectors are those of the first followed by those of the second, with
unchanged coefficients; its Hamiltonian is block diagonal.  The same holds for the cached (unperturbed) matrices, and the
result is well-formed. -/
theorem C67_add {σ : Type} [DecidableEq σ] (s t : SysB σ) (hs : s.WF) (ht : t.WF)
    (hv : s.Vc.isSome = t.Vc.isSome) (hh : s.Hc.isSome = t.Hc.isSome) :
    ((s.addEff t).2 = false ↔ ∃ i < s.V.cols, ∃ j < t.V.cols, 1 / 10 ^ 12 < ‖innerOf s t i j‖) ∧
    ((s.addEff t).2 = true →
      (s.addEff t).1.WF ∧
      (s.addEff t).1.states.map Prod.snd = s.states.map Prod.snd ++ (t.states.map Prod.snd).filter (fun st => st ∉ s.states.map Prod.snd) ∧
      (s.addEff t).1.V.cols = s.V.cols + t.V.cols ∧
      (∀ st ∈ (s.addEff t).1.states.map Prod.snd, ∀ j,
        (j < s.V.cols → coefOf (s.addEff t).1.states (s.addEff t).1.V st j = coefOf s.states s.V st j) ∧
        coefOf (s.addEff t).1.states (s.addEff t).1.V st (s.V.cols + j) = coefOf t.states t.V st j) ∧
      BlockDiag s.H t.H (s.addEff t).1.H s.V.cols t.V.cols ∧
      (∀ A B, s.Vc = some A → t.Vc = some B → ∃ M, (s.addEff t).1.Vc = some M ∧
        ∀ st ∈ (s.addEff t).1.states.map Prod.snd, ∀ j,
          (j < s.V.cols → coefOf (s.addEff t).1.states M st j = coefOf s.states A st j) ∧
          coefOf (s.addEff t).1.states M st (s.V.cols + j) = coefOf t.states B st j) ∧
      (∀ A B, s.Hc = some A → t.Hc = some B → ∃ M, (s.addEff t).1.Hc = some M ∧ BlockDiag A B M s.V.cols t.V.cols)) := by
  have l1 : (addLoop (s.states.map Prod.snd) t.states).1 = unionStates s t := (addLoop_spec (s.states.map Prod.snd) t.states ht.nodup).1
  have hN : (unionStates s t).Nodup := l1 ▸ addLoop_nodup (s.states.map Prod.snd) t.states hs.nodup ht.nodup
  have hcond : notOrthogonal (unionStates s t).length s.V.cols t.V.cols (glue (unionStates s t).length s.V
        ((Mat.ofTriplets (unionStates s t).length t.V.rows (addLoop (s.states.map Prod.snd) t.states).2).mul t.V)) = true ↔
      ∃ i < s.V.cols, ∃ j < t.V.cols, 1 / 10 ^ 12 < ‖innerOf s t i j‖ := by
    unfold notOrthogonal
    simp only [List.any_eq_true, List.mem_range, decide_eq_true_eq]
    constructor
    · rintro ⟨i, hi, j, hj, h⟩
      rw [addDot s t hs ht i j hi] at h
      exact ⟨i, hi, j, hj, h⟩
    · rintro ⟨i, hi, j, hj, h⟩
      refine ⟨i, hi, j, hj, ?_⟩
      rw [addDot s t hs ht i j hi]; exact h
  have hv' : ¬ (s.Vc.isSome ≠ t.Vc.isSome) := by simpa using hv
  have hh' : ¬ (s.Hc.isSome ≠ t.Hc.isSome) := by simpa using hh
  by_cases hc : ∃ i < s.V.cols, ∃ j < t.V.cols, 1 / 10 ^ 12 < ‖innerOf s t i j‖
  · have key : (s.addEff t).2 = false := by
      unfold SysB.addEff
      dsimp only
      rw [if_neg hv', l1, if_pos (hcond.mpr hc)]
    rw [key]
    exact ⟨⟨fun _ => hc, fun _ => rfl⟩, fun h => by cases h⟩
  · have hc' := fun h => hc (hcond.mp h)
    unfold SysB.addEff
    dsimp only
    rw [if_neg hv', l1, if_neg hc', if_neg hh']
    refine ⟨⟨(fun h => by cases h), fun h => absurd h hc⟩, fun _ => ?_⟩
    have hfst : ((unionStates s t).zipIdx.map fun e => (e.2, e.1)).map Prod.fst = List.range (unionStates s t).length := by
      apply List.ext_getElem?
      intro i
      rw [List.getElem?_map, List.getElem?_map, List.getElem?_zipIdx]
      by_cases h : i < (unionStates s t).length
      · rw [List.getElem?_range h, List.getElem?_eq_getElem h]; simp
      · rw [List.getElem?_eq_none (by omega), List.getElem?_eq_none (by simp; omega)]; rfl
    have hsnd : ((unionStates s t).zipIdx.map fun e => (e.2, e.1)).map Prod.snd = unionStates s t := by
      apply List.ext_getElem?
      intro i
      rw [List.getElem?_map, List.getElem?_map, List.getElem?_zipIdx]
      cases (unionStates s t)[i]? <;> rfl
    have hlen : ((unionStates s t).zipIdx.map fun e => (e.2, e.1)).length = (unionStates s t).length := by simp
    have hcoef : ∀ (M : Mat) st, st ∈ unionStates s t → ∃ r, (unionStates s t)[r]? = some st ∧
        ∀ j, coefOf ((unionStates s t).zipIdx.map fun e => (e.2, e.1)) M st j = M.val r j := by
      intro M st hst
      obtain ⟨r, hr, hre⟩ := List.mem_iff_getElem.mp hst
      refine ⟨r, by rw [List.getElem?_eq_getElem hr, hre], ?_⟩
      intro j
      apply coefOf_mem (by rw [hsnd]; exact hN)
      rw [List.mem_map]
      refine ⟨(st, r), ?_, rfl⟩
      rw [List.mk_mem_zipIdx_iff_getElem?, List.getElem?_eq_getElem hr, hre]
    refine ⟨⟨?_, ?_, ?_, ?_, ?_, ?_, ?_⟩, ?_, ?_, ?_, ?_, ?_, ?_⟩
    · dsimp only
      rw [hfst, hlen]
    · dsimp only
      rw [hsnd]; exact hN
    · dsimp only
      rw [hlen]; rfl
    · change s.H.rows + t.H.rows = s.V.cols + t.V.cols
      rw [hs.hrows, ht.hrows]
    · change s.H.cols + t.H.cols = s.V.cols + t.V.cols
      rw [hs.hcols, ht.hcols]
    · intro M hM
      dsimp only at hM ⊢
      rw [hlen]
      cases hA : s.Vc with
      | none => rw [hA] at hM; cases hM
      | some A =>
        cases hB : t.Vc with
        | none => rw [hA, hB] at hv; cases hv
        | some B =>
          rw [hA, hB] at hM
          injection hM with hM
          subst hM
          refine ⟨rfl, ?_⟩
          change A.cols + B.cols = s.V.cols + t.V.cols
          rw [(hs.cacheV A hA).2, (ht.cacheV B hB).2]
    · intro M hM
      dsimp only at hM ⊢
      cases hA : s.Hc with
      | none => rw [hA] at hM; cases hM
      | some A =>
        cases hB : t.Hc with
        | none => rw [hA, hB] at hh; cases hh
        | some B =>
          rw [hA, hB] at hM
          injection hM with hM
          subst hM
          refine ⟨?_, ?_⟩
          · change A.rows + B.rows = s.V.cols + t.V.cols
            rw [(hs.cacheH A hA).1, (ht.cacheH B hB).1]
          · change A.cols + B.cols = s.V.cols + t.V.cols
            rw [(hs.cacheH A hA).2, (ht.cacheH B hB).2]
    · dsimp only
      rw [hsnd]; rfl
    · rfl
    · dsimp only
      rw [hsnd]
      intro st hst j
      obtain ⟨r, hr, hco⟩ := hcoef (glue (unionStates s t).length s.V
        ((Mat.ofTriplets (unionStates s t).length t.V.rows (addLoop (s.states.map Prod.snd) t.states).2).mul t.V)) st hst
      rw [hco, hco]
      exact glue_add_val s t hs ht s.V t.V hs.rows r st hr j
    · dsimp only
      have := glue_shift s.H t.H s.V.cols t.V.cols hs.hrows hs.hcols ht.hrows ht.hcols
      rw [hs.hrows, ht.hrows]; exact this
    · intro A B hA hB
      dsimp only
      rw [hA, hB]
      refine ⟨_, rfl, ?_⟩
      rw [hsnd]
      intro st hst j
      obtain ⟨r, hr, hco⟩ := hcoef (glue (unionStates s t).length A
        ((Mat.ofTriplets (unionStates s t).length t.V.rows (addLoop (s.states.map Prod.snd) t.states).2).mul B)) st hst
      rw [hco, hco]
      have := glue_add_val s t hs ht A B (hs.cacheV A hA).1 r st hr j
      rw [(hs.cacheV A hA).2] at this
      exact this
    · intro A B hA hB
      dsimp only
      rw [hA, hB]
      refine ⟨_, rfl, ?_⟩
      have := glue_shift A B s.V.cols t.V.cols (hs.cacheH A hA).1 (hs.cacheH A hA).2 (ht.cacheH B hB).1 (ht.cacheH B hB).2
      rw [hs.hrows, ht.hrows, (hs.cacheH A hA).1, (ht.cacheH B hB).1]
      exact this

/-- After a refused combination the object is broken: it has the basis vectors of both systems but the
Hamiltonian of the first only.  (A failed call does not leave the system as it was.) -/
theorem C67_failed_add_fails {σ : Type} [DecidableEq σ] (s t : SysB σ) (hs : s.WF) (hv : s.Vc.isSome = t.Vc.isSome)
    (hh : s.Hc.isSome = t.Hc.isSome) (ht : 0 < t.V.cols) (hf : (s.addEff t).2 = false) :
    (s.addEff t).1.V.cols = s.V.cols + t.V.cols ∧ (s.addEff t).1.H = s.H ∧ ¬ (s.addEff t).1.WF := by
  have hv' : ¬ (s.Vc.isSome ≠ t.Vc.isSome) := by simpa using hv
  have hh' : ¬ (s.Hc.isSome ≠ t.Hc.isSome) := by simpa using hh
  have key : (s.addEff t).1.V.cols = s.V.cols + t.V.cols ∧ (s.addEff t).1.H = s.H := by
    unfold SysB.addEff at hf ⊢
    dsimp only at hf ⊢
    rw [if_neg hv'] at hf ⊢
    split_ifs at hf ⊢
    exact ⟨rfl, rfl⟩
  refine ⟨key.1, key.2, ?_⟩
  intro h
  have := h.hrows
  rw [key.1, key.2, hs.hrows] at this
  omega

/-- A second system with the state "c" (shared with `exSys`, whose vector on "c" is taken away here) and a new state "d". -/
noncomputable def exSys2 : SysB String :=
  ⟨[(0, "c"), (1, "d")], ⟨2, 1, fun i _ => if i = 1 then 1 else 0⟩, ⟨1, 1, fun _ _ => 7⟩, none, none⟩

theorem exSys2_wf : exSys2.WF :=
  ⟨rfl, by decide, rfl, rfl, rfl, (by intro A h; cases h), (by intro A h; cases h)⟩

/-- `exSys` and `exSys2` can be combined; the result has four states. -/
example : (exSys.addEff exSys2).2 = true ∧ (exSys.addEff exSys2).1.states.map Prod.snd = ["a", "b", "c", "d"] := by
  obtain ⟨h1, h2⟩ := C67_add exSys exSys2 exSys_wf exSys2_wf rfl rfl
  have hok : (exSys.addEff exSys2).2 = true := by
    rw [← Bool.not_eq_false, h1]
    rintro ⟨i, hi, j, hj, h⟩
    have hi' : i < 3 := hi
    have hj' : j < 1 := hj
    have : innerOf exSys exSys2 i j = 0 := by
      interval_cases j
      interval_cases i <;> simp [innerOf, exSys, exSys2, coefOf, List.find?]
    rw [this] at h
    norm_num at h
  refine ⟨hok, ?_⟩
  rw [(h2 hok).2.1]
  decide

/-- A system cannot be combined with itself. -/
example : (exSys.addEff exSys).2 = false := by
  obtain ⟨h1, -⟩ := C67_add exSys exSys exSys_wf exSys_wf rfl rfl
  rw [h1]
  refine ⟨0, by decide, 0, by decide, ?_⟩
  have : innerOf exSys exSys 0 0 = 1 := by
    simp [innerOf, exSys, coefOf, List.find?]
  rw [this]
  have : ‖(1 : ℂ)‖ = 1 := by simpa using Complex.norm_natCast 1
  rw [this]
  norm_num

/-! ## C68 -/

theorem getOverlap_eq (V : Mat) (ix : List ℕ) (hix : ∀ x ∈ ix, x < V.rows) (k : ℕ) :
    getOverlap V ix k = (ix.map fun x => Complex.normSq (V.val x k)).sum := by
  have hone : ∀ c x, ix[c]? = some x →
      (V.adj.mul (Mat.ofTriplets V.rows ix.length (selTriplets 0 ix))).val k c = (starRingEnd ℂ) (V.val x k) := by
    intro c x hc
    exact mul_sel_val V.adj ix ix.length k c x hc (hix x (List.mem_of_getElem? hc))
  have hgen : ∀ (L : List ℕ) (f : ℕ → ℝ) (g : ℕ → ℝ), (∀ (i : ℕ) x, L[i]? = some x → g i = f x) →
      ∑ i ∈ Finset.range L.length, g i = (L.map f).sum := by
    intro L f
    induction L with
    | nil => intro g _; simp
    | cons a L ih =>
      intro g h
      rw [List.length_cons, Finset.sum_range_succ', List.map_cons, List.sum_cons, add_comm, h 0 a rfl,
        ih (fun i => g (i + 1)) (fun i x hx => h (i + 1) x (by simpa using hx))]
  unfold getOverlap
  apply hgen
  intro c x hc
  rw [hone c x hc, Complex.normSq_conj]

/-- Specification: a query contains a state. -/
def QueryMatches {σ : Type} (q : (σ → Bool) ⊕ σ) (st : σ) : Prop :=
  match q with
  | .inl f => f st = true
  | .inr st' => st = st'

theorem mem_overlapIndices {σ : Type} [DecidableEq σ] {s : SysB σ} (h : s.WF) (qs : List ((σ → Bool) ⊕ σ)) (i : ℕ) :
    i ∈ overlapIndices s.states qs ↔ ∃ st, (i, st) ∈ s.states ∧ ∃ q ∈ qs, QueryMatches q st := by
  unfold overlapIndices
  rw [List.mem_flatMap]
  constructor
  · rintro ⟨q, hq, hi⟩
    cases q with
    | inl f =>
      obtain ⟨e, he, rfl⟩ := List.mem_map.mp hi
      have := List.mem_filter.mp he
      exact ⟨e.2, this.1, _, hq, this.2⟩
    | inr st =>
      dsimp only at hi
      rw [Option.mem_toList, Option.map_eq_some_iff] at hi
      obtain ⟨e, he, rfl⟩ := hi
      have h2 := List.find?_some he
      exact ⟨e.2, List.mem_of_find?_eq_some he, _, hq, by simpa [QueryMatches] using h2⟩
  · rintro ⟨st, hst, q, hq, hm⟩
    refine ⟨q, hq, ?_⟩
    cases q with
    | inl f => exact List.mem_map.mpr ⟨(i, st), List.mem_filter.mpr ⟨hst, hm⟩, rfl⟩
    | inr st' =>
      simp only [QueryMatches] at hm
      subst hm
      dsimp only
      rw [Option.mem_toList, Option.map_eq_some_iff]
      refine ⟨(i, st), ?_, rfl⟩
      cases hf : s.states.find? fun e => e.2 = st with
      | none =>
        have := List.find?_eq_none.mp hf _ hst
        simp at this
      | some e =>
        have h1 := List.mem_of_find?_eq_some hf
        have h2 := List.find?_some hf
        rw [List.inj_on_of_nodup_map h.nodup h1 hst (by simpa using h2)]

theorem overlapIndices_nodup {σ : Type} [DecidableEq σ] {s : SysB σ} (h : s.WF) (qs : List ((σ → Bool) ⊕ σ))
    (hd : qs.Pairwise fun q q' => ∀ st, ¬ (QueryMatches q st ∧ QueryMatches q' st)) : (overlapIndices s.states qs).Nodup := by
  have hfst : (s.states.map Prod.fst).Nodup := by rw [h.idx]; exact List.nodup_range
  induction qs with
  | nil => exact List.nodup_nil
  | cons q qs ih =>
    rw [List.pairwise_cons] at hd
    change (_ ++ overlapIndices s.states qs).Nodup
    rw [List.nodup_append]
    refine ⟨?_, ih hd.2, ?_⟩
    · cases q with
      | inl f => exact hfst.sublist (List.Sublist.map _ List.filter_sublist)
      | inr st =>
        dsimp only
        cases (s.states.find? fun e => e.2 = st) <;> simp
    · intro a ha b hb hab
      subst hab
      have h1 : a ∈ overlapIndices s.states [q] := by
        change a ∈ _ ++ []
        rw [List.append_nil]; exact ha
      obtain ⟨st, hst, q1, hq1, hm1⟩ := (mem_overlapIndices h [q] a).mp h1
      obtain ⟨st', hst', q2, hq2, hm2⟩ := (mem_overlapIndices h qs a).mp hb
      rw [List.mem_singleton] at hq1
      subst hq1
      have : (a, st) = (a, st') := List.inj_on_of_nodup_map hfst hst hst' rfl
      injection this with _ this
      subst this
      exact hd.1 q2 hq2 st ⟨hm1, hm2⟩

/-- **C68 (partial).** For all well-formed systems and all lists of queried states (plain or wildcard) no two of which
match the same state: the overlap reported for a basis vector is the sum, over the basis states matched by a
query, of the squared modulus of its coefficient; states outside the basis contribute nothing.  So it lies between 0 and the squared norm of the
vector (1 for a normalised vector).  Missing: queries that match the same state (`C68_repeated_state_fails`). -/
theorem C68_overlap_partial {σ : Type} [DecidableEq σ] (s : SysB σ) (h : s.WF) (qs : List ((σ → Bool) ⊕ σ))
    (hd : qs.Pairwise fun q q' => ∀ st, ¬ (QueryMatches q st ∧ QueryMatches q' st))
    (sel : σ → Bool) (hsel : ∀ st, sel st = true ↔ ∃ q ∈ qs, QueryMatches q st) (k : ℕ) :
    getOverlap s.V (overlapIndices s.states qs) k =
      ((s.states.filter fun e => sel e.2).map fun e => Complex.normSq (coefOf s.states s.V e.2 k)).sum ∧
    0 ≤ getOverlap s.V (overlapIndices s.states qs) k ∧
    getOverlap s.V (overlapIndices s.states qs) k ≤ s.V.colNorm k := by
  have hlt : ∀ x ∈ overlapIndices s.states qs, x < s.V.rows := by
    intro x hx
    obtain ⟨st, hst, -⟩ := (mem_overlapIndices h qs x).mp hx
    rw [h.rows]; exact WF.lt h hst
  have hnd := overlapIndices_nodup h qs hd
  have hperm : (overlapIndices s.states qs).Perm ((s.states.filter fun e => sel e.2).map Prod.fst) := by
    apply (List.perm_ext_iff_of_nodup hnd ?_).mpr
    · intro x
      rw [mem_overlapIndices h, List.mem_map]
      constructor
      · rintro ⟨st, hst, hq⟩
        exact ⟨(x, st), List.mem_filter.mpr ⟨hst, (hsel st).mpr hq⟩, rfl⟩
      · rintro ⟨e, he, rfl⟩
        have := List.mem_filter.mp he
        exact ⟨e.2, this.1, (hsel e.2).mp this.2⟩
    · have hfst : (s.states.map Prod.fst).Nodup := by rw [h.idx]; exact List.nodup_range
      exact hfst.sublist (List.Sublist.map _ List.filter_sublist)
  have hsum := getOverlap_eq s.V _ hlt k
  refine ⟨?_, ?_, ?_⟩
  · rw [hsum, (hperm.map _).sum_eq, List.map_map]
    congr 1
    apply List.map_congr_left
    intro e he
    simp only [Function.comp]
    rw [coefOf_mem h.nodup s.V e.1 e.2 k (List.mem_filter.mp he).1]
  · rw [hsum]
    apply List.sum_nonneg
    intro x hx
    obtain ⟨y, -, rfl⟩ := List.mem_map.mp hx
    exact Complex.normSq_nonneg _
  · rw [hsum, ← List.sum_toFinset _ hnd]
    unfold Mat.colNorm
    apply Finset.sum_le_sum_of_subset_of_nonneg
    · intro x hx
      exact Finset.mem_range.mpr (hlt x (List.mem_toFinset.mp hx))
    · intro x _ _
      exact Complex.normSq_nonneg _

/-- Listing a state twice (or a plain state together with a wildcard that contains it) counts it twice: the overlap of the basis vector "a" is 2. -/
theorem C68_repeated_state_fails :
    getOverlap exSys.V (overlapIndices exSys.states [.inr "a", .inr "a"]) 0 = 2 ∧
    getOverlap exSys.V (overlapIndices exSys.states [.inl fun _ => true, .inr "a"]) 0 = 2 := by
  have e1 : overlapIndices exSys.states [.inr "a", .inr "a"] = [0, 0] := by decide
  have e2 : overlapIndices exSys.states [.inl fun _ => true, .inr "a"] = [0, 1, 2, 0] := by decide
  rw [e1, e2, getOverlap_eq, getOverlap_eq]
  · simp [exSys]; norm_num
  · intro x hx; simp at hx; change x < 3; omega
  · intro x hx; simp at hx; change x < 3; omega

/-- The wildcard query "anything but b" on the example. -/
example : getOverlap exSys.V (overlapIndices exSys.states [.inl fun st => st ≠ "b"]) 0 = 1 := by
  rw [(C68_overlap_partial exSys exSys_wf [.inl fun st => st ≠ "b"] (List.pairwise_singleton _ _) (fun st => st ≠ "b")
    (by intro st; simp [QueryMatches]) 0).1]
  simp [exSys, coefOf, List.find?]

end PI
