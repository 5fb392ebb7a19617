import Verif.Pair.Multi
import Verif.Sys.Param
import Mathlib.Analysis.SpecialFunctions.Trigonometric.Basic

/-!
# C62, C72: distance, angle and the Le Roy check of SystemTwo
-/

namespace PI
open Matrix

/-! ## Histories of setters -/

/-- The settings after a sequence of calls on a fresh object. -/
noncomputable def runPair (ops : List PairOp) : PairParams := ops.foldl PairOp.run PairParams.fresh

/-- Calls that do not set the atoms on top of each other. -/
def PairOp.NonZero : PairOp → Prop
  | .distance d => d ≠ 0
  | .vector v => v 0 ≠ 0 ∨ v 1 ≠ 0 ∨ v 2 ≠ 0
  | _ => True

/-- Calls that only set positive distances. -/
def PairOp.Positive : PairOp → Prop
  | .distance d => 0 < d
  | .vector v => v 0 ≠ 0 ∨ v 1 ≠ 0 ∨ v 2 ≠ 0
  | _ => True

/-- `distance` is the length of the distance vector up to sign, and not zero. -/
def PairParams.Consistent (p : PairParams) : Prop := p.x ^ 2 + p.y ^ 2 + p.z ^ 2 = p.dist ^ 2 ∧ p.dist ≠ 0

theorem PairOp.run_consistent (p : PairParams) (h : p.Consistent) (op : PairOp) (ho : op.NonZero) : (op.run p).Consistent := by
  obtain ⟨h1, h2⟩ := h
  cases op with
  | distance d =>
    refine ⟨?_, ho⟩
    simp only [PairOp.run, PairParams.setDistance]
    have : (p.x / p.dist * d) ^ 2 + (p.y / p.dist * d) ^ 2 + (p.z / p.dist * d) ^ 2 = (p.x ^ 2 + p.y ^ 2 + p.z ^ 2) / p.dist ^ 2 * d ^ 2 := by
      field_simp
    rw [this, h1, div_self (pow_ne_zero 2 h2), one_mul]
  | vector v =>
    have hpos : 0 < v 0 * v 0 + v 1 * v 1 + v 2 * v 2 := by
      have a0 := mul_self_nonneg (v 0)
      have a1 := mul_self_nonneg (v 1)
      have a2 := mul_self_nonneg (v 2)
      rcases ho with h | h | h
      all_goals have := mul_self_pos.mpr h; linarith
    refine ⟨?_, (Real.sqrt_pos.mpr hpos).ne'⟩
    simp only [PairOp.run, PairParams.setVector]
    rw [Real.sq_sqrt hpos.le]; ring
  | angle a =>
    refine ⟨?_, h2⟩
    simp only [PairOp.run, PairParams.setAngle]
    have := Real.sin_sq_add_cos_sq a
    linear_combination p.dist ^ 2 * this
  | order o => exact ⟨h1, h2⟩
  | surface d =>
    simp only [PairOp.run, PairParams.setSurface]
    split_ifs <;> exact ⟨h1, h2⟩
  | green b => exact ⟨h1, h2⟩

theorem dblMax_pos : 0 < dblMax := by have := dblMax_big; linarith

theorem fresh_consistent : PairParams.fresh.Consistent := by
  refine ⟨?_, dblMax_pos.ne'⟩
  simp [PairParams.fresh]

theorem runPair_consistent (ops : List PairOp) (h : ∀ op ∈ ops, op.NonZero) : (runPair ops).Consistent := by
  unfold runPair
  have : ∀ (L : List PairOp) (p : PairParams), p.Consistent → (∀ op ∈ L, op.NonZero) → (L.foldl PairOp.run p).Consistent := by
    intro L
    induction L with
    | nil => intro p hp _; exact hp
    | cons a L ih =>
      intro p hp hL
      exact ih _ (PairOp.run_consistent p hp a (hL a List.mem_cons_self)) fun op ho => hL op (List.mem_cons_of_mem _ ho)
  exact this ops _ fresh_consistent h

theorem positive_nonZero {op : PairOp} (h : op.Positive) : op.NonZero := by
  cases op <;> simp only [PairOp.Positive, PairOp.NonZero] at * <;> first | exact h | exact h.ne'

/-- **C62.** After every history of setters with positive distances, the stored distance is the length of the stored distance vector, and positive. -/
theorem C62_norm (ops : List PairOp) (h : ∀ op ∈ ops, op.Positive) :
    (runPair ops).dist = Real.sqrt ((runPair ops).x ^ 2 + (runPair ops).y ^ 2 + (runPair ops).z ^ 2) ∧ 0 < (runPair ops).dist := by
  have hpos : 0 < (runPair ops).dist := by
    unfold runPair
    have : ∀ (L : List PairOp) (p : PairParams), 0 < p.dist → (∀ op ∈ L, op.Positive) → 0 < (L.foldl PairOp.run p).dist := by
      intro L
      induction L with
      | nil => intro p hp _; exact hp
      | cons a L ih =>
        intro p hp hL
        refine ih _ ?_ fun op ho => hL op (List.mem_cons_of_mem _ ho)
        have ha := hL a List.mem_cons_self
        cases a with
        | distance d => exact ha
        | vector v =>
          simp only [PairOp.run, PairParams.setVector]
          refine Real.sqrt_pos.mpr ?_
          have a0 := mul_self_nonneg (v 0)
          have a1 := mul_self_nonneg (v 1)
          have a2 := mul_self_nonneg (v 2)
          rcases ha with h | h | h
          all_goals have := mul_self_pos.mpr h; linarith
        | angle a => exact hp
        | order o => exact hp
        | surface d => simp only [PairOp.run, PairParams.setSurface]; split_ifs <;> exact hp
        | green b => exact hp
    exact this ops _ dblMax_pos h
  refine ⟨?_, hpos⟩
  rw [(runPair_consistent ops fun op ho => positive_nonZero (h op ho)).1, Real.sqrt_sq hpos.le]

/-- **C62.** After every history with non-zero distances, `setDistance(d)` with d > 0 keeps the direction of the distance vector (each component divided by the distance)
and gives it length d; d < 0 reverses it. -/
theorem C62_set_distance (ops : List PairOp) (h : ∀ op ∈ ops, op.NonZero) (d : ℝ) (hd : d ≠ 0) :
    let p := runPair ops
    let p' := runPair (ops ++ [.distance d])
    p'.x / d = p.x / p.dist ∧ p'.y / d = p.y / p.dist ∧ p'.z / d = p.z / p.dist ∧ p'.dist = d ∧
      Real.sqrt (p'.x ^ 2 + p'.y ^ 2 + p'.z ^ 2) = |d| ∧ p'.gt = p.gt ∧ p'.order = p.order ∧ p'.surf = p.surf := by
  have hc := runPair_consistent (ops ++ [.distance d]) (by
    intro op ho
    rcases List.mem_append.mp ho with ho | ho
    · exact h op ho
    · rw [List.mem_singleton.mp ho]; exact hd)
  have e : runPair (ops ++ [.distance d]) = (runPair ops).setDistance d := by
    unfold runPair; rw [List.foldl_append]; rfl
  dsimp only
  rw [hc.1, e]
  refine ⟨?_, ?_, ?_, rfl, Real.sqrt_sq_eq_abs _, rfl, rfl, rfl⟩ <;> simp [PairParams.setDistance, hd]

/-- **C62.** `setDistanceVector(v)` stores v and its length, whatever was set before. -/
theorem C62_set_vector (ops : List PairOp) (v : V3) :
    let p := runPair (ops ++ [.vector v])
    p.x = v 0 ∧ p.y = v 1 ∧ p.z = v 2 ∧ p.dist = Real.sqrt (v 0 ^ 2 + v 1 ^ 2 + v 2 ^ 2) := by
  have e : runPair (ops ++ [.vector v]) = (runPair ops).setVector v := by
    unfold runPair; rw [List.foldl_append]; rfl
  dsimp only
  rw [e]
  refine ⟨rfl, rfl, rfl, ?_⟩
  simp only [PairParams.setVector, sq]

/-- **C62.** `setAngle(θ)` keeps the distance and puts the second atom in the xz-plane at angle θ to the z axis; for positive distances and θ in (−π, π] the
angle that the interaction computes from the vector is θ again. -/
theorem C62_set_angle (ops : List PairOp) (h : ∀ op ∈ ops, op.Positive) (a : ℝ) :
    let p := runPair (ops ++ [.angle a])
    p.dist = (runPair ops).dist ∧ p.x = p.dist * Real.sin a ∧ p.y = 0 ∧ p.z = p.dist * Real.cos a ∧
      (a ∈ Set.Ioc (-Real.pi) Real.pi → atan2 p.x p.z = a) := by
  have e : runPair (ops ++ [.angle a]) = (runPair ops).setAngle a := by
    unfold runPair; rw [List.foldl_append]; rfl
  dsimp only
  rw [e]
  refine ⟨rfl, rfl, rfl, rfl, fun ha => ?_⟩
  have hp := (C62_norm ops h).2
  unfold atan2 PairParams.setAngle
  dsimp only
  have : (⟨(runPair ops).dist * Real.cos a, (runPair ops).dist * Real.sin a⟩ : ℂ) = ((runPair ops).dist : ℂ) * (Complex.cos a + Complex.sin a * Complex.I) := by
    apply Complex.ext <;> simp [Complex.cos_ofReal_re, Complex.sin_ofReal_re, Complex.cos_ofReal_im, Complex.sin_ofReal_im]
  rw [this]
  exact Complex.arg_mul_cos_add_sin_mul_I hp ha

/-- **C62.** Distance and angle can be set in either order. -/
theorem C62_commute (ops : List PairOp) (h : ∀ op ∈ ops, op.NonZero) (a d : ℝ) :
    runPair (ops ++ [.angle a, .distance d]) = runPair (ops ++ [.distance d, .angle a]) := by
  have hc := (runPair_consistent ops h).2
  unfold runPair at *
  rw [List.foldl_append, List.foldl_append]
  simp only [List.foldl_cons, List.foldl_nil, PairOp.run, PairParams.setAngle, PairParams.setDistance]
  congr 1
  · field_simp
  · simp
  · field_simp

example : (∀ op ∈ [PairOp.vector ![3, 0, 4], .angle 1, .distance 7, .surface 3, .green true, .order 4], op.Positive) := by
  intro op h
  fin_cases h <;> simp [PairOp.Positive]

/-- A history after which the stored distance vector is (4.2, 0, 5.6). -/
example : (runPair [.vector ![3, 0, 4], .distance 7]).x = 21 / 5 ∧ (runPair [.vector ![3, 0, 4], .distance 7]).z = 28 / 5 := by
  have h := tiltedEx_dist
  unfold tiltedEx at h
  simp only [runPair, List.foldl_cons, List.foldl_nil, PairOp.run, PairParams.setDistance, h]
  simp [PairParams.setVector]
  norm_num

/-- **C62 fails** after a distance of zero: the direction is lost (in C++ the components become NaN, here 0/0 is 0), so that the vector does not get the requested length. -/
theorem C62_zero_distance_fails : ∃ ops : List PairOp, let p := runPair ops; p.dist = 5 ∧ Real.sqrt (p.x ^ 2 + p.y ^ 2 + p.z ^ 2) ≠ 5 ∧ ops = [.distance 0, .distance 5] := by
  refine ⟨_, ?_, ?_, rfl⟩
  · rfl
  · simp [runPair, PairOp.run, PairParams.setDistance]

/-! ## The Le Roy check -/

/-- The pair states whose atoms are both real atoms: estimated and precise Le Roy radius. -/
def realPairs (L : List RoyState) : List (ℝ × ℝ) := L.filterMap id

theorem royLoop_spec (L : List RoyState) (acc : ℝ × Option ℝ) :
    (royLoop L acc = acc ∧ ∀ s ∈ realPairs L, acc.1 ≤ s.1) ∨
    (∃ s ∈ realPairs L, royLoop L acc = (s.1, some s.2) ∧ s.1 < acc.1 ∧ ∀ t ∈ realPairs L, s.1 ≤ t.1) := by
  induction L generalizing acc with
  | nil => left; exact ⟨rfl, by simp [realPairs]⟩
  | cons x L ih =>
    cases x with
    | none =>
      simp only [royLoop, realPairs, List.filterMap_cons, id] at ih ⊢
      exact ih acc
    | some s =>
      simp only [royLoop, realPairs, List.filterMap_cons, id] at ih ⊢
      by_cases hlt : s.1 < acc.1
      · simp only [hlt, if_true]
        rcases ih (s.1, some s.2) with ⟨h1, h2⟩ | ⟨t, ht, h1, h2, h3⟩
        · right
          refine ⟨s, List.mem_cons_self, h1, hlt, ?_⟩
          intro t ht
          rcases List.mem_cons.mp ht with rfl | ht
          · exact le_rfl
          · exact h2 t ht
        · right
          refine ⟨t, List.mem_cons_of_mem _ ht, h1, h2.trans hlt, ?_⟩
          intro u hu
          rcases List.mem_cons.mp hu with rfl | hu
          · exact h2.le
          · exact h3 u hu
      · simp only [hlt, if_false]
        rcases ih acc with ⟨h1, h2⟩ | ⟨t, ht, h1, h2, h3⟩
        · left
          refine ⟨h1, ?_⟩
          intro t ht
          rcases List.mem_cons.mp ht with rfl | ht
          · exact not_lt.mp hlt
          · exact h2 t ht
        · right
          refine ⟨t, List.mem_cons_of_mem _ ht, h1, h2, ?_⟩
          intro u hu
          rcases List.mem_cons.mp hu with rfl | hu
          · exact h2.le.trans (not_lt.mp hlt)
          · exact h3 u hu

/-- All radii are below the marker value. -/
def RoyBounded (L : List RoyState) : Prop := ∀ s ∈ realPairs L, s.1 < dblMax ∧ s.2 < dblMax

/-- The estimate orders the states in the same way as the precise radius. -/
def RoyMonotone (L : List RoyState) : Prop := ∀ s ∈ realPairs L, ∀ t ∈ realPairs L, s.1 ≤ t.1 → s.2 ≤ t.2

/-- Specification: the distance is below the smallest Le Roy radius of the pair states; without real pair states the radius is 0. -/
def BelowLeRoy (L : List RoyState) (d : ℝ) : Prop :=
  (realPairs L = [] ∧ d < 0) ∨ (realPairs L ≠ [] ∧ ∀ s ∈ realPairs L, d < s.2)

/-- What a sequence of events does to the stored radius: checks, replacement of the list of states (`onStatesChange`, SystemTwo.cpp:1528-1530, SystemBase.cpp:1574, 1628),
and `add`, which appends states without `onStatesChange` (SystemBase.cpp:862-877). -/
inductive RoyEvent where
  | check (d : ℝ)
  | change (L : List RoyState)
  | add (L : List RoyState)

/-- The states and the stored radius (SystemTwo.hpp:89). -/
abbrev RoySys := List RoyState × ℝ

/-- One event. -/
noncomputable def RoyEvent.run (s : RoySys) : RoyEvent → RoySys
  | .check d => (s.1, (royCheck s.1 s.2 d).2)
  | .change L => (L, dblMax)
  | .add L => (s.1 ++ L, s.2)

/-- A fresh system, then events. -/
noncomputable def runRoy (evs : List RoyEvent) : RoySys := evs.foldl RoyEvent.run ([], dblMax)

/-- The lists of states in all events are bounded and ordered alike. -/
def RoyEvent.Good : RoyEvent → Prop
  | .check _ => True
  | .change L => RoyBounded L ∧ RoyMonotone L
  | .add _ => False

theorem royCheck_fresh (L : List RoyState) (hb : RoyBounded L) (hm : RoyMonotone L) (d : ℝ) :
    ((royCheck L dblMax d).1 = true ↔ BelowLeRoy L d) ∧ (royCheck L dblMax d).2 ≠ dblMax ∧
      (royCheck L dblMax d).2 = (royCheck L dblMax 0).2 := by
  unfold royCheck BelowLeRoy
  simp only [if_true, decide_eq_true_eq]
  have hp := dblMax_pos
  rcases royLoop_spec L (dblMax, none) with ⟨h1, h2⟩ | ⟨s, hs, h1, h2, h3⟩
  · have he : realPairs L = [] := by
      apply List.eq_nil_iff_forall_not_mem.mpr
      intro t ht
      have := h2 t ht
      have := (hb t ht).1
      dsimp only at *
      linarith
    rw [h1]
    simp only [Option.getD_none, he, true_and, ne_eq, not_true_eq_false, false_and, or_false]
    exact ⟨hp.ne, trivial⟩
  · rw [h1]
    simp only [Option.getD_some]
    have hne : realPairs L ≠ [] := List.ne_nil_of_mem hs
    refine ⟨?_, (hb s hs).2.ne, trivial⟩
    simp only [hne, false_and, false_or, ne_eq, not_false_eq_true, true_and]
    constructor
    · intro hd t ht
      exact hd.trans_le (hm s hs t ht (h3 t ht))
    · intro hd; exact hd s hs

/-- **C62 (partial).** After every history of checks and changes of the list of states, if the estimate used to find the crucial state orders the states of the basis
in the same way as their precise radii, the check warns exactly for distances below the smallest Le Roy radius of the current states. -/
theorem C62_leroy_partial (evs : List RoyEvent) (h : ∀ e ∈ evs, e.Good) (d : ℝ) :
    (royCheck (runRoy evs).1 (runRoy evs).2 d).1 = true ↔ BelowLeRoy (runRoy evs).1 d := by
  have inv : RoyBounded (runRoy evs).1 ∧ RoyMonotone (runRoy evs).1 ∧
      ((runRoy evs).2 = dblMax ∨ (runRoy evs).2 = (royCheck (runRoy evs).1 dblMax 0).2) := by
    unfold runRoy
    have : ∀ (E : List RoyEvent) (s : RoySys), (RoyBounded s.1 ∧ RoyMonotone s.1 ∧ (s.2 = dblMax ∨ s.2 = (royCheck s.1 dblMax 0).2)) → (∀ e ∈ E, e.Good) →
        (RoyBounded (E.foldl RoyEvent.run s).1 ∧ RoyMonotone (E.foldl RoyEvent.run s).1 ∧
          ((E.foldl RoyEvent.run s).2 = dblMax ∨ (E.foldl RoyEvent.run s).2 = (royCheck (E.foldl RoyEvent.run s).1 dblMax 0).2)) := by
      intro E
      induction E with
      | nil => intro s hs _; exact hs
      | cons e E ih =>
        intro s hs hE
        refine ih _ ?_ fun x hx => hE x (List.mem_cons_of_mem _ hx)
        obtain ⟨a, b, c⟩ := hs
        have he := hE e List.mem_cons_self
        cases e with
        | check d' =>
          refine ⟨a, b, Or.inr ?_⟩
          simp only [RoyEvent.run]
          obtain ⟨-, r2, r3⟩ := royCheck_fresh s.1 a b d'
          rcases c with c | c
          · rw [c, r3]
          · have : s.2 ≠ dblMax := by rw [c, ← r3]; exact r2
            unfold royCheck at c ⊢
            simpa [if_neg this] using c
        | change L => exact ⟨he.1, he.2, Or.inl rfl⟩
        | add L => exact he.elim
    exact this evs ([], dblMax) ⟨fun s hs => by simp [realPairs] at hs, fun s hs => by simp [realPairs] at hs, Or.inl rfl⟩ h
  obtain ⟨a, b, c⟩ := inv
  obtain ⟨r1, r2, r3⟩ := royCheck_fresh (runRoy evs).1 a b d
  rcases c with c | c
  · rw [c]; exact r1
  · rw [← r1]
    have : (runRoy evs).2 ≠ dblMax := by rw [c, ← r3]; exact r2
    rw [← r3] at c
    unfold royCheck at c ⊢
    simp only [c]
    simp

/-- Two real pair states and one artificial one meet the hypotheses. -/
example : ∀ e ∈ [RoyEvent.change [some (3, 4), none, some (2, 3.5)], .check 1, .check 10], e.Good := by
  have := dblMax_big
  intro e he
  fin_cases he
  · refine ⟨?_, ?_⟩
    · intro s hs; simp [realPairs] at hs; rcases hs with rfl | rfl <;> constructor <;> norm_num <;> linarith
    · intro s hs t ht; simp [realPairs] at hs ht
      rcases hs with rfl | rfl <;> rcases ht with rfl | rfl <;> norm_num
  · trivial
  · trivial

/-- **C62 fails** if the estimate orders the states differently: the state with the smallest estimate is used although another has a smaller Le Roy radius. -/
theorem C62_leroy_estimate_fails : ∃ (L : List RoyState) (d : ℝ), RoyBounded L ∧ (royCheck L dblMax d).1 = true ∧ ¬ BelowLeRoy L d := by
  refine ⟨[some (2, 5), some (3, 4)], 4.5, ?_, ?_, ?_⟩
  · have := dblMax_big
    intro s hs; simp [realPairs] at hs; rcases hs with rfl | rfl <;> constructor <;> norm_num <;> linarith
  · have := dblMax_big
    unfold royCheck
    have h1 : (2 : ℝ) < dblMax := by linarith
    simp only [if_true, royLoop, h1]
    norm_num
  · unfold BelowLeRoy
    simp [realPairs]
    norm_num

/-- **C62 fails** after `add`: the radius stored before is kept although the added states have a smaller one. -/
theorem C62_leroy_add_fails : ∃ (L L' : List RoyState) (d : ℝ), RoyBounded (L ++ L') ∧ RoyMonotone (L ++ L') ∧
    let s := runRoy [.change L, .check 10, .add L']
    (royCheck s.1 s.2 d).1 = true ∧ ¬ BelowLeRoy s.1 d := by
  have := dblMax_big
  have h1 : (2 : ℝ) < dblMax := by linarith
  have h5 : (5 : ℝ) ≠ dblMax := by intro h; linarith
  refine ⟨[some (2, 5)], [some (1, 3)], 4, ?_, ?_, ?_⟩
  · intro s hs; simp [realPairs] at hs; rcases hs with rfl | rfl <;> constructor <;> norm_num <;> linarith
  · intro s hs t ht; simp [realPairs] at hs ht
    rcases hs with rfl | rfl <;> rcases ht with rfl | rfl <;> norm_num
  · simp only [runRoy, List.foldl_cons, List.foldl_nil, RoyEvent.run, royCheck, if_true, royLoop, h1, Option.getD_some, h5, if_false, List.cons_append, List.nil_append]
    refine ⟨by norm_num, ?_⟩
    unfold BelowLeRoy
    simp [realPairs]
    norm_num

/-! ## C72 the interaction is determined by the current settings -/

/-- What a user can read back: distance vector, order and surface distance. -/
def PairParams.visible (p : PairParams) : ℝ × ℝ × ℝ × ℝ × ℝ × ℕ := (p.x, p.y, p.z, p.dist, p.surf, p.order)

/-- The calls other than `enableGreenTensor`. -/
def PairOp.notGreen : PairOp → Prop
  | .green _ => False
  | _ => True

/-- Calls after which neither a y component nor a surface is set. -/
def PairOp.planar : PairOp → Prop
  | .vector v => v 1 = 0
  | .surface _ => False
  | .green _ => False
  | _ => True

theorem planar_gt (ops : List PairOp) (h : ∀ op ∈ ops, op.planar) : (runPair ops).gt = false ∧ (runPair ops).surf = dblMax := by
  unfold runPair
  have : ∀ (L : List PairOp) (p : PairParams), p.gt = false ∧ p.surf = dblMax → (∀ op ∈ L, op.planar) →
      (L.foldl PairOp.run p).gt = false ∧ (L.foldl PairOp.run p).surf = dblMax := by
    intro L
    induction L with
    | nil => intro p hp _; exact hp
    | cons a L ih =>
      intro p hp hL
      refine ih _ ?_ fun op ho => hL op (List.mem_cons_of_mem _ ho)
      have ha := hL a List.mem_cons_self
      cases a with
      | vector v =>
        have hv : v 1 = 0 := ha
        simp only [PairOp.run, PairParams.setVector, hv, ne_eq, not_true_eq_false, if_false]; exact hp
      | surface d => exact ha.elim
      | green b => exact ha.elim
      | distance d => exact hp
      | angle a => exact hp
      | order o => exact hp
  exact this ops _ ⟨rfl, rfl⟩ h

/-- **C72 (partial).** Two histories of setters that never set a y component, a surface or the Green tensor explicitly, and that end with the same distance vector and order,
give the same interaction operators, or are both rejected. -/
theorem C72_history_partial (ops ops' : List PairOp) (h : ∀ op ∈ ops, op.planar) (h' : ∀ op ∈ ops', op.planar)
    (hv : (runPair ops).visible = (runPair ops').visible) (s : PairMaps) :
    initPair (runPair ops) s = initPair (runPair ops') s ∧ pairTerms (runPair ops) = pairTerms (runPair ops') := by
  have a := planar_gt ops h
  have b := planar_gt ops' h'
  have : runPair ops = runPair ops' := by
    simp only [PairParams.visible, Prod.mk.injEq] at hv
    obtain ⟨h1, h2, h3, h4, h5, h6⟩ := hv
    have hg : (runPair ops).gt = (runPair ops').gt := by rw [a.1, b.1]
    cases hp : runPair ops
    cases hq : runPair ops'
    rw [hp] at h1 h2 h3 h4 h5 h6 hg
    rw [hq] at h1 h2 h3 h4 h5 h6 hg
    simp_all
  rw [this]
  exact ⟨rfl, rfl⟩

example : (runPair [.vector ![3, 0, 4], .vector ![0, 0, 5], .order 5]).visible = (runPair [.order 5, .vector ![0, 0, 5]]).visible := by
  simp [runPair, PairOp.run, PairParams.visible, PairParams.setVector, PairParams.setOrder, PairParams.fresh]

theorem notGreen_gt (ops : List PairOp) (h : ∀ op ∈ ops, op.notGreen) (hs : (runPair ops).surf ≠ dblMax ∨ (runPair ops).y ≠ 0) :
    (runPair ops).gt = true := by
  unfold runPair at *
  have : ∀ (L : List PairOp) (p : PairParams), (p.surf ≠ dblMax ∨ p.y ≠ 0 → p.gt = true) → (∀ op ∈ L, op.notGreen) →
      ((L.foldl PairOp.run p).surf ≠ dblMax ∨ (L.foldl PairOp.run p).y ≠ 0 → (L.foldl PairOp.run p).gt = true) := by
    intro L
    induction L with
    | nil => intro p hp _; exact hp
    | cons a L ih =>
      intro p hp hL
      refine ih _ ?_ fun op ho => hL op (List.mem_cons_of_mem _ ho)
      have ha := hL a List.mem_cons_self
      cases a with
      | vector v =>
        simp only [PairOp.run, PairParams.setVector]
        by_cases hv : v 1 = 0
        · simp [hv]; intro h; exact hp (Or.inl h)
        · simp [hv]
      | surface d =>
        simp only [PairOp.run, PairParams.setSurface]
        by_cases hd : d = dblMax
        · simp [hd]; intro h; exact hp (Or.inr h)
        · simp [hd]
      | green b => exact ha.elim
      | distance d =>
        simp only [PairOp.run, PairParams.setDistance]
        rintro (h | h)
        · exact hp (Or.inl h)
        · refine hp (Or.inr ?_)
          intro h0; rw [h0] at h; simp at h
      | angle a =>
        simp only [PairOp.run, PairParams.setAngle]
        rintro (h | h)
        · exact hp (Or.inl h)
        · simp at h
      | order o =>
        simp only [PairOp.run, PairParams.setOrder]
        exact hp
  exact this ops _ (by simp [PairParams.fresh]) h hs

/-- **C72 (partial).** Also near a surface or with a y component: two histories without `enableGreenTensor` that end with the same settings, a
surface among them or a y component, use the Green tensor and give the same interaction operators, or are both rejected. -/
theorem C72_surface_partial (ops ops' : List PairOp) (h : ∀ op ∈ ops, op.notGreen) (h' : ∀ op ∈ ops', op.notGreen)
    (hv : (runPair ops).visible = (runPair ops').visible) (hs : (runPair ops).surf ≠ dblMax ∨ (runPair ops).y ≠ 0) (s : PairMaps) :
    (runPair ops).gt = true ∧ initPair (runPair ops) s = initPair (runPair ops') s ∧ pairTerms (runPair ops) = pairTerms (runPair ops') := by
  have a := notGreen_gt ops h hs
  simp only [PairParams.visible, Prod.mk.injEq] at hv
  obtain ⟨h1, h2, h3, h4, h5, h6⟩ := hv
  have b := notGreen_gt ops' h' (by rw [← h5, ← h2]; exact hs)
  have : runPair ops = runPair ops' := by
    have hg : (runPair ops).gt = (runPair ops').gt := by rw [a, b]
    cases hp : runPair ops
    cases hq : runPair ops'
    rw [hp] at h1 h2 h3 h4 h5 h6 hg
    rw [hq] at h1 h2 h3 h4 h5 h6 hg
    simp_all
  rw [this]
  exact ⟨by rw [← this]; exact a, rfl, rfl⟩

example : (∀ op ∈ [PairOp.surface 3, .vector ![3, 0, 4]], op.notGreen) ∧ (runPair [PairOp.surface 3, .vector ![3, 0, 4]]).surf ≠ dblMax := by
  constructor
  · intro op ho; fin_cases ho <;> trivial
  · have hd : (3 : ℝ) ≠ dblMax := by have := dblMax_big; intro h; linarith
    simpa [runPair, PairOp.run, PairParams.setVector, PairParams.setSurface, PairParams.fresh, hd] using hd

/-- **C72 fails** in general: after a distance vector with a y component the Green tensor stays enabled.  With the same final vector and order 5 one history is accepted, the other rejected. -/
theorem C72_sticky_green_fails : ∃ ops ops' : List PairOp, (∀ op ∈ ops ++ ops', op.notGreen) ∧ (runPair ops).visible = (runPair ops').visible ∧
    ∀ s, (initPair (runPair ops) s).1 = .ok () ∧ (initPair (runPair ops') s).1 = .throw := by
  refine ⟨[.order 5, .vector ![0, 0, 5]], [.order 5, .vector ![0, 3, 4], .vector ![0, 0, 5]], ?_, ?_, ?_⟩
  · intro op ho; fin_cases ho <;> trivial
  · simp [runPair, PairOp.run, PairParams.visible, PairParams.setVector, PairParams.setOrder, PairParams.fresh]
  · intro s
    have e5 : Real.sqrt (5 * 5) = 5 := by rw [← sq]; exact Real.sqrt_sq (by norm_num)
    have e1 : runPair [.order 5, .vector ![0, 0, 5]] = ⟨0, 0, 5, 5, false, dblMax, 5⟩ := by
      simp [runPair, PairOp.run, PairParams.setVector, PairParams.setOrder, PairParams.fresh]
    have e2 : runPair [.order 5, .vector ![0, 3, 4], .vector ![0, 0, 5]] = ⟨0, 0, 5, 5, true, dblMax, 5⟩ := by
      simp [runPair, PairOp.run, PairParams.setVector, PairParams.setOrder, PairParams.fresh]
    have hd : (5 : ℝ) ≠ dblMax := by have := dblMax_big; intro h; linarith
    rw [e1, e2]
    constructor
    · unfold initPair
      rw [if_neg hd, if_neg, if_neg (by simp)]
      rintro (h | h | h | h) <;> simp at h
    · unfold initPair
      rw [if_neg hd]
      dsimp only
      rw [if_pos (show PairParams.greenBranch _ from Or.inr (Or.inr (Or.inr rfl))), if_neg (by simp), if_neg (by simp)]
      unfold PairParams.green
      rw [if_neg (by simp)]
      simp


/-! ## C35 for SystemTwo -/

/-- Settings for which building the interaction does not throw. -/
abbrev OKPair := { p : PairParams // (initPair p ⟨[], [], [], [], fun _ => false⟩).1 = .ok () }

/-- SystemTwo's interaction: the operators of the keys, the keys that `addInteraction` reads and their factors. -/
noncomputable def pairInter (C : FieldConsts) (radial : RadKey → ℝ) (me : Method) (st : Fin N → Option (QN × QN)) : Inter OKPair PKey (Fin N) where
  op := pairOper C radial me st
  need := fun p => (pairTerms p.1).map (·.1)
  coef := fun p key => (((pairTerms p.1).lookup key).getD 0 : ℝ)

theorem lookup_of_nodup {α β : Type} [DecidableEq α] (L : List (α × β)) (h : (L.map (·.1)).Nodup) (t : α × β) (ht : t ∈ L) : L.lookup t.1 = some t.2 := by
  induction L with
  | nil => simp at ht
  | cons a L ih =>
    rw [List.map_cons, List.nodup_cons] at h
    rw [List.lookup_cons]
    rcases List.mem_cons.mp ht with rfl | ht
    · simp
    · have hne : t.1 ≠ a.1 := fun hc => h.1 (hc ▸ List.mem_map_of_mem ht)
      rw [beq_eq_false_iff_ne.mpr hne]
      exact ih h.2 ht

theorem ddTerms_nodup (G : Fin 3 → Fin 3 → ℝ) : ((ddTerms G).map (·.1)).Nodup := by
  unfold ddTerms
  rw [List.map_map]
  refine List.Nodup.map_on ?_ ((List.Nodup.filter _ (by decide)))
  intro a _ b _ hab
  have : unkey2 (key2 a) = unkey2 (key2 b) := congrArg unkey2 hab
  rwa [unkey2_key2, unkey2_key2] at this

theorem dqTerms_nodup (G : Fin 3 → Fin 3 → Fin 3 → ℝ) : ((dqTerms G).map (·.1)).Nodup := by
  unfold dqTerms
  rw [List.map_map]
  refine List.Nodup.map_on ?_ ((List.Nodup.filter _ (by decide)))
  intro a _ b _ hab
  have : unkey3 (key3 a) = unkey3 (key3 b) := congrArg unkey3 hab
  rwa [unkey3_key3, unkey3_key3] at this

theorem addPair_nodup (p : PairParams) (s : PairMaps) (ha : (s.ang.map (·.1)).Nodup) (h1 : (s.dd.map (·.1)).Nodup) (h2 : (s.dq.map (·.1)).Nodup)
    (h3 : (s.qd.map (·.1)).Nodup) : ((addPair p s).map (·.1)).Nodup := by
  unfold addPair
  split_ifs
  · simp
  · rw [List.map_append, List.map_append, List.map_map, List.map_map, List.map_map]
    have e1 : (s.dd.map ((fun x : PKey × ℝ => x.1) ∘ fun t => (PKey.dd t.1, t.2))) = (s.dd.map (·.1)).map PKey.dd := by rw [List.map_map]; rfl
    have e2 : (s.dq.map ((fun x : PKey × ℝ => x.1) ∘ fun t => (PKey.dq t.1, t.2))) = (s.dq.map (·.1)).map PKey.dq := by rw [List.map_map]; rfl
    have e3 : (s.qd.map ((fun x : PKey × ℝ => x.1) ∘ fun t => (PKey.qd t.1, t.2))) = (s.qd.map (·.1)).map PKey.qd := by rw [List.map_map]; rfl
    rw [e1, e2, e3]
    refine List.Nodup.append (List.Nodup.append (h1.map (fun a b h => by simpa using h)) (h2.map (fun a b h => by simpa using h)) ?_)
      (h3.map (fun a b h => by simpa using h)) ?_
    · intro x hx hy
      obtain ⟨a, -, rfl⟩ := List.mem_map.mp hx
      obtain ⟨b, -, hb⟩ := List.mem_map.mp hy
      cases hb
    · intro x hx hy
      obtain ⟨b, -, rfl⟩ := List.mem_map.mp hy
      rcases List.mem_append.mp hx with hx | hx <;> obtain ⟨a, -, ha⟩ := List.mem_map.mp hx <;> cases ha
  · rw [List.map_map]
    have e : (s.ang.map ((fun x : PKey × ℝ => x.1) ∘ fun t => (PKey.ang t.1, t.2 * (1 / p.dist ^ 3)))) = (s.ang.map (·.1)).map PKey.ang := by rw [List.map_map]; rfl
    rw [e]
    exact ha.map (fun a b h => by simpa using h)
  · rw [List.map_map]
    unfold mulOrders
    rw [List.map_map]
    refine List.Nodup.map ?_ List.nodup_range
    intro a b h
    simpa using h

theorem pairTerms_nodup (p : PairParams) : ((pairTerms p).map (·.1)).Nodup := by
  unfold pairTerms
  have key : ∀ s : PairMaps, s = (initPair p ⟨[], [], [], [], fun _ => false⟩).2 →
      (s.ang.map (·.1)).Nodup ∧ (s.dd.map (·.1)).Nodup ∧ (s.dq.map (·.1)).Nodup ∧ (s.qd.map (·.1)).Nodup := by
    intro s hs
    have aN : ((((angleTerms (atan2 p.x p.z)).filter fun t => overTol t.2)).map (·.1)).Nodup := by
      refine List.Nodup.sublist (List.Sublist.map _ List.filter_sublist) ?_
      unfold angleTerms
      simp
    subst hs
    unfold initPair
    by_cases hd : p.dist = dblMax
    · rw [if_pos hd]; simp
    rw [if_neg hd]
    dsimp only
    by_cases hg : p.greenBranch
    · rw [if_pos hg]
      by_cases h1 : p.gt = false
      · rw [if_pos h1]; simp
      rw [if_neg h1]
      by_cases h2 : p.surf ≠ dblMax ∧ p.y ≠ 0
      · rw [if_pos h2]; simp
      rw [if_neg h2]
      rcases p.green with ⟨o, g⟩
      cases o with
      | ok u => by_cases h3 : p.order ≥ 3 <;> by_cases h4 : p.order ≥ 4 <;> by_cases h5 : p.order ≥ 5 <;>
          simp [h3, h4, h5, PairMaps.store, ddTerms_nodup, dqTerms_nodup]
      | throw => simp
      | ub => simp
    · rw [if_neg hg]
      by_cases hx : p.x ≠ 0
      · rw [if_pos hx]
        refine ⟨aN, ?_, ?_, ?_⟩ <;> simp [PairMaps.store]
      · rw [if_neg hx]; simp [PairMaps.store]
  obtain ⟨a, b, c, d⟩ := key _ rfl
  exact addPair_nodup p _ a b c d

/-- With a projector P the operator for the current settings is H₀ + P V P, V being the interaction between the pair states. -/
theorem pairInter_oper (C : FieldConsts) (radial : RadKey → ℝ) (me : Method) (st : Fin N → Option (QN × QN)) (op0 P : Matrix (Fin N) (Fin N) ℂ) (p : OKPair) :
    freshOper (pairInter C radial me st) op0 P p = op0 + P * pairH C radial me st p.1 * P := by
  unfold freshOper pairH
  congr 1
  have hn := pairTerms_nodup p.1
  show (((pairTerms p.1).map (·.1)).map fun key => ((((pairTerms p.1).lookup key).getD 0 : ℝ) : ℂ) • (P * pairOper C radial me st key * P)).sum = _
  rw [List.map_map]
  have e : (pairTerms p.1).map ((fun key => ((((pairTerms p.1).lookup key).getD 0 : ℝ) : ℂ) • (P * pairOper C radial me st key * P)) ∘ fun x => x.1)
      = (pairTerms p.1).map fun t => P * ((t.2 : ℂ) • pairOper C radial me st t.1) * P := by
    apply List.map_congr_left
    intro t ht
    simp only [Function.comp, lookup_of_nodup _ hn t ht, Option.getD_some]
    rw [Matrix.mul_smul, Matrix.smul_mul]
  rw [e]
  generalize pairTerms p.1 = L
  induction L with
  | nil => simp
  | cons t L ih => rw [List.map_cons, List.sum_cons, ih, List.map_cons, List.sum_cons, Matrix.mul_add, Matrix.add_mul]

/-- **C35 for SystemTwo.** For every history of setters (distance, vector, angle, order, surface, Green tensor) with accepted settings, Hamiltonian builds and diagonalizations of a fresh
SystemTwo, the represented operator is the Hermitian H₀ + P V P, where V is the pair interaction for the current settings (given by C43, C44 and C71) and P the projector onto the pair basis. -/
theorem C35_system_two (C : FieldConsts) (radial : RadKey → ℝ) (me : Method) (st : Fin N → Option (QN × QN))
    {k : Type} [Fintype k] [DecidableEq k] (s0 s : CSys OKPair PKey (Fin N) k)
    (h0 : s0.Fresh (pairInter C radial me st)) (hH : s0.H.IsHermitian) (hs : Hist (pairInter C radial me st) s0 s) :
    ∃ s', s.build (pairInter C radial me st) = .ok s' ∧ s'.p = s.p ∧
      s'.V * s'.H * s'.Vᴴ = s0.V * s0.H * s0.Vᴴ + s0.V * s0.Vᴴ * pairH C radial me st s.p.1 * (s0.V * s0.Vᴴ) ∧
      (s'.V * s'.H * s'.Vᴴ).IsHermitian := by
  obtain ⟨⟨s', h1, h2, h3⟩, -⟩ := C35_current_parameters_partial _ s0 s h0 hs
  rw [pairInter_oper] at h3
  refine ⟨s', h1, h2, h3, ?_⟩
  rw [h3]
  refine Matrix.IsHermitian.add ?_ ?_
  · unfold Matrix.IsHermitian at *
    rw [Matrix.conjTranspose_mul, Matrix.conjTranspose_mul, hH, Matrix.conjTranspose_conjTranspose, Matrix.mul_assoc]
  · unfold Matrix.IsHermitian
    have := C44_hermitian C radial me st s.p.1
    simp only [Matrix.conjTranspose_mul, Matrix.conjTranspose_conjTranspose, this, Matrix.mul_assoc]

/-- A fresh system of two pair states: the settings are not set yet, so that no interaction is needed. -/
example (C : FieldConsts) (radial : RadKey → ℝ) (me : Method) (H : Matrix (Fin 2) (Fin 2) ℂ) :
    ∃ s0 : CSys OKPair PKey (Fin 2) (Fin 2), s0.Fresh (pairInter C radial me stEx) ∧ s0.H = H := by
  have hf : (initPair PairParams.fresh ⟨[], [], [], [], fun _ => false⟩).1 = .ok () := by
    unfold initPair; rw [if_pos (show PairParams.fresh.dist = dblMax from rfl)]
  refine ⟨⟨⟨PairParams.fresh, hf⟩, 1, H, none, none, fun _ => none, false, false, false, false⟩, ?_, rfl⟩
  constructor <;> simp [pairInter, pairTerms, addPair, PairParams.fresh]

/-- The surface distance set last (`none`: no surface). -/
noncomputable def lastSurfDist : List PairOp → Option ℝ
  | [] => none
  | .surface d :: ops => (lastSurfDist ops).or (some d)
  | _ :: ops => lastSurfDist ops

theorem surf_run (ops : List PairOp) (p : PairParams) : (ops.foldl PairOp.run p).surf = (lastSurfDist ops).getD p.surf := by
  induction ops generalizing p with
  | nil => rfl
  | cons a ops ih =>
    rw [List.foldl_cons, ih]
    cases a with
    | surface d =>
      simp only [lastSurfDist, PairOp.run, PairParams.setSurface]
      cases lastSurfDist ops with
      | none => simp only [Option.none_or, Option.getD_none, Option.getD_some]; split_ifs <;> rfl
      | some x => rfl
    | _ => rfl

/-- **C72** (surface): after every history, disabling the Green tensor is refused exactly while a surface is set; and whatever calls
were made or refused, an interaction that is accepted with a surface is computed with the Green tensor of that surface. -/
theorem C72_green_with_surface (ops : List PairOp) :
    (((runPair ops).enableGT false).1 = .throw ↔ ∃ d, lastSurfDist ops = some d ∧ d ≠ dblMax) ∧
    (((runPair ops).enableGT false).1 ≠ .ub) ∧ ((runPair ops).enableGT true).1 = .ok () ∧
    ∀ d, lastSurfDist ops = some d → d ≠ dblMax → (runPair ops).dist ≠ dblMax → ∀ s,
      (initPair (runPair ops) s).1 = .ok () → (runPair ops).gt = true ∧
        ((GT.new (runPair ops).x (runPair ops).y (runPair ops).z).addSurface d).1 = .ok () := by
  have hs : (runPair ops).surf = (lastSurfDist ops).getD dblMax := surf_run ops PairParams.fresh
  refine ⟨?_, ?_, ?_, ?_⟩
  · unfold PairParams.enableGT
    rw [hs]
    cases lastSurfDist ops with
    | none => simp
    | some d => simp
  · unfold PairParams.enableGT
    split_ifs <;> simp
  · unfold PairParams.enableGT
    rw [if_neg (by simp)]
  · intro d hd hne hdist s h
    rw [hd, Option.getD_some] at hs
    unfold initPair at h
    rw [if_neg hdist] at h
    dsimp only at h
    rw [if_pos (show (runPair ops).greenBranch from Or.inr (Or.inl (by rw [hs]; exact hne)))] at h
    by_cases hg : (runPair ops).gt = false
    · rw [if_pos hg] at h; cases h
    · rw [if_neg hg] at h
      refine ⟨by simpa using hg, ?_⟩
      by_cases hy : (runPair ops).surf ≠ dblMax ∧ (runPair ops).y ≠ 0
      · rw [if_pos hy] at h; cases h
      · rw [if_neg hy] at h
        unfold PairParams.green at h
        rw [hs, if_pos hne] at h
        generalize (GT.new (runPair ops).x (runPair ops).y (runPair ops).z).addSurface d = q at h ⊢
        obtain ⟨o, g⟩ := q
        cases o with
        | ok u => rfl
        | throw => cases h
        | ub => cases h

/-- A surface is set, and removed again. -/
example : lastSurfDist [.distance 5, .surface 3, .order 4] = some 3 ∧ lastSurfDist [.surface 3, .surface dblMax] = some dblMax := by
  simp [lastSurfDist]

end PI
