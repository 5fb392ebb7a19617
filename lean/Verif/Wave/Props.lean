import Verif.Wave.Model
import Mathlib.Tactic.Linarith
import Mathlib.Tactic.Ring
import Mathlib.Tactic.FieldSimp
import Mathlib.Tactic.NormNum
import Mathlib.Tactic.Positivity
import Mathlib.Algebra.BigOperators.Intervals
import Mathlib.Algebra.Order.Archimedean.Basic
import Mathlib.Algebra.Order.BigOperators.Group.Finset
import Mathlib.Data.Int.Interval

/-! # C51, C52: grid search and radial wave functions -/

namespace PI

/-! ## C51 -/

/-- The tolerance the interface promises: relative difference at most `eps`. -/
def Close (a d eps : ℝ) : Prop := |a - d| ≤ max |a| |d| * eps

theorem close_self {a eps : ℝ} (h : 0 ≤ eps) : Close a a eps := by
  simp only [Close, sub_self, abs_zero]; positivity

theorem close_mono {a d e1 e2 : ℝ} (h : e1 ≤ e2) (hc : Close a d e1) : Close a d e2 :=
  le_trans hc (mul_le_mul_of_nonneg_left h (le_max_of_le_left (abs_nonneg _)))

theorem findPass_sound (x : ℤ → ℝ) (d eps : ℝ) (heps : 0 ≤ eps) (L R m : ℤ)
    (h : findPass x d eps L R = some m) : L ≤ m ∧ m ≤ R ∧ Close (x m) d eps := by
  induction hk : (R + 1 - L).toNat using Nat.strong_induction_on generalizing L R with
  | _ k ih =>
    rw [findPass] at h
    dsimp only at h
    split_ifs at h with h1 h2 h3 h4 h5
    · cases h; exact ⟨by omega, by omega, h3⟩
    · have := ih _ (by omega) _ _ h rfl
      exact ⟨by omega, by omega, this.2.2⟩
    · cases h; exact ⟨by omega, by omega, h5⟩
    · have := ih _ (by omega) _ _ h rfl
      exact ⟨by omega, by omega, this.2.2⟩
    · cases h
      have : x ((L + R) / 2) = d := le_antisymm (not_lt.mp h4) (not_lt.mp h2)
      exact ⟨by omega, by omega, by rw [this]; exact close_self heps⟩

theorem findPass_complete (x : ℤ → ℝ) (d eps : ℝ) (rows : ℤ)
    (hm : ∀ i j, 0 ≤ i → i < j → j < rows → x i < x j) (k : ℤ) (hk : x k = d) (L R : ℤ)
    (hL : 0 ≤ L) (hR : R < rows) (h1 : L ≤ k) (h2 : k ≤ R) : ∃ m, findPass x d eps L R = some m := by
  induction hn : (R + 1 - L).toNat using Nat.strong_induction_on generalizing L R with
  | _ n ih =>
    rw [findPass, dif_neg (by omega)]
    dsimp only
    split_ifs with a b c e
    · exact ⟨_, rfl⟩
    · have : (L + R) / 2 < k := by
        by_contra hc
        rcases eq_or_lt_of_le (not_lt.mp hc) with e | e
        · rw [← e, hk] at a; exact lt_irrefl _ a
        · have := hm _ _ (by omega) e (by omega); rw [hk] at this; linarith
      exact ih _ (by omega) _ _ (by omega) hR (by omega) h2 rfl
    · exact ⟨_, rfl⟩
    · have : k < (L + R) / 2 := by
        by_contra hc
        rcases eq_or_lt_of_le (not_lt.mp hc) with e | e
        · rw [e, hk] at c; exact lt_irrefl _ c
        · have := hm _ _ (by omega) e (by omega); rw [hk] at this; linarith
      exact ih _ (by omega) _ _ hL (by omega) h1 (by omega) rfl
    · exact ⟨_, rfl⟩

theorem machEps_pos : 0 < machEps := by unfold machEps; positivity

/-- The search ends after `fuel` passes, with a result that is in range and close (final tolerance at
most max eps (2 ε)), or with an exception if the value is not on the grid. -/
theorem findIdx_aux (x : ℤ → ℝ) (rows : ℤ) (d : ℝ)
    (hm : ∀ i j, 0 ≤ i → i < j → j < rows → x i < x j) (fuel0 : ℕ) (eps : ℝ) (heps : 0 < eps)
    (hf : machEps < 2 ^ fuel0 * eps) :
    ∃ r : Out ℤ, (∀ fuel, fuel0 + 1 ≤ fuel → findIdx x rows d fuel eps = some r) ∧ r ≠ .ub ∧
      (∀ m, r = .ok m → 0 ≤ m ∧ m < rows ∧ Close (x m) d (max eps (2 * machEps))) ∧
      (r = .throw → ∀ k, 0 ≤ k → k < rows → x k ≠ d) := by
  induction fuel0 generalizing eps with
  | zero =>
    cases hp : findPass x d eps 0 (rows - 1) with
    | some m =>
      refine ⟨.ok m, ?_, by simp, ?_, by simp⟩
      · intro fuel hfu
        obtain ⟨f, rfl⟩ : ∃ f, fuel = f + 1 := ⟨fuel - 1, by omega⟩
        simp [findIdx, hp]
      · intro m' hm'
        cases hm'
        have := findPass_sound x d eps heps.le _ _ _ hp
        exact ⟨this.1, by omega, close_mono (le_max_left _ _) this.2.2⟩
    | none =>
      refine ⟨.throw, ?_, by simp, by simp, ?_⟩
      · intro fuel hfu
        obtain ⟨f, rfl⟩ : ∃ f, fuel = f + 1 := ⟨fuel - 1, by omega⟩
        simp only [pow_zero, one_mul] at hf
        simp [findIdx, hp, hf]
      · intro _ k h0 h1 hk
        obtain ⟨m, hm'⟩ := findPass_complete x d eps rows hm k hk 0 (rows - 1) le_rfl (by omega) h0 (by omega)
        rw [hp] at hm'; cases hm'
  | succ f0 ih =>
    cases hp : findPass x d eps 0 (rows - 1) with
    | some m =>
      refine ⟨.ok m, ?_, by simp, ?_, by simp⟩
      · intro fuel hfu
        obtain ⟨f, rfl⟩ : ∃ f, fuel = f + 1 := ⟨fuel - 1, by omega⟩
        simp [findIdx, hp]
      · intro m' hm'
        cases hm'
        have := findPass_sound x d eps heps.le _ _ _ hp
        exact ⟨this.1, by omega, close_mono (le_max_left _ _) this.2.2⟩
    | none =>
      by_cases he : eps > machEps
      · refine ⟨.throw, ?_, by simp, by simp, ?_⟩
        · intro fuel hfu
          obtain ⟨f, rfl⟩ : ∃ f, fuel = f + 1 := ⟨fuel - 1, by omega⟩
          simp [findIdx, hp, he]
        · intro _ k h0 h1 hk
          obtain ⟨m, hm'⟩ := findPass_complete x d eps rows hm k hk 0 (rows - 1) le_rfl (by omega) h0 (by omega)
          rw [hp] at hm'; cases hm'
      · obtain ⟨r, hr, hu, ho, ht⟩ := ih (2 * eps) (by linarith) (by rw [pow_succ] at hf; linarith)
        refine ⟨r, ?_, hu, ?_, ht⟩
        · intro fuel hfu
          obtain ⟨f, rfl⟩ : ∃ f, fuel = f + 1 := ⟨fuel - 1, by omega⟩
          simp only [findIdx, hp]
          rw [if_neg he]
          exact hr f (by omega)
        · intro m hm'
          obtain ⟨a, b, c⟩ := ho m hm'
          refine ⟨a, b, close_mono ?_ c⟩
          have : 2 * eps ≤ 2 * machEps := by linarith
          exact max_le (le_trans this (le_max_right _ _)) (le_max_right _ _)

/-- **C51.** For every increasing grid, every searched value and every positive tolerance: the search
terminates (its result is the same for every sufficiently large bound on the number of restarts); it
returns a valid index whose value agrees with the searched one up to the tolerance (at most
max(eps, 2ε)), or it throws; it throws only for values that are not on the grid; and if the searched value
is at position k and no other grid value is within `eps` of it, it returns k. -/
theorem C51_findidx (x : ℤ → ℝ) (rows : ℤ) (hm : ∀ i j, 0 ≤ i → i < j → j < rows → x i < x j)
    (d eps : ℝ) (heps : 0 < eps) :
    ∃ r : Out ℤ, (∃ N, ∀ fuel ≥ N, findIdx x rows d fuel eps = some r) ∧
      (r = .throw ∨ ∃ m, r = .ok m ∧ 0 ≤ m ∧ m < rows ∧ Close (x m) d (max eps (2 * machEps))) ∧
      (r = .throw → ∀ k, 0 ≤ k → k < rows → x k ≠ d) ∧
      (∀ k, 0 ≤ k → k < rows → x k = d →
        (∀ i, 0 ≤ i → i < rows → i ≠ k → ¬ Close (x i) d eps) → r = .ok k) := by
  obtain ⟨N, hN⟩ : ∃ N : ℕ, machEps < 2 ^ N * eps := by
    obtain ⟨N, hN⟩ := pow_unbounded_of_one_lt (machEps / eps) (by norm_num : (1 : ℝ) < 2)
    exact ⟨N, by rwa [div_lt_iff₀ heps] at hN⟩
  obtain ⟨r, hr, hu, ho, ht⟩ := findIdx_aux x rows d hm N eps heps hN
  refine ⟨r, ⟨N + 1, fun f hf => hr f hf⟩, ?_, ht, ?_⟩
  · cases r with
    | ok m => exact Or.inr ⟨m, rfl, ho m rfl⟩
    | throw => exact Or.inl rfl
    | ub => exact absurd rfl hu
  · intro k h0 h1 hk hsep
    obtain ⟨m, hp⟩ := findPass_complete x d eps rows hm k hk 0 (rows - 1) le_rfl (by omega) h0 (by omega)
    have hs := findPass_sound x d eps heps.le _ _ _ hp
    have : m = k := by
      by_contra hne
      exact hsep m hs.1 (by omega) hne hs.2.2
    have h2 := hr (N + 1) le_rfl
    simp only [findIdx, hp, this] at h2
    injection h2 with h2
    exact h2.symm

/-- The grid 0, 1, 2, … is increasing, and 3 is found at index 3. -/
example : (∀ i j : ℤ, 0 ≤ i → i < j → j < 10 → ((i : ℝ)) < (j : ℝ)) ∧
    (∀ i : ℤ, 0 ≤ i → i < 10 → i ≠ 3 → ¬ Close ((i : ℝ)) 3 (1 / 1000)) := by
  constructor
  · intro i j _ h _; exact_mod_cast h
  · intro i h0 h1 h3 hc
    simp only [Close] at hc
    have hb : max |(i : ℝ)| |(3 : ℝ)| ≤ 10 := by
      apply max_le
      · rw [abs_of_nonneg (by exact_mod_cast h0)]; exact_mod_cast h1.le
      · norm_num
    have hd : (1 : ℝ) ≤ |(i : ℝ) - 3| := by
      have : (1 : ℤ) ≤ |i - 3| := Int.one_le_abs (sub_ne_zero.mpr h3)
      exact_mod_cast this
    have := mul_le_mul_of_nonneg_right hb (by norm_num : (0 : ℝ) ≤ 1 / 1000)
    linarith

/-- The default tolerance needs at most two passes. -/
theorem C51_default_two_passes (x : ℤ → ℝ) (rows : ℤ) (hm : ∀ i j, 0 ≤ i → i < j → j < rows → x i < x j) (d : ℝ) :
    ∃ r : Out ℤ, ∀ fuel ≥ 2, findIdx x rows d fuel machEps = some r := by
  obtain ⟨r, hr, -⟩ := findIdx_aux x rows d hm 1 machEps machEps_pos (by linarith [machEps_pos])
  exact ⟨r, hr⟩

/-- With the tolerance 0 (a legal argument), a value that is not on the grid makes the restart loop
run forever: no number of restarts is enough. -/
theorem C51_zero_tolerance_diverges (x : ℤ → ℝ) (rows : ℤ) (d : ℝ) (hd : ∀ k, 0 ≤ k → k < rows → x k ≠ d)
    (fuel : ℕ) : findIdx x rows d fuel 0 = none := by
  induction fuel with
  | zero => rfl
  | succ f ih =>
    have hp : findPass x d 0 0 (rows - 1) = none := by
      cases h : findPass x d 0 0 (rows - 1) with
      | none => rfl
      | some m =>
        have := findPass_sound x d 0 le_rfl _ _ _ h
        have h2 := this.2.2
        simp only [Close, mul_zero] at h2
        have h3 := abs_nonpos_iff.mp h2
        exact absurd (sub_eq_zero.mp h3) (hd m this.1 (by omega))
    simp only [findIdx, hp, mul_zero, ih]
    rw [if_neg (not_lt.mpr machEps_pos.le)]

/-! ## C52 -/

theorem numerovXmin_pos (q : WfParams) : 1 ≤ numerovXmin q := by
  unfold numerovXmin
  dsimp only
  split_ifs with h
  · rw [Int.le_floor]; apply Real.le_sqrt_of_sq_le; norm_num
  · rw [Int.le_floor]; apply Real.le_sqrt_of_sq_le
    push_cast; linarith

theorem numerovXmin_le (q : WfParams) (hn : 1 ≤ q.n) : numerovXmin q ≤ q.n := by
  have hn' : (1 : ℝ) ≤ q.n := by exact_mod_cast hn
  unfold numerovXmin
  dsimp only
  split_ifs with h
  · have : ⌊Real.sqrt 2.08⌋ < 2 := by
      rw [Int.floor_lt, Real.sqrt_lt' (by norm_num)]; norm_num
    omega
  · have h1 : Real.sqrt (q.n * q.n - q.n * Real.sqrt (q.n * q.n - (q.l - 1) * (q.l - 1))) ≤ q.n := by
      rw [Real.sqrt_le_left (by linarith)]
      have := Real.sqrt_nonneg ((q.n : ℝ) * q.n - (q.l - 1) * (q.l - 1))
      nlinarith
    have h2 := Int.floor_le_floor h1
    simpa using h2

theorem wfXmax_ge (q : WfParams) (hn : 1 ≤ q.n) : (q.n : ℝ) + 1 ≤ wfXmax q := by
  have hn' : (1 : ℝ) ≤ q.n := by exact_mod_cast hn
  unfold wfXmax
  apply Real.le_sqrt_of_sq_le
  nlinarith

theorem wfSteps_ge (q : WfParams) (hn : 1 ≤ q.n) (xm : ℤ) (h : xm ≤ q.n) : 100 ≤ wfSteps q xm := by
  unfold wfSteps wfDx
  have h1 := wfXmax_ge q hn
  have h2 : (xm : ℝ) ≤ q.n := by exact_mod_cast h
  have : ((100 : ℤ) : ℝ) ≤ (wfXmax q - xm) / (1 / 100) := by
    push_cast; rw [le_div_iff₀ (by norm_num)]; linarith
  exact_mod_cast le_trans this (Int.le_ceil _)

theorem numerovStart_ne (q : WfParams) : numerovStart q ≠ 0 := by
  unfold numerovStart; split_ifs <;> norm_num

theorem numerovNorm_pos (q : WfParams) (hn : 1 ≤ q.n) : 0 < numerovNorm q (numerovXmin q) (wfSteps q (numerovXmin q)) := by
  set xm := numerovXmin q with hxm
  have hs : 100 ≤ wfSteps q xm := wfSteps_ge q hn xm (numerovXmin_le q hn)
  set N := wfSteps q xm with hN
  unfold numerovNorm
  apply Real.sqrt_pos.mpr
  apply mul_pos two_pos
  apply Finset.sum_pos'
  · intro i _
    have : (0 : ℝ) ≤ wfDx := by unfold wfDx; norm_num
    have e : numerovRaw q xm N (N - 1 - i).toNat * numerovRaw q xm N (N - 1 - i).toNat * wfGrid xm i * wfGrid xm i * wfDx
      = (numerovRaw q xm N (N - 1 - i).toNat * wfGrid xm i) ^ 2 * wfDx := by ring
    rw [e]; positivity
  · refine ⟨N - 2, by rw [Finset.mem_Ico]; omega, ?_⟩
    have e : (N - 1 - (N - 2)).toNat = 1 := by omega
    rw [e]
    have hx : 0 < wfGrid xm (N - 2) := by
      unfold wfGrid wfDx
      have h1 : (1 : ℝ) ≤ xm := by exact_mod_cast numerovXmin_pos q
      have h2 : (0 : ℝ) ≤ ((N - 2 : ℤ) : ℝ) := by exact_mod_cast (by omega : 0 ≤ N - 2)
      linarith
    have hy := numerovStart_ne q
    have hd : 0 < wfDx := by unfold wfDx; norm_num
    have e2 : numerovRaw q xm N 1 = numerovStart q := rfl
    rw [e2]
    have : numerovStart q * numerovStart q * wfGrid xm (N - 2) * wfGrid xm (N - 2) * wfDx
      = (numerovStart q * wfGrid xm (N - 2)) ^ 2 * wfDx := by ring
    rw [this]
    have := sq_pos_of_ne_zero (mul_ne_zero hy hx.ne')
    positivity

/-- **C52 (wave functions).** For all quantum numbers n ≥ 1 and all potential parameters: the Numerov
grid has at least 100 points and starts at x ≥ 1 (so the initial condition is inside the array and
the potential is not evaluated at 0); the result is normalised, 2 Σ y² x² dx = 1; it vanishes at the outer
end, its value next to it is negative for even n − l and positive for odd n − l; and it satisfies
Numerov's three-term recurrence at every inner point where the recurrence can be solved. -/
theorem C52_numerov_normalised (q : WfParams) (hn : 1 ≤ q.n) :
    let w := numerov q
    100 ≤ w.rows ∧ 1 ≤ w.x 0 ∧
    (2 * ∑ i ∈ Finset.Ico 0 w.rows, w.y i ^ 2 * w.x i ^ 2 * wfDx = 1) ∧
    w.y (w.rows - 1) = 0 ∧
    (Even (q.n - q.l) → w.y (w.rows - 2) < 0) ∧ (Odd (q.n - q.l) → 0 < w.y (w.rows - 2)) ∧
    (∀ i, 0 ≤ i → i + 2 < w.rows → 1 - wfDx ^ 2 / 12 * modelG q (w.x i ^ 2) ≠ 0 →
      (1 - wfDx ^ 2 / 12 * modelG q (w.x i ^ 2)) * w.y i
        = (2 + 5 / 6 * wfDx ^ 2 * modelG q (w.x (i + 1) ^ 2)) * w.y (i + 1)
          - (1 - wfDx ^ 2 / 12 * modelG q (w.x (i + 2) ^ 2)) * w.y (i + 2)) := by
  have hnorm := numerovNorm_pos q hn
  have hs : 100 ≤ wfSteps q (numerovXmin q) := wfSteps_ge q hn _ (numerovXmin_le q hn)
  have hy : ∀ i, (numerov q).y i = numerovRaw q (numerovXmin q) (wfSteps q (numerovXmin q))
      (wfSteps q (numerovXmin q) - 1 - i).toNat / numerovNorm q (numerovXmin q) (wfSteps q (numerovXmin q)) := by
    intro i; simp only [numerov, numerovY]; rw [if_pos hnorm]
  have hx : (numerov q).x = wfGrid (numerovXmin q) := rfl
  have hr : (numerov q).rows = wfSteps q (numerovXmin q) := rfl
  have hx1 : (1 : ℝ) ≤ numerovXmin q := by exact_mod_cast numerovXmin_pos q
  have hraw : ∀ (N : ℤ) (i : ℤ), i + 2 < N → 0 ≤ i →
      numerovRaw q (numerovXmin q) N (N - 1 - i).toNat =
        numerovStep (modelG q (wfGrid (numerovXmin q) i * wfGrid (numerovXmin q) i))
          (modelG q (wfGrid (numerovXmin q) (i + 1) * wfGrid (numerovXmin q) (i + 1)))
          (modelG q (wfGrid (numerovXmin q) (i + 2) * wfGrid (numerovXmin q) (i + 2)))
          (numerovRaw q (numerovXmin q) N (N - 1 - (i + 1)).toNat)
          (numerovRaw q (numerovXmin q) N (N - 1 - (i + 2)).toNat) := by
    intro N i h2 h0
    obtain ⟨t, ht⟩ : ∃ t : ℕ, N = i + 3 + t := ⟨(N - i - 3).toNat, by omega⟩
    subst ht
    have e0 : (i + 3 + (t : ℤ) - 1 - i).toNat = t + 2 := by omega
    have e1 : (i + 3 + (t : ℤ) - 1 - (i + 1)).toNat = t + 1 := by omega
    have e2 : (i + 3 + (t : ℤ) - 1 - (i + 2)).toNat = t := by omega
    have e3 : i + 3 + (t : ℤ) - 1 - ((t + 2 : ℕ) : ℤ) = i := by push_cast; ring
    rw [e0, e1, e2]
    conv_lhs => rw [numerovRaw]
    simp only [e3]
  intro w
  have hw : w = numerov q := rfl
  rw [hw]
  refine ⟨hs, ?_, ?_, ?_, ?_, ?_, ?_⟩
  · rw [hx]; simp only [wfGrid, Int.cast_zero, zero_mul, add_zero]; exact hx1
  · simp only [hy, hx, hr]
    have hsq : numerovNorm q (numerovXmin q) (wfSteps q (numerovXmin q)) ^ 2 = 2 * ∑ i ∈ Finset.Ico 0 (wfSteps q (numerovXmin q)),
        numerovRaw q (numerovXmin q) (wfSteps q (numerovXmin q)) (wfSteps q (numerovXmin q) - 1 - i).toNat
          * numerovRaw q (numerovXmin q) (wfSteps q (numerovXmin q)) (wfSteps q (numerovXmin q) - 1 - i).toNat
          * wfGrid (numerovXmin q) i * wfGrid (numerovXmin q) i * wfDx := by
      unfold numerovNorm
      rw [Real.sq_sqrt]
      apply mul_nonneg two_pos.le
      apply Finset.sum_nonneg
      intro i _
      have : (0 : ℝ) ≤ wfDx := by unfold wfDx; norm_num
      rw [mul_assoc (_ * _) _ (wfGrid _ _)]
      exact mul_nonneg (mul_nonneg (mul_self_nonneg _) (mul_self_nonneg _)) this
    have : ∀ i, (numerovRaw q (numerovXmin q) (wfSteps q (numerovXmin q)) (wfSteps q (numerovXmin q) - 1 - i).toNat
          / numerovNorm q (numerovXmin q) (wfSteps q (numerovXmin q))) ^ 2 * wfGrid (numerovXmin q) i ^ 2 * wfDx
        = (numerovRaw q (numerovXmin q) (wfSteps q (numerovXmin q)) (wfSteps q (numerovXmin q) - 1 - i).toNat
          * numerovRaw q (numerovXmin q) (wfSteps q (numerovXmin q)) (wfSteps q (numerovXmin q) - 1 - i).toNat
          * wfGrid (numerovXmin q) i * wfGrid (numerovXmin q) i * wfDx)
          * (1 / numerovNorm q (numerovXmin q) (wfSteps q (numerovXmin q)) ^ 2) := by
      intro i; field_simp
    simp only [this]
    rw [← Finset.sum_mul, ← mul_assoc, ← hsq]
    field_simp
  · rw [hy, hr]
    have e : (wfSteps q (numerovXmin q) - 1 - (wfSteps q (numerovXmin q) - 1)).toNat = 0 := by omega
    rw [e]; simp [numerovRaw]
  · intro he
    rw [hy, hr]
    have e : (wfSteps q (numerovXmin q) - 1 - (wfSteps q (numerovXmin q) - 2)).toNat = 1 := by omega
    rw [e]
    apply div_neg_of_neg_of_pos _ hnorm
    simp only [numerovRaw, numerovStart]
    rw [if_pos (Int.tmod_eq_zero_of_dvd he.two_dvd)]; norm_num
  · intro he
    rw [hy, hr]
    have e : (wfSteps q (numerovXmin q) - 1 - (wfSteps q (numerovXmin q) - 2)).toNat = 1 := by omega
    rw [e]
    apply div_pos _ hnorm
    simp only [numerovRaw, numerovStart]
    rw [if_neg (fun h => by have := Int.dvd_of_tmod_eq_zero h; obtain ⟨k, hk⟩ := he; omega)]; norm_num
  · intro i h0 h2 hC
    rw [hr] at h2
    rw [hx] at hC
    rw [hy, hy, hy, hx, hraw _ i h2 h0]
    have e : ∀ a : ℝ, a * a = a ^ 2 := fun a => by ring
    simp only [numerovStep, e]
    have hC' : 1 - 1 / 12 * wfDx * wfDx * modelG q (wfGrid (numerovXmin q) i ^ 2) ≠ 0 := by
      intro h; apply hC; rw [← h]; ring
    have e4 : ∀ G : ℝ, 1 - wfDx ^ 2 / 12 * G = 1 - 1 / 12 * wfDx * wfDx * G := fun G => by ring
    have e5 : ∀ c A B n : ℝ, c ≠ 0 → c * ((A - B) / c / n) = A / n - B / n := by
      intro c A B n hc
      rw [mul_div_assoc', mul_div_cancel₀ _ hc, sub_div]
    simp only [e4]
    rw [e5 _ _ _ _ hC']
    ring

/-- A state to which the theorem applies: 60 S in hydrogen-like parameters. -/
example : 1 ≤ (⟨60, 0, 1 / 2, 1 / 2, 1, 0, 0, 0, 0, 0, 1, 0⟩ : WfParams).n := by decide

/-! ### Radial integrals -/

/-- A wave function sampled on the common raster: positions (100·xm + i)/100, small enough for double
precision to tell neighbouring points apart. -/
structure OnRaster (w : Wf) (xm : ℤ) : Prop where
  x : w.x = wfGrid xm
  rows : 0 < w.rows
  small : ∀ i, 0 ≤ i → i < w.rows → |wfGrid xm i| * machEps < wfDx

theorem wfGrid_mono (xm i j : ℤ) (h : i < j) : wfGrid xm i < wfGrid xm j := by
  unfold wfGrid wfDx
  have : (i : ℝ) < j := by exact_mod_cast h
  linarith

theorem wfGrid_shift (a b i : ℤ) : wfGrid a i = wfGrid b (100 * (a - b) + i) := by
  unfold wfGrid wfDx; push_cast; ring

/-- On the raster the search returns exactly the position. -/
theorem find_raster {w : Wf} {xm : ℤ} (h : OnRaster w xm) (k : ℤ) (h0 : 0 ≤ k) (h1 : k < w.rows) :
    findIdx w.x w.rows (wfGrid xm k) 2 machEps = some (.ok k) := by
  have hm : ∀ i j, 0 ≤ i → i < j → j < w.rows → w.x i < w.x j := by
    intro i j _ hij _; rw [h.x]; exact wfGrid_mono _ _ _ hij
  obtain ⟨r, hr⟩ := C51_default_two_passes w.x w.rows hm (wfGrid xm k)
  obtain ⟨r', ⟨N, hN⟩, -, -, hk⟩ := C51_findidx w.x w.rows hm (wfGrid xm k) machEps machEps_pos
  have e : r = r' := by
    have a := hr (N + 2) (by omega)
    have b := hN (N + 2) (by omega)
    rw [a] at b; injection b
  rw [hr 2 le_rfl, e]
  congr 1
  refine hk k h0 h1 (by rw [h.x]) ?_
  intro i hi0 hi1 hne hc
  rw [h.x] at hc
  simp only [Close] at hc
  have hd : wfDx ≤ |wfGrid xm i - wfGrid xm k| := by
    have e : wfGrid xm i - wfGrid xm k = ((i - k : ℤ) : ℝ) * wfDx := by unfold wfGrid; push_cast; ring
    have h1 : (1 : ℝ) ≤ |((i - k : ℤ) : ℝ)| := by
      have : (1 : ℤ) ≤ |i - k| := Int.one_le_abs (sub_ne_zero.mpr hne)
      exact_mod_cast this
    have hp : (0 : ℝ) < wfDx := by unfold wfDx; norm_num
    rw [e, abs_mul, abs_of_pos hp]
    nlinarith
  have hi := h.small i hi0 hi1
  have hk' := h.small k h0 h1
  rcases max_cases |wfGrid xm i| |wfGrid xm k| with ⟨hM, -⟩ | ⟨hM, -⟩ <;> rw [hM] at hc <;> linarith

theorem overlapLoop_eq (a b : Wf) (pk : ℤ) (fuel : ℕ) (i1 e1 i2 e2 : ℤ) (mu : ℝ)
    (hf : e1 - i1 ≤ fuel) (he : e1 - i1 = e2 - i2) :
    overlapLoop a b pk fuel i1 e1 i2 e2 mu
      = mu + ∑ i ∈ Finset.Ico i1 e1, a.y i * b.y (i2 + (i - i1)) * a.x i ^ pk * wfDx := by
  induction fuel generalizing i1 i2 mu with
  | zero => rw [Finset.Ico_eq_empty (by omega)]; simp [overlapLoop]
  | succ f ih =>
    rw [overlapLoop]
    by_cases h : i1 < e1
    · rw [if_pos (by omega), ih _ _ _ (by omega) (by omega)]
      have hs : Finset.Ico i1 e1 = insert i1 (Finset.Ico (i1 + 1) e1) := by
        ext t; simp only [Finset.mem_insert, Finset.mem_Ico]; omega
      rw [hs, Finset.sum_insert (by simp), sub_self, add_zero, ← add_assoc]
      congr 1
      apply Finset.sum_congr rfl
      intro t _
      rw [show i2 + 1 + (t - (i1 + 1)) = i2 + (t - i1) by ring]
    · rw [if_neg (by omega), Finset.Ico_eq_empty (by omega)]; simp

/-- The integral over the common raster points, as a quantity in which the two wave functions play the same
role: p runs over the raster positions of both grids except the last. -/
noncomputable def rasterIntegral (a b : Wf) (xa xb pk : ℤ) : ℝ :=
  2 * ∑ p ∈ Finset.Ico (max (100 * xa) (100 * xb)) (min (100 * xa + a.rows - 1) (100 * xb + b.rows - 1)),
    a.y (p - 100 * xa) * b.y (p - 100 * xb) * ((p : ℝ) * wfDx) ^ pk * wfDx

theorem rasterIntegral_comm (a b : Wf) (xa xb pk : ℤ) : rasterIntegral a b xa xb pk = rasterIntegral b a xb xa pk := by
  unfold rasterIntegral
  rw [max_comm, min_comm]
  congr 1
  apply Finset.sum_congr rfl
  intro p _; ring

theorem integrateRadial_eq (a b : Wf) (xa xb pk : ℤ) (ha : OnRaster a xa) (hb : OnRaster b xb) :
    integrateRadial a b pk = .ok (rasterIntegral a b xa xb pk) := by
  have hra := ha.rows
  have hrb := hb.rows
  unfold integrateRadial
  rw [if_neg (by omega)]
  dsimp only
  have hd : (0 : ℝ) < wfDx := by unfold wfDx; norm_num
  have hle : ∀ u i v j : ℤ, wfGrid u i ≤ wfGrid v j ↔ 100 * u + i ≤ 100 * v + j := by
    intro u i v j
    rw [wfGrid_shift u v i]
    constructor
    · intro h
      by_contra hc
      have := wfGrid_mono v j (100 * (u - v) + i) (by omega)
      linarith
    · intro h
      rcases eq_or_lt_of_le (show 100 * (u - v) + i ≤ j by omega) with e | e
      · rw [e]
      · exact (wfGrid_mono v _ _ e).le
  -- the two bounds as raster positions
  set P := max (100 * xa) (100 * xb) with hP
  set Q := min (100 * xa + a.rows - 1) (100 * xb + b.rows - 1) with hQ
  have hpos : ∀ u p : ℤ, wfGrid u (p - 100 * u) = wfGrid 0 p := by
    intro u p; rw [wfGrid_shift 0 u p]; congr 1; ring
  have hmin : (if a.x 0 ≥ b.x 0 then a.x 0 else b.x 0) = wfGrid 0 P := by
    rw [ha.x, hb.x]
    split_ifs with h
    · have := (hle _ _ _ _).mp h
      rw [show P = 100 * xa by omega, ← hpos xa, sub_self]
    · have : ¬ (100 * xb + 0 ≤ 100 * xa + 0) := fun hh => h ((hle _ _ _ _).mpr hh)
      rw [show P = 100 * xb by omega, ← hpos xb, sub_self]
  have hmax : (if a.x (a.rows - 1) ≤ b.x (b.rows - 1) then a.x (a.rows - 1) else b.x (b.rows - 1)) = wfGrid 0 Q := by
    rw [ha.x, hb.x]
    split_ifs with h
    · have := (hle _ _ _ _).mp h
      rw [show Q = 100 * xa + a.rows - 1 by omega, ← hpos xa]; congr 1; ring
    · have : ¬ (100 * xa + (a.rows - 1) ≤ 100 * xb + (b.rows - 1)) := fun hh => h ((hle _ _ _ _).mpr hh)
      rw [show Q = 100 * xb + b.rows - 1 by omega, ← hpos xb]; congr 1; ring
  rw [hmin, hmax]
  by_cases hPQ : P ≤ Q
  · rw [if_pos ((hle 0 P 0 Q).mpr (by omega))]
    have f1 := find_raster ha (P - 100 * xa) (by omega) (by omega)
    have f2 := find_raster ha (Q - 100 * xa) (by omega) (by omega)
    have f3 := find_raster hb (P - 100 * xb) (by omega) (by omega)
    have f4 := find_raster hb (Q - 100 * xb) (by omega) (by omega)
    rw [hpos] at f1 f2 f3 f4
    rw [f1, f2, f3, f4]
    dsimp only
    rw [overlapLoop_eq _ _ _ _ _ _ _ _ _ (by omega) (by omega), zero_add]
    unfold rasterIntegral
    rw [← hP, ← hQ]
    congr 2
    refine Finset.sum_nbij' (fun i => i + 100 * xa) (fun p => p - 100 * xa) ?_ ?_ ?_ ?_ ?_
    · intro i hi; rw [Finset.mem_Ico] at *; omega
    · intro i hi; rw [Finset.mem_Ico] at *; omega
    · intro i _; ring
    · intro i _; ring
    · intro i _
      rw [ha.x, add_sub_cancel_right, show P - 100 * xb + (i - (P - 100 * xa)) = i + 100 * xa - 100 * xb by ring]
      have : wfGrid xa i = ((i + 100 * xa : ℤ) : ℝ) * wfDx := by unfold wfGrid wfDx; push_cast; ring
      rw [this]
  · rw [if_neg (fun h => hPQ (by have := (hle 0 P 0 Q).mp h; omega))]
    unfold rasterIntegral
    rw [← hP, ← hQ, Finset.Ico_eq_empty (by omega)]; simp

theorem raster_small (q : WfParams) (hn : 1 ≤ q.n) (hb : q.n ≤ 2 ^ 31) (xm : ℤ) (h1 : 1 ≤ xm) (i : ℤ)
    (h0 : 0 ≤ i) (hi : i < wfSteps q xm) : |wfGrid xm i| * machEps < wfDx := by
  have hi' : i ≤ wfSteps q xm - 1 := by omega
  have hir : (i : ℝ) * wfDx ≤ wfXmax q - xm := by
    have h2 : ((wfSteps q xm : ℤ) : ℝ) < (wfXmax q - xm) / wfDx + 1 := Int.ceil_lt_add_one _
    have h3 : (i : ℝ) ≤ ((wfSteps q xm : ℤ) : ℝ) - 1 := by exact_mod_cast hi'
    have h4 : (i : ℝ) ≤ (wfXmax q - xm) / wfDx := by linarith
    rwa [le_div_iff₀ (by unfold wfDx; norm_num)] at h4
  have hmax : wfXmax q ≤ 2 ^ 33 := by
    unfold wfXmax
    rw [Real.sqrt_le_left (by norm_num)]
    have a : (q.n : ℝ) ≤ 2 ^ 31 := by exact_mod_cast hb
    have b : (1 : ℝ) ≤ q.n := by exact_mod_cast hn
    nlinarith
  have hg : wfGrid xm i ≤ 2 ^ 33 := by unfold wfGrid; linarith
  have hg0 : 0 ≤ wfGrid xm i := by
    unfold wfGrid wfDx
    have a : (1 : ℝ) ≤ xm := by exact_mod_cast h1
    have b : (0 : ℝ) ≤ i := by exact_mod_cast h0
    linarith
  rw [abs_of_nonneg hg0]
  unfold machEps wfDx
  linarith

theorem numerov_raster (q : WfParams) (hn : 1 ≤ q.n) (hb : q.n ≤ 2 ^ 31) : OnRaster (numerov q) (numerovXmin q) := by
  have hs := wfSteps_ge q hn _ (numerovXmin_le q hn)
  exact ⟨rfl, by change 0 < wfSteps q _; omega,
    fun i h0 hi => raster_small q hn hb _ (numerovXmin_pos q) i h0 hi⟩

theorem whittaker_raster (f : WfParams → ℝ → ℝ) (q : WfParams) (hn : 1 ≤ q.n) (hb : q.n ≤ 2 ^ 31) :
    OnRaster (whittaker f q) 1 := by
  have hs := wfSteps_ge q hn 1 hn
  exact ⟨rfl, by change 0 < wfSteps q _; omega, fun i h0 hi => raster_small q hn hb _ le_rfl i h0 hi⟩

/-- **C52 (integrals).** For all pairs of states (n up to 2³¹, the range of `int`), all potential
parameters and all powers, with either method: the radial integral never fails, equals twice the sum
over the common grid points of y₁ y₂ x^k dx with k = 2κ + 2 (Numerov) or 2κ + 1 (Whittaker), and does not depend on
the order of the two states. -/
theorem C52_radial_symmetric (q1 q2 : WfParams) (h1 : 1 ≤ q1.n ∧ q1.n ≤ 2 ^ 31) (h2 : 1 ≤ q2.n ∧ q2.n ≤ 2 ^ 31)
    (f : WfParams → ℝ → ℝ) (power : ℤ) :
    integrateRadial (numerov q1) (numerov q2) (numerovKernel power)
      = .ok (rasterIntegral (numerov q1) (numerov q2) (numerovXmin q1) (numerovXmin q2) (2 * power + 2)) ∧
    integrateRadial (numerov q1) (numerov q2) (numerovKernel power)
      = integrateRadial (numerov q2) (numerov q1) (numerovKernel power) ∧
    integrateRadial (whittaker f q1) (whittaker f q2) (whittakerKernel power)
      = .ok (rasterIntegral (whittaker f q1) (whittaker f q2) 1 1 (2 * power + 1)) ∧
    integrateRadial (whittaker f q1) (whittaker f q2) (whittakerKernel power)
      = integrateRadial (whittaker f q2) (whittaker f q1) (whittakerKernel power) := by
  have a1 := numerov_raster q1 h1.1 h1.2
  have a2 := numerov_raster q2 h2.1 h2.2
  have b1 := whittaker_raster f q1 h1.1 h1.2
  have b2 := whittaker_raster f q2 h2.1 h2.2
  refine ⟨integrateRadial_eq _ _ _ _ _ a1 a2, ?_, integrateRadial_eq _ _ _ _ _ b1 b2, ?_⟩
  · rw [integrateRadial_eq _ _ _ _ _ a1 a2, integrateRadial_eq _ _ _ _ _ a2 a1, rasterIntegral_comm]
  · rw [integrateRadial_eq _ _ _ _ _ b1 b2, integrateRadial_eq _ _ _ _ _ b2 b1, rasterIntegral_comm]

/-- Two states to which the theorem applies. -/
example : (1 ≤ (60 : ℤ) ∧ (60 : ℤ) ≤ 2 ^ 31) ∧ (1 ≤ (61 : ℤ) ∧ (61 : ℤ) ≤ 2 ^ 31) := by decide

end PI
