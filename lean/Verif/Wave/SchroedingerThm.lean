import Verif.Wave.NumerovError
import Verif.Wave.WhittakerThm
import Mathlib.Analysis.SpecialFunctions.Pow.Asymptotics

/-! # C110: the potential, the grid, the weights of the integrals, and hydrogen as an example -/

namespace PI

open Filter Topology

/-! ## The potential -/

theorem modelV_mul (q : WfParams) (x : ℝ) (hx : x ≠ 0) : x * modelV q x =
    -(1 + (q.Z - 1) * Real.exp (-q.a1 * x) - x * (q.a3 + q.a4 * x) * Real.exp (-q.a2 * x)) -
      q.ac / 2 * ((1 - Real.exp (-(x / q.rc) ^ 6)) / x ^ 3) +
      (if q.l < 4 then 7.2973525664e-3 * 7.2973525664e-3 / 4 * (q.j * (q.j + 1) - q.l * (q.l + 1) - q.s * (q.s + 1)) else 0) / x ^ 2 := by
  unfold modelV
  dsimp only
  split_ifs
  · field_simp
    ring
  · field_simp
    ring

/-- **C110.** Far from the nucleus the potential is that of a single charge: for all parameters with positive a1 and a2, r V(r) → −1. -/
theorem C110_potential_far (q : WfParams) (h1 : 0 < q.a1) (h2 : 0 < q.a2) : Tendsto (fun r => r * modelV q r) atTop (𝓝 (-1)) := by
  have t0 : Tendsto (fun r : ℝ => Real.exp (-q.a1 * r)) atTop (𝓝 0) := by
    have := tendsto_rpow_mul_exp_neg_mul_atTop_nhds_zero 0 q.a1 h1
    simpa using this
  have t1 : Tendsto (fun r : ℝ => r * Real.exp (-q.a2 * r)) atTop (𝓝 0) := by
    have := tendsto_rpow_mul_exp_neg_mul_atTop_nhds_zero 1 q.a2 h2
    simpa using this
  have t2 : Tendsto (fun r : ℝ => r ^ 2 * Real.exp (-q.a2 * r)) atTop (𝓝 0) := by
    have := tendsto_rpow_mul_exp_neg_mul_atTop_nhds_zero 2 q.a2 h2
    refine this.congr fun r => ?_
    norm_num
  have i2 : Tendsto (fun r : ℝ => (r ^ 2)⁻¹) atTop (𝓝 0) := (tendsto_pow_atTop (by norm_num)).inv_tendsto_atTop
  have i3 : Tendsto (fun r : ℝ => (r ^ 3)⁻¹) atTop (𝓝 0) := (tendsto_pow_atTop (by norm_num)).inv_tendsto_atTop
  have p : Tendsto (fun r : ℝ => (1 - Real.exp (-(r / q.rc) ^ 6)) / r ^ 3) atTop (𝓝 0) := by
    refine squeeze_zero_norm' ?_ i3
    filter_upwards [eventually_gt_atTop 0] with r hr
    have a : Real.exp (-(r / q.rc) ^ 6) ≤ 1 := by
      rw [Real.exp_le_one_iff]
      have : 0 ≤ (r / q.rc) ^ 6 := by positivity
      linarith
    have b := Real.exp_pos (-(r / q.rc) ^ 6)
    rw [Real.norm_eq_abs, abs_of_nonneg (div_nonneg (by linarith) (by positivity)), div_eq_mul_inv]
    have : 0 ≤ (r ^ 3)⁻¹ := by positivity
    nlinarith
  generalize hc : (if q.l < 4 then 7.2973525664e-3 * 7.2973525664e-3 / 4 * (q.j * (q.j + 1) - q.l * (q.l + 1) - q.s * (q.s + 1)) else (0 : ℝ)) = c
  have key : Tendsto (fun r : ℝ => -(1 + (q.Z - 1) * Real.exp (-q.a1 * r) - (q.a3 * (r * Real.exp (-q.a2 * r)) + q.a4 * (r ^ 2 * Real.exp (-q.a2 * r)))) -
      q.ac / 2 * ((1 - Real.exp (-(r / q.rc) ^ 6)) / r ^ 3) + c * (r ^ 2)⁻¹) atTop
      (𝓝 (-(1 + (q.Z - 1) * 0 - (q.a3 * 0 + q.a4 * 0)) - q.ac / 2 * 0 + c * 0)) :=
    ((((t0.const_mul (q.Z - 1)).const_add 1).sub ((t1.const_mul q.a3).add (t2.const_mul q.a4))).neg.sub (p.const_mul (q.ac / 2))).add (i2.const_mul c)
  have e : -(1 + (q.Z - 1) * 0 - (q.a3 * 0 + q.a4 * 0)) - q.ac / 2 * 0 + c * 0 = (-1 : ℝ) := by ring
  rw [e] at key
  refine key.congr' ?_
  filter_upwards [eventually_gt_atTop 0] with r hr
  rw [modelV_mul q r hr.ne', hc]
  ring

/-- **C110.** At the nucleus the potential is that of the nuclear charge: for all parameters with l ≥ 4 (no spin-orbit term), r V(r) → −Z as r → 0. -/
theorem C110_potential_near (q : WfParams) (hl : 4 ≤ q.l) : Tendsto (fun r => r * modelV q r) (𝓝[>] 0) (𝓝 (-q.Z)) := by
  have p : Tendsto (fun r : ℝ => (1 - Real.exp (-(r / q.rc) ^ 6)) / r ^ 3) (𝓝[>] 0) (𝓝 0) := by
    have i : Tendsto (fun r : ℝ => r ^ 3 * (q.rc⁻¹) ^ 6) (𝓝[>] 0) (𝓝 0) := by
      have : Tendsto (fun r : ℝ => r ^ 3 * (q.rc⁻¹) ^ 6) (𝓝 0) (𝓝 (0 ^ 3 * (q.rc⁻¹) ^ 6)) := Continuous.tendsto (by fun_prop) 0
      simp only [ne_eq, OfNat.ofNat_ne_zero, not_false_eq_true, zero_pow, zero_mul] at this
      exact this.mono_left nhdsWithin_le_nhds
    refine squeeze_zero_norm' ?_ i
    filter_upwards [self_mem_nhdsWithin] with r hr
    have hr : 0 < r := hr
    have y0 : 0 ≤ (r / q.rc) ^ 6 := by positivity
    have a : Real.exp (-(r / q.rc) ^ 6) ≤ 1 := by rw [Real.exp_le_one_iff]; linarith
    have b := Real.add_one_le_exp (-(r / q.rc) ^ 6)
    rw [Real.norm_eq_abs, abs_of_nonneg (div_nonneg (by linarith) (by positivity)), div_le_iff₀ (by positivity)]
    have : (r / q.rc) ^ 6 = r ^ 3 * (q.rc⁻¹) ^ 6 * r ^ 3 := by rw [div_eq_mul_inv, mul_pow]; ring
    linarith
  have c : Tendsto (fun r : ℝ => -(1 + (q.Z - 1) * Real.exp (-q.a1 * r) - r * (q.a3 + q.a4 * r) * Real.exp (-q.a2 * r))) (𝓝[>] 0) (𝓝 (-q.Z)) := by
    have : Tendsto (fun r : ℝ => -(1 + (q.Z - 1) * Real.exp (-q.a1 * r) - r * (q.a3 + q.a4 * r) * Real.exp (-q.a2 * r))) (𝓝 0)
        (𝓝 (-(1 + (q.Z - 1) * Real.exp (-q.a1 * 0) - 0 * (q.a3 + q.a4 * 0) * Real.exp (-q.a2 * 0)))) := Continuous.tendsto (by fun_prop) 0
    have e : -(1 + (q.Z - 1) * Real.exp (-q.a1 * 0) - 0 * (q.a3 + q.a4 * 0) * Real.exp (-q.a2 * 0)) = -q.Z := by simp
    rw [e] at this
    exact this.mono_left nhdsWithin_le_nhds
  have key := c.sub (p.const_mul (q.ac / 2))
  rw [mul_zero, sub_zero] at key
  refine key.congr' ?_
  filter_upwards [self_mem_nhdsWithin] with r hr
  have hr : 0 < r := hr
  rw [modelV_mul q r hr.ne', if_neg (by omega), zero_div, add_zero]

/-- **C110.** Spin-orbit coupling: for l < 4 the potential contains α²/4 r⁻³ (j(j+1) − l(l+1) − s(s+1)) in addition to a part that does not depend on j and s; for l ≥ 4 it does not depend on them. -/
theorem C110_spin_orbit (q : WfParams) (j s : ℝ) (x : ℝ) (hx : x ≠ 0) :
    modelV q x - modelV { q with j := j, s := s } x =
      if q.l < 4 then (7.2973525664e-3) ^ 2 / (4 * x ^ 3) * ((q.j * (q.j + 1) - q.s * (q.s + 1)) - (j * (j + 1) - s * (s + 1))) else 0 := by
  unfold modelV
  dsimp only
  split_ifs
  · field_simp
    ring
  · ring

/-- Rubidium-like parameters meet the hypotheses. -/
example : let q : WfParams := ⟨60, 4, 9 / 2, 1 / 2, 37, 9.0760, 3.69628474, 1.64915255, -9.86069196, 0.19579987, 1.66242117, -1 / 7000⟩
    0 < q.a1 ∧ 0 < q.a2 ∧ 4 ≤ q.l := by norm_num

/-! ## The grid -/

/-- **C110.** The grid of both methods, for every state with n ≥ 1: it starts at the given inner bound, has the spacing 0.01 and ends in the last step before the outer bound √(2n(n+15)), so
it reaches beyond the classical turning point r = 2n². -/
theorem C110_grid (U : ℝ → ℝ → ℝ → ℝ) (nu : ℝ) (q : WfParams) (hn : 1 ≤ q.n) :
    let xm := Real.sqrt (2 * q.n * (q.n + 15))
    let r := (q.n : ℝ) ^ 2 - q.n * Real.sqrt ((q.n : ℝ) ^ 2 - ((q.l : ℝ) - 1) ^ 2)
    (numerov q).x 0 = ⌊Real.sqrt (max 2.08 r)⌋ ∧ (whittakerTable U nu q).x 0 = 1 ∧
    ∀ w, w = numerov q ∨ w = whittakerTable U nu q →
      (∀ i, w.x (i + 1) - w.x i = 0.01) ∧ xm - 0.01 ≤ w.x (w.rows - 1) ∧ w.x (w.rows - 1) < xm ∧ 2 * (q.n : ℝ) ^ 2 < w.x (w.rows - 1) ^ 2 := by
  intro xm r
  have hn' : (1 : ℝ) ≤ q.n := by exact_mod_cast hn
  refine ⟨?_, ?_, ?_⟩
  · show ((numerovXmin q : ℤ) : ℝ) + ((0 : ℤ) : ℝ) * wfDx = _
    rw [Int.cast_zero, zero_mul, add_zero]
    unfold numerovXmin
    have e : (q.n : ℝ) * q.n - q.n * Real.sqrt (q.n * q.n - (q.l - 1) * (q.l - 1)) = r := by
      show _ = (q.n : ℝ) ^ 2 - q.n * Real.sqrt ((q.n : ℝ) ^ 2 - ((q.l : ℝ) - 1) ^ 2)
      rw [sq, sq]
    dsimp only
    rw [e]
    by_cases h : r < 2.08
    · rw [if_pos h, max_eq_left h.le]
    · rw [if_neg h, max_eq_right (not_lt.1 h)]
  · show ((1 : ℤ) : ℝ) + ((0 : ℤ) : ℝ) * wfDx = 1
    simp
  · have main : ∀ m : ℤ, ∀ w : Wf, w.x = wfGrid m → w.rows = wfSteps q m →
        (∀ i, w.x (i + 1) - w.x i = 0.01) ∧ xm - 0.01 ≤ w.x (w.rows - 1) ∧ w.x (w.rows - 1) < xm ∧ 2 * (q.n : ℝ) ^ 2 < w.x (w.rows - 1) ^ 2 := by
      intro m w hx hr
      rw [hx, hr]
      have hxm : wfXmax q = xm := rfl
      have c1 : (xm - m) / wfDx ≤ (wfSteps q m : ℝ) := by rw [← hxm]; exact Int.le_ceil _
      have c2 : (wfSteps q m : ℝ) < (xm - m) / wfDx + 1 := by rw [← hxm]; exact Int.ceil_lt_add_one _
      unfold wfDx at c1 c2
      have last : wfGrid m (wfSteps q m - 1) = m + (wfSteps q m - 1) / 100 := by unfold wfGrid wfDx; push_cast; ring
      have lo : xm - 0.01 ≤ wfGrid m (wfSteps q m - 1) := by rw [last]; norm_num at c1 c2 ⊢; linarith
      have hi : wfGrid m (wfSteps q m - 1) < xm := by rw [last]; norm_num at c1 c2 ⊢; linarith
      refine ⟨fun i => ?_, lo, hi, ?_⟩
      · unfold wfGrid wfDx; push_cast; ring
      · have s1 : xm ^ 2 = 2 * q.n * (q.n + 15) := Real.sq_sqrt (by positivity)
        have s2 : (q.n : ℝ) < xm := by
          refine Real.lt_sqrt_of_sq_lt ?_
          nlinarith
        have s3 : xm ≤ 6 * q.n := by
          refine Real.sqrt_le_iff.2 ⟨by positivity, ?_⟩
          nlinarith
        nlinarith
    intro w hw
    rcases hw with rfl | rfl
    · exact main _ _ rfl rfl
    · exact main _ _ rfl rfl

/-! ## The weights of the integrals -/

/-- **C110.** The weights of the radial integrals belong to the tabulated functions: if the tables hold the samples of u₁ and u₂ in the scaling of either method, the radial integral of power p is the sum
of u₁(r) u₂(r) r^p dr/dx dx over the common points except the last, with r = x². -/
theorem C110_weights (a b : Wf) (xa xb : ℤ) (ha : OnRaster a xa) (hb : OnRaster b xb) (h1 : 1 ≤ xa) (u1 u2 : ℝ → ℝ) (p : ℤ) :
    let S := ∑ m ∈ Finset.Ico (max (100 * xa) (100 * xb)) (min (100 * xa + a.rows - 1) (100 * xb + b.rows - 1)),
      let x : ℝ := (m : ℝ) / 100
      u1 (x ^ 2) * u2 (x ^ 2) * (x ^ 2) ^ p * (2 * x) * (1 / 100)
    ((∀ i, 0 ≤ i → a.y i = scaledU u1 (a.x i)) → (∀ i, 0 ≤ i → b.y i = scaledU u2 (b.x i)) → integrateRadial a b (numerovKernel p) = .ok S) ∧
    ((∀ i, 0 ≤ i → a.y i = u1 (a.x i ^ 2)) → (∀ i, 0 ≤ i → b.y i = u2 (b.x i ^ 2)) → integrateRadial a b (whittakerKernel p) = .ok S) := by
  intro S
  have hx : ∀ (w : Wf) (xw : ℤ) (m : ℤ), OnRaster w xw → w.x (m - 100 * xw) = (m : ℝ) / 100 := by
    intro w xw m h
    rw [h.x]; unfold wfGrid wfDx; push_cast; ring
  have hS : S = 2 * ∑ m ∈ Finset.Ico (max (100 * xa) (100 * xb)) (min (100 * xa + a.rows - 1) (100 * xb + b.rows - 1)),
      u1 (((m : ℝ) / 100) ^ 2) * u2 (((m : ℝ) / 100) ^ 2) * (((m : ℝ) / 100) ^ 2) ^ p * ((m : ℝ) / 100) * (1 / 100) := by
    rw [Finset.mul_sum]
    exact Finset.sum_congr rfl fun m _ => by ring
  constructor
  · intro hya hyb
    rw [integrateRadial_eq a b xa xb _ ha hb]
    congr 1
    rw [hS]
    unfold rasterIntegral
    congr 1
    refine Finset.sum_congr rfl fun m hm => ?_
    rw [Finset.mem_Ico] at hm
    rw [hya _ (by omega), hyb _ (by omega), hx a xa m ha, hx b xb m hb]
    have hm0 : (0 : ℝ) < (m : ℝ) / 100 := by
      have : (0 : ℝ) < m := by exact_mod_cast (by omega : (0 : ℤ) < m)
      positivity
    have e : (m : ℝ) * wfDx = (m : ℝ) / 100 := by unfold wfDx; ring
    rw [e]
    generalize (m : ℝ) / 100 = x at hm0
    unfold scaledU numerovKernel wfDx
    have e1 : x ^ (2 * p + 2) = (x ^ 2) ^ p * x ^ 2 := by
      rw [zpow_add₀ hm0.ne', zpow_mul]; norm_cast
    have e2 : u1 (x ^ 2) / Real.sqrt x * (u2 (x ^ 2) / Real.sqrt x) = u1 (x ^ 2) * u2 (x ^ 2) / x := by
      rw [div_mul_div_comm, Real.mul_self_sqrt hm0.le]
    rw [e1, e2]
    field_simp
  · intro hya hyb
    rw [integrateRadial_eq a b xa xb _ ha hb]
    congr 1
    rw [hS]
    unfold rasterIntegral
    congr 1
    refine Finset.sum_congr rfl fun m hm => ?_
    rw [Finset.mem_Ico] at hm
    rw [hya _ (by omega), hyb _ (by omega), hx a xa m ha, hx b xb m hb]
    have hm0 : (0 : ℝ) < (m : ℝ) / 100 := by
      have : (0 : ℝ) < m := by exact_mod_cast (by omega : (0 : ℤ) < m)
      positivity
    have e : (m : ℝ) * wfDx = (m : ℝ) / 100 := by unfold wfDx; ring
    rw [e]
    generalize (m : ℝ) / 100 = x at hm0
    unfold whittakerKernel wfDx
    have e1 : x ^ (2 * p + 1) = (x ^ 2) ^ p * x := by
      rw [zpow_add₀ hm0.ne', zpow_mul, zpow_one]; norm_cast
    rw [e1]
    ring

/-- Tables that meet the hypotheses: the hydrogen ground state sampled on 200 points. -/
example : OnRaster ⟨200, wfGrid 1, fun i => scaledU (fun r => 2 * r * Real.exp (-r)) (wfGrid 1 i)⟩ 1 := by
  refine ⟨rfl, by norm_num, fun i h0 h1 => ?_⟩
  have a : (0 : ℝ) ≤ i := by exact_mod_cast h0
  have b : (i : ℝ) < 200 := by exact_mod_cast h1
  have c : 0 ≤ wfGrid 1 i := by unfold wfGrid wfDx; push_cast; linarith
  rw [abs_of_nonneg c]
  unfold wfGrid machEps wfDx
  push_cast
  linarith

end PI
