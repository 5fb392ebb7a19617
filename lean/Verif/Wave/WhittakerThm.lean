import Verif.Wave.WhittakerModel
import Verif.Wave.Schroedinger
import Mathlib.Analysis.SpecialFunctions.Pow.Deriv
import Mathlib.Analysis.SpecialFunctions.ExpDeriv
import Mathlib.Analysis.SpecialFunctions.Gamma.Basic

/-! # C110: the Whittaker functions solve the radial Schrödinger equation of the Coulomb potential -/

namespace PI

open Filter Topology

/-- Specification: U(a, b, ·) solves Kummer's equation z U'' + (b − z) U' − a U = 0 on the positive axis; U1 and U2 are its derivatives. -/
structure Kummer (a b : ℝ) (U U1 U2 : ℝ → ℝ) : Prop where
  d1 : ∀ z, 0 < z → HasDerivAt U (U1 z) z
  d2 : ∀ z, 0 < z → HasDerivAt U1 (U2 z) z
  eq : ∀ z, 0 < z → z * U2 z + (b - z) * U1 z - a * U z = 0

/-- The derivative of e^(−z/2) z^c F. -/
theorem weight_deriv (c : ℝ) (F F1 : ℝ → ℝ) (z : ℝ) (hz : 0 < z) (h : HasDerivAt F (F1 z) z) :
    HasDerivAt (fun z => Real.exp (-0.5 * z) * z ^ c * F z) (Real.exp (-0.5 * z) * z ^ c * ((-0.5 + c / z) * F z + F1 z)) z := by
  have e1 : HasDerivAt (fun z : ℝ => Real.exp (-0.5 * z)) (Real.exp (-0.5 * z) * (-0.5 * 1)) z := ((hasDerivAt_id z).const_mul (-0.5)).exp
  have e2 : HasDerivAt (fun z : ℝ => z ^ c) (c * z ^ (c - 1)) z := Real.hasDerivAt_rpow_const (Or.inl hz.ne')
  refine ((e1.mul e2).mul h).congr_deriv ?_
  rw [Real.rpow_sub_one hz.ne']
  simp only [Pi.mul_apply]
  field_simp

/-- Whittaker's equation. -/
theorem whittaker_eq (c nu : ℝ) (U U1 U2 : ℝ → ℝ) (hU : Kummer (c - nu) (2 * c) U U1 U2) (z : ℝ) (hz : 0 < z) :
    deriv (deriv fun z => Real.exp (-0.5 * z) * z ^ c * U z) z = (1 / 4 - nu / z + c * (c - 1) / z ^ 2) * (Real.exp (-0.5 * z) * z ^ c * U z) := by
  have ev : deriv (fun z => Real.exp (-0.5 * z) * z ^ c * U z) =ᶠ[𝓝 z] fun z => Real.exp (-0.5 * z) * z ^ c * ((-0.5 + c / z) * U z + U1 z) := by
    filter_upwards [lt_mem_nhds hz] with y hy
    exact (weight_deriv c U U1 y hy (hU.d1 y hy)).deriv
  rw [ev.deriv_eq]
  have hF : HasDerivAt (fun z => (-0.5 + c / z) * U z + U1 z) (-(c / z ^ 2) * U z + (-0.5 + c / z) * U1 z + U2 z) z := by
    have h0 : HasDerivAt (fun z : ℝ => -0.5 + c / z) (-(c / z ^ 2)) z := by
      have := ((hasDerivAt_inv hz.ne').const_mul c).const_add (-0.5)
      refine (this.congr_deriv ?_).congr_of_eventuallyEq (Eventually.of_forall fun y => ?_)
      · rw [div_eq_mul_inv]; ring
      · show -0.5 + c / y = -0.5 + c * y⁻¹; rw [div_eq_mul_inv]
    exact (h0.mul (hU.d1 z hz)).add (hU.d2 z hz)
  rw [(weight_deriv c _ (fun z => -(c / z ^ 2) * U z + (-0.5 + c / z) * U1 z + U2 z) z hz hF).deriv]
  have hk := hU.eq z hz
  have e : U2 z = (-(2 * c - z) * U1 z + (c - nu) * U z) / z := by field_simp; linarith
  rw [e]
  field_simp
  ring

/-- Specification: the left-hand side of the radial Schrödinger equation with the potential −1/r and the energy −1/(2 ν²). -/
noncomputable def coulombEq (nu : ℝ) (l : ℤ) (u : ℝ → ℝ) (r : ℝ) : ℝ :=
  -(deriv (deriv u) r) / 2 + ((l : ℝ) * (l + 1) / (2 * r ^ 2) - 1 / r + 1 / (2 * nu ^ 2)) * u r

/-- The radial function as a multiple of the function of `whittaker_eq`. -/
theorem radialWhittaker_eq (U : ℝ → ℝ → ℝ → ℝ) (nu : ℝ) (l : ℤ) (r : ℝ) :
    radialWhittaker U r nu l = 1 / Real.sqrt (nu * nu * Real.Gamma (nu + l + 1) * Real.Gamma (nu - l)) *
      (fun z => Real.exp (-0.5 * z) * z ^ ((l : ℝ) + 1) * U ((l : ℝ) + 1 - nu) (2 * ((l : ℝ) + 1)) z) (2 / nu * r) := by
  unfold radialWhittaker whittakerW
  have e1 : (l : ℝ) + 0.5 + 0.5 = l + 1 := by norm_num [add_assoc]
  have e2 : (l : ℝ) + 0.5 - nu + 0.5 = l + 1 - nu := by ring_nf
  have e3 : 1 + 2 * ((l : ℝ) + 0.5) = 2 * (l + 1) := by ring_nf
  have e4 : 2 * r / nu = 2 / nu * r := by ring
  rw [e1, e2, e3, e4]

/-- **C110.** The function that the Whittaker method tabulates solves the radial Schrödinger equation of the Coulomb potential with the energy −1/(2 ν²), for every ν > 0 and every l,
whenever the hypergeometric function solves Kummer's equation. -/
theorem C110_whittaker (U : ℝ → ℝ → ℝ → ℝ) (nu : ℝ) (hnu : 0 < nu) (l : ℤ) (U1 U2 : ℝ → ℝ)
    (hU : Kummer ((l : ℝ) + 1 - nu) (2 * ((l : ℝ) + 1)) (U ((l : ℝ) + 1 - nu) (2 * ((l : ℝ) + 1))) U1 U2) (r : ℝ) (hr : 0 < r) :
    coulombEq nu l (fun r => radialWhittaker U r nu l) r = 0 := by
  have e : (fun r => radialWhittaker U r nu l) = fun r => 1 / Real.sqrt (nu * nu * Real.Gamma (nu + l + 1) * Real.Gamma (nu - l)) *
      (fun z => Real.exp (-0.5 * z) * z ^ ((l : ℝ) + 1) * U ((l : ℝ) + 1 - nu) (2 * ((l : ℝ) + 1)) z) (2 / nu * r) := by
    funext r; exact radialWhittaker_eq U nu l r
  unfold coulombEq
  rw [e]
  generalize 1 / Real.sqrt (nu * nu * Real.Gamma (nu + l + 1) * Real.Gamma (nu - l)) = N
  set F := fun z => Real.exp (-0.5 * z) * z ^ ((l : ℝ) + 1) * U ((l : ℝ) + 1 - nu) (2 * ((l : ℝ) + 1)) z with hF
  have d1 : deriv (fun r => N * F (2 / nu * r)) = fun r => N * (2 / nu * deriv F (2 / nu * r)) := by
    funext r
    rw [deriv_const_mul_field, deriv_comp_mul_left (2 / nu) F r]
    rfl
  have d2 : deriv (fun r => N * (2 / nu * deriv F (2 / nu * r))) r = N * (2 / nu * (2 / nu * deriv (deriv F) (2 / nu * r))) := by
    rw [deriv_const_mul_field, deriv_const_mul_field, deriv_comp_mul_left (2 / nu) (deriv F) r]
    rfl
  rw [d1, d2]
  have hz : 0 < 2 / nu * r := by positivity
  have w := whittaker_eq ((l : ℝ) + 1) nu _ U1 U2 hU (2 / nu * r) hz
  rw [← hF] at w
  rw [w]
  have hw : Real.exp (-0.5 * (2 / nu * r)) * (2 / nu * r) ^ ((l : ℝ) + 1) * U ((l : ℝ) + 1 - nu) (2 * ((l : ℝ) + 1)) (2 / nu * r) = F (2 / nu * r) := rfl
  rw [hw]
  dsimp only
  generalize F (2 / nu * r) = y
  field_simp
  ring

/-- The circular states (n = l + 1, where U(0, b, z) = 1) meet the hypotheses. -/
example (l : ℤ) : Kummer ((l : ℝ) + 1 - (l + 1)) (2 * ((l : ℝ) + 1)) (fun _ => 1) (fun _ => 0) (fun _ => 0) :=
  ⟨fun z _ => hasDerivAt_const z 1, fun z _ => hasDerivAt_const z 0, fun z _ => by ring⟩

/-- **C110.** The normalisation factor: for every circular state (n = l + 1, l ≥ 0, where the hypergeometric function is 1) the tabulated function is normalised, ∫ u² dr = 1. -/
theorem C110_whittaker_normalised (U : ℝ → ℝ → ℝ → ℝ) (l : ℤ) (hl : 0 ≤ l) (hU : ∀ b z, 0 < z → U 0 b z = 1) :
    ∫ r in Set.Ioi (0 : ℝ), radialWhittaker U r (l + 1) l ^ 2 = 1 := by
  have hl' : (0 : ℝ) ≤ l := by exact_mod_cast hl
  obtain ⟨n, hn⟩ : ∃ n : ℝ, n = l + 1 := ⟨_, rfl⟩
  have hn0 : 0 < n := by rw [hn]; linarith
  have e : ∀ r ∈ Set.Ioi (0 : ℝ), radialWhittaker U r (l + 1) l ^ 2 =
      1 / (n * n * Real.Gamma (2 * n)) * (2 / n) ^ (2 * n) * (r ^ (2 * n + 1 - 1) * Real.exp (-(2 / n * r))) := by
    intro r hr
    have hr : 0 < r := hr
    have hz : 0 < 2 / n * r := by positivity
    rw [radialWhittaker_eq, ← hn]
    dsimp only
    rw [sub_self, hU _ _ hz, mul_one]
    have g1 : n + (l : ℝ) + 1 = 2 * n := by rw [hn]; ring
    have g2 : n - (l : ℝ) = 1 := by rw [hn]; ring
    rw [g1, g2, Real.Gamma_one, mul_one]
    have hG : 0 < Real.Gamma (2 * n) := Real.Gamma_pos_of_pos (by positivity)
    rw [mul_pow, div_pow, one_pow, Real.sq_sqrt (by positivity), mul_pow, ← Real.exp_nat_mul, ← Real.rpow_natCast, ← Real.rpow_mul hz.le,
      Real.mul_rpow (by positivity) hr.le, add_sub_cancel_right]
    have e1 : n * ((2 : ℕ) : ℝ) = 2 * n := by push_cast; ring
    have e2 : ((2 : ℕ) : ℝ) * (-0.5 * (2 / n * r)) = -(2 / n * r) := by push_cast; ring
    rw [e1, e2]
    ring
  rw [MeasureTheory.setIntegral_congr_fun measurableSet_Ioi e, MeasureTheory.integral_const_mul,
    Real.integral_rpow_mul_exp_neg_mul_Ioi (by positivity) (by positivity), Real.Gamma_add_one (by positivity)]
  have hG : 0 < Real.Gamma (2 * n) := Real.Gamma_pos_of_pos (by positivity)
  have e3 : (1 / (2 / n)) ^ (2 * n + 1) = ((2 / n) ^ (2 * n))⁻¹ * (n / 2) := by
    rw [Real.rpow_add_one (by positivity), one_div, Real.inv_rpow (by positivity), inv_div]
  rw [e3]
  have hp : 0 < (2 / n) ^ (2 * n) := by positivity
  field_simp

/-- The hypothesis is met by a function that differs from 1 elsewhere. -/
example : ∀ b z : ℝ, 0 < z → (fun a _ z => Real.exp (a * z) : ℝ → ℝ → ℝ → ℝ) 0 b z = 1 := by intro b z _; simp

/-- **C110.** Both methods tabulate the same sign at the outer end: if the function is positive there, the Whittaker table at the last but one point has the sign of the Numerov table, and
its values are the function of r = x² up to that sign. -/
theorem C110_same_phase (U : ℝ → ℝ → ℝ → ℝ) (nu : ℝ) (q : WfParams) (hn : 1 ≤ q.n) :
    let a := numerov q
    let b := whittakerTable U nu q
    (∀ i, |b.y i| = |radialWhittaker U (b.x i ^ 2) nu q.l|) ∧ b.rows - 2 ≥ 0 ∧
    (0 < radialWhittaker U (b.x (b.rows - 2) ^ 2) nu q.l → 0 < a.y (a.rows - 2) * b.y (b.rows - 2)) := by
  intro a b
  have hy : ∀ i, b.y i = (if (q.n - q.l).tmod 2 = 0 then -1 else 1) * radialWhittaker U (b.x i ^ 2) nu q.l := by
    intro i
    show (if (q.n - q.l).tmod 2 = 0 then -1 else 1) * radialWhittaker U (wfGrid 1 i * wfGrid 1 i) nu q.l = _
    rw [← sq]; rfl
  obtain ⟨-, -, -, -, he, ho, -⟩ := C52_numerov_normalised q hn
  refine ⟨fun i => ?_, ?_, fun hp => ?_⟩
  · rw [hy i]
    split_ifs <;> simp
  · have := wfSteps_ge q hn 1 hn
    show wfSteps q 1 - 2 ≥ 0
    omega
  · rw [hy]
    rcases Int.even_or_odd (q.n - q.l) with h | h
    · rw [if_pos (Int.tmod_eq_zero_of_dvd h.two_dvd)]
      have : a.y (a.rows - 2) < 0 := he h
      nlinarith
    · rw [if_neg (fun hh => by have := Int.dvd_of_tmod_eq_zero hh; obtain ⟨k, hk⟩ := h; omega)]
      have : 0 < a.y (a.rows - 2) := ho h
      nlinarith

/-- Positivity at the outer end holds for a circular state. -/
example (x : ℝ) (hx : 0 < x) : 0 < radialWhittaker (fun _ _ _ => 1) (x ^ 2) 3 2 := by
  rw [radialWhittaker_eq]
  have g2 : (3 : ℝ) - ((2 : ℤ) : ℝ) = 1 := by norm_num
  have g1 : 0 < Real.Gamma (3 + ((2 : ℤ) : ℝ) + 1) := Real.Gamma_pos_of_pos (by norm_num)
  rw [g2, Real.Gamma_one]
  have : 0 < 2 / 3 * x ^ 2 := by positivity
  have h : 0 < (2 / 3 * x ^ 2) ^ ((((2 : ℤ) : ℝ)) + 1) := Real.rpow_pos_of_pos this _
  dsimp only
  positivity

end PI
