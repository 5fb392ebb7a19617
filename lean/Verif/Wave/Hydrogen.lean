import Verif.Wave.SchroedingerThm
import Mathlib.Analysis.SpecialFunctions.Sqrt
import Mathlib.Topology.Order.Compact

/-! # C110: solutions of the Schrödinger equation are exact solutions of the tabulated equation; the hydrogen ground state -/

namespace PI

open Filter Topology

/-- **C110.** Every smooth solution u of the radial Schrödinger equation with the model potential gives, as X(x) = u(x²)/√x with its derivatives, an exact solution to which the error bounds apply. -/
theorem C110_exact (q : WfParams) (u u1 u2 : ℝ → ℝ) (hs : ContDiffOn ℝ 6 u (Set.Ioi 0)) (h1 : ∀ r, 0 < r → HasDerivAt u (u1 r) r)
    (h2 : ∀ r, 0 < r → HasDerivAt u1 (u2 r) r) (he : ∀ r, 0 < r → radialEq q (modelV q) u u2 r = 0) :
    ExactSolution q (fun k => iteratedDerivWithin k (scaledU u) (Set.Ioi 0)) ∧
      (∀ s, iteratedDerivWithin 0 (scaledU u) (Set.Ioi 0) s = scaledU u s) ∧
      ∀ a b, 0 < a → ∃ M, ∀ s, a ≤ s → s ≤ b → |iteratedDerivWithin 6 (scaledU u) (Set.Ioi 0) s| ≤ M := by
  have hF : ContDiffOn ℝ 6 (scaledU u) (Set.Ioi 0) := by
    have a : ContDiffOn ℝ 6 (fun x : ℝ => u (x ^ 2)) (Set.Ioi 0) :=
      hs.comp (t := Set.Ioi 0) (by fun_prop) (fun x hx => by have hx : 0 < x := hx; show 0 < x ^ 2; positivity)
    have b : ContDiffOn ℝ 6 (fun x : ℝ => Real.sqrt x) (Set.Ioi 0) :=
      contDiffOn_id.sqrt (fun x hx => by have hx : 0 < x := hx; exact hx.ne')
    exact a.div b (fun x hx => by have hx : 0 < x := hx; exact (Real.sqrt_pos.2 hx).ne')
  have hu : UniqueDiffOn ℝ (Set.Ioi (0 : ℝ)) := isOpen_Ioi.uniqueDiffOn
  refine ⟨⟨fun k hk s h => ?_, fun s h => ?_⟩, fun s => by simp, fun a b ha => ?_⟩
  · have d : DifferentiableOn ℝ (iteratedDerivWithin k (scaledU u) (Set.Ioi 0)) (Set.Ioi 0) :=
      hF.differentiableOn_iteratedDerivWithin (by exact_mod_cast hk) hu
    have d1 := ((d s h).differentiableAt (isOpen_Ioi.mem_nhds h)).hasDerivAt
    refine d1.congr_deriv ?_
    show _ = iteratedDerivWithin (k + 1) (scaledU u) (Set.Ioi 0) s
    rw [iteratedDerivWithin_succ, derivWithin_of_isOpen isOpen_Ioi h]
  · have e : iteratedDerivWithin 2 (scaledU u) (Set.Ioi 0) s = deriv (deriv (scaledU u)) s := by
      rw [iteratedDerivWithin_of_isOpen isOpen_Ioi h, iteratedDeriv_succ, iteratedDeriv_one]
    show iteratedDerivWithin 2 (scaledU u) (Set.Ioi 0) s = modelG q (s ^ 2) * iteratedDerivWithin 0 (scaledU u) (Set.Ioi 0) s
    rw [e, iteratedDerivWithin_zero, sq, (C110_equation q u u1 u2 h1 h2 s h).2 (he (s ^ 2) (by positivity))]
  · have c : ContinuousOn (iteratedDerivWithin 6 (scaledU u) (Set.Ioi 0)) (Set.Icc a b) :=
      (hF.continuousOn_iteratedDerivWithin le_rfl hu).mono fun x hx => lt_of_lt_of_le ha hx.1
    obtain ⟨M, hM⟩ := isCompact_Icc.exists_bound_of_continuousOn c
    exact ⟨M, fun s h1 h2 => hM s ⟨h1, h2⟩⟩

/-- Hydrogen 1S. -/
noncomputable def hydrogen1s : WfParams := ⟨1, 0, 1 / 2, 1 / 2, 1, 0, 1, 1, 0, 0, 1, -1 / 2⟩

theorem hydrogen1s_V (x : ℝ) : modelV hydrogen1s x = -1 / x := by
  unfold modelV hydrogen1s
  norm_num

theorem hydrogen1s_d1 (r : ℝ) : HasDerivAt (fun r : ℝ => 2 * r * Real.exp (-r)) (2 * (1 - r) * Real.exp (-r)) r := by
  have a : HasDerivAt (fun r : ℝ => Real.exp (-r)) (Real.exp (-r) * (-1)) r := (hasDerivAt_neg r).exp
  refine (((hasDerivAt_id r).const_mul 2).mul a).congr_deriv ?_
  simp only [id]
  ring

theorem hydrogen1s_d2 (r : ℝ) : HasDerivAt (fun r : ℝ => 2 * (1 - r) * Real.exp (-r)) (2 * (r - 2) * Real.exp (-r)) r := by
  have a : HasDerivAt (fun r : ℝ => Real.exp (-r)) (Real.exp (-r) * (-1)) r := (hasDerivAt_neg r).exp
  refine ((((hasDerivAt_id r).const_sub 1).const_mul 2).mul a).congr_deriv ?_
  simp only [id]
  ring

theorem hydrogen1s_eq (r : ℝ) (hr : 0 < r) :
    radialEq hydrogen1s (modelV hydrogen1s) (fun r => 2 * r * Real.exp (-r)) (fun r => 2 * (r - 2) * Real.exp (-r)) r = 0 := by
  unfold radialEq
  rw [hydrogen1s_V]
  unfold hydrogen1s
  push_cast
  field_simp
  ring

/-- The hypotheses of C110_equation, of C110_exact and of both error bounds are met by hydrogen 1S. -/
example : ∃ f : ℕ → ℝ → ℝ, ∃ M k : ℝ, ExactSolution hydrogen1s f ∧ 0 ≤ k ∧ (∀ x, 0 < x → f 0 x ≠ 0) ∧
    let w := numerov hydrogen1s
    (∀ s, w.x 0 ≤ s → s ≤ w.x (w.rows - 1) → |f 6 s| ≤ M) ∧
    (∀ i, 0 ≤ i → i < w.rows → 0 < numerovFactor hydrogen1s (w.x i) ∧ |modelG hydrogen1s (w.x i ^ 2)| ≤ k ^ 2 * numerovFactor hydrogen1s (w.x i)) := by
  have hs : ContDiffOn ℝ 6 (fun r : ℝ => 2 * r * Real.exp (-r)) (Set.Ioi 0) := by fun_prop
  obtain ⟨hX, h0, hM⟩ := C110_exact hydrogen1s _ _ _ hs (fun r _ => hydrogen1s_d1 r) (fun r _ => hydrogen1s_d2 r) hydrogen1s_eq
  have hn : 1 ≤ hydrogen1s.n := le_rfl
  have hx0 : 1 ≤ (numerov hydrogen1s).x 0 := (C52_numerov_normalised hydrogen1s hn).2.1
  obtain ⟨M, hM⟩ := hM ((numerov hydrogen1s).x 0) ((numerov hydrogen1s).x ((numerov hydrogen1s).rows - 1)) (by linarith)
  refine ⟨_, M, 12, hX, by norm_num, fun x hx => ?_, hM, fun i hi0 hi1 => ?_⟩
  · rw [h0]
    unfold scaledU
    have := Real.sqrt_pos.2 hx
    positivity
  · obtain ⟨-, -, hg⟩ := C110_grid (fun _ _ _ => 0) 1 hydrogen1s hn
    obtain ⟨-, -, hlast, -⟩ := hg _ (Or.inl rfl)
    have mono : ∀ a b : ℤ, a ≤ b → (numerov hydrogen1s).x a ≤ (numerov hydrogen1s).x b := by
      intro a b h
      rcases eq_or_lt_of_le h with e | e
      · rw [e]
      · exact (wfGrid_mono _ _ _ e).le
    have lo := mono 0 i hi0
    have hi := mono i ((numerov hydrogen1s).rows - 1) (by omega)
    have e32 : Real.sqrt (2 * (hydrogen1s.n : ℝ) * ((hydrogen1s.n : ℝ) + 15)) ≤ 6 := by
      refine Real.sqrt_le_iff.2 ⟨by norm_num, ?_⟩
      unfold hydrogen1s
      norm_num
    generalize (numerov hydrogen1s).x i = x at *
    have x1 : 1 ≤ x := by linarith
    have x6 : x ≤ 6 := by linarith
    have hG : modelG hydrogen1s (x ^ 2) = 3 / 4 / x ^ 2 - 8 + 4 * x ^ 2 := by
      unfold modelG
      rw [hydrogen1s_V]
      unfold hydrogen1s
      push_cast
      have : x ≠ 0 := by linarith
      field_simp
      ring
    have y1 : 1 ≤ x ^ 2 := by nlinarith
    have y2 : x ^ 2 ≤ 36 := by nlinarith
    have y3 : 0 ≤ 3 / 4 / x ^ 2 := by positivity
    have y4 : 3 / 4 / x ^ 2 ≤ 3 / 4 := by
      rw [div_le_iff₀ (by positivity)]; nlinarith
    unfold numerovFactor wfDx
    rw [hG]
    refine ⟨by nlinarith, ?_⟩
    rw [abs_le]
    constructor <;> nlinarith

end PI
