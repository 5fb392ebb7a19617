import Verif.Wave.Props
import Mathlib.Analysis.SpecialFunctions.Sqrt
import Mathlib.Analysis.SpecialFunctions.Exp
import Mathlib.Analysis.Calculus.MeanValue
import Mathlib.Analysis.Calculus.Deriv.Inv
import Mathlib.Tactic.LinearCombination

/-!
# C110: Numerov's method integrates the radial Schrödinger equation

In atomic units the radial function u(r) = r R(r) satisfies −u''/2 + (l (l + 1) / (2 r²) + V(r) − E) u = 0. The program tabulates X(x) = u(x²) / √x.
-/

namespace PI

open Filter Topology

/-! ## The equation -/

/-- Specification: the left-hand side of the radial Schrödinger equation. -/
noncomputable def radialEq (q : WfParams) (V : ℝ → ℝ) (u u2 : ℝ → ℝ) (r : ℝ) : ℝ :=
  -(u2 r) / 2 + ((q.l : ℝ) * (q.l + 1) / (2 * r ^ 2) + V r - q.energy) * u r

/-- Specification: the scaled function of x = √r. -/
noncomputable def scaledU (u : ℝ → ℝ) (x : ℝ) : ℝ := u (x ^ 2) / Real.sqrt x

theorem scaledU_deriv (u u1 : ℝ → ℝ) (h1 : ∀ r, 0 < r → HasDerivAt u (u1 r) r) (x : ℝ) (hx : 0 < x) :
    HasDerivAt (scaledU u) (2 * Real.sqrt x * u1 (x ^ 2) - u (x ^ 2) / (2 * x * Real.sqrt x)) x := by
  have hs : 0 < Real.sqrt x := Real.sqrt_pos.2 hx
  have hsq : Real.sqrt x * Real.sqrt x = x := Real.mul_self_sqrt hx.le
  have e2 : HasDerivAt (fun x : ℝ => x ^ 2) (2 * x) x := by simpa using hasDerivAt_pow 2 x
  have eu : HasDerivAt (fun x : ℝ => u (x ^ 2)) (u1 (x ^ 2) * (2 * x)) x := (h1 (x ^ 2) (by positivity)).comp x e2
  have es : HasDerivAt (fun x : ℝ => Real.sqrt x) (1 / (2 * Real.sqrt x)) x := Real.hasDerivAt_sqrt hx.ne'
  have := eu.div es hs.ne'
  refine this.congr_deriv ?_
  have hx' : x = Real.sqrt x ^ 2 := by rw [sq, hsq]
  generalize Real.sqrt x = s at *
  generalize u1 (x ^ 2) = b
  generalize u (x ^ 2) = a
  subst hx'
  field_simp

theorem scaledU_deriv2 (u u1 u2 : ℝ → ℝ) (h1 : ∀ r, 0 < r → HasDerivAt u (u1 r) r) (h2 : ∀ r, 0 < r → HasDerivAt u1 (u2 r) r) (x : ℝ) (hx : 0 < x) :
    deriv (deriv (scaledU u)) x = 4 * x ^ 2 * (u2 (x ^ 2) / Real.sqrt x) + 3 / (4 * x ^ 2) * scaledU u x := by
  have hs : 0 < Real.sqrt x := Real.sqrt_pos.2 hx
  have hsq : Real.sqrt x * Real.sqrt x = x := Real.mul_self_sqrt hx.le
  have ev : deriv (scaledU u) =ᶠ[𝓝 x] fun x => 2 * Real.sqrt x * u1 (x ^ 2) - u (x ^ 2) / (2 * x * Real.sqrt x) := by
    filter_upwards [lt_mem_nhds hx] with y hy
    exact (scaledU_deriv u u1 h1 y hy).deriv
  rw [ev.deriv_eq]
  have e2 : HasDerivAt (fun x : ℝ => x ^ 2) (2 * x) x := by simpa using hasDerivAt_pow 2 x
  have eu : HasDerivAt (fun x : ℝ => u (x ^ 2)) (u1 (x ^ 2) * (2 * x)) x := (h1 (x ^ 2) (by positivity)).comp x e2
  have eu1 : HasDerivAt (fun x : ℝ => u1 (x ^ 2)) (u2 (x ^ 2) * (2 * x)) x := (h2 (x ^ 2) (by positivity)).comp x e2
  have es : HasDerivAt (fun x : ℝ => Real.sqrt x) (1 / (2 * Real.sqrt x)) x := Real.hasDerivAt_sqrt hx.ne'
  have eid : HasDerivAt (fun x : ℝ => x) 1 x := hasDerivAt_id x
  have d := ((es.const_mul 2).mul eu1).sub (eu.div ((eid.const_mul 2).mul es) (by show 2 * x * Real.sqrt x ≠ 0; positivity))
  have d' : HasDerivAt (fun x => 2 * Real.sqrt x * u1 (x ^ 2) - u (x ^ 2) / (2 * x * Real.sqrt x)) _ x := d
  rw [d'.deriv]
  unfold scaledU
  obtain ⟨s, hs0, rfl⟩ : ∃ s : ℝ, 0 < s ∧ x = s ^ 2 := ⟨Real.sqrt x, hs, by rw [sq, hsq]⟩
  have hss : Real.sqrt (s ^ 2) = s := Real.sqrt_sq hs0.le
  simp only [Pi.mul_apply, hss]
  generalize u1 ((s ^ 2) ^ 2) = b
  generalize u2 ((s ^ 2) ^ 2) = c
  generalize u ((s ^ 2) ^ 2) = a
  field_simp
  ring

/-- **C110.** The equation X'' = g(x²) X that Numerov's method integrates is the radial Schrödinger equation with the model potential: for all quantum numbers, potential
parameters and energies, and all twice differentiable u, the equation for X(x) = u(x²)/√x holds at x > 0 if and only if the Schrödinger equation for u holds at r = x². -/
theorem C110_equation (q : WfParams) (u u1 u2 : ℝ → ℝ) (h1 : ∀ r, 0 < r → HasDerivAt u (u1 r) r) (h2 : ∀ r, 0 < r → HasDerivAt u1 (u2 r) r) (x : ℝ) (hx : 0 < x) :
    deriv (deriv (scaledU u)) x = modelG q (x * x) * scaledU u x ↔ radialEq q (modelV q) u u2 (x ^ 2) = 0 := by
  rw [scaledU_deriv2 u u1 u2 h1 h2 x hx]
  unfold modelG radialEq scaledU
  rw [← sq]
  have hs : 0 < Real.sqrt x := Real.sqrt_pos.2 hx
  have key : 4 * x ^ 2 * (u2 (x ^ 2) / Real.sqrt x) + 3 / (4 * x ^ 2) * (u (x ^ 2) / Real.sqrt x) -
      ((2 * (q.l : ℝ) + 0.5) * (2 * q.l + 1.5) / x ^ 2 + 8 * x ^ 2 * (modelV q (x ^ 2) - q.energy)) * (u (x ^ 2) / Real.sqrt x) =
      -(8 * x ^ 2 / Real.sqrt x) * (-(u2 (x ^ 2)) / 2 + ((q.l : ℝ) * (q.l + 1) / (2 * (x ^ 2) ^ 2) + modelV q (x ^ 2) - q.energy) * u (x ^ 2)) := by
    field_simp
    ring
  have hne : -(8 * x ^ 2 / Real.sqrt x) ≠ 0 := neg_ne_zero.2 (by positivity)
  constructor
  · intro h
    rw [← sub_eq_zero, key] at h
    exact (mul_eq_zero.1 h).resolve_left hne
  · intro h
    rw [← sub_eq_zero, key, h, mul_zero]

end PI
