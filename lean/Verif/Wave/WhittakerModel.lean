import Verif.Wave.Model
import Mathlib.Analysis.SpecialFunctions.Gamma.Basic

/-! # The Whittaker functions (Wavefunction.cpp:117-146)

The confluent hypergeometric function U(a, b, z) of the GSL is a parameter; without the GSL the program throws. -/

namespace PI

/-- `whittaker_functions::WhittakerW` (Wavefunction.cpp:136-138) for z > 0. -/
noncomputable def whittakerW (U : ℝ → ℝ → ℝ → ℝ) (k m z : ℝ) : ℝ :=
  Real.exp (-0.5 * z) * z ^ (m + 0.5) * U (m - k + 0.5) (1 + 2 * m) z

/-- `whittaker_functions::RadialWFWhittaker` (Wavefunction.cpp:140-143). -/
noncomputable def radialWhittaker (U : ℝ → ℝ → ℝ → ℝ) (r nu : ℝ) (l : ℤ) : ℝ :=
  1 / Real.sqrt (nu * nu * Real.Gamma (nu + l + 1) * Real.Gamma (nu - l)) * whittakerW U nu (l + 0.5) (2 * r / nu)

/-- `Whittaker(qd).integrate()` with the function it evaluates (Wavefunction.cpp:147-177); `nu` is `qd.nstar`. -/
noncomputable def whittakerTable (U : ℝ → ℝ → ℝ → ℝ) (nu : ℝ) (q : WfParams) : Wf :=
  whittaker (fun q r => radialWhittaker U r nu q.l) q

end PI
