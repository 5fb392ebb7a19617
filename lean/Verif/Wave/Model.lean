import Verif.Basic
import Mathlib.Analysis.SpecialFunctions.Sqrt
import Mathlib.Analysis.SpecialFunctions.Exp
import Mathlib.Algebra.BigOperators.Group.Finset.Basic
import Mathlib.Algebra.Order.Floor.Ring

/-!
# Wavefunction.hpp / Wavefunction.cpp

Real numbers instead of `double`.  A column of an Eigen matrix is a length and a function of the index.
-/

namespace PI

/-- `std::numeric_limits<double>::epsilon()` = 2⁻⁵². -/
noncomputable def machEps : ℝ := 1 / 2 ^ 52

/-- One pass of the loop of `findidx` (Wavefunction.hpp:237-263); `none`: the branch `L > R` was reached. -/
noncomputable def findPass (x : ℤ → ℝ) (d eps : ℝ) (L R : ℤ) : Option ℤ :=
  if h : L > R then none else
  let m := (L + R) / 2
  if x m < d then
    if |x m - d| ≤ max |x m| |d| * eps then some m else findPass x d eps (m + 1) R
  else if x m > d then
    if |x m - d| ≤ max |x m| |d| * eps then some m else findPass x d eps L (m - 1)
  else some m
termination_by (R + 1 - L).toNat
decreasing_by all_goals omega

/-- `findidx(x, d, eps)` (Wavefunction.hpp:233-264).  The recursive restart with `2 * eps` is bounded by
`fuel`; `none`: more restarts than `fuel`. -/
noncomputable def findIdx (x : ℤ → ℝ) (rows : ℤ) (d : ℝ) : ℕ → ℝ → Option (Out ℤ)
  | 0, _ => none
  | fuel + 1, eps =>
    match findPass x d eps 0 (rows - 1) with
    | some m => some (.ok m)
    | none => if eps > machEps then some .throw else findIdx x rows d fuel (2 * eps)

/-- The `QuantumDefect` fields used by the model potential and the integrators
(QuantumDefect.hpp:50-75); `s` is the spin read from the species name (Wavefunction.cpp:45-48). -/
structure WfParams where
  n : ℤ
  l : ℤ
  j : ℝ
  s : ℝ
  Z : ℝ
  ac : ℝ
  a1 : ℝ
  a2 : ℝ
  a3 : ℝ
  a4 : ℝ
  rc : ℝ
  /-- energy in atomic units, `qd.energy / au2GHz` -/
  energy : ℝ

/-- `model_potential::V` (Wavefunction.cpp:39-55). -/
noncomputable def modelV (q : WfParams) (x : ℝ) : ℝ :=
  let Zl := 1 + (q.Z - 1) * Real.exp (-q.a1 * x) - x * (q.a3 + q.a4 * x) * Real.exp (-q.a2 * x)
  let Vc := -Zl / x
  let Vp := -q.ac / (2 * x * x * x * x) * (1 - Real.exp (-(x / q.rc) ^ 6))
  let α : ℝ := 7.2973525664e-3
  let Vso := if q.l < 4 then α * α / (4 * x * x * x) * (q.j * (q.j + 1) - q.l * (q.l + 1) - q.s * (q.s + 1)) else 0
  Vc + Vp + Vso

/-- `model_potential::g` (Wavefunction.cpp:57-59). -/
noncomputable def modelG (q : WfParams) (x : ℝ) : ℝ :=
  (2 * q.l + 0.5) * (2 * q.l + 1.5) / x + 8 * x * (modelV q x - q.energy)

/-- `Numerov::dx`, `Whittaker::dx` (Wavefunction.hpp:100, 186). -/
noncomputable def wfDx : ℝ := 1 / 100

/-- The inner bound of the Numerov grid (Wavefunction.cpp:65-70). -/
noncomputable def numerovXmin (q : WfParams) : ℤ :=
  let xmin : ℝ := q.n * q.n - q.n * Real.sqrt (q.n * q.n - (q.l - 1) * (q.l - 1))
  if xmin < 2.08 then ⌊Real.sqrt 2.08⌋ else ⌊Real.sqrt xmin⌋

/-- The outer bound of both grids (Wavefunction.cpp:72, 149). -/
noncomputable def wfXmax (q : WfParams) : ℝ := Real.sqrt (2 * q.n * (q.n + 15))

/-- The number of grid points for an inner bound (Wavefunction.cpp:73, 150). -/
noncomputable def wfSteps (q : WfParams) (xmin : ℤ) : ℤ := ⌈(wfXmax q - xmin) / wfDx⌉

/-- First column of `xy` (Wavefunction.cpp:77-79, 154-156). -/
noncomputable def wfGrid (xmin : ℤ) (i : ℤ) : ℝ := xmin + i * wfDx

/-- The initial value at the outer end (Wavefunction.cpp:88-92); C++ `%` is zero exactly for even
differences. -/
noncomputable def numerovStart (q : WfParams) : ℝ := if (q.n - q.l).tmod 2 = 0 then -1e-10 else 1e-10

/-- One step of Numerov's scheme (Wavefunction.cpp:96-99): the value at a point from the two values
further out.  For `C = 0` the C++ code gives an infinity, Lean gives 0. -/
noncomputable def numerovStep (g0 g1 g2 y1 y2 : ℝ) : ℝ :=
  let A := (2 + 5 / 6 * wfDx * wfDx * g1) * y1
  let B := (1 - 1 / 12 * wfDx * wfDx * g2) * y2
  let C := 1 - 1 / 12 * wfDx * wfDx * g0
  (A - B) / C

/-- The loop of `Numerov::integrate` (Wavefunction.cpp:82-100) as a function of the distance `t` from the
outer end: t = 0 is `xy(nsteps-1, 1)`, which is never written (it keeps the value of the constructor,
0), t = 1 is the initial condition. -/
noncomputable def numerovRaw (q : WfParams) (xmin nsteps : ℤ) : ℕ → ℝ
  | 0 => 0
  | 1 => numerovStart q
  | t + 2 =>
    let x := wfGrid xmin
    let i := nsteps - 1 - ((t + 2 : ℕ) : ℤ)
    numerovStep (modelG q (x i * x i)) (modelG q (x (i + 1) * x (i + 1))) (modelG q (x (i + 2) * x (i + 2)))
      (numerovRaw q xmin nsteps (t + 1)) (numerovRaw q xmin nsteps t)

/-- `norm` of `Numerov::integrate` (Wavefunction.cpp:103-107). -/
noncomputable def numerovNorm (q : WfParams) (xmin nsteps : ℤ) : ℝ :=
  Real.sqrt (2 * ∑ i ∈ Finset.Ico 0 nsteps,
    numerovRaw q xmin nsteps (nsteps - 1 - i).toNat * numerovRaw q xmin nsteps (nsteps - 1 - i).toNat
      * wfGrid xmin i * wfGrid xmin i * wfDx)

/-- The second column after `Numerov::integrate` (Wavefunction.cpp:109-113). -/
noncomputable def numerovY (q : WfParams) (xmin nsteps : ℤ) (i : ℤ) : ℝ :=
  let y := numerovRaw q xmin nsteps (nsteps - 1 - i).toNat
  if numerovNorm q xmin nsteps > 0 then y / numerovNorm q xmin nsteps else y

/-- A sampled wave function: what `integrate()` returns. -/
structure Wf where
  rows : ℤ
  x : ℤ → ℝ
  y : ℤ → ℝ

/-- `Numerov(qd).integrate()` (Wavefunction.cpp:63-116). -/
noncomputable def numerov (q : WfParams) : Wf :=
  let xmin := numerovXmin q
  let nsteps := wfSteps q xmin
  ⟨nsteps, wfGrid xmin, numerovY q xmin nsteps⟩

/-- `Whittaker(qd).integrate()` (Wavefunction.cpp:147-177); the special function (GSL) is the parameter
`w`. -/
noncomputable def whittaker (w : WfParams → ℝ → ℝ) (q : WfParams) : Wf :=
  let nsteps := wfSteps q 1
  ⟨nsteps, wfGrid 1, fun i => (if (q.n - q.l).tmod 2 = 0 then -1 else 1) * w q (wfGrid 1 i * wfGrid 1 i)⟩

/-- `Numerov::power_kernel` (Wavefunction.hpp:129). -/
def numerovKernel (power : ℤ) : ℤ := 2 * power + 2

/-- `Whittaker::power_kernel` (Wavefunction.hpp:217). -/
def whittakerKernel (power : ℤ) : ℤ := 2 * power + 1

/-- The loop of `IntegrateRadialElement` (Wavefunction.hpp:302-304). -/
noncomputable def overlapLoop (a b : Wf) (pk : ℤ) : ℕ → ℤ → ℤ → ℤ → ℤ → ℝ → ℝ
  | 0, _, _, _, _, mu => mu
  | fuel + 1, i1, e1, i2, e2, mu =>
    if i1 < e1 ∧ i2 < e2 then
      overlapLoop a b pk fuel (i1 + 1) e1 (i2 + 1) e2 (mu + a.y i1 * b.y i2 * a.x i1 ^ pk * wfDx)
    else mu

/-- `IntegrateRadialElement` (Wavefunction.hpp:281-311); the default `eps` of `findidx` needs two passes
at most.  An index outside the columns is undefined behaviour. -/
noncomputable def integrateRadial (a b : Wf) (pk : ℤ) : Out ℝ :=
  if a.rows ≤ 0 ∨ b.rows ≤ 0 then .ub else
  let xmin := if a.x 0 ≥ b.x 0 then a.x 0 else b.x 0
  let xmax := if a.x (a.rows - 1) ≤ b.x (b.rows - 1) then a.x (a.rows - 1) else b.x (b.rows - 1)
  if xmin ≤ xmax then
    match findIdx a.x a.rows xmin 2 machEps, findIdx a.x a.rows xmax 2 machEps,
      findIdx b.x b.rows xmin 2 machEps, findIdx b.x b.rows xmax 2 machEps with
    | some (.ok s1), some (.ok e1), some (.ok s2), some (.ok e2) =>
      .ok (2 * overlapLoop a b pk a.rows.toNat s1 e1 s2 e2 0)
    | _, _, _, _ => .throw
  else .ok 0

end PI
