import Verif.Rot.StateModel
import Verif.Pair.Model

/-!
# Rotations given by two axes: SystemBase.cpp
-/

namespace PI

open Matrix

/-- The matrix with given columns. -/
def Cols3.mat (R : Cols3) : Matrix (Fin 3) (Fin 3) ℝ := !![R.cx.x, R.cy.x, R.cz.x; R.cx.y, R.cy.y, R.cz.y; R.cx.z, R.cy.z, R.cz.z]

/-- Eigen's `eulerAngles(2, 1, 2)` (Eigen/src/Geometry/EulerAngles.h of Eigen 3.3 and 3.4, with a0 = a2 = 2, a1 = 1, so that odd = 1, i = 2, j = 1,
k = 0), called in SystemBase.cpp:1540.  The library is not part of the repository: its formula is written down here. -/
noncomputable def eulerZYZ (m : Matrix (Fin 3) (Fin 3) ℝ) : ℝ × ℝ × ℝ :=
  open Classical in
  let s2 := Real.sqrt (m 1 2 * m 1 2 + m 0 2 * m 0 2)
  let a0 := atan2 (m 1 2) (m 0 2)
  let a := if a0 < 0 then a0 + Real.pi else a0
  let b := if a0 < 0 then -atan2 s2 (m 2 2) else atan2 s2 (m 2 2)
  (a, b, atan2 (Real.cos a * m 1 0 - Real.sin a * m 0 0) (Real.cos a * m 1 1 - Real.sin a * m 0 1))

/-- `getEulerAngles(to_z_axis, to_y_axis)` (SystemBase.cpp:1535-1542). -/
noncomputable def getEulerAngles (zAxis yAxis : Vec3) : Out (ℝ × ℝ × ℝ) := buildRotatorAxes zAxis yAxis >>= fun R => .ok (eulerZYZ R.mat)

variable {N : ℕ}

/-- The rotator used by `SystemOne::rotate(to_z_axis, to_y_axis)` (SystemBase.cpp:807-812). -/
noncomputable def rotator1Axes (real : Bool) (st : Fin N → Option QN) (zAxis yAxis : Vec3) : Out (Matrix (Fin N) (Fin N) ℂ) :=
  getEulerAngles zAxis yAxis >>= fun e => rotator1 real st e.1 e.2.1 e.2.2

/-- The rotator used by `SystemTwo::rotate(to_z_axis, to_y_axis)` (SystemBase.cpp:807-812). -/
noncomputable def rotator2Axes (real : Bool) (st : Fin N → Option (QN × QN)) (zAxis yAxis : Vec3) : Out (Matrix (Fin N) (Fin N) ℂ) :=
  getEulerAngles zAxis yAxis >>= fun e => rotator2 real st e.1 e.2.1 e.2.2

/-- `getOverlap(states_indices, to_z_axis, to_y_axis)` (SystemBase.cpp:204-211). -/
noncomputable def getOverlapAxes {σ k : Type} (add : ℝ → ℝ → ℝ → Option σ → Out (List (Fin N × ℂ))) (st : Fin N → Option σ) (V : Matrix (Fin N) k ℂ)
    (idx : List (Fin N)) (zAxis yAxis : Vec3) : Out (k → ℝ) :=
  getEulerAngles zAxis yAxis >>= fun e => getOverlapRot add st V idx e.1 e.2.1 e.2.2

end PI
