import Verif.Rot.WignerD
import Verif.Field.Model
import Mathlib.Algebra.Order.Round
import Mathlib.LinearAlgebra.Matrix.ConjTranspose

/-!
# Rotation of systems: SystemBase.cpp, SystemOne.hpp/.cpp, SystemTwo.hpp/.cpp

`N` states; `st i = none` means that state i is artificial. `j`, `m` are doubled.
-/

namespace PI

open Matrix

/-- `std::abs(std::remainder(x, 2 * M_PI)) > 1e-16` (SystemOne.hpp:127-139, SystemTwo.hpp:131-142). -/
def badAngle (x : ℝ) : Prop := |x - 2 * Real.pi * round (x / (2 * Real.pi))| > 1e-16

/-- The values of the loop `for (float m = -j; m <= j; ++m)` (SystemOne.hpp:142, SystemTwo.hpp:148, 154, 159). -/
def mLoop (J : ℤ) : List ℤ := (List.range (J + 1).toNat).map fun t : ℕ => -J + 2 * t

/-- `utils::convert<T>` (utils.hpp:69-75): the real part for the real scalar type. -/
noncomputable def convertT (real : Bool) (z : ℂ) : ℂ := if real then (z.re : ℂ) else z

variable {N : ℕ}

/-- `states.get<1>().find(newstate)`: the index of a state, if it is contained. -/
def findSt {σ : Type} [DecidableEq σ] (st : Fin N → Option σ) (a : σ) : Option (Fin N) := (List.finRange N).find? fun i => decide (st i = some a)

/-- The results of calls for all elements of a list, in order; the first failure ends the loop. -/
def mapOut {α β : Type} (f : α → Out β) : List α → Out (List β)
  | [] => .ok []
  | x :: xs => f x >>= fun y => mapOut f xs >>= fun ys => .ok (y :: ys)

/-- `SystemOne::addRotated` (SystemOne.hpp:120-157): the triplets (row, value) that one call adds to its column. The exception for an
artificial state is that of `getJ` (State.cpp:107-110). -/
noncomputable def addRotated1 (real : Bool) (st : Fin N → Option QN) (α β γ : ℝ) (state : Option QN) : Out (List (Fin N × ℂ)) :=
  open Classical in
  if real = true ∧ badAngle α then .throw
  else if real = true ∧ badAngle γ then .throw
  else match state with
    | none => .throw
    | some a =>
      mapOut (fun m => match findSt st { a with m := m } with
        | some i => wignerD a.j m a.m (-γ) (-β) (-α) >>= fun v => .ok [(i, convertT real v)]
        | none => .ok []) (mLoop a.j) >>= fun L => .ok L.flatten

/-- `SystemTwo::addRotated` (SystemTwo.hpp:124-172). `val2_vector[m2 + j2]` is the value computed for the same `m2`. -/
noncomputable def addRotated2 (real : Bool) (st : Fin N → Option (QN × QN)) (α β γ : ℝ) (state : Option (QN × QN)) :
    Out (List (Fin N × ℂ)) :=
  open Classical in
  if real = true ∧ badAngle α then .throw
  else if real = true ∧ badAngle γ then .throw
  else match state with
    | none => .throw
    | some (a, b) =>
      mapOut (fun m2 => wignerD b.j m2 b.m (-γ) (-β) (-α) >>= fun v => .ok (convertT real v)) (mLoop b.j) >>= fun val2 =>
      mapOut (fun m1 => wignerD a.j m1 a.m (-γ) (-β) (-α) >>= fun v =>
        .ok (((mLoop b.j).zip val2).flatMap fun p => match findSt st ({ a with m := m1 }, { b with m := p.1 }) with
          | some i => [(i, convertT real v * p.2)]
          | none => [])) (mLoop a.j) >>= fun L => .ok L.flatten

/-- `setFromTriplets` for one column: values at the same position are summed. -/
noncomputable def columnOf (L : List (Fin N × ℂ)) (r : Fin N) : ℂ := ((L.filter fun t => decide (t.1 = r)).map Prod.snd).sum

/-- `rotateStates` (SystemOne.cpp:668-690, SystemTwo.cpp:1408-1431): the columns for a list of states. -/
noncomputable def rotateCols {σ : Type} (add : Option σ → Out (List (Fin N × ℂ))) (cols : List (Option σ)) : Out (List (Fin N → ℂ)) :=
  mapOut (fun s => add s >>= fun L => .ok (columnOf L)) cols

/-- `buildStaterotator` (SystemOne.cpp:692-715, SystemTwo.cpp:1433-1456): one column for each state of the system. -/
noncomputable def staterotator {σ : Type} (add : Option σ → Out (List (Fin N × ℂ))) (st : Fin N → Option σ) : Out (Matrix (Fin N) (Fin N) ℂ) :=
  rotateCols add (List.ofFn st) >>= fun L => .ok fun r c => (L.getD c fun _ => 0) r

/-- The rotator of a SystemOne. -/
noncomputable def rotator1 (real : Bool) (st : Fin N → Option QN) (α β γ : ℝ) : Out (Matrix (Fin N) (Fin N) ℂ) :=
  staterotator (addRotated1 real st α β γ) st

/-- The rotator of a SystemTwo. -/
noncomputable def rotator2 (real : Bool) (st : Fin N → Option (QN × QN)) (α β γ : ℝ) : Out (Matrix (Fin N) (Fin N) ℂ) :=
  staterotator (addRotated2 real st α β γ) st

/-- The vectors of `getOverlap` for a list of indices (SystemBase.cpp:268-283): without rotation the states themselves. -/
noncomputable def overlapCols {σ : Type} (add : ℝ → ℝ → ℝ → Option σ → Out (List (Fin N × ℂ))) (st : Fin N → Option σ) (idx : List (Fin N))
    (α β γ : ℝ) : Out (List (Fin N → ℂ)) :=
  open Classical in
  if α = 0 ∧ β = 0 ∧ γ = 0 then .ok (idx.map fun i r => if r = i then 1 else 0) else rotateCols (add α β γ) (idx.map st)

/-- `getOverlap(states_indices, alpha, beta, gamma)` (SystemBase.cpp:260-296) for the basis vectors `V`. -/
noncomputable def getOverlapRot {σ k : Type} (add : ℝ → ℝ → ℝ → Option σ → Out (List (Fin N × ℂ))) (st : Fin N → Option σ) (V : Matrix (Fin N) k ℂ)
    (idx : List (Fin N)) (α β γ : ℝ) : Out (k → ℝ) :=
  overlapCols add st idx α β γ >>= fun cols => .ok fun v => (cols.map fun x => ‖∑ r, (starRingEnd ℂ) (V r v) * x r‖ ^ 2).sum

/-! ## Vectors -/

/-- `Eigen::Matrix<double, 3, 3>` by columns. -/
structure Cols3 where
  cx : Vec3
  cy : Vec3
  cz : Vec3

/-- The scalar product. -/
def Vec3.dot (a b : Vec3) : ℝ := a.x * b.x + a.y * b.y + a.z * b.z

/-- The vector product. -/
def Vec3.cross (a b : Vec3) : Vec3 := ⟨a.y * b.z - a.z * b.y, a.z * b.x - a.x * b.z, a.x * b.y - a.y * b.x⟩

/-- Eigen's `normalized()`: a zero vector is returned unchanged. -/
noncomputable def Vec3.normalized (a : Vec3) : Vec3 :=
  open Classical in
  if a.dot a > 0 then ⟨a.x / Real.sqrt (a.dot a), a.y / Real.sqrt (a.dot a), a.z / Real.sqrt (a.dot a)⟩ else a

/-- `buildRotator(to_z_axis, to_y_axis)` (SystemBase.cpp:1504-1521). -/
noncomputable def buildRotatorAxes (zAxis yAxis : Vec3) : Out Cols3 :=
  open Classical in
  let z := zAxis.normalized
  let y := yAxis.normalized
  if |z.dot y| > 1e-16 then .throw else .ok ⟨y.cross z, y, z⟩

/-- Rotation about the z axis, `Eigen::AngleAxisd(a, UnitZ)`. -/
noncomputable def rotZ3 (a : ℝ) : Matrix (Fin 3) (Fin 3) ℝ := !![Real.cos a, -Real.sin a, 0; Real.sin a, Real.cos a, 0; 0, 0, 1]

/-- Rotation about the y axis, `Eigen::AngleAxisd(a, UnitY)`. -/
noncomputable def rotY3 (a : ℝ) : Matrix (Fin 3) (Fin 3) ℝ := !![Real.cos a, 0, Real.sin a; 0, 1, 0; -Real.sin a, 0, Real.cos a]

/-- `buildRotator(alpha, beta, gamma)` (SystemBase.cpp:1523-1534). -/
noncomputable def buildRotatorEuler (α β γ : ℝ) : Matrix (Fin 3) (Fin 3) ℝ := rotZ3 α * rotY3 β * rotZ3 γ

/-- The vector as a column. -/
def Vec3.fn (v : Vec3) : Fin 3 → ℝ := ![v.x, v.y, v.z]

/-- A column as a vector. -/
def Vec3.ofFn (f : Fin 3 → ℝ) : Vec3 := ⟨f 0, f 1, f 2⟩

/-- `SystemOne::rotateVector(field, alpha, beta, gamma)` (SystemOne.cpp:865-874). -/
noncomputable def rotateVectorEuler (v : Vec3) (α β γ : ℝ) : Vec3 :=
  open Classical in
  if Real.sqrt (v.dot v) ≠ 0 then Vec3.ofFn ((buildRotatorEuler α β γ)ᵀ.mulVec v.fn) else v

/-- `SystemOne::rotateVector(field, to_z_axis, to_y_axis)` (SystemOne.cpp:853-862). -/
noncomputable def rotateVectorAxes (v zAxis yAxis : Vec3) : Out Vec3 :=
  open Classical in
  if Real.sqrt (v.dot v) ≠ 0 then buildRotatorAxes zAxis yAxis >>= fun R => .ok ⟨R.cx.dot v, R.cy.dot v, R.cz.dot v⟩ else .ok v

end PI
