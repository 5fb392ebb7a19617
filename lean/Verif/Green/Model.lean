import Verif.Basic
import Mathlib.Analysis.SpecialFunctions.Sqrt
import Mathlib.Analysis.SpecialFunctions.Trigonometric.Arctan

/-!
# GreenTensor.cpp

Real numbers instead of `double`.  3×3 and 3×3×3 tensors are functions of their indices.  The sentinel
`zA == max` (no surface) is `none`.
-/

namespace PI

/-- `Eigen::Matrix<double,3,1>`. -/
abbrev V3 := Fin 3 → ℝ

/-- `distance.norm()`, `std::sqrt(x*x + y*y + z*z)`. -/
noncomputable def norm3 (r : V3) : ℝ := Real.sqrt (r 0 * r 0 + r 1 * r 1 + r 2 * r 2)

/-- `Identity(3,3)`. -/
def eye (i j : Fin 3) : ℝ := if i = j then 1 else 0

/-- `getDDTensorVacuum` (GreenTensor.cpp:89-100). -/
noncomputable def ddVacuum (x y z : ℝ) (i j : Fin 3) : ℝ :=
  let d : V3 := ![x, y, z];
  -eye i j / norm3 d ^ 3 + 3 * d i * d j / norm3 d ^ 5

/-- `plate_tensor_first_matrix` (GreenTensor.cpp:112, 174): diag(1,1,2). -/
def plateFirst (i j : Fin 3) : ℝ := (![![1, 0, 0], ![0, 1, 0], ![0, 0, 2]] : Fin 3 → Fin 3 → ℝ) i j

/-- `plate_tensor_second_matrix` (GreenTensor.cpp:109, 176). -/
def plateSecond (x zp : ℝ) (i j : Fin 3) : ℝ :=
  (![![x * x, 0, -x * zp], ![0, 0, 0], ![x * zp, 0, x * x]] : Fin 3 → Fin 3 → ℝ) i j

/-- `getDDTensorPlate` (GreenTensor.cpp:102-116). -/
noncomputable def ddPlate (x zA zB : ℝ) (i j : Fin 3) : ℝ :=
  let zp := zA + zB
  let rp := Real.sqrt (x * x + zp * zp)
  plateFirst i j / rp ^ 3 - 3 * plateSecond x zp i j / rp ^ 5

/-- `getDQTensorVacuum` (GreenTensor.cpp:118-139). -/
noncomputable def dqVacuum (x y z : ℝ) (i j k : Fin 3) : ℝ :=
  let d : V3 := ![x, y, z];
  -3 / norm3 d ^ 5 * (eye i j * d k + d i * eye j k + d j * eye i k) + 15 / norm3 d ^ 7 * d i * d j * d k

/-- `getQDTensorVacuum` (GreenTensor.cpp:141-163). -/
noncomputable def qdVacuum (x y z : ℝ) (i j k : Fin 3) : ℝ :=
  let d : V3 := ![x, y, z];
  3 / norm3 d ^ 5 * (d i * eye j k + eye i j * d k + eye i k * d j) - 15 / norm3 d ^ 7 * d i * d j * d k

/-- `plate_tensor_second_gradient` (GreenTensor.cpp:178-185). -/
def dqPlateGrad (x zp : ℝ) (i j k : Fin 3) : ℝ :=
  if (i, j, k) = (0, 0, 0) then -2 * x else if (i, j, k) = (2, 2, 0) then -2 * x
  else if (i, j, k) = (0, 2, 0) then zp else if (i, j, k) = (2, 0, 0) then -zp
  else if (i, j, k) = (0, 2, 2) then -x else if (i, j, k) = (2, 0, 2) then x else 0

/-- `getDQTensorPlate` (GreenTensor.cpp:165-202). -/
noncomputable def dqPlate (x zA zB : ℝ) (i j k : Fin 3) : ℝ :=
  let zp := zA + zB
  let d : V3 := ![-x, 0, zp];
  let rp := norm3 d;
  -3 * plateFirst i j * d k / rp ^ 5 + 15 * plateSecond x zp i j * d k / rp ^ 7
    + -3 * dqPlateGrad x zp i j k / rp ^ 5

/-- `gradient_plate_tensor_second` (GreenTensor.cpp:217-224). -/
def qdPlateGrad (x zp : ℝ) (i j k : Fin 3) : ℝ :=
  if (i, j, k) = (0, 0, 0) then 2 * x else if (i, j, k) = (0, 2, 2) then 2 * x
  else if (i, j, k) = (0, 0, 2) then -zp else if (i, j, k) = (0, 2, 0) then zp
  else if (i, j, k) = (2, 0, 2) then -x else if (i, j, k) = (2, 2, 0) then x else 0

/-- `getQDTensorPlate` (GreenTensor.cpp:204-241). -/
noncomputable def qdPlate (x zA zB : ℝ) (i j k : Fin 3) : ℝ :=
  let zp := zA + zB
  let d : V3 := ![x, 0, zp];
  let rp := norm3 d;
  -3 * d i * plateFirst j k / rp ^ 5 + 15 * d i * plateSecond x zp j k / rp ^ 7
    + -3 * qdPlateGrad x zp i j k / rp ^ 5

/-- The members of `GreenTensor` (GreenTensor.hpp:45-60); `*_calculated` and the stored tensor are one
optional value. -/
structure GT where
  x : ℝ
  y : ℝ
  z : ℝ
  zAB : Option (ℝ × ℝ)
  dd : Option (Fin 3 → Fin 3 → ℝ)
  dq : Option (Fin 3 → Fin 3 → Fin 3 → ℝ)
  qd : Option (Fin 3 → Fin 3 → Fin 3 → ℝ)

/-- Constructor (GreenTensor.cpp:30-33). -/
def GT.new (x y z : ℝ) : GT := ⟨x, y, z, none, none, none, none⟩

/-- The heights `addSurface` computes (GreenTensor.cpp:40-43).  `std::atan(x / z)`: for z = 0 the C++
value is ±π/2 and the product with z is 0, as in Lean. -/
noncomputable def surfaceHeights (x z d : ℝ) : ℝ × ℝ :=
  let angle := Real.arctan (x / z)
  (d - z * Real.sin angle / 2, d + z * Real.sin angle / 2)

/-- `addSurface` (GreenTensor.cpp:35-53): zA and zB are assigned before the check. -/
noncomputable def GT.addSurface (g : GT) (d : ℝ) : Out Unit × GT :=
  if g.y ≠ 0 then (.throw, g) else
  let h := surfaceHeights g.x g.z d
  let g := { g with zAB := some h }
  if h.1 < 0 ∨ h.2 < 0 then (.throw, g) else
  (.ok (), { g with dd := none, dq := none, qd := none })

/-- `getDDTensor` (GreenTensor.cpp:55-65). -/
noncomputable def GT.getDD (g : GT) : (Fin 3 → Fin 3 → ℝ) × GT :=
  match g.dd with
  | some t => (t, g)
  | none =>
    let t := match g.zAB with
      | none => ddVacuum g.x g.y g.z
      | some (zA, zB) => fun i j => ddVacuum g.x g.y g.z i j + ddPlate g.x zA zB i j
    (t, { g with dd := some t })

/-- `getDQTensor` (GreenTensor.cpp:67-76). -/
noncomputable def GT.getDQ (g : GT) : (Fin 3 → Fin 3 → Fin 3 → ℝ) × GT :=
  match g.dq with
  | some t => (t, g)
  | none =>
    let t := match g.zAB with
      | none => dqVacuum g.x g.y g.z
      | some (zA, zB) => fun i j k => dqVacuum g.x g.y g.z i j k + dqPlate g.x zA zB i j k
    (t, { g with dq := some t })

/-- `getQDTensor` (GreenTensor.cpp:78-87). -/
noncomputable def GT.getQD (g : GT) : (Fin 3 → Fin 3 → Fin 3 → ℝ) × GT :=
  match g.qd with
  | some t => (t, g)
  | none =>
    let t := match g.zAB with
      | none => qdVacuum g.x g.y g.z
      | some (zA, zB) => fun i j k => qdVacuum g.x g.y g.z i j k + qdPlate g.x zA zB i j k
    (t, { g with qd := some t })

/-- Calls on a `GreenTensor` object. -/
inductive GOp where
  | addSurface (d : ℝ)
  | getDD
  | getDQ
  | getQD

/-- The object after a call. -/
noncomputable def GOp.run (g : GT) : GOp → GT
  | .addSurface d => (g.addSurface d).2
  | .getDD => g.getDD.2
  | .getDQ => g.getDQ.2
  | .getQD => g.getQD.2

end PI
