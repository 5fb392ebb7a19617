import Verif.Legacy.ElemModel
import Verif.Field.Model

/-!
# HamiltonianOne.cpp: the one-atom Hamiltonian of the legacy program

The scalar type is complex here; `oldSpherical` says when the real type refuses a field.  The database of stored matrices is the subject of C64, C65; this file
models what is built and diagonalised when a matrix is not loaded from there.
-/

namespace PI

/-- The part of the configuration that fixes the scan (HamiltonianOne.cpp:66-100). `isReal` is the scalar type. -/
structure OldScan where
  isReal : Bool
  minE : Vec3
  maxE : Vec3
  minB : Vec3
  maxB : Vec3
  dia : Bool
  steps : ℕ

/-- The number of steps (HamiltonianOne.cpp:93-99). -/
noncomputable def OldScan.nSteps (s : OldScan) : ℕ :=
  open Classical in
  if s.minB.x = s.maxB.x ∧ s.minB.y = s.maxB.y ∧ s.minB.z = s.maxB.z ∧ s.minE.x = s.maxE.x ∧ s.minE.y = s.maxE.y ∧ s.minE.z = s.maxE.z then 1
  else s.steps

/-- `changeToSpherical` (HamiltonianOne.cpp:43-64): component q; the real type throws if y is not zero. -/
noncomputable def oldSpherical (isReal : Bool) (v : Vec3) : Out (ℤ → ℂ) :=
  open Classical in
  if isReal = true ∧ v.y ≠ 0 then .throw
  else .ok fun q =>
    if q = 1 then ⟨-v.x / Real.sqrt 2, -v.y / Real.sqrt 2⟩ else if q = -1 then ⟨v.x / Real.sqrt 2, -v.y / Real.sqrt 2⟩ else if q = 0 then ⟨v.z, 0⟩ else 0

/-- The states within the energy window and the energies relative to the mean of the initial ones (HamiltonianOne.cpp:127-151); the basis keeps the marked states in
their order (`C56_remove`). -/
noncomputable def oldWindow (energy : Old1 → ℝ) (init : List Old1) (deltaE : ℝ) (basis : List Old1) : List Old1 :=
  open Classical in
  let e0 := (init.map energy).sum / init.length
  basis.filter fun x => decide (|energy x - e0| < deltaE + 1e-11 ∨ deltaE < 0)

/-- Which components exist during the scan (HamiltonianOne.cpp:186-197). -/
structure OldExist where
  E0 : Bool
  E1 : Bool
  B0 : Bool
  B1 : Bool
  dia : Bool

/-- HamiltonianOne.cpp:194-197, from the spherical components of the fields at both ends. -/
noncomputable def OldExist.make (minE maxE minB maxB : ℤ → ℂ) (dia : Bool) : OldExist :=
  open Classical in
  ⟨decide (‖minE 0‖ ≠ 0 ∨ ‖maxE 0‖ ≠ 0), decide (‖minE 1‖ ≠ 0 ∨ ‖maxE 1‖ ≠ 0),
   decide (‖minB 0‖ ≠ 0 ∨ ‖maxB 0‖ ≠ 0), decide (‖minB 1‖ ≠ 0 ∨ ‖maxB 1‖ ≠ 0), dia⟩

/-- The precalculations (HamiltonianOne.cpp:204-232). -/
def OldExist.pre (x : OldExist) : List Pre :=
  (if x.E0 then [preElectric 0] else []) ++ (if x.E1 then [preElectric 1] else []) ++ (if x.E1 then [preElectric (-1)] else []) ++
  (if x.B0 then [preMagnetic 0] else []) ++ (if x.B1 then [preMagnetic 1] else []) ++ (if x.B1 then [preMagnetic (-1)] else []) ++
  (if x.dia && (x.B0 || x.B1) then [preDia 0 0] else []) ++ (if x.dia && (x.B0 || x.B1) then [preDia 2 0] else []) ++
  (if x.dia && x.B0 && x.B1 then [preDia 2 1] else []) ++ (if x.dia && x.B0 && x.B1 then [preDia 2 (-1)] else []) ++
  (if x.dia && x.B1 then [preDia 2 2] else []) ++ (if x.dia && x.B1 then [preDia 2 (-2)] else [])

/-- The matrix that receives the electric element (HamiltonianOne.cpp:337-352): the first alternative whose rule holds. -/
def OldExist.elKey (x : OldExist) (a b : Old1) : Option ℤ :=
  if x.E0 && oldSelMultipoleQ a b 1 0 then some 0
  else if x.E1 && oldSelMultipoleQ a b 1 1 then some 1
  else if x.E1 && oldSelMultipoleQ a b 1 (-1) then some (-1)
  else none

/-- The matrix that receives the magnetic element (HamiltonianOne.cpp:354-369). -/
def OldExist.magKey (x : OldExist) (a b : Old1) : Option ℤ :=
  if x.B0 && oldSelMomentumQ a b 0 then some 0
  else if x.B1 && oldSelMomentumQ a b 1 then some 1
  else if x.B1 && oldSelMomentumQ a b (-1) then some (-1)
  else none

/-- The one matrix that receives a diamagnetic element (HamiltonianOne.cpp:371-407). -/
def OldExist.diaKey (x : OldExist) (a b : Old1) : Option (ℤ × ℤ) :=
  if x.dia && (x.B0 || x.B1) && oldSelMultipoleQ a b 0 0 then some (0, 0)
  else if x.dia && (x.B0 || x.B1) && oldSelMultipoleQ a b 2 0 then some (2, 0)
  else if x.dia && (x.B0 && x.B1) && oldSelMultipoleQ a b 2 1 then some (2, 1)
  else if x.dia && (x.B0 && x.B1) && oldSelMultipoleQ a b 2 (-1) then some (2, -1)
  else if x.dia && x.B1 && oldSelMultipoleQ a b 2 2 then some (2, 2)
  else if x.dia && x.B1 && oldSelMultipoleQ a b 2 (-2) then some (2, -2)
  else none

variable {N : ℕ}

/-- The matrix of the entries with a given key: lower triangle, values above the tolerance 1e-32 (HamiltonianOne.cpp:311-407). -/
noncomputable def oldEntries (b : Fin N → Old1) (hit : Old1 → Old1 → Bool) (val : Old1 → Old1 → ℝ) : Matrix (Fin N) (Fin N) ℂ :=
  open Classical in
  fun r c => if r < c then 0 else if hit (b r) (b c) = true ∧ |val (b r) (b c)| > 1e-32 then (val (b r) (b c) : ℂ) else 0

/-- The total matrix (HamiltonianOne.cpp:595-609) for spherical components E, B of the fields. -/
noncomputable def oldTotal (U : Units) (x : OldExist) (c : Cells) (b : Fin N → Old1) (e : Fin N → ℝ) (E B : ℤ → ℂ) : Matrix (Fin N) (Fin N) ℂ :=
  let d := fun q => oldEntries b (fun a a' => x.elKey a a' == some q) (fun a a' => oldMultipole c a a' 1)
  let μ := fun q => oldEntries b (fun a a' => x.magKey a a' == some q) (oldMagnetic U c)
  let D := fun k q => oldEntries b (fun a a' => x.diaKey a a' == some (k, q)) (fun a a' => oldDiamagnetism U c a a' k)
  Matrix.diagonal (fun i => (e i : ℂ)) - E 0 • d 0 + E (-1) • d 1 + E 1 • d (-1) + B 0 • μ 0 - B (-1) • μ 1 - B 1 • μ (-1)
    + (B 0 * B 0 - 2 * B 1 * B (-1)) • D 0 0 - (B 0 * B 0 + B 1 * B (-1)) • D 2 0
    + ((Real.sqrt 3 : ℝ) * B 0 * B (-1)) • D 2 1 + ((Real.sqrt 3 : ℝ) * B 0 * B 1) • D 2 (-1)
    - ((Real.sqrt 1.5 : ℝ) * B (-1) * B (-1)) • D 2 2 - ((Real.sqrt 1.5 : ℝ) * B 1 * B 1) • D 2 (-2)

/-- `build` (HamiltonianOne.cpp:102-628): the restricted basis and, for each step, the Hermitian matrix that is diagonalised. Eigen's SelfAdjointEigenSolver reads the
lower triangle only (Hamiltonianmatrix.cpp:267-287), hence `lowerView`. -/
noncomputable def oldHamOne (U : Units) (I : Option (OldKey → ℝ)) (energy : Old1 → ℝ) (init : List Old1) (deltaE : ℝ) (basis : List Old1) (db : OldDb) (s : OldScan) :
    Out (ℕ → Matrix (Fin (oldWindow energy init deltaE basis).length) (Fin (oldWindow energy init deltaE basis).length) ℂ) :=
  let w := oldWindow energy init deltaE basis
  let e0 := (init.map energy).sum / init.length
  oldSpherical s.isReal s.minE >>= fun minE => oldSpherical s.isReal s.maxE >>= fun maxE =>
  oldSpherical s.isReal s.minB >>= fun minB => oldSpherical s.isReal s.maxB >>= fun maxB =>
  let x := OldExist.make minE maxE minB maxB s.dia
  precalcAll U I w x.pre (fun _ => none, db) >>= fun c =>
  .ok fun step =>
    let t : ℂ := if s.nSteps > 1 then ((step / (s.nSteps - 1 : ℝ) : ℝ) : ℂ) else 0
    let E := fun q => minE q + t * (maxE q - minE q)
    let B := fun q => minB q + t * (maxB q - minB q)
    lowerView (oldTotal U x c.1 (fun i => w.get i) (fun i => energy (w.get i) - e0) E B)

end PI
