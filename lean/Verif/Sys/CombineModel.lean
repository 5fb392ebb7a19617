import Verif.Sys.HamModel
import Mathlib.Analysis.Complex.Norm
import Mathlib.Data.Matrix.ColumnRowPartitioned
import Mathlib.Data.Finset.Basic

/-!
# SystemBase.cpp `add` with settings, flags and symmetries; SystemOne.cpp and SystemTwo.cpp `incorporate`

`n` indexes the union of the states of both systems (C67 models how it is formed); a state that a system does not
have has zero coefficients in it.
-/

namespace PI
open Matrix

variable {n k k' : Type} [Fintype n] [DecidableEq n] [Fintype k] [DecidableEq k] [Fintype k'] [DecidableEq k']
variable {P κ : Type} [DecidableEq κ]

/-- What `add` leaves behind: the combined system; an exception before the matrices were touched; an exception in the
middle (see C67). -/
inductive AddOut (P κ n k k' : Type) where
  | ok (u : CSys P κ n (k ⊕ k'))
  | refused (s : CSys P κ n k)
  | broken

open Classical in
/-- `SystemBase::add` (SystemBase.cpp:835-942) for built bases: `agree` is the comparison of the settings by
`incorporate`, which also deletes the cached interaction. -/
noncomputable def CSys.add (agree : P → P → Bool) (s : CSys P κ n k) (t : CSys P κ n k') : AddOut P κ n k k' :=
  if ¬ agree s.p t.p then .refused s else
  if s.mem ≠ t.mem ∨ s.contained ≠ t.contained ∨ s.needNew ≠ t.needNew then
    .refused { s with inter := fun _ => none } else
  if s.Vc.isSome ≠ t.Vc.isSome then .broken else
  if ¬ ∀ i j, ‖(s.Vᴴ * t.V) i j‖ ≤ 1 / 10 ^ 12 then .broken else
  if s.Hc.isSome ≠ t.Hc.isSome then .broken else
  .ok {
    p := s.p
    V := fromCols s.V t.V
    H := fromBlocks s.H 0 0 t.H
    Vc := s.Vc.bind fun A => t.Vc.map fun B => fromCols A B
    Hc := s.Hc.bind fun A => t.Hc.map fun B => fromBlocks A 0 0 B
    inter := fun _ => none
    contained := s.contained
    needNew := s.needNew
    mem := s.mem
    art := s.art }

/-- The settings of a one-atom system that enter its Hamiltonian (SystemOne.hpp:78-85, 101). -/
structure OneSettings where
  species : String
  efield : ℚ × ℚ × ℚ
  bfield : ℚ × ℚ × ℚ
  diamagnetism : Bool
  charge : ℤ
  ordermax : ℕ
  distance : ℚ
deriving DecidableEq

/-- The comparisons of `SystemOne::incorporate` (SystemOne.cpp:719-742). -/
def OneSettings.agree (p q : OneSettings) : Bool :=
  decide (p.species = q.species) && decide (p.efield = q.efield) && decide (p.bfield = q.bfield) &&
  decide (p.diamagnetism = q.diamagnetism)

/-- The settings of a two-atom system that enter its Hamiltonian (SystemTwo.hpp:88-96). -/
structure TwoSettings where
  species1 : String
  species2 : String
  distance : ℚ × ℚ × ℚ
  green : Bool
  surface : Option ℚ
  ordermax : ℕ
deriving DecidableEq

/-- The comparisons of `SystemTwo::incorporate` (SystemTwo.cpp:1462-1488). -/
def TwoSettings.agree (p q : TwoSettings) : Bool :=
  decide (p.species1 = q.species1) && decide (p.species2 = q.species2) && decide (p.distance = q.distance) &&
  decide (p.ordermax = q.ordermax)

/-- The recorded symmetries: parities (reflection for one atom; permutation, inversion and reflection for two;
`none` is NA) and the momenta about the z axis, doubled (`none` is ARB). -/
structure SymRec (ι : Type) where
  par : ι → Option Bool
  rot : Finset (Option ℤ)

/-- Combining the symmetries (SystemOne.cpp:744-763, SystemTwo.cpp:1490-1515). -/
def SymRec.combine {ι : Type} (s t : SymRec ι) : SymRec ι where
  par := fun i => if s.par i ≠ t.par i then none else s.par i
  rot := if s.rot = t.rot then s.rot else if none ∈ s.rot ∨ none ∈ t.rot then {none} else s.rot ∪ t.rot

end PI
