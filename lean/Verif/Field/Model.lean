import Verif.Element.Model
import Verif.Sys.HamModel
import Mathlib.Analysis.Complex.Norm

/-!
# SystemOne.cpp: one atom in external fields and near an ion

`N` states; `st i = none` means that state i is artificial.  Numbers are exact: real and complex scalars are complex numbers here, for the real
scalar type every field component is real.  `j`, `m`, `s` are doubled.
-/

namespace PI
open Matrix

/-- A field vector, `std::array<double, 3>`. -/
structure Vec3 where
  x : ℝ
  y : ℝ
  z : ℝ

/-- `changeToSphericalbasis` for the complex type (SystemOne.cpp:840-846); also the values of the real type
(829-838) when `y = 0`. Components other than 0, ±1 do not exist. -/
noncomputable def sph (v : Vec3) (q : ℤ) : ℂ :=
  if q = 1 then ⟨-v.x / Real.sqrt 2, -v.y / Real.sqrt 2⟩
  else if q = -1 then ⟨v.x / Real.sqrt 2, -v.y / Real.sqrt 2⟩
  else if q = 0 then ⟨v.z, 0⟩ else 0

/-- `changeToSphericalbasis` for the real scalar type (SystemOne.cpp:828-838). -/
noncomputable def sphReal (v : Vec3) (q : ℤ) : Out ℝ :=
  if v.y ≠ 0 then .throw
  else .ok (if q = 1 then -v.x / Real.sqrt 2 else if q = -1 then v.x / Real.sqrt 2 else if q = 0 then v.z else 0)

/-- `diamagnetism_terms` (SystemOne.cpp:72-80). -/
noncomputable def diaTerm (B : Vec3) (k q : ℤ) : ℂ :=
  if k = 0 ∧ q = 0 then sph B 0 * sph B 0 - sph B 1 * sph B (-1) * 2
  else if k = 2 ∧ q = 0 then sph B 0 * sph B 0 + sph B 1 * sph B (-1)
  else if k = 2 ∧ q = 1 then sph B 0 * sph B (-1)
  else if k = 2 ∧ q = -1 then sph B 0 * sph B 1
  else if k = 2 ∧ q = 2 then sph B (-1) * sph B (-1)
  else if k = 2 ∧ q = -2 then sph B 1 * sph B 1
  else 0

/-- The parameters of a SystemOne (SystemOne.hpp:125-140); `dist = none` is `numeric_limits::max()`. -/
structure FieldParams where
  E : Vec3
  B : Vec3
  dia : Bool
  charge : ℤ
  order : ℕ
  dist : Option ℝ

/-- The keys of the interaction maps (SystemOne.hpp: interaction_efield, interaction_bfield,
interaction_diamagnetism, interaction_multipole). -/
inductive FKey where
  | e (q : ℤ)
  | b (q : ℤ)
  | d (k q : ℤ)
  | ion (o : ℕ)
deriving DecidableEq

/-- `std::abs(x) > tolerance` with tolerance 1e-24 (SystemOne.cpp:347, 579). -/
noncomputable def isBig (x : ℂ) : Bool := decide (‖x‖ > 1e-24)

/-- Constants of Constants.hpp that the one-atom interaction uses beside those of the matrix elements. -/
structure FieldConsts where
  elem : ElemConsts
  mass : ℝ
  ke : ℝ

/-- The number in an outcome; exceptions cannot occur when all states have the same species. -/
noncomputable def outVal : Out ℝ → ℝ
  | .ok x => x
  | _ => 0

/-! ## Keys -/

/-- `erange`/`brange` (SystemOne.cpp:353-370): only non-negative components are looked at. -/
noncomputable def fieldRange (v : Vec3) : List ℤ := [0, 1].filter fun q => isBig (sph v q)

/-- `drange` (SystemOne.cpp:371-379). -/
noncomputable def diaRange (p : FieldParams) : List (ℤ × ℤ) :=
  [(0, 0), (2, 0), (2, 1), (2, 2)].filter fun i => p.dia && isBig (diaTerm p.B i.1 i.2)

/-- `orange` (SystemOne.cpp:381-387). -/
def ionRange (p : FieldParams) : List ℕ := if p.charge ≠ 0 then (List.range p.order).map (· + 1) else []

/-- The keys for which `initializeInteraction` creates an operator when none is cached (SystemOne.cpp:353-387, 498-568): a
positive component creates the negative one, too. -/
noncomputable def initKeys (p : FieldParams) : List FKey :=
  ((fieldRange p.E).flatMap fun q => if q = 0 then [.e q] else [.e q, .e (-q)]) ++
  ((fieldRange p.B).flatMap fun q => if q = 0 then [.b q] else [.b q, .b (-q)]) ++
  ((diaRange p).flatMap fun i => if i.2 = 0 then [.d i.1 i.2] else [.d i.1 i.2, .d i.1 (-i.2)]) ++
  (ionRange p).map .ion

/-- The keys that `addInteraction` reads (SystemOne.cpp:581-626). -/
noncomputable def addKeys (p : FieldParams) : List FKey :=
  (if isBig (sph p.E 0) then [.e 0] else []) ++
  (if isBig (sph p.E (-1)) then [.e 1] else []) ++
  (if isBig (sph p.E 1) then [.e (-1)] else []) ++
  (if isBig (sph p.B 0) then [.b 0] else []) ++
  (if isBig (sph p.B (-1)) then [.b 1] else []) ++
  (if isBig (sph p.B 1) then [.b (-1)] else []) ++
  ([(0, 0), (2, 0), (2, 1), (2, -1), (2, 2), (2, -2)].filter fun i => p.dia && isBig (diaTerm p.B i.1 i.2)).map
    (fun i => .d i.1 i.2) ++
  (if p.charge ≠ 0 ∧ p.dist.isSome then ((List.range p.order).map (· + 1)).map .ion else [])

/-- The factor with which `addInteraction` adds the operator of a key (SystemOne.cpp:581-626). -/
noncomputable def addCoef (p : FieldParams) : FKey → ℂ
  | .e q => if q = 0 then -sph p.E 0 else if q = 1 then sph p.E (-1) else sph p.E 1
  | .b q => if q = 0 then -sph p.B 0 else if q = 1 then sph p.B (-1) else sph p.B 1
  | .d k q =>
    if k = 0 then diaTerm p.B 0 0
    else if q = 0 then -diaTerm p.B 2 0
    else if q = 1 ∨ q = -1 then diaTerm p.B k q * (Real.sqrt 3 : ℝ)
    else -(diaTerm p.B k q * (Real.sqrt 1.5 : ℝ))
  | .ion o => (p.charge : ℂ) * ((1 / (p.dist.getD 0) ^ (o + 1) : ℝ) : ℂ)

/-! ## Operators -/

variable {N : ℕ}

/-- A matrix between the states whose entries come from the quantum numbers; artificial states are skipped (SystemOne.cpp:428-437). -/
noncomputable def statesMat (st : Fin N → Option QN) (f : Fin N → Fin N → QN → QN → ℂ) : Matrix (Fin N) (Fin N) ℂ :=
  fun r c => match st r, st c with
    | some a, some b => f r c a b
    | _, _ => 0

/-- The loop over `erange`, `brange` for one pair of states (SystemOne.cpp:440-466): the first key that is accepted gets the
value, then `break`. -/
def firstHit (range : List ℤ) (sel : QN → QN → ℤ → Bool) (r c : Fin N) (a b : QN) : Option ℤ :=
  range.find? fun i => !(decide (i = 0) && decide (r < c)) && sel a b i

/-- The triplets collected for key `i` in the E-field or B-field loop (SystemOne.cpp:440-466). -/
noncomputable def rawLoop (st : Fin N → Option QN) (range : List ℤ) (sel : QN → QN → ℤ → Bool) (val : QN → QN → ℝ) (i : ℤ) :
    Matrix (Fin N) (Fin N) ℂ :=
  statesMat st fun r c a b => if firstHit range sel r c a b = some i then (val a b : ℂ) else 0

/-- The triplets of a key without `break` (diamagnetism, SystemOne.cpp:468-480). -/
noncomputable def rawKey (st : Fin N → Option QN) (sel : QN → QN → ℤ → Bool) (val : QN → QN → ℝ) (i : ℤ) :
    Matrix (Fin N) (Fin N) ℂ :=
  statesMat st fun r c a b => if (i = 0 ∧ r < c) ∨ sel a b i = false then 0 else (val a b : ℂ)

/-- Eigen's `selfadjointView<Lower>`: the lower triangle and the diagonal, mirrored. -/
noncomputable def lowerView (M : Matrix (Fin N) (Fin N) ℂ) : Matrix (Fin N) (Fin N) ℂ :=
  fun r c => if c < r then M r c else if r = c then ((M r c).re : ℂ) else (starRingEnd ℂ) (M c r)

/-- The operator of component q from the triplet matrices of the non-negative components (SystemOne.cpp:498-553):
`selfadjointView` for q = 0, the matrix itself for q > 0, (−1)^q times the adjoint for the negative one. -/
noncomputable def compOp (raw : ℤ → Matrix (Fin N) (Fin N) ℂ) (q : ℤ) : Matrix (Fin N) (Fin N) ℂ :=
  if q = 0 then lowerView (raw 0)
  else if 0 < q then raw q
  else ((-1 : ℂ) ^ q.natAbs) • (raw (-q))ᴴ

/-- `getElectricDipole` (MatrixElementCache.cpp:351-353). -/
noncomputable def valE (C : FieldConsts) (radial : RadKey → ℝ) (me : Method) (a b : QN) : ℝ :=
  outVal (electricMultipole C.elem radial me a b 1 1)

/-- `getMagneticDipole` (MatrixElementCache.cpp:364-411). -/
noncomputable def valB (C : FieldConsts) (radial : RadKey → ℝ) (me : Method) (a b : QN) : ℝ :=
  outVal (magneticDipole C.elem radial me a b)

/-- `1/(8 m_e)` times `getDiamagnetism` (SystemOne.cpp:475-477, MatrixElementCache.cpp:359-362). -/
noncomputable def valD (C : FieldConsts) (radial : RadKey → ℝ) (me : Method) (k : ℤ) (a b : QN) : ℝ :=
  1 / (8 * C.mass) * (2 / 3 * C.elem.e * outVal (electricMultipole C.elem radial me a b 2 k))

/-- The element of the interaction with an ion (SystemOne.cpp:488-490). -/
noncomputable def valIon (C : FieldConsts) (radial : RadKey → ℝ) (me : Method) (o : ℕ) (a b : QN) : ℝ :=
  -C.ke * C.elem.e * outVal (electricMultipole C.elem radial me a b o o)

/-- The ion triplets (SystemOne.cpp:482-496): `int q = m_r - m_c` must vanish and the multipole rule hold. -/
noncomputable def rawIon (C : FieldConsts) (radial : RadKey → ℝ) (me : Method) (st : Fin N → Option QN) (o : ℕ) :
    Matrix (Fin N) (Fin N) ℂ :=
  statesMat st fun _ _ a b => if (a.m - b.m).tdiv 2 = 0 ∧ selMultipole a b o = true then (valIon C radial me o a b : ℂ) else 0

/-- The operator of a key between the states (SystemOne.cpp:338-569). -/
noncomputable def fieldOp (C : FieldConsts) (radial : RadKey → ℝ) (me : Method) (st : Fin N → Option QN) :
    FKey → Matrix (Fin N) (Fin N) ℂ
  | .e q => compOp (rawKey st (fun a b => selMultipoleQ a b 1) (valE C radial me)) q
  | .b q => compOp (rawKey st selMomentumQ (valB C radial me)) q
  | .d k q => compOp (rawKey st (fun a b => selMultipoleQ a b k) (valD C radial me k)) q
  | .ion o => rawIon C radial me st o

/-- What SystemOne supplies to the generic Hamiltonian building of SystemBase (`Sys/HamModel.lean`). -/
noncomputable def fieldInter (C : FieldConsts) (radial : RadKey → ℝ) (me : Method) (st : Fin N → Option QN) :
    Inter FieldParams FKey (Fin N) where
  op := fieldOp C radial me st
  need := addKeys
  coef := addCoef

/-! ## Setters of the real scalar type -/

/-- The field members of a SystemOne of real scalar type: the Cartesian field and its spherical components
(SystemOne.hpp:125-130), with the flag that a new Hamiltonian is required. -/
structure RealField where
  field : Vec3
  comp : ℤ → ℝ
  needNew : Bool

/-- `setEfield`/`setBfield` of the real type (SystemOne.cpp:56-65): the Cartesian field is assigned before the conversion
throws.  The second component is the state after the call, whether it threw or not. -/
noncomputable def RealField.set (s : RealField) (v : Vec3) : Out Unit × RealField :=
  if v.y ≠ 0 then (.throw, { s with field := v, needNew := true })
  else (.ok (), ⟨v, fun q => if q = 1 then -v.x / Real.sqrt 2 else if q = -1 then v.x / Real.sqrt 2 else if q = 0 then v.z else 0, true⟩)

end PI
