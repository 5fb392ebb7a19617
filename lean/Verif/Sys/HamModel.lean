import Verif.Basic
import Mathlib.Data.Complex.BigOperators
import Mathlib.Data.Matrix.Mul
import Mathlib.LinearAlgebra.Matrix.ConjTranspose
import Mathlib.LinearAlgebra.Matrix.Hermitian

/-!
# SystemBase.cpp: the Hamiltonian, its entries, basis changes and parameter changes

`n` indexes the states, `k` the basis vectors.  Numbers are exact complex numbers; for the real scalar type all entries are
real.
-/

namespace PI
open Matrix

variable {n k : Type} [Fintype n] [DecidableEq n] [Fintype k] [DecidableEq k]

/-- The coefficient matrix and the Hamiltonian of a built system. -/
structure HSys (n k : Type) where
  V : Matrix n k ℂ
  H : Matrix k k ℂ

/-- Eigen's `dot` conjugates its first argument. -/
noncomputable def eigenDot (a b : k → ℂ) : ℂ := ∑ i, (starRingEnd ℂ) (a i) * b i

/-- `(basisvectors.row(r) * hamiltonian).dot(basisvectors.row(c))`: getHamiltonianEntry (SystemBase.cpp:1242-1251). -/
noncomputable def HSys.getEntry (s : HSys n k) (r c : n) : ℂ := eigenDot (s.V r ᵥ* s.H) (s.V c)

/-- The matrix `tmp` (SystemBase.cpp:1263-1269, 1282-1288). -/
noncomputable def entryMat (r c : n) (v : ℂ) : Matrix n n ℂ :=
  if r = c then Matrix.single r c v else Matrix.single r c v + Matrix.single c r ((starRingEnd ℂ) v)

/-- addHamiltonianEntry (SystemBase.cpp:1274-1291). -/
noncomputable def HSys.addEntry (s : HSys n k) (r c : n) (v : ℂ) : HSys n k :=
  { s with H := s.H + s.Vᴴ * entryMat r c v * s.V }

/-- setHamiltonianEntry (SystemBase.cpp:1253-1272). -/
noncomputable def HSys.setEntry (s : HSys n k) (r c : n) (v : ℂ) : HSys n k :=
  s.addEntry r c (v - s.getEntry r c)

/-- `diagonalize` with threshold 0 (SystemBase.cpp:690-747): `U`, `d` are what the eigensolver returns; `isDiag` is the result of
checkIsDiagonal. -/
noncomputable def HSys.diagonalize (s : HSys n k) (isDiag : Bool) (U : Matrix k k ℂ) (d : k → ℝ) : HSys n k :=
  if isDiag then s else ⟨s.V * U, Matrix.diagonal fun i => (d i : ℂ)⟩

/-- `canonicalize` (SystemBase.cpp:749-760). -/
noncomputable def HSys.canonicalize (s : HSys n k) : HSys n n := ⟨s.V * s.Vᴴ, s.V * s.H * s.Vᴴ⟩

/-- The matrices after `unitarize` (SystemBase.cpp:762-808), if no hash collision occurs. -/
noncomputable def HSys.unitarize (s : HSys n k) : HSys k k := ⟨1, s.H⟩

/-- `applyRightsideTransformator` (SystemBase.cpp:1453-1473) for a matrix T. -/
noncomputable def HSys.applyRight {k' : Type} [Fintype k'] (s : HSys n k) (T : Matrix k k' ℂ) : HSys n k' :=
  ⟨s.V * T, Tᴴ * s.H * T⟩

/-- The operator on the states that the system represents. -/
noncomputable def HSys.oper (s : HSys n k) : Matrix n n ℂ := s.V * s.H * s.Vᴴ

/-! ## Parameter changes -/

/-- What a derived class supplies (SystemOne.cpp:338-627, SystemTwo.cpp:656-1400): the operator of an interaction key between the
states, the keys that a parameter value needs, and the factor with which they are added. -/
structure Inter (P κ n : Type) where
  op : κ → Matrix n n ℂ
  need : P → List κ
  coef : P → κ → ℂ

/-- A built system with its caches and flags (SystemBase.hpp:285-305).  `art`: the states were replaced by
artificial ones. -/
structure CSys (P κ n k : Type) where
  p : P
  V : Matrix n k ℂ
  H : Matrix k k ℂ
  Vc : Option (Matrix n k ℂ)
  Hc : Option (Matrix k k ℂ)
  inter : κ → Option (Matrix k k ℂ)
  contained : Bool
  needNew : Bool
  mem : Bool
  art : Bool

variable {P κ : Type} [DecidableEq κ]

/-- A setter: `onParameterChange` (SystemBase.cpp:1312-1329) and the assignment. -/
noncomputable def CSys.setParams (s : CSys P κ n k) (p : P) : Out (CSys P κ n k) :=
  if s.Vc.isNone ≠ s.Hc.isNone then .throw else
  if s.contained ∧ s.Vc.isNone then .throw else
  .ok { s with p := p, needNew := true }

/-- `initializeInteraction`: keys that are needed and missing are computed in the current basis; artificial states
have no matrix elements (SystemOne.cpp:427-436). -/
noncomputable def CSys.initInter (I : Inter P κ n) (s : CSys P κ n k) : CSys P κ n k :=
  { s with inter := fun key =>
      match s.inter key with
      | some M => some M
      | none => if key ∈ I.need s.p then some (s.Vᴴ * (if s.art then 0 else I.op key) * s.V) else none }

/-- `addInteraction` (SystemOne.cpp:576-627): a missing key would be an empty matrix. -/
noncomputable def CSys.addInter (I : Inter P κ n) (s : CSys P κ n k) : CSys P κ n k :=
  { s with H := s.H + ((I.need s.p).map fun key => I.coef s.p key • (s.inter key).getD 0).sum }

/-- The last part of `buildHamiltonian` (SystemBase.cpp:498-510). -/
noncomputable def CSys.finish (I : Inter P κ n) (s : CSys P κ n k) : CSys P κ n k :=
  { (s.initInter I).addInter I with
    inter := if s.mem then fun _ => none else ((s.initInter I).addInter I).inter
    contained := true
    needNew := false }

/-- `buildHamiltonian` for a built basis (SystemBase.cpp:473-512). -/
noncomputable def CSys.build (I : Inter P κ n) (s : CSys P κ n k) : Out (CSys P κ n k) :=
  if s.needNew then
    if s.contained then
      if s.mem ∨ s.Vc.isNone ∨ s.Hc.isNone then .throw
      else .ok ({ s with V := s.Vc.getD s.V, H := s.Hc.getD s.H }.finish I)
    else if s.mem then .ok (s.finish I)
    else .ok ({ s with Vc := some s.V, Hc := some s.H }.finish I)
  else .ok s

/-- `buildInteraction` (SystemBase.cpp:515-523). -/
noncomputable def CSys.buildInteraction (I : Inter P κ n) (s : CSys P κ n k) : CSys P κ n k := s.initInter I

/-- `diagonalize` after buildHamiltonian (SystemBase.cpp:694-746). -/
noncomputable def CSys.diagonalize (s : CSys P κ n k) (U : Matrix k k ℂ) (d : k → ℝ) : CSys P κ n k :=
  { s with V := s.V * U, H := Matrix.diagonal fun i => (d i : ℂ) }

/-- `rotate` after buildHamiltonian (SystemBase.cpp:817-832) with the state rotator T. -/
noncomputable def CSys.rotate (s : CSys P κ n k) (T : Matrix n n ℂ) : CSys P κ n k :=
  { s with
    V := T * s.V
    Vc := s.Vc.map fun A => T * A
    inter := fun key => (s.inter key).map fun M => (T * s.V)ᴴ * (s.V * M * s.Vᴴ) * (T * s.V) }

/-- `unitarize` after buildHamiltonian for a square basis (SystemBase.cpp:762-808). -/
noncomputable def CSys.unitarize (s : CSys P κ k k) : CSys P κ k k :=
  { s with V := 1, Vc := none, Hc := none, art := true }

end PI
