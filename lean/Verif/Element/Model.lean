import Verif.Wigner.Symbols
import Verif.Basic

/-!
# MatrixElementCache.cpp: keys, stored values, selection rules, matrix elements

`j`, `m`, `s` are doubled integers, `l`, `kappa`, `n` plain ones.  `int(x)` of a doubled number `x2` is
`x2.tdiv 2` (C++ truncates).  Radial integrals are an arbitrary function of the radial key.
-/

namespace PI

/-- The quantum numbers of a physical one-atom state that the matrix elements use; `s` is a function
of the species (State.cpp:180-187). -/
structure QN where
  species : String
  n : ℤ
  l : ℤ
  j : ℤ
  m : ℤ
  s : ℤ
deriving DecidableEq

/-- What every physical state satisfies: l is non-negative, j is l±s, …, and m is j minus an integer
(as far as integrality is concerned). -/
def QN.Physical (a : QN) : Prop :=
  0 ≤ a.l ∧ 0 ≤ a.s ∧ |2 * a.l - a.s| ≤ a.j ∧ a.j ≤ 2 * a.l + a.s ∧ (a.j + a.s) % 2 = 0 ∧
  |a.m| ≤ a.j ∧ (a.j + a.m) % 2 = 0

/-! ## Keys -/

/-- `method_t` (MatrixElementCache.hpp: `enum method_t { NUMEROV, WHITTAKER }`). -/
inductive Method where
  | numerov
  | whittaker
deriving DecidableEq

/-- `CacheKey_cache_radial` (MatrixElementCache.cpp:210-224, `==` at 287-290: all members). -/
structure RadKey where
  method : Method
  species : String
  kappa : ℤ
  n : ℤ × ℤ
  l : ℤ × ℤ
  j : ℤ × ℤ
deriving DecidableEq

/-- Constructor (MatrixElementCache.cpp:210-224). -/
def RadKey.make (method : Method) (species : String) (kappa n1 n2 l1 l2 j1 j2 : ℤ) : RadKey :=
  if n1 < n2 ∨ (n1 = n2 ∧ (l1 < l2 ∨ (l1 = l2 ∧ j1 ≤ j2))) then
    ⟨method, species, kappa, (n1, n2), (l1, l2), (j1, j2)⟩
  else ⟨method, species, kappa, (n2, n1), (l2, l1), (j2, j1)⟩

/-- `CacheKey_cache_angular` without `sgn`, which `==` and the hash ignore
(MatrixElementCache.cpp:226-238, 292-295). -/
structure AngKey where
  kappa : ℤ
  j : ℤ × ℤ
  m : ℤ × ℤ
deriving DecidableEq

/-- Constructor (MatrixElementCache.cpp:226-238): key and `sgn`. -/
noncomputable def AngKey.make (kappa j1 j2 m1 m2 : ℤ) : AngKey × ℝ :=
  if j1 < j2 ∨ (j1 = j2 ∧ m1 ≤ m2) then (⟨kappa, (j1, j2), (m1, m2)⟩, 1)
  else (⟨kappa, (j2, j1), (m2, m1)⟩, sgn ((j1 - m1 + j2 - m2).tdiv 2))

/-- `CacheKey_cache_reduced_commutes` without `sgn` (MatrixElementCache.cpp:240-252, 297-300). -/
structure ComKey where
  s : ℤ
  kappa : ℤ
  l : ℤ × ℤ
  j : ℤ × ℤ
deriving DecidableEq

/-- Constructor (MatrixElementCache.cpp:240-252): key and `sgn`.  `l1 + j1 + l2 + j2 + 2*s` doubled. -/
noncomputable def ComKey.make (s kappa l1 l2 j1 j2 : ℤ) : ComKey × ℝ :=
  if l1 < l2 ∨ (l1 = l2 ∧ j1 ≤ j2) then (⟨s, kappa, (l1, l2), (j1, j2)⟩, 1)
  else (⟨s, kappa, (l2, l1), (j2, j1)⟩, sgn ((2 * l1 + j1 + 2 * l2 + j2 + 2 * s).tdiv 2))

/-- `CacheKey_cache_reduced_multipole` without `sgn` (MatrixElementCache.cpp:254-266, 302-305). -/
structure MulKey where
  kappa : ℤ
  l : ℤ × ℤ
deriving DecidableEq

/-- Constructor (MatrixElementCache.cpp:254-266): key and `sgn`. -/
noncomputable def MulKey.make (kappa l1 l2 : ℤ) : MulKey × ℝ :=
  if l1 ≤ l2 then (⟨kappa, (l1, l2)⟩, 1) else (⟨kappa, (l2, l1)⟩, sgn kappa)

/-! ## Stored values (computed in `update`) -/

/-- MatrixElementCache.cpp:806-812. -/
noncomputable def AngKey.value (k : AngKey) : ℝ :=
  sgn ((k.j.1 - k.m.1).tdiv 2) * w3j k.j.1 (2 * k.kappa) k.j.2 (-k.m.1) (k.m.1 - k.m.2) k.m.2

/-- MatrixElementCache.cpp:839-860 with its explicit triangle test. -/
noncomputable def ComKey.valueS (k : ComKey) : ℝ :=
  if 2 * k.l.1 ≥ |k.j.1 - k.s| ∧ 2 * k.l.1 ≤ k.j.1 + k.s ∧
     k.l.1 ≥ |k.l.2 - k.kappa| ∧ k.l.1 ≤ k.l.2 + k.kappa ∧
     k.j.2 ≥ |k.j.1 - 2 * k.kappa| ∧ k.j.2 ≤ k.j.1 + 2 * k.kappa ∧
     k.j.2 ≥ |2 * k.l.2 - k.s| ∧ k.j.2 ≤ 2 * k.l.2 + k.s then
    sgn ((2 * k.l.1 + k.s + k.j.2 + 2 * k.kappa).tdiv 2) *
      Real.sqrt ((k.j.1 + 1) * (k.j.2 + 1)) *
      w6j (2 * k.l.1) k.j.1 k.s k.j.2 (2 * k.l.2) (2 * k.kappa)
  else 0

/-- MatrixElementCache.cpp:889-910; only `l[0]` occurs. -/
noncomputable def ComKey.valueL (k : ComKey) : ℝ :=
  if k.s ≥ |k.j.1 - 2 * k.l.1| ∧ k.s ≤ k.j.1 + 2 * k.l.1 ∧
     k.s ≥ |k.s - 2 * k.kappa| ∧ k.s ≤ k.s + 2 * k.kappa ∧
     k.j.2 ≥ |k.j.1 - 2 * k.kappa| ∧ k.j.2 ≤ k.j.1 + 2 * k.kappa ∧
     k.j.2 ≥ |k.s - 2 * k.l.1| ∧ k.j.2 ≤ k.s + 2 * k.l.1 then
    sgn ((2 * k.l.1 + k.s + k.j.1 + 2 * k.kappa).tdiv 2) *
      Real.sqrt ((k.j.1 + 1) * (k.j.2 + 1)) *
      w6j k.s k.j.1 (2 * k.l.1) k.j.2 k.s (2 * k.kappa)
  else 0

/-- MatrixElementCache.cpp:935-941. -/
noncomputable def MulKey.value (k : MulKey) : ℝ :=
  sgn k.l.1 * Real.sqrt ((2 * k.l.1 + 1) * (2 * k.l.2 + 1)) *
    w3j (2 * k.l.1) (2 * k.kappa) (2 * k.l.2) 0 0 0

/-! ## Selection rules -/

/-- `selectionRulesMultipoleNew(state1, state2, kappa, q)` (MatrixElementCache.cpp:55-66). -/
def selMultipoleQ (a b : QN) (kappa q : ℤ) : Bool :=
  let validL := decide (|a.l - b.l| ≤ kappa) && decide (kappa.tmod 2 = |a.l - b.l|.tmod 2)
  let validJ := decide (|a.j - b.j| ≤ 2 * kappa) && decide (a.j + b.j ≥ 2 * kappa)
  let validM := decide (a.m = b.m + 2 * q)
  let validQ := decide (|q| ≤ kappa)
  let noZero := !(decide (kappa = 2) && decide (a.j = b.j) && decide (b.j = 3) &&
    decide (a.m = -b.m) && decide (|a.m - b.m| = 2))
  validL && validJ && validM && validQ && noZero

/-- `selectionRulesMultipoleNew(state1, state2, kappa)` (MatrixElementCache.cpp:68-78). -/
def selMultipole (a b : QN) (kappa : ℤ) : Bool :=
  let validL := decide (|a.l - b.l| ≤ kappa) && decide (kappa.tmod 2 = |a.l - b.l|.tmod 2)
  let validJ := decide (|a.j - b.j| ≤ 2 * kappa) && decide (a.j + b.j ≥ 2 * kappa)
  let validM := decide (|a.m - b.m| ≤ 2 * kappa)
  let noZero := !(decide (kappa = 2) && decide (a.j = b.j) && decide (b.j = 3) &&
    decide (a.m = -b.m) && decide (|a.m - b.m| = 2))
  validL && validJ && validM && noZero

/-- `selectionRulesMomentumNew(state1, state2, q)` (MatrixElementCache.cpp:39-45). -/
def selMomentumQ (a b : QN) (q : ℤ) : Bool :=
  decide (a.l = b.l) && decide (|a.j - b.j| ≤ 2) && decide (a.m = b.m + 2 * q) && decide (|q| ≤ 1)

/-- `selectionRulesMomentumNew(state1, state2)` (MatrixElementCache.cpp:47-52). -/
def selMomentum (a b : QN) : Bool :=
  decide (a.l = b.l) && decide (|a.j - b.j| ≤ 2) && decide (|a.m - b.m| ≤ 2)

/-! ## Matrix elements (with all constituents present) -/

/-- Constants of `Constants.hpp` used in matrix elements. -/
structure ElemConsts where
  e : ℝ
  muB : ℝ
  gL : ℝ
  gS : ℝ

/-- The value `getElectricMultipole(row, col, kappa_radial, kappa_angular)` returns once the
constituents are known (MatrixElementCache.cpp:414-462); species mismatch throws. -/
noncomputable def electricMultipole (C : ElemConsts) (radial : RadKey → ℝ) (me : Method) (row col : QN)
    (kr ka : ℤ) : Out ℝ :=
  if row.species ≠ col.species then .throw else
  let k1 := RadKey.make me row.species kr row.n col.n row.l col.l row.j col.j
  let k2 := AngKey.make ka row.j col.j row.m col.m
  let k3 := ComKey.make row.s ka row.l col.l row.j col.j
  let k4 := MulKey.make ka row.l col.l
  .ok (C.e * radial k1 * k2.2 * k2.1.value * k3.2 * k3.1.valueS * k4.2 * k4.1.value)

/-- The value `getMagneticDipole(row, col)` returns once the constituents are known
(MatrixElementCache.cpp:364-411). -/
noncomputable def magneticDipole (C : ElemConsts) (radial : RadKey → ℝ) (me : Method) (row col : QN) :
    Out ℝ :=
  if row.species ≠ col.species then .throw else
  let k1 := RadKey.make me row.species 0 row.n col.n row.l col.l row.j col.j
  let k2 := AngKey.make 1 row.j col.j row.m col.m
  let k3 := ComKey.make row.s 1 row.l col.l row.j col.j
  let k4 := ComKey.make row.s 1 row.l col.l row.j col.j
  .ok (-C.muB * radial k1 * k2.2 * k2.1.value *
    (C.gL * k3.2 * k3.1.valueS * Real.sqrt (row.l * (row.l + 1) * (2 * row.l + 1)) +
     C.gS * k4.2 * k4.1.valueL * Real.sqrt ((row.s : ℝ) / 2 * (row.s / 2 + 1) * (row.s + 1))))

end PI
