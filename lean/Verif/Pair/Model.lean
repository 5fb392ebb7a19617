import Verif.Field.Model
import Verif.Green.Model
import Mathlib.Analysis.SpecialFunctions.Complex.Arg
import Mathlib.Data.Nat.Choose.Basic

/-!
# SystemTwo.cpp: distance, angle, order, Green tensor, and the interaction of two atoms

Real numbers instead of `double`.  `j`, `m`, `s` are doubled.  `N` pair states; `st i = none` means that one of the two
atoms of pair state i is in an artificial state.
-/

namespace PI
open Matrix

/-! ## Settings -/

/-- `std::numeric_limits<double>::max()`, the marker for "not set". -/
noncomputable def dblMax : ℝ := (2 - 2⁻¹ ^ 52) * 2 ^ 1023

/-- The settings of a SystemTwo that the interaction uses (SystemTwo.hpp:150-170). -/
structure PairParams where
  x : ℝ
  y : ℝ
  z : ℝ
  dist : ℝ
  gt : Bool
  surf : ℝ
  order : ℕ

/-- A fresh SystemTwo (SystemTwo.cpp:43-49). -/
noncomputable def PairParams.fresh : PairParams := ⟨0, 0, dblMax, dblMax, false, dblMax, 3⟩

/-- `enableGreenTensor` (SystemTwo.cpp:89-97): the flag is assigned before the exception. -/
noncomputable def PairParams.enableGT (p : PairParams) (b : Bool) : Out Unit × PairParams :=
  (if !b ∧ p.surf ≠ dblMax then .throw else .ok (), { p with gt := b })

/-- `setSurfaceDistance` (SystemTwo.cpp:99-106). -/
noncomputable def PairParams.setSurface (p : PairParams) (d : ℝ) : PairParams :=
  if d ≠ dblMax then { p with surf := d, gt := true } else { p with surf := d }

/-- `setDistance` (SystemTwo.cpp:108-115); for a current distance of zero C++ yields NaN. -/
noncomputable def PairParams.setDistance (p : PairParams) (d : ℝ) : PairParams :=
  { p with x := p.x / p.dist * d, y := p.y / p.dist * d, z := p.z / p.dist * d, dist := d }

/-- `setDistanceVector` (SystemTwo.cpp:117-127). -/
noncomputable def PairParams.setVector (p : PairParams) (v : V3) : PairParams :=
  { p with
    x := v 0, y := v 1, z := v 2
    dist := Real.sqrt (v 0 * v 0 + v 1 * v 1 + v 2 * v 2)
    gt := if v 1 ≠ 0 then true else p.gt }

/-- `setAngle` (SystemTwo.cpp:129-135). -/
noncomputable def PairParams.setAngle (p : PairParams) (a : ℝ) : PairParams :=
  { p with x := p.dist * Real.sin a, y := 0, z := p.dist * Real.cos a }

/-- `setOrder` (SystemTwo.cpp:137-141) for an argument that converts to an unsigned integer. -/
def PairParams.setOrder (p : PairParams) (o : ℕ) : PairParams := { p with order := o }

/-- The calls that change the settings of the interaction. -/
inductive PairOp where
  | distance (d : ℝ)
  | vector (v : V3)
  | angle (a : ℝ)
  | order (o : ℕ)
  | surface (d : ℝ)
  | green (b : Bool)

/-- The settings after a call, whether it threw or not. -/
noncomputable def PairOp.run (p : PairParams) : PairOp → PairParams
  | .distance d => p.setDistance d
  | .vector v => p.setVector v
  | .angle a => p.setAngle a
  | .order o => p.setOrder o
  | .surface d => p.setSurface d
  | .green b => (p.enableGT b).2

/-! ## The Le Roy check -/

/-- What `checkDistance` reads of a pair state: `none` for artificial ones, else the estimated and the precise Le Roy radius
(SystemTwo.cpp:1545-1562, State.cpp: getLeRoyRadius). -/
abbrev RoyState := Option (ℝ × ℝ)

/-- The loop over the states (SystemTwo.cpp:1544-1564): the smallest estimate so far with its precise radius. -/
noncomputable def royLoop : List RoyState → ℝ × Option ℝ → ℝ × Option ℝ
  | [], acc => acc
  | none :: L, acc => royLoop L acc
  | some (est, prec) :: L, acc => royLoop L (if est < acc.1 then (est, some prec) else acc)

/-- `checkDistance` (SystemTwo.cpp:1537-1582): whether it warns, and the stored minimal radius (`dblMax`: not known). -/
noncomputable def royCheck (L : List RoyState) (stored d : ℝ) : Bool × ℝ :=
  let r := if stored = dblMax then ((royLoop L (dblMax, none)).2.getD 0) else stored
  (decide (d < r), r)

/-! ## Which operators are needed -/

/-- The keys of the interaction maps (SystemTwo.hpp: interaction_angulardipole, interaction_multipole,
interaction_greentensor_dd, _dq, _qd). -/
inductive PKey where
  | ang (key : ℤ)
  | mul (order : ℕ)
  | dd (key : ℕ)
  | dq (key : ℕ)
  | qd (key : ℕ)
deriving DecidableEq

/-- `std::abs(val) > tolerance` (SystemTwo.cpp:681). -/
noncomputable def overTol (v : ℝ) : Bool := decide (|v| > 1e-16)

/-- The angle terms (SystemTwo.cpp:746-775). -/
noncomputable def angleTerms (a : ℝ) : List (ℤ × ℝ) :=
  [ (4, 1 - 3 * Real.cos a ^ 2),
    (2, -1 + 1.5 * Real.sin a ^ 2),
    (5, 3 / Real.sqrt 2 * Real.sin a * Real.cos a),
    (1, -3 / Real.sqrt 2 * Real.sin a * Real.cos a),
    (8, -1.5 * Real.sin a ^ 2),
    (0, -1.5 * Real.sin a ^ 2) ]

/-- `std::atan2(distance_x, distance_z)`. -/
noncomputable def atan2 (x z : ℝ) : ℝ := Complex.arg ⟨z, x⟩

/-- The settings for which the Green tensor branch is taken (SystemTwo.cpp:683-684). -/
def PairParams.greenBranch (p : PairParams) : Prop :=
  p.y ≠ 0 ∨ p.surf ≠ dblMax ∨ (p.x ≠ 0 ∧ p.order > 3) ∨ p.gt = true

/-- The GreenTensor object of a call (SystemTwo.cpp:698-702). -/
noncomputable def PairParams.green (p : PairParams) : Out Unit × GT :=
  if p.surf ≠ dblMax then (GT.new p.x p.y p.z).addSurface p.surf else (.ok (), GT.new p.x p.y p.z)

/-- Index pairs in the order of the loops (SystemTwo.cpp:707-715). -/
def idx2 : List (Fin 3 × Fin 3) := (List.finRange 3).flatMap fun i => (List.finRange 3).map fun j => (i, j)

/-- Index triples in the order of the loops (SystemTwo.cpp:720-736). -/
def idx3 : List (Fin 3 × Fin 3 × Fin 3) :=
  (List.finRange 3).flatMap fun i => (List.finRange 3).flatMap fun j => (List.finRange 3).map fun k => (i, j, k)

/-- `3 * i2 + i1`. -/
def key2 (i : Fin 3 × Fin 3) : ℕ := 3 * i.2.val + i.1.val

/-- `9 * i3 + 3 * i2 + i1`. -/
def key3 (i : Fin 3 × Fin 3 × Fin 3) : ℕ := 9 * i.2.2.val + 3 * i.2.1.val + i.1.val

/-- `greentensor_terms_dd` (SystemTwo.cpp:705-715). -/
noncomputable def ddTerms (G : Fin 3 → Fin 3 → ℝ) : List (ℕ × ℝ) :=
  (idx2.filter fun i => overTol (G i.1 i.2)).map fun i => (key2 i, G i.1 i.2)

/-- `greentensor_terms_dq`, `greentensor_terms_qd` (SystemTwo.cpp:717-736). -/
noncomputable def dqTerms (G : Fin 3 → Fin 3 → Fin 3 → ℝ) : List (ℕ × ℝ) :=
  (idx3.filter fun i => overTol (G i.1 i.2.1 i.2.2)).map fun i => (key3 i, G i.1 i.2.1 i.2.2)

/-- The maps kept between calls (SystemTwo.hpp): the terms, and for each key whether an operator is stored. -/
structure PairMaps where
  ang : List (ℤ × ℝ)
  dd : List (ℕ × ℝ)
  dq : List (ℕ × ℝ)
  qd : List (ℕ × ℝ)
  stored : PKey → Bool

/-- The orders 3, …, ordermax (SystemTwo.cpp:785, 1358). -/
def mulOrders (o : ℕ) : List ℕ := (List.range (o - 2)).map (· + 3)

/-- Store operators for keys. -/
def PairMaps.store (s : PairMaps) (keys : List PKey) : PairMaps := { s with stored := fun k => s.stored k || decide (k ∈ keys) }

/-- `initializeInteraction` as far as the maps are concerned (SystemTwo.cpp:656-800, 1277-1329); the maps after the call,
whether it threw or not.  The precalculation of matrix elements is left out. -/
noncomputable def initPair (p : PairParams) (s : PairMaps) : Out Unit × PairMaps :=
  open Classical in
  if p.dist = dblMax then (.ok (), s) else
  let s : PairMaps := ⟨[], [], [], [], s.stored⟩
  if p.greenBranch then
    if p.gt = false then (.throw, s) else
    if p.surf ≠ dblMax ∧ p.y ≠ 0 then (.throw, s) else
    match p.green with
    | (.ok _, g) =>
      let s := if p.order ≥ 3 then { s with dd := ddTerms g.getDD.1 } else s
      let s := if p.order ≥ 4 then { s with dq := dqTerms g.getDQ.1, qd := dqTerms g.getQD.1 } else s
      if p.order ≥ 5 then (.throw, s) else
      (.ok (), s.store (s.dd.map (.dd ·.1) ++ s.dq.map (.dq ·.1) ++ s.qd.map (.qd ·.1)))
    | (o, _) => (o, s)
  else if p.x ≠ 0 then
    let s := { s with ang := (angleTerms (atan2 p.x p.z)).filter fun t => overTol t.2 }
    (.ok (), s.store (s.ang.map (.ang ·.1)))
  else (.ok (), s.store ((mulOrders p.order).map .mul))

/-- The keys with factors that `addInteraction` adds to the Hamiltonian (SystemTwo.cpp:1337-1364). -/
noncomputable def addPair (p : PairParams) (s : PairMaps) : List (PKey × ℝ) :=
  open Classical in
  if p.dist = dblMax then [] else
  if p.gt then s.dd.map (fun t => (.dd t.1, t.2)) ++ s.dq.map (fun t => (.dq t.1, t.2)) ++ s.qd.map (fun t => (.qd t.1, t.2))
  else if p.x ≠ 0 then s.ang.map fun t => (.ang t.1, t.2 * (1 / p.dist ^ 3))
  else (mulOrders p.order).map fun o => (.mul o, 1 / p.dist ^ o)

/-! ## The operators between pair states -/

variable {N : ℕ}

/-- The element `getElectricMultipole(row, col, kappa)` (MatrixElementCache.cpp:355-357); equal species never throw. -/
noncomputable def elem (C : FieldConsts) (radial : RadKey → ℝ) (me : Method) (kappa : ℤ) (a b : QN) : ℝ :=
  outVal (electricMultipole C.elem radial me a b kappa kappa)

/-- `int q = r.getM() - c.getM()` (SystemTwo.cpp:873-874). -/
def mDiff (a b : QN) : ℤ := (a.m - b.m).tdiv 2

/-- The loops over the pairs of states (SystemTwo.cpp:858-872): artificial states and the upper triangle are skipped. -/
noncomputable def pairMat (st : Fin N → Option (QN × QN)) (f : QN × QN → QN × QN → ℂ) : Matrix (Fin N) (Fin N) ℂ :=
  fun r c => if r < c then 0 else match st r, st c with
    | some a, some b => f a b
    | _, _ => 0

/-- The key of the angular operator (SystemTwo.cpp:1231). -/
def angKey (q1 q2 : ℤ) : ℤ := if q1 < q2 then 3 * (q1 + 1) + (q2 + 1) else 3 * (q2 + 1) + (q1 + 1)

/-- The entry for the angular dipole-dipole operator of a key (SystemTwo.cpp:1225-1244). -/
noncomputable def angEntry (C : FieldConsts) (radial : RadKey → ℝ) (me : Method) (key : ℤ) (a b : QN × QN) : ℂ :=
  if selMultipole a.1 b.1 1 && selMultipole a.2 b.2 1 && decide (angKey (mDiff a.1 b.1) (mDiff a.2 b.2) = key) then
    ((C.ke * elem C radial me 1 a.1 b.1 * elem C radial me 1 a.2 b.2 : ℝ) : ℂ)
  else 0

/-- `boost::math::binomial_coefficient<double>`, defined for 0 ≤ k ≤ n. -/
def binom (n k : ℤ) : ℕ := n.toNat.choose k.toNat

/-- One term of the multipole sum (SystemTwo.cpp:1254-1271). -/
noncomputable def mulTerm (C : FieldConsts) (radial : RadKey → ℝ) (me : Method) (order : ℕ) (a b : QN × QN) (k1 : ℤ) : ℝ :=
  let k2 : ℤ := order - 1 - k1
  if selMultipole a.1 b.1 k1 && selMultipole a.2 b.2 k2 then
    C.ke * sgn k2 * Real.sqrt (binom (k1 + k2) (k1 + mDiff a.1 b.1) * binom (k1 + k2) (k2 - mDiff a.2 b.2))
      * elem C radial me k1 a.1 b.1 * elem C radial me k2 a.2 b.2
  else 0

/-- The entry for the multipole operator of an order (SystemTwo.cpp:1247-1275). -/
noncomputable def mulEntry (C : FieldConsts) (radial : RadKey → ℝ) (me : Method) (order : ℕ) (a b : QN × QN) : ℂ :=
  if mDiff a.1 b.1 + mDiff a.2 b.2 = 0 then
    (((List.range (order - 2)).map fun i : ℕ => mulTerm C radial me order a b ((i : ℤ) + 1)).sum : ℝ)
  else 0

/-- The dipole vector entries (SystemTwo.cpp:891-907, 910-927, 940-958, 1083-1099); `none` is `continue`. -/
noncomputable def vecEntry (i : Fin 3) (q : ℤ) (d : ℝ) : Option ℝ :=
  if i = 0 ∧ |q| = 1 then some (1 / Real.sqrt 2 * d * (if q = 1 then -1 else 1))
  else if i = 1 ∧ |q| = 1 then some (1 / Real.sqrt 2 * d)
  else if i = 2 ∧ q = 0 then some d
  else none

/-- The entry for the Green tensor dipole-dipole operator of a key (SystemTwo.cpp:878-937). -/
noncomputable def ddEntry (C : FieldConsts) (radial : RadKey → ℝ) (me : Method) (i : Fin 3 × Fin 3) (a b : QN × QN) : ℂ :=
  if selMultipole a.1 b.1 1 && selMultipole a.2 b.2 1 then
    match vecEntry i.1 (mDiff a.1 b.1) (elem C radial me 1 a.1 b.1), vecEntry i.2 (mDiff a.2 b.2) (elem C radial me 1 a.2 b.2) with
    | some v1, some v2 =>
      let val : ℂ := ((-C.ke * v1 * v2 : ℝ) : ℂ)
      let val := if i.1 = 1 ∧ i.2 = 1 then val * -1 else val
      if key2 i % 2 ≠ 0 then val * Complex.I else val
    | _, _ => 0
  else 0

/-- The quadrupole matrix entries (SystemTwo.cpp:962-1034, 1104-1176); `t`, `o` are the multipole elements of rank 2 and 0. -/
noncomputable def quadEntry (j k : Fin 3) (q : ℤ) (t o : ℝ) : ℝ :=
  if j = 0 ∧ k = 0 then
    if |q| = 2 then t * Real.sqrt (5 / 4)
    else if q = 0 then -Real.sqrt (2 / 3) * t * Real.sqrt (5 / 4) + Real.sqrt (10 / 3) * o * Real.sqrt (1 / 4) else 0
  else if j = 0 ∧ k = 1 then
    if |q| = 2 then t * Real.sqrt (5 / 4) * (if q = 2 then -1 else 1) else 0
  else if j = 0 ∧ k = 2 then
    if |q| = 1 then t * Real.sqrt (5 / 4) * (if q = 1 then -1 else 1) else 0
  else if j = 1 ∧ k = 0 then
    if |q| = 2 then t * Real.sqrt (5 / 4) * (if q = 2 then -1 else 1) else 0
  else if j = 1 ∧ k = 1 then
    if |q| = 2 then -t * Real.sqrt (5 / 4)
    else if q = 0 then -Real.sqrt (2 / 3) * t * Real.sqrt (5 / 4) + Real.sqrt (10 / 3) * o * Real.sqrt (1 / 4) else 0
  else if j = 1 ∧ k = 2 then
    if |q| = 1 then t * Real.sqrt (5 / 4) else 0
  else if j = 2 ∧ k = 0 then
    if |q| = 1 then t * Real.sqrt (5 / 4) * (if q = 1 then -1 else 1) else 0
  else if j = 2 ∧ k = 1 then
    if |q| = 1 then t * Real.sqrt (5 / 4) else 0
  else
    if q = 0 then Real.sqrt (8 / 3) * t * Real.sqrt (5 / 4) + Real.sqrt (10 / 3) * o * Real.sqrt (1 / 4) else 0

/-- The entry for the Green tensor dipole-quadrupole operator of a key (SystemTwo.cpp:939-1050). -/
noncomputable def dqEntry (C : FieldConsts) (radial : RadKey → ℝ) (me : Method) (i : Fin 3 × Fin 3 × Fin 3) (a b : QN × QN) : ℂ :=
  if (selMultipole a.1 b.1 1 && selMultipole a.2 b.2 2) || (selMultipole a.1 b.1 1 && selMultipole a.2 b.2 0) then
    match vecEntry i.1 (mDiff a.1 b.1) (elem C radial me 1 a.1 b.1) with
    | some v =>
      let m := quadEntry i.2.1 i.2.2 (mDiff a.2 b.2) (elem C radial me 2 a.2 b.2) (elem C radial me 0 a.2 b.2)
      if overTol (v * m) then
        let val : ℂ := ((C.ke * v * m / Real.sqrt 30 : ℝ) : ℂ)
        let val := if i.1 = 1 ∧ i.2.1 ≠ i.2.2 ∧ (i.2.1 = 1 ∨ i.2.2 = 1) then val * -1 else val
        if key3 i % 2 ≠ 0 then val * Complex.I else val
      else 0
    | none => 0
  else 0

/-- The entry for the Green tensor quadrupole-dipole operator of a key (SystemTwo.cpp:1052-1190). -/
noncomputable def qdEntry (C : FieldConsts) (radial : RadKey → ℝ) (me : Method) (i : Fin 3 × Fin 3 × Fin 3) (a b : QN × QN) : ℂ :=
  if (selMultipole a.1 b.1 2 && selMultipole a.2 b.2 1) || (selMultipole a.1 b.1 0 && selMultipole a.2 b.2 1) then
    match vecEntry i.2.2 (mDiff a.2 b.2) (elem C radial me 1 a.2 b.2) with
    | some v =>
      let m := quadEntry i.1 i.2.1 (mDiff a.1 b.1) (elem C radial me 2 a.1 b.1) (elem C radial me 0 a.1 b.1)
      if overTol (v * m) then
        let val : ℂ := ((C.ke * v * m / Real.sqrt 30 : ℝ) : ℂ)
        let val := if i.2.2 = 1 ∧ i.1 ≠ i.2.1 ∧ (i.1 = 1 ∨ i.2.1 = 1) then val * -1 else val
        if key3 i % 2 ≠ 0 then val * Complex.I else val
      else 0
    | none => 0
  else 0

/-- The index pair of a key: `key % 3`, `key / 3`. -/
def unkey2 (k : ℕ) : Fin 3 × Fin 3 := (Fin.ofNat 3 (k % 3), Fin.ofNat 3 (k / 3))

/-- The index triple of a key: `(key % 9) % 3`, `(key % 9) / 3`, `key / 9`. -/
def unkey3 (k : ℕ) : Fin 3 × Fin 3 × Fin 3 := (Fin.ofNat 3 (k % 9 % 3), Fin.ofNat 3 (k % 9 / 3), Fin.ofNat 3 (k / 9))

/-- The operator of a key between the pair states: the triplets of the lower triangle through `selfadjointView<Lower>`
(SystemTwo.cpp:1283-1329). -/
noncomputable def pairOper (C : FieldConsts) (radial : RadKey → ℝ) (me : Method) (st : Fin N → Option (QN × QN)) :
    PKey → Matrix (Fin N) (Fin N) ℂ
  | .ang key => lowerView (pairMat st (angEntry C radial me key))
  | .mul o => lowerView (pairMat st (mulEntry C radial me o))
  | .dd k => lowerView (pairMat st (ddEntry C radial me (unkey2 k)))
  | .dq k => lowerView (pairMat st (dqEntry C radial me (unkey3 k)))
  | .qd k => lowerView (pairMat st (qdEntry C radial me (unkey3 k)))

/-- The keys and factors of a successful `initializeInteraction` followed by `addInteraction`. -/
noncomputable def pairTerms (p : PairParams) : List (PKey × ℝ) := addPair p (initPair p ⟨[], [], [], [], fun _ => false⟩).2

/-- The operator that the interaction adds between the pair states. -/
noncomputable def pairH (C : FieldConsts) (radial : RadKey → ℝ) (me : Method) (st : Fin N → Option (QN × QN)) (p : PairParams) :
    Matrix (Fin N) (Fin N) ℂ :=
  ((pairTerms p).map fun t => (t.2 : ℂ) • pairOper C radial me st t.1).sum

end PI
