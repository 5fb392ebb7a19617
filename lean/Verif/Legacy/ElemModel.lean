import Verif.Legacy.Basisnames
import Verif.Element.Model
import Mathlib.Data.Int.Log
import Mathlib.Algebra.Order.Round
import Mathlib.Algebra.Order.Archimedean.Real.Basic

/-!
# MatrixElements.cpp: matrix elements of the legacy program

Only the overloads for `shared_ptr<const BasisnamesOne>`, which HamiltonianOne and HamiltonianTwo use.  `j` and `m` are doubled, the spin is 1/2
(the legacy program writes 0.5 in its formulas).  The five maps `cache_radial`, …, `cache_reduced_multipole` are one map here whose keys carry the
name of the map and the order kappa.  The database is restricted to the rows of the object's method and species.
-/

namespace PI

/-- The constants that both programs define in Constants.hpp:23-41 (gL, gS: MatrixElements.cpp:79-80). -/
structure Units where
  GHz : ℝ
  Vcm : ℝ
  G : ℝ
  um : ℝ
  gL : ℝ
  gS : ℝ

/-- `elementary_charge` (Constants.hpp:34). -/
noncomputable def Units.e (U : Units) : ℝ := U.GHz / U.um / U.Vcm
/-- `bohr_magneton` (Constants.hpp:35). -/
noncomputable def Units.bohr (U : Units) : ℝ := 0.5 * U.GHz / U.G
/-- `electron_rest_mass` (Constants.hpp:33). -/
noncomputable def Units.mass (U : Units) : ℝ := U.G * U.G * U.GHz / U.Vcm / U.Vcm
/-- `inverse_electron_rest_mass` (Constants.hpp:30). -/
noncomputable def Units.invMass (U : Units) : ℝ := U.Vcm * U.Vcm / U.G / U.G / U.GHz
/-- `inverse_electric_constant` and `coulombs_constant` (Constants.hpp:27, 32). -/
noncomputable def Units.ke (U : Units) : ℝ := U.Vcm * U.Vcm * U.um * U.um * U.um / U.GHz

/-! ## Keys -/

/-- The entries of the five maps (MatrixElements.hpp:79-90, keys built at MatrixElements.cpp:128-141, 172-185). -/
inductive OldKey where
  | rad (k : ℤ) (n l j : ℤ × ℤ)
  | ang (k : ℤ) (j m : ℤ × ℤ)
  | comS (k : ℤ) (l j : ℤ × ℤ)
  | comL (k : ℤ) (l j : ℤ × ℤ)
  | mul (k : ℤ) (l : ℤ × ℤ)
deriving DecidableEq

/-- The radial key: `StateTwoOld({n1,n2},{l1,l2},{j1,j2},{0,0}).order()` (StateOld.cpp:249-257; MatrixElements.cpp:172-176, 270-273). -/
def OldKey.radOf (k : ℤ) (a b : Old1) : OldKey :=
  if a.n < b.n ∨ (a.n = b.n ∧ (a.l < b.l ∨ (a.l = b.l ∧ (a.j < b.j ∨ a.j = b.j)))) then .rad k (a.n, b.n) (a.l, b.l) (a.j, b.j)
  else .rad k (b.n, a.n) (b.l, a.l) (b.j, a.j)

/-- The other keys keep the order of the states (MatrixElements.cpp:177-184). -/
def OldKey.angOf (k : ℤ) (a b : Old1) : OldKey := .ang k (a.j, b.j) (a.m, b.m)
/-- MatrixElements.cpp:181-182. -/
def OldKey.comSOf (k : ℤ) (a b : Old1) : OldKey := .comS k (a.l, b.l) (a.j, b.j)
/-- MatrixElements.cpp:139-140. -/
def OldKey.comLOf (k : ℤ) (a b : Old1) : OldKey := .comL k (a.l, b.l) (a.j, b.j)
/-- MatrixElements.cpp:183-184. -/
def OldKey.mulOf (k : ℤ) (a b : Old1) : OldKey := .mul k (a.l, b.l)

/-! ## Selection rules -/

/-- `selectionRulesMomentum(state1, state2, q)` (MatrixElements.cpp:36-42). -/
def oldSelMomentumQ (a b : Old1) (q : ℤ) : Bool :=
  decide (a.l = b.l) && decide (|a.j - b.j| ≤ 2) && decide (a.m = b.m + 2 * q) && decide (|q| ≤ 1)

/-- `selectionRulesMomentum(state1, state2)` (MatrixElements.cpp:44-49). -/
def oldSelMomentum (a b : Old1) : Bool :=
  decide (a.l = b.l) && decide (|a.j - b.j| ≤ 2) && decide (|a.m - b.m| ≤ 2)

/-- `selectionRulesMultipole(state1, state2, kappa, q)` (MatrixElements.cpp:51-61). -/
def oldSelMultipoleQ (a b : Old1) (kappa q : ℤ) : Bool :=
  let validL := decide (|a.l - b.l| ≤ kappa) && decide (kappa.tmod 2 = |a.l - b.l|.tmod 2)
  let validJ := decide (|a.j - b.j| ≤ 2 * kappa) && decide (a.j + b.j ≥ 2 * kappa)
  let validM := decide (a.m = b.m + 2 * q)
  let validQ := decide (|q| ≤ kappa)
  let noZero := !(decide (kappa = 2) && decide (a.j = b.j) && decide (b.j = 3) && decide (a.m = -b.m) && decide (|a.m - b.m| = 2))
  validL && validJ && validM && validQ && noZero

/-- `selectionRulesMultipole(state1, state2, kappa)` (MatrixElements.cpp:63-71). -/
def oldSelMultipole (a b : Old1) (kappa : ℤ) : Bool :=
  let validL := decide (|a.l - b.l| ≤ kappa) && decide (kappa.tmod 2 = |a.l - b.l|.tmod 2)
  let validJ := decide (|a.j - b.j| ≤ 2 * kappa) && decide (a.j + b.j ≥ 2 * kappa)
  let validM := decide (|a.m - b.m| ≤ 2 * kappa)
  let noZero := !(decide (kappa = 2) && decide (a.j = b.j) && decide (b.j = 3) && decide (a.m = -b.m) && decide (|a.m - b.m| = 2))
  validL && validJ && validM && noZero

/-! ## Values -/

/-- `calcRadialElement` (MatrixElements.cpp:547-563). `I` is the integral of the chosen method; `none` is the method "Error", which throws. -/
noncomputable def oldRadial (U : Units) (I : Option (OldKey → ℝ)) (k : ℤ) (key : OldKey) : Out ℝ :=
  let converter := if k = 0 then 1 else U.GHz / U.Vcm * U.um ^ (k - 1)
  match I with
  | some f => .ok (converter * f key)
  | none => .throw

/-- The formulas for missing entries (MatrixElements.cpp:449-541); `std::pow(-1, x)` of integer x is `sgn x`. -/
noncomputable def oldValue (U : Units) (I : Option (OldKey → ℝ)) : OldKey → Out ℝ
  | .rad k n l j => oldRadial U I k (.rad k n l j)
  | .ang k j m => .ok (sgn ((j.1 - m.1) / 2) * w3j j.1 (2 * k) j.2 (-m.1) (m.1 - m.2) m.2)
  | .comS k l j =>
    .ok (if 2 * l.1 ≥ |j.1 - 1| ∧ 2 * l.1 ≤ j.1 + 1 ∧ l.1 ≥ |l.2 - k| ∧ l.1 ≤ l.2 + k ∧
        j.2 ≥ |j.1 - 2 * k| ∧ j.2 ≤ j.1 + 2 * k ∧ j.2 ≥ |2 * l.2 - 1| ∧ j.2 ≤ 2 * l.2 + 1 then
      sgn ((2 * l.1 + 1 + j.2 + 2 * k) / 2) * Real.sqrt ((j.1 + 1) * (j.2 + 1)) * w6j (2 * l.1) j.1 1 j.2 (2 * l.2) (2 * k)
    else 0)
  | .comL k l j => .ok (sgn ((2 * l.1 + 1 + j.1 + 2 * k) / 2) * Real.sqrt ((j.1 + 1) * (j.2 + 1)) * w6j 1 j.1 (2 * l.1) j.2 1 (2 * k))
  | .mul k l => .ok (sgn l.1 * Real.sqrt ((2 * l.1 + 1) * (2 * l.2 + 1)) * w3j (2 * l.1) (2 * k) (2 * l.2) 0 0 0)

/-! ## precalculate -/

/-- The maps: `none` no entry, `some none` the sentinel `numeric_limits<double>::max()` (no calculated value equals it), `some (some x)` the value x. -/
abbrev Cells := OldKey → Option (Option ℝ)

/-- The rows of the database cache_elements.db (of the object's method and species). -/
abbrev OldDb := OldKey → Option ℝ

/-- The arguments of `precalculate` (MatrixElements.cpp:199-201); `q = none` is `numeric_limits<int>::max()`. -/
structure Pre where
  kappa : ℤ
  q : Option ℤ
  kr : ℤ
  el : Bool
  mag : Bool
  rad : Bool

/-- The keys inserted for one pair of states (MatrixElements.cpp:250-343). -/
def Pre.keys (p : Pre) (row col : Old1) : List OldKey :=
  if p.q.any (fun q => decide (row.m - col.m ≠ 2 * q)) then []
  else if (p.el && oldSelMultipole row col p.kappa) || (p.mag && oldSelMomentum row col) || p.rad then
    (if p.el || p.mag || p.rad then [.radOf p.kr row col] else []) ++
    (if p.el || p.mag then [.angOf p.kappa row col] else []) ++
    (if p.el || p.mag then [.comSOf p.kappa row col] else []) ++
    (if p.mag then [.comLOf p.kappa row col] else []) ++
    (if p.el then [.mulOf p.kappa row col] else [])
  else []

/-- `map.insert({key, max})` and, if the entry is new, a row of the temporary table (MatrixElements.cpp:270-283). -/
def addMissing (c : Cells × List OldKey) (k : OldKey) : Cells × List OldKey :=
  if (c.1 k).isSome then c else (Function.update c.1 k (some none), c.2 ++ [k])

/-- Rounding to six significant digits. -/
noncomputable def printAbs (x : ℝ) : ℝ :=
  if x = 0 then 0
  else
    let p : ℤ := 5 - Int.log 10 |x|
    (round (x * 10 ^ p) : ℝ) / 10 ^ p

/-- The number a double is printed as by `operator<<` of a stringstream: a sign and six significant digits. -/
noncomputable def printR (x : ℝ) : ℝ := open Classical in if x < 0 then -printAbs (-x) else printAbs x

/-- `precalculate` (MatrixElements.cpp:199-545): collect the missing keys over all pairs of states, load them with an inner join, calculate the rest and
insert the printed values. `dbIns` is the database when the rows are inserted, `db` when they are read; a row that is already there violates the UNIQUE
constraint (`INSERT` without `OR IGNORE`) and throws. Simplification: if a calculation throws, the map it was stored in is gone, too. -/
noncomputable def precalculate (U : Units) (I : Option (OldKey → ℝ)) (db dbIns : OldDb) (c : Cells) (basis : List Old1) (p : Pre) : Out (Cells × OldDb) :=
  open Classical in
  let ks := basis.flatMap fun col => basis.flatMap fun row => p.keys row col
  let c1 := ks.foldl addMissing (c, [])
  let c2 : Cells := fun k => if k ∈ c1.2 then (match db k with | some v => some (some v) | none => c1.1 k) else c1.1 k
  if ∃ k, c2 k = some none ∧ (oldValue U I k = .throw ∨ (dbIns k).isSome) then .throw
  else .ok (fun k => if c2 k = some none then (match oldValue U I k with | .ok v => some (some v) | _ => none) else c2 k,
    fun k => if c2 k = some none then (match oldValue U I k with | .ok v => some (printR v) | _ => none) else dbIns k)

/-- `precalculateMultipole` (MatrixElements.cpp:98-102). -/
def preMultipole (k : ℤ) : Pre := ⟨k, none, k, true, false, false⟩
/-- `precalculateRadial` (MatrixElements.cpp:104-108). -/
def preRadial (k : ℤ) : Pre := ⟨k, none, k, false, false, true⟩
/-- `precalculateElectricMomentum` (MatrixElements.cpp:110-113). -/
def preElectric (q : ℤ) : Pre := ⟨1, some q, 1, true, false, false⟩
/-- `precalculateMagneticMomentum` (MatrixElements.cpp:115-118). -/
def preMagnetic (q : ℤ) : Pre := ⟨1, some q, 0, false, true, false⟩
/-- `precalculateDiamagnetism` (MatrixElements.cpp:120-123). -/
def preDia (k q : ℤ) : Pre := ⟨k, some q, 2, true, false, false⟩

/-- Calls of `precalculate...` of one object in sequence, without other processes at work. -/
noncomputable def precalcAll (U : Units) (I : Option (OldKey → ℝ)) (basis : List Old1) : List Pre → Cells × OldDb → Out (Cells × OldDb)
  | [], s => .ok s
  | p :: ps, s => precalculate U I s.2 s.2 s.1 basis p >>= fun s' => precalcAll U I basis ps s'

/-! ## Getters -/

/-- `map[key]`: a missing entry reads as zero. -/
noncomputable def Cells.get (c : Cells) (k : OldKey) : ℝ := ((c k).getD (some 0)).getD 0

/-- `getMultipole` (MatrixElements.cpp:172-187), also `getElectricMomentum` with k = 1 (118-123). -/
noncomputable def oldMultipole (c : Cells) (a b : Old1) (k : ℤ) : ℝ :=
  c.get (.radOf k a b) * c.get (.angOf k a b) * c.get (.comSOf k a b) * c.get (.mulOf k a b)

/-- `getMagneticMomentum` (MatrixElements.cpp:125-150); muB = 0.5 (78). -/
noncomputable def oldMagnetic (U : Units) (c : Cells) (a b : Old1) : ℝ :=
  U.GHz / U.G * 0.5 * c.get (.radOf 0 a b) * c.get (.angOf 1 a b) *
    (U.gL * c.get (.comSOf 1 a b) * Real.sqrt (a.l * (a.l + 1) * (2 * a.l + 1)) +
     U.gS * c.get (.comLOf 1 a b) * Real.sqrt (0.5 * (0.5 + 1) * (2 * 0.5 + 1)))

/-- `getDiamagnetism` (MatrixElements.cpp:152-170). -/
noncomputable def oldDiamagnetism (U : Units) (c : Cells) (a b : Old1) (k : ℤ) : ℝ :=
  U.e * U.invMass * 1 / 12 * c.get (.radOf 2 a b) * c.get (.angOf k a b) * c.get (.comSOf k a b) * c.get (.mulOf k a b)

/-- `getRadial` (MatrixElements.cpp:189-197). -/
noncomputable def oldRadialGet (c : Cells) (a b : Old1) (k : ℤ) : ℝ := c.get (.radOf k a b)

end PI
