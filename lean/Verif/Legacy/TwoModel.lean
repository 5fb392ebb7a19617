import Verif.Legacy.ElemModel
import Verif.Legacy.Basisnames
import Verif.Pair.Model

/-!
# HamiltonianTwo.cpp: the interaction of two atoms in the legacy program
-/

namespace PI

/-- The precalculations of the two objects `matrixelements_atom1`, `matrixelements_atom2` (HamiltonianTwo.cpp:425-428, 455-462), for the ranks of the list in turn. Both
use the same database file, in which the rows are separated by species: `same` says that the species are equal. -/
noncomputable def twoPrecalc (U : Units) (I1 I2 : Option (OldKey → ℝ)) (same : Bool) (b1 b2 : List Old1) :
    List ℤ → (Cells × OldDb) × (Cells × OldDb) → Out ((Cells × OldDb) × (Cells × OldDb))
  | [], s => .ok s
  | k :: ks, s =>
    precalculate U I1 s.1.2 s.1.2 s.1.1 b1 (preMultipole k) >>= fun s1 =>
    let db2 := if same then s1.2 else s.2.2
    precalculate U I2 db2 db2 s.2.1 b2 (preMultipole k) >>= fun s2 =>
    twoPrecalc U I1 I2 same b1 b2 ks ((s1.1, if same then s2.2 else s1.2), s2)

/-- One term of the sum (HamiltonianTwo.cpp:549-578). `std::pow(-1, kappa2)` is `sgn`; the ints q1, q2 are differences of floats that are integers for valid states. -/
noncomputable def oldPairTerm (U : Units) (c1 c2 : Cells) (k1 k2 : ℤ) (row col : Old1 × Old1) : ℝ :=
  if oldSelMultipole row.1 col.1 k1 && oldSelMultipole row.2 col.2 k2 then
    let q1 := (row.1.m - col.1.m).tdiv 2
    let q2 := (row.2.m - col.2.m).tdiv 2
    if q1 = -q2 then
      U.ke * sgn k2 * Real.sqrt (binom (k1 + k2) (k1 + q1) * binom (k1 + k2) (k2 - q2)) * oldMultipole c1 row.1 col.1 k1 * oldMultipole c2 row.2 col.2 k2
    else 0
  else 0

/-- The value for a pair of pair states, kappa1 = 1, ..., sumOfKappas - 1 (HamiltonianTwo.cpp:546-579). -/
noncomputable def oldPairVal (U : Units) (c1 c2 : Cells) (sum : ℕ) (row col : Old1 × Old1) : ℝ :=
  ((List.range (sum - 1)).map fun i : ℕ => oldPairTerm U c1 c2 (i + 1) (sum - (i + 1)) row col).sum

/-- The entry below or on the diagonal (HamiltonianTwo.cpp:518-590): necessary states, equal total momentum, more than the tolerance 1e-32. -/
noncomputable def oldPairEntry (U : Units) (c1 c2 : Cells) (nec : Fin N → Bool) (b : Fin N → Old1 × Old1) (sum : ℕ) (r c : Fin N) : ℝ :=
  open Classical in
  if nec c = false ∨ nec r = false then 0
  else if ((b c).1.m + (b c).2.m).tdiv 2 ≠ ((b r).1.m + (b r).2.m).tdiv 2 then 0
  else if |oldPairVal U c1 c2 sum (b r) (b c)| > 1e-32 then oldPairVal U c1 c2 sum (b r) (b c) else 0

/-- `mat_multipole[sum - 2].entries()` (HamiltonianTwo.cpp:506-605): both triangles receive the value that was calculated for the lower one. -/
noncomputable def oldPairMat (U : Units) (c1 c2 : Cells) (nec : Fin N → Bool) (b : Fin N → Old1 × Old1) (sum : ℕ) : Matrix (Fin N) (Fin N) ℂ :=
  fun r c => if r < c then (oldPairEntry U c1 c2 nec b sum c r : ℂ) else (oldPairEntry U c1 c2 nec b sum r c : ℂ)

/-- The ranks for which elements are precalculated (HamiltonianTwo.cpp:437-438, 455). -/
def oldKappas (exponent : ℤ) : List ℤ := if exponent > 2 then (List.range (exponent - 2).toNat).map fun i : ℕ => (i : ℤ) + 1 else []

/-- The sums of ranks, 2, ..., exponent - 1 (HamiltonianTwo.cpp:439-440, 506). -/
def oldSums (exponent : ℤ) : List ℕ := if exponent > 2 then (List.range (exponent - 2).toNat).map (· + 2) else []

/-- The interaction at a distance before the change of basis (HamiltonianTwo.cpp:428-605, 822-835): `pos = 1. / std::pow(position, sum + 1)`. -/
noncomputable def oldInteraction (U : Units) (c1 c2 : Cells) (nec : Fin N → Bool) (b : Fin N → Old1 × Old1) (exponent : ℤ) (R : ℝ) : Matrix (Fin N) (Fin N) ℂ :=
  ((oldSums exponent).map fun sum => ((1 / R ^ (sum + 1) : ℝ) : ℂ) • oldPairMat U c1 c2 nec b sum).sum

/-- The interaction part of `calculate` (HamiltonianTwo.cpp:419-605, 822-835): the elements of the one-atom states that occur in the pair basis are precalculated,
then the interaction is built for every distance. `names` is the pair basis, `nec` the necessary states. -/
noncomputable def oldTwo (U : Units) (I1 I2 : Option (OldKey → ℝ)) (same : Bool) (names : List (Named (Old1 × Old1))) (nec : Fin names.length → Bool) (exponent : ℤ)
    (db1 db2 : OldDb) : Out (ℝ → Matrix (Fin names.length) (Fin names.length) ℂ) :=
  twoPrecalc U I1 I2 same ((buildFromTwo false names).map (·.2)) ((buildFromTwo true names).map (·.2)) (oldKappas exponent)
    ((fun _ => none, db1), (fun _ => none, db2)) >>= fun s =>
  .ok fun R => oldInteraction U s.1.1 s.2.1 nec (fun i => (names.get i).2) exponent R

end PI
