import Verif.Legacy.TwoModel

/-!
# Hamiltonianmatrix.cpp, HamiltonianTwo.cpp: combining one-atom Hamiltonians, symmetries, assembling the total matrix
-/

namespace PI

/-- `parity_t` without NA (Symmetry.hpp:26-30): NA is `none`. -/
inductive OldParity
  | even
  | odd
  deriving DecidableEq

/-- The integers behind `EVEN` and `ODD` (Symmetry.hpp:26-30). -/
def OldParity.int : OldParity → ℤ
  | .even => 1
  | .odd => -1

/-- `Symmetry` (Symmetry.hpp:32-36). -/
structure OldSym where
  /-- parity under inversion -/
  inversion : Option OldParity
  /-- parity under permutation -/
  permutation : Option OldParity
  /-- parity under reflection -/
  reflection : Option OldParity
  /-- total magnetic quantum number -/
  rotation : Option ℤ
  deriving DecidableEq

/-- `std::pow(-1, k)` as an int (Hamiltonianmatrix.cpp:640-642). -/
def parityOf (k : ℤ) : ℤ := if k % 2 = 0 then 1 else -1

/-- `parityL` of a pair state (Hamiltonianmatrix.cpp:640). -/
def parityL (x : Old1 × Old1) : ℤ := parityOf (x.1.l + x.2.l)
/-- `parityJ` (Hamiltonianmatrix.cpp:641); momenta are stored doubled, the sum of two half-integers is an integer. -/
def parityJ (x : Old1 × Old1) : ℤ := parityOf ((x.1.j + x.2.j) / 2)
/-- `parityM` (Hamiltonianmatrix.cpp:642). -/
def parityM (x : Old1 × Old1) : ℤ := parityOf ((x.1.m + x.2.m) / 2)

/-- The sign under inversion (Hamiltonianmatrix.cpp:650, 724). -/
def OldSym.invSign (s : OldSym) (x : Old1 × Old1) : ℤ := if s.inversion = some .even then -parityL x else parityL x
/-- The sign under permutation (Hamiltonianmatrix.cpp:664, 742). -/
def OldSym.perSign (s : OldSym) : ℤ := if s.permutation = some .even then -1 else 1
/-- The sign under reflection (Hamiltonianmatrix.cpp:651-652, 716-717). -/
def OldSym.refSign (s : OldSym) (x : Old1 × Old1) : ℤ :=
  if s.reflection = some .even then parityL x * parityJ x * parityM x else -parityL x * parityJ x * parityM x

/-- The pair state with reversed magnetic quantum numbers (Hamiltonianmatrix.cpp:562-563). -/
def reflected (x : Old1 × Old1) : Old1 × Old1 := ({ x.1 with m := -x.1.m }, { x.2 with m := -x.2.m })

/-- The pair state at a row of the pair basis: the product of the one-atom bases, the second index running fastest (Basisnames.cpp, see C56). -/
def pairState {n1 n2 : ℕ} (s1 : Fin n1 → Old1) (s2 : Fin n2 → Old1) (i : Fin (n1 * n2)) : Old1 × Old1 :=
  (s1 (finProdFinEquiv.symm i).1, s2 (finProdFinEquiv.symm i).2)

/-- `buffer` (Hamiltonianmatrix.cpp:557-565); reading a missing key with `buffer[state]` gives 0. -/
def oldBuffer (names : List (Named (Old1 × Old1))) : Old1 × Old1 → ℕ :=
  names.foldl (fun f x => if x.2.1.m < 0 then f else Function.update f (reflected x.2) x.1) fun _ => 0

/-- `mapping` (Hamiltonianmatrix.cpp:555, 566-575): `none` is the initial value `size_t(-1)`. -/
def oldMapping (sym : OldSym) (names : List (Named (Old1 × Old1))) : ℕ → Option ℕ :=
  if sym.reflection = none then fun _ => none
  else names.foldl (fun g x =>
    if 0 < x.2.1.m then g
    else
      let g := Function.update g (oldBuffer names x.2) (some x.1)
      if sym.inversion ≠ none ∨ sym.permutation ≠ none then Function.update g x.1 (some (oldBuffer names x.2)) else g) fun _ => none

/-- The triplets that one pair of stored entries adds to a column (Hamiltonianmatrix.cpp:632-757); no triplet is `continue`. `neq` is
`col_1 != col_2`, `x` the pair state of `row`, `v` the product of the entries. -/
noncomputable def combineCell (sym : OldSym) (x : Old1 × Old1) (mp : ℕ → Option ℕ) (neq : Prop) (row rowS : ℕ) (v : ℂ) : List (Option ℕ × ℂ) :=
  open Classical in
  let hit := neq ∧ sym.reflection ≠ none ∧ mp row = some rowS
  if (sym.inversion ≠ none ∧ hit) ∧ sym.invSign x ≠ sym.refSign x then []
  else if (sym.permutation ≠ none ∧ hit) ∧ sym.perSign ≠ sym.refSign x then []
  else if (sym.inversion ≠ none ∧ sym.permutation ≠ none ∧ neq) ∧ sym.invSign x ≠ sym.perSign then []
  else
    let skipR := hit ∧ (sym.inversion ≠ none ∨ sym.permutation ≠ none)
    let skipP := sym.inversion ≠ none ∧ sym.permutation ≠ none ∧ neq
    if sym.rotation ≠ none ∧ sym.rotation.map (2 * ·) ≠ some (x.1.m + x.2.m) ∧
        (sym.reflection = none ∨ sym.rotation.map (2 * ·) ≠ some (-(x.1.m + x.2.m))) then []
    else if sym.reflection ≠ none ∧ x.1.m < 0 ∧ ¬ skipR then []
    else
      let useR := sym.reflection ≠ none ∧ ¬ skipR
      let useI := sym.inversion ≠ none ∧ neq
      let useP := sym.permutation ≠ none ∧ neq ∧ ¬ skipP
      let v := if useR then v / (Real.sqrt 2 : ℝ) else v
      let v := if useI then v / (Real.sqrt 2 : ℝ) else v
      let v := if useP then v / (Real.sqrt 2 : ℝ) else v
      [(some row, v)] ++ (if useR then [(mp row, v * sym.refSign x)] else []) ++ (if useI then [(some rowS, v * sym.invSign x)] else []) ++
        (if useI ∧ useR then [(mp rowS, v * sym.refSign x * sym.invSign x)] else []) ++ (if useP then [(some rowS, v * sym.perSign)] else []) ++
        (if useP ∧ useR then [(mp rowS, v * sym.refSign x * sym.perSign)] else [])

/-- A diagonalised one-atom Hamiltonian (Hamiltonianmatrix.hpp): the basis vectors are columns over `n` states. Only the diagonal of its entries is read
(Hamiltonianmatrix.cpp:584-585); it is real. -/
structure OldOne (n : ℕ) where
  /-- number of basis vectors -/
  nb : ℕ
  /-- the basis vectors -/
  basis : Matrix (Fin n) (Fin nb) ℂ
  /-- their energies -/
  diag : Fin nb → ℝ

/-- The energy cutoff (Hamiltonianmatrix.cpp:617-619, 786-788). -/
def inCutoff (deltaE E : ℝ) : Prop := |E| < deltaE + 1e-11 ∨ deltaE < 0

/-- Half of the pairs of basis vectors is skipped (Hamiltonianmatrix.cpp:599-609). -/
def OldSym.skips (sym : OldSym) (a b : ℕ) : Prop :=
  (sym.inversion = some .even ∧ a ≤ b) ∨ (sym.inversion = some .odd ∧ a < b) ∨
  (sym.permutation = some .even ∧ a ≤ b) ∨ (sym.permutation = some .odd ∧ a < b)

/-- The pairs of basis vectors in the order of the loops (Hamiltonianmatrix.cpp:594-597). -/
def oldPairIdx (k1 k2 : ℕ) : List (Fin k1 × Fin k2) := List.finRange k1 ×ˢ List.finRange k2

/-- The triplets of the column for a pair of basis vectors (Hamiltonianmatrix.cpp:625-759); stored entries are the non-zero ones. -/
noncomputable def combineTriplets (sym : OldSym) {n1 n2 : ℕ} (s1 : Fin n1 → Old1) (s2 : Fin n2 → Old1) (mp : ℕ → Option ℕ) (A : OldOne n1) (B : OldOne n2)
    (p : Fin A.nb × Fin B.nb) : List (Option ℕ × ℂ) :=
  open Classical in
  (((List.finRange n1).filter fun r => A.basis r p.1 ≠ 0) ×ˢ ((List.finRange n2).filter fun r => B.basis r p.2 ≠ 0)).flatMap fun r =>
    combineCell sym (s1 r.1, s2 r.2) mp ((p.1 : ℕ) ≠ p.2) (n2 * r.1 + r.2) (n2 * r.2 + r.1) (A.basis r.1 p.1 * B.basis r.2 p.2)

/-- The sum of the triplets of a row (`setFromTriplets`, Hamiltonianmatrix.cpp:85-93). -/
noncomputable def tripletSum (t : List (Option ℕ × ℂ)) (i : ℕ) : ℂ := ((t.filter fun x => x.1 = some i).map (·.2)).sum

/-- `combine` (Hamiltonianmatrix.cpp:541-775): the columns with their diagonal entries. A row outside of the matrix is undefined behaviour in `setFromTriplets`. -/
noncomputable def oldCombine (sym : OldSym) {n1 n2 : ℕ} (s1 : Fin n1 → Old1) (s2 : Fin n2 → Old1) (A : OldOne n1) (B : OldOne n2) (deltaE : ℝ) :
    Out (List (ℝ × (Fin (n1 * n2) → ℂ))) :=
  open Classical in
  let mp := oldMapping sym (number 0 (List.ofFn (pairState s1 s2)))
  let ps := (oldPairIdx A.nb B.nb).filter fun p => ¬ sym.skips p.1 p.2 ∧ inCutoff deltaE (A.diag p.1 + B.diag p.2)
  let cols := (ps.map fun p => (A.diag p.1 + B.diag p.2, combineTriplets sym s1 s2 mp A B p)).filter fun c => c.2 ≠ []
  if ∀ c ∈ cols, ∀ t ∈ c.2, ∃ i < n1 * n2, t.1 = some i then .ok (cols.map fun c => (c.1, fun i => tripletSum c.2 i)) else .ub

/-- `removeUnnecessaryBasisvectors()` (Hamiltonianmatrix.cpp:194-224). -/
noncomputable def oldPrune {N : ℕ} (cols : List (ℝ × (Fin N → ℂ))) : List (ℝ × (Fin N → ℂ)) :=
  open Classical in cols.filter fun c => ∑ i, ‖c.2 i‖ ^ 2 > 0.05

/-- The basis of the block, as a matrix. -/
def colMat {N : ℕ} (cols : List (ℝ × (Fin N → ℂ))) : Matrix (Fin N) (Fin cols.length) ℂ := fun i k => (cols.get k).2 i

/-- The basis of the interaction matrices: unit vectors for the necessary states (HamiltonianTwo.cpp:552-555). -/
def necMat {N : ℕ} (nec : Fin N → Bool) : Matrix (Fin N) (Fin N) ℂ := Matrix.diagonal fun i => if nec i = true then 1 else 0

open Matrix in
/-- The total matrix that is diagonalised (HamiltonianTwo.cpp:664-682, 821-843; `changeBasis`, Hamiltonianmatrix.cpp:107-113). -/
noncomputable def oldTotalTwo (U : Units) (c1 c2 : Cells) {N : ℕ} (nec : Fin N → Bool) (b : Fin N → Old1 × Old1) (exponent : ℤ) (R : ℝ)
    (cols : List (ℝ × (Fin N → ℂ))) : Matrix (Fin cols.length) (Fin cols.length) ℂ :=
  let T := (necMat nec)ᴴ * colMat cols
  Matrix.diagonal (fun k => ((cols.get k).1 : ℂ)) + ((oldSums exponent).map fun sum => ((1 / R ^ (sum + 1) : ℝ) : ℂ) • (Tᴴ * oldPairMat U c1 c2 nec b sum * T)).sum

/-- `energycutoff` over all steps (Hamiltonianmatrix.cpp:777-805, HamiltonianTwo.cpp:353-362); the loop over the steps is taken as sequential. -/
noncomputable def oldCutoff {n1 n2 : ℕ} (steps : List (OldOne n1 × OldOne n2)) (deltaE : ℝ) (i : Fin (n1 * n2)) : Bool :=
  open Classical in
  decide (∃ h ∈ steps, ∃ a b, inCutoff deltaE (h.1.diag a + h.2.diag b) ∧ h.1.basis (finProdFinEquiv.symm i).1 a ≠ 0 ∧ h.2.basis (finProdFinEquiv.symm i).2 b ≠ 0)

/-- The settings for the symmetries (HamiltonianTwo.cpp:143-180). -/
structure OldSymConf where
  /-- invE, invO -/
  inv : Bool × Bool
  /-- perE, perO -/
  per : Bool × Bool
  /-- refE, refO -/
  ref : Bool × Bool
  /-- conserveM -/
  conserveM : Bool
  /-- sametrafo -/
  sametrafo : Bool
  /-- zerotheta -/
  zerotheta : Bool

/-- The list of parities for two settings (HamiltonianTwo.cpp:143-174). -/
def parityList (f : Bool × Bool) : List (Option OldParity) :=
  let l := (if f.1 then [some OldParity.even] else []) ++ (if f.2 then [some .odd] else [])
  if l = [] then [none] else l

/-- `sym_rotation` (HamiltonianTwo.cpp:287-302). -/
def rotationList (c : OldSymConf) (init : Old1 × Old1) (basis : List (Old1 × Old1)) : List (Option ℤ) :=
  if c.conserveM then
    if ¬ c.sametrafo then basis.map fun x => some ((x.1.m + x.2.m).tdiv 2)
    else if ¬ c.zerotheta then (upTo (-(init.1.j + init.2.j).tdiv 2) ((init.1.j + init.2.j).tdiv 2)).map some
    else [some ((init.1.m + init.2.m).tdiv 2)]
  else [none]

/-- The symmetry blocks (HamiltonianTwo.cpp:281-348). The order of the `std::set` is not modelled. -/
def oldSymmetries (c : OldSymConf) (init : Old1 × Old1) (basis : List (Old1 × Old1)) : List OldSym :=
  let same := init.1 = init.2
  let initParity := parityL init
  ((parityList c.inv).flatMap fun inv =>
    if inv = some .even ∧ same ∧ c.sametrafo then []
    else (parityList c.per).flatMap fun per =>
      if per = some .even ∧ same ∧ c.sametrafo then []
      else if inv ≠ none ∧ per ≠ none ∧ c.sametrafo ∧ (inv.map OldParity.int).getD 0 * (per.map OldParity.int).getD 0 ≠ initParity then []
      else (parityList c.ref).flatMap fun ref =>
        (rotationList c init basis).map fun rot => ⟨inv, per, ref, if ref ≠ none then rot.map (|·|) else rot⟩).dedup

/-- `necessary` (HamiltonianTwo.cpp:364-388). -/
def oldNecessary (c : OldSymConf) (syms : List OldSym) (init : Old1 × Old1) {N : ℕ} (b : Fin N → Old1 × Old1) (tmp : Fin N → Bool) (i : Fin N) : Bool :=
  tmp i && syms.any fun sym =>
    !(decide (sym.rotation ≠ none ∧ sym.rotation.map (2 * ·) ≠ some ((b i).1.m + (b i).2.m) ∧
        (sym.reflection = none ∨ sym.rotation.map (2 * ·) ≠ some (-((b i).1.m + (b i).2.m))))) &&
    !(decide (sym.inversion ≠ none ∧ sym.permutation ≠ none ∧ parityL (b i) ≠ parityL init) && c.sametrafo)

/-- One block of one step (HamiltonianTwo.cpp:821-843): the matrix that is diagonalised. -/
noncomputable def oldBlock (U : Units) (c1 c2 : Cells) (sym : OldSym) {n1 n2 : ℕ} (s1 : Fin n1 → Old1) (s2 : Fin n2 → Old1) (A : OldOne n1) (B : OldOne n2)
    (deltaE : ℝ) (nec : Fin (n1 * n2) → Bool) (exponent : ℤ) (R : ℝ) : Out (Σ k, Matrix (Fin k) (Fin k) ℂ) :=
  oldCombine sym s1 s2 A B deltaE >>= fun cols => .ok ⟨_, oldTotalTwo U c1 c2 nec (pairState s1 s2) exponent R (oldPrune cols)⟩

end PI
