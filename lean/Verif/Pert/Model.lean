import Mathlib.Data.Real.Basic
import Mathlib.Data.Rat.Floor
import Mathlib.Analysis.SpecialFunctions.Trigonometric.Basic
import Mathlib.Algebra.BigOperators.Group.List.Basic
import Verif.Basic

/-!
# PerturbativeInteraction.cpp

Quantum numbers `s`, `j`, `m` are doubled integers.  `deltaN` is a rational number (a `double`).  Energies and dipole matrix
elements are parameters (they are modelled elsewhere); floating point numbers are reals.
-/

namespace PI

/-- A one-atom state: species and quantum numbers (State.hpp); `s` is determined by the species. -/
structure QA where
  sp : String
  n : ℤ
  l : ℤ
  s : ℤ
  j : ℤ
  m : ℤ
deriving DecidableEq

/-- Conversion of a `double` to `int`: towards zero. -/
def truncQ (x : ℚ) : ℤ := if 0 ≤ x then ⌊x⌋ else ⌈x⌉

/-- The integers from `a` to `b`. -/
def intRange (a b : ℤ) : List ℤ := (List.range (b + 1 - a).toNat).map fun k : ℕ => a + k

/-- `for (int n0 = lo - deltaN; n0 <= hi + deltaN; ++n0)` (PerturbativeInteraction.cpp:42-44, 166-168). -/
def nLoop (lo hi : ℤ) (δ : ℚ) : List ℤ := intRange (truncQ (lo - δ)) ⌊(hi + δ : ℚ)⌋

/-- `array_l0` (PerturbativeInteraction.cpp:46-52, 55-61). -/
def lLoop (l n : ℤ) : List ℤ := (if 0 < l then [l - 1] else []) ++ (if l < n - 1 then [l + 1] else [])

/-- Insertion into a `std::set` (the order of the elements is not modelled). -/
def setIns (x : ℤ) (l : List ℤ) : List ℤ := if x ∈ l then l else l ++ [x]

/-- `array_j0` (PerturbativeInteraction.cpp:64-76, 79-91). -/
def jLoop (l s j : ℤ) : List ℤ :=
  let lo := |2 * l - s|
  let hi := 2 * l + s
  let a := if |lo - j| < 4 then [lo] else []
  let b := if |hi - j| < 4 then setIns hi a else a
  if b.length = 2 then
    ((List.range ((hi - lo + 1) / 2 - 1).toNat).map fun k : ℕ => lo + 2 * (k + 1)).foldl (fun r x => setIns x r) b
  else b

/-- `array_q` (PerturbativeInteraction.cpp:335-381); `tilted`: the angle is not zero. -/
def qLoop (tilted : Bool) : List (ℤ × ℤ) :=
  if tilted then [(0, 0), (1, -1), (-1, 1), (1, 1), (-1, -1), (0, 1), (1, 0), (0, -1), (-1, 0)] else [(0, 0), (1, -1), (-1, 1)]

/-- `array_angle_term[3 * (q0 + 1) + (q1 + 1)]` (PerturbativeInteraction.cpp:335-381); `none`: the entry is not
initialised. -/
noncomputable def angleTerm (θ : ℝ) (q : ℤ × ℤ) : Option ℝ :=
  if θ = 0 then
    if q = (0, 0) then some (-2) else if q = (1, -1) then some (-1) else if q = (-1, 1) then some (-1) else none
  else
    if q = (0, 0) then some (1 - 3 * Real.cos θ ^ 2) else
    if q = (1, -1) then some (-1 + 1.5 * Real.sin θ ^ 2) else
    if q = (-1, 1) then some (-1 + 1.5 * Real.sin θ ^ 2) else
    if q = (1, 1) then some (-1.5 * Real.sin θ ^ 2) else
    if q = (-1, -1) then some (-1.5 * Real.sin θ ^ 2) else
    if q = (0, 1) then some (3 / Real.sqrt 2 * Real.sin θ * Real.cos θ) else
    if q = (1, 0) then some (3 / Real.sqrt 2 * Real.sin θ * Real.cos θ) else
    if q = (0, -1) then some (-3 / Real.sqrt 2 * Real.sin θ * Real.cos θ) else
    if q = (-1, 0) then some (-3 / Real.sqrt 2 * Real.sin θ * Real.cos θ) else none

/-- The value used in the sums; not initialised entries are read as 0 (C75 shows that they are not read). -/
noncomputable def angleVal (θ : ℝ) (q : ℤ × ℤ) : ℝ := (angleTerm θ q).getD 0

/-- A virtual pair state with the change of the magnetic quantum numbers. -/
abbrev Virt := (QA × QA) × (ℤ × ℤ)

/-- The innermost loop body of the scalar `getC6` (PerturbativeInteraction.cpp:94-112). -/
def virtQ (a b : QA) (n0 n1 l0 l1 j0 j1 : ℤ) (q : ℤ × ℤ) : Option Virt :=
  if j0 < |a.m + 2 * q.1| then none else
  if j1 < |b.m + 2 * q.2| then none else
  some ((⟨a.sp, n0, l0, a.s, j0, a.m + 2 * q.1⟩, ⟨b.sp, n1, l1, b.s, j1, b.m + 2 * q.2⟩), q)

/-- The virtual states of the scalar `getC6`, in the order of the loops (PerturbativeInteraction.cpp:39-112). -/
def virtuals (tilted : Bool) (δ : ℚ) (a b : QA) : List Virt :=
  (nLoop a.n a.n δ).flatMap fun n0 => (nLoop b.n b.n δ).flatMap fun n1 =>
  (lLoop a.l n0).flatMap fun l0 => (lLoop b.l n1).flatMap fun l1 =>
  (jLoop l0 a.s a.j).flatMap fun j0 => (jLoop l1 b.s b.j).flatMap fun j1 =>
  (qLoop tilted).filterMap fun q => virtQ a b n0 n1 l0 l1 j0 j1 q

/-- What the functions need of the matrix element cache and the units: energies of one-atom states, dipole matrix elements
(final, initial) and the Coulomb constant. -/
structure PertEnv where
  E : QA → ℝ
  d : QA → QA → ℝ
  k : ℝ

/-- The scalar `getC6` (PerturbativeInteraction.cpp:39-133).  A vanishing energy difference gives an infinite term in the
code and 0 here. -/
noncomputable def getC6 (V : PertEnv) (θ : ℝ) (δ : ℚ) (a b : QA) : ℝ :=
  ((virtuals (decide (θ ≠ 0)) δ a b).map fun v =>
    (V.k * angleVal θ v.2 * V.d v.1.1 a * V.d v.1.2 b) ^ 2 / ((V.E a + V.E b) - (V.E v.1.1 + V.E v.1.2))).sum

/-- `array_l0` of the matrix version (PerturbativeInteraction.cpp:170-184, 187-201). -/
def lLoopM (lr lc n : ℤ) : List ℤ :=
  if lr = lc then (if lc < n - 1 then [lc + 1] else []) ++ (if 0 < lc then [lc - 1] else [])
  else if lr + 2 = lc ∧ lc < n - 1 then [lc + 1]
  else if lr - 2 = lc ∧ 0 < lc then [lc - 1]
  else []

/-- `array_j0` of the matrix version (PerturbativeInteraction.cpp:204-212, 215-223). -/
def jLoopM (l s jr jc : ℤ) : List ℤ :=
  let lo := |2 * l - s|
  let hi := 2 * l + s
  let a := if |lo - jc| < 4 ∧ |lo - jr| < 4 then [lo] else []
  if |hi - jc| < 4 ∧ |hi - jr| < 4 then setIns hi a else a

/-- A virtual pair state of the matrix version with the changes back and forth. -/
abbrev VirtM := (QA × QA) × (ℤ × ℤ) × (ℤ × ℤ)

/-- The innermost loop body of the matrix version up to the sum (PerturbativeInteraction.cpp:226-256).  `q0_back` is the
conversion of a `float` to `int`. -/
def virtQM (tilted : Bool) (states : List (QA × QA)) (r c : QA × QA) (n0 n1 l0 l1 j0 j1 : ℤ) (q : ℤ × ℤ) : Option VirtM :=
  let m0 := c.1.m + 2 * q.1
  let m1 := c.2.m + 2 * q.2
  if j0 < |m0| then none else
  if j1 < |m1| then none else
  let q0 := (r.1.m - m0).tdiv 2
  let q1 := (r.2.m - m1).tdiv 2
  if 1 < |q0| ∨ 1 < |q1| then none else
  if (qLoop tilted).length = 3 ∧ q0 + q1 ≠ 0 then none else
  let v : QA × QA := (⟨c.1.sp, n0, l0, c.1.s, j0, m0⟩, ⟨c.2.sp, n1, l1, c.2.s, j1, m1⟩)
  if v ∈ states then none else some (v, (q0, q1), q)

/-- The virtual states of the matrix version (PerturbativeInteraction.cpp:135-256). -/
def virtualsM (tilted : Bool) (δ : ℚ) (states : List (QA × QA)) (r c : QA × QA) : List VirtM :=
  if r.1.s ≠ c.1.s ∨ r.2.s ≠ c.2.s then [] else
  if r.1.sp ≠ c.1.sp ∨ r.2.sp ≠ c.2.sp then [] else
  (nLoop (min r.1.n c.1.n) (max r.1.n c.1.n) δ).flatMap fun n0 => (nLoop (min r.2.n c.2.n) (max r.2.n c.2.n) δ).flatMap fun n1 =>
  (lLoopM r.1.l c.1.l n0).flatMap fun l0 => (lLoopM r.2.l c.2.l n1).flatMap fun l1 =>
  (jLoopM l0 c.1.s r.1.j c.1.j).flatMap fun j0 => (jLoopM l1 c.2.s r.2.j c.2.j).flatMap fun j1 =>
  (qLoop tilted).filterMap fun q => virtQM tilted states r c n0 n1 l0 l1 j0 j1 q

/-- The sum of one matrix element (PerturbativeInteraction.cpp:258-281). -/
noncomputable def c6Elem (V : PertEnv) (θ : ℝ) (δ : ℚ) (states : List (QA × QA)) (r c : QA × QA) : ℝ :=
  ((virtualsM (decide (θ ≠ 0)) δ states r c).map fun v =>
    V.k * angleVal θ v.2.1 * V.d r.1 v.1.1 * V.d r.2 v.1.2 * V.k * angleVal θ v.2.2 * V.d v.1.1 c.1 * V.d v.1.2 c.2 * 0.5 *
      (1 / ((V.E r.1 + V.E r.2) - (V.E v.1.1 + V.E v.1.2)) + 1 / ((V.E c.1 + V.E c.2) - (V.E v.1.1 + V.E v.1.2)))).sum

/-- A matrix after `Zero(n, n)` and assignments for the index pairs of the upper triangle selected by `first`
(`idx_col = idx_row` or `idx_row + 1`), then `selfadjointView<Eigen::Upper>`: the strictly lower part is copied from the upper
one (PerturbativeInteraction.cpp:137-145, 285-289, 293-299, 318). -/
def upperView (n : ℕ) (first : ℕ → ℕ) (val : ℕ → ℕ → ℝ) (i j : ℕ) : ℝ :=
  let m : ℕ → ℕ → ℝ := fun r c => if r < n ∧ first r ≤ c ∧ c < n then val r c else 0
  if i ≤ j then m i j else m j i

/-- The matrix `getC6` (PerturbativeInteraction.cpp:135-290). -/
noncomputable def getC6M (V : PertEnv) (θ : ℝ) (δ : ℚ) (states : List (QA × QA)) (x0 : QA × QA) : ℕ → ℕ → ℝ :=
  upperView states.length (fun r => r) fun r c => c6Elem V θ δ states (states.getD r x0) (states.getD c x0)

/-- One element of `getC3` (PerturbativeInteraction.cpp:301-314). -/
noncomputable def c3Elem (V : PertEnv) (θ : ℝ) (r c : QA × QA) : ℝ :=
  let q0 := (r.1.m - c.1.m).tdiv 2
  let q1 := (r.2.m - c.2.m).tdiv 2
  if (qLoop (decide (θ ≠ 0))).length = 3 ∧ q0 + q1 ≠ 0 then 0 else
  if 1 < |q0| ∨ 1 < |q1| then 0 else
  V.k * angleVal θ (q0, q1) * V.d r.1 c.1 * V.d r.2 c.2

/-- `getC3` (PerturbativeInteraction.cpp:292-319). -/
noncomputable def getC3M (V : PertEnv) (θ : ℝ) (states : List (QA × QA)) (x0 : QA × QA) : ℕ → ℕ → ℝ :=
  upperView states.length (fun r => r + 1) fun r c => c3Elem V θ (states.getD r x0) (states.getD c x0)

/-- `getEnergy` (PerturbativeInteraction.cpp:321-333). -/
noncomputable def getEnergyM (V : PertEnv) (states : List (QA × QA)) (x0 : QA × QA) (i j : ℕ) : ℝ :=
  if i = j ∧ i < states.length then V.E (states.getD i x0).1 + V.E (states.getD i x0).2 else 0

end PI
