import Verif.Basic
import Mathlib.Data.Finset.Sort
import Mathlib.Data.Complex.Basic
import Mathlib.Analysis.SpecialFunctions.Sqrt

/-!
# SystemOne.cpp: building the one-atom basis

`j`, `m`, `s` are doubled integers.  A `std::set` is a `Finset`, iterated in ascending order.  Energies
come from an arbitrary function `E n l j` (lookups that fail are not modelled: they end the build).
-/

namespace PI

/-- What `operator==` of `StateOne` compares (State.cpp:159-161): a physical state or an artificial one
(label). -/
inductive AState where
  | phys (species : String) (n l j m : ℤ)
  | art (label : String)
deriving DecidableEq

/-- `range(rset, rmin, rmax)` for `int` (SystemBase.hpp:363-369). -/
def rangeInt (a b : ℤ) : Finset ℤ :=
  if a ≤ b then insert a (rangeInt (a + 1) b) else ∅
termination_by (b + 1 - a).toNat
decreasing_by omega

/-- `range(rset, rmin, rmax)` for `float` (SystemBase.hpp:363-369); doubled, so `++r` adds 2. -/
def rangeFlt (a b : ℤ) : Finset ℤ :=
  if a ≤ b then insert a (rangeFlt (a + 2) b) else ∅
termination_by (b + 1 - a).toNat
decreasing_by omega

/-- `parity_t` (Symmetry.hpp:26-30). -/
inductive Par where
  | na | even | odd
deriving DecidableEq

/-- The settings that `initializeBasis` reads (SystemBase.hpp:285-290, SystemOne.hpp): an energy bound
`none` is the marker `lowest()`/`max()`; `symRot = none` is the set {ARB}. -/
structure OneSet where
  rangeN : Finset ℤ
  rangeL : Finset ℤ
  rangeJ : Finset ℤ
  rangeM : Finset ℤ
  energyMin : Option ℝ
  energyMax : Option ℝ
  toAdd : List AState
  symRefl : Par
  symRot : Option (Finset ℤ)

/-- A fresh system (SystemOne.cpp:41-45, SystemBase.cpp:1297-1300). -/
def OneSet.fresh : OneSet := ⟨∅, ∅, ∅, ∅, none, none, [], .na, none⟩

/-- `restrictN(n_min, n_max)` (SystemBase.cpp:99-101). -/
def OneSet.restrictN (S : OneSet) (a b : ℤ) : OneSet := { S with rangeN := rangeInt a b }
/-- `restrictL(l_min, l_max)` (SystemBase.cpp:109-111). -/
def OneSet.restrictL (S : OneSet) (a b : ℤ) : OneSet := { S with rangeL := rangeInt a b }
/-- `restrictJ(j_min, j_max)` (SystemBase.cpp:119-121). -/
def OneSet.restrictJ (S : OneSet) (a b : ℤ) : OneSet := { S with rangeJ := rangeFlt a b }
/-- `restrictM(m_min, m_max)` (SystemBase.cpp:129-131). -/
def OneSet.restrictM (S : OneSet) (a b : ℤ) : OneSet := { S with rangeM := rangeFlt a b }
/-- `restrictEnergy(e_min, e_max)` (SystemBase.cpp:92-96). -/
def OneSet.restrictEnergy (S : OneSet) (a b : ℝ) : OneSet := { S with energyMin := some a, energyMax := some b }
/-- `setConservedMomentaUnderRotation` with explicit momenta (SystemOne.cpp:146-158), before the
compatibility check. -/
def OneSet.conserveM (S : OneSet) (ms : Finset ℤ) : OneSet := { S with symRot := some ms }

/-- `isRefelectionAndRotationCompatible` (SystemOne.cpp:876-889). -/
def OneSet.compatible (S : OneSet) : Prop :=
  match S.symRot with
  | none => True
  | some ms => S.symRefl = .na ∨ ∀ m ∈ ms, -m ∈ ms

/-- `checkIsEnergyValid` (SystemBase.cpp:1413-1419). -/
noncomputable def OneSet.energyOk (S : OneSet) (e : ℝ) : Bool :=
  (match S.energyMin with | none => true | some a => decide (a < e)) &&
  (match S.energyMax with | none => true | some b => decide (e < b))

/-- `range_adapted_l` (SystemOne.cpp:209-213). -/
def OneSet.adaptedL (S : OneSet) (n : ℤ) : Finset ℤ := if S.rangeL = ∅ then rangeInt 0 (n - 1) else S.rangeL
/-- `range_adapted_j` (SystemOne.cpp:219-223). -/
def OneSet.adaptedJ (S : OneSet) (s l : ℤ) : Finset ℤ :=
  if S.rangeJ = ∅ then rangeFlt |2 * l - s| (2 * l + s) else S.rangeJ
/-- `range_adapted_m` (SystemOne.cpp:234-238). -/
def OneSet.adaptedM (S : OneSet) (j : ℤ) : Finset ℤ := if S.rangeM = ∅ then rangeFlt (-j) j else S.rangeM
/-- `range_allowed_m` (SystemOne.cpp:241-248). -/
def OneSet.allowedM (S : OneSet) (j : ℤ) : Finset ℤ :=
  match S.symRot with
  | none => S.adaptedM j
  | some ms => ms ∩ S.adaptedM j

/-- The four nested loops up to `if (std::fabs(m) > j) continue` (SystemOne.cpp:207-253), as the list of
visited (n, l, j, m). -/
noncomputable def OneSet.candidates (S : OneSet) (s : ℤ) (E : ℤ → ℤ → ℤ → ℝ) : List (ℤ × ℤ × ℤ × ℤ) :=
  (S.rangeN.sort (· ≤ ·)).flatMap fun n =>
    ((S.adaptedL n).sort (· ≤ ·)).flatMap fun l =>
      if l > n - 1 ∨ l < 0 then [] else
      ((S.adaptedJ s l).sort (· ≤ ·)).flatMap fun j =>
        if |j - 2 * l| > s ∨ j < 0 then [] else
        if S.energyOk (E n l j) = false then [] else
        ((S.allowedM j).sort (· ≤ ·)).flatMap fun m =>
          if |m| > j then [] else [(n, l, j, m)]

/-- The containers filled during the build: the list of states and, per basis vector, its energy and
its coefficients (row, value). -/
structure OneBasis where
  states : List AState
  cols : List (ℝ × List (ℕ × ℂ))

/-- `addBasisvectors` (SystemOne.cpp:811-826): the row of a state, appending the state if it is new. -/
def addRow (states : List AState) (st : AState) : List AState × ℕ :=
  match states.idxOf? st with
  | some r => (states, r)
  | none => (states ++ [st], states.length)

/-- The coefficient of the reflected state relative to the first one (SystemOne.cpp:800-803); the
exponent l + m - j is an integer for physical states. -/
noncomputable def reflCoef (p : Par) (l j m : ℤ) : ℂ :=
  (-1) ^ ((2 * l + m - j) / 2) * Complex.I * (if p = .even then 1 else -1)

/-- `addSymmetrizedBasisvectors` (SystemOne.cpp:774-808).  `cplx`: the scalar type is complex; for the
real one the imaginary unit throws (utils.hpp:59-62). -/
noncomputable def addSym (cplx : Bool) (p : Par) (st : AState) (energy : ℝ) (b : OneBasis) : Out OneBasis :=
  let plain : Out OneBasis :=
    let r := addRow b.states st
    .ok ⟨r.1, b.cols ++ [(energy, [(r.2, 1)])]⟩
  match st with
  | .art _ => plain
  | .phys sp n l j m =>
    if p = .na ∨ m = 0 then plain else
    if m < 0 then .ok b else
    if cplx = false then .throw else
    let r1 := addRow b.states st
    let r2 := addRow r1.1 (.phys sp n l j (-m))
    let v : ℂ := 1 / Real.sqrt 2
    .ok ⟨r2.1, b.cols ++ [(energy, [(r1.2, v), (r2.2, v * reflCoef p l j m)])]⟩

/-- A loop that may throw. -/
def foldOut {α β : Type} (f : β → α → Out β) : β → List α → Out β
  | b, [] => .ok b
  | b, a :: as =>
    match f b a with
    | .ok b' => foldOut f b' as
    | .throw => .throw
    | .ub => .ub

/-- The loop body (SystemOne.cpp:255-268). -/
noncomputable def addCandidate (cplx : Bool) (S : OneSet) (sp : String) (E : ℤ → ℤ → ℤ → ℝ) (b : OneBasis)
    (c : ℤ × ℤ × ℤ × ℤ) : Out OneBasis :=
  if S.symRefl ≠ .na ∧ c.2.2.2 ≠ 0 ∧ -c.2.2.2 ∉ S.allowedM c.2.2.1 then .throw
  else addSym cplx S.symRefl (.phys sp c.1 c.2.1 c.2.2.1 c.2.2.2) (E c.1 c.2.1 c.2.2.1) b

/-- The checks on user-defined states (SystemOne.cpp:278-286). -/
def userOk (sp : String) (b : OneBasis) (st : AState) : Bool :=
  !b.states.contains st && (match st with | .art _ => true | .phys sp' _ _ _ _ => sp' == sp)

/-- The rotation symmetry test for user-defined states (SystemOne.cpp:306-309). -/
def OneSet.rotExcludes (S : OneSet) (m : ℤ) : Bool :=
  match S.symRot with
  | none => false
  | some ms => decide (m ∉ ms)

/-- The loop body for user-defined states (SystemOne.cpp:289-321). -/
noncomputable def addUser (cplx : Bool) (S : OneSet) (E : ℤ → ℤ → ℤ → ℝ) (b : OneBasis) (st : AState) : Out OneBasis :=
  match st with
  | .art _ => addSym cplx .na st 0 b
  | .phys sp n l j m =>
    if S.rotExcludes m then .ok b else
    if S.symRefl ≠ .na ∧ m ≠ 0 ∧ AState.phys sp n l j (-m) ∉ S.toAdd then .throw else
    addSym cplx S.symRefl st (E n l j) b

/-- `initializeBasis` (SystemOne.cpp:162-331) with the emptiness checks of `buildBasis`
(SystemBase.cpp:555-561). -/
noncomputable def OneSet.build (cplx : Bool) (S : OneSet) (sp : String) (s : ℤ) (E : ℤ → ℤ → ℤ → ℝ) : Out OneBasis :=
  if S.rangeN = ∅ then .throw else
  match foldOut (addCandidate cplx S sp E) ⟨[], []⟩ (S.candidates s E) with
  | .ok b =>
    if S.toAdd.all (userOk sp b) = false then .throw else
    match foldOut (addUser cplx S E) b S.toAdd with
    | .ok b => if b.states = [] ∨ b.cols = [] then .throw else .ok b
    | .throw => .throw
    | .ub => .ub
  | .throw => .throw
  | .ub => .ub

/-- The coefficient of a state in a basis vector (`setFromTriplets` adds up repeated entries,
SystemOne.cpp:325-326). -/
noncomputable def OneBasis.coef (b : OneBasis) (col : ℝ × List (ℕ × ℂ)) (st : AState) : ℂ :=
  ((col.2.filter fun e => b.states[e.1]? = some st).map (·.2)).sum

end PI
