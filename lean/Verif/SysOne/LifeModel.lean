import Verif.SysOne.Model
import Verif.Sys.Model

/-!
# SystemOne.cpp, SystemBase.cpp: the basis of a one-atom system over its lifetime, including failed calls

What an object looks like after a call that threw.  Histories consist of restrictions, user-defined states, symmetries and getters of the basis.  Energies are an
arbitrary function (lookups that fail are not modelled).
-/

namespace PI

/-- What does not change over the lifetime: scalar type, species, doubled spin, energies, and the order of the states (`operator<`, State.cpp:162-179), in which
`std::set` iterates. -/
structure OneEnv where
  cplx : Bool
  sp : String
  s : ℤ
  E : ℤ → ℤ → ℤ → ℝ
  lt : AState → AState → Bool

/-- The result of a step of `initializeBasis`: the containers, or an exception with the states that have been pushed so far. -/
inductive Tr where
  | ok (b : OneBasis)
  | throw (states : List AState)

/-- `addSymmetrizedBasisvectors` (SystemOne.cpp:774-808): for real scalars the imaginary unit throws after the first state was added. -/
noncomputable def addSymT (cplx : Bool) (p : Par) (st : AState) (energy : ℝ) (b : OneBasis) : Tr :=
  match addSym cplx p st energy b with
  | .ok b' => .ok b'
  | _ => .throw (addRow b.states st).1

/-- The loop body (SystemOne.cpp:255-268). -/
noncomputable def addCandidateT (e : OneEnv) (S : OneSet) (b : OneBasis) (c : ℤ × ℤ × ℤ × ℤ) : Tr :=
  if S.symRefl ≠ .na ∧ c.2.2.2 ≠ 0 ∧ -c.2.2.2 ∉ S.allowedM c.2.2.1 then .throw b.states
  else addSymT e.cplx S.symRefl (.phys e.sp c.1 c.2.1 c.2.2.1 c.2.2.2) (e.E c.1 c.2.1 c.2.2.1) b

/-- The loop body for user-defined states (SystemOne.cpp:289-321). -/
noncomputable def addUserT (e : OneEnv) (S : OneSet) (b : OneBasis) (st : AState) : Tr :=
  match st with
  | .art _ => addSymT e.cplx .na st 0 b
  | .phys sp n l j m =>
    if S.rotExcludes m then .ok b else
    if S.symRefl ≠ .na ∧ m ≠ 0 ∧ AState.phys sp n l j (-m) ∉ S.toAdd then .throw b.states else
    addSymT e.cplx S.symRefl st (e.E n l j) b

/-- A loop that may throw. -/
def foldTr {α : Type} (f : OneBasis → α → Tr) : OneBasis → List α → Tr
  | b, [] => .ok b
  | b, a :: as =>
    match f b a with
    | .ok b' => foldTr f b' as
    | .throw st => .throw st

/-- `initializeBasis` (SystemOne.cpp:162-331). -/
noncomputable def initTr (e : OneEnv) (S : OneSet) : Tr :=
  if S.rangeN = ∅ then .throw [] else
  match foldTr (addCandidateT e S) ⟨[], []⟩ (S.candidates e.s e.E) with
  | .throw st => .throw st
  | .ok b => if S.toAdd.all (userOk e.sp b) = false then .throw b.states else foldTr (addUserT e S) b S.toAdd

/-- The object: settings and pending restrictions, states and matrices. -/
structure OneAtomObj where
  set : OneSet
  sys : SysB AState

/-- A new object (SystemOne.cpp:41-45, SystemBase.cpp:1297-1300). -/
noncomputable def OneAtomObj.fresh : OneAtomObj := ⟨OneSet.fresh, ⟨[], ⟨0, 0, fun _ _ => 0⟩, ⟨0, 0, fun _ _ => 0⟩, none, none⟩⟩

/-- `this->states` enumerated (SystemOne.cpp:821-822). -/
def enumStates (L : List AState) : List (ℕ × AState) := L.mapIdx fun i st => (i, st)

/-- The matrices of the new basis (SystemOne.cpp:323-331). -/
noncomputable def OneBasis.toSys (b : OneBasis) : SysB AState :=
  ⟨enumStates b.states, ⟨b.states.length, b.cols.length, fun r c => (((b.cols[c]?).map fun col => ((col.2.filter fun x => x.1 = r).map (·.2)).sum)).getD 0⟩,
    ⟨b.cols.length, b.cols.length, fun r c => if r = c then (((b.cols[c]?).map fun col => (col.1 : ℂ))).getD 0 else 0⟩, none, none⟩

/-- `forgetRestrictions` (SystemBase.cpp:1544-1552). -/
def OneSet.forget (S : OneSet) : OneSet := { S with rangeN := ∅, rangeL := ∅, rangeJ := ∅, rangeM := ∅, energyMin := none, energyMax := none, toAdd := [] }

/-- There are no new restrictions (SystemBase.cpp:534-537). -/
def OneSet.idle (S : OneSet) : Prop :=
  S.toAdd = [] ∧ S.rangeN = ∅ ∧ S.rangeL = ∅ ∧ S.rangeJ = ∅ ∧ S.rangeM = ∅ ∧ S.energyMin = none ∧ S.energyMax = none

/-- `checkIsQuantumstateValid` (SystemBase.cpp:1385-1396, 1421-1427): an empty range is no restriction. -/
def OneSet.qnValid (S : OneSet) : AState → Bool
  | .art _ => true
  | .phys _ n l j m => decide ((S.rangeN = ∅ ∨ n ∈ S.rangeN) ∧ (S.rangeL = ∅ ∨ l ∈ S.rangeL) ∧ (S.rangeJ = ∅ ∨ j ∈ S.rangeJ) ∧ (S.rangeM = ∅ ∨ m ∈ S.rangeM))

/-- The restrictions as `updateEverything` reads them (SystemBase.cpp:1562, 1577-1579); the threshold is 0.05 (SystemBase.hpp:294). -/
noncomputable def OneSet.pending (S : OneSet) : Pending AState :=
  ⟨if S.rangeN = ∅ ∧ S.rangeL = ∅ ∧ S.rangeJ = ∅ ∧ S.rangeM = ∅ then none else some S.qnValid, S.energyMin, S.energyMax, 0.05, !S.toAdd.isEmpty⟩

/-- `size() == 0` of a matrix. -/
def Mat.isEmpty (A : Mat) : Prop := A.rows = 0 ∨ A.cols = 0

/-- The consistency check of `buildBasis` fails (SystemBase.cpp:527-531). -/
def OneAtomObj.inconsistent (o : OneAtomObj) : Prop :=
  ¬ (o.sys.H.isEmpty ↔ o.sys.states = []) ∨ ¬ (o.sys.H.isEmpty ↔ o.sys.V.isEmpty)

/-- `buildBasis` (SystemBase.cpp:524-561): whether it throws, and the object afterwards. -/
noncomputable def OneAtomObj.buildBasis (e : OneEnv) (o : OneAtomObj) : Bool × OneAtomObj :=
  open Classical in
  if o.inconsistent then (true, o)
  else if o.sys.states ≠ [] ∧ o.set.idle then (false, o)
  else if o.sys.states = [] then
    match initTr e o.set with
    | .throw st => (true, { o with sys := { o.sys with states := enumStates st } })
    | .ok b => (decide (b.toSys.V.rows = 0 ∨ b.toSys.V.cols = 0), ⟨o.set.forget, b.toSys⟩)
  else
    let s' := (o.sys.updateQn o.set.pending).updateVec o.set.pending
    if o.set.toAdd ≠ [] then (true, { o with sys := s' })
    else (decide (s'.V.rows = 0 ∨ s'.V.cols = 0), ⟨o.set.forget, s'⟩)

/-- The calls of a history; `momenta none` is the set {ARB}. -/
inductive OneOp where
  | restrictN (r : Finset ℤ)
  | restrictL (r : Finset ℤ)
  | restrictJ (r : Finset ℤ)
  | restrictM (r : Finset ℤ)
  | restrictEnergy (a b : Option ℝ)
  | addStates (st : AState)
  | parity (p : Par)
  | momenta (ms : Option (Finset ℤ))
  | get

/-- `states_to_add.insert` (SystemBase.cpp:140-149). -/
def insertState (lt : AState → AState → Bool) (st : AState) (L : List AState) : List AState :=
  if st ∈ L then L else L.orderedInsert (fun a b => lt a b = true) st

/-- One call: whether it throws, and the object afterwards. Restrictions: SystemBase.cpp:92-134. Symmetries: SystemOne.cpp:135-158, SystemBase.cpp:1331-1337: refused on
an object with states, otherwise stored before the compatibility check throws. A getter builds the basis (SystemBase.cpp:302-356). -/
noncomputable def OneAtomObj.step (e : OneEnv) (o : OneAtomObj) : OneOp → Bool × OneAtomObj
  | .restrictN r => (false, { o with set := { o.set with rangeN := r } })
  | .restrictL r => (false, { o with set := { o.set with rangeL := r } })
  | .restrictJ r => (false, { o with set := { o.set with rangeJ := r } })
  | .restrictM r => (false, { o with set := { o.set with rangeM := r } })
  | .restrictEnergy a b => (false, { o with set := { o.set with energyMin := a, energyMax := b } })
  | .addStates st => (false, { o with set := { o.set with toAdd := insertState e.lt st o.set.toAdd } })
  | .parity p =>
    open Classical in
    if o.sys.states ≠ [] then (true, o)
    else (decide (¬ OneSet.compatible { o.set with symRefl := p }), { o with set := { o.set with symRefl := p } })
  | .momenta ms =>
    open Classical in
    if o.sys.states ≠ [] then (true, o)
    else (decide (¬ OneSet.compatible { o.set with symRot := ms }), { o with set := { o.set with symRot := ms } })
  | .get => o.buildBasis e

/-- A history: what each call did, and the object at the end. -/
noncomputable def OneAtomObj.run (e : OneEnv) : OneAtomObj → List OneOp → List Bool × OneAtomObj
  | o, [] => ([], o)
  | o, x :: xs =>
    let r := o.step e x
    let rs := OneAtomObj.run e r.2 xs
    (r.1 :: rs.1, rs.2)

end PI
