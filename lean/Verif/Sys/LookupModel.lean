import Verif.Sys.Model
import Verif.Pair.BasisModel
import Verif.State.Model

/-!
# SystemBase.cpp, SystemTwo.cpp: looking up states by quantum numbers and by index

`getStateIndex`, `getStates`, `getOverlap` by index, `getStatesFirst`, `getStatesSecond`.
-/

namespace PI

/-- `isGeneralized` (State.cpp:148-150); `j` and `m` are doubled. -/
def AState.isGen : AState → Bool
  | .art _ => false
  | .phys _ n l j m => decide (n = ARB) || decide (l = ARB) || decide (j = ARB2) || decide (m = ARB2)

/-- `utils::is_true(isGeneralized())` of a pair state (State.cpp:276-278, utils.hpp:52-55): both are generalized (`std::all_of`). -/
def genTwo (p : AState × AState) : Bool := p.1.isGen && p.2.isGen

/-- `a ^ b` (State.cpp:162-166): `a` is contained in the generalized state `b`. An artificial state has all numbers 0 (State.cpp:67-70). -/
def AState.within : AState → AState → Bool
  | .phys s n l j m, .phys s' n' l' j' m' =>
    decide (s = s') && (decide (n' = ARB) || decide (n = n')) && (decide (l' = ARB) || decide (l = l')) && (decide (j' = ARB2) || decide (j = j')) &&
      (decide (m' = ARB2) || decide (m = m'))
  | .art a, .phys s' n' l' j' m' =>
    decide (a = s') && (decide (n' = ARB) || decide (0 = n')) && (decide (l' = ARB) || decide (0 = l')) && (decide (j' = ARB2) || decide (0 = j')) &&
      (decide (m' = ARB2) || decide (0 = m'))
  | .phys s n l j m, .art b => decide (s = b) && decide (n = 0) && decide (l = 0) && decide (j = 0) && decide (m = 0)
  | .art a, .art b => decide (a = b)

/-- `a ^ b` of pair states (State.cpp:313-315). -/
def withinTwo (p q : AState × AState) : Bool := p.1.within q.1 && p.2.within q.2

/-- `getStates` (SystemBase.cpp:302-311). -/
def SysB.getStates {σ : Type} (s : SysB σ) : List σ := s.states.map Prod.snd

/-- `getStateIndex` of one state (SystemBase.cpp:1089-1102); `gen` is the test for generalized states. -/
def SysB.stateIndex {σ : Type} [DecidableEq σ] (gen : σ → Bool) (s : SysB σ) (st : σ) : Out ℕ :=
  if gen st = true then .throw
  else match s.states.find? fun e => decide (e.2 = st) with
    | some e => .ok e.1
    | none => .throw

/-- `getStateIndex` of a list (SystemBase.cpp:1104-1125). -/
def SysB.stateIndices {σ : Type} [DecidableEq σ] (gen : σ → Bool) (s : SysB σ) (sts : List σ) : Out (List ℕ) :=
  foldOut (fun l st =>
    if gen st = true then .throw
    else match s.states.find? fun e => decide (e.2 = st) with
      | some e => .ok (l ++ [e.1])
      | none => .throw) [] sts

/-- `getOverlap` by indices without rotation (SystemBase.cpp:260-296): the overlaps of all basis vectors. An index that is no row is an invalid triplet. -/
noncomputable def SysB.overlapsAt {σ : Type} (s : SysB σ) (ix : List ℕ) : Out (List ℝ) :=
  if ix.any (fun x => decide (s.V.rows ≤ x)) then .ub else .ok ((List.range s.V.cols).map fun k => getOverlap s.V ix k)

/-- `getOverlap` by states without rotation (SystemBase.cpp:229-258); `sub st q`: the state `st` is contained in the generalized state `q`. -/
noncomputable def SysB.overlapsOf {σ : Type} [DecidableEq σ] (gen : σ → Bool) (sub : σ → σ → Bool) (s : SysB σ) (qs : List σ) : Out (List ℝ) :=
  s.overlapsAt (overlapIndices s.states (qs.map fun q => if gen q = true then .inl fun st => sub st q else .inr q))

/-- The set filled by `getStatesFirst` and `getStatesSecond` (SystemTwo.cpp:61-83): a state is inserted if it is new. -/
def oneStatesSet (f : AState × AState → AState) (states : List (ℕ × (AState × AState))) : List AState :=
  states.foldl (fun l e => if f e.2 ∈ l then l else l ++ [f e.2]) []

/-- `getStatesFirst` (SystemTwo.cpp:61-71) returns the set in the order `order` of the `std::unordered_set`. -/
def statesFirst (order : List AState → List AState) (s : SysB (AState × AState)) : List AState := order (oneStatesSet Prod.fst s.states)
/-- `getStatesSecond` (SystemTwo.cpp:73-83). -/
def statesSecond (order : List AState → List AState) (s : SysB (AState × AState)) : List AState := order (oneStatesSet Prod.snd s.states)

end PI
