import Verif.Pair.BasisModel
import Verif.Sys.Model

/-!
# SystemTwo.cpp: choosing the pairs of one-atom basis vectors

`setOneAtomBasisvectors`, the energy window and the getters of the basis of a pair system over its lifetime (no user-defined pair states), and the restriction
of the one-atom systems by the ranges of the pair system.
-/

namespace PI

/-- `operator<=` of `std::array<size_t, 2>`, the order used by `std::sort` (SystemTwo.cpp:185). -/
def pairLe (a b : ℕ × ℕ) : Bool := decide (a.1 < b.1) || (decide (a.1 = b.1) && decide (a.2 ≤ b.2))

/-- `std::adjacent_find` finds something (SystemTwo.cpp:186). -/
def adjacentEq : List (ℕ × ℕ) → Bool
  | a :: b :: l => decide (a = b) || adjacentEq (b :: l)
  | _ => false

/-- The check of `setOneAtomBasisvectors` (SystemTwo.cpp:183-190) throws. -/
def selectionRefused (l : List (ℕ × ℕ)) : Bool := adjacentEq (l.mergeSort pairLe)

/-- What does not change over the lifetime: the diagonalised one-atom systems, symmetries, threshold, species. -/
structure PairEnv where
  S1 : OneSys
  S2 : OneSys
  sym : PairSym
  thr : ℝ
  species : String × String

/-- No basis yet, a basis, or variables that fail the consistency check of `buildBasis` (SystemBase.cpp:527-531). -/
inductive PairPhase where
  | empty
  | built (B : PairBasis)
  | inconsistent

/-- The object: `one_atom_basisvectors_indices`, the pending energy window, the basis. -/
structure PairObj where
  sel : List (ℕ × ℕ)
  emin : Option ℝ
  emax : Option ℝ
  phase : PairPhase

/-- A new object (SystemTwo.cpp:51-60, SystemBase.cpp:1297-1300). -/
def PairObj.fresh : PairObj := ⟨[], none, none, .empty⟩

/-- The settings that `initializeBasis` reads. -/
def PairObj.settings (e : PairEnv) (o : PairObj) : PairSet := ⟨e.sym, o.emin, o.emax, o.sel, [], e.thr, e.species⟩

/-- What is left behind if the new basis is empty (SystemTwo.cpp:575-617, SystemBase.cpp:527-531): the Hamiltonian has no entries iff there are no basis vectors,
the matrix of the basis vectors has none iff there are no vectors or no states. -/
noncomputable def phaseAfter (B : PairBasis) : PairPhase :=
  open Classical in if B.cols = [] ↔ B.states = [] then .empty else .inconsistent

/-- A getter (SystemBase.cpp:302-356, 524-561): what it does and the object afterwards. `lt` and `E` are not used without user-defined states. `refine` is
what `updateEverything` makes of an existing basis (SystemBase.cpp:1559-1632), any function here. -/
noncomputable def PairObj.get (e : PairEnv) (refine : PairBasis → Option ℝ → Option ℝ → Out PairBasis) (o : PairObj) : Out Unit × PairObj :=
  match o.phase with
  | .inconsistent => (.throw, o)
  | .built B =>
    if o.emin = none ∧ o.emax = none then (.ok (), o) else
    match refine B o.emin o.emax with
    | .ok B' => (.ok (), ⟨o.sel, none, none, .built B'⟩)
    | .throw => (.throw, ⟨o.sel, none, none, .inconsistent⟩)
    | .ub => (.ub, o)
  | .empty =>
    match pairBuild (o.settings e) (fun _ _ => false) (fun _ => 0) e.S1 e.S2 with
    | .ok B => (.ok (), ⟨o.sel, none, none, .built B⟩)
    | .ub => (.ub, o)
    | .throw =>
      match pairLoop (o.settings e) e.S1 e.S2 ((o.settings e).usedPairs e.S1 e.S2) with
      | .ok cs => (.throw, ⟨o.sel, none, none, phaseAfter (prunePairs e.thr cs)⟩)
      | _ => (.throw, o)

/-- The calls of a history. -/
inductive PairCall where
  | choose (l : List (ℕ × ℕ))
  | window (a b : Option ℝ)
  | get

/-- One call: `setOneAtomBasisvectors` (SystemTwo.cpp:180-194), `restrictEnergy` (SystemBase.cpp:88-94), a getter. -/
noncomputable def PairObj.step (e : PairEnv) (refine : PairBasis → Option ℝ → Option ℝ → Out PairBasis) (o : PairObj) : PairCall → Out Unit × PairObj
  | .choose l => if selectionRefused l = true then (.throw, o) else (.ok (), { o with sel := l })
  | .window a b => (.ok (), { o with emin := a, emax := b })
  | .get => o.get e refine

/-- A history: what each call did, and the object at the end. -/
noncomputable def PairObj.run (e : PairEnv) (refine : PairBasis → Option ℝ → Option ℝ → Out PairBasis) : PairObj → List PairCall → List (Out Unit) × PairObj
  | o, [] => ([], o)
  | o, x :: xs =>
    let r := o.step e refine x
    let rs := PairObj.run e refine r.2 xs
    (r.1 :: rs.1, rs.2)

/-- A one-atom system as `initializeBasis` reads it (SystemTwo.cpp:236-259, 334-345): states in the order of their numbers, per basis vector the diagonal entry of the
Hamiltonian and the entries. (Simplified: stored zeros are left out.) -/
noncomputable def SysB.oneSys (S : SysB AState) : OneSys :=
  open Classical in
  ⟨S.states.map Prod.snd, (List.range S.V.cols).map fun c => ((S.H.val c c).re,
    (S.states.filter fun x => decide (S.V.val x.1 c ≠ 0)).map fun x => (x.2, S.V.val x.1 c))⟩

/-- The ranges of the pair system are applied to the diagonalised one-atom systems (SystemTwo.cpp:204-217), the next getter of which removes states and
vectors (SystemBase.cpp:524-561); without ranges nothing happens. `valid = none`: no ranges. -/
noncomputable def SysB.restricted (S : SysB AState) (valid : Option (AState → Bool)) : Out (SysB AState) :=
  match valid with
  | none => .ok S
  | some f => S.update ⟨some f, none, none, 0.05, false⟩

/-- `initializeBasis` (SystemTwo.cpp:202-650) with the restriction of the one-atom systems. -/
noncomputable def pairInit (P : PairSet) (valid : Option (AState → Bool)) (lt : AState → AState → Bool) (E : AState → ℝ) (S1 S2 : SysB AState) : Out PairBasis :=
  match S1.restricted valid with
  | .throw => .throw
  | .ub => .ub
  | .ok T1 =>
    match S2.restricted valid with
    | .throw => .throw
    | .ub => .ub
    | .ok T2 => pairBuild P lt E T1.oneSys T2.oneSys

end PI
