import Verif.Pair.BasisModel
import Verif.State.Model

/-!
# SystemTwo.cpp: the conserved quantities of a pair system over its lifetime

`setConservedParityUnder…`, `setConservedMomentaUnderRotation` and the getter that builds the basis.
-/

namespace PI

/-- The conserved quantities (SystemTwo.hpp:98-101, SystemTwo.cpp:34-39) with the set of momenta as it is stored, the states, and the basis if one was built. -/
structure SymObj where
  inv : Par
  perm : Par
  refl : Par
  rot : Finset ℤ
  states : List (AState × AState)
  basis : Option PairBasis

/-- A new object (SystemTwo.cpp:34-39): nothing is conserved. -/
def SymObj.fresh : SymObj := ⟨.na, .na, .na, {ARB}, [], none⟩

/-- `isRefelectionAndRotationCompatible` (SystemTwo.cpp:1598-1610). -/
def SymObj.compatible (o : SymObj) : Bool :=
  if ARB ∈ o.rot ∨ o.refl = .na then true else decide (∀ s ∈ o.rot, -s ∈ o.rot)

/-- The conserved quantities as `initializeBasis` reads them (SystemTwo.cpp:298-312, 358). -/
def SymObj.sym (o : SymObj) : PairSym := ⟨o.inv, o.perm, o.refl, if ARB ∈ o.rot then none else some o.rot⟩

/-- The calls of a history. A getter comes with everything else that it reads: the other settings (whose symmetries are ignored), the one-atom systems, order and energies
of the states, and with the states that it leaves if it throws. -/
inductive SymCall where
  | perm (p : Par)
  | inv (p : Par)
  | refl (p : Par)
  | rot (ms : Finset ℤ)
  | get (rest : PairSet) (lt : AState → AState → Bool) (E : AState → ℝ) (S1 S2 : OneSys) (left : List (AState × AState))

/-- One call. Setters: SystemTwo.cpp:144-179; `onSymmetryChange` (SystemBase.cpp:1331-1337) throws if there are states. The getter: `buildBasis` (SystemBase.cpp:524-561);
simplified: no restriction is pending if there is a basis. -/
noncomputable def SymObj.step (o : SymObj) : SymCall → Out Unit × SymObj
  | .perm p => if o.states ≠ [] then (.throw, o) else (.ok (), { o with perm := p })
  | .inv p => if o.states ≠ [] then (.throw, o) else (.ok (), { o with inv := p })
  | .refl p =>
    if o.states ≠ [] then (.throw, o) else
    let o' := { o with refl := p }
    if o'.compatible = true then (.ok (), o') else (.throw, o')
  | .rot ms =>
    if ARB ∈ ms ∧ 1 < ms.card then (.throw, o) else
    if o.states ≠ [] then (.throw, o) else
    let o' := { o with rot := ms }
    if o'.compatible = true then (.ok (), o') else (.throw, o')
  | .get rest lt E S1 S2 left =>
    if o.states ≠ [] then (if o.basis.isSome then (.ok (), o) else (.throw, o)) else
    match pairBuild { rest with sym := o.sym } lt E S1 S2 with
    | .ok B => (.ok (), { o with states := B.states, basis := some B })
    | .throw => (.throw, { o with states := left })
    | .ub => (.ub, o)

/-- A history: what each call did, and the object at the end. -/
noncomputable def SymObj.run : SymObj → List SymCall → List (Out Unit) × SymObj
  | o, [] => ([], o)
  | o, x :: xs => ((o.step x).1 :: (SymObj.run (o.step x).2 xs).1, (SymObj.run (o.step x).2 xs).2)

end PI
