import Verif.Basic
import Mathlib.Data.String.Basic

/-!
# Model of `State.hpp` / `State.cpp`

`j`, `m`, `s` are C++ `float`s that hold integers or half-integers (or the marker `ARB`).  They are
modelled by the doubled value as an `Int`; `2*ARB` is then the doubled marker.  Floats represent
these numbers exactly, and comparison, equality and negation agree with those of the doubled
integers (`-0.0 == 0.0`, and `std::hash<float>` maps both to the same value by the C++ standard).
-/

namespace PI

/-- `Constants.hpp` (`ARB = 32767`), used as wildcard for quantum numbers. -/
def ARB : Int := 32767

/-- Doubled marker for the `float` members. -/
def ARB2 : Int := 2 * ARB

/-- The `std::hash` specialisations used by `State.cpp` (`utils.hpp` 172-174: `hash<T>` inherits from
`std::hash<T>`).  They are arbitrary functions; nothing about them is assumed. -/
structure StdHash where
  str : String → UInt64
  int : Int → UInt64
  flt : Int → UInt64
  siz : UInt64 → UInt64

/-- `utils.hpp` 153-157, `hash_combine`, on 64-bit `size_t`. -/
def hashCombine (seed h : UInt64) : UInt64 :=
  seed ^^^ (h + (0x9e3779b9 : UInt64) + (seed <<< (6 : UInt64)) + (seed >>> (2 : UInt64)))

/-- `State.hpp` class `StateOne`, lines 44-99: the data members. `j2 m2 s2` are doubled. -/
structure StateOne where
  species : String
  element : String
  n : Int
  l : Int
  j2 : Int
  m2 : Int
  s2 : Int
  hash : UInt64
deriving DecidableEq

namespace StateOne

/-- `State.cpp` 147, `isArtificial`. -/
def isArtificial (a : StateOne) : Bool := a.n == 0

/-- `State.cpp` 148-150, `isGeneralized`. -/
def isGeneralized (a : StateOne) : Bool :=
  (a.n == ARB) || (a.l == ARB) || (a.j2 == ARB2) || (a.m2 == ARB2)

/-- `State.cpp` 188-192, `shouldBeArtificial`. -/
def shouldBeArtificial (a : StateOne) (opinion : Bool) : Out Unit :=
  if a.isArtificial != opinion then .throw else .ok ()

/-- `State.cpp` 180-187, `analyzeSpecies`: result is (element, doubled spin).
`species.back()` on an empty string is undefined behaviour. `((c-'0')-1)/2.` doubled is `c-'0'-1`. -/
def analyzeSpecies (species : String) : Out (String × Int) :=
  match species.toList.getLast? with
  | none => .ub
  | some c =>
    if c.isDigit then
      .ok (String.ofList species.toList.dropLast, ((c.toNat : Int) - ('0'.toNat : Int)) - 1)
    else .ok (species, 1)

/-- `State.cpp` 99-102 etc.: the getters of a physical state (guard, then the member). -/
def getN (a : StateOne) : Out Int := do a.shouldBeArtificial false; pure a.n
/-- `State.cpp` 103-106 -/
def getL (a : StateOne) : Out Int := do a.shouldBeArtificial false; pure a.l
/-- `State.cpp` 107-110 (doubled) -/
def getJ (a : StateOne) : Out Int := do a.shouldBeArtificial false; pure a.j2
/-- `State.cpp` 111-114 (doubled) -/
def getM (a : StateOne) : Out Int := do a.shouldBeArtificial false; pure a.m2
/-- `State.cpp` 115-118 (doubled) -/
def getS (a : StateOne) : Out Int := do a.shouldBeArtificial false; pure a.s2
/-- `State.cpp` 119-122 -/
def getSpecies (a : StateOne) : Out String := do a.shouldBeArtificial false; pure a.species
/-- `State.cpp` 123-126 -/
def getElement (a : StateOne) : Out String := do a.shouldBeArtificial false; pure a.element
/-- `State.cpp` 143-146 -/
def getLabel (a : StateOne) : Out String := do a.shouldBeArtificial true; pure a.species
/-- `State.cpp` 152 -/
def getHash (a : StateOne) : UInt64 := a.hash

/-- `State.cpp` 56-65, the constructor from quantum numbers. -/
def mk' (H : StdHash) (species : String) (n l j2 m2 : Int) : Out StateOne := do
  let (element, s2) ← analyzeSpecies species
  let a : StateOne := ⟨species, element, n, l, j2, m2, s2, 0⟩
  let sp ← a.getSpecies
  let h := hashCombine 0 (H.str sp)
  let n' ← a.getN
  let h := hashCombine h (H.int n')
  let l' ← a.getL
  let h := hashCombine h (H.int l')
  let j' ← a.getJ
  let h := hashCombine h (H.flt j')
  let m' ← a.getM
  let h := hashCombine h (H.flt m')
  pure { a with hash := h }

/-- `State.cpp` 67-70, the constructor from a label. -/
def mkLabel (H : StdHash) (label : String) : Out StateOne := do
  let a : StateOne := ⟨label, "", 0, 0, 0, 0, 0, 0⟩
  let lab ← a.getLabel
  pure { a with hash := H.str lab }

/-- `State.cpp` 154-156, `getReflected`. -/
def getReflected (H : StdHash) (a : StateOne) : Out StateOne := do
  let sp ← a.getSpecies
  let n ← a.getN
  let l ← a.getL
  let j ← a.getJ
  let m ← a.getM
  mk' H sp n l j (-m)

/-- `State.cpp` 159-161, `operator==`. -/
def eq (a b : StateOne) : Bool :=
  (a.species == b.species) && (a.n == b.n) && (a.l == b.l) && (a.j2 == b.j2) && (a.m2 == b.m2)

/-- `State.cpp` 162-166, `operator^`. -/
def sub (a b : StateOne) : Bool :=
  (a.species == b.species) && (b.n == ARB || a.n == b.n) && (b.l == ARB || a.l == b.l) &&
    (b.j2 == ARB2 || a.j2 == b.j2) && (b.m2 == ARB2 || a.m2 == b.m2)

/-- `State.cpp` 167-169, `operator!=`. -/
def ne (a b : StateOne) : Bool :=
  (a.species != b.species) || (a.n != b.n) || (a.l != b.l) || (a.j2 != b.j2) || (a.m2 != b.m2)

/-- `State.cpp` 170-176, `operator<`. (`String` order: lexicographic by code point, which for UTF-8
is the byte order of `std::string`.) -/
def lt (a b : StateOne) : Bool :=
  decide (a.species < b.species) ||
    ((a.species == b.species) &&
      (decide (a.n < b.n) ||
        ((a.n == b.n) &&
          (decide (a.l < b.l) ||
            ((a.l == b.l) && (decide (a.j2 < b.j2) || ((a.j2 == b.j2) && decide (a.m2 < b.m2))))))))

/-- `State.cpp` 177, `operator<=`. -/
def le (a b : StateOne) : Bool := lt a b || eq a b

end StateOne

/-- `State.hpp` class `StateTwo`, lines 108-172: the two atoms and the hash. -/
structure StateTwo where
  fst : StateOne
  snd : StateOne
  hash : UInt64
deriving DecidableEq

namespace StateTwo

/-- `State.cpp` 202-204 (also 208-210, 214-216): the pair hash. -/
def pairHash (H : StdHash) (a b : StateOne) : UInt64 :=
  hashCombine (hashCombine 0 (H.siz a.getHash)) (H.siz b.getHash)

/-- `State.cpp` 212-217, constructor from two one-atom states. -/
def mkPair (H : StdHash) (a b : StateOne) : StateTwo := ⟨a, b, pairHash H a b⟩

/-- `State.cpp` 198-205, constructor from quantum numbers. -/
def mk' (H : StdHash) (sp : String × String) (n l j2 m2 : Int × Int) : Out StateTwo := do
  let a ← StateOne.mk' H sp.1 n.1 l.1 j2.1 m2.1
  let b ← StateOne.mk' H sp.2 n.2 l.2 j2.2 m2.2
  pure (mkPair H a b)

/-- `State.cpp` 206-211, constructor from two labels. -/
def mkLabel (H : StdHash) (lab : String × String) : Out StateTwo := do
  let a ← StateOne.mkLabel H lab.1
  let b ← StateOne.mkLabel H lab.2
  pure (mkPair H a b)

/-- `State.cpp` 299 -/
def getFirstState (a : StateTwo) : StateOne := a.fst
/-- `State.cpp` 300 -/
def getSecondState (a : StateTwo) : StateOne := a.snd
/-- `State.cpp` 302 -/
def getHash (a : StateTwo) : UInt64 := a.hash

/-- `State.cpp` 232-249: the array getters, both components are read. -/
def both {α : Type} (g : StateOne → Out α) (a : StateTwo) : Out (α × α) := do
  let x ← g a.fst
  let y ← g a.snd
  pure (x, y)

/-- `State.cpp` 304-307, `getReflected`. -/
def getReflected (H : StdHash) (a : StateTwo) : Out StateTwo := do
  let sp ← both StateOne.getSpecies a
  let n ← both StateOne.getN a
  let l ← both StateOne.getL a
  let j ← both StateOne.getJ a
  let m ← both StateOne.getM a
  mk' H sp n l j (-m.1, -m.2)

/-- `State.cpp` 310-312 -/
def eq (a b : StateTwo) : Bool := (a.fst.eq b.fst) && (a.snd.eq b.snd)
/-- `State.cpp` 313-315 -/
def sub (a b : StateTwo) : Bool := (a.fst.sub b.fst) && (a.snd.sub b.snd)
/-- `State.cpp` 316-318 -/
def ne (a b : StateTwo) : Bool := (a.fst.ne b.fst) || (a.snd.ne b.snd)
/-- `State.cpp` 319-322 -/
def lt (a b : StateTwo) : Bool := (a.fst.lt b.fst) || ((a.fst.eq b.fst) && (a.snd.lt b.snd))
/-- `State.cpp` 323 -/
def le (a b : StateTwo) : Bool := lt a b || eq a b

end StateTwo

/-- `StateOld.hpp` class `StateOneOld` (index, species, quantum numbers; `element` and `s` derived from
`species` are not needed here and left out). -/
structure StateOneOld where
  idx : Nat
  species : String
  n : Int
  l : Int
  j2 : Int
  m2 : Int
deriving DecidableEq

namespace StateOneOld
/-- `StateOld.cpp` 86-89 (`operator==`, species is ignored). -/
def eq (a b : StateOneOld) : Bool := (a.n == b.n) && (a.l == b.l) && (a.j2 == b.j2) && (a.m2 == b.m2)
/-- `StateOld.cpp` 103-108 -/
def lt (a b : StateOneOld) : Bool :=
  decide (a.n < b.n) || ((a.n == b.n) && (decide (a.l < b.l) || ((a.l == b.l) &&
    (decide (a.j2 < b.j2) || ((a.j2 == b.j2) && decide (a.m2 < b.m2))))))
end StateOneOld

/-- `StateOld.hpp` class `StateTwoOld`: arrays of length two, written as pairs. -/
structure StateTwoOld where
  idx : Nat
  species : String × String
  n : Int × Int
  l : Int × Int
  j2 : Int × Int
  m2 : Int × Int
deriving DecidableEq

namespace StateTwoOld
/-- `StateOld.cpp` 198 -/
def first (a : StateTwoOld) : StateOneOld := ⟨0, a.species.1, a.n.1, a.l.1, a.j2.1, a.m2.1⟩
/-- `StateOld.cpp` 199 -/
def second (a : StateTwoOld) : StateOneOld := ⟨0, a.species.2, a.n.2, a.l.2, a.j2.2, a.m2.2⟩
/-- `StateOld.cpp` 153-157 -/
def ofOnes (a b : StateOneOld) : StateTwoOld :=
  ⟨0, (a.species, b.species), (a.n, b.n), (a.l, b.l), (a.j2, b.j2), (a.m2, b.m2)⟩
/-- `StateOld.cpp` 226-229 -/
def eq (a b : StateTwoOld) : Bool :=
  (a.n.1 == b.n.1) && (a.l.1 == b.l.1) && (a.j2.1 == b.j2.1) && (a.m2.1 == b.m2.1) &&
  (a.n.2 == b.n.2) && (a.l.2 == b.l.2) && (a.j2.2 == b.j2.2) && (a.m2.2 == b.m2.2)
/-- `StateOld.cpp` 244-247 -/
def lt (a b : StateTwoOld) : Bool :=
  a.first.lt b.first || (a.first.eq b.first && a.second.lt b.second)
/-- `StateOld.cpp` 249-257 -/
def order (a : StateTwoOld) : StateTwoOld :=
  if decide (a.n.1 < a.n.2) || ((a.n.1 == a.n.2) && (decide (a.l.1 < a.l.2) || ((a.l.1 == a.l.2) &&
      (decide (a.j2.1 < a.j2.2) || ((a.j2.1 == a.j2.2) && decide (a.m2.1 ≤ a.m2.2))))))
  then a
  else ofOnes a.second a.first
end StateTwoOld

/-- `Symmetry.hpp` 32-36. -/
structure SymmetryRec where
  inversion : Int
  reflection : Int
  permutation : Int
  rotation : Int
deriving DecidableEq

/-- `Symmetry.hpp` 43-51: the loop over the two arrays. -/
def symLoop : List (Int × Int) → Bool
  | [] => false
  | (x, y) :: rest => if x < y then true else if x > y then false else symLoop rest

/-- `Symmetry.hpp` 39-52, `operator<`; the arrays have five entries, the last is zero. -/
def SymmetryRec.lt (a b : SymmetryRec) : Bool :=
  symLoop [(a.inversion, b.inversion), (a.reflection, b.reflection),
    (a.permutation, b.permutation), (a.rotation, b.rotation), (0, 0)]

end PI
