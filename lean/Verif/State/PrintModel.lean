import Verif.State.Model
import Mathlib.Data.Nat.Digits.Defs

/-!
# Model of the printing of states (`State.cpp` 35-48, 73-96, 220-229)

Strings are lists of characters.  A C++ `float` that holds an integer or a half-integer is a sign
and a doubled magnitude, since the sign of a zero is printed although `-0.0 == 0.0`.
-/

namespace PI

/-- A `float` holding an integer or half-integer: sign bit and twice the absolute value. -/
structure SFloat where
  neg : Bool
  mag2 : Nat
deriving DecidableEq

/-- The number that the float holds, doubled. -/
def SFloat.val2 (x : SFloat) : Int := if x.neg then -(x.mag2 : Int) else x.mag2

/-- The float that holds half of `z`; never a negative zero. -/
def SFloat.ofInt (z : Int) : SFloat := ⟨decide (z < 0), z.natAbs⟩

/-- `-x` on a float flips the sign bit, also of a zero. -/
def SFloat.opp (x : SFloat) : SFloat := ⟨!x.neg, x.mag2⟩

/-- The data of a `StateOne` that are printed (`State.hpp` 44-99); `j` and `m` are floats. -/
structure PState where
  species : List Char
  n : Int
  l : Int
  j : SFloat
  m : SFloat
deriving DecidableEq

/-- The printed data of a state of the main model. -/
def PState.ofState (a : StateOne) : PState :=
  ⟨a.species.toList, a.n, a.l, SFloat.ofInt a.j2, SFloat.ofInt a.m2⟩

/-- `operator==` (`State.cpp` 159-161) on this data: floats are compared by value. -/
def PState.eq (a b : PState) : Bool :=
  (a.species == b.species) && (a.n == b.n) && (a.l == b.l) && (a.j.val2 == b.j.val2) &&
    (a.m.val2 == b.m.val2)

/-- `State.cpp` 154-156, `getReflected` (of a physical state): the sign bit of `m` is flipped. -/
def PState.reflected (a : PState) : PState := { a with m := a.m.opp }

/-- The decimal digit `d < 10`. -/
def digitCh (d : Nat) : Char := Char.ofNat (48 + d)

/-- `ostream << unsigned`: decimal digits, most significant first. -/
def decStr (n : Nat) : List Char :=
  if n = 0 then ['0'] else (Nat.digits 10 n).reverse.map digitCh

/-- `ostream << int`. -/
def intStr (z : Int) : List Char := (if z < 0 then ['-'] else []) ++ decStr z.natAbs

/-- `ostream << float` (format `%g` with six significant digits) of an integer or half-integer.  The
output is the exact decimal number when it has at most six significant digits, that is below 100000;
other numbers are rounded, which the parameter `big` stands for. -/
def floatStr (big : SFloat → List Char) (x : SFloat) : List Char :=
  if x.mag2 < 200000 then
    (if x.neg then ['-'] else []) ++ decStr (x.mag2 / 2) ++ (if x.mag2 % 2 = 0 then [] else ['.', '5'])
  else big x

/-- `2 * x` on a float. -/
def SFloat.twice (x : SFloat) : SFloat := ⟨x.neg, 2 * x.mag2⟩

/-- `State.cpp` 35-48, `getMomentumLabel` and its `operator<<`: `letters[l]` with a negative index is
undefined behaviour. -/
def momentumLabel (l : Int) : Out (List Char) :=
  if l < 7 then
    if l < 0 then .ub else .ok [['S', 'P', 'D', 'F', 'G', 'H', 'I'].getD l.toNat ' ']
  else .ok (intStr l)

/-- `State.cpp` 73-90, `operator<<` of `StateOne`; 92-96, `str`.  `ceil(j) == j` holds exactly for
integers, i.e. for even doubled values. -/
def PState.str (big : SFloat → List Char) (a : PState) : Out (List Char) :=
  if a.n = 0 then .ok (['|'] ++ a.species ++ ['>'])
  else
    match momentumLabel a.l with
    | .throw => .throw
    | .ub => .ub
    | .ok L =>
      if a.j.mag2 % 2 = 0 then
        .ok (['|'] ++ (a.species ++ [',', ' '] ++ intStr a.n ++ [' '] ++ L ++ ['_'] ++
          floatStr big a.j ++ [',', ' '] ++ ['m', 'j', '='] ++ floatStr big a.m) ++ ['>'])
      else
        .ok (['|'] ++ (a.species ++ [',', ' '] ++ intStr a.n ++ [' '] ++ L ++ ['_'] ++
          (floatStr big a.j.twice ++ ['/', '2']) ++ [',', ' '] ++ ['m', 'j', '='] ++
            (floatStr big a.m.twice ++ ['/', '2'])) ++ ['>'])

/-- `State.cpp` 220-229, `operator<<` and `str` of `StateTwo`: both atoms, one after the other. -/
def pairStr (big : SFloat → List Char) (a b : PState) : Out (List Char) :=
  match a.str big with
  | .throw => .throw
  | .ub => .ub
  | .ok s =>
    match b.str big with
    | .throw => .throw
    | .ub => .ub
    | .ok t => .ok (s ++ t)

/-! ## The legacy states -/

/-- The text of a legacy state between `|` and `, mj=...`, `StateOld.cpp` 71-78 and 204-211; the same
number format and letters as for the new states (lines 33-46). -/
def oldHead (big : SFloat → List Char) (a : PState) (L : List Char) : List Char :=
  a.species ++ [',', ' '] ++ intStr a.n ++ [' '] ++ L ++ ['_'] ++
    (if a.j.mag2 % 2 = 0 then floatStr big a.j else floatStr big a.j.twice ++ ['/', '2']) ++ [',', ' ']

/-- The projection, `StateOld.cpp` 77-83 and 210-216. -/
def oldMj (big : SFloat → List Char) (a : PState) : List Char :=
  ['m', 'j', '='] ++
    (if a.j.mag2 % 2 = 0 then floatStr big a.m else floatStr big a.m.twice ++ ['/', '2'])

/-- `StateOld.cpp` 70-86, `operator<<` of `StateOneOld`. -/
def oldStr (big : SFloat → List Char) (a : PState) : Out (List Char) :=
  match momentumLabel a.l with
  | .ok L => .ok (['|'] ++ (oldHead big a L ++ oldMj big a) ++ ['>'])
  | .throw => .throw
  | .ub => .ub

/-- One pass of the loop in `operator<<` of `StateTwoOld`, `StateOld.cpp` 203-216: for integer `j` a
superfluous `>` is printed. -/
def oldPart (big : SFloat → List Char) (a : PState) (L : List Char) : List Char :=
  oldHead big a L ++ oldMj big a ++ (if a.j.mag2 % 2 = 0 then ['>'] else [])

/-- `StateOld.cpp` 201-224, `operator<<` of `StateTwoOld`. -/
def oldPairStr (big : SFloat → List Char) (a b : PState) : Out (List Char) :=
  match momentumLabel a.l, momentumLabel b.l with
  | .ok L, .ok K => .ok (['|'] ++ (oldPart big a L ++ [';', ' '] ++ oldPart big b K) ++ ['>'])
  | .throw, _ => .throw
  | .ub, _ => .ub
  | _, .throw => .throw
  | _, .ub => .ub

/-- `StateOld.cpp` 88-91, `operator==` of `StateOneOld`: the species is not compared. -/
def oldEq (a b : PState) : Bool :=
  (a.n == b.n) && (a.l == b.l) && (a.j.val2 == b.j.val2) && (a.m.val2 == b.m.val2)

end PI
