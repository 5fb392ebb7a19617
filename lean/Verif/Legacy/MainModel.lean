import Verif.Conf.Model
import Mathlib.Data.Nat.Notation

/-!
# main.cpp and Interface.cpp: the command line program

`main` reads the options, `compute` decides which Hamiltonians are calculated.  The arguments do not contain the name of the program (`argv[0]`); printing is not
modelled.
-/

namespace PI

/-- How `main` goes on after reading the options: it leaves with a status, or calls `compute<double>` (`real`) or `compute<std::complex<double>>`. -/
inductive MainCall where
  | exit (status : ℕ)
  | compute (real : Bool) (config output : String)
deriving DecidableEq, Repr

/-- The local variables of `main` (main.cpp:41). -/
structure MainOpts where
  config : String
  output : String
  type : String

/-- After the loop over the options (main.cpp:75-97). -/
def mainFinish (s : MainOpts) : MainCall :=
  if s.config = "" then .exit 1
  else if s.output = "" then .exit 1
  else if s.type = "" then .exit 1
  else if s.type = "complex" then .compute false s.config s.output
  else if s.type = "real" then .compute true s.config s.output
  else .exit 1

/-- The loop over the options (main.cpp:43-73); `print_usage` leaves with the status (main.cpp:25-32). -/
def mainLoop : List String → MainOpts → MainCall
  | [], s => mainFinish s
  | opt :: rest, s =>
    if opt = "-?" ∨ opt = "--help" then .exit 0
    else if opt = "-c" ∨ opt = "--config" then match rest with
      | [] => .exit 1
      | v :: rest' => mainLoop rest' { s with config := v }
    else if opt = "-o" ∨ opt = "--output" then match rest with
      | [] => .exit 1
      | v :: rest' => mainLoop rest' { s with output := v }
    else if opt = "-t" ∨ opt = "--type" then match rest with
      | [] => .exit 1
      | v :: rest' => mainLoop rest' { s with type := v }
    else .exit 1

/-- `main` up to the call of `compute` (main.cpp:34-97). -/
def mainParse (args : List String) : MainCall := if args = [] then .exit 0 else mainLoop args ⟨"", "", ""⟩

/-- The one-atom bases (Interface.cpp:69, 85, 93; Basisnames.cpp:28-118). -/
inductive OldAtoms where
  | first
  | second
  | both
deriving DecidableEq, Repr

/-- What `compute` has calculated: a one-atom Hamiltonian, or a pair Hamiltonian from the two one-atom Hamiltonians it was given, with the configuration handed over
and the scalar type. -/
inductive OldJob where
  | one (real : Bool) (a : OldAtoms) (config : Config)
  | pair (real : Bool) (a b : OldAtoms) (config : Config)
deriving DecidableEq

/-- All keys of an atom are given (Interface.cpp:55-58). -/
def existAtom (c : Config) (keys : List String) : Bool := keys.all fun k => (c.find? k.toList).isSome

/-- `config[key].str()` through a non-const reference: the value and the configuration afterwards (ConfParser.hpp:190). -/
def readRef (c : Config) (k : String) : Str × Config := ((((c.touch k.toList).find? k.toList).getD []), c.touch k.toList)

/-- The constructor of `HamiltonianTwo` dereferences the pointers it is given (HamiltonianTwo.cpp:27-52, 66). -/
def oldPairJob (real : Bool) (p q : Option OldAtoms) (c : Config) : Out OldJob := match p, q with
  | some a, some b => .ok (.pair real a b c)
  | _, _ => .ub

/-- `compute` (Interface.cpp:40-111) on the configuration that was loaded: the calculations that are started, in this order, and the return value. A calculation that
throws ends the program; this is not modelled here. -/
def oldCompute (real : Bool) (c0 : Config) : Out (List OldJob × ℕ) :=
  let existAtom1 := existAtom c0 ["species1", "n1", "l1", "j1", "m1"]
  let existAtom2 := existAtom c0 ["species2", "n2", "l2", "j2", "m2"]
  let (same, c1) := readRef c0 "samebasis"
  if same = "true".toList then
    let (s1, c2) := readRef c1 "species1"
    let (s2, c3) := readRef c2 "species2"
    if s1 ≠ s2 then .ok ([], 1)
    else
      let one := if existAtom1 && existAtom2 then some OldAtoms.both else none
      let jobs := (one.map fun a => OldJob.one real a c3).toList
      if existAtom1 && existAtom2 && (c3.find? "minR".toList).isSome then
        oldPairJob real one one c3 >>= fun j => .ok (jobs ++ [j], 0)
      else .ok (jobs, 0)
  else
    let one1 := if existAtom1 then some OldAtoms.first else none
    let one2 := if existAtom2 then some OldAtoms.second else none
    let jobs := (one1.map fun a => OldJob.one real a c1).toList ++ (one2.map fun a => OldJob.one real a c1).toList
    if existAtom1 && existAtom2 && (c1.find? "minR".toList).isSome then
      oldPairJob real one1 one2 c1 >>= fun j => .ok (jobs ++ [j], 0)
    else .ok (jobs, 0)

/-- The program (main.cpp:34-97, Interface.cpp:40-111): `load` is `load_from_json`, which throws for a file it cannot read. The result is what is calculated and
the status. -/
def oldProgram (load : String → Out Config) (args : List String) : Out (List OldJob × ℕ) := match mainParse args with
  | .exit n => .ok ([], n)
  | .compute real config _ => load config >>= oldCompute real

end PI
