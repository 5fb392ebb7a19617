import Verif.Legacy.MainModel
import Verif.Legacy.HamOne
import Verif.Legacy.StepsModel
import Verif.Legacy.RestrictModel

/-!
# The keys of the stored matrices (Basisnames.hpp, Basisnames.cpp, HamiltonianOne.cpp, HamiltonianTwo.cpp)

A matrix is stored under a configuration (C64). This file models how a run makes the configuration of each matrix out of the configuration it was started with, and what
the matrix is computed from. Conversions between strings and numbers are parameters.
-/

namespace PI

/-- The conversions of `Configuration::value` (ConfParser.hpp:47-113): `std::stoi`, `std::stof` (of a momentum, doubled), `std::stod`, `std::stoul`, and `operator<<` of
a stream for int, float (doubled) and double. -/
structure ConfNum where
  stoi : Str → Out ℤ
  stof : Str → Out ℤ
  stod : Str → Out ℝ
  stoul : Str → Out ℕ
  putI : ℤ → Str
  putF : ℤ → Str
  putD : ℝ → Str

/-- Quantum numbers survive printing and reading; a printed number is not empty. -/
structure ConfNum.Lawful (P : ConfNum) : Prop where
  int : ∀ n, P.stoi (P.putI n) = .ok n
  half : ∀ j, P.stof (P.putF j) = .ok j
  some : ∀ n, P.putI n ≠ []

/-- `config[key]` of a constant configuration (ConfParser.hpp:200). -/
def Config.at (c : Config) (k : String) : Out Str := c.getConst k.toList

/-- `conf[key] << value` (ConfParser.hpp:47-63). -/
def Config.put (c : Config) (k : String) (v : Str) : Config := c.set k.toList v

/-- Reading a start state (Basisnames.cpp:32-36, 60-64, 86-94, 298-306, 337-345). -/
def readOld1 (P : ConfNum) (c : Config) (n l j m : String) : Out Old1 :=
  c.at n >>= P.stoi >>= fun n => c.at l >>= P.stoi >>= fun l => c.at j >>= P.stof >>= fun j => c.at m >>= P.stof >>= fun m => .ok ⟨n, l, j, m⟩

/-- `Basisnames::configure` (Basisnames.hpp:37-49): the entries are copied and the ranges read. -/
def basisConfigure (P : ConfNum) (c : Config) : Out (Config × Deltas) :=
  c.at "deltaNSingle" >>= fun sn => c.at "deltaLSingle" >>= fun sl => c.at "deltaJSingle" >>= fun sj => c.at "deltaMSingle" >>= fun sm =>
  P.stoi sn >>= fun n => P.stoi sl >>= fun l => P.stoi sj >>= fun j => P.stoi sm >>= fun m =>
  c.at "missingCalc" >>= fun mc => c.at "missingWhittaker" >>= fun mw =>
  .ok ((((((Config.put [] "deltaNSingle" sn).put "deltaLSingle" sl).put "deltaJSingle" sj).put "deltaMSingle" sm).put "missingCalc" mc).put "missingWhittaker" mw,
    ⟨n, l, j, m⟩)

/-- A `BasisnamesOne`. -/
structure OldBasisOne where
  conf : Config
  init : List Old1
  names : List (Named Old1)

/-- `build(StateOneOld, species)` (Basisnames.cpp:189-229). -/
def OldBasisOne.single (P : ConfNum) (conf : Config) (d : Deltas) (s : Old1) (species : Str) : OldBasisOne :=
  ⟨((((((((conf.put "species1" species).put "n1" (P.putI s.n)).put "l1" (P.putI s.l)).put "j1" (P.putF s.j)).put "m1" (P.putF s.m)).put "n2" []).put "l2" []).put "j2" []).put
    "m2" [], [s], buildOne s d⟩

/-- `build(StateTwoOld, species)` (Basisnames.cpp:119-188). -/
def OldBasisOne.double (P : ConfNum) (conf : Config) (d : Deltas) (s t : Old1) (species : Str) : OldBasisOne :=
  ⟨((((((((conf.put "species1" species).put "n1" (P.putI s.n)).put "l1" (P.putI s.l)).put "j1" (P.putF s.j)).put "m1" (P.putF s.m)).put "n2" (P.putI t.n)).put "l2"
    (P.putI t.l)).put "j2" (P.putF t.j)).put "m2" (P.putF t.m), [s, t], buildBoth s t d⟩

/-- `StateTwoOld::order` (StateOld.cpp:249-257). -/
def oldOrder (s t : Old1) : Old1 × Old1 := if s.le t then (s, t) else (t, s)

/-- `fromFirst`, `fromSecond`, `fromBoth` (Basisnames.cpp:30-42, 58-70, 86-106). -/
def OldBasisOne.make (P : ConfNum) (c : Config) : OldAtoms → Out OldBasisOne
  | .first => readOld1 P c "n1" "l1" "j1" "m1" >>= fun s => basisConfigure P c >>= fun x => c.at "species1" >>= fun sp => .ok (.single P x.1 x.2 s sp)
  | .second => readOld1 P c "n2" "l2" "j2" "m2" >>= fun s => basisConfigure P c >>= fun x => c.at "species2" >>= fun sp => .ok (.single P x.1 x.2 s sp)
  | .both => readOld1 P c "n1" "l1" "j1" "m1" >>= fun s => readOld1 P c "n2" "l2" "j2" "m2" >>= fun t => c.at "species1" >>= fun sp => c.at "species2" >>= fun sp2 =>
      if sp ≠ sp2 then .throw else basisConfigure P c >>= fun x => .ok (.double P x.1 x.2 (oldOrder s t).1 (oldOrder s t).2 sp)

/-- The method of the radial elements (MatrixElements.cpp:85-96): `none` is "Error". -/
def oldMethod (c : Config) : Out (Option Method) :=
  c.at "missingCalc" >>= fun mc => if mc = "true".toList then .ok (some .numerov)
    else c.at "missingWhittaker" >>= fun mw => .ok (if mw = "true".toList then some .whittaker else none)

/-- The members of a `HamiltonianOne` after `configure` (HamiltonianOne.cpp:66-100) and the method of its `MatrixElements` (199-201). -/
structure OldOneRun where
  basis : OldBasisOne
  /-- `basicconf` -/
  conf : Config
  species : Str
  deltaE : ℝ
  method : Option Method
  scan : OldScan

/-- Reading a field. -/
def readVec (P : ConfNum) (c : Config) (x y z : String) : Out Vec3 :=
  c.at x >>= P.stod >>= fun x => c.at y >>= P.stod >>= fun y => c.at z >>= P.stod >>= fun z => .ok ⟨x, y, z⟩

/-- `HamiltonianOne` up to the loop over the steps (Interface.cpp:66-95, HamiltonianOne.cpp:31-41, 66-100). The number of steps is read only if the fields change. (Simplified: which of
several missing entries is missed first is not followed.) -/
noncomputable def oldOneRun (P : ConfNum) (real : Bool) (c : Config) (a : OldAtoms) : Out OldOneRun :=
  open Classical in
  OldBasisOne.make P c a >>= fun b =>
  c.at "deltaESingle" >>= fun de => c.at "diamagnetism" >>= fun dia =>
  P.stod de >>= fun deltaE => b.conf.at "species1" >>= fun sp =>
  readVec P c "minBx" "minBy" "minBz" >>= fun minB => readVec P c "minEx" "minEy" "minEz" >>= fun minE =>
  readVec P c "maxBx" "maxBy" "maxBz" >>= fun maxB => readVec P c "maxEx" "maxEy" "maxEz" >>= fun maxE =>
  (if minB = maxB ∧ minE = maxE then .ok 1 else c.at "steps" >>= P.stoul) >>= fun steps =>
  let conf := (b.conf.put "deltaESingle" de).put "diamagnetism" dia
  oldMethod conf >>= fun me =>
  .ok ⟨b, conf, sp, deltaE, me, ⟨real, minE, maxE, minB, maxB, decide (dia = "true".toList), steps⟩⟩

/-- The configuration of a step, under which its matrix is stored (HamiltonianOne.cpp:488-495). -/
noncomputable def OldOneRun.key (P : ConfNum) (r : OldOneRun) (step : ℕ) : Config :=
  let f := r.scan.fieldsAt step
  (((((r.conf.put "Ex" (P.putD f.E.x)).put "Ey" (P.putD f.E.y)).put "Ez" (P.putD f.E.z)).put "Bx" (P.putD f.B.x)).put "By" (P.putD f.B.y)).put "Bz" (P.putD f.B.z)

/-- What does not come from the configuration: units, radial integrals of all species, energies of all species, and the function that diagonalises a matrix (Eigen). The
eigenvectors and energies are taken to be a function of the matrix. -/
structure OldEnv where
  U : Units
  J : RadKey → ℝ
  energy : String → Old1 → ℝ
  eig : (n : ℕ) → Matrix (Fin n) (Fin n) ℂ → OldOne n

/-- The states of the one-atom Hamiltonian (HamiltonianOne.cpp:127-151). -/
noncomputable def OldOneRun.states (e : OldEnv) (r : OldOneRun) : List Old1 :=
  oldWindow (e.energy (String.ofList r.species)) r.basis.init r.deltaE (r.basis.names.map Prod.snd)

/-- The matrices of the steps that are diagonalised and stored (HamiltonianOne.cpp:102-628), with the rows of `cache_elements.db` at the start. -/
noncomputable def OldOneRun.build (e : OldEnv) (db : OldDb) (r : OldOneRun) : Out (ℕ → Matrix (Fin (r.states e).length) (Fin (r.states e).length) ℂ) :=
  oldHamOne e.U (r.method.map fun me => oldIntegral me (String.ofList r.species) e.J) (e.energy (String.ofList r.species)) r.basis.init r.deltaE (r.basis.names.map Prod.snd)
    db r.scan

/-- The members of a `HamiltonianTwo` after the settings were read (HamiltonianTwo.cpp:71-180). -/
structure OldPairRun where
  one1 : OldOneRun
  one2 : OldOneRun
  /-- `samebasis` -/
  same : Bool
  /-- the start state of the pair -/
  init : Old1 × Old1
  /-- `conf_matpair` -/
  conf : Config
  deltaE : ℝ
  d : Deltas
  exponent : ℤ
  /-- method of the elements of the interaction -/
  method : Option Method
  syms : OldSymConf

/-- `BasisnamesTwo` of a common basis or of two bases (Basisnames.cpp:287-348, 391-407): the configuration and the start state. -/
def oldBasisTwo (P : ConfNum) (same : Bool) (c1 c2 : Config) : Out (Config × (Old1 × Old1)) :=
  c1.at "n2" >>= fun n12 => c2.at "n2" >>= fun n22 =>
  if same ∧ n12 = [] then .throw
  else if ¬ same ∧ (n12 ≠ [] ∨ n22 ≠ []) then .throw
  else basisConfigure P c1 >>= fun x => readOld1 P c1 "n1" "l1" "j1" "m1" >>= fun s =>
    (if same then readOld1 P c1 "n2" "l2" "j2" "m2" else readOld1 P c2 "n1" "l1" "j1" "m1") >>= fun t =>
    c1.at "species1" >>= fun sp1 => (if same then c1.at "species1" else c2.at "species1") >>= fun sp2 =>
    .ok (((((((((((x.1.put "combined" (P.putI (if same then 1 else 0))).put "species1" sp1).put "n1" (P.putI s.n)).put "l1" (P.putI s.l)).put "j1" (P.putF s.j)).put "m1"
      (P.putF s.m)).put "species2" sp2).put "n2" (P.putI t.n)).put "l2" (P.putI t.l)).put "j2" (P.putF t.j)).put "m2" (P.putF t.m), (s, t))

/-- `config[key].str() == "true"`. -/
def Config.flag (c : Config) (k : String) : Out Bool := c.at k >>= fun v => .ok (decide (v = "true".toList))

/-- The settings of the symmetries (HamiltonianTwo.cpp:143-175). -/
def readSyms (c : Config) : Out OldSymConf :=
  c.flag "invE" >>= fun ie => c.flag "invO" >>= fun io => c.flag "perE" >>= fun pe => c.flag "perO" >>= fun po => c.flag "refE" >>= fun re => c.flag "refO" >>= fun ro =>
  c.flag "conserveM" >>= fun cm => c.flag "sametrafo" >>= fun st => c.flag "zerotheta" >>= fun zt => .ok ⟨(ie, io), (pe, po), (re, ro), cm, st, zt⟩

/-- `HamiltonianTwo` up to the restriction of the states (Interface.cpp:77-103, HamiltonianTwo.cpp:30-180). `same`: the constructor for a common basis. (Simplified: steps
and distances are read where they are used, `oldPairTasks`.) -/
noncomputable def oldPairRun (P : ConfNum) (real : Bool) (c : Config) (same : Bool) : Out OldPairRun :=
  oldOneRun P real c (if same then .both else .first) >>= fun o1 => (if same then .ok o1 else oldOneRun P real c .second) >>= fun o2 =>
  oldBasisTwo P same o1.basis.conf o2.basis.conf >>= fun b =>
  c.at "deltaEPair" >>= fun sE => c.at "deltaNPair" >>= fun sn => c.at "deltaLPair" >>= fun sl => c.at "deltaJPair" >>= fun sj => c.at "deltaMPair" >>= fun sm =>
  c.at "exponent" >>= fun sx =>
  P.stod sE >>= fun E => P.stoi sn >>= fun n => P.stoi sl >>= fun l => P.stoi sj >>= fun j => P.stoi sm >>= fun m => P.stoi sx >>= fun x =>
  readSyms c >>= fun sy => oldMethod c >>= fun me =>
  .ok ⟨o1, o2, same, b.2, (((((b.1.put "deltaEPair" sE).put "deltaNPair" sn).put "deltaLPair" sl).put "deltaJPair" sj).put "deltaMPair" sm).put "exponent" sx, E, ⟨n, l, j, m⟩, x,
    me, sy⟩

/-- Printing a symmetry (HamiltonianTwo.cpp:713-716); `std::to_string` of an int. -/
def putSym (P : ConfNum) : Option ℤ → Str
  | none => []
  | some k => P.putI k

/-- The configuration of a step and a symmetry, under which its matrix is stored (HamiltonianTwo.cpp:103-110, 711-716); `i` is the step of the one-atom Hamiltonians. -/
noncomputable def OldPairRun.key (P : ConfNum) (p : OldPairRun) (i : ℕ) (R : ℝ) (sym : OldSym) : Config :=
  ((((((p.one1.key P i).append p.conf).put "R" (P.putD R)).put "inversion" (putSym P (sym.inversion.map OldParity.int))).put "permutation"
    (putSym P (sym.permutation.map OldParity.int))).put "reflection" (putSym P (sym.reflection.map OldParity.int))).put "rotation" (putSym P sym.rotation)

/-- The diagonalised Hamiltonians of an atom before the restriction (Hamiltonian.hpp:29-53). -/
noncomputable def OldOneRun.atom (e : OldEnv) (r : OldOneRun) (H : ℕ → Matrix (Fin (r.states e).length) (Fin (r.states e).length) ℂ) : OldAtom :=
  ⟨number 0 (r.states e), (r.states e).length, (List.range r.scan.nSteps).map fun k => e.eig _ (H k)⟩

/-- The state of a row. -/
def OldAtom.state (a : OldAtom) (i : Fin a.n) : Old1 := ((a.names.map Prod.snd)[(i : ℕ)]?).getD ⟨0, 0, 0, 0⟩

/-- The symmetries of a pair calculation after the restriction of the states. -/
def OldPairRun.blocks (p : OldPairRun) (a : OldAtom × OldAtom) : List OldSym := oldSymmetries p.syms p.init (List.ofFn (pairState a.1.state a.2.state))

/-- The atoms of a pair calculation after the restriction of the states (HamiltonianTwo.cpp:181-260), with the rows of `cache_elements.db` when their
Hamiltonians were built. -/
noncomputable def OldPairRun.atoms (e : OldEnv) (db1 db2 : OldDb) (p : OldPairRun) : Out (OldAtom × OldAtom) :=
  p.one1.build e db1 >>= fun H1 => p.one2.build e db2 >>= fun H2 =>
  oldRestrictBoth p.d p.same p.one1.basis.init p.one2.basis.init (p.one1.atom e H1) (p.one2.atom e H2)

/-- The matrix of a step and a symmetry that is diagonalised and stored (HamiltonianTwo.cpp:281-388, 821-846). `cells` are the matrix elements of a species and a
method. (Simplified: that the precalculated cells do not depend on the database is C85, C87.) -/
noncomputable def OldPairRun.block (e : OldEnv) (cells : Option Method → String → Cells) (p : OldPairRun) (a : OldAtom × OldAtom) (i : ℕ) (R : ℝ) (sym : OldSym) :
    Out (Σ k, Matrix (Fin k) (Fin k) ℂ) :=
  match a.1.mats[i]?, a.2.mats[i]? with
  | some A, some B =>
    oldBlock e.U (cells p.method (String.ofList p.one1.species)) (cells p.method (String.ofList p.one2.species)) sym a.1.state a.2.state A B p.deltaE
      (oldNecessary p.syms (p.blocks a) p.init (pairState a.1.state a.2.state) (oldCutoff (a.1.mats.zip a.2.mats) p.deltaE)) p.exponent R
  | _, _ => .ub

end PI
