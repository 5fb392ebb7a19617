import Verif.Element.Model

/-!
# MatrixElementCache.cpp: the cache object, its database file, histories and processes

The five tables (radial, angular, commutes_s, commutes_l, multipole) are one table over the sum of the
five key types; the library treats them identically except that only the computation of a radial value
can throw, that it depends on settings, and that it is done first.  `unordered_map`/`unordered_set` are
association lists without duplicates (only find/insert/erase/iteration is used); the unspecified
iteration order is the `shuffle` operation of a history.
-/

namespace PI

/-- What the radial integral is computed from: everything in the key except its `method` field
(`calcRadialElement` reads the cache's own `method`, MatrixElementCache.cpp:532-544, 781-785). -/
structure RadArgs where
  species : String
  kappa : ℤ
  n : ℤ × ℤ
  l : ℤ × ℤ
  j : ℤ × ℤ
deriving DecidableEq

/-- The fields of a radial key that the computation reads (MatrixElementCache.cpp:781-785). -/
def RadKey.args (k : RadKey) : RadArgs := ⟨k.species, k.kappa, k.n, k.l, k.j⟩

/-- A key of one of the five tables (MatrixElementCache.hpp:181-200). -/
inductive CKey where
  | rad (k : RadKey)
  | ang (k : AngKey)
  | comS (k : ComKey)
  | comL (k : ComKey)
  | mul (k : MulKey)
deriving DecidableEq

/-- Is this a key of the radial table? -/
def CKey.isRad : CKey → Bool
  | .rad _ => true
  | _ => false

/-- Rows of a table: key and value. -/
abbrev Rows := List (CKey × ℝ)

/-- `find` in a map, or `select value … where key` in the database. -/
def Rows.get (r : Rows) (k : CKey) : Option ℝ := (r.find? (fun e => decide (e.1 = k))).map Prod.snd

/-- `unordered_map::insert`, and `insert or ignore into …` (MatrixElementCache.cpp:774, 787):
an existing key is kept. -/
def Rows.insert (r : Rows) (k : CKey) (v : ℝ) : Rows := if (r.get k).isSome then r else r ++ [(k, v)]

/-- The members of `MatrixElementCache` (MatrixElementCache.hpp:181-207).  `dbOn` is `!dbname.empty()`;
`txn` is the connection's open transaction with the rows inserted in it, if there is one. -/
structure MEC where
  method : Method
  defectdb : String
  dbOn : Bool
  txn : Option Rows
  cache : Rows
  missing : List CKey

/-- The outside world of the cache: constants, the radial integrals (`none`: `QuantumDefect` or the
integration throws), and whether an insertion into the radial map triggers a rehash. -/
structure CacheEnv where
  C : ElemConsts
  radial : String → Method → RadArgs → Option ℝ
  rehash : MEC → Bool

/-- The two constructors (MatrixElementCache.cpp:83-122): without and with a database file. -/
def MEC.fresh (dbOn : Bool) : MEC := ⟨.numerov, "", dbOn, none, [], []⟩

/-- `setMethod` (MatrixElementCache.cpp:132-135). -/
def MEC.setMethod (c : MEC) (m : Method) : MEC := { c with method := m }

/-- `setDefectDB` (MatrixElementCache.cpp:124-130). -/
def MEC.setDefectDB (c : MEC) (path : String) : MEC := { c with defectdb := path, dbOn := false }

/-- Serializing and loading the cache (MatrixElementCache.hpp:213-238): the name of the quantum-defect
database is not in the archive, and the connection is a new one. -/
def MEC.reload (c : MEC) : MEC := { c with defectdb := "", txn := none }

/-- "if find(key) == end then missing.insert(key)" (e.g. MatrixElementCache.cpp:376-379). -/
def MEC.want (c : MEC) (k : CKey) : MEC :=
  if (c.cache.get k).isSome ∨ k ∈ c.missing then c else { c with missing := c.missing ++ [k] }

/-- Several of these. -/
def MEC.wantAll (c : MEC) (ks : List CKey) : MEC := ks.foldl MEC.want c

/-- The value computed for a missing key with the current settings
(MatrixElementCache.cpp:779-785, 806-812, 839-860, 889-910, 935-941). -/
noncomputable def MEC.compute (E : CacheEnv) (c : MEC) : CKey → Option ℝ
  | .rad k => E.radial c.defectdb c.method k.args
  | .ang k => some k.value
  | .comS k => some k.valueS
  | .comL k => some k.valueL
  | .mul k => some k.value

/-- One round of a loading loop (MatrixElementCache.cpp:659-747): if the row is in the database (or in
the connection's own open transaction) move the key from `missing` to the cache. -/
def MEC.loadOne (file : Rows) (c : MEC) (k : CKey) : MEC :=
  if k ∈ c.missing then
    match Rows.get (file ++ c.txn.getD []) k with
    | some v => { c with cache := c.cache.insert k v, missing := c.missing.erase k }
    | none => c
  else c

/-- The loading part of `update` (MatrixElementCache.cpp:638-749). -/
def MEC.load (file : Rows) (c : MEC) : MEC :=
  if c.dbOn then c.missing.foldl (MEC.loadOne file) c else c

/-- One round of a computing loop (MatrixElementCache.cpp:779-804 and its four copies): compute, insert
into the cache and into the transaction.  `none`: the computation throws. -/
noncomputable def MEC.calcOne (E : CacheEnv) (c : MEC) (k : CKey) : Option MEC :=
  match c.compute E k with
  | none => none
  | some v => some { c with
      cache := c.cache.insert k v
      txn := if c.dbOn then some ((c.txn.getD []).insert k v) else c.txn }

/-- The computing loops: radial keys first; the first exception ends them, keeping what was done
(MatrixElementCache.cpp:757-960).  Flag: no exception. -/
noncomputable def MEC.calcAll (E : CacheEnv) : MEC → List CKey → Bool × MEC
  | c, [] => (true, c)
  | c, k :: ks =>
    match c.calcOne E k with
    | none => (false, c)
    | some c' => MEC.calcAll E c' ks

/-- `stmt->exec("begin transaction;")` (MatrixElementCache.cpp:753-755): SQLite refuses to begin a
transaction within a transaction. -/
def MEC.begin (c : MEC) : Option MEC :=
  if c.dbOn then (match c.txn with | some _ => none | none => some { c with txn := some [] }) else some c

/-- `commit transaction` (MatrixElementCache.cpp:962-964): the rows become part of the file unless
their key is already there. -/
def MEC.commit (c : MEC) (file : Rows) : MEC × Rows :=
  if c.dbOn then ({ c with txn := none }, (c.txn.getD []).foldl (fun f e => f.insert e.1 e.2) file)
  else (c, file)

/-- The order in which the missing keys are computed: radial table first (MatrixElementCache.cpp:757-960). -/
def calcOrder (ks : List CKey) : List CKey := ks.filter CKey.isRad ++ ks.filter (fun k => !k.isRad)

/-- `update()` (MatrixElementCache.cpp:628-966): outcome (`ok false` is 0, nothing to do), cache, file.
When a computation throws, no `missing` set has been cleared. -/
noncomputable def MEC.update (E : CacheEnv) (c : MEC) (file : Rows) : Out Bool × MEC × Rows :=
  if c.missing = [] then (.ok false, c, file) else
  let c := c.load file
  match c.begin with
  | none => (.throw, c, file)
  | some c =>
    match c.calcAll E (calcOrder c.missing) with
    | (false, c) => (.throw, c, file)
    | (true, c) =>
      let r := MEC.commit { c with missing := [] } file
      (.ok true, r.1, r.2)

/-- Dereferencing an iterator returned by `find`: dereferencing `end()` is undefined behaviour. -/
def deref (c : MEC) (k : CKey) : Out ℝ :=
  match c.cache.get k with
  | some v => .ok v
  | none => .ub

/-- `getElectricMultipole(row, col, kappa_radial, kappa_angular)` (MatrixElementCache.cpp:414-466). -/
noncomputable def MEC.getElectricMultipole (E : CacheEnv) (c : MEC) (file : Rows) (row col : QN)
    (kr ka : ℤ) : Out ℝ × MEC × Rows :=
  if row.species ≠ col.species then (.throw, c, file) else
  let k1 := RadKey.make c.method row.species kr row.n col.n row.l col.l row.j col.j
  let k2 := AngKey.make ka row.j col.j row.m col.m
  let k3 := ComKey.make row.s ka row.l col.l row.j col.j
  let k4 := MulKey.make ka row.l col.l
  let c := c.wantAll [.rad k1, .ang k2.1, .comS k3.1, .mul k4.1]
  match c.update E file with
  | (.ok _, c, file) =>
    (do
      let v1 ← deref c (.rad k1)
      let v2 ← deref c (.ang k2.1)
      let v3 ← deref c (.comS k3.1)
      let v4 ← deref c (.mul k4.1)
      pure (E.C.e * v1 * k2.2 * v2 * k3.2 * v3 * k4.2 * v4), c, file)
  | (.throw, c, file) => (.throw, c, file)
  | (.ub, c, file) => (.ub, c, file)

/-- `getMagneticDipole(row, col)` (MatrixElementCache.cpp:364-412). -/
noncomputable def MEC.getMagneticDipole (E : CacheEnv) (c : MEC) (file : Rows) (row col : QN) :
    Out ℝ × MEC × Rows :=
  if row.species ≠ col.species then (.throw, c, file) else
  let k1 := RadKey.make c.method row.species 0 row.n col.n row.l col.l row.j col.j
  let k2 := AngKey.make 1 row.j col.j row.m col.m
  let k3 := ComKey.make row.s 1 row.l col.l row.j col.j
  let k4 := ComKey.make row.s 1 row.l col.l row.j col.j
  let c := c.wantAll [.rad k1, .ang k2.1, .comS k3.1, .comL k4.1]
  match c.update E file with
  | (.ok _, c, file) =>
    (do
      let v1 ← deref c (.rad k1)
      let v2 ← deref c (.ang k2.1)
      let v3 ← deref c (.comS k3.1)
      let v4 ← deref c (.comL k4.1)
      pure (-E.C.muB * v1 * k2.2 * v2 *
        (E.C.gL * k3.2 * v3 * Real.sqrt (row.l * (row.l + 1) * (2 * row.l + 1)) +
         E.C.gS * k4.2 * v4 * Real.sqrt ((row.s : ℝ) / 2 * (row.s / 2 + 1) * (row.s + 1)))), c, file)
  | (.throw, c, file) => (.throw, c, file)
  | (.ub, c, file) => (.ub, c, file)

/-- `getRadial(row, col, kappa)` (MatrixElementCache.cpp:468-492).  The iterator found before `update`
is kept if the key was present; if `update` inserted into the radial map and that rehashed it, the
iterator is invalid and dereferencing it is undefined. -/
noncomputable def MEC.getRadial (E : CacheEnv) (c : MEC) (file : Rows) (row col : QN) (kappa : ℤ) :
    Out ℝ × MEC × Rows :=
  if row.species ≠ col.species then (.throw, c, file) else
  let k1 := RadKey.make c.method row.species kappa row.n col.n row.l col.l row.j col.j
  let found := (c.cache.get (.rad k1)).isSome
  let c := c.want (.rad k1)
  let inserts := c.missing.any CKey.isRad
  match c.update E file with
  | (.ok u, c', file) =>
    (if u && found && inserts && E.rehash c then .ub else deref c' (.rad k1), c', file)
  | (.throw, c, file) => (.throw, c, file)
  | (.ub, c, file) => (.ub, c, file)

/-! ## Precalculation -/

/-- The species and spin `precalculate` uses for all pairs: those of the first physical state
(MatrixElementCache.cpp:550-564).  `none` in the basis is an artificial state. -/
def firstPhysical (basis : List (Option QN)) : Option QN := (basis.find? Option.isSome).join

/-- The keys wanted for one pair (MatrixElementCache.cpp:575-621). -/
noncomputable def pairKeys (method : Method) (species : String) (s : ℤ) (row col : QN) (ka : ℤ) (q : Option ℤ)
    (kr : ℤ) (el mag rad : Bool) : List CKey :=
  if q.any (fun q => decide (row.m - col.m ≠ 2 * q)) then [] else
  if (el && selMultipole row col ka) || (mag && selMomentum row col) || rad then
    [.rad (RadKey.make method species kr row.n col.n row.l col.l row.j col.j)] ++
    (if el || mag then [.ang (AngKey.make ka row.j col.j row.m col.m).1] else []) ++
    (if el || mag then [.comS (ComKey.make s ka row.l col.l row.j col.j).1] else []) ++
    (if mag then [.comL (ComKey.make s ka row.l col.l row.j col.j).1] else []) ++
    (if el then [.mul (MulKey.make ka row.l col.l).1] else [])
  else []

/-- `precalculate(basis, kappa_angular, q, kappa_radial, …)` (MatrixElementCache.cpp:546-626): over all
columns and all rows up to the column; `q = none` is `INT_MAX`.  Nothing is computed yet. -/
noncomputable def MEC.precalculate (c : MEC) (basis : List (Option QN)) (ka : ℤ) (q : Option ℤ) (kr : ℤ)
    (el mag rad : Bool) : MEC :=
  match firstPhysical basis with
  | none => c
  | some f => c.wantAll ((List.range basis.length).flatMap fun ic =>
      (List.range (ic + 1)).flatMap fun ir =>
        match basis[ic]?.join, basis[ir]?.join with
        | some col, some row => pairKeys c.method f.species f.s row col ka q kr el mag rad
        | _, _ => [])

/-! ## Histories -/

/-- What a user can do with the cache, and the unspecified iteration order of `missing`. -/
inductive COp where
  | multipole (row col : QN) (kr ka : ℤ)
  | magnetic (row col : QN)
  | radial (row col : QN) (kappa : ℤ)
  | precalculate (basis : List (Option QN)) (ka : ℤ) (q : Option ℤ) (kr : ℤ) (el mag rad : Bool)
  | setMethod (m : Method)
  | setDefectDB (path : String)
  | reload
  | shuffle (ks : List CKey)

/-- Is it a lookup? -/
def COp.isGet : COp → Bool
  | .multipole .. | .magnetic .. | .radial .. => true
  | _ => false

/-- Effect of an operation: outcome (a lookup's value; 0 for the others), cache, file. -/
noncomputable def COp.run (E : CacheEnv) (o : COp) (c : MEC) (file : Rows) : Out ℝ × MEC × Rows :=
  match o with
  | .multipole row col kr ka => c.getElectricMultipole E file row col kr ka
  | .magnetic row col => c.getMagneticDipole E file row col
  | .radial row col kappa => c.getRadial E file row col kappa
  | .precalculate basis ka q kr el mag rad => (.ok 0, c.precalculate basis ka q kr el mag rad, file)
  | .setMethod m => (.ok 0, c.setMethod m, file)
  | .setDefectDB path => (.ok 0, c.setDefectDB path, file)
  | .reload => (.ok 0, c.reload, file)
  | .shuffle ks => (.ok 0, if ks.Perm c.missing then { c with missing := ks } else c, file)

/-- A history: the operations one after the other, whether or not they throw. -/
noncomputable def runHist (E : CacheEnv) : List COp → MEC → Rows → MEC × Rows
  | [], c, f => (c, f)
  | o :: os, c, f => runHist E os (o.run E c f).2.1 (o.run E c f).2.2

end PI
