import Verif.Basic
import Mathlib.Algebra.Order.Field.Basic
import Mathlib.Data.Rat.Defs

/-!
# Cache.hpp and QuantumDefect.cpp

`K` is the ordered field that stands for `double` (exact arithmetic).  `j` is stored doubled.
-/

namespace PI

/-! ## The cache (`Cache.hpp`) -/

/-- `Cache<Key,Element,Hash>` (Cache.hpp:33-41): an `unordered_map`, here the finite map it denotes.
The hash function and the bucket structure are not modelled. -/
abbrev CacheMap (κ : Type u) (ε : Type v) := κ → Option ε

namespace CacheMap
variable {κ : Type u} {ε : Type v} [DecidableEq κ]

/-- A newly constructed cache (Cache.hpp:40). -/
def empty : CacheMap κ ε := fun _ => none

/-- `Cache::save` (Cache.hpp:59-64): `emplace`, which does not overwrite; throws when the key is
present.  Returns the outcome together with the cache afterwards. -/
def save (c : CacheMap κ ε) (k : κ) (e : ε) : Out Unit × CacheMap κ ε :=
  match c k with
  | some _ => (.throw, c)
  | none => (.ok (), fun k' => if k' = k then some e else c k')

/-- `Cache::restore` (Cache.hpp:87-94). -/
def restore (c : CacheMap κ ε) (k : κ) : Option ε := c k

/-- `Cache::clear` (Cache.hpp:100; takes no lock). -/
def clear (_ : CacheMap κ ε) : CacheMap κ ε := empty

end CacheMap

/-- One public operation on a cache. -/
inductive CacheOp (κ : Type u) (ε : Type v) where
  | save (k : κ) (e : ε)
  | restore (k : κ)
  | clear

/-- The cache after one operation. -/
def CacheOp.apply {κ : Type u} {ε : Type v} [DecidableEq κ] (c : CacheMap κ ε) :
    CacheOp κ ε → CacheMap κ ε
  | .save k e => (c.save k e).2
  | .restore _ => c
  | .clear => c.clear

/-- The cache after a history of operations (oldest first). -/
def runCache {κ : Type u} {ε : Type v} [DecidableEq κ] (h : List (CacheOp κ ε)) : CacheMap κ ε :=
  h.foldl CacheOp.apply CacheMap.empty

/-! ## The quantum defect database -/

/-- A row of table `model_potential` (databases/quantum_defects.sql:19). -/
structure PotRow (K : Type) where
  element : String
  L : Int
  ac : K
  Z : Int
  a1 : K
  a2 : K
  a3 : K
  a4 : K
  rc : K
deriving DecidableEq

/-- A row of table `rydberg_ritz` (databases/quantum_defects.sql:64); `J2` is 2J. -/
structure RitzRow (K : Type) where
  element : String
  L : Int
  J2 : Int
  d0 : K
  d2 : K
  d4 : K
  d6 : K
  d8 : K
  Ry : K
deriving DecidableEq

/-- The two tables of a connection; `none` = the table does not exist. -/
structure Tables (K : Type) where
  pot : Option (List (PotRow K))
  ritz : Option (List (RitzRow K))
deriving DecidableEq

/-- A freshly opened `:memory:` database (QuantumDefect.cpp:76). -/
def Tables.fresh {K : Type} : Tables K := ⟨none, none⟩

/-- The SQL statements that occur in the database scripts (databases/quantum_defects.sql). -/
inductive Sql (K : Type) where
  | dropPot
  | createPot
  | insertPot (r : PotRow K)
  | dropRitz
  | createRitz
  | insertRitz (r : RitzRow K)

/-- One SQL statement: `DROP TABLE IF EXISTS`, `CREATE TABLE` (error if it exists), `INSERT`
(error if the table is missing).  SQLite's behaviour, restricted to these statements. -/
def Sql.exec {K : Type} (t : Tables K) : Sql K → Option (Tables K)
  | .dropPot => some { t with pot := none }
  | .createPot => match t.pot with
    | none => some { t with pot := some [] }
    | some _ => none
  | .insertPot r => match t.pot with
    | none => none
    | some rs => some { t with pot := some (rs ++ [r]) }
  | .dropRitz => some { t with ritz := none }
  | .createRitz => match t.ritz with
    | none => some { t with ritz := some [] }
    | some _ => none
  | .insertRitz r => match t.ritz with
    | none => none
    | some rs => some { t with ritz := some (rs ++ [r]) }

/-- `sqlite3_exec` of a whole script (SQLite.hpp:191-195): statements run in order; the first error
stops the script, leaving the effects of the earlier statements. -/
def execScript {K : Type} : List (Sql K) → Tables K → Bool × Tables K
  | [], t => (true, t)
  | s :: ss, t => match s.exec t with
    | some t' => execScript ss t'
    | none => (false, t)

/-! ## QuantumDefect -/

/-- Cached result (QuantumDefect.hpp, `struct Element`). -/
structure Element (K : Type) where
  ac : K
  Z : Int
  a1 : K
  a2 : K
  a3 : K
  a4 : K
  rc : K
  nstar : K
  energy : K
deriving DecidableEq

/-- Cache key (QuantumDefect.hpp:55-65); `j2` is 2j. -/
structure QKey where
  species : String
  n : Int
  l : Int
  j2 : Int
deriving DecidableEq

/-- `select MAX(…)`: always one row; NULL for no match, which `sqlite3_column_int/double` reads
as 0 (QuantumDefect.cpp:108-155). -/
def sqlMax (xs : List Int) : Int := match xs with
  | [] => 0
  | x :: xs => xs.foldl max x

/-- `nstar` (QuantumDefect.cpp:180-189). -/
def nstarOf {K : Type} [Field K] (n : Int) (r : RitzRow K) : K :=
  n - (r.d0 + r.d2 / (n - r.d0) ^ 2 + r.d4 / (n - r.d0) ^ 4 + r.d6 / (n - r.d0) ^ 6
    + r.d8 / (n - r.d0) ^ 8)

/-- `energy` (QuantumDefect.cpp:177,194); `au2GHz` (Constants.hpp) and `Ry_inf` = 109737.31568525
are parameters. -/
def energyOf {K : Type} [Field K] (RyInf au2GHz Ry nstar : K) : K :=
  -(1 / 2) * (Ry / RyInf) / (nstar * nstar) * au2GHz

/-- Constants used in `setup`. -/
structure Consts (K : Type) where
  RyInf : K
  au2GHz : K

/-- The clipped (pot_l, ryd_l, ryd_j) of QuantumDefect.cpp:107-155, `ryd_j` doubled. -/
def clip {K : Type} (pot : List (PotRow K)) (ritz : List (RitzRow K)) (k : QKey) : Int × Int × Int :=
  let potL := min k.l (sqlMax ((pot.filter (·.element = k.species)).map (·.L)))
  let rydL := min k.l (sqlMax ((ritz.filter (·.element = k.species)).map (·.L)))
  let rydJ := min k.j2
    (sqlMax ((ritz.filter (fun r => r.element = k.species ∧ r.L = rydL)).map (·.J2)))
  (potL, rydL, rydJ)

/-- The database part of `QuantumDefect::setup` (QuantumDefect.cpp:101-194): the value computed on a
cache miss.  A missing table makes `prepare` throw.  If several rows match, the first one inserted
is used (SQLite leaves the order unspecified; the shipped tables have no duplicates). -/
def compute {K : Type} [Field K] (C : Consts K) (t : Tables K) (k : QKey) : Out (Element K) :=
  match t.pot, t.ritz with
  | some pot, some ritz =>
    let c := clip pot ritz k
    match pot.find? (fun r => r.element = k.species ∧ r.L = c.1) with
    | none => .throw
    | some p =>
      match ritz.find? (fun r => r.element = k.species ∧ r.L = c.2.1 ∧ r.J2 = c.2.2) with
      | none => .throw
      | some r =>
        let ns := nstarOf k.n r
        .ok ⟨p.ac, p.Z, p.a1, p.a2, p.a3, p.a4, p.rc, ns, energyOf C.RyInf C.au2GHz r.Ry ns⟩
  | _, _ => .throw

/-- State of one process (one thread) as far as `QuantumDefect` is concerned: the static cache and
`used_db_name` (QuantumDefect.cpp:87-88) and the thread-local in-memory database
(QuantumDefect.cpp:76). -/
structure QState (K : Type) where
  cache : CacheMap QKey (Element K)
  usedName : String
  mem : Tables K

/-- State at process start. -/
def QState.init {K : Type} : QState K := ⟨CacheMap.empty, "", Tables.fresh⟩

/-- What does not change: constants, the embedded database, and the files (a name that cannot be
opened reads as the empty script, QuantumDefect.cpp:78-81).  Files are assumed not to change while
the process runs. -/
structure QEnv (K : Type) where
  C : Consts K
  embedded : Tables K
  files : String → List (Sql K)

/-- `QuantumDefect::setup` (QuantumDefect.cpp:86-197) on an open database `t`. -/
def QState.setup {K : Type} [Field K] (C : Consts K) (s : QState K) (t : Tables K) (name : String)
    (k : QKey) : Out (Element K) × QState K :=
  let s := if s.usedName ≠ name then { s with usedName := name, cache := s.cache.clear } else s
  match s.cache.restore k with
  | some e => (.ok e, s)
  | none =>
    match compute C t k with
    | .ok e =>
      match s.cache.save k e with
      | (.ok (), c) => (.ok e, { s with cache := c })
      | (.throw, c) => (.throw, { s with cache := c })
      | (.ub, c) => (.ub, { s with cache := c })
    | .throw => (.throw, s)
    | .ub => (.ub, s)

/-- `QuantumDefect::QuantumDefect(species,n,l,j,database)` (QuantumDefect.cpp:70-84; the four
argument constructor 63-67 is the case `database = ""`). -/
def QState.construct {K : Type} [Field K] (E : QEnv K) (s : QState K) (k : QKey) (database : String) :
    Out (Element K) × QState K :=
  if database = "" then
    s.setup E.C E.embedded database k
  else
    match execScript (E.files database) s.mem with
    | (false, t) => (.throw, { s with mem := t })
    | (true, t) => ({ s with mem := t } : QState K).setup E.C t database k

/-- The process after a history of constructor calls. -/
def QState.run {K : Type} [Field K] (E : QEnv K) (h : List (QKey × String)) : QState K :=
  h.foldl (fun s a => (s.construct E a.1 a.2).2) QState.init

/-! ## Concurrent construction -/

/-- Where a thread is inside `setup` (QuantumDefect.cpp:86-197), one constructor per atomic step. -/
inductive Pc (ε : Type) where
  | idle
  /-- about to read `used_db_name` (line 90) -/
  | check
  /-- about to assign `used_db_name` (line 91) -/
  | assign
  /-- about to `cache.clear()` (line 92) -/
  | clear
  /-- about to `cache.restore` (line 96, under the mutex) -/
  | restore
  /-- reading its own thread-local database (lines 101-194) -/
  | compute
  /-- about to `cache.save` (line 196, under the mutex) -/
  | save (e : ε)

/-- A thread: program counter, current request (key and database name), further requests. -/
structure Thread (κ ε : Type) where
  pc : Pc ε
  cur : κ × String
  todo : List (κ × String)

/-- Shared state, threads, and the results so far (request, outcome). -/
structure Conf (τ κ ε : Type) where
  name : String
  cache : CacheMap κ ε
  thr : τ → Thread κ ε
  log : List ((κ × String) × Out ε)

/-- Replace one thread. -/
def Conf.setThr {τ κ ε : Type} [DecidableEq τ] (c : Conf τ κ ε) (t : τ) (x : Thread κ ε) :
    Conf τ κ ε := { c with thr := fun t' => if t' = t then x else c.thr t' }

/-- One atomic step of thread `t` (`none`: the thread has nothing to do).  `fresh name key` is what
the database part returns; each thread has its own connection.  The unsynchronised accesses to
`used_db_name` and the unlocked `clear` are data races in C++ (undefined behaviour); they are
modelled here as atomic steps, so every failure shown already happens under the mildest reading. -/
def Conf.step {τ κ ε : Type} [DecidableEq τ] [DecidableEq κ] (fresh : String → κ → Out ε)
    (c : Conf τ κ ε) (t : τ) : Option (Conf τ κ ε) :=
  let x := c.thr t
  let finish (o : Out ε) (c : Conf τ κ ε) : Conf τ κ ε :=
    { c.setThr t { x with pc := .idle } with log := (x.cur, o) :: c.log }
  match x.pc with
  | .idle => match x.todo with
    | [] => none
    | r :: rs => some (c.setThr t { pc := .check, cur := r, todo := rs })
  | .check => some (c.setThr t { x with pc := if c.name ≠ x.cur.2 then .assign else .restore })
  | .assign => some ({ c with name := x.cur.2 }.setThr t { x with pc := .clear })
  | .clear => some ({ c with cache := c.cache.clear }.setThr t { x with pc := .restore })
  | .restore => match c.cache.restore x.cur.1 with
    | some e => some (finish (.ok e) c)
    | none => some (c.setThr t { x with pc := .compute })
  | .compute => match fresh x.cur.2 x.cur.1 with
    | .ok e => some (c.setThr t { x with pc := .save e })
    | .throw => some (finish .throw c)
    | .ub => some (finish .ub c)
  | .save e => match c.cache.save x.cur.1 e with
    | (.ok (), m) => some (finish (.ok e) { c with cache := m })
    | (.throw, m) => some (finish .throw { c with cache := m })
    | (.ub, m) => some (finish .ub { c with cache := m })

/-- Run a schedule (the sequence of threads that take a step); steps of finished threads are
skipped. -/
def Conf.exec {τ κ ε : Type} [DecidableEq τ] [DecidableEq κ] (fresh : String → κ → Out ε)
    (c : Conf τ κ ε) : List τ → Conf τ κ ε
  | [] => c
  | t :: ts => ((c.step fresh t).getD c).exec fresh ts

/-- The configuration at program start: `used_db_name` empty, nothing cached, each thread about to
work through its requests. -/
def Conf.start {τ κ ε : Type} (prog : τ → List (κ × String)) (dflt : κ) : Conf τ κ ε :=
  ⟨"", CacheMap.empty, fun t => ⟨.idle, (dflt, ""), prog t⟩, []⟩

end PI
