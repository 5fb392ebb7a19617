import Verif.Matfile.Model

/-!
# The parallel loops of the legacy program: HamiltonianOne.cpp:462-647, HamiltonianTwo.cpp:690-884

The iterations of the loop over the steps (and symmetries) are executed by OpenMP threads.  Shared between
them are the flag `flag_perhapsmissingtable`, the SQLite database with the table `cache_one`/`cache_two`, and
the files in the cache directory.  An iteration is a sequence of atomic actions: the accesses to the database
are in critical sections, and the others are single reads and writes.  Accesses to the flag without
synchronisation, which C++ leaves undefined, are taken to be sequentially consistent, and so is the random
generator of the file names, which is assumed never to give the same name twice.  The numbers and the printing
to the terminal are not modelled, and the existence of both files is checked before the first one is opened.
-/

namespace PI

/-- What the threads share, and what survives the process (all but `flag` and `dead`).  `dead`: an exception
has left the parallel region, which ends the program. -/
structure Shared (Conf : Type) where
  flag : Bool
  table : Bool
  rows : List (ℕ × Conf)
  files : ℕ → CacheFiles Conf
  dead : Bool

/-- Where an iteration stands: the next action it does. -/
inductive ThreadPC (M : Type) where
  | start
  | setFlag
  | create
  | select
  | update (u : ℕ)
  | insert
  | checkMat (u : ℕ)
  | checkJson (u : ℕ)
  | truncJson (u : ℕ)
  | writeJson (u : ℕ)
  | load (u : ℕ)
  | write (u : ℕ) (k : ℕ)
  | done (u : ℕ) (m : M)

/-- Writing to the files of one name. -/
def Shared.setFiles {Conf : Type} (σ : Shared Conf) (u : ℕ) (d : CacheFiles Conf) : Shared Conf :=
  { σ with files := Function.update σ.files u d }

/-- One action of an iteration with configuration `conf`, random name `g` and computed matrix `m`
(HamiltonianOne.cpp:467-646 with `one = true`, HamiltonianTwo.cpp:695-882 with `one = false`).
* `start`: `if (flag_perhapsmissingtable)`; the two programs create the table and clear the flag in different
  order (HamiltonianOne.cpp:515-518, HamiltonianTwo.cpp:736-739);
* `select`: the row with all the parameters (HamiltonianOne.cpp:522-539); preparing the statement throws if the
  table does not exist;
* `update`, `insert` (HamiltonianOne.cpp:541-565): the table has `UNIQUE` parameters and names as primary key;
* `checkMat`, `checkJson` (HamiltonianOne.cpp:578-587): an incomplete JSON file makes the parser throw;
* `truncJson`, `writeJson`: `save_to_json` (HamiltonianOne.cpp:590-592);
* `load`: `Hamiltonianmatrix::load` is false if the deserialization throws (HamiltonianOne.cpp:599);
* `write`: `save` (HamiltonianOne.cpp:624), byte after byte. -/
def threadTick {Conf M : Type} [DecidableEq Conf] (one : Bool) (ser : M → List Byte) (ld : List Byte → Out M)
    (conf : Conf) (g : ℕ) (m : M) (σ : Shared Conf) : ThreadPC M → Shared Conf × ThreadPC M
  | .start => (σ, if σ.flag then (if one then .setFlag else .create) else .select)
  | .setFlag => ({ σ with flag := false }, if one then .create else .select)
  | .create => ({ σ with table := true }, if one then .select else .setFlag)
  | .select =>
    if σ.table then
      match σ.rows.find? (fun r => decide (r.2 = conf)) with
      | some r => (σ, .update r.1)
      | none => (σ, .insert)
    else ({ σ with dead := true }, .select)
  | .update u => (σ, .checkMat u)
  | .insert =>
    if σ.rows.any (fun r => decide (r.1 = g) || decide (r.2 = conf)) then ({ σ with dead := true }, .insert)
    else ({ σ with rows := σ.rows ++ [(g, conf)] }, .checkMat g)
  | .checkMat u => (σ, if (σ.files u).mat.isSome then .checkJson u else .truncJson u)
  | .checkJson u =>
    match (σ.files u).json with
    | none => (σ, .truncJson u)
    | some none => ({ σ with dead := true }, .checkJson u)
    | some (some c) => (σ, if conf = c then .load u else .truncJson u)
  | .truncJson u => (σ.setFiles u { σ.files u with json := some none }, .writeJson u)
  | .writeJson u => (σ.setFiles u { σ.files u with json := some (some conf) }, .write u 0)
  | .load u =>
    match ld ((σ.files u).mat.getD []) with
    | .ok m' => (σ, .done u m')
    | .throw => (σ, .write u 0)
    | .ub => ({ σ with dead := true }, .load u)
  | .write u k =>
    (σ.setFiles u { σ.files u with mat := some ((ser m).take k) },
      if k < (ser m).length then .write u (k + 1) else .done u m)
  | .done u m' => (σ, .done u m')

/-- A run of the program: number of iterations, the configuration and the random name of each of them, and the
schedule: which iteration does the next action.  The run may end (be killed) at any point: the schedule is just
shorter. -/
structure ProgRun (Conf : Type) where
  n : ℕ
  conf : ℕ → Conf
  gen : ℕ → ℕ
  sched : List ℕ

/-- Shared state and positions of all iterations. -/
structure TWorld (Conf M : Type) where
  sh : Shared Conf
  pcs : ℕ → ThreadPC M

/-- The action of iteration `i`. -/
def TWorld.tick {Conf M : Type} [DecidableEq Conf] (one : Bool) (ser : M → List Byte) (ld : List Byte → Out M)
    (comp : Conf → M) (R : ProgRun Conf) (w : TWorld Conf M) (i : ℕ) : TWorld Conf M :=
  if w.sh.dead ∨ ¬ i < R.n then w else
  let r := threadTick one ser ld (R.conf i) (R.gen i) (comp (R.conf i)) w.sh (w.pcs i)
  ⟨r.1, Function.update w.pcs i r.2⟩

/-- The program is started (HamiltonianOne.cpp:443-464): the flag is set, all iterations are at their
beginning, the database and the files are those on the disk. -/
def TWorld.init {Conf M : Type} (σ : Shared Conf) : TWorld Conf M :=
  ⟨{ σ with flag := true, dead := false }, fun _ => .start⟩

/-- A run on a given disk. -/
def ProgRun.exec {Conf M : Type} [DecidableEq Conf] (one : Bool) (ser : M → List Byte) (ld : List Byte → Out M)
    (comp : Conf → M) (R : ProgRun Conf) (σ : Shared Conf) : TWorld Conf M :=
  R.sched.foldl (TWorld.tick one ser ld comp R) (TWorld.init σ)

/-- A new cache directory. -/
def Shared.empty (Conf : Type) : Shared Conf := ⟨true, false, [], fun _ => ⟨none, none⟩, false⟩

/-- The disk after a history of runs, each ended somewhere. -/
def diskAfter {Conf M : Type} [DecidableEq Conf] (one : Bool) (ser : M → List Byte) (ld : List Byte → Out M)
    (comp : Conf → M) (hist : List (ProgRun Conf)) : Shared Conf :=
  hist.foldl (fun σ R => (R.exec one ser ld comp σ).sh) (Shared.empty Conf)

end PI
