import Verif.Basic

/-!
# SQLite.hpp: the `statement` class

The SQLite library itself is a parameter: a query text denotes a list of rows (`db`); a compiled
statement is a cursor into that list.  Only read-only queries that do not fail at `sqlite3_step` are
modelled (no `SQLITE_BUSY`), except that preparing an invalid text fails.  `sqlite3_step` on a finished
statement restarts it (SQLite ≥ 3.6.23.1 without `SQLITE_OMIT_AUTORESET`), as the SQLite
documentation specifies.
-/

namespace PI

/-- SQLite's side of a compiled statement: the rows of the result, how many have been returned, and
whether it has reported `SQLITE_DONE`. -/
structure Cursor (ρ : Type) where
  rows : List ρ
  pos : Nat
  finished : Bool
deriving DecidableEq, Repr

/-- `sqlite3_step`: `some r` = SQLITE_ROW, `none` = SQLITE_DONE; auto-reset after DONE. -/
def Cursor.step {ρ : Type} (c : Cursor ρ) : Option ρ × Cursor ρ :=
  let p := if c.finished then 0 else c.pos
  match c.rows[p]? with
  | some r => (some r, ⟨c.rows, p + 1, false⟩)
  | none => (none, ⟨c.rows, p, true⟩)

/-- `sqlite::statement` (SQLite.hpp:77-82). `row` is the row that `get<>` would read
(`none`: no row, reading is meaningless). `sql` is the text, `stmt` is `m_stmt` (null = `none`). -/
structure Stmt (σ ρ : Type) where
  sql : σ
  stmt : Option (Cursor ρ)
  prepared : Bool
  valid : Bool
  row : Option ρ

/-- What the database answers to a text: `none` = the text does not compile. -/
abbrev DbSem (σ ρ : Type) := σ → Option (List ρ)

namespace Stmt
variable {σ ρ : Type}

/-- Constructor (SQLite.hpp:97-109). -/
def new (sql : σ) : Stmt σ ρ := ⟨sql, none, false, true, none⟩

/-- `set` (SQLite.hpp:116-119): `m_valid` is not touched. -/
def set (s : Stmt σ ρ) (sql : σ) : Stmt σ ρ := { s with sql := sql, prepared := false }

/-- `prepare` (SQLite.hpp:130-139): replaces `m_stmt` in any case (null on error); on error throws
and leaves `m_prepared` as it was; `m_valid` is not touched. -/
def prepare (db : DbSem σ ρ) (s : Stmt σ ρ) : Out Unit × Stmt σ ρ :=
  match db s.sql with
  | some rows => (.ok (), { s with stmt := some ⟨rows, 0, false⟩, prepared := true, row := none })
  | none => (.throw, { s with stmt := none, row := none })

/-- `step` (SQLite.hpp:148-171).  `sqlite3_step(nullptr)` returns SQLITE_MISUSE, which goes through
lines 166-169 (`m_valid = false`, throw). -/
def step (s : Stmt σ ρ) : Out Bool × Stmt σ ρ :=
  if !s.prepared then (.throw, s)
  else if !s.valid then (.throw, s)
  else match s.stmt with
    | none => (.throw, { s with valid := false })
    | some c =>
      match c.step with
      | (none, c') => (.ok false, { s with stmt := some c', valid := false, row := none })
      | (some r, c') => (.ok true, { s with stmt := some c', valid := true, row := some r })

/-- `reset` (SQLite.hpp:178-181); `sqlite3_reset` never fails for the statements modelled (and is a
no-op on null). -/
def reset (s : Stmt σ ρ) : Out Unit × Stmt σ ρ :=
  (.ok (), { s with stmt := s.stmt.map (fun c => ⟨c.rows, 0, false⟩), valid := true, row := none })

/-- `bind` (SQLite.hpp:203-217), as far as the protocol is concerned: an error on null, otherwise no
effect on the flags; the values bound are not modelled. -/
def bind (s : Stmt σ ρ) : Out Unit × Stmt σ ρ :=
  match s.stmt with
  | none => (.throw, s)
  | some _ => (.ok (), s)

end Stmt

/-- A public operation on a statement. -/
inductive StmtOp (σ : Type) where
  | set (sql : σ)
  | prepare
  | step
  | reset
  | bind

/-- Apply one operation; the outcome is `ok b` (b: "there is a row" for `step`, `true` otherwise). -/
def StmtOp.apply {σ ρ : Type} (db : DbSem σ ρ) (s : Stmt σ ρ) : StmtOp σ → Out Bool × Stmt σ ρ
  | .set q => (.ok true, s.set q)
  | .prepare => match s.prepare db with
    | (.ok _, s') => (.ok true, s')
    | (.throw, s') => (.throw, s')
    | (.ub, s') => (.ub, s')
  | .step => s.step
  | .reset => match s.reset with
    | (.ok _, s') => (.ok true, s')
    | (.throw, s') => (.throw, s')
    | (.ub, s') => (.ub, s')
  | .bind => match s.bind with
    | (.ok _, s') => (.ok true, s')
    | (.throw, s') => (.throw, s')
    | (.ub, s') => (.ub, s')

/-- The statement after a list of operations. -/
def Stmt.run {σ ρ : Type} (db : DbSem σ ρ) (s : Stmt σ ρ) : List (StmtOp σ) → Stmt σ ρ
  | [] => s
  | o :: os => (o.apply db s).2.run db os

/-- `k` calls of `step` in a row, each expected to return: the rows read, stops at the first `false`
(`while (stmt.step()) …`, SQLite.hpp:296-300). -/
def Stmt.whileStep {σ ρ : Type} : Nat → Stmt σ ρ → Out (List (Option ρ)) × Stmt σ ρ
  | 0, s => (.ub, s)
  | fuel + 1, s => match s.step with
    | (.ok true, s') => match s'.whileStep fuel with
      | (.ok rs, s'') => (.ok (s'.row :: rs), s'')
      | (o, s'') => (o, s'')
    | (.ok false, s') => (.ok [], s')
    | (.throw, s') => (.throw, s')
    | (.ub, s') => (.ub, s')

/-! ## The iterator -/

/-- `statement::iterator` (SQLite.hpp:258-285): the statement it points to and its two flags. -/
structure StmtIter (σ ρ : Type) where
  stmt : Stmt σ ρ
  done : Bool
  fin : Bool

/-- `iterator(statement*)` (SQLite.hpp:267): steps once, ignoring the result. -/
def StmtIter.begin {σ ρ : Type} (s : Stmt σ ρ) : Out (StmtIter σ ρ) :=
  match s.step with
  | (.ok _, s') => .ok ⟨s', false, false⟩
  | (.throw, _) => .throw
  | (.ub, _) => .ub

/-- `operator++` (SQLite.hpp:276-283). -/
def StmtIter.next {σ ρ : Type} (i : StmtIter σ ρ) : Out (StmtIter σ ρ) :=
  if !i.done then
    match i.stmt.step with
    | (.ok b, s') => .ok ⟨s', b, i.fin⟩
    | (.throw, _) => .throw
    | (.ub, _) => .ub
  else .ok { i with fin := true }

/-- A range-for loop that records what its body sees (`none`: no current row): the visited rows and
whether the loop ended normally. Fuel bounds the number of iterations (`.ub` when exhausted; the
theorems show it never is). -/
def forLoopFrom {σ ρ : Type} : Nat → StmtIter σ ρ → List (Option ρ) × Out Unit
  | 0, _ => ([], .ub)
  | fuel + 1, i =>
    if i.fin then ([], .ok ())
    else
      match i.next with
      | .ok i' => let r := forLoopFrom fuel i'; (i.stmt.row :: r.1, r.2)
      | .throw => ([i.stmt.row], .throw)
      | .ub => ([i.stmt.row], .ub)

/-- `for (auto &row : stmt) body` (SQLite.hpp:304,316). -/
def forLoop {σ ρ : Type} (fuel : Nat) (s : Stmt σ ρ) : List (Option ρ) × Out Unit :=
  match StmtIter.begin s with
  | .ok i => forLoopFrom fuel i
  | .throw => ([], .throw)
  | .ub => ([], .ub)

end PI
