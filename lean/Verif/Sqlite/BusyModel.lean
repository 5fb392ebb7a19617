import Verif.Basic

/-!
# Model of `sqlite::handle` (`SQLite.hpp` 317-402): waiting for a busy database, owning a connection

Not modelled: the SQL that is executed, `sqlite3_close` failing because statements are left, and the
text of errors.
-/

namespace PI

/-- What the busy handler returns: sleep for some microseconds and try again, or give up. -/
inductive BusyAnswer where
  | retryAfter (us : Nat)
  | giveUp
deriving DecidableEq

/-- `SQLite.hpp` 325-334, `busy_handler`; `us` is the value drawn by `randint(2000, 20000)`
(`utils.hpp` 103-107). -/
def busyHandler (threshold priorCalls us : Nat) : BusyAnswer :=
  if priorCalls < threshold then .retryAfter us else .giveUp

/-- What happened to an operation on the database: success or `SQLITE_BUSY` (then thrown as
`sqlite::error`), the time in microseconds and the number of sleeps. -/
structure BusyResult where
  ok : Bool
  time : Nat
  sleeps : Nat
deriving DecidableEq

/-- SQLite's use of the handler (documentation of `sqlite3_busy_handler`): when the lock is taken the
handler is called with the number of prior calls for this locking event; non-zero means another
attempt, zero means `SQLITE_BUSY`.  `free t`: the lock is available at time `t`.  `rnd k` is the
`k`-th random sleep and `late k` the time by which the system wakes the thread up too late
(`sleep_for` sleeps at least as long as asked). -/
def busyWait (threshold : Nat) (free : Nat → Bool) (rnd late : Nat → Nat) (k t : Nat) : BusyResult :=
  if free t then ⟨true, t, k⟩
  else
    match busyHandler threshold k (rnd k) with
    | .giveUp => ⟨false, t, k⟩
    | .retryAfter us =>
      if _h : k < threshold then busyWait threshold free rnd late (k + 1) (t + us + late k)
      else ⟨false, t, k⟩
termination_by threshold - k

/-- `SQLite.hpp` 368, `m_threshold{100000}`. -/
def busyThreshold : Nat := 100000

/-! ## Handle objects -/

/-- `SQLite.hpp` 321-323, the members of a handle: the connection that it owns (none after it was
moved from) and the threshold. -/
structure HandleObj where
  db : Option Nat
  thr : Nat
deriving DecidableEq

/-- Memory and SQLite library: the handle objects by address, the `void*` argument of the busy handler
of every connection, the open connections, the number of connections opened so far, and the
connections closed so far. -/
structure HandleWorld where
  objs : Nat → Option HandleObj
  handler : Nat → Option Nat
  isOpen : Nat → Bool
  next : Nat
  closes : List Nat

/-- No object and no connection yet. -/
def HandleWorld.empty : HandleWorld := ⟨fun _ => none, fun _ => none, fun _ => false, 0, []⟩

/-- `SQLite.hpp` 336-342, `install_busy_handler` called for the object at `x`; `sqlite3_busy_handler`
with a null connection is undefined behaviour. -/
def installHandler (w : HandleWorld) (x : Nat) : Out HandleWorld :=
  match w.objs x with
  | none => .ub
  | some h =>
    match h.db with
    | none => .ub
    | some c => .ok { w with handler := fun d => if d = c then some x else w.handler d }

/-- The deleter `sqlite3_close` of the `unique_ptr` (`SQLite.hpp` 322), not called on null. -/
def closeConn (w : HandleWorld) (c : Option Nat) : HandleWorld :=
  match c with
  | none => w
  | some c => { w with isOpen := fun d => if d = c then false else w.isOpen d, closes := c :: w.closes }

/-- Writing an object to an address. -/
def HandleWorld.put (w : HandleWorld) (x : Nat) (h : Option HandleObj) : HandleWorld :=
  { w with objs := fun y => if y = x then h else w.objs y }

/-- The operations on handle objects; the numbers are addresses. -/
inductive SqOp where
  | openOk (x : Nat)
  | openErr (x : Nat)
  | moveNew (dst src : Nat)
  | moveTo (dst src : Nat)
  | destroy (x : Nat)

/-- `SQLite.hpp` 366-402: the constructor (successful or failing), the move constructor, the move
assignment and the implicit destructor.  Constructing over a live object or using a dead one is a
programming error (undefined behaviour). -/
def SqOp.step (w : HandleWorld) : SqOp → Out HandleWorld
  | .openOk x =>
    match w.objs x with
    | some _ => .ub
    | none =>
      let w1 := { w with isOpen := fun d => if d = w.next then true else w.isOpen d
                         next := w.next + 1 }
      installHandler (w1.put x (some ⟨some w.next, busyThreshold⟩)) x
  | .openErr x =>
    match w.objs x with
    | some _ => .ub
    | none =>
      -- the error is thrown; the connection object of the failed open is closed by `m_db`
      .ok { w with next := w.next + 1, closes := w.next :: w.closes }
  | .moveNew dst src =>
    match w.objs dst, w.objs src with
    | none, some h =>
      installHandler ((w.put dst (some ⟨h.db, h.thr⟩)).put src (some ⟨none, h.thr⟩)) dst
    | _, _ => .ub
  | .moveTo dst src =>
    match w.objs dst, w.objs src with
    | some g, some h =>
      if dst = src then .ok w
      else
        installHandler (((closeConn w g.db).put dst (some ⟨h.db, h.thr⟩)).put src
          (some ⟨none, h.thr⟩)) dst
    | _, _ => .ub
  | .destroy x =>
    match w.objs x with
    | none => .ub
    | some h => .ok ((closeConn w h.db).put x none)

/-- A history of operations. -/
def runHandles (w : HandleWorld) : List SqOp → Out HandleWorld
  | [] => .ok w
  | op :: ops =>
    match op.step w with
    | .ok w' => runHandles w' ops
    | .throw => .throw
    | .ub => .ub

/-- `SQLite.hpp` 325-326: the busy handler runs for the connection of the handle at `x`; it reads the
threshold of the object its argument points to. -/
def readThreshold (w : HandleWorld) (x : Nat) : Out Nat :=
  match w.objs x with
  | none => .ub
  | some h =>
    match h.db with
    | none => .ub
    | some c =>
      match w.handler c with
      | none => .ub
      | some self =>
        match w.objs self with
        | none => .ub
        | some g => .ok g.thr

end PI
