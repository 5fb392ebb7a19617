import Verif.Sqlite.Model
import Mathlib.Tactic.SplitIfs
import Mathlib.Tactic.Cases
import Mathlib.Data.List.Induction

/-! # Properties C12, C13: SQLite statements -/

namespace PI
variable {σ ρ : Type}

/-- Operations that do not change the query. -/
def StmtOp.KeepsQuery : StmtOp σ → Prop
  | .step | .bind | .reset => True
  | _ => False

/-- Number of `step` calls since the last `reset` in a list of operations (oldest first). -/
def stepsSinceReset (ops : List (StmtOp σ)) : Nat :=
  (ops.reverse.takeWhile (fun o => match o with | .reset => false | _ => true)).countP
    (fun o => match o with | .step => true | _ => false)

theorem Stmt.run_append (db : DbSem σ ρ) (s : Stmt σ ρ) (a b : List (StmtOp σ)) :
    s.run db (a ++ b) = (s.run db a).run db b := by
  induction a generalizing s with
  | nil => rfl
  | cons o a ih => simp [Stmt.run, ih]

theorem stepsSinceReset_append (ops : List (StmtOp σ)) (o : StmtOp σ) :
    stepsSinceReset (ops ++ [o]) = match o with
      | .reset => 0
      | .step => stepsSinceReset ops + 1
      | _ => stepsSinceReset ops := by
  cases o <;> simp [stepsSinceReset]

/-- `i` steps after a fresh start: where the statement must be. -/
def StmtAt (rows : List ρ) (i : Nat) (s : Stmt σ ρ) : Prop :=
  s.prepared = true ∧
  (i ≤ rows.length → s.valid = true ∧ s.stmt = some ⟨rows, i, false⟩) ∧
  (rows.length < i → s.valid = false ∧ ∃ c, s.stmt = some c ∧ c.rows = rows)

theorem stmtAt_step {rows : List ρ} {i : Nat} {s : Stmt σ ρ} (h : StmtAt rows i s) :
    (s.step.1 = if i < rows.length then .ok true else if i = rows.length then .ok false else .throw) ∧
    (i < rows.length → s.step.2.row = rows[i]?) ∧ StmtAt rows (i + 1) s.step.2 := by
  obtain ⟨hp, h1, h2⟩ := h
  rcases Nat.lt_trichotomy i rows.length with hlt | heq | hgt
  · obtain ⟨hv, hs⟩ := h1 (by omega)
    have hr : rows[i]? = some rows[i] := List.getElem?_eq_getElem hlt
    have hst : s.step = (.ok true, { s with stmt := some ⟨rows, i + 1, false⟩, valid := true, row := some rows[i] }) := by
      simp [Stmt.step, hp, hv, hs, Cursor.step, hlt]
    rw [hst]
    refine ⟨by simp [hlt], fun _ => by simp [hr], hp, fun _ => by simp, fun _ => by omega⟩
  · obtain ⟨hv, hs⟩ := h1 (by omega)
    have hr : rows[i]? = none := List.getElem?_eq_none (by omega)
    have hnlt : ¬ i < rows.length := by omega
    have hst : s.step = (.ok false, { s with stmt := some ⟨rows, i, true⟩, valid := false, row := none }) := by
      simp [Stmt.step, hp, hv, hs, Cursor.step, heq]
    rw [hst]
    refine ⟨by simp [heq], fun _ => by omega, hp, fun _ => by omega, fun _ => by simp⟩
  · obtain ⟨hv, hs⟩ := h2 hgt
    have hnlt : ¬ i < rows.length := by omega
    have hne : ¬ i = rows.length := by omega
    have hst : s.step = (.throw, s) := by simp [Stmt.step, hp, hv]
    rw [hst]
    refine ⟨by simp [hnlt, hne], fun _ => by omega, hp, fun _ => by omega, fun _ => ⟨hv, hs⟩⟩

theorem stmtAt_reset {rows : List ρ} {i : Nat} {s : Stmt σ ρ} (h : StmtAt rows i s) :
    StmtAt rows 0 s.reset.2 := by
  obtain ⟨hp, h1, h2⟩ := h
  refine ⟨hp, fun _ => ?_, fun h => absurd h (by omega)⟩
  by_cases hi : i ≤ rows.length
  · simp [Stmt.reset, (h1 hi).2]
  · obtain ⟨_, c, hc, hr⟩ := h2 (by omega)
    simp [Stmt.reset, hc, hr]

theorem stmtAt_run (db : DbSem σ ρ) {rows : List ρ} {s : Stmt σ ρ} (h : StmtAt rows 0 s)
    (ops : List (StmtOp σ)) (hk : ∀ o ∈ ops, o.KeepsQuery) :
    StmtAt rows (stepsSinceReset ops) (s.run db ops) := by
  induction ops using List.reverseRecOn with
  | nil => exact h
  | append_singleton ops o ih =>
    have ih := ih (fun o ho => hk o (by simp [ho]))
    rw [Stmt.run_append, stepsSinceReset_append]
    have ho := hk o (by simp)
    cases o with
    | set q => exact ho.elim
    | prepare => exact ho.elim
    | step => exact (stmtAt_step ih).2.2
    | reset => exact stmtAt_reset ih
    | bind =>
      simp only [Stmt.run, StmtOp.apply, Stmt.bind]
      cases hs : (s.run db ops).stmt <;> exact ih

/-- **C12.** Take any statement in any state.
(1) After `set` (and for a new statement), whatever calls other than `prepare` follow, `step` throws
and changes nothing.
(2) After `set q`, a successful `prepare` (result rows `rows`) and `reset`, whatever
step/bind/reset calls follow: if `i` steps were made since the last reset, the next `step` returns the
`i`-th row when there is one, reports the end exactly once when `i` is the number of rows, and
throws afterwards — it never restarts silently.
(3) For a new statement the `reset` after `prepare` is not needed. -/
theorem C12_statement_protocol (db : DbSem σ ρ) :
    (∀ (s : Stmt σ ρ) (q : σ) (ops : List (StmtOp σ)), (∀ o ∈ ops, o ≠ .prepare) →
      ((s.set q).run db ops).step = (.throw, (s.set q).run db ops) ∧
      ((Stmt.new q).run db ops).step = (.throw, (Stmt.new q).run db ops)) ∧
    (∀ (s : Stmt σ ρ) (q : σ) (rows : List ρ), db q = some rows →
      ∀ ops : List (StmtOp σ), (∀ o ∈ ops, o.KeepsQuery) →
      let s' := s.run db (.set q :: .prepare :: .reset :: ops)
      let i := stepsSinceReset ops
      s'.step.1 = (if i < rows.length then .ok true else if i = rows.length then .ok false else .throw) ∧
      (i < rows.length → s'.step.2.row = rows[i]?)) ∧
    (∀ (q : σ) (rows : List ρ), db q = some rows →
      ∀ ops : List (StmtOp σ), (∀ o ∈ ops, o.KeepsQuery) →
      let s' := (Stmt.new q).run db (.prepare :: ops)
      let i := stepsSinceReset ops
      s'.step.1 = (if i < rows.length then .ok true else if i = rows.length then .ok false else .throw) ∧
      (i < rows.length → s'.step.2.row = rows[i]?)) := by
  have unprep : ∀ (ops : List (StmtOp σ)) (s : Stmt σ ρ), s.prepared = false → (∀ o ∈ ops, o ≠ .prepare) →
      (s.run db ops).prepared = false := by
    intro ops
    induction ops with
    | nil => intro s h _; exact h
    | cons o ops ih =>
      intro s h hn
      refine ih _ ?_ (fun o ho => hn o (by simp [ho]))
      cases o with
      | set q => rfl
      | prepare => exact absurd rfl (hn .prepare (by simp))
      | step => simp [StmtOp.apply, Stmt.step, h]
      | reset => exact h
      | bind => simp only [StmtOp.apply, Stmt.bind]; cases s.stmt <;> exact h
  have st : ∀ s : Stmt σ ρ, s.prepared = false → s.step = (.throw, s) := by
    intro s h; simp [Stmt.step, h]
  refine ⟨fun s q ops hn => ⟨st _ (unprep ops _ rfl hn), st _ (unprep ops _ rfl hn)⟩, ?_, ?_⟩
  · intro s q rows hq ops hk
    have h0 : StmtAt rows 0 (s.run db [.set q, .prepare, .reset]) := by
      simp [Stmt.run, StmtOp.apply, Stmt.set, Stmt.prepare, hq, Stmt.reset, StmtAt]
    have := stmtAt_step (stmtAt_run db h0 ops hk)
    exact ⟨this.1, this.2.1⟩
  · intro q rows hq ops hk
    have h0 : StmtAt rows 0 ((Stmt.new q).run db [.prepare]) := by
      simp [Stmt.run, StmtOp.apply, Stmt.new, Stmt.prepare, hq, StmtAt]
    have := stmtAt_step (stmtAt_run db h0 ops hk)
    exact ⟨this.1, this.2.1⟩

/-- A database that knows one query, with three rows. -/
def demoDb : DbSem Nat Nat := fun q => if q = 7 then some [10, 20, 30] else none

example : demoDb 7 = some [10, 20, 30] ∧
    stepsSinceReset [StmtOp.step (σ := Nat), .reset, .step, .bind, .step] = 2 ∧
    ((Stmt.new 7).run demoDb [.prepare, .step, .reset, .step, .bind, .step]).step.2.row = some 30 ∧
    ((Stmt.new 7).run demoDb [.prepare, .step, .step, .step, .step]).step.1 = .throw := by decide

/-- **C12.** `set` and `prepare` alone do not make a finished statement usable again: after the end
was reported, a newly prepared query throws at the first `step` until `reset` is called. -/
theorem C12_reprepare_needs_reset (db : DbSem σ ρ) (s : Stmt σ ρ) (q : σ) (rows : List ρ)
    (hq : db q = some rows) (hend : s.step.1 = .ok false) :
    (s.run db [.step, .set q, .prepare]).step.1 = .throw := by
  have hv : s.step.2.valid = false := by
    by_cases hp : s.prepared = true
    · by_cases hv : s.valid = true
      · cases hs : s.stmt with
        | none => simp [Stmt.step, hp, hv, hs] at hend
        | some c =>
          rcases hcs : c.step with ⟨_ | r, c'⟩
          · simp [Stmt.step, hp, hv, hs, hcs]
          · simp [Stmt.step, hp, hv, hs, hcs] at hend
      · simp [Stmt.step, hp, hv] at hend
    · simp [Stmt.step, hp] at hend
  simp only [Stmt.run, StmtOp.apply, Stmt.set, Stmt.prepare, hq]
  generalize s.step.2 = s' at *
  simp [Stmt.step, hv]

example : ((Stmt.new 7).run demoDb [.prepare, .step, .step, .step]).step.1 = .ok false := by decide

/-- What a range-for loop over a freshly prepared statement does, for every result. -/
theorem forLoop_exact (db : DbSem σ ρ) (q : σ) (rows : List ρ) (hq : db q = some rows) (fuel : Nat) :
    forLoop (fuel + 3) ((Stmt.new q).prepare db).2 = match rows with
      | [] => ([none], .throw)
      | [r] => ([some r, none], .throw)
      | r₀ :: r₁ :: _ => ([some r₀, some r₁], .ok ()) := by
  rcases rows with _ | ⟨r0, _ | ⟨r1, rs⟩⟩ <;>
    simp [forLoop, StmtIter.begin, Stmt.prepare, hq, Stmt.new, Stmt.step, Cursor.step, forLoopFrom,
      StmtIter.next]

/-- **C13 (partial).** The loop ends normally having visited exactly the rows, in order, if and only
if the result has exactly two rows. -/
theorem C13_iteration_partial (db : DbSem σ ρ) (q : σ) (rows : List ρ) (hq : db q = some rows)
    (fuel : Nat) :
    forLoop (fuel + 3) ((Stmt.new q).prepare db).2 = (rows.map some, .ok ()) ↔ rows.length = 2 := by
  rw [forLoop_exact db q rows hq]
  rcases rows with _ | ⟨r0, _ | ⟨r1, rs⟩⟩ <;> simp

/-- **C13 fails**: with three rows the loop silently drops the third; with one row (or none) its body
runs once more than there are rows, without a current row, and then the loop throws. -/
theorem C13_iteration_fails (a b c : ρ) (db : DbSem σ ρ) (q₀ q₁ q₃ : σ) (h0 : db q₀ = some [])
    (h1 : db q₁ = some [a]) (h3 : db q₃ = some [a, b, c]) (fuel : Nat) :
    forLoop (fuel + 3) ((Stmt.new q₃).prepare db).2 = ([some a, some b], .ok ()) ∧
    forLoop (fuel + 3) ((Stmt.new q₁).prepare db).2 = ([some a, none], .throw) ∧
    forLoop (fuel + 3) ((Stmt.new q₀).prepare db).2 = ([none], .throw) := by
  rw [forLoop_exact db _ _ h0, forLoop_exact db _ _ h1, forLoop_exact db _ _ h3]
  exact ⟨rfl, rfl, rfl⟩

example : forLoop 5 ((Stmt.new 7).prepare demoDb).2 = ([some 10, some 20], .ok ()) := by decide

end PI
