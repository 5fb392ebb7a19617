import Verif.Sqlite.Props

/-! # C12: the loop over the rows, bound parameters and unprepared statements -/

namespace PI
variable {σ ρ : Type}

theorem whileStep_at {rows : List ρ} : ∀ (fuel i : ℕ) (s : Stmt σ ρ), StmtAt rows i s → i ≤ rows.length → rows.length - i < fuel →
    (s.whileStep fuel).1 = .ok ((rows.drop i).map some) ∧ StmtAt rows (rows.length + 1) (s.whileStep fuel).2 := by
  intro fuel
  induction fuel with
  | zero => intro i s _ _ h; omega
  | succ f ih =>
    intro i s h hi hf
    obtain ⟨h1, h2, h3⟩ := stmtAt_step h
    unfold Stmt.whileStep
    generalize s.step = r at h1 h2 h3 ⊢
    obtain ⟨o, s'⟩ := r
    dsimp only at h1 h2 h3
    by_cases hlt : i < rows.length
    · rw [if_pos hlt] at h1
      subst h1
      obtain ⟨a, b⟩ := ih (i + 1) s' h3 (by omega) (by omega)
      dsimp only
      generalize s'.whileStep f = r at a b ⊢
      obtain ⟨o, s''⟩ := r
      dsimp only at a b
      subst a
      refine ⟨?_, b⟩
      dsimp only
      rw [h2 hlt, List.getElem?_eq_getElem hlt, ← List.map_cons, ← List.drop_eq_getElem_cons hlt]
    · rw [if_neg hlt, if_pos (by omega)] at h1
      subst h1
      have e : i = rows.length := by omega
      refine ⟨by simp [e], ?_⟩
      rw [e] at h3
      exact h3

/-- **C12.** The loop `while (stmt.step()) …` over a new prepared statement, or over any statement after `set`, `prepare` and `reset`, reads exactly the rows of the result, in order, and ends; the statement
then throws at the next `step` until it is reset. -/
theorem C12_while_loop (db : DbSem σ ρ) (s : Stmt σ ρ) (q : σ) (rows : List ρ) (hq : db q = some rows) (fuel : ℕ) (hf : rows.length < fuel)
    (t : Stmt σ ρ) (ht : t = (Stmt.new q).run db [.prepare] ∨ t = s.run db [.set q, .prepare, .reset]) :
    (t.whileStep fuel).1 = .ok (rows.map some) ∧ (t.whileStep fuel).2.step.1 = .throw := by
  have h0 : StmtAt rows 0 t := by
    rcases ht with rfl | rfl
    · simp [Stmt.run, StmtOp.apply, Stmt.new, Stmt.prepare, hq, StmtAt]
    · simp [Stmt.run, StmtOp.apply, Stmt.set, Stmt.prepare, hq, Stmt.reset, StmtAt]
  obtain ⟨a, b⟩ := whileStep_at fuel 0 t h0 (by omega) (by omega)
  refine ⟨by simpa using a, ?_⟩
  rw [(stmtAt_step b).1, if_neg (by omega), if_neg (by omega)]

example : (((Stmt.new 7).run demoDb [.prepare]).whileStep 4).1 = .ok [some 10, some 20, some 30] := by decide

/-- Specification: the result of the last `prepare` in a history that starts with the text q (`none`: none was made). -/
def lastPrepare (db : DbSem σ ρ) : σ → List (StmtOp σ) → Option Bool
  | _, [] => none
  | _, .set q :: ops => lastPrepare db q ops
  | q, .prepare :: ops => (lastPrepare db q ops).or (some (db q).isSome)
  | q, _ :: ops => lastPrepare db q ops

theorem stmt_isSome (db : DbSem σ ρ) (ops : List (StmtOp σ)) : ∀ s : Stmt σ ρ, (s.run db ops).stmt.isSome = (lastPrepare db s.sql ops).getD s.stmt.isSome := by
  induction ops with
  | nil => intro s; rfl
  | cons o ops ih =>
    intro s
    rw [Stmt.run, ih]
    cases o with
    | set q => rfl
    | prepare =>
      simp only [StmtOp.apply, Stmt.prepare, lastPrepare]
      cases hq : db s.sql with
      | none => cases h : lastPrepare db s.sql ops <;> simp
      | some r => cases h : lastPrepare db s.sql ops <;> simp
    | step =>
      have e : (s.step.2).sql = s.sql ∧ (s.step.2).stmt.isSome = s.stmt.isSome := by
        unfold Stmt.step
        split_ifs
        · exact ⟨rfl, rfl⟩
        · exact ⟨rfl, rfl⟩
        · cases hs : s.stmt with
          | none => exact ⟨rfl, by simp⟩
          | some c =>
            dsimp only
            generalize c.step = r
            obtain ⟨o, c'⟩ := r
            cases o <;> exact ⟨rfl, rfl⟩
      simp only [StmtOp.apply, lastPrepare]
      rw [e.1, e.2]
    | reset => simp [StmtOp.apply, Stmt.reset, lastPrepare]
    | bind =>
      have e : s.bind.2 = s := by unfold Stmt.bind; cases s.stmt <;> rfl
      simp only [StmtOp.apply, lastPrepare]
      generalize hb : s.bind = r at e
      obtain ⟨o, s'⟩ := r
      dsimp only at e
      subst e
      cases o <;> rfl

/-- **C12.** After every history of a new statement: binding a parameter throws unless the last `prepare` succeeded, and never changes the statement. Without a `prepare` after the last `set`, a loop
over the statement throws before its body runs. -/
theorem C12_unprepared (db : DbSem σ ρ) (q : σ) (ops : List (StmtOp σ)) :
    let s : Stmt σ ρ := (Stmt.new q).run db ops
    (s.bind.1 = .ok () ↔ lastPrepare db q ops = some true) ∧ (s.bind.1 = .throw ↔ lastPrepare db q ops ≠ some true) ∧ s.bind.2 = s ∧
    ∀ (q' : σ) (ops' : List (StmtOp σ)), (∀ o ∈ ops', o ≠ .prepare) → ∀ fuel,
      forLoop fuel ((s.set q').run db ops') = ([], .throw) ∧ (((s.set q').run db ops').whileStep (fuel + 1)).1 = .throw := by
  intro s
  have hs : s.stmt.isSome = (lastPrepare db q ops).getD false := stmt_isSome db ops (Stmt.new q)
  refine ⟨?_, ?_, ?_, ?_⟩
  · unfold Stmt.bind
    cases h : s.stmt with
    | none =>
      rw [h] at hs
      constructor
      · intro h; cases h
      · intro h'; rw [h'] at hs; cases hs
    | some c =>
      rw [h] at hs
      refine ⟨fun _ => ?_, fun _ => rfl⟩
      cases hl : lastPrepare db q ops with
      | none => rw [hl] at hs; cases hs
      | some b => rw [hl] at hs; simp only [Option.isSome_some, Option.getD_some] at hs; rw [← hs]
  · unfold Stmt.bind
    cases h : s.stmt with
    | none =>
      rw [h] at hs
      refine ⟨fun _ h' => ?_, fun _ => rfl⟩
      rw [h'] at hs; cases hs
    | some c =>
      rw [h] at hs
      constructor
      · intro h; cases h
      · intro h'
        exfalso
        apply h'
        cases hl : lastPrepare db q ops with
        | none => rw [hl] at hs; cases hs
        | some b => rw [hl] at hs; simp only [Option.isSome_some, Option.getD_some] at hs; rw [← hs]
  · unfold Stmt.bind; cases s.stmt <;> rfl
  · intro q' ops' hn fuel
    have h := ((C12_statement_protocol db).1 s q' ops' hn).1
    constructor
    · unfold forLoop StmtIter.begin
      rw [h]
    · unfold Stmt.whileStep
      rw [h]

example : lastPrepare demoDb 7 [.prepare, .step, .set 8, .bind] = some true ∧ lastPrepare demoDb 7 [.prepare, .set 8, .prepare] = some false ∧
    lastPrepare demoDb 7 [.step] = none := by decide

end PI
