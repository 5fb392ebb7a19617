import Verif.Defect.Model
import Mathlib.Tactic.Ring
import Mathlib.Tactic.Linarith
import Mathlib.Tactic.Positivity
import Mathlib.Tactic.FieldSimp
import Mathlib.Tactic.NormNum

/-! # Properties C08–C11: cache and quantum defects -/

set_option linter.unusedSectionVars false

namespace PI

/-! ## C08 -/
section C08
variable {κ : Type u} {ε : Type v} [DecidableEq κ]

/-- Specification: what a reader may see for key `k` after a history, given as the history itself —
drop everything up to the last `clear`, then take the first `save` of `k`. -/
def firstSaveSinceClear (k : κ) (h : List (CacheOp κ ε)) : Option ε :=
  let sinceClear := (h.reverse.takeWhile (fun o => match o with | .clear => false | _ => true)).reverse
  sinceClear.findSome? (fun o => match o with
    | .save k' e => if k' = k then some e else none
    | _ => none)

theorem firstSave_append (k : κ) (h : List (CacheOp κ ε)) (o : CacheOp κ ε) :
    firstSaveSinceClear k (h ++ [o]) = match o with
      | .clear => none
      | .restore _ => firstSaveSinceClear k h
      | .save k' e => (firstSaveSinceClear k h).or (if k' = k then some e else none) := by
  cases o <;> simp [firstSaveSinceClear, List.takeWhile_cons, List.findSome?_append]

theorem runCache_append (h : List (CacheOp κ ε)) (o : CacheOp κ ε) :
    runCache (h ++ [o]) = o.apply (runCache h) := by simp [runCache]

theorem restore_runCache (k : κ) (h : List (CacheOp κ ε)) :
    (runCache h).restore k = firstSaveSinceClear k h := by
  induction h using List.reverseRecOn generalizing k with
  | nil => rfl
  | append_singleton h o ih =>
    rw [runCache_append, firstSave_append]
    cases o with
    | clear => rfl
    | restore k' => exact ih k
    | save k' e =>
      have hk := ih k
      have hk' := ih k'
      simp only [CacheOp.apply, CacheMap.save, CacheMap.restore] at *
      cases hc : runCache h k' with
      | some v =>
        simp only [hk]
        by_cases hkk : k' = k
        · subst hkk; rw [← hk, hc]; simp
        · simp [hkk]
      | none =>
        simp only
        by_cases hkk : k' = k
        · subst hkk; rw [← hk, hc]; simp
        · have : ¬ k = k' := fun h => hkk h.symm
          simp [hkk, this, hk]

/-- **C08.** For every history: `restore` returns the first save of the key since the last `clear`
(which is the only successful one); `save` throws exactly when the key is readable, and then changes
nothing; otherwise it makes exactly that key readable; and as long as no `clear` follows, a readable
value never changes. -/
theorem C08_write_once_cache (h : List (CacheOp κ ε)) :
    (∀ k, (runCache h).restore k = firstSaveSinceClear k h) ∧
    (∀ k e, ((runCache h).save k e).1 = .throw ↔ ((runCache h).restore k).isSome) ∧
    (∀ k e, ((runCache h).save k e).1 = .throw ∨ ((runCache h).save k e).1 = .ok ()) ∧
    (∀ k e, ((runCache h).save k e).1 = .throw → ((runCache h).save k e).2 = runCache h) ∧
    (∀ k e, ((runCache h).save k e).1 = .ok () →
      ((runCache h).save k e).2.restore k = some e ∧
      ∀ k', k' ≠ k → ((runCache h).save k e).2.restore k' = (runCache h).restore k') ∧
    (∀ k e h', (runCache h).restore k = some e → CacheOp.clear ∉ h' →
      (runCache (h ++ h')).restore k = some e) := by
  refine ⟨fun k => restore_runCache k h, ?_, ?_, ?_, ?_, ?_⟩
  · intro k e
    cases hc : runCache h k <;> simp [CacheMap.save, CacheMap.restore, hc]
  · intro k e
    cases hc : runCache h k <;> simp [CacheMap.save, hc]
  · intro k e
    cases hc : runCache h k <;> simp [CacheMap.save, hc]
  · intro k e
    cases hc : runCache h k <;> simp [CacheMap.save, CacheMap.restore, hc]
    intro k' hk; simp [hk]
  · intro k e h' hr hn
    induction h' using List.reverseRecOn with
    | nil => simpa using hr
    | append_singleton h' o ih =>
      have ih := ih (fun hm => hn (by simp [hm]))
      rw [← List.append_assoc, runCache_append]
      cases o with
      | clear => simp at hn
      | restore k' => exact ih
      | save k' e' =>
        simp only [CacheOp.apply, CacheMap.save, CacheMap.restore] at *
        cases hc : runCache (h ++ h') k' with
        | some v => simpa using ih
        | none =>
          simp only
          by_cases hkk : k = k'
          · subst hkk; rw [hc] at ih; simp at ih
          · simp [hkk, ih]

/-- A history with two saves of one key, a clear and a later save: every clause has a live case. -/
example : (runCache [CacheOp.save 1 "a", .save 1 "b", .save 2 "c"]).restore 1 = some "a" ∧
    ((runCache [CacheOp.save 1 "a"]).save 1 "b").1 = .throw ∧
    (runCache [CacheOp.save 1 "a", .clear, .save 1 "b"]).restore 1 = some "b" := by decide
end C08

/-! ## C09 -/
section C09
variable {K : Type} [Field K]

/-- A script is self-contained when its effect does not depend on what the connection held before. -/
def SelfContained (s : List (Sql K)) : Prop := ∀ t, execScript s t = execScript s Tables.fresh

/-- What a new process returns for one constructor call. -/
def freshProcess (E : QEnv K) (k : QKey) (db : String) : Out (Element K) :=
  (QState.init.construct E k db).1

/-- What a database name denotes for a new process: the tables, or failure of the script. -/
def tablesOf (E : QEnv K) (db : String) : Bool × Tables K :=
  if db = "" then (true, E.embedded) else execScript (E.files db) Tables.fresh

theorem freshProcess_eq (E : QEnv K) (k : QKey) (db : String) :
    freshProcess E k db = match tablesOf E db with
      | (true, t) => compute E.C t k
      | (false, _) => .throw := by
  unfold freshProcess tablesOf QState.construct
  have key : ∀ (s : QState K) t nm, s.cache = CacheMap.empty →
      (s.setup E.C t nm k).1 = compute E.C t k := by
    intro s t nm hs
    unfold QState.setup
    by_cases hn : s.usedName = nm <;>
    · simp [hn, hs, CacheMap.restore, CacheMap.clear, CacheMap.empty, CacheMap.save]
      cases compute E.C t k <;> rfl
  by_cases hdb : db = ""
  · simp only [hdb, if_true]; exact key _ _ _ rfl
  · simp only [hdb, if_false, QState.init]
    rcases execScript (E.files db) Tables.fresh with ⟨b, t⟩
    cases b
    · rfl
    · exact key _ _ _ rfl

/-- Everything cached is what the database named by `used_db_name` gives. -/
def QInv (E : QEnv K) (s : QState K) : Prop :=
  ∀ k e, s.cache k = some e →
    (tablesOf E s.usedName).1 = true ∧ compute E.C (tablesOf E s.usedName).2 k = .ok e

theorem setup_inv (E : QEnv K) (s : QState K) (hs : QInv E s) (db : String) (k : QKey)
    (t : Tables K) (ht : tablesOf E db = (true, t)) :
    (s.setup E.C t db k).1 = compute E.C t k ∧ QInv E (s.setup E.C t db k).2 := by
  -- the state after the name check
  obtain ⟨s', hs'def, hname, hinv⟩ : ∃ s' : QState K,
      s' = (if s.usedName ≠ db then { s with usedName := db, cache := s.cache.clear } else s) ∧
      s'.usedName = db ∧ QInv E s' := by
    refine ⟨_, rfl, ?_, ?_⟩
    · split
      · rfl
      · next h => exact not_not.mp h
    · split
      · intro k e h; simp [CacheMap.clear, CacheMap.empty] at h
      · exact hs
  have heq : s.setup E.C t db k = (match s'.cache.restore k with
    | some e => (.ok e, s')
    | none =>
      match compute E.C t k with
      | .ok e =>
        match s'.cache.save k e with
        | (.ok (), c) => (.ok e, { s' with cache := c })
        | (.throw, c) => (.throw, { s' with cache := c })
        | (.ub, c) => (.ub, { s' with cache := c })
      | .throw => (.throw, s')
      | .ub => (.ub, s')) := by rw [hs'def]; rfl
  rw [heq]
  unfold CacheMap.restore
  cases hc : s'.cache k with
  | some e =>
    have := (hinv k e hc).2
    rw [hname, ht] at this
    exact ⟨this.symm, hinv⟩
  | none =>
    cases hcomp : compute E.C t k with
    | throw => exact ⟨rfl, hinv⟩
    | ub => exact ⟨rfl, hinv⟩
    | ok e =>
      simp only [CacheMap.save, hc]
      refine ⟨trivial, ?_⟩
      intro k' e' h
      simp only [hname, ht]
      by_cases hk : k' = k
      · subst hk; simp at h; subst h; exact ⟨trivial, hcomp⟩
      · simp [hk] at h
        have := hinv k' e' h
        rw [hname, ht] at this
        exact ⟨trivial, this.2⟩

theorem construct_inv (E : QEnv K) (hsc : ∀ f, f ≠ "" → SelfContained (E.files f)) (s : QState K)
    (hs : QInv E s) (k : QKey) (db : String) :
    (s.construct E k db).1 = freshProcess E k db ∧ QInv E (s.construct E k db).2 := by
  rw [freshProcess_eq]
  unfold QState.construct
  by_cases hdb : db = ""
  · simp only [hdb, if_true]
    have ht : tablesOf E "" = (true, E.embedded) := by simp [tablesOf]
    rw [ht]
    exact setup_inv E s hs "" k _ ht
  · simp only [hdb, if_false]
    rw [hsc db hdb s.mem]
    have ht : tablesOf E db = execScript (E.files db) Tables.fresh := by simp [tablesOf, hdb]
    rw [ht]
    rcases hx : execScript (E.files db) Tables.fresh with ⟨b, t⟩
    cases b
    · exact ⟨rfl, hs⟩
    · exact setup_inv E { s with mem := t } hs db k t (ht.trans hx)

theorem run_inv (E : QEnv K) (hsc : ∀ f, f ≠ "" → SelfContained (E.files f))
    (h : List (QKey × String)) : QInv E (QState.run E h) := by
  induction h using List.reverseRecOn with
  | nil => intro k e h; simp [QState.run, QState.init, CacheMap.empty] at h
  | append_singleton h a ih =>
    have : QState.run E (h ++ [a]) = ((QState.run E h).construct E a.1 a.2).2 := by simp [QState.run]
    rw [this]; exact (construct_inv E hsc _ ih _ _).2

/-- **C09 (partial).** In every single-threaded history of constructor calls, over any number of
database names, each call gives exactly what a new process would give — provided every database file
is self-contained (the shipped ones are: they drop and re-create both tables).  Missing from the full
statement: files that are not, see `C09_history_independence_fails`. -/
theorem C09_history_independence_partial (E : QEnv K)
    (hsc : ∀ f, f ≠ "" → SelfContained (E.files f)) (h : List (QKey × String)) (k : QKey) (db : String) :
    ((QState.run E h).construct E k db).1 = freshProcess E k db :=
  (construct_inv E hsc _ (run_inv E hsc h) k db).1

theorem execScript_append (a b : List (Sql K)) (t : Tables K) :
    execScript (a ++ b) t = match execScript a t with
      | (true, t') => execScript b t'
      | (false, t') => (false, t') := by
  induction a generalizing t with
  | nil => rfl
  | cons s a ih =>
    simp only [List.cons_append, execScript]
    cases s.exec t with
    | none => rfl
    | some t' => exact ih t'

theorem exec_insertPots (ps : List (PotRow K)) (rs : List (PotRow K)) (z : Option (List (RitzRow K))) :
    execScript (ps.map Sql.insertPot) ⟨some rs, z⟩ = (true, ⟨some (rs ++ ps), z⟩) := by
  induction ps generalizing rs with
  | nil => simp [execScript]
  | cons p ps ih => simp [execScript, Sql.exec, ih]

theorem exec_insertRitzs (ps : List (RitzRow K)) (rs : List (RitzRow K)) (z : Option (List (PotRow K))) :
    execScript (ps.map Sql.insertRitz) ⟨z, some rs⟩ = (true, ⟨z, some (rs ++ ps)⟩) := by
  induction ps generalizing rs with
  | nil => simp [execScript]
  | cons p ps ih => simp [execScript, Sql.exec, ih]

/-- The shape of the shipped scripts (databases/quantum_defects.sql:18-19,63-64): drop, create, fill,
for both tables. -/
def shippedScript (ps : List (PotRow K)) (rs : List (RitzRow K)) : List (Sql K) :=
  [.dropPot, .createPot] ++ ps.map Sql.insertPot ++ ([.dropRitz, .createRitz] ++ rs.map Sql.insertRitz)

theorem exec_shipped (ps : List (PotRow K)) (rs : List (RitzRow K)) (t : Tables K) :
    execScript (shippedScript ps rs) t = (true, ⟨some ps, some rs⟩) := by
  unfold shippedScript
  rw [execScript_append, execScript_append]
  simp [execScript, Sql.exec, exec_insertPots, exec_insertRitzs]

/-- **C09.** For files of the shipped shape, with any rows, no hypothesis on the files is left. -/
theorem C09_history_independence_shipped (E : QEnv K)
    (hf : ∀ f, ∃ ps rs, E.files f = shippedScript ps rs)
    (h : List (QKey × String)) (k : QKey) (db : String) :
    ((QState.run E h).construct E k db).1 = freshProcess E k db := by
  refine C09_history_independence_partial E (fun f _ => ?_) h k db
  obtain ⟨ps, rs, hf⟩ := hf f
  intro t; rw [hf, exec_shipped, exec_shipped]
end C09

/-- Demonstration environment over ℚ: file "rb" is of the shipped shape, every other file is
missing (reads as the empty script). -/
def demoPot : PotRow ℚ := ⟨"Rb", 0, 9, 37, 3, 1, -9, -1, 1⟩
/-- see `demoPot` -/
def demoRitz : RitzRow ℚ := ⟨"Rb", 0, 1, 3, 1/5, 0, 0, 0, 109736⟩
/-- see `demoPot` -/
def demoQEnv : QEnv ℚ :=
  ⟨⟨109737, 6579683⟩, ⟨some [demoPot], some [demoRitz]⟩,
    fun f => if f = "rb" then shippedScript [demoPot] [demoRitz] else []⟩
/-- Rb 10 S 1/2 -/
def demoKey : QKey := ⟨"Rb", 10, 0, 1⟩

/-- The hypotheses of the shipped-shape theorem are met by an environment in which constructions
succeed. -/
example : (∀ f, ∃ ps rs,
      ({ demoQEnv with files := fun _ => shippedScript [demoPot] [demoRitz] } : QEnv ℚ).files f
        = shippedScript ps rs) ∧
    (freshProcess demoQEnv demoKey "rb") ≠ .throw := by
  refine ⟨fun f => ⟨_, _, rfl⟩, ?_⟩
  rw [freshProcess_eq]; decide

/-- **C09 fails** in general: naming a file that does not exist throws in a new process, but after a
construction with a good file the same call silently returns values from that other file. -/
theorem C09_history_independence_fails :
    ∃ (E : QEnv ℚ) (h : List (QKey × String)) (k : QKey) (db : String),
      freshProcess E k db = .throw ∧
      ∃ e, ((QState.run E h).construct E k db).1 = .ok e := by
  refine ⟨demoQEnv, [(demoKey, "rb")], demoKey, "typo", by decide, ?_⟩
  have : ((QState.run demoQEnv [(demoKey, "rb")]).construct demoQEnv demoKey "typo").1
      = compute demoQEnv.C ⟨some [demoPot], some [demoRitz]⟩ demoKey := rfl
  rw [this]; exact ⟨_, rfl⟩

/-! ## C11 -/
section C11
variable {K : Type} [Field K] [LinearOrder K] [IsStrictOrderedRing K]

/-- Largest element of a list, 0 for the empty list: what `MAX(…)` read as a number means. -/
def IsMaxOrZero (xs : List Int) (m : Int) : Prop :=
  (xs = [] ∧ m = 0) ∨ (m ∈ xs ∧ ∀ x ∈ xs, x ≤ m)

omit [Field K] [LinearOrder K] [IsStrictOrderedRing K] in
theorem sqlMax_spec (xs : List Int) : IsMaxOrZero xs (sqlMax xs) := by
  cases xs with
  | nil => exact .inl ⟨rfl, rfl⟩
  | cons x xs =>
    right
    unfold sqlMax
    simp only
    have : ∀ (ys : List Int) (a : Int),
        (ys.foldl max a ∈ a :: ys) ∧ ∀ z ∈ a :: ys, z ≤ ys.foldl max a := by
      intro ys
      induction ys with
      | nil => intro a; simp
      | cons y ys ih =>
        intro a
        have := ih (max a y)
        simp only [List.foldl_cons]
        refine ⟨?_, ?_⟩
        · rcases List.mem_cons.mp this.1 with h | h
          · rw [h]; rcases max_choice a y with h' | h' <;> simp [h']
          · simp [h]
        · intro z hz
          have hm := this.2 (max a y) (by simp)
          simp only [List.mem_cons] at hz
          rcases hz with rfl | rfl | hz
          · exact le_trans (le_max_left _ _) hm
          · exact le_trans (le_max_right _ _) hm
          · exact this.2 z (by simp [hz])
    exact this xs x

/-- **C11.** Whenever a construction succeeds, the potential parameters are those of a tabulated row
with `L = min l (largest tabulated L)`, and with a Rydberg–Ritz row of clipped `L` and `J` the energy is
−½(Ry/Ry∞)/n*² (in the unit au2GHz); it is negative when n* ≠ 0 (Ry and the constants positive). -/
theorem C11_energy_formula (C : Consts K) (t : Tables K) (k : QKey) (e : Element K)
    (h : compute C t k = .ok e) :
    ∃ pot p PL ritz r RL RJ, t.pot = some pot ∧ p ∈ pot ∧ p.element = k.species ∧
      IsMaxOrZero ((pot.filter (·.element = k.species)).map (·.L)) PL ∧ p.L = min k.l PL ∧
      (e.ac, e.Z, e.a1, e.a2, e.a3, e.a4, e.rc) = (p.ac, p.Z, p.a1, p.a2, p.a3, p.a4, p.rc) ∧
      t.ritz = some ritz ∧ r ∈ ritz ∧ r.element = k.species ∧
      IsMaxOrZero ((ritz.filter (·.element = k.species)).map (·.L)) RL ∧ r.L = min k.l RL ∧
      IsMaxOrZero ((ritz.filter (fun r => r.element = k.species ∧ r.L = min k.l RL)).map (·.J2)) RJ ∧
      r.J2 = min k.j2 RJ ∧
      e.nstar = k.n - (r.d0 + r.d2 / (k.n - r.d0) ^ 2 + r.d4 / (k.n - r.d0) ^ 4
        + r.d6 / (k.n - r.d0) ^ 6 + r.d8 / (k.n - r.d0) ^ 8) ∧
      e.energy = -(1/2) * (r.Ry / C.RyInf) / e.nstar ^ 2 * C.au2GHz ∧
      (0 < r.Ry → 0 < C.RyInf → 0 < C.au2GHz → e.nstar ≠ 0 → e.energy < 0) := by
  unfold compute at h
  split at h
  · next pot ritz hp hr =>
    simp only at h
    split at h
    · simp at h
    · next p hfp =>
      split at h
      · simp at h
      · next r hfr =>
        simp only [Out.ok.injEq] at h
        subst h
        have hmem := List.mem_of_find?_eq_some hfr
        have hel := List.find?_some hfr
        have hpmem := List.mem_of_find?_eq_some hfp
        have hpel := List.find?_some hfp
        replace hel := of_decide_eq_true hel
        replace hpel := of_decide_eq_true hpel
        refine ⟨pot, p, _, ritz, r, _, _, hp, hpmem, hpel.1, sqlMax_spec _, hpel.2, rfl, hr, hmem, hel.1,
          sqlMax_spec _, hel.2.1, sqlMax_spec _, hel.2.2, rfl, ?_, ?_⟩
        · simp only [energyOf]; rw [pow_two]
        · intro h1 h2 h3 h4
          simp only [energyOf]
          have hn : 0 < nstarOf k.n r * nstarOf k.n r := mul_self_pos.mpr h4
          have : 0 < (1/2) * (r.Ry / C.RyInf) / (nstarOf k.n r * nstarOf k.n r) * C.au2GHz := by
            positivity
          have e1 : -(1/2) * (r.Ry / C.RyInf) / (nstarOf k.n r * nstarOf k.n r) * C.au2GHz
            = -((1/2) * (r.Ry / C.RyInf) / (nstarOf k.n r * nstarOf k.n r) * C.au2GHz) := by ring
          rw [e1]; linarith
  · simp at h

/-- **C11.** The energy is strictly increasing in n* > 0. -/
theorem C11_energy_strictMono (RyInf au Ry x y : K) (h1 : 0 < RyInf) (h2 : 0 < au) (h3 : 0 < Ry)
    (hx : 0 < x) (hxy : x < y) : energyOf RyInf au Ry x < energyOf RyInf au Ry y := by
  have hc : 0 < (1/2) * (Ry / RyInf) * au := by positivity
  have e : ∀ z : K, energyOf RyInf au Ry z = -((1/2) * (Ry / RyInf) * au) * (1 / (z * z)) := by
    intro z; unfold energyOf; ring
  rw [e, e]
  have hzz : x * x < y * y := by nlinarith
  have : 1 / (y * y) < 1 / (x * x) := one_div_lt_one_div_of_lt (by positivity) hzz
  nlinarith

omit [LinearOrder K] [IsStrictOrderedRing K] in
/-- **C11.** `l` and `j` enter only through clipping: if for species `sp` the largest tabulated
potential-l is `PL`, the largest Rydberg–Ritz l is `RL` and the largest j tabulated for `min l RL` is
`RJ` — and likewise for `l'`, `j'` — and the clipped values agree, the two constructions give the same
result (including failures). -/
theorem C11_depends_on_clipped (C : Consts K) (pot : List (PotRow K)) (ritz : List (RitzRow K))
    (sp : String) (n l j l' j' PL RL RJ RJ' : Int)
    (hP : IsMaxOrZero ((pot.filter (·.element = sp)).map (·.L)) PL)
    (hR : IsMaxOrZero ((ritz.filter (·.element = sp)).map (·.L)) RL)
    (hJ : IsMaxOrZero ((ritz.filter (fun r => r.element = sp ∧ r.L = min l RL)).map (·.J2)) RJ)
    (hJ' : IsMaxOrZero ((ritz.filter (fun r => r.element = sp ∧ r.L = min l' RL)).map (·.J2)) RJ')
    (h1 : min l PL = min l' PL) (h2 : min l RL = min l' RL) (h3 : min j RJ = min j' RJ') :
    compute C ⟨some pot, some ritz⟩ ⟨sp, n, l, j⟩ = compute C ⟨some pot, some ritz⟩ ⟨sp, n, l', j'⟩ := by
  have uniq : ∀ xs a b, IsMaxOrZero xs a → IsMaxOrZero xs b → a = b := by
    rintro xs a b (⟨rfl, rfl⟩ | ⟨ha, ha'⟩) (⟨hb, hb'⟩ | ⟨hb, hb'⟩)
    · exact hb'.symm
    · simp at hb
    · subst hb; simp at ha
    · exact le_antisymm (hb' _ ha) (ha' _ hb)
  have eP := uniq _ _ _ hP (sqlMax_spec _)
  have eR := uniq _ _ _ hR (sqlMax_spec _)
  subst eP eR
  have eJ := uniq _ _ _ hJ (sqlMax_spec _)
  have eJ' := uniq _ _ _ hJ' (sqlMax_spec _)
  subst eJ eJ'
  have : clip pot ritz ⟨sp, n, l, j⟩ = clip pot ritz ⟨sp, n, l', j'⟩ := by
    unfold clip; simp only [Prod.mk.injEq]; exact ⟨h1, h2, h3⟩
  unfold compute
  simp only [this]
end C11

/-- High-l states of the demonstration table share their result (l is clipped to 0, j to 1/2), and
the construction succeeds with a negative energy. -/
example : compute demoQEnv.C demoQEnv.embedded ⟨"Rb", 10, 3, 7⟩ =
    compute demoQEnv.C demoQEnv.embedded ⟨"Rb", 10, 2, 3⟩ ∧
    ∃ e, compute demoQEnv.C demoQEnv.embedded ⟨"Rb", 10, 3, 7⟩ = .ok e ∧ e.nstar ≠ 0 ∧ e.energy < 0 := by
  refine ⟨rfl, _, rfl, ?_, ?_⟩
  · simp only [nstarOf, demoRitz]; norm_num
  · simp only [nstarOf, energyOf, demoRitz, demoQEnv]; norm_num

/-! ## C10 -/
section C10
variable {τ κ ε : Type} [DecidableEq τ] [DecidableEq κ]

/-- Invariant for the values: one database name is used throughout. -/
def ValInv (fresh : String → κ → Out ε) (nm : String) (c : Conf τ κ ε) : Prop :=
  (∀ k e, c.cache k = some e → fresh nm k = .ok e) ∧
  (∀ t, ∀ r ∈ (c.thr t).todo, r.2 = nm) ∧
  (∀ t, (match (c.thr t).pc with | .idle => True | _ => (c.thr t).cur.2 = nm)) ∧
  (∀ t e, (c.thr t).pc = .save e → fresh nm (c.thr t).cur.1 = .ok e) ∧
  (∀ r o, (r, o) ∈ c.log → r.2 = nm ∧ ∀ e, o = .ok e → fresh nm r.1 = .ok e)

theorem ValInv.step {fresh : String → κ → Out ε} {nm : String} {c c' : Conf τ κ ε}
    (h : ValInv fresh nm c) (t : τ) (hs : c.step fresh t = some c') : ValInv fresh nm c' := by
  obtain ⟨a, b, cc, d, e⟩ := h
  have bt := b t; have ct := cc t; have dt := d t
  have gen : ∀ (x : Thread κ ε) (name : String) (m : CacheMap κ ε) (lg : List ((κ × String) × Out ε)),
      (∀ r ∈ x.todo, r.2 = nm) →
      (match x.pc with | .idle => True | _ => x.cur.2 = nm) →
      (∀ e, x.pc = .save e → fresh nm x.cur.1 = .ok e) →
      (∀ k e, m k = some e → fresh nm k = .ok e) →
      (∀ r o, (r, o) ∈ lg → r.2 = nm ∧ ∀ e, o = .ok e → fresh nm r.1 = .ok e) →
      ValInv fresh nm ⟨name, m, fun t' => if t' = t then x else c.thr t', lg⟩ := by
    intro x name m lg h1 h2 h3 h4 h5
    refine ⟨h4, ?_, ?_, ?_, h5⟩ <;> intro t' <;> by_cases ht : t' = t <;> simp only [ht, if_true, if_false]
    · exact h1
    · exact b t'
    · exact h2
    · exact cc t'
    · exact h3
    · exact d t'
  have addLog : ∀ (r : κ × String) (o : Out ε), r.2 = nm → (∀ e, o = .ok e → fresh nm r.1 = .ok e) →
      ∀ r' o', (r', o') ∈ (r, o) :: c.log → r'.2 = nm ∧ ∀ e, o' = .ok e → fresh nm r'.1 = .ok e := by
    intro r o hr ho r' o' hm
    rcases List.mem_cons.mp hm with hh | hh
    · cases hh; exact ⟨hr, ho⟩
    · exact e r' o' hh
  unfold Conf.step at hs
  simp only at hs
  cases hp : (c.thr t).pc with
  | idle =>
    simp only [hp] at hs
    cases htd : (c.thr t).todo with
    | nil => simp [htd] at hs
    | cons r rs =>
      simp only [htd, Option.some.injEq] at hs
      subst hs
      rw [htd] at bt
      exact gen _ _ _ _ (fun r' hr' => bt r' (by simp [hr'])) (bt r (by simp)) (by simp) a e
  | check =>
    simp only [hp, Option.some.injEq] at hs ct
    subst hs
    refine gen _ _ _ _ bt ?_ ?_ a e <;> simp only <;> split <;> simp [ct]
  | assign =>
    simp only [hp, Option.some.injEq] at hs ct
    subst hs
    exact gen _ _ _ _ bt ct (by simp) a e
  | clear =>
    simp only [hp, Option.some.injEq] at hs ct
    subst hs
    refine gen _ _ _ _ bt ct (by simp) ?_ e
    intro k e h; simp [CacheMap.clear, CacheMap.empty] at h
  | restore =>
    simp only [hp, CacheMap.restore] at hs ct
    cases hcr : c.cache (c.thr t).cur.1 with
    | some e' =>
      simp only [hcr, Option.some.injEq] at hs
      subst hs
      refine gen _ _ _ _ bt trivial (by simp) a (addLog _ _ ct ?_)
      intro e'' h; cases h; exact a _ _ hcr
    | none =>
      simp only [hcr, Option.some.injEq] at hs
      subst hs
      exact gen _ _ _ _ bt ct (by simp) a e
  | compute =>
    simp only [hp] at hs ct
    cases hf : fresh (c.thr t).cur.2 (c.thr t).cur.1 with
    | ok e' =>
      simp only [hf, Option.some.injEq] at hs
      subst hs
      refine gen _ _ _ _ bt ct ?_ a e
      intro e'' h; simp at h; subst h; rw [← ct]; exact hf
    | throw =>
      simp only [hf, Option.some.injEq] at hs
      subst hs
      exact gen _ _ _ _ bt trivial (by simp) a (addLog _ _ ct (by simp))
    | ub =>
      simp only [hf, Option.some.injEq] at hs
      subst hs
      exact gen _ _ _ _ bt trivial (by simp) a (addLog _ _ ct (by simp))
  | save e' =>
    simp only [hp, CacheMap.save] at hs ct
    have hv := dt e' hp
    cases hcr : c.cache (c.thr t).cur.1 with
    | some e'' =>
      simp only [hcr, Option.some.injEq] at hs
      subst hs
      exact gen _ _ _ _ bt trivial (by simp) a (addLog _ _ ct (by simp))
    | none =>
      simp only [hcr, Option.some.injEq] at hs
      subst hs
      refine gen _ _ _ _ bt trivial (by simp) ?_ (addLog _ _ ct ?_)
      · intro k v h
        simp only [Conf.setThr] at h
        by_cases hk : k = (c.thr t).cur.1
        · subst hk; simp at h; subst h; exact hv
        · simp [hk] at h; exact a k v h
      · intro e'' h; cases h; exact hv

theorem ValInv.exec {fresh : String → κ → Out ε} {nm : String} {c : Conf τ κ ε}
    (h : ValInv fresh nm c) (sched : List τ) : ValInv fresh nm (c.exec fresh sched) := by
  induction sched generalizing c with
  | nil => exact h
  | cons t ts ih =>
    simp only [Conf.exec]
    cases hs : c.step fresh t with
    | none => exact ih h
    | some c' => exact ih (h.step t hs)

/-- **C10 (partial).** Any number of threads, any requests, any schedule: if all threads use the same
database name, every construction that returns gives the value the database determines.  Missing:
different names (`C10_concurrent_values_fails`) and absence of spurious failures
(`C10_concurrent_construction_fails`). -/
theorem C10_concurrent_values_partial (fresh : String → κ → Out ε) (nm : String)
    (prog : τ → List (κ × String)) (dflt : κ) (hp : ∀ t, ∀ r ∈ prog t, r.2 = nm) (sched : List τ)
    (r : κ × String) (e : ε)
    (hlog : (r, .ok e) ∈ ((Conf.start prog dflt : Conf τ κ ε).exec fresh sched).log) :
    fresh r.2 r.1 = .ok e := by
  have h0 : ValInv fresh nm (Conf.start prog dflt : Conf τ κ ε) := by
    refine ⟨?_, hp, fun t => trivial, ?_, ?_⟩ <;> simp [Conf.start, CacheMap.empty]
  have := (h0.exec sched).2.2.2.2 r _ hlog
  rw [this.1]; exact this.2 e rfl

/-- Invariant for the absence of spurious failures: the default database, each key used by one
thread only. -/
def OwnInv (fresh : String → κ → Out ε) (owner : κ → τ) (c : Conf τ κ ε) : Prop :=
  c.name = "" ∧
  (∀ t, ∀ r ∈ (c.thr t).todo, r.2 = "" ∧ owner r.1 = t) ∧
  (∀ t, (match (c.thr t).pc with
    | .idle => True
    | .assign | .clear => False
    | .check | .restore => (c.thr t).cur.2 = "" ∧ owner (c.thr t).cur.1 = t
    | .compute | .save _ => (c.thr t).cur.2 = "" ∧ owner (c.thr t).cur.1 = t ∧
        c.cache (c.thr t).cur.1 = none)) ∧
  (∀ r, (r, Out.throw) ∈ c.log → fresh r.2 r.1 = .throw)

theorem OwnInv.step {fresh : String → κ → Out ε} {owner : κ → τ} {c c' : Conf τ κ ε}
    (h : OwnInv fresh owner c) (t : τ) (hs : c.step fresh t = some c') : OwnInv fresh owner c' := by
  obtain ⟨a, b, cc, d⟩ := h
  have bt := b t; have ct := cc t
  have gen : ∀ (x : Thread κ ε) (m : CacheMap κ ε) (lg : List ((κ × String) × Out ε)),
      (∀ r ∈ x.todo, r.2 = "" ∧ owner r.1 = t) →
      (match x.pc with
        | .idle => True
        | .assign | .clear => False
        | .check | .restore => x.cur.2 = "" ∧ owner x.cur.1 = t
        | .compute | .save _ => x.cur.2 = "" ∧ owner x.cur.1 = t ∧ m x.cur.1 = none) →
      (∀ k, owner k ≠ t → m k = c.cache k) →
      (∀ r, (r, Out.throw) ∈ lg → fresh r.2 r.1 = .throw) →
      OwnInv fresh owner { c with cache := m, thr := fun t' => if t' = t then x else c.thr t', log := lg } := by
    intro x m lg h1 h2 h3 h4
    refine ⟨a, ?_, ?_, h4⟩
    · intro t'; simp only; split
      · next h => subst h; exact h1
      · exact b t'
    · intro t'; simp only
      by_cases h : t' = t
      · subst h; simpa using h2
      · simp only [h, if_false]
        have := cc t'
        cases hpc : (c.thr t').pc <;> simp only [hpc] at this ⊢ <;> try exact this
        · exact ⟨this.1, this.2.1, by rw [h3 _ (by rw [this.2.1]; exact h)]; exact this.2.2⟩
        · exact ⟨this.1, this.2.1, by rw [h3 _ (by rw [this.2.1]; exact h)]; exact this.2.2⟩
  unfold Conf.step at hs
  simp only at hs
  cases hp : (c.thr t).pc with
  | idle =>
    simp only [hp] at hs
    cases htd : (c.thr t).todo with
    | nil => simp [htd] at hs
    | cons r rs =>
      simp only [htd, Option.some.injEq] at hs
      subst hs
      rw [htd] at bt
      exact gen _ c.cache c.log (fun r' hr' => bt r' (by simp [hr'])) (bt r (by simp)) (fun _ _ => rfl) d
  | check =>
    simp only [hp, Option.some.injEq] at hs ct
    subst hs
    have hn : ¬ (c.name ≠ (c.thr t).cur.2) := by rw [a, ct.1]; simp
    rw [if_neg hn]
    exact gen _ c.cache c.log bt ct (fun _ _ => rfl) d
  | assign => simp [hp] at ct
  | clear => simp [hp] at ct
  | restore =>
    simp only [hp, CacheMap.restore] at hs ct
    cases hcr : c.cache (c.thr t).cur.1 with
    | some e' =>
      simp only [hcr, Option.some.injEq] at hs
      subst hs
      exact gen _ c.cache _ bt trivial (fun _ _ => rfl) (fun r hr => d r (by simpa using hr))
    | none =>
      simp only [hcr, Option.some.injEq] at hs
      subst hs
      exact gen _ c.cache c.log bt ⟨ct.1, ct.2, hcr⟩ (fun _ _ => rfl) d
  | compute =>
    simp only [hp] at hs ct
    cases hf : fresh (c.thr t).cur.2 (c.thr t).cur.1 with
    | ok e' =>
      simp only [hf, Option.some.injEq] at hs
      subst hs
      exact gen _ c.cache c.log bt ct (fun _ _ => rfl) d
    | throw =>
      simp only [hf, Option.some.injEq] at hs
      subst hs
      refine gen _ c.cache _ bt trivial (fun _ _ => rfl) (fun r hr => ?_)
      rcases List.mem_cons.mp hr with h | h
      · cases h; exact hf
      · exact d r h
    | ub =>
      simp only [hf, Option.some.injEq] at hs
      subst hs
      exact gen _ c.cache _ bt trivial (fun _ _ => rfl) (fun r hr => d r (by simpa using hr))
  | save e' =>
    simp only [hp, CacheMap.save] at hs ct
    simp only [ct.2.2, Option.some.injEq] at hs
    subst hs
    refine gen _ _ _ bt trivial (fun k hk => ?_) (fun r hr => d r (by simpa using hr))
    have : k ≠ (c.thr t).cur.1 := fun h => hk (h ▸ ct.2.1)
    simp [this, Conf.setThr]

/-- **C10 (partial).** With the default database, if no two threads ask for the same key (one thread
may ask repeatedly), then under every schedule a construction throws only if it would throw alone. -/
theorem C10_no_spurious_failure_partial (fresh : String → κ → Out ε) (owner : κ → τ)
    (prog : τ → List (κ × String)) (dflt : κ)
    (hp : ∀ t, ∀ r ∈ prog t, r.2 = "" ∧ owner r.1 = t) (sched : List τ) (r : κ × String)
    (hlog : (r, .throw) ∈ ((Conf.start prog dflt : Conf τ κ ε).exec fresh sched).log) :
    fresh r.2 r.1 = .throw := by
  have h0 : OwnInv fresh owner (Conf.start prog dflt : Conf τ κ ε) :=
    ⟨rfl, hp, fun t => trivial, by simp [Conf.start]⟩
  have : ∀ (sched : List τ) (c : Conf τ κ ε), OwnInv fresh owner c →
      OwnInv fresh owner (c.exec fresh sched) := by
    intro sched
    induction sched with
    | nil => intro c h; exact h
    | cons t ts ih =>
      intro c h
      simp only [Conf.exec]
      cases hs : c.step fresh t with
      | none => exact ih _ h
      | some c' => exact ih _ (h.step t hs)
  exact (this sched _ h0).2.2.2 r hlog
end C10

/-- Two threads (`false`, `true`), two keys, values that name their database. -/
def demoFresh : String → Nat → Out (String × Nat) := fun nm k => .ok (nm, k)

/-- A run of two threads with separate keys in which both constructions return and one is repeated. -/
example : ((Conf.start (fun t : Bool => if t then [(1, ""), (1, "")] else [(0, "")]) 0).exec demoFresh
    [true, false, true, false, true, false, true, false, true, false, true, true, true, true]).log
    = [((1, ""), .ok ("", 1)), ((0, ""), .ok ("", 0)), ((1, ""), .ok ("", 1))] := by decide

/-- **C10 fails**: two threads asking for the same state at the same time — one of them throws
("Cache smashing detected!") although the construction succeeds alone. -/
theorem C10_concurrent_construction_fails :
    ∃ (prog : Bool → List (Nat × String)) (sched : List Bool) (r : Nat × String),
      (∀ t, ∀ q ∈ prog t, q.2 = "") ∧ (∃ v, demoFresh r.2 r.1 = .ok v) ∧
      (r, Out.throw) ∈ ((Conf.start prog 0).exec demoFresh sched).log :=
  ⟨fun _ => [(0, "")], [false, true, false, true, false, true, false, true, false, true], (0, ""),
    by simp, ⟨_, rfl⟩, by decide⟩

/-- **C10 fails** for values too: with two database names in use, a thread can be handed the value
computed from the other thread's database. -/
theorem C10_concurrent_values_fails :
    ∃ (prog : Bool → List (Nat × String)) (sched : List Bool) (r : Nat × String) (v : String × Nat),
      (r, Out.ok v) ∈ ((Conf.start prog 0).exec demoFresh sched).log ∧ demoFresh r.2 r.1 ≠ .ok v :=
  -- thread false runs up to its save with database "a"; thread true then switches to "b" and clears;
  -- false saves its value; true reads it
  ⟨fun t => if t then [(0, "b")] else [(0, "a")],
    [false, false, false, false, false, false, true, true, true, true, false, true],
    (0, "b"), ("a", 0), by decide, by decide⟩

end PI
