import Verif.Matfile.ObjModel
import Verif.Matfile.Props

/-!
# C107: what is saved is the current matrix
-/

namespace PI

/-! ## Specification -/

/-- What a user may know about an object: nothing was serialized or loaded since the last function that
changes the matrix (`clean`), something was (`cached`), the last attempt to load failed (`failed`). -/
inductive HStat where
  | clean | cached | failed
deriving DecidableEq

/-- How a call changes what is known. -/
def HOp.stat (w : HWorld) (r : HRes) (s : ℕ → HStat) : HOp → ℕ → HStat
  | .entries i _ | .basis i _ | .modify i _ | .create i _ => Function.update s i .clean
  | .arith k _ _ _ => Function.update s k .clean
  | .assign k i => Function.update s k (s i)
  | .serialize i | .save i _ => Function.update s i .cached
  | .deserialize i _ => Function.update s i (if r = .threw then .failed else .cached)
  | .load i f =>
    if w.files f = none then s else Function.update s i (if r = .flag true then .cached else .failed)
  | .addBasis _ _ _ _ | .addEntries _ _ _ _ | .compress _ _ _ | .late _ _ | .diagonalize _ _ => s

/-- The three rules: `compress` and retained references only while nothing is serialized or loaded, nothing
is serialized after a failed load. -/
def HOp.Allowed (s : ℕ → HStat) : HOp → Prop
  | .compress i _ _ | .late i _ => s i = .clean
  | .serialize i | .save i _ => s i ≠ .failed
  | _ => True

/-- A history that keeps the rules. -/
def KeepsRules (env : HEnv) : HWorld → (ℕ → HStat) → List HOp → Prop
  | _, _, [] => True
  | w, s, op :: ops => op.Allowed s ∧ ∀ w' r, op.run env w = some (w', r) → KeepsRules env w' (op.stat w r s) ops

/-- What is known after a history. -/
def statAfter (env : HEnv) : HWorld → (ℕ → HStat) → List HOp → ℕ → HStat
  | _, s, [] => s
  | w, s, op :: ops =>
    match op.run env w with
    | some (w', r) => statAfter env w' (op.stat w r s) ops
    | none => s

/-- A matrix the file format can hold (see C64). -/
def HMat.FileOk (cplx : Bool) (m : HMat) : Prop :=
  m.entries.Fits ∧ m.basis.Fits ∧ m.entries.RealIf cplx ∧ m.basis.RealIf cplx ∧ m.entries.NotOnlyLast ∧ m.basis.NotOnlyLast

/-- A history does not write a given file. -/
def NoSave (f : String) (ops : List HOp) : Prop := ∀ i, HOp.save i f ∉ ops

/-! ## Invariant -/

theorem objs_set (w : HWorld) (i j : ℕ) (o : HObj) : (w.set i o).objs j = if j = i then o else w.objs j := by
  unfold HWorld.set; by_cases h : j = i
  · subst h; simp
  · simp [h]

theorem ser_bytes_ne (cplx : Bool) (m : HMat) : m.serialize cplx ≠ [] := by
  unfold HMat.serialize saveItems matItems
  simp [Item.save, enc]

theorem storable_round (cplx : Bool) (m : HMat) (h : m.FileOk cplx) : HMat.deserialize cplx (m.serialize cplx) = .ok m :=
  C64_matrix_file_partial cplx m h.1 h.2.1 h.2.2.1 h.2.2.2.1 h.2.2.2.2.1 h.2.2.2.2.2

/-- The buffer of an object fits its matrix. -/
def HObj.Fresh (cplx : Bool) (o : HObj) : Prop :=
  o.bytes = [] ∨ HMat.deserialize cplx o.bytes = .ok o.mat ∨ o.bytes = o.mat.serialize cplx

def HStat.Says (cplx : Bool) (o : HObj) : HStat → Prop
  | .clean => o.bytes = []
  | .cached => o.Fresh cplx
  | .failed => True

theorem says_ser (cplx : Bool) (o : HObj) (h : o.Fresh cplx) : HStat.Says cplx (o.ser cplx) .cached := by
  unfold HObj.ser
  by_cases hb : o.bytes = []
  · rw [if_pos hb]; right; right; rfl
  · rw [if_neg hb]; exact h

theorem says_fresh (cplx : Bool) (o : HObj) (s : HStat) (h : s.Says cplx o) (hs : s ≠ .failed) : o.Fresh cplx := by
  cases s with
  | clean => exact Or.inl h
  | cached => exact h
  | failed => exact absurd rfl hs

theorem step_says (env : HEnv) (w w' : HWorld) (r : HRes) (op : HOp) (s : ℕ → HStat)
    (hs : ∀ i, (s i).Says env.cplx (w.objs i)) (ha : op.Allowed s) (hr : op.run env w = some (w', r)) :
    ∀ i, (op.stat w r s i).Says env.cplx (w'.objs i) := by
  intro j
  have hj := hs j
  cases op with
  | addBasis i a c v =>
    simp only [HOp.run, Option.some.injEq, Prod.mk.injEq] at hr
    obtain ⟨rfl, rfl⟩ := hr
    simp only [HOp.stat]; rw [objs_set]
    by_cases h : j = i
    · subst h; rw [if_pos rfl]; revert hj; cases s j <;> exact id
    · rw [if_neg h]; exact hj
  | addEntries i a c v =>
    simp only [HOp.run, Option.some.injEq, Prod.mk.injEq] at hr
    obtain ⟨rfl, rfl⟩ := hr
    simp only [HOp.stat]; rw [objs_set]
    by_cases h : j = i
    · subst h; rw [if_pos rfl]; revert hj; cases s j <;> exact id
    · rw [if_neg h]; exact hj
  | compress i a c =>
    simp only [HOp.run] at hr
    split at hr
    · simp only [Option.some.injEq, Prod.mk.injEq] at hr
      obtain ⟨rfl, rfl⟩ := hr
      simp only [HOp.stat]; rw [objs_set]
      by_cases h : j = i
      · subst h; rw [if_pos rfl]
        have ha' : s j = .clean := ha
        rw [ha'] at hj ⊢; exact hj
      · rw [if_neg h]; exact hj
    · cases hr
  | entries i f =>
    simp only [HOp.run, Option.some.injEq, Prod.mk.injEq] at hr
    obtain ⟨rfl, rfl⟩ := hr
    simp only [HOp.stat]; rw [objs_set, Function.update_apply]
    by_cases h : j = i
    · rw [if_pos h, if_pos h]; rfl
    · rw [if_neg h, if_neg h]; exact hj
  | basis i f =>
    simp only [HOp.run, Option.some.injEq, Prod.mk.injEq] at hr
    obtain ⟨rfl, rfl⟩ := hr
    simp only [HOp.stat]; rw [objs_set, Function.update_apply]
    by_cases h : j = i
    · rw [if_pos h, if_pos h]; rfl
    · rw [if_neg h, if_neg h]; exact hj
  | late i f =>
    simp only [HOp.run, Option.some.injEq, Prod.mk.injEq] at hr
    obtain ⟨rfl, rfl⟩ := hr
    simp only [HOp.stat]; rw [objs_set]
    by_cases h : j = i
    · subst h; rw [if_pos rfl]
      have ha' : s j = .clean := ha
      rw [ha'] at hj ⊢; exact hj
    · rw [if_neg h]; exact hj
  | modify i f =>
    simp only [HOp.run, Option.some.injEq, Prod.mk.injEq] at hr
    obtain ⟨rfl, rfl⟩ := hr
    simp only [HOp.stat]; rw [objs_set, Function.update_apply]
    by_cases h : j = i
    · rw [if_pos h, if_pos h]; rfl
    · rw [if_neg h, if_neg h]; exact hj
  | diagonalize i f =>
    simp only [HOp.run] at hr
    by_cases hc : 1 < (w.objs i).mat.basis.cols.length
    · rw [if_pos hc] at hr
      simp only [Option.some.injEq, Prod.mk.injEq] at hr
      obtain ⟨rfl, rfl⟩ := hr
      simp only [HOp.stat]; rw [objs_set]
      by_cases h : j = i
      · rw [if_pos h]; cases s j
        · rfl
        · exact Or.inl rfl
        · trivial
      · rw [if_neg h]; exact hj
    · rw [if_neg hc] at hr
      simp only [Option.some.injEq, Prod.mk.injEq] at hr
      obtain ⟨rfl, rfl⟩ := hr
      exact hj
  | assign k i =>
    simp only [HOp.run, Option.some.injEq, Prod.mk.injEq] at hr
    obtain ⟨rfl, rfl⟩ := hr
    simp only [HOp.stat]; rw [objs_set, Function.update_apply]
    by_cases h : j = k
    · rw [if_pos h, if_pos h]; exact hs i
    · rw [if_neg h, if_neg h]; exact hj
  | arith k i i' f =>
    simp only [HOp.run, Option.some.injEq, Prod.mk.injEq] at hr
    obtain ⟨rfl, rfl⟩ := hr
    simp only [HOp.stat]; rw [objs_set, Function.update_apply]
    by_cases h : j = k
    · rw [if_pos h, if_pos h]; rfl
    · rw [if_neg h, if_neg h]; exact hj
  | create k m =>
    simp only [HOp.run, Option.some.injEq, Prod.mk.injEq] at hr
    obtain ⟨rfl, rfl⟩ := hr
    simp only [HOp.stat]; rw [objs_set, Function.update_apply]
    by_cases h : j = k
    · rw [if_pos h, if_pos h]; rfl
    · rw [if_neg h, if_neg h]; exact hj
  | serialize i =>
    simp only [HOp.run, Option.some.injEq, Prod.mk.injEq] at hr
    obtain ⟨rfl, rfl⟩ := hr
    simp only [HOp.stat]; rw [objs_set, Function.update_apply]
    by_cases h : j = i
    · subst h; rw [if_pos rfl, if_pos rfl]
      exact says_ser _ _ (says_fresh _ _ _ hj ha)
    · rw [if_neg h, if_neg h]; exact hj
  | deserialize i b =>
    simp only [HOp.run] at hr
    cases hd : HMat.deserialize env.cplx b with
    | ok m =>
      rw [hd] at hr
      simp only [Option.some.injEq, Prod.mk.injEq] at hr
      obtain ⟨rfl, rfl⟩ := hr
      simp only [HOp.stat]; rw [objs_set, Function.update_apply]
      by_cases h : j = i
      · rw [if_pos h, if_pos h]; rw [if_neg (by simp)]; exact Or.inr (Or.inl hd)
      · rw [if_neg h, if_neg h]; exact hj
    | throw =>
      rw [hd] at hr
      simp only [Option.some.injEq, Prod.mk.injEq] at hr
      obtain ⟨rfl, rfl⟩ := hr
      simp only [HOp.stat]; rw [objs_set, Function.update_apply]
      by_cases h : j = i
      · rw [if_pos h, if_pos h]; rw [if_pos trivial]; trivial
      · rw [if_neg h, if_neg h]; exact hj
    | ub => rw [hd] at hr; cases hr
  | save i f =>
    simp only [HOp.run] at hr
    by_cases hw : env.writable f
    · rw [if_pos hw] at hr
      simp only [Option.some.injEq, Prod.mk.injEq] at hr
      obtain ⟨rfl, rfl⟩ := hr
      simp only [HOp.stat]
      rw [Function.update_apply]
      rw [objs_set]
      by_cases h : j = i
      · subst h; rw [if_pos rfl, if_pos rfl]
        exact says_ser _ _ (says_fresh _ _ _ hj ha)
      · rw [if_neg h, if_neg h]; exact hj
    · rw [if_neg hw] at hr; cases hr
  | load i f =>
    simp only [HOp.run] at hr
    cases hf : w.files f with
    | none =>
      rw [hf] at hr
      simp only [Option.some.injEq, Prod.mk.injEq] at hr
      obtain ⟨rfl, rfl⟩ := hr
      simp only [HOp.stat]; rw [if_pos hf]; exact hj
    | some b =>
      rw [hf] at hr
      dsimp only at hr
      simp only [HOp.stat]; rw [if_neg (by rw [hf]; simp)]
      cases hd : HMat.deserialize env.cplx b with
      | ok m =>
        rw [hd] at hr
        simp only [Option.some.injEq, Prod.mk.injEq] at hr
        obtain ⟨rfl, rfl⟩ := hr
        rw [objs_set, Function.update_apply]
        by_cases h : j = i
        · rw [if_pos h, if_pos h]; rw [if_pos rfl]; exact Or.inr (Or.inl hd)
        · rw [if_neg h, if_neg h]; exact hj
      | throw =>
        rw [hd] at hr
        simp only [Option.some.injEq, Prod.mk.injEq] at hr
        obtain ⟨rfl, rfl⟩ := hr
        rw [objs_set, Function.update_apply]
        by_cases h : j = i
        · rw [if_pos h, if_pos h]; rw [if_neg (by simp)]; trivial
        · rw [if_neg h, if_neg h]; exact hj
      | ub => rw [hd] at hr; cases hr

theorem says_run (env : HEnv) (ops : List HOp) : ∀ (w w' : HWorld) (s : ℕ → HStat), (∀ i, (s i).Says env.cplx (w.objs i)) →
    KeepsRules env w s ops → runOps env w ops = some w' → ∀ i, (statAfter env w s ops i).Says env.cplx (w'.objs i) := by
  induction ops with
  | nil =>
    intro w w' s hs _ hr i
    simp only [runOps, Option.some.injEq] at hr
    subst hr; exact hs i
  | cons op ops ih =>
    intro w w' s hs hk hr i
    simp only [runOps] at hr
    cases ho : op.run env w with
    | none => rw [ho] at hr; cases hr
    | some p =>
      obtain ⟨w1, r⟩ := p
      rw [ho] at hr
      dsimp only at hr
      have := ih w1 w' _ (step_says env w w1 r op s hs hk.1 ho) (hk.2 w1 r ho) hr i
      simp only [statAfter, ho]
      exact this

/-! ## Theorems -/

/-- The file that is written is read back as the matrix, and the matrices of the program are unchanged. -/
theorem save_reads (env : HEnv) (w : HWorld) (i : ℕ) (f : String) (hw : env.writable f = true)
    (hf : (w.objs i).Fresh env.cplx) (hg : (w.objs i).mat.FileOk env.cplx) :
    ∃ (w' : HWorld) (b : List Byte), HOp.run env w (.save i f) = some (w', .unit) ∧ w'.files f = some b ∧
      HMat.deserialize env.cplx b = .ok (w.objs i).mat := by
  refine ⟨_, ((w.objs i).ser env.cplx).bytes, by simp only [HOp.run, hw, if_true]; rfl, ?_, ?_⟩
  · simp
  · unfold HObj.ser
    by_cases hb : (w.objs i).bytes = []
    · rw [if_pos hb]; exact storable_round _ _ hg
    · rw [if_neg hb]
      rcases hf with h | h | h
      · exact absurd h hb
      · exact h
      · rw [h]; exact storable_round _ _ hg

theorem files_step (env : HEnv) (w w' : HWorld) (r : HRes) (op : HOp) (f : String) (h : ∀ i, op ≠ .save i f)
    (hr : op.run env w = some (w', r)) : w'.files f = w.files f := by
  cases op with
  | save i g =>
    simp only [HOp.run] at hr
    by_cases hw : env.writable g
    · rw [if_pos hw] at hr
      simp only [Option.some.injEq, Prod.mk.injEq] at hr
      obtain ⟨rfl, rfl⟩ := hr
      have hfg : f ≠ g := by rintro rfl; exact h i rfl
      simp [Function.update_apply, hfg]
    · rw [if_neg hw] at hr; cases hr
  | _ =>
    simp only [HOp.run] at hr
    first
      | (simp only [Option.some.injEq, Prod.mk.injEq] at hr; obtain ⟨rfl, rfl⟩ := hr; rfl)
      | (repeat' split at hr
         all_goals first
          | cases hr; done
          | (simp only [Option.some.injEq, Prod.mk.injEq] at hr; obtain ⟨rfl, rfl⟩ := hr; rfl))

theorem files_run (env : HEnv) (f : String) (ops : List HOp) : ∀ (w w' : HWorld), NoSave f ops →
    runOps env w ops = some w' → w'.files f = w.files f := by
  induction ops with
  | nil => intro w w' _ hr; simp only [runOps, Option.some.injEq] at hr; subst hr; rfl
  | cons op ops ih =>
    intro w w' hn hr
    simp only [runOps] at hr
    cases ho : op.run env w with
    | none => rw [ho] at hr; cases hr
    | some p =>
      obtain ⟨w1, r⟩ := p
      rw [ho] at hr
      rw [ih w1 w' (fun i hi => hn i (List.mem_cons_of_mem _ hi)) hr]
      exact files_step env w w1 r op f (fun i hi => hn i (hi ▸ List.mem_cons_self)) ho

/-- **C107 (partial).** For every history of calls on any number of matrix objects that keeps the three rules: if object `i`,
whose matrix the file format can hold, is saved to `f` (not after a failed load), then after any further history (with or without
the rules) that does not write `f`, loading `f` into any object succeeds and gives the matrix that `i` had when it was saved.
Missing: histories that break the rules (`C107_failed_load_fails`, `C107_compress_fails`, `C107_reference_fails`). -/
theorem C107_saved_is_current_partial (env : HEnv) (w0 w w1 w2 : HWorld) (ops later : List HOp) (i j : ℕ) (f : String) (r : HRes)
    (h0 : w0.Initial) (hk : KeepsRules env w0 (fun _ => .clean) ops) (hr : runOps env w0 ops = some w)
    (hnf : statAfter env w0 (fun _ => .clean) ops i ≠ .failed) (hg : (w.objs i).mat.FileOk env.cplx)
    (hs : HOp.run env w (.save i f) = some (w1, r)) (hn : NoSave f later) (hl : runOps env w1 later = some w2) :
    ∃ w3 : HWorld, HOp.run env w2 (.load j f) = some (w3, .flag true) ∧ (w3.objs j).mat = (w.objs i).mat := by
  have hsay := says_run env ops w0 w (fun _ => .clean) (fun k => by rw [h0 k]; rfl) hk hr i
  have hw : env.writable f = true := by
    by_contra hc
    simp only [HOp.run, hc] at hs
    cases hs
  obtain ⟨w1', b, hs', hb, hd⟩ := save_reads env w i f hw (says_fresh _ _ _ hsay hnf) hg
  rw [hs] at hs'
  simp only [Option.some.injEq, Prod.mk.injEq] at hs'
  obtain ⟨rfl, rfl⟩ := hs'
  have hf := files_run env f later w1 w2 hn hl
  rw [hb] at hf
  refine ⟨w2.set j { w2.objs j with mat := (w.objs i).mat, bytes := b }, ?_, ?_⟩
  · simp only [HOp.run, hf, hd]
  · rw [objs_set, if_pos rfl]

/-- **C107** (nothing else changes a matrix): in every world, a load or deserialization that fails and every serialization, save
and hash leaves the matrices of all objects as they were. -/
theorem C107_matrices_untouched (env : HEnv) (w w' : HWorld) (r : HRes) (op : HOp) (hr : op.run env w = some (w', r))
    (hop : (∃ i, op = .serialize i) ∨ (∃ i f, op = .save i f) ∨ (∃ i f, op = .load i f ∧ r = .flag false) ∨
      (∃ i b, op = .deserialize i b ∧ r = .threw)) (j : ℕ) :
    (w'.objs j).mat = (w.objs j).mat := by
  have hser : ∀ o : HObj, (o.ser env.cplx).mat = o.mat := by
    intro o; unfold HObj.ser; split_ifs <;> rfl
  rcases hop with ⟨i, rfl⟩ | ⟨i, f, rfl⟩ | ⟨i, f, rfl, rfl⟩ | ⟨i, b, rfl, rfl⟩
  · simp only [HOp.run, Option.some.injEq, Prod.mk.injEq] at hr
    obtain ⟨rfl, rfl⟩ := hr
    rw [objs_set]; by_cases h : j = i
    · subst h; rw [if_pos rfl, hser]
    · rw [if_neg h]
  · simp only [HOp.run] at hr
    by_cases hw : env.writable f
    · rw [if_pos hw] at hr
      simp only [Option.some.injEq, Prod.mk.injEq] at hr
      obtain ⟨rfl, rfl⟩ := hr
      rw [objs_set]; by_cases h : j = i
      · subst h; rw [if_pos rfl, hser]
      · rw [if_neg h]
    · rw [if_neg hw] at hr; cases hr
  · simp only [HOp.run] at hr
    cases hf : w.files f with
    | none => rw [hf] at hr; simp only [Option.some.injEq, Prod.mk.injEq] at hr; rw [← hr.1]
    | some b =>
      rw [hf] at hr; dsimp only at hr
      cases hd : HMat.deserialize env.cplx b with
      | ok m => rw [hd] at hr; simp at hr
      | throw =>
        rw [hd] at hr; simp only [Option.some.injEq, Prod.mk.injEq] at hr
        rw [← hr.1, objs_set]; by_cases h : j = i
        · subst h; rw [if_pos rfl]
        · rw [if_neg h]
      | ub => rw [hd] at hr; cases hr
  · simp only [HOp.run] at hr
    cases hd : HMat.deserialize env.cplx b with
    | ok m => rw [hd] at hr; simp at hr
    | throw =>
      rw [hd] at hr; simp only [Option.some.injEq, Prod.mk.injEq] at hr
      rw [← hr.1, objs_set]; by_cases h : j = i
      · subst h; rw [if_pos rfl]
      · rw [if_neg h]
    | ub => rw [hd] at hr; cases hr

/-- **C107** (the program's own sequence): whatever happened before, also after a failed load: if the result of an arithmetic
expression is assigned to object `i`, diagonalized and saved, the file holds the matrix that `i` has in the end. -/
theorem C107_recomputed (env : HEnv) (w w' : HWorld) (i a b : ℕ) (f : String) (g : HMat → HMat → HMat) (d : HMat → HMat)
    (hr : runOps env w [.arith i a b g, .diagonalize i d, .save i f] = some w') :
    w'.files f = some ((w'.objs i).mat.serialize env.cplx) ∧
    (w'.objs i).mat = (if 1 < (g (w.objs a).mat (w.objs b).mat).basis.cols.length then d (g (w.objs a).mat (w.objs b).mat)
      else g (w.objs a).mat (w.objs b).mat) := by
  simp only [runOps, HOp.run] at hr
  rw [objs_set, if_pos rfl] at hr
  dsimp only at hr
  by_cases hc : 1 < (g (w.objs a).mat (w.objs b).mat).basis.cols.length
  · rw [if_pos hc] at hr ⊢
    dsimp only at hr
    by_cases hw : env.writable f
    · rw [if_pos hw] at hr
      simp only [Option.some.injEq] at hr
      subst hr
      dsimp only
      simp [objs_set, HObj.ser, HWorld.set]
    · rw [if_neg hw] at hr; cases hr
  · rw [if_neg hc] at hr ⊢
    dsimp only at hr
    by_cases hw : env.writable f
    · rw [if_pos hw] at hr
      simp only [Option.some.injEq] at hr
      subst hr
      dsimp only
      simp [objs_set, HObj.ser, HWorld.set]
    · rw [if_neg hw] at hr; cases hr

/-- **C107 fails** after a failed load: a file that cannot be read (and is not empty) is written back unchanged by the next `save` of
the object, whatever matrix the object holds, and cannot be loaded again. -/
theorem C107_failed_load_fails (env : HEnv) (w : HWorld) (i j : ℕ) (f g : String) (b : List Byte) (hb : b ≠ [])
    (hf : w.files f = some b) (hd : HMat.deserialize env.cplx b = .throw) (hw : env.writable g = true) :
    ∃ w' w'' : HWorld, runOps env w [.load i f, .save i g] = some w' ∧ (w'.objs i).mat = (w.objs i).mat ∧ w'.files g = some b ∧
      HOp.run env w' (.load j g) = some (w'', .flag false) := by
  have h1 : runOps env w [.load i f, .save i g] = some
      { (w.set i { w.objs i with bytes := b }).set i { w.objs i with bytes := b } with
        files := Function.update w.files g (some b) } := by
    simp only [runOps, HOp.run, hf, hd, hw, if_true]
    rw [objs_set, if_pos rfl]
    unfold HObj.ser
    rw [if_neg hb]
    rfl
  obtain ⟨W, hW⟩ : ∃ W : HWorld, W = { (w.set i { w.objs i with bytes := b }).set i { w.objs i with bytes := b } with
        files := Function.update w.files g (some b) } := ⟨_, rfl⟩
  rw [← hW] at h1
  have hg : W.files g = some b := by rw [hW]; simp
  refine ⟨W, W.set j { W.objs j with bytes := b }, h1, ?_, hg, ?_⟩
  · rw [hW]; dsimp only; rw [objs_set, if_pos rfl]
  · simp only [HOp.run, hg, hd]

/-- `compress` keeps the buffer. -/
theorem compress_keeps (env : HEnv) (w w' : HWorld) (i nb nc : ℕ) (r : HRes) (h : HOp.run env w (.compress i nb nc) = some (w', r)) :
    (w'.objs i).bytes = (w.objs i).bytes ∧ w'.files = w.files := by
  simp only [HOp.run] at h
  split at h
  · simp only [Option.some.injEq, Prod.mk.injEq] at h
    rw [← h.1, objs_set, if_pos rfl]; exact ⟨rfl, rfl⟩
  · cases h

/-- **C107 fails** for `compress` after a serialization: whenever `compress` (after triplets were added) makes a different matrix, the next
`save` writes the old one: what is loaded is the old matrix. -/
theorem C107_compress_fails (env : HEnv) (w w1 w2 w3 : HWorld) (i j nb nc : ℕ) (g : String) (r1 r2 r3 : HRes)
    (hc : (w.objs i).bytes = []) (hg : (w.objs i).mat.FileOk env.cplx)
    (h1 : HOp.run env w (.serialize i) = some (w1, r1)) (h2 : HOp.run env w1 (.compress i nb nc) = some (w2, r2))
    (h3 : HOp.run env w2 (.save i g) = some (w3, r3)) (hne : (w2.objs i).mat ≠ (w.objs i).mat) :
    ∃ w4 : HWorld, HOp.run env w3 (.load j g) = some (w4, .flag true) ∧ (w4.objs j).mat = (w.objs i).mat ∧
      (w4.objs j).mat ≠ (w3.objs i).mat := by
  have hb1 : (w1.objs i).bytes = (w.objs i).mat.serialize env.cplx := by
    simp only [HOp.run, Option.some.injEq, Prod.mk.injEq] at h1
    rw [← h1.1, objs_set, if_pos rfl]; unfold HObj.ser; rw [if_pos hc]
  have hb2 := (compress_keeps env w1 w2 i nb nc r2 h2).1
  rw [hb1] at hb2
  have hm3 := C107_matrices_untouched env w2 w3 r3 _ h3 (Or.inr (Or.inl ⟨i, g, rfl⟩)) i
  have hf3 : w3.files g = some ((w.objs i).mat.serialize env.cplx) := by
    simp only [HOp.run] at h3
    by_cases hw : env.writable g
    · rw [if_pos hw] at h3
      simp only [Option.some.injEq, Prod.mk.injEq] at h3
      rw [← h3.1]
      simp only [Function.update_self]
      unfold HObj.ser
      rw [if_neg (by rw [hb2]; exact ser_bytes_ne _ _), hb2]
    · rw [if_neg hw] at h3; cases h3
  refine ⟨w3.set j { w3.objs j with mat := (w.objs i).mat, bytes := (w.objs i).mat.serialize env.cplx }, ?_, ?_, ?_⟩
  · simp only [HOp.run, hf3, storable_round _ _ hg]
  · rw [objs_set, if_pos rfl]
  · rw [objs_set, if_pos rfl, hm3]; exact fun h => hne h.symm

/-- **C107 fails** for a reference that is kept: if a matrix is changed through a reference obtained before a serialization, the next
`save` writes the old matrix. -/
theorem C107_reference_fails (env : HEnv) (w w3 : HWorld) (i j : ℕ) (g : String) (d : HMat → HMat)
    (hc : (w.objs i).bytes = []) (hg : (w.objs i).mat.FileOk env.cplx) (hne : d (w.objs i).mat ≠ (w.objs i).mat)
    (hr : runOps env w [.serialize i, .late i d, .save i g] = some w3) :
    ∃ w4 : HWorld, HOp.run env w3 (.load j g) = some (w4, .flag true) ∧ (w4.objs j).mat = (w.objs i).mat ∧
      (w3.objs i).mat = d (w.objs i).mat ∧ (w4.objs j).mat ≠ (w3.objs i).mat := by
  simp only [runOps, HOp.run] at hr
  have hser : (w.objs i).ser env.cplx = { w.objs i with bytes := (w.objs i).mat.serialize env.cplx } := by
    unfold HObj.ser; rw [if_pos hc]
  rw [hser] at hr
  by_cases hw : env.writable g
  · rw [if_pos hw] at hr
    simp only [Option.some.injEq] at hr
    have hs2 : ∀ o : HObj, o.bytes = (w.objs i).mat.serialize env.cplx → o.ser env.cplx = o := by
      intro o ho; unfold HObj.ser; rw [if_neg (by rw [ho]; exact ser_bytes_ne _ _)]
    rw [objs_set, if_pos rfl, objs_set, if_pos rfl, hs2 _ rfl] at hr
    have hf3 : w3.files g = some ((w.objs i).mat.serialize env.cplx) := by rw [← hr]; simp
    have hm3 : (w3.objs i).mat = d (w.objs i).mat := by rw [← hr]; dsimp only; rw [objs_set, if_pos rfl]
    refine ⟨w3.set j { w3.objs j with mat := (w.objs i).mat, bytes := (w.objs i).mat.serialize env.cplx }, ?_, ?_, hm3, ?_⟩
    · simp only [HOp.run, hf3, storable_round _ _ hg]
    · rw [objs_set, if_pos rfl]
    · rw [objs_set, if_pos rfl, hm3]; exact fun h => hne h.symm
  · rw [if_neg hw] at hr; cases hr

/-! ## What is added and compressed -/

/-- The stored value at a row and column. -/
def Sparse.stored {V : Type} (m : Sparse V) (r c : ℕ) : Option V :=
  (m.cols[c]?.bind fun col => col.find? (fun e => e.1 == r)).map (·.2)

/-- The values added for a row and column, summed up in the order of the calls. -/
def addedUp (add : HVal → HVal → HVal) (ts : List HTriple) (r c : ℕ) : Option HVal :=
  match (ts.filter fun t => t.1 = r ∧ t.2.1 = c).map (·.2.2) with
  | [] => none
  | v :: vs => some (vs.foldl add v)

/-- Calls of `addBasis` (`true`) and `addEntries` (`false`) in any order. -/
def addCalls (k : ℕ) (l : List (Bool × HTriple)) : List HOp :=
  l.map fun p => if p.1 then .addBasis k p.2.1 p.2.2.1 p.2.2.2 else .addEntries k p.2.1 p.2.2.1 p.2.2.2

/-- The triplets of one kind. -/
def addedTo (kind : Bool) (l : List (Bool × HTriple)) : List HTriple := (l.filter fun p => p.1 == kind).map (·.2)

theorem find_range_filterMap {V : Type} (g : ℕ → Option V) (n r : ℕ) :
    (((List.range n).filterMap fun x => (g x).map fun v => (x, v)).find? fun e => e.1 == r).map (·.2) = if r < n then g r else none := by
  induction n with
  | zero => simp
  | succ n ih =>
    rw [List.range_succ, List.filterMap_append, List.find?_append]
    by_cases h : r < n
    · rw [if_pos h] at ih
      rw [if_pos (by omega)]
      cases hg : g r with
      | none =>
        rw [hg] at ih
        rw [Option.map_eq_none_iff] at ih
        rw [ih]
        cases hn : g n with
        | none => simp [hn]
        | some v =>
          have : ¬ n = r := by omega
          simp [hn, this]
      | some v =>
        rw [hg] at ih
        obtain ⟨e, he, hv⟩ := Option.map_eq_some_iff.mp ih
        rw [he]; simp [hv]
    · rw [if_neg h, Option.map_eq_none_iff] at ih
      rw [ih]
      by_cases h2 : r = n
      · subst h2; rw [if_pos (by omega)]
        cases hg : g r <;> simp [hg]
      · rw [if_neg (by omega)]
        have h3 : ¬ n = r := fun e => h2 e.symm
        cases hg : g n <;> simp [hg, h3]

theorem fold_vals (add : HVal → HVal → HVal) (l : List HTriple) (v : HVal) :
    l.foldl (fun s u => add s u.2.2) v = (l.map (·.2.2)).foldl add v := by
  rw [List.foldl_map]

theorem tripleColumn_eq (add : HVal → HVal → HVal) (rows : ℕ) (ts : List HTriple) (c : ℕ) :
    tripleColumn add rows ts c = (List.range rows).filterMap fun r => (addedUp add ts r c).map fun v => (r, v) := by
  unfold tripleColumn
  congr 1
  funext r
  have hf : (ts.filter fun t => t.1 == r && t.2.1 == c) = ts.filter fun t => t.1 = r ∧ t.2.1 = c := by
    apply List.filter_congr; intro t _; rw [Bool.decide_and]; rfl
  unfold addedUp
  rw [hf]
  cases (ts.filter fun t => t.1 = r ∧ t.2.1 = c) with
  | nil => rfl
  | cons t l => simp only [List.map_cons, Option.map_some]; rw [fold_vals]

theorem stored_triples (add : HVal → HVal → HVal) (rows cols : ℕ) (ts : List HTriple) (m : Sparse HVal)
    (h : fromTriples add rows cols ts = some m) : m.rows = rows ∧ m.cols.length = cols ∧ ∀ r c, m.stored r c = addedUp add ts r c := by
  unfold fromTriples at h
  by_cases ha : ts.all (fun t => decide (t.1 < rows) && decide (t.2.1 < cols)) = true
  · rw [if_pos ha] at h
    simp only [Option.some.injEq] at h
    subst h
    refine ⟨rfl, by simp, ?_⟩
    have hin : ∀ r c, addedUp add ts r c ≠ none → r < rows ∧ c < cols := by
      intro r c hn
      cases hl : (ts.filter fun t => t.1 = r ∧ t.2.1 = c) with
      | nil => exact absurd (by unfold addedUp; rw [hl]; rfl) hn
      | cons t l =>
        have ht : t ∈ ts.filter fun t => t.1 = r ∧ t.2.1 = c := by rw [hl]; simp
        rw [List.mem_filter] at ht
        have h1 := List.all_eq_true.mp ha t ht.1
        have h2 := of_decide_eq_true ht.2
        simp only [Bool.and_eq_true, decide_eq_true_eq] at h1
        rw [h2.1, h2.2] at h1; exact h1
    intro r c
    unfold Sparse.stored
    dsimp only
    by_cases hc : c < cols
    · rw [List.getElem?_map, List.getElem?_range hc]
      simp only [Option.map_some, Option.bind_some]
      rw [tripleColumn_eq, find_range_filterMap]
      by_cases hr : r < rows
      · rw [if_pos hr]
      · rw [if_neg hr]
        by_contra hne
        exact hr (hin r c (fun h => hne h.symm)).1
    · rw [List.getElem?_eq_none (by simpa using hc)]
      simp only [Option.bind_none, Option.map_none]
      by_contra hne
      exact hc (hin r c (fun h => hne h.symm)).2
  · rw [if_neg ha] at h; cases h

theorem addCalls_run (env : HEnv) (k : ℕ) (l : List (Bool × HTriple)) (rest : List HOp) : ∀ (w : HWorld),
    runOps env w (addCalls k l ++ rest) = runOps env (w.set k { w.objs k with
      trBasis := (w.objs k).trBasis ++ addedTo true l, trEntries := (w.objs k).trEntries ++ addedTo false l }) rest := by
  induction l with
  | nil =>
    intro w
    have : w.set k (w.objs k) = w := by simp [HWorld.set]
    simp [addCalls, addedTo, this]
  | cons p l ih =>
    intro w
    obtain ⟨kind, t⟩ := p
    have hset : ∀ (o o' : HObj), (w.set k o).set k o' = w.set k o' := by intro o o'; simp [HWorld.set]
    cases kind with
    | true =>
      simp only [addCalls, List.map_cons, if_true, List.cons_append, runOps, HOp.run]
      have := ih (w.set k { w.objs k with trBasis := (w.objs k).trBasis ++ [(t.1, t.2.1, t.2.2)] })
      simp only [addCalls] at this
      rw [this, objs_set, if_pos rfl, hset]
      simp [addedTo]
    | false =>
      simp only [addCalls, List.map_cons, Bool.false_eq_true, if_false, List.cons_append, runOps, HOp.run]
      have := ih (w.set k { w.objs k with trEntries := (w.objs k).trEntries ++ [(t.1, t.2.1, t.2.2)] })
      simp only [addCalls] at this
      rw [this, objs_set, if_pos rfl, hset]
      simp [addedTo]

/-- **C107** (building a matrix): after any calls of `addBasis` and `addEntries` on a new object and `compress(nBasis, nCoordinates)`, the
matrices have the requested sizes, hold at every row and column the sum of the values added there, and nothing anywhere else. -/
theorem C107_compressed (env : HEnv) (w w' : HWorld) (k nb nc : ℕ) (m : HMat) (l : List (Bool × HTriple))
    (h : runOps env w (.create k m :: (addCalls k l ++ [.compress k nb nc])) = some w') :
    (w'.objs k).mat.entries.rows = nb ∧ (w'.objs k).mat.entries.cols.length = nb ∧
    (w'.objs k).mat.basis.rows = nc ∧ (w'.objs k).mat.basis.cols.length = nb ∧
    (∀ r c, (w'.objs k).mat.entries.stored r c = addedUp env.add (addedTo false l) r c) ∧
    (∀ r c, (w'.objs k).mat.basis.stored r c = addedUp env.add (addedTo true l) r c) := by
  simp only [runOps, HOp.run] at h
  rw [addCalls_run] at h
  simp only [runOps, HOp.run] at h
  rw [objs_set, if_pos rfl, objs_set, if_pos rfl] at h
  simp only [List.nil_append] at h
  cases hb : fromTriples env.add nc nb (addedTo true l) with
  | none => rw [hb] at h; cases h
  | some b =>
    cases he : fromTriples env.add nb nb (addedTo false l) with
    | none => rw [hb, he] at h; cases h
    | some e =>
      rw [hb, he] at h
      simp only [Option.some.injEq] at h
      rw [← h, objs_set, if_pos rfl]
      obtain ⟨h1, h2, h3⟩ := stored_triples _ _ _ _ _ hb
      obtain ⟨h4, h5, h6⟩ := stored_triples _ _ _ _ _ he
      exact ⟨h4, h5, h1, h2, h6, h3⟩

/-- **C107** (building a matrix): the calls work exactly if all coordinates are inside of the matrices; otherwise the behaviour is
undefined. -/
theorem C107_compress_domain (env : HEnv) (w : HWorld) (k nb nc : ℕ) (m : HMat) (l : List (Bool × HTriple)) :
    (∃ w' : HWorld, runOps env w (.create k m :: (addCalls k l ++ [.compress k nb nc])) = some w') ↔
      ∀ p ∈ l, p.2.2.1 < nb ∧ p.2.1 < (if p.1 then nc else nb) := by
  simp only [runOps, HOp.run]
  rw [addCalls_run]
  simp only [runOps, HOp.run]
  rw [objs_set, if_pos rfl, objs_set, if_pos rfl]
  simp only [List.nil_append]
  have hall : ∀ (kind : Bool) (rows : ℕ), (addedTo kind l).all (fun t => decide (t.1 < rows) && decide (t.2.1 < nb)) = true ↔
      ∀ p ∈ l, p.1 = kind → p.2.1 < rows ∧ p.2.2.1 < nb := by
    intro kind rows
    simp only [addedTo, List.all_eq_true, List.mem_map, List.mem_filter, beq_iff_eq, Bool.and_eq_true, decide_eq_true_eq]
    constructor
    · intro h p hp hk; exact h _ ⟨p, ⟨hp, hk⟩, rfl⟩
    · rintro h t ⟨p, ⟨hp, hk⟩, rfl⟩; exact h p hp hk
  unfold fromTriples
  constructor
  · rintro ⟨w', h⟩ p hp
    by_cases h1 : (addedTo true l).all (fun t => decide (t.1 < nc) && decide (t.2.1 < nb)) = true
    · by_cases h2 : (addedTo false l).all (fun t => decide (t.1 < nb) && decide (t.2.1 < nb)) = true
      · have a := (hall true nc).mp h1 p hp
        have b := (hall false nb).mp h2 p hp
        cases hk : p.1 with
        | true => simpa using And.symm (a hk)
        | false => simpa using And.symm (b hk)
      · rw [if_pos h1, if_neg h2] at h; cases h
    · rw [if_neg h1] at h; cases h
  · intro h
    rw [if_pos ((hall true nc).mpr ?_), if_pos ((hall false nb).mpr ?_)]
    · exact ⟨_, rfl⟩
    · intro p hp hk; have := h p hp; simp only [hk, Bool.false_eq_true, if_false] at this; exact this.symm
    · intro p hp hk; have := h p hp; simp only [hk, if_true] at this; exact this.symm

end PI
