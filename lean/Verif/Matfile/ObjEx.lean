import Verif.Matfile.ObjProps

/-!
# C107: concrete cases
-/

namespace PI

/-- Real scalars, an addition, every file can be written. -/
def hexEnv : HEnv := ⟨false, fun a b => (a.1 + b.1, 0), fun _ => true⟩

/-- A program at its start, with a corrupt file. -/
def hexW : HWorld := ⟨fun _ => HObj.empty, fun f => if f = "bad" then some [7] else none⟩

/-- A 2×2 matrix in the unit basis, built by the calls of a user; two values are added at one place. -/
def hexBuild : List HOp :=
  [.create 0 HObj.empty.mat, .addBasis 0 0 0 (1, 0), .addEntries 0 0 0 (5, 0), .addBasis 0 1 1 (1, 0), .addEntries 0 1 1 (3, 0),
    .addEntries 0 1 1 (4, 0), .compress 0 2 2]

/-- The matrix built. -/
def hexMat : HMat := ⟨⟨2, [[(0, (5, 0))], [(1, (7, 0))]]⟩, ⟨2, [[(0, (1, 0))], [(1, (1, 0))]]⟩⟩

theorem hexBuild_run (w : HWorld) : runOps hexEnv w hexBuild = some (w.set 0 ⟨[], [], hexMat, []⟩) := by
  have hset : ∀ (o o' : HObj), (w.set 0 o).set 0 o' = w.set 0 o' := by intro o o'; simp [HWorld.set]
  have h1 : fromTriples hexEnv.add 2 2 [((0 : ℕ), (0 : ℕ), ((1, 0) : HVal)), (1, 1, (1, 0))] = some hexMat.basis := by decide +kernel
  have h2 : fromTriples hexEnv.add 2 2 [((0 : ℕ), (0 : ℕ), ((5, 0) : HVal)), (1, 1, (3, 0)), (1, 1, (4, 0))] = some hexMat.entries := by
    decide +kernel
  simp only [hexBuild, runOps, HOp.run, objs_set, if_true, hset, List.nil_append, List.cons_append]
  rw [h1, h2]

theorem hexMat_fileOk : hexMat.FileOk false := by
  refine ⟨?_, ?_, ?_, ?_, ?_, ?_⟩
  · refine ⟨by decide, by decide, by decide, ?_⟩
    intro e he; simp [hexMat] at he; rcases he with rfl | rfl <;> decide
  · refine ⟨by decide, by decide, by decide, ?_⟩
    intro e he; simp [hexMat] at he; rcases he with rfl | rfl <;> decide
  · intro _ e he; simp [hexMat] at he; rcases he with rfl | rfl <;> rfl
  · intro _ e he; simp [hexMat] at he; rcases he with rfl | rfl <;> rfl
  · right; decide
  · right; decide

/-- Built, serialized, changed through `entries()`, changed back: the rules are kept and the object may be saved. -/
example : let ops := hexBuild ++ [.serialize 0, .entries 0 fun m => { m with cols := m.cols.reverse }]
    hexW.Initial ∧ KeepsRules hexEnv hexW (fun _ => .clean) ops ∧ statAfter hexEnv hexW (fun _ => .clean) ops 0 ≠ .failed := by
  refine ⟨fun _ => rfl, ?_, ?_⟩
  · simp only [hexBuild, List.cons_append, List.nil_append, KeepsRules, HOp.Allowed]
    simp [HOp.stat]
  · simp only [statAfter, hexBuild, List.cons_append, List.nil_append]
    simp only [HOp.run, objs_set, if_true, List.nil_append, List.cons_append]
    have hset : ∀ (o o' : HObj), (hexW.set 0 o).set 0 o' = hexW.set 0 o' := by intro o o'; simp [HWorld.set]
    have h1 : fromTriples hexEnv.add 2 2 [((0 : ℕ), (0 : ℕ), ((1, 0) : HVal)), (1, 1, (1, 0))] = some hexMat.basis := by decide +kernel
    have h2 : fromTriples hexEnv.add 2 2 [((0 : ℕ), (0 : ℕ), ((5, 0) : HVal)), (1, 1, (3, 0)), (1, 1, (4, 0))] = some hexMat.entries := by
      decide +kernel
    simp only [HObj.empty, List.nil_append, h1, h2, HOp.stat]
    simp

/-- The whole round: what was built is saved, and loaded into another object. -/
example : ∃ w : HWorld, runOps hexEnv hexW (hexBuild ++ [.save 0 "f", .load 1 "f"]) = some w ∧ (w.objs 1).mat = hexMat := by
  have happ : ∀ (a b : List HOp) (w : HWorld), runOps hexEnv w (a ++ b) = (runOps hexEnv w a).bind fun w' => runOps hexEnv w' b := by
    intro a
    induction a with
    | nil => intro b w; rfl
    | cons op a ih =>
      intro b w
      simp only [List.cons_append, runOps]
      cases op.run hexEnv w with
      | none => rfl
      | some p => exact ih b p.1
  rw [happ, hexBuild_run]
  simp only [Option.bind_some, runOps]
  obtain ⟨w1, b, h1, h2, h3⟩ := save_reads hexEnv (hexW.set 0 ⟨[], [], hexMat, []⟩) 0 "f" rfl
    (by rw [objs_set, if_pos rfl]; exact Or.inl rfl) (by rw [objs_set, if_pos rfl]; exact hexMat_fileOk)
  rw [objs_set, if_pos rfl] at h3
  rw [h1]
  dsimp only
  simp only [HOp.run, h2]
  rw [h3]
  refine ⟨_, rfl, ?_⟩
  rw [objs_set, if_pos rfl]

/-- A corrupt file: one byte. -/
example : hexW.files "bad" = some [7] ∧ ([7] : List Byte) ≠ [] ∧ HMat.deserialize hexEnv.cplx [7] = .throw := by
  refine ⟨by simp [hexW], by simp, ?_⟩
  rfl

/-- `compress` after a serialization makes a different matrix: the conditions of `C107_compress_fails`. -/
example : ∃ w1 w2 w3 : HWorld, let w := hexW.set 0 ⟨[], [(0, 0, (9, 0))], hexMat, []⟩
    (w.objs 0).bytes = [] ∧ (w.objs 0).mat.FileOk hexEnv.cplx ∧ HOp.run hexEnv w (.serialize 0) = some (w1, .bytes (hexMat.serialize false)) ∧
    HOp.run hexEnv w1 (.compress 0 2 2) = some (w2, .unit) ∧ HOp.run hexEnv w2 (.save 0 "g") = some (w3, .unit) ∧
    (w2.objs 0).mat ≠ (w.objs 0).mat := by
  have h1 : fromTriples hexEnv.add 2 2 [] = some ⟨2, [[], []]⟩ := by decide +kernel
  have h2 : fromTriples hexEnv.add 2 2 [((0 : ℕ), (0 : ℕ), ((9, 0) : HVal))] = some ⟨2, [[(0, (9, 0))], []]⟩ := by decide +kernel
  have h3 : ∀ w2 : HWorld, ∃ w3 : HWorld, HOp.run hexEnv w2 (.save 0 "g") = some (w3, .unit) := fun w2 => ⟨_, rfl⟩
  obtain ⟨w3, h3⟩ := h3 (((hexW.set 0 ⟨[], [(0, 0, (9, 0))], hexMat, []⟩).set 0 ⟨[], [(0, 0, (9, 0))], hexMat, hexMat.serialize false⟩).set 0
      ⟨[], [], ⟨⟨2, [[(0, (9, 0))], []]⟩, ⟨2, [[], []]⟩⟩, hexMat.serialize false⟩)
  refine ⟨(hexW.set 0 ⟨[], [(0, 0, (9, 0))], hexMat, []⟩).set 0 ⟨[], [(0, 0, (9, 0))], hexMat, hexMat.serialize false⟩,
    ((hexW.set 0 ⟨[], [(0, 0, (9, 0))], hexMat, []⟩).set 0 ⟨[], [(0, 0, (9, 0))], hexMat, hexMat.serialize false⟩).set 0
      ⟨[], [], ⟨⟨2, [[(0, (9, 0))], []]⟩, ⟨2, [[], []]⟩⟩, hexMat.serialize false⟩, w3, ?_, ?_, ?_, ?_, h3, ?_⟩
  · rw [objs_set, if_pos rfl]
  · rw [objs_set, if_pos rfl]; exact hexMat_fileOk
  · simp only [HOp.run]; rw [objs_set, if_pos rfl]; simp [HObj.ser, hexEnv]
  · simp only [HOp.run]; rw [objs_set, if_pos rfl]; dsimp only; rw [h1, h2]
  · rw [objs_set, if_pos rfl, objs_set, if_pos rfl]
    intro h
    have := congrArg (fun m : HMat => m.basis.cols.length + m.basis.cols.flatten.length) h
    revert this; decide

end PI
