import Verif.Pair.Settings

/-! # C72: when the Green tensor is in use -/

namespace PI

/-- Specification: the last call that decides about the Green tensor: an explicit request, a surface, or a distance vector out of the xz-plane. -/
noncomputable def lastGreen : List PairOp → Option Bool
  | [] => none
  | .green b :: ops => (lastGreen ops).or (some b)
  | .surface d :: ops => (lastGreen ops).or (open Classical in if d = dblMax then none else some true)
  | .vector v :: ops => (lastGreen ops).or (open Classical in if v 1 = 0 then none else some true)
  | _ :: ops => lastGreen ops

theorem gt_run (ops : List PairOp) (p : PairParams) : (ops.foldl PairOp.run p).gt = (lastGreen ops).getD p.gt := by
  induction ops generalizing p with
  | nil => rfl
  | cons a ops ih =>
    rw [List.foldl_cons, ih]
    cases a with
    | green b =>
      simp only [lastGreen, PairOp.run, PairParams.enableGT]
      cases lastGreen ops <;> rfl
    | surface d =>
      simp only [lastGreen, PairOp.run, PairParams.setSurface]
      cases lastGreen ops with
      | none =>
        by_cases h : d = dblMax
        · rw [if_neg (by simpa using h), if_pos h]; rfl
        · rw [if_pos (by simpa using h), if_neg h]; rfl
      | some x => rfl
    | vector v =>
      simp only [lastGreen, PairOp.run, PairParams.setVector]
      cases lastGreen ops with
      | none =>
        by_cases h : v 1 = 0
        · simp [h]
        · simp [h]
      | some x => rfl
    | _ => rfl

/-- **C72** (Green tensor): after every history of setters, refused ones included, the Green tensor is in use exactly if the last call that decides about it says so; a new system does not use it. -/
theorem C72_green_flag (ops : List PairOp) : (runPair ops).gt = true ↔ lastGreen ops = some true := by
  have h : (runPair ops).gt = (lastGreen ops).getD false := gt_run ops PairParams.fresh
  rw [h]
  cases lastGreen ops with
  | none => simp
  | some b => simp

/-- Histories: a request, a surface and its removal, a vector out of the plane and a later request. -/
example : lastGreen [.green true, .distance 5] = some true ∧ lastGreen [.surface 3, .surface dblMax] = (if (3 : ℝ) = dblMax then none else some true) ∧
    lastGreen [.vector ![0, 1, 0], .green false] = some false := by
  refine ⟨?_, ?_, ?_⟩ <;> simp [lastGreen]

end PI
