import Verif.Sys.HamModel
import Mathlib.Analysis.Complex.Basic

/-!
# SystemBase.cpp: checks of matrices, forgetStatemixing, applySchriefferWolffTransformation

Exact complex arithmetic.  `n` indexes the states, `k` the basis vectors.
-/

namespace PI
open Matrix

variable {n k : Type} [Fintype n] [DecidableEq n] [Fintype k] [DecidableEq k]

/-- `checkIsDiagonal` (SystemBase.cpp:1344-1356): `prune(1e-12, 1)` keeps the entries of absolute value above 1e-12. -/
def diagOK (H : Matrix k k ℂ) : Prop := ∀ i j, ‖H i j‖ > 1e-12 → ¬ i ≠ j

/-- `checkIsUnitary` (SystemBase.cpp:1359-1380): the number of entries that are kept is compared with the number of columns, then every kept entry is
examined. -/
def unitOK (V : Matrix n k ℂ) : Prop :=
  let G := Vᴴ * V
  (Finset.univ.filter fun p : k × k => ‖G p.1 p.2‖ > 1e-12).card = Fintype.card k ∧
  ∀ i j, ‖G i j‖ > 1e-12 → ¬ i ≠ j ∧ ¬ (|(G i j).re - 1| > 1e-12 ∨ |(G i j).im| > 1e-12)

/-! ## forgetStatemixing -/

/-- The inner loop (SystemBase.cpp:1224-1232): the first row of column c whose entry exceeds the threshold. -/
noncomputable def dominantRow {N : ℕ} (V : Matrix (Fin N) k ℂ) (c : k) : Option (Fin N) :=
  (List.finRange N).find? fun r => decide (‖V r c‖ > Real.sqrt 0.5)

/-- `forgetStatemixing` after `diagonalize` (SystemBase.cpp:1217-1240): throws if a column has no entry above the threshold. -/
noncomputable def HSys.forget {N : ℕ} (s : HSys (Fin N) k) : Out (HSys (Fin N) k) :=
  if ((Finset.univ.filter fun c => (dominantRow s.V c).isSome).card) < Fintype.card k then .throw
  else .ok { s with V := fun r c => if dominantRow s.V c = some r then 1 else 0 }

/-! ## applySchriefferWolffTransformation -/

/-- The matrix that sorts the states of system0 into those of the system (SystemBase.cpp:1001-1023); throws if a state is missing. -/
noncomputable def embedStates {σ n0 : Type} [DecidableEq σ] (st : n → σ) (st0 : n0 → σ) : Out (Matrix n n0 ℂ) :=
  open Classical in
  if ∀ i, ∃ r, st r = st0 i then .ok fun r i => if st r = st0 i then 1 else 0 else .throw

/-- The overlaps of the basis vectors with those of system0 (SystemBase.cpp:1031-1032). -/
noncomputable def lowOverlap {k0 : Type} [Fintype k0] (V : Matrix n k ℂ) (B0 : Matrix n k0 ℂ) (c : k) : ℝ := ∑ i, ‖(Vᴴ * B0) c i‖ ^ 2

/-- What `std::nth_element` with the comparison `overlap[a] > overlap[b]` guarantees for the first positions (SystemBase.cpp:1038-1039): different
indices, and no other index has a larger overlap. -/
structure NthLargest {k0 : Type} (ov : k → ℝ) (sel : k0 → k) : Prop where
  inj : Function.Injective sel
  top : ∀ i c, c ∉ Set.range sel → ov c ≤ ov (sel i)

/-- `applySchriefferWolffTransformation(system0)` after `diagonalize` and `system0.buildHamiltonian` (SystemBase.cpp:975-1082). `sel` are the first
entries of `indices` after nth_element, which is undefined if system0 has more basis vectors than the system. `sqrtm` is Eigen's matrix square root
(`none` for a result that contains NaN). `sparseView` without arguments drops exact zeros only. -/
noncomputable def HSys.schriefferWolff {σ n0 k0 : Type} [DecidableEq σ] [Fintype n0] [Fintype k0] [DecidableEq k0] (sqrtm : Matrix n n ℂ → Option (Matrix n n ℂ))
    (st : n → σ) (st0 : n0 → σ) (sel : (k → ℝ) → k0 → k) (s : HSys n k) (s0 : HSys n0 k0) : Out (HSys n k0) :=
  open Classical in
  if ¬ unitOK s.V then .throw
  else if ¬ unitOK s0.V then .throw
  else if ¬ diagOK s0.H then .throw
  else embedStates st st0 >>= fun E =>
    let B0 := E * s0.V
    if Fintype.card k < Fintype.card k0 then .ub else
    let B : Matrix n k0 ℂ := fun r i => s.V r (sel (lowOverlap s.V B0) i)
    let P0 := B0 * B0ᴴ
    let P := B * Bᴴ
    let R0 := 1 - (2 : ℂ) • P0
    let R := 1 - (2 : ℂ) • P
    match sqrtm (R0 * R) with
    | none => .throw
    | some U => .ok (s.applyRight (s.Vᴴ * Uᴴ * P0 * B0))

end PI
