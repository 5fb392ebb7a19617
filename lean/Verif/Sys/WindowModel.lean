import Mathlib.LinearAlgebra.Matrix.Hermitian
import Mathlib.LinearAlgebra.Matrix.ConjTranspose
import Mathlib.Analysis.Complex.Basic

/-!
# SystemBase.cpp: `diagonalize(energy_lower_bound, energy_upper_bound)` (compiled with MKL)

The Hamiltonian is a list of columns, each a list of (row, value); `compress` gives the three arrays of Eigen's compressed storage.  FEAST is a parameter.  Without MKL the
method throws at once (SystemBase.cpp:678-683).  Pruning (threshold ≠ 0) is not modelled.
-/

namespace PI

/-- Columns of a sparse matrix: stored entries (row, value). -/
abbrev SpCols := List (List (ℕ × ℂ))

/-- The arrays `outerIndexPtr`, `innerIndexPtr`, `valuePtr`. -/
structure SpArr where
  outer : List ℕ
  inner : List ℕ
  vals : List ℂ

/-- Start of every column, and the end of the last one. -/
def offsets (a : ℕ) : SpCols → List ℕ
  | [] => [a]
  | c :: cs => a :: offsets (a + c.length) cs

/-- `makeCompressed` (SystemBase.cpp:611). -/
def compress (cols : SpCols) : SpArr := ⟨offsets 0 cols, cols.flatten.map (·.1), cols.flatten.map (·.2)⟩

/-- `hamiltonian = hamiltonian.transpose()` (SystemBase.cpp:610), for a matrix with n rows. -/
def transposeCols (n : ℕ) (cols : SpCols) : SpCols :=
  (List.range n).map fun i => cols.zipIdx.flatMap fun c => (c.1.filter fun e => e.1 = i).map fun e => (c.2, e.2)

/-- The loops over `outerIndexPtr` and `innerIndexPtr` (SystemBase.cpp:612-617). -/
def SpArr.shift (A : SpArr) : SpArr := ⟨A.outer.map (· + 1), A.inner.map (· + 1), A.vals⟩

/-- The arrays given to FEAST (SystemBase.cpp:609-617). -/
def feastArrays (n : ℕ) (cols : SpCols) : SpArr := (compress (transposeCols n cols)).shift

/-- The entry of a matrix. -/
noncomputable def colsEntry (cols : SpCols) (i j : ℕ) : ℂ := (((cols.getD j []).filter fun e => e.1 = i).map (·.2)).sum

/-- Eigen's iterator over column k of the stored arrays: `none` if it reads beyond them. -/
def SpArr.col? (A : SpArr) (k : ℕ) : Option (List (ℕ × ℂ)) :=
  match A.outer[k]?, A.outer[k + 1]? with
  | some a, some b => (List.range' a (b - a)).mapM fun p =>
    match A.inner[p]?, A.vals[p]? with
    | some r, some v => some (r, v)
    | _, _ => none
  | _, _ => none

/-- `checkIsDiagonal` (SystemBase.cpp:1343-1356). -/
def colsDiagonal (cols : SpCols) : Prop := ∀ (k : ℕ) (c : List (ℕ × ℂ)), cols[k]? = some c → ∀ e ∈ c, 1e-12 < ‖e.2‖ → e.1 = k

/-- `diagonal_val[k]` (SystemBase.cpp:583-594). -/
noncomputable def diagVal (k : ℕ) (c : List (ℕ × ℂ)) : ℝ := c.foldl (fun acc e => if e.1 = k then e.2.re else acc) 0

/-- `diagonal_max[k]` (SystemBase.cpp:578, 588-590). -/
noncomputable def diagMax (k : ℕ) (c : List (ℕ × ℂ)) : ℝ := c.foldl (fun acc e => if e.1 = k then acc else max acc ‖e.2‖) 0

/-- `m0` (SystemBase.cpp:596-607). -/
noncomputable def feastM0 (a b : ℝ) (cols : SpCols) : ℕ :=
  open Classical in
  let d := cols.zipIdx.map fun c => (diagVal c.2 c.1, diagMax c.2 c.1)
  (d.countP fun x => decide (x.1 < b ∧ x.1 > a)) + d.countP fun x => decide ((x.1 ≥ b ∨ x.1 ≤ a) ∧ x.1 < b + x.2 ∧ x.1 > a - x.2)

/-- What FEAST returns: `none` if `info` is not zero, otherwise the number of eigenvalues, the eigenvalues and the eigenvectors. -/
structure FeastRes (n : ℕ) where
  m : ℕ
  e : Fin m → ℝ
  X : Matrix (Fin n) (Fin m) ℂ

/-- What the call leaves behind. -/
inductive WinOut (r n : ℕ) where
  | same
  | done (m : ℕ) (V : Matrix (Fin r) (Fin m) ℂ) (H : Matrix (Fin m) (Fin m) ℂ)
  | failed (H : SpArr)

/-- `diagonalize(energy_lower_bound, energy_upper_bound)` after `buildHamiltonian` (SystemBase.cpp:569-677). -/
noncomputable def diagonalizeWindow {r n : ℕ} (feast : SpArr → ℝ → ℝ → ℕ → Option (FeastRes n)) (V : Matrix (Fin r) (Fin n) ℂ) (cols : SpCols) (a b : ℝ) : WinOut r n :=
  open Classical in
  if colsDiagonal cols then .same
  else
    let A := feastArrays n cols
    match feast A a b (feastM0 a b cols) with
    | none => .failed A
    | some res => .done res.m (V * res.X) (Matrix.diagonal fun i => (res.e i : ℂ))

end PI
