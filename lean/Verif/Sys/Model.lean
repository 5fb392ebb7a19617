import Verif.Basic
import Verif.SysOne.Model
import Mathlib.Data.Complex.BigOperators
import Mathlib.Analysis.Complex.Norm
import Mathlib.Algebra.BigOperators.Group.Finset.Basic
import Mathlib.Analysis.SpecialFunctions.Sqrt

/-!
# SystemBase.cpp: states, basis vectors and how they are selected

Matrices are entry functions with sizes (entries outside the sizes are never read).  An Eigen sparse matrix may
store explicit zeros: where the code iterates over the *stored* entries of a column, the model takes the set of
stored rows as an arbitrary parameter that contains all rows with a non-zero value.
Floating point numbers are reals.
-/

namespace PI

/-- A matrix (Eigen::SparseMatrix). -/
structure Mat where
  rows : ℕ
  cols : ℕ
  val : ℕ → ℕ → ℂ

/-- `A * B`. -/
noncomputable def Mat.mul (A B : Mat) : Mat :=
  ⟨A.rows, B.cols, fun i j => ∑ r ∈ Finset.range A.cols, A.val i r * B.val r j⟩

/-- `A.adjoint()`. -/
noncomputable def Mat.adj (A : Mat) : Mat := ⟨A.cols, A.rows, fun i j => (starRingEnd ℂ) (A.val j i)⟩

/-- `setFromTriplets` (repeated positions add up). -/
noncomputable def Mat.ofTriplets (rows cols : ℕ) (ts : List (ℕ × ℕ × ℂ)) : Mat :=
  ⟨rows, cols, fun i j => ((ts.filter fun t => t.1 = i ∧ t.2.1 = j).map fun t => t.2.2).sum⟩

/-- The stored data of a system (SystemBase.hpp:285-320): enumerated states (idx, state), the coefficient
matrix, the Hamiltonian and the two caches (`none`: size 0). -/
structure SysB (σ : Type) where
  states : List (ℕ × σ)
  V : Mat
  H : Mat
  Vc : Option Mat
  Hc : Option Mat

/-- `applyLeftsideTransformator` (SystemBase.cpp:1434-1442). -/
noncomputable def SysB.applyLeft {σ : Type} (s : SysB σ) (T : Mat) : SysB σ :=
  { s with V := T.mul s.V, Vc := s.Vc.map T.mul }

/-- `applyRightsideTransformator` (SystemBase.cpp:1453-1473), without `transformInteraction`. -/
noncomputable def SysB.applyRight {σ : Type} (s : SysB σ) (T : Mat) : SysB σ :=
  { s with
    V := s.V.mul T
    Vc := s.Vc.map fun A => A.mul T
    H := (T.adj.mul s.H).mul T
    Hc := s.Hc.map fun A => (T.adj.mul A).mul T }

/-- The loop of `removeRestrictedStates` (SystemBase.cpp:1486-1492): new states and transformator
triplets. -/
noncomputable def removeLoop {σ : Type} (ok : ℕ × σ → Bool) : ℕ → List (ℕ × σ) → List (ℕ × σ) × List (ℕ × ℕ × ℂ)
  | _, [] => ([], [])
  | i, e :: es =>
    if ok e then
      ((i, e.2) :: (removeLoop ok (i + 1) es).1, (i, e.1, 1) :: (removeLoop ok (i + 1) es).2)
    else removeLoop ok i es

/-- `removeRestrictedStates` (SystemBase.cpp:1475-1499). -/
noncomputable def SysB.removeStates {σ : Type} (s : SysB σ) (ok : ℕ × σ → Bool) : SysB σ :=
  { s with states := (removeLoop ok 0 s.states).1 }.applyLeft
    (Mat.ofTriplets (removeLoop ok 0 s.states).2.length s.V.rows (removeLoop ok 0 s.states).2)

/-- The triplets `(idx, idx_new++, 1)` of a list of wanted columns (SystemBase.cpp:962-969 and
1585-1599). -/
def selTriplets : ℕ → List ℕ → List (ℕ × ℕ × ℂ)
  | _, [] => []
  | i, x :: xs => (x, i, 1) :: selTriplets (i + 1) xs

/-- Keep the given columns: transformator triplets and `applyRightsideTransformator`
(SystemBase.cpp:1444-1451). -/
noncomputable def SysB.keepCols {σ : Type} (s : SysB σ) (ix : List ℕ) : SysB σ :=
  s.applyRight (Mat.ofTriplets s.V.cols (selTriplets 0 ix).length (selTriplets 0 ix))

/-- `Eigen::Index(idx) >= basisvectors.cols()` for a 64-bit `size_t` (SystemBase.cpp:964): the value is
converted to a signed number. -/
def signed64 (x : ℕ) : ℤ := if x < 2 ^ 63 then x else (x : ℤ) - 2 ^ 64

/-- `constrainBasisvectors` (SystemBase.cpp:944-973) after `buildHamiltonian`.  An index that passes the check
but is not a column is an invalid triplet: undefined behaviour. -/
noncomputable def SysB.constrain {σ : Type} (s : SysB σ) (ix : List ℕ) : Out (SysB σ) :=
  if ix.dedup.length < ix.length then .throw else
  if ix.any (fun x => decide ((s.V.cols : ℤ) ≤ signed64 x)) then .throw else
  if ix.any (fun x => decide (s.V.cols ≤ x)) then .ub else
  .ok (s.keepCols ix)

/-- The squared norm of a column (SystemBase.cpp:1588-1594). -/
noncomputable def Mat.colNorm (A : Mat) (c : ℕ) : ℝ := ∑ r ∈ Finset.range A.rows, Complex.normSq (A.val r c)
/-- The squared norm of a row (SystemBase.cpp:1607-1613). -/
noncomputable def Mat.rowNorm (A : Mat) (r : ℕ) : ℝ := ∑ c ∈ Finset.range A.cols, Complex.normSq (A.val r c)

/-- The restrictions pending on a built system (SystemBase.hpp:285-294): the quantum number test, or `none` if all
ranges are empty, the energy bounds, the norm threshold and whether states are to be added. -/
structure Pending (σ : Type) where
  valid : Option (σ → Bool)
  energyMin : Option ℝ
  energyMax : Option ℝ
  thr : ℝ
  addStates : Bool

/-- `checkIsEnergyValid` (SystemBase.cpp:1413-1419). -/
noncomputable def Pending.energyOk {σ : Type} (p : Pending σ) (e : ℝ) : Bool :=
  (match p.energyMin with | none => true | some a => decide (a < e)) &&
  (match p.energyMax with | none => true | some b => decide (e < b))

/-- First part of `updateEverything`: remove states by quantum numbers (SystemBase.cpp:1562-1576). -/
noncomputable def SysB.updateQn {σ : Type} (s : SysB σ) (p : Pending σ) : SysB σ :=
  match p.valid with
  | none => s
  | some f => s.removeStates fun e => f e.2

/-- The columns that are kept (SystemBase.cpp:1582-1599). -/
noncomputable def SysB.keptCols {σ : Type} (s : SysB σ) (p : Pending σ) : List ℕ :=
  (List.range s.V.cols).filter fun c => p.energyOk (s.H.val c c).re && decide (p.thr < s.V.colNorm c)

/-- Second part of `updateEverything`: remove vectors, then states that barely occur
(SystemBase.cpp:1578-1623). -/
noncomputable def SysB.updateVec {σ : Type} (s : SysB σ) (p : Pending σ) : SysB σ :=
  if p.valid.isNone ∧ p.energyMin.isNone ∧ p.energyMax.isNone then s else
  let s1 := s.keepCols (s.keptCols p)
  s1.removeStates fun e => decide (p.thr < s1.V.rowNorm e.1)

/-- `updateEverything` (SystemBase.cpp:1559-1632) and the emptiness checks of `buildBasis`
(SystemBase.cpp:555-561). -/
noncomputable def SysB.update {σ : Type} (s : SysB σ) (p : Pending σ) : Out (SysB σ) :=
  if p.addStates then .throw else
  if ((s.updateQn p).updateVec p).V.rows = 0 ∨ ((s.updateQn p).updateVec p).V.cols = 0 then .throw else
  .ok ((s.updateQn p).updateVec p)

/-! ## Searching in columns -/

/-- The stored entries of a column, ascending rows (InnerIterator). -/
noncomputable def storedCol (rows : ℕ) (stored : ℕ → Bool) (val : ℕ → ℝ) : List (ℕ × ℝ) :=
  ((List.range rows).filter stored).map fun r => (r, val r)

/-- The loop `if (value > maxval) { row = ...; maxval = value; }` (SystemBase.cpp:375-382, 425-434, 449-456,
1137-1149, 1195-1204): the remembered row (`none`: still uninitialised) and maxval. -/
noncomputable def maxLoop : Option ℕ × ℝ → List (ℕ × ℝ) → Option ℕ × ℝ
  | m, [] => m
  | m, e :: es => maxLoop (if m.2 < e.2 then (some e.1, e.2) else m) es

/-- `getMainStates` for one column (SystemBase.cpp:371-384): reading the row while it is uninitialised is
undefined behaviour. -/
noncomputable def mainRow (rows : ℕ) (stored : ℕ → Bool) (val : ℕ → ℂ) : Out ℕ :=
  match (maxLoop (none, -1) (storedCol rows stored fun r => ‖val r‖)).1 with
  | some r => .ok r
  | none => .ub

/-- The matching of `getConnections` on the overlap matrix (SystemBase.cpp:418-466).  `ov a b` is the overlap,
`stored a b` says whether the entry is stored, `thr` is `sqrt(threshold)`, `none` if it is not a number (every
comparison with it is false). -/
noncomputable def connect (nFrom nTo : ℕ) (stored : ℕ → ℕ → Bool) (ov : ℕ → ℕ → ℝ) (thr : Option ℝ) : List (ℕ × ℕ) :=
  match thr with
  | none => []
  | some t => (List.range nFrom).filterMap fun a =>
    match maxLoop (none, t) (storedCol nTo (stored a) (ov a)) with
    | (some b, m) =>
      if t < m ∧ (maxLoop (none, -1) (storedCol nFrom (fun a => stored a b) (fun a => ov a b))).1 = some a then some (a, b) else none
    | (none, _) => none

/-- `std::sqrt(threshold)`. -/
noncomputable def sqrtOpt (x : ℝ) : Option ℝ := if x < 0 then none else some (Real.sqrt x)

/-- The transformator between the state lists of two systems (SystemBase.cpp:402-413). -/
noncomputable def stateTriplets {σ : Type} [DecidableEq σ] (from_ to_ : List σ) : List (ℕ × ℕ × ℂ) :=
  (to_.zipIdx.filterMap fun e => (from_.idxOf? e.1).map fun i => (i, e.2, 1))

/-- The overlap matrix of `getConnections` (SystemBase.cpp:415-416). -/
noncomputable def overlapMat {σ : Type} [DecidableEq σ] (from_ to_ : List σ) (V W : Mat) : Mat :=
  (V.adj.mul (Mat.ofTriplets from_.length to_.length (stateTriplets from_ to_))).mul W

/-- `getConnections` (SystemBase.cpp:391-468). -/
noncomputable def getConnections {σ : Type} [DecidableEq σ] (from_ to_ : List σ) (V W : Mat) (stored : ℕ → ℕ → Bool)
    (threshold : ℝ) : List (ℕ × ℕ) :=
  connect V.cols W.cols stored (fun a b => ‖(overlapMat from_ to_ V W).val a b‖) (sqrtOpt threshold)

/-- `getBasisvectorIndex` for one state (SystemBase.cpp:1127-1150); `none`: the value `size_t(-1)`. -/
noncomputable def vectorIndex (cols : ℕ) (stored : ℕ → Bool) (val : ℕ → ℂ) : Option ℕ :=
  (maxLoop (none, -1) (storedCol cols stored fun c => ‖val c‖)).1

/-- One step of the greedy assignment (SystemBase.cpp:1191-1211): `ind` maps the position of a searched
state to its basis vector. -/
noncomputable def assignStep (m : ℕ) (stored : ℕ → ℕ → Bool) (ov : ℕ → ℕ → ℝ) (ind : ℕ → Option ℕ) (k : ℕ) : Out (ℕ → Option ℕ) :=
  match (maxLoop (none, -1) ((storedCol m (fun i => stored i k) (fun i => ov i k)).filter fun e => (ind e.1).isNone)).1 with
  | none => .throw
  | some i => .ok (Function.update ind i (some k))

/-- `getBasisvectorIndex` for a list of states (SystemBase.cpp:1152-1214): `rows` are the indices of the searched states.
`perm` is the order that `nth_element` leaves behind (any permutation of the columns with the `m` largest totals first,
`NthOk` below); a position past the end is undefined behaviour. -/
noncomputable def vectorIndices (V : Mat) (rows : List ℕ) (stored : ℕ → ℕ → Bool) (perm : List ℕ) : Out (List (Option ℕ)) :=
  if rows.dedup.length < rows.length then .throw else
  if V.cols < rows.length then .ub else
  match foldOut (assignStep rows.length stored fun i k => Complex.normSq (V.val (rows.getD i 0) k)) (fun _ => none)
      (perm.take rows.length) with
  | .ok ind => .ok ((List.range rows.length).map ind)
  | .throw => .throw
  | .ub => .ub

/-- `overlap_total` (SystemBase.cpp:1178-1180). -/
noncomputable def totalOverlap (V : Mat) (rows : List ℕ) (k : ℕ) : ℝ :=
  ∑ i ∈ Finset.range rows.length, Complex.normSq (V.val (rows.getD i 0) k)

/-- The postcondition of `std::nth_element` with the comparison "larger total overlap" (SystemBase.cpp:1183-1188). -/
def NthOk (V : Mat) (rows : List ℕ) (perm : List ℕ) : Prop :=
  perm.Perm (List.range V.cols) ∧
  ∀ a ∈ perm.take rows.length, ∀ b ∈ perm.drop rows.length, totalOverlap V rows b ≤ totalOverlap V rows a

/-- `getOverlap` without rotation (SystemBase.cpp:260-296): for each basis vector the sum over the given state indices of
the squared modulus of (V† · states). -/
noncomputable def getOverlap (V : Mat) (ix : List ℕ) (k : ℕ) : ℝ :=
  ∑ c ∈ Finset.range ix.length,
    Complex.normSq ((V.adj.mul (Mat.ofTriplets V.rows ix.length (selTriplets 0 ix))).val k c)

/-- The state loop of `add` (SystemBase.cpp:866-881): the combined states and the transformator triplets. -/
noncomputable def addLoop {σ : Type} [DecidableEq σ] : List σ → List (ℕ × σ) → List σ × List (ℕ × ℕ × ℂ)
  | cur, [] => (cur, [])
  | cur, e :: es =>
    match cur.idxOf? e.2 with
    | some r => ((addLoop cur es).1, (r, e.1, 1) :: (addLoop cur es).2)
    | none => ((addLoop (cur ++ [e.2]) es).1, (cur.length, e.1, 1) :: (addLoop (cur ++ [e.2]) es).2)

/-- `conservativeResize` and assignment of the right columns (SystemBase.cpp:888-889, 926-928): new entries of the left
part are zero. -/
noncomputable def glue (rows : ℕ) (A B : Mat) : Mat :=
  ⟨rows, A.cols + B.cols, fun i j => if j < A.cols then (if i < A.rows then A.val i j else 0) else B.val i (j - A.cols)⟩

/-- The shifter (SystemBase.cpp:912-924). -/
noncomputable def shifter (a b : ℕ) : Mat :=
  Mat.ofTriplets (a + b) b ((List.range b).map fun i => (a + i, i, 1))

/-- `getOverlap` for a list of states (SystemBase.cpp:229-258): a wildcard state (`inl`, here its membership test) gives
the indices of all states it contains, a plain state (`inr`) its own index if it is in the basis. -/
def overlapIndices {σ : Type} [DecidableEq σ] (states : List (ℕ × σ)) (qs : List ((σ → Bool) ⊕ σ)) : List ℕ :=
  qs.flatMap fun q =>
    match q with
    | .inl f => (states.filter fun e => f e.2).map Prod.fst
    | .inr st => ((states.find? fun e => e.2 = st).map Prod.fst).toList

/-- The scalar product of column i of A with column j of B, both over the rows 0..n-1 (SystemBase.cpp:902-904). -/
noncomputable def colDot (n : ℕ) (A B : ℕ → ℂ) : ℂ := ∑ q ∈ Finset.range n, (starRingEnd ℂ) (A q) * B q

/-- Is an entry of the product of the left and right columns kept by `pruned(1e-12, 1)`?  (SystemBase.cpp:902-909) -/
noncomputable def notOrthogonal (n a b : ℕ) (V : Mat) : Bool :=
  (List.range a).any fun i => (List.range b).any fun j =>
    decide ((1 / 10 ^ 12 : ℝ) < ‖colDot n (fun q => V.val q i) (fun q => V.val q (a + j))‖)

/-- `add` (SystemBase.cpp:834-942) after `incorporate` and the flag checks: the state in which the object is left, and
whether the call returned normally (`false`: it threw).  The pruning of the orthogonality test drops entries of modulus
at most 1e-12. -/
noncomputable def SysB.addEff {σ : Type} [DecidableEq σ] (s t : SysB σ) : SysB σ × Bool :=
  let r := addLoop (s.states.map Prod.snd) t.states
  let T := Mat.ofTriplets r.1.length t.V.rows r.2
  let s1 : SysB σ := { s with
    states := r.1.zipIdx.map fun e => (e.2, e.1)
    V := glue r.1.length s.V (T.mul t.V) }
  if s.Vc.isSome ≠ t.Vc.isSome then (s1, false) else
  let s2 : SysB σ := { s1 with
    Vc := match s.Vc, t.Vc with
      | some A, some B => some (glue r.1.length A (T.mul B))
      | _, _ => s.Vc }
  if notOrthogonal r.1.length s.V.cols t.V.cols s1.V = true then (s2, false) else
  let S := shifter s.H.rows t.H.rows
  let s3 : SysB σ := { s2 with H := glue (s.H.rows + t.H.rows) s.H (S.mul t.H) }
  if s.Hc.isSome ≠ t.Hc.isSome then (s3, false) else
  ({ s3 with
    Hc := match s.Hc, t.Hc with
      | some A, some B => some (glue (A.rows + B.rows) A (S.mul B))
      | _, _ => s.Hc }, true)

end PI
