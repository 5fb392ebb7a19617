import Verif.Matfile.Model

/-!
# The objects of class `Hamiltonianmatrix` (Hamiltonianmatrix.cpp), their cached bytes and their files

An object holds two lists of triplets, two sparse matrices and the buffer `bytes`, which is filled by the
first serialization (or by loading a file) and used instead of the matrices from then on, until a function
clears it.  The objects of a program are numbered; files have names.
-/

namespace PI

/-- A value of a matrix: real and imaginary part as bit patterns. -/
abbrev HVal := Dbl × Dbl

/-- A triplet: row, column, value (`Eigen::Triplet`). -/
abbrev HTriple := ℕ × ℕ × HVal

/-- The members of a `Hamiltonianmatrix` (Hamiltonianmatrix.hpp:152-157). -/
structure HObj where
  trBasis : List HTriple
  trEntries : List HTriple
  mat : HMat
  bytes : List Byte

/-- The default constructor (Hamiltonianmatrix.cpp:29-30): empty matrices. -/
def HObj.empty : HObj := ⟨[], [], ⟨⟨0, []⟩, ⟨0, []⟩⟩, []⟩

/-- What does not depend on the program: the scalar type, the addition of two stored values (floating
point), the files that can be opened for writing. -/
structure HEnv where
  cplx : Bool
  add : HVal → HVal → HVal
  writable : String → Bool

/-- One column of `setFromTriplets`: the rows in increasing order, values of equal coordinates added up in
the order of the triplets. -/
def tripleColumn (add : HVal → HVal → HVal) (rows : ℕ) (ts : List HTriple) (c : ℕ) : List (ℕ × HVal) :=
  (List.range rows).filterMap fun r =>
    match ts.filter (fun t => t.1 == r && t.2.1 == c) with
    | [] => none
    | t :: rest => some (r, rest.foldl (fun s u => add s u.2.2) t.2.2)

/-- `resize` and `Eigen::SparseMatrix::setFromTriplets` (Hamiltonianmatrix.cpp:86-89); a triplet outside
of the matrix is written out of bounds (`none`). -/
def fromTriples (add : HVal → HVal → HVal) (rows cols : ℕ) (ts : List HTriple) : Option (Sparse HVal) :=
  if ts.all (fun t => decide (t.1 < rows) && decide (t.2.1 < cols)) then
    some ⟨rows, (List.range cols).map (tripleColumn add rows ts)⟩
  else none

/-- `doSerialization` (Hamiltonianmatrix.cpp:341-405): only if the buffer is empty. -/
def HObj.ser (cplx : Bool) (o : HObj) : HObj :=
  if o.bytes = [] then { o with bytes := o.mat.serialize cplx } else o

/-- The objects and files of a program. -/
structure HWorld where
  objs : ℕ → HObj
  files : String → Option (List Byte)

/-- Replace an object. -/
def HWorld.set (w : HWorld) (i : ℕ) (o : HObj) : HWorld := { w with objs := Function.update w.objs i o }

/-- The calls.  The arithmetic of a call is a function of the matrices (any function). -/
inductive HOp where
  /-- `addBasis` (Hamiltonianmatrix.cpp:75-78). -/
  | addBasis (i r c : ℕ) (v : HVal)
  /-- `addEntries` (Hamiltonianmatrix.cpp:80-83). -/
  | addEntries (i r c : ℕ) (v : HVal)
  /-- `compress(nBasis, nCoordinates)` (Hamiltonianmatrix.cpp:85-93). -/
  | compress (i nBasis nCoord : ℕ)
  /-- Non-constant `entries()` and a write through the reference it returns (Hamiltonianmatrix.cpp:43-47). -/
  | entries (i : ℕ) (f : Sparse HVal → Sparse HVal)
  /-- Non-constant `basis()` and a write through the reference it returns (Hamiltonianmatrix.cpp:54-58). -/
  | basis (i : ℕ) (f : Sparse HVal → Sparse HVal)
  /-- A write through a reference that `entries()` or `basis()` returned earlier. -/
  | late (i : ℕ) (f : HMat → HMat)
  /-- `applyCutoff`, the three `removeUnnecessary…`, `operator+=`, `operator-=`
  (Hamiltonianmatrix.cpp:115-138, 160-250, 317-332). -/
  | modify (i : ℕ) (f : HMat → HMat)
  /-- `diagonalize` (Hamiltonianmatrix.cpp:268-288). -/
  | diagonalize (i : ℕ) (f : HMat → HMat)
  /-- Copy: `operator=`, the copy constructor, `findSubs` (Hamiltonianmatrix.cpp:95-100). -/
  | assign (k i : ℕ)
  /-- `k = i + j` and the other operators, which work on a copy of the left operand (Hamiltonianmatrix.cpp:290-316). -/
  | arith (k i j : ℕ) (f : HMat → HMat → HMat)
  /-- A new object made of two matrices: constructor, `abs`, `changeBasis`, `getBlock`
  (Hamiltonianmatrix.cpp:32-35, 102-113, 252-266). -/
  | create (k : ℕ) (m : HMat)
  /-- `serialize()`, and `hashEntries()`, `hashBasis()`, which hash the same bytes (Hamiltonianmatrix.cpp:334-339, 479-491). -/
  | serialize (i : ℕ)
  /-- `deserialize` (Hamiltonianmatrix.cpp:408-412). -/
  | deserialize (i : ℕ) (b : List Byte)
  /-- `save` (Hamiltonianmatrix.cpp:493-507). -/
  | save (i : ℕ) (f : String)
  /-- `load` (Hamiltonianmatrix.cpp:509-540). -/
  | load (i : ℕ) (f : String)

/-- What a call returns. -/
inductive HRes where
  | unit
  | threw
  | bytes (b : List Byte)
  | flag (b : Bool)
deriving DecidableEq

/-- One call; `none`: undefined behaviour (Hamiltonianmatrix.cpp:32-113, 115-288, 290-412, 479-540).
Simplification: a file is read completely, and there is always enough memory. -/
def HOp.run (env : HEnv) (w : HWorld) : HOp → Option (HWorld × HRes)
  | .addBasis i r c v =>
    let o := w.objs i
    some (w.set i { o with trBasis := o.trBasis ++ [(r, c, v)] }, .unit)
  | .addEntries i r c v =>
    let o := w.objs i
    some (w.set i { o with trEntries := o.trEntries ++ [(r, c, v)] }, .unit)
  | .compress i nBasis nCoord =>
    let o := w.objs i
    match fromTriples env.add nCoord nBasis o.trBasis, fromTriples env.add nBasis nBasis o.trEntries with
    | some b, some e => some (w.set i ⟨[], [], ⟨e, b⟩, o.bytes⟩, .unit)
    | _, _ => none
  | .entries i f =>
    let o := w.objs i
    some (w.set i { o with mat := { o.mat with entries := f o.mat.entries }, bytes := [] }, .unit)
  | .basis i f =>
    let o := w.objs i
    some (w.set i { o with mat := { o.mat with basis := f o.mat.basis }, bytes := [] }, .unit)
  | .late i f =>
    let o := w.objs i
    some (w.set i { o with mat := f o.mat }, .unit)
  | .modify i f =>
    let o := w.objs i
    some (w.set i { o with mat := f o.mat, bytes := [] }, .unit)
  | .diagonalize i f =>
    let o := w.objs i
    if 1 < o.mat.basis.cols.length then some (w.set i { o with mat := f o.mat, bytes := [] }, .unit)
    else some (w, .unit)
  | .assign k i => some (w.set k (w.objs i), .unit)
  | .arith k i j f =>
    let o := w.objs i
    some (w.set k { o with mat := f o.mat (w.objs j).mat, bytes := [] }, .unit)
  | .create k m => some (w.set k ⟨[], [], m, []⟩, .unit)
  | .serialize i =>
    let o := (w.objs i).ser env.cplx
    some (w.set i o, .bytes o.bytes)
  | .deserialize i b =>
    let o := w.objs i
    match HMat.deserialize env.cplx b with
    | .ok m => some (w.set i { o with mat := m, bytes := b }, .unit)
    | .throw => some (w.set i { o with bytes := b }, .threw)
    | .ub => none
  | .save i f =>
    if env.writable f then
      let o := (w.objs i).ser env.cplx
      some ({ w.set i o with files := Function.update w.files f (some o.bytes) }, .unit)
    else none
  | .load i f =>
    let o := w.objs i
    match w.files f with
    | none => some (w, .flag false)
    | some b =>
      match HMat.deserialize env.cplx b with
      | .ok m => some (w.set i { o with mat := m, bytes := b }, .flag true)
      | .throw => some (w.set i { o with bytes := b }, .flag false)
      | .ub => none

/-- A history of calls. -/
def runOps (env : HEnv) : HWorld → List HOp → Option HWorld
  | w, [] => some w
  | w, op :: ops =>
    match op.run env w with
    | some (w', _) => runOps env w' ops
    | none => none

/-- A program at its start: no matrices yet, any files. -/
def HWorld.Initial (w : HWorld) : Prop := ∀ i, w.objs i = HObj.empty

end PI
