import Verif.Basic
import Mathlib.Data.List.Basic
import Mathlib.Data.Int.Log
import Mathlib.Algebra.Order.Round
import Mathlib.Data.Rat.Floor

/-!
# Serializable.hpp, the matrix files of Hamiltonianmatrix.cpp, the file protocol of HamiltonianOne/Two.cpp
and serialization_eigen.hpp

Numbers are stored as their memory images (little endian).  A `double` is its 64-bit pattern.
`&v[0]` of an empty vector and `&*end` (both only used as empty ranges) are taken as harmless.
-/

namespace PI

/-- `byte_t` (Serializable.hpp:30). -/
abbrev Byte := Fin 256

/-- `k` bytes of a number, little endian (the memory image copied by `Serializer::serialize`,
Serializable.hpp:150-154). -/
def enc : ℕ → ℕ → List Byte
  | 0, _ => []
  | k + 1, v => ⟨v % 256, Nat.mod_lt _ (by decide)⟩ :: enc k (v / 256)

/-- The number with a given memory image (`reinterpret_cast` in `deserialize`, Serializable.hpp:157-374). -/
def dec : List Byte → ℕ
  | [] => 0
  | b :: bs => b.val + 256 * dec bs

/-- The registered element types (Serializable.hpp:45-56). -/
inductive Ty where
  | i8 | i16 | i32 | i64 | u8 | u16 | u32 | u64 | f32 | f64 | chr | bool
deriving DecidableEq, Repr

/-- `type_ids` (Serializable.hpp:45-56). -/
def Ty.id : Ty → ℕ
  | .i8 => 1008 | .i16 => 1016 | .i32 => 1032 | .i64 => 1064
  | .u8 => 1108 | .u16 => 1116 | .u32 => 1132 | .u64 => 1164
  | .f32 => 2032 | .f64 => 2064 | .chr => 3000 | .bool => 4000

/-- `sizeof` of the element types. -/
def Ty.size : Ty → ℕ
  | .i8 => 1 | .i16 => 2 | .i32 => 4 | .i64 => 8
  | .u8 => 1 | .u16 => 2 | .u32 => 4 | .u64 => 8
  | .f32 => 4 | .f64 => 8 | .chr => 1 | .bool => 1

/-- The chain of `if (type == …)` in `deserialize` (Serializable.hpp:171-259). -/
def Ty.ofId (n : ℕ) : Option Ty :=
  if n = 1008 then some .i8 else if n = 1016 then some .i16 else if n = 1032 then some .i32
  else if n = 1064 then some .i64 else if n = 1108 then some .u8 else if n = 1116 then some .u16
  else if n = 1132 then some .u32 else if n = 1164 then some .u64 else if n = 2032 then some .f32
  else if n = 2064 then some .f64 else if n = 3000 then some .chr else if n = 4000 then some .bool
  else none

/-- A buffered item (`buffer_*`, Serializable.hpp:101-118): a scalar or a vector of elements of one type,
each element by its memory image. -/
structure Item where
  vec : Bool
  ty : Ty
  elems : List (List Byte)
deriving DecidableEq, Repr

/-- One round of the loop of `Serializer::save` (Serializable.hpp:75-83).  The count is converted to
`int32_t`. -/
def Item.save (i : Item) : List Byte :=
  (if i.vec then enc 2 Ty.i32.id ++ enc 4 i.elems.length else []) ++ enc 2 i.ty.id ++ i.elems.flatten

/-- `Serializer::save` (Serializable.hpp:65-91). -/
def saveItems (is : List Item) : List Byte := (is.map Item.save).flatten

/-- `num` consecutive elements of a given size. -/
def chunks (size : ℕ) : ℕ → List Byte → List (List Byte)
  | 0, _ => []
  | n + 1, bs => bs.take size :: chunks size n (bs.drop size)

/-- `deserialize(data, num)` (Serializable.hpp:157-374): type tag, bounds check, copy.  A byte count above
the pointer range makes the bounds check itself undefined. -/
def readRaw (num : ℕ) (bs : List Byte) : Out ((Ty × List (List Byte)) × List Byte) :=
  if bs.length < 2 then .throw else
  match Ty.ofId (dec (bs.take 2)) with
  | none => .throw
  | some ty =>
    let r := bs.drop 2
    if 2 ^ 63 ≤ ty.size * num then .ub
    else if r.length < ty.size * num then .throw
    else .ok ((ty, chunks ty.size num r), r.drop (ty.size * num))

/-- Conversion of the count that was read to `size_t` (Serializable.hpp:127-128).  Negative counts become
huge; a count stored as a floating point number never occurs: both are not specified here (`none`). -/
def countOf (ty : Ty) (b : List Byte) : Option ℕ :=
  match ty with
  | .i8 => if dec b < 2 ^ 7 then some (dec b) else none
  | .i16 => if dec b < 2 ^ 15 then some (dec b) else none
  | .i32 => if dec b < 2 ^ 31 then some (dec b) else none
  | .i64 => if dec b < 2 ^ 63 then some (dec b) else none
  | .u8 | .u16 | .u32 | .u64 => some (dec b)
  | _ => none

/-- `operator>>` (Serializable.hpp:120-130). -/
def readItem (vec : Bool) (bs : List Byte) : Out (Item × List Byte) :=
  if vec then
    match readRaw 1 bs with
    | .ok ((ty, cs), r) =>
      match countOf ty cs.flatten with
      | none => .ub
      | some n =>
        match readRaw n r with
        | .ok ((ty, cs), r) => .ok (⟨true, ty, cs⟩, r)
        | .throw => .throw
        | .ub => .ub
    | .throw => .throw
    | .ub => .ub
  else
    match readRaw 1 bs with
    | .ok ((ty, cs), r) => .ok (⟨false, ty, cs⟩, r)
    | .throw => .throw
    | .ub => .ub

/-- A sequence of `>>`; the booleans say which targets are vectors. -/
def readItems : List Bool → List Byte → Out (List Item × List Byte)
  | [], bs => .ok ([], bs)
  | v :: vs, bs =>
    match readItem v bs with
    | .ok (i, r) =>
      match readItems vs r with
      | .ok (is, r) => .ok (i :: is, r)
      | .throw => .throw
      | .ub => .ub
    | .throw => .throw
    | .ub => .ub

/-! ## Sparse matrices -/

/-- A sparse matrix, column by column; each stored entry is a row index and a value (real and imaginary
part as bit patterns).  (`Eigen::SparseMatrix`, column major.) -/
structure Sparse (V : Type) where
  rows : ℕ
  cols : List (List (ℕ × V))
deriving DecidableEq

/-- `outerIndexPtr()` after `makeCompressed()`: running totals of the column lengths, starting with 0. -/
def outerOf {β : Type} (cols : List (List β)) : List ℕ :=
  cols.foldl (fun acc c => acc ++ [acc.getLast?.getD 0 + c.length]) [0]

/-- Eigen's `finalize()`: walk back over the zeros at the end of the outer index array, then fill the
walked positions with the number of entries. -/
def finalizeOuter (outer : List ℕ) (size : ℕ) : List ℕ :=
  let k := (outer.reverse.takeWhile (· == 0)).length
  outer.take (outer.length - k) ++ List.replicate k size

/-- The columns of a compressed matrix with given arrays (reads `outer[j] .. outer[j+1]`). -/
def columnsOf {β : Type} (outer : List ℕ) (entries : List β) : List (List β) :=
  (outer.zip outer.tail).map fun p => (entries.drop p.1).take (p.2 - p.1)

/-- A 64-bit pattern. -/
abbrev Dbl := Fin (2 ^ 64)

/-- The bits of the flag byte (Hamiltonianmatrix.hpp:42-43). -/
def complexFlag : ℕ := 2

/-- Items of one matrix (Hamiltonianmatrix.cpp:346-363, 385-393): flags, rows, columns, values (real,
then imaginary parts for complex scalars), row indices, outer indices *without the last one*. -/
def matItems (cplx : Bool) (m : Sparse (Dbl × Dbl)) : List Item :=
  [⟨false, .u8, [enc 1 (if cplx then complexFlag else 0)]⟩,
   ⟨false, .i32, [enc 4 m.rows]⟩,
   ⟨false, .i32, [enc 4 m.cols.length]⟩,
   ⟨true, .f64, m.cols.flatten.map fun e => enc 8 e.2.1⟩] ++
  (if cplx then [⟨true, .f64, m.cols.flatten.map fun e => enc 8 e.2.2⟩] else []) ++
  [⟨true, .i32, m.cols.flatten.map fun e => enc 4 e.1⟩,
   ⟨true, .i32, (outerOf m.cols).dropLast.map fun n => enc 4 n⟩]

/-- `Hamiltonianmatrix`: entries and basis. -/
structure HMat where
  entries : Sparse (Dbl × Dbl)
  basis : Sparse (Dbl × Dbl)

/-- `doSerialization` (Hamiltonianmatrix.cpp:341-405). -/
def HMat.serialize (cplx : Bool) (h : HMat) : List Byte :=
  saveItems (matItems cplx h.entries ++ matItems cplx h.basis)

/-- The values read for one matrix. -/
structure RawMat where
  flags : ℕ
  rows : ℕ
  cols : ℕ
  real : List ℕ
  imag : List ℕ
  indices : List ℕ
  indptr : List ℕ

/-- The `>>` chain for one matrix (Hamiltonianmatrix.cpp:429-437): whether the imaginary parts are read
depends on the flag byte just read. -/
def readMat (bs : List Byte) : Out (RawMat × List Byte) :=
  match readItems [false, false, false, true] bs with
  | .ok ([f, r, c, re], rest) =>
    let flags := dec f.elems.flatten
    let cplx := flags / 2 % 2 == 1
    match readItems (if cplx then [true, true, true] else [true, true]) rest with
    | .ok (tail, rest) =>
      let im := if cplx then (tail[0]?.map (·.elems.map dec)).getD [] else []
      let k := if cplx then 1 else 0
      .ok (⟨flags, dec r.elems.flatten, dec c.elems.flatten, re.elems.map dec, im,
        (tail[k]?.map (·.elems.map dec)).getD [], (tail[k + 1]?.map (·.elems.map dec)).getD []⟩, rest)
    | .throw => .throw
    | .ub => .ub
  | .ok (_, _) => .throw
  | .throw => .throw
  | .ub => .ub

/-- Rebuilding a matrix (Hamiltonianmatrix.cpp:455-465, `mergeComplex` Hamiltonianmatrix.hpp:117-132):
arrays of inconsistent sizes are copied out of bounds. -/
def RawMat.build (cplx : Bool) (r : RawMat) : Out (Sparse (Dbl × Dbl)) :=
  if (cplx && r.imag.length < r.real.length) || r.real.length < r.indices.length || r.cols + 1 < r.indptr.length
  then .ub else
  let vals : List (Dbl × Dbl) := (r.real.zip (r.imag ++ List.replicate r.real.length 0)).map
    fun p => (⟨p.1 % 2 ^ 64, Nat.mod_lt _ (by decide)⟩, ⟨p.2 % 2 ^ 64, Nat.mod_lt _ (by decide)⟩)
  let outer := finalizeOuter (r.indptr ++ List.replicate (r.cols + 1 - r.indptr.length) 0) r.real.length
  .ok ⟨r.rows, columnsOf outer ((r.indices ++ List.replicate (r.real.length - r.indices.length) 0).zip vals)⟩

/-- `doDeserialization` (Hamiltonianmatrix.cpp:414-477). -/
def HMat.deserialize (cplx : Bool) (bs : List Byte) : Out HMat :=
  match readMat bs with
  | .ok (e, rest) =>
    match readMat rest with
    | .ok (b, _) =>
      if (e.flags / 2 % 2 == 1) != cplx || (b.flags / 2 % 2 == 1) != cplx then .throw else
      match e.build cplx, b.build cplx with
      | .ok e, .ok b => .ok ⟨e, b⟩
      | _, _ => .ub
    | .throw => .throw
    | .ub => .ub
  | .throw => .throw
  | .ub => .ub

/-! ## The cache files of one configuration -/

/-- The two files of a configuration: the `.json` file (`some none`: incomplete) and the `.mat` file. -/
structure CacheFiles (Conf : Type) where
  json : Option (Option Conf)
  mat : Option (List Byte)

/-- How a run ends: with a matrix loaded from the file, a matrix it computed, an exception or undefined
behaviour. -/
inductive RunEnd (M : Type) where
  | loaded (m : M)
  | computed (m : M)
  | failed
  | ub

/-- One run of the step for a configuration (HamiltonianOne.cpp:569-624, HamiltonianTwo.cpp:790-856): the
states of the files after each write (the program may die after any of them) and how it ends.  `comp`
is the matrix the program computes, `ser`/`load` write and read a `.mat` file.  Bytes reach the file one
after the other.  (One process at a time.) -/
def runStep {Conf M : Type} [DecidableEq Conf] (ser : M → List Byte) (load : List Byte → Out M) (conf : Conf)
    (comp : M) (d : CacheFiles Conf) : List (CacheFiles Conf) × RunEnd M :=
  let write (d : CacheFiles Conf) : List (CacheFiles Conf) :=
    (ser comp).inits.map fun p => { d with mat := some p }
  match d.mat, d.json with
  | some _, some none => ([], .failed)
  | some b, some (some c) =>
    if conf = c then
      match load b with
      | .ok m => ([], .loaded m)
      | .throw => (write d, .computed comp)
      | .ub => ([], .ub)
    else
      let d' := { d with json := some (some conf) }
      ([{ d with json := some none }, d'] ++ write d', .computed comp)
  | _, _ =>
    let d' := { d with json := some (some conf) }
    ([{ d with json := some none }, d'] ++ write d', .computed comp)

/-- Files after a run that died after `k` writes. -/
def crashAfter {Conf M : Type} [DecidableEq Conf] (ser : M → List Byte) (load : List Byte → Out M) (conf : Conf)
    (comp : M) (d : CacheFiles Conf) (k : ℕ) : CacheFiles Conf :=
  (((runStep ser load conf comp d).1.take k).getLast?).getD d

/-! ## The key of the matrix cache -/

/-- The number a `double` is printed as by `std::ostringstream` with its default precision of six
significant digits (`Configuration::value::operator<<`, ConfParser.hpp:49-55).  The text and this number determine
each other.  (Ties are rounded up here; the example below does not depend on it.) -/
def print6 (x : ℚ) : ℚ :=
  if x = 0 then 0 else
  let s : ℚ := 10 ^ (5 - Int.log 10 |x|)
  round (x * s) / s

/-- One step with the cache tables `cache_one`/`cache_two` (HamiltonianOne.cpp:520-624, HamiltonianTwo.cpp:712-856):
the fields or the distance are written into the configuration, a row with the same texts is looked up, its
file is loaded; otherwise the matrix is computed and stored.  `H` is the matrix for given numbers. -/
def cachedStep {M : Type} (H : List ℚ → M) (db : List (List ℚ × M)) (p : List ℚ) : M × List (List ℚ × M) :=
  match db.find? (fun r => r.1 == p.map print6) with
  | some r => (r.2, db)
  | none => (H p, db ++ [(p.map print6, H p)])

/-- The cache after a history of steps. -/
def cacheAfter {M : Type} (H : List ℚ → M) (ps : List (List ℚ)) : List (List ℚ × M) :=
  ps.foldl (fun db p => (cachedStep H db p).2) []

/-! ## serialization_eigen.hpp -/

/-- What a cereal archive holds for a sparse matrix (serialization_eigen.hpp:55-87): inner size, outer
size, number of entries, the three arrays (the outer one with all outerSize + 1 elements). -/
structure SparseArchive (V : Type) where
  innerSize : ℕ
  outerSize : ℕ
  valuesSize : ℕ
  inner : List ℕ
  outer : List ℕ
  vals : List V

/-- Saving (serialization_eigen.hpp:60-83). -/
def Sparse.archive {V : Type} (m : Sparse V) : SparseArchive V :=
  ⟨m.rows, m.cols.length, m.cols.flatten.length, m.cols.flatten.map (·.1), outerOf m.cols, m.cols.flatten.map (·.2)⟩

/-- Loading (serialization_eigen.hpp:65-87): `resize`, `resizeNonZeros`, the three arrays, `finalize`.
Arrays are read with the sizes of the header. -/
def SparseArchive.restore {V : Type} (a : SparseArchive V) : Sparse V :=
  let outer := finalizeOuter (a.outer.take (a.outerSize + 1)) a.valuesSize
  ⟨a.innerSize, columnsOf outer ((a.inner.take a.valuesSize).zip (a.vals.take a.valuesSize))⟩

/-- A dense matrix, column major. -/
structure Dense (V : Type) where
  rows : ℕ
  cols : ℕ
  data : List V
deriving DecidableEq

/-- What a cereal archive holds for a dense matrix (serialization_eigen.hpp:89-109). -/
def Dense.archive {V : Type} (m : Dense V) : ℕ × ℕ × List V := (m.rows, m.cols, m.data)

/-- Loading a dense matrix: `resize`, then rows * cols numbers. -/
def denseRestore {V : Type} (a : ℕ × ℕ × List V) : Dense V := ⟨a.1, a.2.1, a.2.2.take (a.1 * a.2.1)⟩

end PI
