import Verif.Basic
import Mathlib.Data.List.Basic
import Mathlib.Algebra.BigOperators.Group.List.Basic
import Mathlib.Algebra.Order.BigOperators.Group.List
import Mathlib.Data.Int.Basic
import Mathlib.Tactic.Ring
import Mathlib.Tactic.Linarith

/-!
# NumpyUtils.hpp: conversion between C++ buffers and numpy arrays (C57, C77)

The Python objects themselves (reference counts, the interpreter) are not modelled.
-/

namespace PI

/-- Conversion to a 32 bit `int`. -/
def intWrap (x : ℤ) : ℤ := (x + 2147483648) % 4294967296 - 2147483648

/-- Multiplication of two `int`; a product outside of the range of `int` is undefined behaviour. -/
def intMul (a b : ℤ) : Out ℤ := if a * b ≤ 2147483647 then (if -2147483648 ≤ a * b then .ok (a * b) else .ub) else .ub

/-- `std::accumulate(dims..., int{1}, a * b)` (NumpyUtils.hpp:114): the dimensions are converted to `int`. -/
def dimProduct (dims : List ℤ) : Out ℤ :=
  dims.foldl (fun acc d => acc >>= fun a => intMul a (intWrap d)) (.ok 1)

/-- `check_array_sanity` (NumpyUtils.hpp:105-116). -/
def checkSanity (len nd : ℤ) (dims : List ℤ) : Out Unit :=
  if len < 1 then .throw else
  if nd ≠ dims.length then .throw else
  dimProduct dims >>= fun p => if p < len then .throw else .ok ()

/-- An element of a numpy array: a value, memory that was never written, or memory that does not belong to the buffer. -/
inductive Cell (α : Type) where
  | val (a : α)
  | uninit
  | foreign
deriving DecidableEq

/-- A numpy array (Fortran order): shape, whether it owns its memory, and its elements in memory order. -/
structure NdArray (α : Type) where
  shape : List ℤ
  owned : Bool
  cell : ℕ → Cell α

/-- Number of elements. -/
def NdArray.count {α : Type} (a : NdArray α) : ℤ := a.shape.prod

/-- The template parameter `view_or_copy` (NumpyUtils.hpp:47). -/
inductive ViewOrCopy where
  | view
  | copy
deriving DecidableEq

/-- `internal::convert` with `convert_impl` (NumpyUtils.hpp:131-204).  A negative dimension makes numpy return a null pointer,
which is used afterwards; `memcpy` of more elements than the destination has is undefined behaviour. -/
def npConvert {α : Type} (v : ViewOrCopy) (buf : List α) (nd : ℤ) (dims : List ℤ) : Out (NdArray α) :=
  let len := intWrap buf.length
  checkSanity len nd dims >>= fun _ =>
  if dims.any (· < 0) then .ub else
  match v with
  | .view => .ok ⟨dims, false, fun k => match buf[k]? with | some x => .val x | none => .foreign⟩
  | .copy =>
    if dims.prod < len then .ub else
    .ok ⟨dims, true, fun k => if (k : ℤ) < len then (match buf[k]? with | some x => .val x | none => .foreign) else .uninit⟩

/-- The overloads for pointers, vectors, `std::vector` and `std::array` (NumpyUtils.hpp:236-312). -/
def npVector {α : Type} (v : ViewOrCopy) (buf : List α) : Out (NdArray α) := npConvert v buf 1 [buf.length]

/-- The overload for dense matrices (NumpyUtils.hpp:252-259); Eigen stores them column by column. -/
def npMatrix {α : Type} (v : ViewOrCopy) (rows cols : ℕ) (m : ℕ → ℕ → α) : Out (NdArray α) :=
  npConvert v ((List.range (rows * cols)).map fun k => m (k % rows) (k / rows)) 2 [rows, cols]

/-- A compressed sparse matrix: `outerIndexPtr`, `innerIndexPtr`, `valuePtr` and the shape. -/
structure Csc (α : Type) where
  rows : ℤ
  cols : ℤ
  outer : List ℤ
  inner : List ℤ
  vals : List α

/-- `sparse_impl` (NumpyUtils.hpp:327-357): the arguments `data`, `indices`, `indptr` of `csc_matrix`. -/
def npSparse {α : Type} (v : ViewOrCopy) (compressed : Bool) (s : Csc α) : Out (NdArray α × NdArray ℤ × NdArray ℤ) :=
  if compressed = false then .throw else
  npVector v s.outer >>= fun indptr =>
  npVector v s.inner >>= fun indices =>
  npVector v s.vals >>= fun data => .ok (data, indices, indptr)

/-- `as` for dense matrices after the checks of order, alignment and type (NumpyUtils.hpp:448-456): the numbers of rows and columns
and the elements column by column; `dims[0]` of an array without dimensions is a read outside of the shape. -/
def npAsMatrix {α : Type} (a : NdArray α) : Out (ℤ × ℤ × (ℕ → ℕ → Cell α)) :=
  if 2 < a.shape.length then .throw else
  match a.shape with
  | [] => .ub
  | [r] => .ok (r, 1, fun i j => a.cell (i + r.toNat * j))
  | r :: c :: _ => .ok (r, c, fun i j => a.cell (i + r.toNat * j))

/-- `as` for vectors (NumpyUtils.hpp:478-487). -/
def npAsVector {α : Type} (a : NdArray α) : Out (ℤ × (ℕ → Cell α)) :=
  if 1 < a.shape.length then .throw else
  match a.shape with
  | [] => .ub
  | r :: _ => .ok (r, a.cell)

/-- An integer array of Python, with elements of four or eight bytes. -/
structure IntArray where
  wide : Bool
  vals : List ℤ

/-- `reinterpret_cast<StorageIndex *>(PyArray_DATA(...))` for a little-endian machine: the bytes are read as 32 bit numbers,
whatever their type is (NumpyUtils.hpp:540-541). -/
def IntArray.asInt32 (a : IntArray) : List ℤ :=
  if a.wide then a.vals.flatMap fun x => [intWrap x, intWrap (x / 4294967296)] else a.vals

/-- `as` for a `csc_matrix` (NumpyUtils.hpp:508-548): the arrays of the resulting map. -/
def npAsSparse {α : Type} (rows cols : ℤ) (indptr indices : IntArray) (data : List α) : Csc α :=
  ⟨rows, cols, indptr.asInt32, indices.asInt32, data⟩

/-- The value of a compressed sparse matrix at a position (the format of Eigen and of scipy): the stored entries of column `j` are
those between `outer j` and `outer (j + 1)`. -/
def Csc.entry {α : Type} [Zero α] [Add α] (s : Csc α) (i : ℤ) (j : ℕ) : α :=
  (((List.range s.vals.length).filter fun k : ℕ => decide (s.outer.getD j 0 ≤ ((k : ℕ) : ℤ) ∧ ((k : ℕ) : ℤ) < s.outer.getD (j + 1) 0 ∧ s.inner.getD k 0 = i)).map
    fun k : ℕ => s.vals.getD k 0).foldr (· + ·) 0

/-! ## Lemmas -/

theorem intWrap_small {x : ℤ} (h0 : -(2147483648) ≤ x) (h1 : x < 2147483648) : intWrap x = x := by
  unfold intWrap; omega

theorem intMul_ok {a b c : ℤ} (h : a * b = c) (h0 : 0 ≤ c) (h1 : c < 2147483648) : intMul a b = .ok c := by
  unfold intMul
  rw [h, if_pos (by omega), if_pos (by omega)]

theorem npVector_ok {α : Type} (v : ViewOrCopy) (buf : List α) (h0 : buf ≠ []) (h1 : (buf.length : ℤ) < 2147483648) :
    ∃ a, npVector v buf = .ok a ∧ a.shape = [(buf.length : ℤ)] ∧ ∀ k (hk : k < buf.length), a.cell k = .val buf[k] := by
  have hl : 0 < buf.length := List.length_pos_iff.2 h0
  have hw : intWrap (buf.length : ℤ) = buf.length := intWrap_small (by omega) (by omega)
  have hc : checkSanity (buf.length : ℤ) 1 [(buf.length : ℤ)] = .ok () := by
    unfold checkSanity dimProduct
    rw [if_neg (by omega), if_neg (by simp)]
    simp only [List.foldl_cons, List.foldl_nil, Out.ok_bind, hw]
    rw [intMul_ok (one_mul _) (by omega) (by omega)]
    simp
  unfold npVector npConvert
  dsimp only
  rw [hw, hc]
  simp only [Out.ok_bind]
  have hn : ([(buf.length : ℤ)].any fun x => decide (x < 0)) = false := by simp
  rw [hn]
  cases v with
  | view =>
    refine ⟨_, rfl, rfl, fun k hk => ?_⟩
    simp [hk]
  | copy =>
    simp only [List.prod_cons, List.prod_nil, mul_one, lt_self_iff_false, if_false, Bool.false_eq_true]
    refine ⟨_, rfl, rfl, fun k hk => ?_⟩
    have : (k : ℤ) < (buf.length : ℤ) := by omega
    simp [this, hk]

/-! ## C57 -/

/-- **C57** (all overloads for one-dimensional data): the array has exactly the elements of the buffer. -/
theorem C57_vector {α : Type} (v : ViewOrCopy) (buf : List α) (h0 : buf ≠ []) (h1 : (buf.length : ℤ) < 2147483648) :
    ∃ a, npVector v buf = .ok a ∧ a.count = buf.length ∧ ∀ k (hk : k < buf.length), a.cell k = .val buf[k] := by
  obtain ⟨a, ha, hs, hc⟩ := npVector_ok v buf h0 h1
  exact ⟨a, ha, by unfold NdArray.count; rw [hs]; simp, hc⟩

/-- **C57** (dense matrices): the array has the shape of the matrix and, in Fortran order, exactly its elements. -/
theorem C57_matrix {α : Type} (v : ViewOrCopy) (rows cols : ℕ) (m : ℕ → ℕ → α) (h0 : 0 < rows * cols) (h1 : ((rows * cols : ℕ) : ℤ) < 2147483648) :
    ∃ a, npMatrix v rows cols m = .ok a ∧ a.shape = [(rows : ℤ), (cols : ℤ)] ∧ a.count = (rows * cols : ℕ) ∧
      ∀ i j, i < rows → j < cols → a.cell (i + rows * j) = .val (m i j) := by
  have hr : 0 < rows := Nat.pos_of_mul_pos_right h0
  have hcp : 0 < cols := Nat.pos_of_mul_pos_left h0
  have r1 : rows ≤ rows * cols := Nat.le_mul_of_pos_right _ hcp
  have c1 : cols ≤ rows * cols := Nat.le_mul_of_pos_left _ hr
  have hl : ((List.range (rows * cols)).map fun k => m (k % rows) (k / rows)).length = rows * cols := by simp
  have hw : intWrap ((rows * cols : ℕ) : ℤ) = (rows * cols : ℕ) := intWrap_small (by omega) (by omega)
  have hwr : intWrap (rows : ℤ) = rows := intWrap_small (by omega) (by omega)
  have hwc : intWrap (cols : ℤ) = cols := intWrap_small (by omega) (by omega)
  have hc : checkSanity ((rows * cols : ℕ) : ℤ) 2 [(rows : ℤ), (cols : ℤ)] = .ok () := by
    unfold checkSanity dimProduct
    rw [if_neg (by omega), if_neg (by simp)]
    have e : (rows : ℤ) * (cols : ℤ) = ((rows * cols : ℕ) : ℤ) := by push_cast; ring
    simp only [List.foldl_cons, List.foldl_nil, Out.ok_bind, hwr, hwc]
    rw [intMul_ok (one_mul _) (by omega) (by omega)]
    simp only [Out.ok_bind]
    rw [intMul_ok e (by omega) (by omega)]
    simp
  have hn : ([(rows : ℤ), (cols : ℤ)].any fun x => decide (x < 0)) = false := by simp
  have idx : ∀ i j, i < rows → j < cols → i + rows * j < rows * cols ∧ (i + rows * j) % rows = i ∧ (i + rows * j) / rows = j := by
    intro i j hi hj
    refine ⟨?_, ?_, ?_⟩
    · have : rows * j + rows ≤ rows * cols := by rw [← Nat.mul_succ]; exact Nat.mul_le_mul_left _ hj
      omega
    · rw [Nat.add_mul_mod_self_left, Nat.mod_eq_of_lt hi]
    · rw [Nat.add_mul_div_left _ _ hr, Nat.div_eq_of_lt hi, Nat.zero_add]
  unfold npMatrix npConvert
  dsimp only
  rw [hl, hw, hc]
  simp only [Out.ok_bind]
  rw [hn]
  have cnt : ([(rows : ℤ), (cols : ℤ)] : List ℤ).prod = ((rows * cols : ℕ) : ℤ) := by simp
  cases v with
  | view =>
    refine ⟨_, rfl, rfl, cnt, fun i j hi hj => ?_⟩
    obtain ⟨h1, h2, h3⟩ := idx i j hi hj
    simp [h1, h2, h3]
  | copy =>
    simp only [cnt, lt_self_iff_false, if_false, Bool.false_eq_true]
    refine ⟨_, rfl, rfl, cnt, fun i j hi hj => ?_⟩
    obtain ⟨h1, h2, h3⟩ := idx i j hi hj
    have : ((i + rows * j : ℕ) : ℤ) < ((rows * cols : ℕ) : ℤ) := by exact_mod_cast h1
    simp only [this, if_true]
    simp [h1, h2, h3]

/-- **C57** (copies, for all dimensions): a copy never contains memory outside of the buffer; elements beyond the data are not
initialised. -/
theorem C57_copy_partial {α : Type} (buf : List α) (nd : ℤ) (dims : List ℤ) (a : NdArray α) (h1 : (buf.length : ℤ) < 2147483648)
    (h : npConvert .copy buf nd dims = .ok a) :
    (∀ k, a.cell k ≠ .foreign) ∧ (buf.length : ℤ) ≤ a.count ∧ ∀ k (hk : k < buf.length), a.cell k = .val buf[k] := by
  have hw : intWrap (buf.length : ℤ) = buf.length := intWrap_small (by omega) (by omega)
  unfold npConvert at h
  dsimp only at h
  rw [hw] at h
  cases hs : checkSanity (buf.length : ℤ) nd dims with
  | throw => rw [hs] at h; simp at h
  | ub => rw [hs] at h; simp at h
  | ok u =>
    rw [hs] at h
    simp only [Out.ok_bind] at h
    split_ifs at h with h2 h3
    injection h with h
    subst h
    refine ⟨fun k => ?_, ?_, fun k hk => ?_⟩
    · dsimp only
      split_ifs with h4
      · have : k < buf.length := by omega
        simp [this]
      · simp
    · unfold NdArray.count; dsimp only; omega
    · have : (k : ℤ) < (buf.length : ℤ) := by omega
      simp [this, hk]

example : ∃ a, npConvert .copy [1, 2, 3] 2 [2, 2] = .ok a ∧ a.cell 3 = .uninit := ⟨_, rfl, rfl⟩

/-- **C57** does not hold for views with given dimensions: the comparison is inverted, so dimensions larger than the buffer are
accepted ("requested dimension is larger than data") and the array exposes foreign memory. -/
theorem C57_view_fails : ∃ (buf : List ℕ) (nd : ℤ) (dims : List ℤ) (a : NdArray ℕ),
    npConvert .view buf nd dims = .ok a ∧ (buf.length : ℤ) < a.count ∧ a.cell 1 = .foreign :=
  ⟨[7], 1, [2], _, rfl, by decide, rfl⟩

/-- The harmless case, an array over a part of the buffer, is the one that is refused. -/
theorem C57_part_refused {α : Type} (v : ViewOrCopy) (buf : List α) (n : ℕ) (h1 : (buf.length : ℤ) < 2147483648) (hn : n < buf.length) :
    npConvert v buf 1 [(n : ℤ)] = .throw := by
  have hw : intWrap (buf.length : ℤ) = buf.length := intWrap_small (by omega) (by omega)
  have hwn : intWrap (n : ℤ) = n := intWrap_small (by omega) (by omega)
  have hc : checkSanity (buf.length : ℤ) 1 [(n : ℤ)] = .throw := by
    unfold checkSanity dimProduct
    rw [if_neg (by omega), if_neg (by simp)]
    simp only [List.foldl_cons, List.foldl_nil, Out.ok_bind, hwn]
    rw [intMul_ok (one_mul _) (by omega) (by omega)]
    simp only [Out.ok_bind]
    rw [if_pos (by omega)]
  unfold npConvert
  dsimp only
  rw [hw, hc]
  rfl

example : npConvert .view [1, 2, 3] 1 [2] = .throw := C57_part_refused .view [1, 2, 3] 2 (by norm_num) (by norm_num)

/-- For matrices with 2^31 elements or more the length and the product of the dimensions do not fit into `int`: for 65536 x 65536
elements the product is undefined behaviour before numpy is asked. -/
theorem C57_huge_product_fails : dimProduct [65536, 65536] = .ub := by decide +kernel

/-! ## C77 -/

/-- **C77** (dense matrices): a matrix converted to numpy and back is the same matrix. -/
theorem C77_matrix {α : Type} (v : ViewOrCopy) (rows cols : ℕ) (m : ℕ → ℕ → α) (h0 : 0 < rows * cols) (h1 : ((rows * cols : ℕ) : ℤ) < 2147483648) :
    ∃ a f, npMatrix v rows cols m = .ok a ∧ npAsMatrix a = .ok ((rows : ℤ), (cols : ℤ), f) ∧
      ∀ i j, i < rows → j < cols → f i j = .val (m i j) := by
  obtain ⟨a, ha, hs, _, hc⟩ := C57_matrix v rows cols m h0 h1
  refine ⟨a, fun i j => a.cell (i + (rows : ℤ).toNat * j), ha, ?_, fun i j hi hj => ?_⟩
  · unfold npAsMatrix
    rw [hs]
    simp
  · rw [Int.toNat_natCast]
    exact hc i j hi hj

/-- **C77** (vectors). -/
theorem C77_vector {α : Type} (v : ViewOrCopy) (buf : List α) (h0 : buf ≠ []) (h1 : (buf.length : ℤ) < 2147483648) :
    ∃ a f, npVector v buf = .ok a ∧ npAsVector a = .ok ((buf.length : ℤ), f) ∧ ∀ k (hk : k < buf.length), f k = .val buf[k] := by
  obtain ⟨a, ha, hs, hc⟩ := npVector_ok v buf h0 h1
  refine ⟨a, a.cell, ha, ?_, hc⟩
  unfold npAsVector
  rw [hs]
  simp

/-- **C77** (sparse matrices): the three arrays handed to `csc_matrix` hold exactly the compressed storage of the matrix, provided
it has at least one stored entry. -/
theorem C77_sparse_partial {α : Type} (v : ViewOrCopy) (s : Csc α) (ho : s.outer ≠ []) (hv : s.vals ≠ []) (hi : s.inner.length = s.vals.length)
    (h1 : (s.vals.length : ℤ) < 2147483648) (h2 : (s.outer.length : ℤ) < 2147483648) :
    ∃ d i p, npSparse v true s = .ok (d, i, p) ∧
      (d.count = s.vals.length ∧ ∀ k (hk : k < s.vals.length), d.cell k = .val s.vals[k]) ∧
      (i.count = s.inner.length ∧ ∀ k (hk : k < s.inner.length), i.cell k = .val s.inner[k]) ∧
      (p.count = s.outer.length ∧ ∀ k (hk : k < s.outer.length), p.cell k = .val s.outer[k]) := by
  have hin : s.inner ≠ [] := by
    intro h
    rw [h] at hi
    exact hv (List.length_eq_zero_iff.1 hi.symm)
  obtain ⟨p, hp, cp⟩ := C57_vector v s.outer ho h2
  obtain ⟨i, hi', ci⟩ := C57_vector v s.inner hin (by omega)
  obtain ⟨d, hd, cd⟩ := C57_vector v s.vals hv h1
  refine ⟨d, i, p, ?_, cd, ci, cp⟩
  unfold npSparse
  rw [hp, hi', hd]
  rfl

example : ∃ d i p, npSparse .copy true (⟨2, 2, [0, 1, 2], [0, 1], [5, 6]⟩ : Csc ℤ) = .ok (d, i, p) := ⟨_, _, _, rfl⟩

/-- **C77** does not hold for matrices without stored entries (the zero matrix): the conversion throws. -/
theorem C77_zero_matrix_fails {α : Type} (v : ViewOrCopy) (n : ℕ) (hn : (n : ℤ) + 1 < 2147483648) :
    npSparse v true (⟨n, n, List.replicate (n + 1) 0, [], []⟩ : Csc α) = .throw := by
  obtain ⟨p, hp, _⟩ := C57_vector v (List.replicate (n + 1) (0 : ℤ)) (by simp) (by simpa using hn)
  have he : npVector v ([] : List ℤ) = .throw := by
    unfold npVector npConvert checkSanity
    rfl
  unfold npSparse
  dsimp only
  rw [hp, he]
  rfl

/-- **C77** (from Python, 32 bit indices): the storage is taken over unchanged. -/
theorem C77_from_python_partial {α : Type} (rows cols : ℤ) (p i : List ℤ) (d : List α) :
    npAsSparse rows cols ⟨false, p⟩ ⟨false, i⟩ d = ⟨rows, cols, p, i, d⟩ := rfl

/-- **C77** does not hold for sparse matrices with 64 bit indices: their type is not checked, and the matrix with the single entry
5 at (0, 0) is read as the zero matrix. -/
theorem C77_wide_indices_fails : ∃ (p i : IntArray) (d : List ℤ),
    (⟨1, 1, p.vals, i.vals, d⟩ : Csc ℤ).entry 0 0 = 5 ∧ (npAsSparse 1 1 p i d).entry 0 0 = 0 :=
  ⟨⟨true, [0, 1]⟩, ⟨true, [0]⟩, [5], by decide +kernel, by decide +kernel⟩

/-- **C77** does not hold for arrays without dimensions (numpy scalars): their first dimension is read although there is none. -/
theorem C77_zero_dim_fails {α : Type} (a : NdArray α) (h : a.shape = []) : npAsMatrix a = .ub ∧ npAsVector a = .ub := by
  unfold npAsMatrix npAsVector
  rw [h]
  exact ⟨rfl, rfl⟩

/-- **C77**: no element of an array is left out silently: if a conversion to a matrix or a vector succeeds, the result has as many elements as the array (arrays
with more dimensions are refused). -/
theorem C77_complete {α : Type} (a : NdArray α) :
    (∀ r c f, npAsMatrix a = .ok (r, c, f) → a.shape.prod = r * c) ∧ (∀ r f, npAsVector a = .ok (r, f) → a.shape.prod = r) ∧
    (2 < a.shape.length → npAsMatrix a = .throw) ∧ (1 < a.shape.length → npAsVector a = .throw) := by
  refine ⟨?_, ?_, ?_, ?_⟩
  · intro r c f h
    unfold npAsMatrix at h
    by_cases h2 : 2 < a.shape.length
    · rw [if_pos h2] at h; cases h
    rw [if_neg h2] at h
    match hs : a.shape with
    | [] => rw [hs] at h; cases h
    | [x] => rw [hs] at h; cases h; simp
    | [x, y] => rw [hs] at h; cases h; simp
    | x :: y :: z :: l => rw [hs] at h2; simp at h2
  · intro r f h
    unfold npAsVector at h
    by_cases h2 : 1 < a.shape.length
    · rw [if_pos h2] at h; cases h
    rw [if_neg h2] at h
    match hs : a.shape with
    | [] => rw [hs] at h; cases h
    | [x] => rw [hs] at h; cases h; simp
    | x :: y :: l => rw [hs] at h2; simp at h2
  · intro h; unfold npAsMatrix; rw [if_pos h]
  · intro h; unfold npAsVector; rw [if_pos h]

/-- A matrix is accepted as a matrix and refused as a vector. -/
example : let a : NdArray ℕ := ⟨[2, 3], true, fun k => .val k⟩; (∃ f, npAsMatrix a = .ok (2, 3, f)) ∧ npAsVector a = .throw := ⟨⟨_, rfl⟩, rfl⟩

end PI
