import Verif.Matfile.Model
import Mathlib.Tactic.Ring
import Mathlib.Tactic.Linarith
import Mathlib.Data.List.Induction
import Mathlib.Data.List.Infix

/-! # C53, C54, C60, C64: matrix files and archives -/

namespace PI

/-! ## Number images -/

@[simp] theorem enc_length (k v : ℕ) : (enc k v).length = k := by
  induction k generalizing v with
  | zero => rfl
  | succ k ih => simp [enc, ih]

theorem dec_enc (k v : ℕ) : dec (enc k v) = v % 256 ^ k := by
  induction k generalizing v with
  | zero => simp [enc, dec, Nat.mod_one]
  | succ k ih =>
    simp only [enc, dec, ih]
    rw [Nat.pow_succ', Nat.mod_mul]

theorem dec_enc_lt {k v : ℕ} (h : v < 256 ^ k) : dec (enc k v) = v := by
  rw [dec_enc, Nat.mod_eq_of_lt h]

theorem ofId_id (t : Ty) : Ty.ofId t.id = some t := by cases t <;> rfl

theorem id_lt (t : Ty) : t.id < 256 ^ 2 := by cases t <;> decide

theorem size_le (t : Ty) : t.size ≤ 8 := by cases t <;> decide

/-! ## C53 -/

/-- What the C++ types guarantee about a buffered item: every element has the size of its type, a scalar is
one element, a vector has fewer than 2³¹ elements (its length is stored in 32 bits). -/
def Item.WF (i : Item) : Prop :=
  (∀ e ∈ i.elems, e.length = i.ty.size) ∧ i.elems.length < 2 ^ 31 ∧ (i.vec = false → i.elems.length = 1)

theorem flatten_length {s : ℕ} {es : List (List Byte)} (h : ∀ e ∈ es, e.length = s) : es.flatten.length = s * es.length := by
  induction es with
  | nil => simp
  | cons e es ih =>
    rw [List.flatten_cons, List.length_append, ih (fun x hx => h x (by simp [hx])), h e (by simp), List.length_cons]
    ring

theorem chunks_flatten {s : ℕ} {es : List (List Byte)} (h : ∀ e ∈ es, e.length = s) (rest : List Byte) :
    chunks s es.length (es.flatten ++ rest) = es := by
  induction es with
  | nil => rfl
  | cons e es ih =>
    have he := h e (by simp)
    simp only [List.length_cons, chunks, List.flatten_cons, List.append_assoc]
    rw [← he, List.take_left, List.drop_left, he, ih (fun x hx => h x (by simp [hx]))]

theorem readRaw_save (ty : Ty) (es : List (List Byte)) (h : ∀ e ∈ es, e.length = ty.size)
    (hn : es.length < 2 ^ 31) (rest : List Byte) :
    readRaw es.length (enc 2 ty.id ++ es.flatten ++ rest) = .ok ((ty, es), rest) := by
  unfold readRaw
  have hl := flatten_length h
  rw [if_neg (by simp), List.append_assoc]
  have e1 : (enc 2 ty.id ++ (es.flatten ++ rest)).take 2 = enc 2 ty.id := by
    rw [List.take_append_of_le_length (by simp)]; exact List.take_of_length_le (by simp)
  have e2 : (enc 2 ty.id ++ (es.flatten ++ rest)).drop 2 = es.flatten ++ rest := by
    rw [List.drop_append_of_le_length (by simp), List.drop_of_length_le (by simp)]; rfl
  rw [e1, e2, dec_enc_lt (id_lt ty), ofId_id]
  dsimp only
  have hs := size_le ty
  have hb : ty.size * es.length < 2 ^ 63 := by
    calc ty.size * es.length ≤ 8 * es.length := Nat.mul_le_mul_right _ hs
      _ < 2 ^ 63 := by omega
  rw [if_neg (by omega), if_neg (by rw [List.length_append, hl]; omega), chunks_flatten h, ← hl, List.drop_left]

theorem readItem_save (i : Item) (h : i.WF) (rest : List Byte) : readItem i.vec (i.save ++ rest) = .ok (i, rest) := by
  obtain ⟨vec, ty, es⟩ := i
  obtain ⟨h1, h2, h3⟩ := h
  dsimp only at h1 h2 h3
  unfold readItem Item.save
  dsimp only
  cases vec with
  | true =>
    simp only [if_true]
    have e := readRaw_save .i32 [enc 4 es.length] (by intro e he; simp at he; subst he; simp [Ty.size]) (by simp)
      (enc 2 ty.id ++ es.flatten ++ rest)
    simp only [List.length_cons, List.length_nil, zero_add, List.flatten_cons, List.flatten_nil, List.append_nil] at e
    have e' : enc 2 Ty.i32.id ++ enc 4 es.length ++ enc 2 ty.id ++ es.flatten ++ rest
        = enc 2 Ty.i32.id ++ enc 4 es.length ++ (enc 2 ty.id ++ es.flatten ++ rest) := by simp
    rw [e', e]
    dsimp only
    simp only [countOf, List.flatten_cons, List.flatten_nil, List.append_nil]
    rw [dec_enc_lt (by omega), if_pos h2]
    dsimp only
    rw [readRaw_save ty es h1 h2]
  | false =>
    have hn := h3 rfl
    have := readRaw_save ty es h1 h2 rest
    rw [hn] at this
    simp only [Bool.false_eq_true, if_false, List.nil_append]
    rw [this]

theorem readItems_save (is : List Item) (h : ∀ i ∈ is, i.WF) (rest : List Byte) :
    readItems (is.map (·.vec)) (saveItems is ++ rest) = .ok (is, rest) := by
  induction is with
  | nil => rfl
  | cons i is ih =>
    have e : saveItems (i :: is) ++ rest = i.save ++ (saveItems is ++ rest) := by simp [saveItems]
    rw [e, List.map_cons, readItems, readItem_save i (h i (by simp))]
    dsimp only
    rw [ih (fun x hx => h x (by simp [hx]))]

/-- **C53.** Every sequence of scalars and vectors of the registered types is read back, in the same order,
with the same types and values, and exactly the bytes written are consumed. -/
theorem C53_serializer_round_trip (is : List Item) (h : ∀ i ∈ is, i.WF) (rest : List Byte) :
    readItems (is.map (·.vec)) (saveItems is ++ rest) = .ok (is, rest) := readItems_save is h rest

/-- A scalar, an empty vector and a vector of two doubles. -/
example : ∀ i ∈ [(⟨false, .i32, [enc 4 7]⟩ : Item), ⟨true, .u8, []⟩, ⟨true, .f64, [enc 8 1, enc 8 2]⟩], i.WF := by
  intro i hi
  simp at hi
  rcases hi with rfl | rfl | rfl <;> simp [Item.WF, Ty.size]

/-! ## C54 -/

theorem readRaw_mono (n : ℕ) (p q : List Byte) :
    (∀ x r, readRaw n p = .ok (x, r) → readRaw n (p ++ q) = .ok (x, r ++ q)) ∧
    (readRaw n p = .ub → readRaw n (p ++ q) = .ub) := by
  unfold readRaw
  by_cases h : p.length < 2
  · simp [h]
  · rw [if_neg h, if_neg (by simp; omega), List.take_append_of_le_length (by omega), List.drop_append_of_le_length (by omega)]
    cases Ty.ofId (dec (p.take 2)) with
    | none => simp
    | some ty =>
      dsimp only
      by_cases h2 : 2 ^ 63 ≤ ty.size * n
      · simp only [if_pos h2]; simp
      · simp only [if_neg h2]
        by_cases h3 : (p.drop 2).length < ty.size * n
        · rw [if_pos h3]; simp
        · rw [if_neg h3, if_neg (by rw [List.length_append]; omega)]
          simp only [Out.ok.injEq, Prod.mk.injEq, reduceCtorEq, false_implies, and_true]
          rintro x r ⟨rfl, rfl⟩
          refine ⟨?_, ?_⟩
          · have : ∀ (s k : ℕ) (a b : List Byte), s * k ≤ a.length → chunks s k (a ++ b) = chunks s k a := by
              intro s k
              induction k with
              | zero => intros; rfl
              | succ k ih =>
                intro a b hab
                have hs : s ≤ a.length := by nlinarith
                rw [chunks, chunks, List.take_append_of_le_length hs, List.drop_append_of_le_length hs,
                  ih _ _ (by rw [List.length_drop]; have : s * (k + 1) = s * k + s := by ring
                             omega)]
            rw [this ty.size n (p.drop 2) q (by omega)]
          · rw [List.drop_append_of_le_length (by omega)]

theorem readItem_mono (v : Bool) (p q : List Byte) :
    (∀ x r, readItem v p = .ok (x, r) → readItem v (p ++ q) = .ok (x, r ++ q)) ∧
    (readItem v p = .ub → readItem v (p ++ q) = .ub) := by
  unfold readItem
  have h1 := readRaw_mono 1 p q
  cases v with
  | false =>
    simp only [Bool.false_eq_true, if_false]
    cases hr : readRaw 1 p with
    | ok x => obtain ⟨⟨ty, cs⟩, r⟩ := x; rw [h1.1 _ _ hr]; simp only [Out.ok.injEq, Prod.mk.injEq, reduceCtorEq, false_implies, and_true]; rintro x r' ⟨rfl, rfl⟩; simp
    | throw => simp
    | ub => rw [h1.2 hr]; simp
  | true =>
    simp only [if_true]
    cases hr : readRaw 1 p with
    | ok x =>
      obtain ⟨⟨ty, cs⟩, r⟩ := x
      rw [h1.1 _ _ hr]
      dsimp only
      cases countOf ty cs.flatten with
      | none => simp
      | some n =>
        dsimp only
        have h2 := readRaw_mono n r q
        cases hr2 : readRaw n r with
        | ok x => obtain ⟨⟨ty, cs⟩, r⟩ := x; rw [h2.1 _ _ hr2]; simp only [Out.ok.injEq, Prod.mk.injEq, reduceCtorEq, false_implies, and_true]; rintro x r' ⟨rfl, rfl⟩; simp
        | throw => simp
        | ub => rw [h2.2 hr2]; simp
    | throw => simp
    | ub => rw [h1.2 hr]; simp

theorem readItems_mono (vs : List Bool) (p q : List Byte) :
    (∀ x r, readItems vs p = .ok (x, r) → readItems vs (p ++ q) = .ok (x, r ++ q)) ∧
    (readItems vs p = .ub → readItems vs (p ++ q) = .ub) := by
  induction vs generalizing p with
  | nil => simp [readItems]
  | cons v vs ih =>
    simp only [readItems]
    have h1 := readItem_mono v p q
    cases hr : readItem v p with
    | ok x =>
      obtain ⟨i, r⟩ := x
      rw [h1.1 _ _ hr]
      dsimp only
      have h2 := ih r
      cases hr2 : readItems vs r with
      | ok x => obtain ⟨is, r⟩ := x; rw [h2.1 _ _ hr2]; simp only [Out.ok.injEq, Prod.mk.injEq, reduceCtorEq, false_implies, and_true]; rintro x r' ⟨rfl, rfl⟩; simp
      | throw => simp
      | ub => rw [h2.2 hr2]; simp
    | throw => simp
    | ub => rw [h1.2 hr]; simp

theorem readMat_mono (p q : List Byte) :
    (∀ x r, readMat p = .ok (x, r) → readMat (p ++ q) = .ok (x, r ++ q)) ∧
    (readMat p = .ub → readMat (p ++ q) = .ub) := by
  unfold readMat
  have h1 := readItems_mono [false, false, false, true] p q
  cases hr : readItems [false, false, false, true] p with
  | ok x =>
    obtain ⟨is, r⟩ := x
    rw [h1.1 _ _ hr]
    match is with
    | [] => simp
    | [_] => simp
    | [_, _] => simp
    | [_, _, _] => simp
    | [f, ro, c, re] =>
      dsimp only
      have h2 := readItems_mono (if (dec f.elems.flatten / 2 % 2 == 1) = true then [true, true, true] else [true, true]) r q
      cases hr2 : readItems (if (dec f.elems.flatten / 2 % 2 == 1) = true then [true, true, true] else [true, true]) r with
      | ok x => obtain ⟨is, r⟩ := x; rw [h2.1 _ _ hr2]; simp only [Out.ok.injEq, Prod.mk.injEq, reduceCtorEq, false_implies, and_true]; rintro x r' ⟨rfl, rfl⟩; simp
      | throw => simp
      | ub => rw [h2.2 hr2]; simp
    | _ :: _ :: _ :: _ :: _ :: _ => simp
  | throw => simp
  | ub => rw [h1.2 hr]; simp

/-- A matrix fits the 32-bit fields of the file format. -/
def Sparse.Fits (m : Sparse (Dbl × Dbl)) : Prop :=
  m.rows < 2 ^ 31 ∧ m.cols.length < 2 ^ 31 ∧ m.cols.flatten.length < 2 ^ 31 ∧ ∀ e ∈ m.cols.flatten, e.1 < m.rows

/-! ### Outer index arrays -/

/-- Running totals starting at `s`. -/
def outerFrom {β : Type} (s : ℕ) : List (List β) → List ℕ
  | [] => [s]
  | c :: cs => s :: outerFrom (s + c.length) cs

theorem outerFrom_ne {β : Type} (s : ℕ) (cs : List (List β)) : outerFrom s cs ≠ [] := by cases cs <;> simp [outerFrom]

theorem outerOf_eq {β : Type} (cs : List (List β)) : outerOf cs = outerFrom 0 cs := by
  have : ∀ (cs : List (List β)) (pre : List ℕ) (s : ℕ),
      cs.foldl (fun acc c => acc ++ [acc.getLast?.getD 0 + c.length]) (pre ++ [s]) = pre ++ outerFrom s cs := by
    intro cs
    induction cs with
    | nil => intro pre s; rfl
    | cons c cs ih =>
      intro pre s
      rw [List.foldl_cons]
      simp only [List.getLast?_append, List.getLast?_singleton, Option.some_or, Option.getD_some]
      rw [ih (pre ++ [s]) (s + c.length), List.append_assoc]; rfl
  exact this cs [] 0

theorem outerFrom_concat {β : Type} (s : ℕ) (cs : List (List β)) (c : List β) :
    outerFrom s (cs ++ [c]) = outerFrom s cs ++ [s + cs.flatten.length + c.length] := by
  induction cs generalizing s with
  | nil => simp [outerFrom]
  | cons d ds ih =>
    rw [List.cons_append, outerFrom, ih, outerFrom, List.cons_append, List.flatten_cons, List.length_append]
    congr 3; omega

theorem outerFrom_getLast {β : Type} (s : ℕ) (cs : List (List β)) :
    ∃ pre, outerFrom s cs = pre ++ [s + cs.flatten.length] := by
  induction cs using List.reverseRecOn with
  | nil => exact ⟨[], by simp [outerFrom]⟩
  | append_singleton cs c _ => exact ⟨outerFrom s cs, by rw [outerFrom_concat]; simp [Nat.add_assoc]⟩

theorem outerFrom_dropLast {β : Type} (s : ℕ) (cs : List (List β)) (c : List β) :
    (outerFrom s (cs ++ [c])).dropLast = outerFrom s cs := by
  rw [outerFrom_concat, List.dropLast_concat]

theorem outerFrom_length {β : Type} (s : ℕ) (cs : List (List β)) : (outerFrom s cs).length = cs.length + 1 := by
  induction cs generalizing s with
  | nil => rfl
  | cons c cs ih => simp [outerFrom, ih]

theorem outerFrom_le {β : Type} (s : ℕ) (cs : List (List β)) : ∀ x ∈ outerFrom s cs, x ≤ s + cs.flatten.length := by
  induction cs generalizing s with
  | nil => simp [outerFrom]
  | cons c cs ih =>
    intro x hx
    rw [outerFrom, List.mem_cons] at hx
    rw [List.flatten_cons, List.length_append]
    rcases hx with rfl | hx
    · omega
    · have := ih _ x hx; omega

theorem outerFrom_zero {β : Type} (cs : List (List β)) (h : cs.flatten = []) : outerFrom 0 cs = List.replicate (cs.length + 1) 0 := by
  refine List.eq_replicate_iff.mpr ⟨outerFrom_length _ _, fun x hx => ?_⟩
  have := outerFrom_le 0 cs x hx
  rw [h] at this; simpa using this

theorem columnsOf_outer {β : Type} (cs : List (List β)) : columnsOf (outerOf cs) cs.flatten = cs := by
  rw [outerOf_eq]
  have : ∀ (cs : List (List β)) (pre : List β), columnsOf (outerFrom pre.length cs) (pre ++ cs.flatten) = cs := by
    intro cs
    induction cs with
    | nil => intro pre; simp [columnsOf, outerFrom]
    | cons c cs ih =>
      intro pre
      have e := ih (pre ++ c)
      rw [List.length_append, List.append_assoc] at e
      have hh : ∃ t, outerFrom (pre.length + c.length) cs = (pre.length + c.length) :: t := by
        cases cs <;> exact ⟨_, rfl⟩
      obtain ⟨t, ht⟩ := hh
      rw [ht] at e
      simp only [columnsOf, outerFrom, ht, List.tail_cons, List.zip_cons_cons, List.map_cons, List.flatten_cons] at e ⊢
      rw [List.drop_left, Nat.add_sub_cancel_left, List.take_left]
      congr 1
  exact this cs []

theorem finalize_last (l : List ℕ) (x size : ℕ) (hx : x ≠ 0) : finalizeOuter (l ++ [x]) size = l ++ [x] := by
  unfold finalizeOuter
  have : ((l ++ [x]).reverse.takeWhile (· == 0)) = [] := by
    rw [List.reverse_append, List.reverse_singleton, List.singleton_append, List.takeWhile_cons]
    simp [hx]
  rw [this]; simp

theorem finalize_gap (l : List ℕ) (x size : ℕ) (hx : x ≠ 0) : finalizeOuter (l ++ [x] ++ [0]) size = l ++ [x] ++ [size] := by
  unfold finalizeOuter
  have : ((l ++ [x] ++ [0]).reverse.takeWhile (· == 0)) = [0] := by
    rw [List.reverse_append, List.reverse_append, List.reverse_singleton, List.reverse_singleton, List.singleton_append,
      List.singleton_append, List.takeWhile_cons, List.takeWhile_cons]
    simp [hx]
  rw [this]
  simp only [List.length_append, List.length_singleton, Nat.add_sub_cancel]
  rw [List.take_append_of_le_length (by simp), List.take_of_length_le (by simp)]; rfl

theorem finalize_zeros (n size : ℕ) : finalizeOuter (List.replicate n 0) size = List.replicate n size := by
  unfold finalizeOuter
  have : ((List.replicate n 0).reverse.takeWhile (· == 0)) = List.replicate n 0 := by
    rw [List.reverse_replicate]
    induction n with
    | zero => rfl
    | succ n ih => rw [List.replicate_succ, List.takeWhile_cons]; simp [ih]
  rw [this]; simp

/-- Entries, if there are any, are not all in the last column. -/
def Sparse.NotOnlyLast {V : Type} (m : Sparse V) : Prop := m.cols.flatten = [] ∨ m.cols.dropLast.flatten ≠ []

theorem finalize_good {V : Type} (m : Sparse V) (h : m.NotOnlyLast) :
    finalizeOuter ((outerOf m.cols).dropLast ++ [0]) m.cols.flatten.length = outerOf m.cols := by
  obtain ⟨rows, cols⟩ := m
  simp only [Sparse.NotOnlyLast] at h ⊢
  rw [outerOf_eq]
  induction cols using List.reverseRecOn with
  | nil => simp [outerFrom, finalizeOuter]
  | append_singleton cs c _ =>
    rw [outerFrom_dropLast]
    rw [List.dropLast_concat] at h
    obtain ⟨pre, hp⟩ := outerFrom_getLast 0 cs
    by_cases hz : cs.flatten = []
    · have hall : (cs ++ [c]).flatten = [] := by
        rcases h with h | h
        · exact h
        · exact absurd hz h
      rw [outerFrom_zero _ hz, outerFrom_zero _ hall, hall]
      have : List.replicate (cs.length + 1) 0 ++ [0] = List.replicate (cs.length + 1 + 1) 0 := by
        rw [List.replicate_succ' (n := cs.length + 1)]
      rw [this, finalize_zeros]; simp
    · rw [hp, finalize_gap _ _ _ (by rw [Nat.zero_add]; exact fun h0 => hz (List.length_eq_zero_iff.mp h0)), ← hp, outerFrom_concat]
      congr 2
      simp

/-! ### The items of a matrix -/

theorem matItems_wf (cplx : Bool) (m : Sparse (Dbl × Dbl)) (h : m.Fits) : ∀ i ∈ matItems cplx m, i.WF := by
  obtain ⟨h1, h2, h3, h4⟩ := h
  have ho : (outerOf m.cols).dropLast.length < 2 ^ 31 := by
    rw [outerOf_eq, List.length_dropLast, outerFrom_length]; omega
  intro i hi
  have key : i = ⟨false, .u8, [enc 1 (if cplx then complexFlag else 0)]⟩ ∨ i = ⟨false, .i32, [enc 4 m.rows]⟩ ∨
      i = ⟨false, .i32, [enc 4 m.cols.length]⟩ ∨ i = ⟨true, .f64, m.cols.flatten.map fun e => enc 8 e.2.1⟩ ∨
      i = ⟨true, .f64, m.cols.flatten.map fun e => enc 8 e.2.2⟩ ∨ i = ⟨true, .i32, m.cols.flatten.map fun e => enc 4 e.1⟩ ∨
      i = ⟨true, .i32, (outerOf m.cols).dropLast.map fun n => enc 4 n⟩ := by
    cases cplx <;> simp [matItems] at hi ⊢ <;> tauto
  rcases key with rfl | rfl | rfl | rfl | rfl | rfl | rfl
  · simp [Item.WF, Ty.size]
  · simp [Item.WF, Ty.size]
  · simp [Item.WF, Ty.size]
  · refine ⟨?_, by rw [List.length_map]; exact h3, by simp⟩
    intro e he; obtain ⟨a, -, rfl⟩ := List.mem_map.mp he; simp [Ty.size]
  · refine ⟨?_, by rw [List.length_map]; exact h3, by simp⟩
    intro e he; obtain ⟨a, -, rfl⟩ := List.mem_map.mp he; simp [Ty.size]
  · refine ⟨?_, by rw [List.length_map]; exact h3, by simp⟩
    intro e he; obtain ⟨a, -, rfl⟩ := List.mem_map.mp he; simp [Ty.size]
  · refine ⟨?_, by rw [List.length_map]; exact ho, by simp⟩
    intro e he; obtain ⟨a, -, rfl⟩ := List.mem_map.mp he; simp [Ty.size]

/-- The values stored for a matrix. -/
def rawOf (cplx : Bool) (m : Sparse (Dbl × Dbl)) : RawMat :=
  ⟨if cplx then 2 else 0, m.rows, m.cols.length, m.cols.flatten.map (·.2.1.val),
    if cplx then m.cols.flatten.map (·.2.2.val) else [], m.cols.flatten.map (·.1), (outerOf m.cols).dropLast⟩

theorem readMat_save (cplx : Bool) (m : Sparse (Dbl × Dbl)) (h : m.Fits) (rest : List Byte) :
    readMat (saveItems (matItems cplx m) ++ rest) = .ok (rawOf cplx m, rest) := by
  have hwf := matItems_wf cplx m h
  obtain ⟨h1, h2, h3, h4⟩ := h
  have m8 : ∀ f : ℕ × Dbl × Dbl → Dbl, (m.cols.flatten.map fun e => enc 8 (f e)).map dec = m.cols.flatten.map fun e => (f e).val := by
    intro f
    rw [List.map_map]
    apply List.map_congr_left
    intro e _
    exact dec_enc_lt (lt_of_lt_of_eq (f e).isLt (by norm_num))
  have m4 : (m.cols.flatten.map fun e => enc 4 e.1).map dec = m.cols.flatten.map (·.1) := by
    rw [List.map_map]
    apply List.map_congr_left
    intro e he
    exact dec_enc_lt (by have := h4 e he; omega)
  have mo : ((outerOf m.cols).dropLast.map fun n => enc 4 n).map dec = (outerOf m.cols).dropLast := by
    rw [List.map_map]
    conv_rhs => rw [← List.map_id (outerOf m.cols).dropLast]
    apply List.map_congr_left
    intro x hx
    have hx' := List.dropLast_subset _ hx
    rw [outerOf_eq] at hx'
    have := outerFrom_le 0 m.cols x hx'
    exact dec_enc_lt (by omega)
  have hr : dec (enc 4 m.rows) = m.rows := dec_enc_lt (by omega)
  have hc : dec (enc 4 m.cols.length) = m.cols.length := dec_enc_lt (by omega)
  cases cplx with
  | true =>
    have e : matItems true m = [⟨false, .u8, [enc 1 2]⟩, ⟨false, .i32, [enc 4 m.rows]⟩, ⟨false, .i32, [enc 4 m.cols.length]⟩,
        ⟨true, .f64, m.cols.flatten.map fun e => enc 8 e.2.1⟩] ++ [⟨true, .f64, m.cols.flatten.map fun e => enc 8 e.2.2⟩,
        ⟨true, .i32, m.cols.flatten.map fun e => enc 4 e.1⟩, ⟨true, .i32, (outerOf m.cols).dropLast.map fun n => enc 4 n⟩] := rfl
    rw [e] at hwf ⊢
    rw [show ∀ a b : List Item, saveItems (a ++ b) = saveItems a ++ saveItems b by intro a b; simp [saveItems], List.append_assoc]
    have r1 := readItems_save _ (fun i hi => hwf i (List.mem_append_left _ hi))
      (saveItems [⟨true, .f64, m.cols.flatten.map fun e => enc 8 e.2.2⟩,
        ⟨true, .i32, m.cols.flatten.map fun e => enc 4 e.1⟩, ⟨true, .i32, (outerOf m.cols).dropLast.map fun n => enc 4 n⟩] ++ rest)
    have r2 := readItems_save _ (fun i hi => hwf i (List.mem_append_right _ hi)) rest
    simp only [List.map_cons, List.map_nil] at r1 r2
    unfold readMat
    rw [r1]
    have hf : (dec (List.flatten [enc 1 2]) / 2 % 2 == 1) = true := by decide
    simp only [hf, if_true]
    rw [r2]
    simp only [rawOf, if_true, List.getElem?_cons_zero, Option.map_some, Option.getD_some, List.flatten_cons, List.flatten_nil,
      List.append_nil, hr, hc, m8, m4, mo, List.getElem?_cons_succ]
    rfl
  | false =>
    have e : matItems false m = [⟨false, .u8, [enc 1 0]⟩, ⟨false, .i32, [enc 4 m.rows]⟩, ⟨false, .i32, [enc 4 m.cols.length]⟩,
        ⟨true, .f64, m.cols.flatten.map fun e => enc 8 e.2.1⟩] ++ [
        ⟨true, .i32, m.cols.flatten.map fun e => enc 4 e.1⟩, ⟨true, .i32, (outerOf m.cols).dropLast.map fun n => enc 4 n⟩] := rfl
    rw [e] at hwf ⊢
    rw [show ∀ a b : List Item, saveItems (a ++ b) = saveItems a ++ saveItems b by intro a b; simp [saveItems], List.append_assoc]
    have r1 := readItems_save _ (fun i hi => hwf i (List.mem_append_left _ hi))
      (saveItems [⟨true, .i32, m.cols.flatten.map fun e => enc 4 e.1⟩, ⟨true, .i32, (outerOf m.cols).dropLast.map fun n => enc 4 n⟩] ++ rest)
    have r2 := readItems_save _ (fun i hi => hwf i (List.mem_append_right _ hi)) rest
    simp only [List.map_cons, List.map_nil] at r1 r2
    unfold readMat
    rw [r1]
    have hf : (dec (List.flatten [enc 1 0]) / 2 % 2 == 1) = false := by decide
    simp only [hf, Bool.false_eq_true, if_false]
    rw [r2]
    simp only [rawOf, Bool.false_eq_true, if_false, List.getElem?_cons_zero, Option.map_some, Option.getD_some, List.flatten_cons, List.flatten_nil,
      List.append_nil, hr, hc, m8, m4, mo, List.getElem?_cons_succ]
    rfl

/-- What is loaded for a saved matrix, in terms of `finalize`. -/
def reloaded (m : Sparse (Dbl × Dbl)) : Sparse (Dbl × Dbl) :=
  ⟨m.rows, columnsOf (finalizeOuter ((outerOf m.cols).dropLast ++ [0]) m.cols.flatten.length) m.cols.flatten⟩

/-- For real scalars the imaginary parts do not exist. -/
def Sparse.RealIf (cplx : Bool) (m : Sparse (Dbl × Dbl)) : Prop := cplx = false → ∀ e ∈ m.cols.flatten, e.2.2 = 0

theorem zip_complex (es : List (ℕ × Dbl × Dbl)) (t : List ℕ) :
    (es.map (·.1)).zip (((es.map (·.2.1.val)).zip (es.map (·.2.2.val) ++ t)).map
      fun p => ((⟨p.1 % 2 ^ 64, Nat.mod_lt _ (by decide)⟩ : Dbl), (⟨p.2 % 2 ^ 64, Nat.mod_lt _ (by decide)⟩ : Dbl))) = es := by
  induction es with
  | nil => simp
  | cons e es ih =>
    simp only [List.map_cons, List.cons_append, List.zip_cons_cons]
    rw [ih]
    congr 1
    obtain ⟨a, b, c⟩ := e
    simp only [Prod.mk.injEq, true_and]
    exact ⟨Fin.ext (Nat.mod_eq_of_lt b.isLt), Fin.ext (Nat.mod_eq_of_lt c.isLt)⟩

theorem zip_real (es : List (ℕ × Dbl × Dbl)) (h : ∀ e ∈ es, e.2.2 = 0) :
    (es.map (·.1)).zip (((es.map (·.2.1.val)).zip (List.replicate es.length 0)).map
      fun p => ((⟨p.1 % 2 ^ 64, Nat.mod_lt _ (by decide)⟩ : Dbl), (⟨p.2 % 2 ^ 64, Nat.mod_lt _ (by decide)⟩ : Dbl))) = es := by
  have e : List.replicate es.length 0 = es.map (·.2.2.val) ++ [] := by
    rw [List.append_nil]
    symm
    rw [List.eq_replicate_iff]
    refine ⟨by rw [List.length_map], ?_⟩
    intro b hb
    obtain ⟨a, ha, rfl⟩ := List.mem_map.mp hb
    rw [h a ha]; rfl
  rw [e, zip_complex]

theorem build_raw (cplx : Bool) (m : Sparse (Dbl × Dbl)) (hre : m.RealIf cplx) : (rawOf cplx m).build cplx = .ok (reloaded m) := by
  have ho : (outerOf m.cols).dropLast.length = m.cols.length := by
    rw [outerOf_eq, List.length_dropLast, outerFrom_length]; rfl
  unfold RawMat.build rawOf
  dsimp only
  rw [if_neg]
  · simp only [Out.ok.injEq, reloaded, Sparse.mk.injEq, true_and]
    congr 1
    · rw [ho, Nat.add_sub_cancel_left, List.length_map]; rfl
    · rw [List.length_map, List.length_map, Nat.sub_self, List.replicate_zero, List.append_nil]
      cases cplx with
      | true => exact zip_complex _ _
      | false => exact zip_real _ (hre rfl)
  · rw [ho]
    generalize m.cols.flatten = es
    cases cplx <;> simp

theorem deserialize_serialize (cplx : Bool) (h : HMat) (he : h.entries.Fits) (hb : h.basis.Fits)
    (hre : h.entries.RealIf cplx) (hrb : h.basis.RealIf cplx) :
    HMat.deserialize cplx (h.serialize cplx) = .ok ⟨reloaded h.entries, reloaded h.basis⟩ := by
  have r2 := readMat_save cplx h.basis hb []
  rw [List.append_nil] at r2
  have e : h.serialize cplx = saveItems (matItems cplx h.entries) ++ saveItems (matItems cplx h.basis) := by
    simp [HMat.serialize, saveItems]
  unfold HMat.deserialize
  rw [e, readMat_save cplx h.entries he, ]
  dsimp only
  rw [r2]
  dsimp only
  rw [build_raw _ _ hre, build_raw _ _ hrb, if_neg (by cases cplx <;> simp [rawOf])]

/-! ## C64 -/

/-- **C64 (partial).** For every pair of matrices (either scalar type, within the 32-bit limits of the
format) neither of which has all its entries in the last column: loading the saved file gives the same
matrices.  Missing: the other matrices (`C64_last_column_fails`). -/
theorem C64_matrix_file_partial (cplx : Bool) (h : HMat) (he : h.entries.Fits) (hb : h.basis.Fits)
    (hre : h.entries.RealIf cplx) (hrb : h.basis.RealIf cplx)
    (ge : h.entries.NotOnlyLast) (gb : h.basis.NotOnlyLast) :
    HMat.deserialize cplx (h.serialize cplx) = .ok h := by
  rw [deserialize_serialize cplx h he hb hre hrb]
  have : ∀ m : Sparse (Dbl × Dbl), m.NotOnlyLast → reloaded m = m := by
    intro m hm
    unfold reloaded
    rw [finalize_good m hm, columnsOf_outer]
  rw [this _ ge, this _ gb]

/-- **C64** (scalar type): a file in which the entries or the basis were written by a program version with the other scalar type is refused. -/
theorem C64_scalar_type (cplx c1 c2 : Bool) (e b : Sparse (Dbl × Dbl)) (he : e.Fits) (hb : b.Fits) (hne : c1 ≠ cplx ∨ c2 ≠ cplx) :
    HMat.deserialize cplx (saveItems (matItems c1 e ++ matItems c2 b)) = .throw := by
  have r2 := readMat_save c2 b hb []
  rw [List.append_nil] at r2
  have hs : saveItems (matItems c1 e ++ matItems c2 b) = saveItems (matItems c1 e) ++ saveItems (matItems c2 b) := by simp [saveItems]
  unfold HMat.deserialize
  rw [hs, readMat_save c1 e he]
  dsimp only
  rw [r2]
  dsimp only
  rw [if_pos]
  revert hne
  cases cplx <;> cases c1 <;> cases c2 <;> simp [rawOf]

/-- A 2×2 diagonal matrix with the unit basis. -/
example : let m : Sparse (Dbl × Dbl) := ⟨2, [[(0, (5, 0))], [(1, (7, 0))]]⟩
    m.Fits ∧ m.RealIf false ∧ m.NotOnlyLast := by
  refine ⟨?_, ?_, ?_⟩
  · refine ⟨by decide, by decide, by decide, ?_⟩
    intro e he; simp at he; rcases he with rfl | rfl <;> decide
  · intro _ e he; simp at he; rcases he with rfl | rfl <;> rfl
  · right; decide

/-- **C64 fails** for every matrix whose entries are all in its last column (in particular for every
non-zero matrix with one column, such as a system with a single basis vector): what is loaded has no
entries at all. -/
theorem C64_last_column_fails (cplx : Bool) (h : HMat) (he : h.entries.Fits) (hb : h.basis.Fits)
    (hre : h.entries.RealIf cplx) (hrb : h.basis.RealIf cplx)
    (hne : h.entries.cols.flatten ≠ []) (hl : h.entries.cols.dropLast.flatten = []) :
    ∃ h' : HMat, HMat.deserialize cplx (h.serialize cplx) = .ok h' ∧ h'.entries.cols.flatten = [] ∧ h' ≠ h := by
  refine ⟨_, deserialize_serialize cplx h he hb hre hrb, ?_, ?_⟩
  all_goals
    have key : (reloaded h.entries).cols.flatten = [] := by
      unfold reloaded
      dsimp only
      have hd : (outerOf h.entries.cols).dropLast = outerFrom 0 h.entries.cols.dropLast := by
        rw [outerOf_eq]
        generalize h.entries.cols = cols at *
        induction cols using List.reverseRecOn with
        | nil => exact absurd rfl hne
        | append_singleton cs c _ => rw [outerFrom_dropLast, List.dropLast_concat]
      rw [hd, outerFrom_zero _ hl, show [0] = List.replicate 1 0 from rfl, ← List.replicate_add, finalize_zeros]
      unfold columnsOf
      rw [List.flatten_eq_nil_iff]
      intro l hl'
      obtain ⟨p, hp, rfl⟩ := List.mem_map.mp hl'
      have h1 := List.of_mem_zip hp
      have h2 : p.1 = h.entries.cols.flatten.length := List.eq_of_mem_replicate h1.1
      rw [h2, List.drop_of_length_le (le_refl _)]; simp
  · exact key
  · intro hc
    apply hne
    rw [← hc]; exact key

/-- One basis vector: the file loses the only entry. -/
example : let m : Sparse (Dbl × Dbl) := ⟨1, [[(0, (5, 0))]]⟩
    m.Fits ∧ m.RealIf false ∧ m.cols.flatten ≠ [] ∧ m.cols.dropLast.flatten = [] := by
  refine ⟨⟨by decide, by decide, by decide, ?_⟩, ?_, by decide, by decide⟩
  · intro e he; simp at he; subst he; decide
  · intro _ e he; simp at he; subst he; rfl

/-! ## C54 -/

/-- Every proper prefix of a matrix file is rejected with an exception. -/
theorem prefix_rejected (cplx : Bool) (h : HMat) (he : h.entries.Fits) (hb : h.basis.Fits)
    (p q : List Byte) (hpq : p ++ q = h.serialize cplx) (hq : q ≠ []) : HMat.deserialize cplx p = .throw := by
  have r2 := readMat_save cplx h.basis hb []
  rw [List.append_nil] at r2
  have e : h.serialize cplx = saveItems (matItems cplx h.entries) ++ saveItems (matItems cplx h.basis) := by
    simp [HMat.serialize, saveItems]
  have r1 := readMat_save cplx h.entries he (saveItems (matItems cplx h.basis))
  rw [← e, ← hpq] at r1
  have m1 := readMat_mono p q
  unfold HMat.deserialize
  cases h1 : readMat p with
  | throw => rfl
  | ub => rw [m1.2 h1] at r1; cases r1
  | ok x =>
    obtain ⟨a, r⟩ := x
    rw [m1.1 _ _ h1] at r1
    simp only [Out.ok.injEq, Prod.mk.injEq] at r1
    dsimp only
    have m2 := readMat_mono r q
    rw [← r1.2] at r2
    cases h2 : readMat r with
    | throw => rfl
    | ub => rw [m2.2 h2] at r2; cases r2
    | ok y =>
      obtain ⟨b, r'⟩ := y
      rw [m2.1 _ _ h2] at r2
      simp only [Out.ok.injEq, Prod.mk.injEq, List.append_eq_nil_iff] at r2
      exact absurd r2.2.2 hq

/-- The files after a history of runs, each of which died after some number of writes (or finished). -/
def afterCrashes {Conf M : Type} [DecidableEq Conf] (ser : M → List Byte) (load : List Byte → Out M) (conf : Conf)
    (comp : M) (ks : List ℕ) : CacheFiles Conf :=
  ks.foldl (crashAfter ser load conf comp) ⟨none, none⟩

/-- The `.mat` file is a beginning of the right one, and if it exists the `.json` file is complete. -/
def FilesOk {Conf M : Type} (ser : M → List Byte) (conf : Conf) (comp : M) (d : CacheFiles Conf) : Prop :=
  ∀ b, d.mat = some b → d.json = some (some conf) ∧ b <+: ser comp

theorem filesOk_run {Conf M : Type} [DecidableEq Conf] (ser : M → List Byte) (load : List Byte → Out M) (conf : Conf)
    (comp : M) (d : CacheFiles Conf) (h : FilesOk ser conf comp d) :
    ∀ d' ∈ (runStep ser load conf comp d).1, FilesOk ser conf comp d' := by
  have hw : ∀ d0 : CacheFiles Conf, d0.json = some (some conf) →
      ∀ d' ∈ (ser comp).inits.map (fun p => { d0 with mat := some p }), FilesOk ser conf comp d' := by
    intro d0 h0 d' hd'
    obtain ⟨p, hp, rfl⟩ := List.mem_map.mp hd'
    intro b hb
    simp only [Option.some.injEq] at hb
    exact ⟨h0, by rw [← hb]; exact (List.mem_inits p _).mp hp⟩
  unfold runStep
  intro d' hd'
  obtain ⟨json, mat⟩ := d
  cases mat with
  | none =>
    have : d' ∈ ([⟨some none, none⟩, ⟨some (some conf), none⟩] : List (CacheFiles Conf))
        ++ (ser comp).inits.map (fun p => { (⟨some (some conf), none⟩ : CacheFiles Conf) with mat := some p }) := by
      cases json <;> exact hd'
    rw [List.mem_append] at this
    rcases this with h1 | h1
    · simp at h1
      rcases h1 with rfl | rfl <;> · intro b hb; cases hb
    · exact hw ⟨some (some conf), none⟩ rfl d' h1
  | some b =>
    obtain ⟨hj, hp⟩ := h b rfl
    dsimp only at hj
    subst hj
    simp only [if_true] at hd'
    cases hl : load b with
    | ok m => rw [hl] at hd'; simp at hd'
    | throw => rw [hl] at hd'; exact hw ⟨some (some conf), some b⟩ rfl d' hd'
    | ub => rw [hl] at hd'; simp at hd'

theorem filesOk_crashes {Conf M : Type} [DecidableEq Conf] (ser : M → List Byte) (load : List Byte → Out M) (conf : Conf)
    (comp : M) (ks : List ℕ) : FilesOk ser conf comp (afterCrashes ser load conf comp ks) := by
  induction ks using List.reverseRecOn with
  | nil => intro b hb; cases hb
  | append_singleton ks k ih =>
    have e : afterCrashes ser load conf comp (ks ++ [k]) = crashAfter ser load conf comp (afterCrashes ser load conf comp ks) k := by
      simp [afterCrashes]
    rw [e]
    generalize afterCrashes ser load conf comp ks = d at ih ⊢
    unfold crashAfter
    cases hg : ((runStep ser load conf comp d).1.take k).getLast? with
    | none => exact ih
    | some d' => exact filesOk_run ser load conf comp _ ih d' (List.mem_of_mem_take (List.mem_of_getLast? hg))

/-- **C54.** For every configuration, every matrix the program computes for it and every history of runs
that died after an arbitrary number of writes (each byte of the matrix file being one write), starting
without files: the next run neither fails nor reads out of bounds; it either uses the matrix it computes
itself or the content of a complete file, which is what loading the file it would itself write gives.
A file that is a proper beginning of the right one is never used. -/
theorem C54_truncated_never_used {Conf : Type} [DecidableEq Conf] (cplx : Bool) (conf : Conf) (comp : HMat)
    (he : comp.entries.Fits) (hb : comp.basis.Fits) (hre : comp.entries.RealIf cplx) (hrb : comp.basis.RealIf cplx)
    (ks : List ℕ) :
    let d := afterCrashes (HMat.serialize cplx) (HMat.deserialize cplx) conf comp ks
    let r := (runStep (HMat.serialize cplx) (HMat.deserialize cplx) conf comp d).2
    r = .computed comp ∨
      (∃ m, r = .loaded m ∧ d.mat = some (comp.serialize cplx) ∧ HMat.deserialize cplx (comp.serialize cplx) = .ok m) := by
  have h := filesOk_crashes (HMat.serialize cplx) (HMat.deserialize cplx) conf comp ks
  intro d r
  change FilesOk _ _ _ d at h
  have hr : r = (runStep (HMat.serialize cplx) (HMat.deserialize cplx) conf comp d).2 := rfl
  clear_value r d
  obtain ⟨json, mat⟩ := d
  cases mat with
  | none => left; rw [hr]; unfold runStep; cases json <;> rfl
  | some b =>
    obtain ⟨hj, hp⟩ := h b rfl
    dsimp only at hj
    subst hj
    obtain ⟨q, hq⟩ := hp
    have hrun : (runStep (HMat.serialize cplx) (HMat.deserialize cplx) conf comp ⟨some (some conf), some b⟩).2
        = match HMat.deserialize cplx b with | .ok m => .loaded m | .throw => .computed comp | .ub => .ub := by
      unfold runStep
      simp only [if_true]
      cases HMat.deserialize cplx b <;> rfl
    rw [hr, hrun]
    by_cases hqn : q = []
    · right
      rw [hqn, List.append_nil] at hq
      rw [hq, deserialize_serialize cplx comp he hb hre hrb]
      exact ⟨_, rfl, rfl, rfl⟩
    · left
      rw [prefix_rejected cplx comp he hb b q hq hqn]

/-- With C64: for matrices that survive the file format, every run after every history of crashes gives
the right matrix. -/
theorem C54_right_matrix {Conf : Type} [DecidableEq Conf] (cplx : Bool) (conf : Conf) (comp : HMat)
    (he : comp.entries.Fits) (hb : comp.basis.Fits) (hre : comp.entries.RealIf cplx) (hrb : comp.basis.RealIf cplx)
    (ge : comp.entries.NotOnlyLast) (gb : comp.basis.NotOnlyLast) (ks : List ℕ) :
    let d := afterCrashes (HMat.serialize cplx) (HMat.deserialize cplx) conf comp ks
    let r := (runStep (HMat.serialize cplx) (HMat.deserialize cplx) conf comp d).2
    r = .computed comp ∨ r = .loaded comp := by
  intro d r
  rcases C54_truncated_never_used cplx conf comp he hb hre hrb ks with h | ⟨m, h1, -, h3⟩
  · exact Or.inl h
  · right
    rw [C64_matrix_file_partial cplx comp he hb hre hrb ge gb] at h3
    injection h3 with h3
    rw [h3]; exact h1

/-- Whatever the matrix file contains: if the configuration file beside it is missing or holds another
configuration, the matrix is computed, not loaded, and after the run the two files hold the configuration and
the matrix of the run. -/
theorem C54_other_configuration {Conf : Type} [DecidableEq Conf] (cplx : Bool) (conf : Conf) (comp : HMat)
    (d : CacheFiles Conf) (h : d.json = none ∨ ∃ c, d.json = some (some c) ∧ c ≠ conf) :
    let run := runStep (HMat.serialize cplx) (HMat.deserialize cplx) conf comp d
    run.2 = .computed comp ∧
    run.1.getLast? = some ⟨some (some conf), some (comp.serialize cplx)⟩ := by
  have hl : ∀ (pre : List (CacheFiles Conf)) (e : CacheFiles Conf) (bs : List Byte),
      (pre ++ bs.inits.map fun p => { e with mat := some p }).getLast? = some { e with mat := some bs } := by
    intro pre e bs
    rw [List.getLast?_append, List.getLast?_map]
    have : bs.inits.getLast? = some bs := by
      induction bs with
      | nil => rfl
      | cons b bs ih => rw [List.inits_cons, List.getLast?_cons, List.getLast?_map, ih]; rfl
    rw [this]; rfl
  obtain ⟨json, mat⟩ := d
  rcases h with h | ⟨c, h, hc⟩
  · dsimp only at h
    subst h
    cases mat <;> exact ⟨rfl, hl _ _ _⟩
  · dsimp only at h
    subst h
    cases mat with
    | none => exact ⟨rfl, hl _ _ _⟩
    | some b =>
      simp only [runStep, if_neg (Ne.symm hc)]
      exact ⟨trivial, hl _ ⟨some (some conf), some b⟩ _⟩

/-- A complete file of the configuration `true`, found by a run for the configuration `false`. -/
example : let m : HMat := ⟨⟨1, [[(0, (5, 0))]]⟩, ⟨1, [[(0, (1, 0))]]⟩⟩
    let d : CacheFiles Bool := ⟨some (some true), some (m.serialize false)⟩
    d.json = none ∨ ∃ c, d.json = some (some c) ∧ c ≠ false := by
  right; exact ⟨true, rfl, by decide⟩

/-- A history that leaves a truncated file: the run died after 10 writes, 7 bytes of the matrix file being
written. -/
example : let m : HMat := ⟨⟨1, [[(0, (5, 0))]]⟩, ⟨1, [[(0, (1, 0))]]⟩⟩
    (afterCrashes (HMat.serialize false) (HMat.deserialize false) () m [10]).mat = some ((m.serialize false).take 7) ∧
    7 < (m.serialize false).length := by
  refine ⟨rfl, by decide⟩

/-! ## C65 -/

theorem cache_rows {M : Type} (H : List ℚ → M) (ps : List (List ℚ)) :
    ∀ r ∈ cacheAfter H ps, ∃ p ∈ ps, r = (p.map print6, H p) := by
  induction ps using List.reverseRecOn with
  | nil => intro r hr; cases hr
  | append_singleton ps p ih =>
    have e : cacheAfter H (ps ++ [p]) = (cachedStep H (cacheAfter H ps) p).2 := by simp [cacheAfter]
    intro r hr
    rw [e] at hr
    unfold cachedStep at hr
    cases hf : (cacheAfter H ps).find? (fun r => r.1 == p.map print6) with
    | some x =>
      rw [hf] at hr
      obtain ⟨q, hq, rfl⟩ := ih r hr
      exact ⟨q, by simp [hq], rfl⟩
    | none =>
      rw [hf] at hr
      simp only [List.mem_append, List.mem_singleton] at hr
      rcases hr with hr | rfl
      · obtain ⟨q, hq, rfl⟩ := ih r hr
        exact ⟨q, by simp [hq], rfl⟩
      · exact ⟨p, by simp, rfl⟩

/-- **C65 (partial).** For every history of steps with numbers of at most six significant digits, the
matrix used for the parameters p is the one for p.  Missing: numbers with more digits
(`C65_key_collision_fails`). -/
theorem C65_cache_key_partial {M : Type} (H : List ℚ → M) (ps : List (List ℚ)) (p : List ℚ)
    (h : ∀ q, q ∈ ps ∨ q = p → ∀ x ∈ q, print6 x = x) :
    (cachedStep H (cacheAfter H ps) p).1 = H p := by
  have hid : ∀ q, q ∈ ps ∨ q = p → q.map print6 = q := by
    intro q hq
    conv_rhs => rw [← List.map_id q]
    exact List.map_congr_left (h q hq)
  unfold cachedStep
  cases hf : (cacheAfter H ps).find? (fun r => r.1 == p.map print6) with
  | none => rfl
  | some r =>
    obtain ⟨q, hq, rfl⟩ := cache_rows H ps r (List.mem_of_find?_eq_some hf)
    have := List.find?_some hf
    simp only [beq_iff_eq] at this
    rw [hid q (Or.inl hq), hid p (Or.inr rfl)] at this
    rw [this]

theorem log_one_ten {x : ℚ} (h1 : 1 ≤ x) (h2 : x < 10) : Int.log 10 |x| = 0 := by
  rw [abs_of_nonneg (by linarith)]
  have a : (0 : ℤ) ≤ Int.log 10 x := by
    rw [← Int.zpow_le_iff_le_log (by decide) (by linarith)]; simpa using h1
  have b : Int.log 10 x < 1 := by
    rw [← Int.lt_zpow_iff_log_lt (by decide) (by linarith)]; simpa using h2
  omega

/-- Numbers to which the theorem applies. -/
example : print6 0 = 0 ∧ print6 (5 / 2) = 5 / 2 := by
  constructor
  · rfl
  · unfold print6
    rw [if_neg (by norm_num)]
    dsimp only
    rw [log_one_ten (by norm_num) (by norm_num)]
    have : ((5 : ℚ) / 2 * 10 ^ ((5 : ℤ) - 0)) = ((250000 : ℤ) : ℚ) := by norm_num
    rw [this, round_intCast]; norm_num

/-- **C65 fails**: 1 and 1.0000001 are printed alike; whatever the matrices are, after a step with 1 the
step with 1.0000001 uses the matrix for 1. -/
theorem C65_key_collision_fails {M : Type} (H : List ℚ → M) :
    (cachedStep H (cacheAfter H [[1]]) [1.0000001]).1 = H [1] := by
  have p1 : print6 1 = 1 := by
    unfold print6
    rw [if_neg (by norm_num)]
    dsimp only
    rw [log_one_ten (by norm_num) (by norm_num)]
    have : ((1 : ℚ) * 10 ^ ((5 : ℤ) - 0)) = ((100000 : ℤ) : ℚ) := by norm_num
    rw [this, round_intCast]; norm_num
  have p2 : print6 1.0000001 = 1 := by
    unfold print6
    rw [if_neg (by norm_num)]
    dsimp only
    rw [log_one_ten (by norm_num) (by norm_num)]
    have : round ((1.0000001 : ℚ) * 10 ^ ((5 : ℤ) - 0)) = 100000 := by
      rw [round_eq, Int.floor_eq_iff]; norm_num
    rw [this]; norm_num
  simp [cachedStep, cacheAfter, p1, p2]

/-! ## C60 -/

/-- **C60.** Saving a sparse matrix to an archive and loading it gives the same matrix, for every sparsity
pattern (empty matrices, empty columns, entries only in the last column included), and the same for dense
matrices. -/
theorem C60_archive_round_trip {V : Type} (m : Sparse V) (d : Dense V) (hd : d.data.length = d.rows * d.cols) :
    m.archive.restore = m ∧ denseRestore d.archive = d := by
  constructor
  · obtain ⟨rows, cols⟩ := m
    simp only [Sparse.archive, SparseArchive.restore]
    have h1 : ((outerOf cols).take (cols.length + 1)) = outerOf cols := by
      apply List.take_of_length_le; rw [outerOf_eq, outerFrom_length]
    have h2 : finalizeOuter (outerOf cols) cols.flatten.length = outerOf cols := by
      by_cases hz : cols.flatten = []
      · rw [outerOf_eq, outerFrom_zero _ hz, finalize_zeros, hz]; rfl
      · obtain ⟨pre, hp⟩ := outerFrom_getLast 0 cols
        rw [outerOf_eq, hp, finalize_last _ _ _ (by rw [Nat.zero_add]; exact fun h0 => hz (List.length_eq_zero_iff.mp h0))]
    have h3 : ∀ l : List (ℕ × V), (l.map (·.1)).zip (l.map (·.2)) = l := by
      intro l
      induction l with
      | nil => rfl
      | cons a l ih => simp only [List.map_cons, List.zip_cons_cons, ih]
    rw [h1, h2, List.take_of_length_le (by rw [List.length_map]), List.take_of_length_le (by rw [List.length_map]), h3, columnsOf_outer]
  · obtain ⟨r, c, data⟩ := d
    simp only [Dense.archive, denseRestore] at hd ⊢
    rw [List.take_of_length_le (by omega)]

/-- A dense matrix to which the theorem applies. -/
example : (⟨2, 1, [3, 4]⟩ : Dense ℕ).data.length = 2 * 1 := rfl

end PI
