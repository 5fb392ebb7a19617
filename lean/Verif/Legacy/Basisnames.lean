import Verif.Basic
import Mathlib.Data.List.Nodup
import Mathlib.Data.List.Sort
import Mathlib.Data.List.Perm.Basic
import Mathlib.Data.Prod.Lex
import Mathlib.Algebra.Order.Ring.Int
import Mathlib.Algebra.Order.Group.Unbundled.Abs
import Mathlib.Order.Lattice
import Mathlib.Tactic.Linarith
import Mathlib.Tactic.Ring

/-!
# Basisnames.cpp: the bases of the legacy program (C55, C56)

`j` and `m` are doubled integers; the legacy code knows spin 1/2 only, so they are odd.
-/

namespace PI

/-- `StateOneOld` without its index (StateOld.hpp:48-110); equality compares these four numbers (StateOld.cpp:88-91). -/
structure Old1 where
  n : ℤ
  l : ℤ
  j : ℤ
  m : ℤ
deriving DecidableEq

/-- `delta_n`, `delta_l`, `delta_j`, `delta_m` (Basisnames.hpp:66). -/
structure Deltas where
  n : ℤ
  l : ℤ
  j : ℤ
  m : ℤ

/-- `for (int x = a; x <= b; ++x)`. -/
def upTo (a b : ℤ) : List ℤ := (List.range (b + 1 - a).toNat).map fun k : ℕ => a + k

/-- `for (float x = a; x <= b; ++x)` for doubled numbers. -/
def upTo2 (a b : ℤ) : List ℤ := (List.range ((b - a) / 2 + 1).toNat).map fun k : ℕ => a + 2 * k

/-- The four nested loops (Basisnames.cpp:152-167, 170-184, 211-226). -/
def neighbours (s : Old1) (d : Deltas) : List Old1 :=
  (upTo (max 0 (s.n - d.n)) (s.n + d.n)).flatMap fun n =>
  (upTo (max 0 (s.l - d.l)) (min (n - 1) (s.l + d.l))).flatMap fun l =>
  (upTo2 (max |2 * l - 1| (s.j - 2 * d.j)) (min (2 * l + 1) (s.j + 2 * d.j))).flatMap fun j =>
  (upTo2 (max (-j) (s.m - 2 * d.m)) (min j (s.m + 2 * d.m))).map fun m => ⟨n, l, j, m⟩

/-- The values used for negative deltas (Basisnames.cpp:137-150, 199-207); for a single state both arguments are equal.
The sums are converted to `int` (towards zero). -/
def fillDeltas (s t : Old1) (d : Deltas) : Deltas :=
  ⟨d.n,
   if d.l < 0 then max s.l t.l + max s.n t.n + d.n - 1 else d.l,
   if d.j < 0 then (max s.j t.j + 2 * max s.n t.n + 2 * d.n - 1).tdiv 2 else d.j,
   if d.m < 0 then (max s.m t.m + 2 * max s.n t.n + 2 * d.n - 1).tdiv 2 else d.m⟩

/-- Index and state. -/
abbrev Named (α : Type) := ℕ × α

/-- `emplace_back(idx++, ...)`. -/
def number {α : Type} (k : ℕ) : List α → List (Named α)
  | [] => []
  | x :: xs => (k, x) :: number (k + 1) xs

/-- `BasisnamesOne::build(StateOneOld, ...)` (Basisnames.cpp:189-229). -/
def buildOne (s : Old1) (d : Deltas) : List (Named Old1) := number 0 (neighbours s (fillDeltas s s d))

/-- Insertion into the unordered set: a state that is present already is not inserted and uses no index
(Basisnames.cpp:159-162, 177-180, 248-252). -/
def insertNew (l : List Old1) (x : Old1) : List Old1 := if x ∈ l then l else l ++ [x]

/-- `operator<` (StateOld.cpp:103-108), or equality. -/
def Old1.le (a b : Old1) : Bool :=
  decide (a.n < b.n ∨ (a.n = b.n ∧ (a.l < b.l ∨ (a.l = b.l ∧ (a.j < b.j ∨ (a.j = b.j ∧ a.m ≤ b.m))))))

/-- `std::set<StateOneOld> names_ordered(...)` and its copy (Basisnames.cpp:186-187, 256-257). -/
def orderNames (l : List (Named Old1)) : List (Named Old1) := l.insertionSort fun a b => a.2.le b.2 = true

/-- `BasisnamesOne::build(StateTwoOld, ...)` (Basisnames.cpp:119-188) for the ordered pair of start states. -/
def buildBoth (s t : Old1) (d : Deltas) : List (Named Old1) :=
  orderNames (number 0 ((neighbours s (fillDeltas s t d) ++ neighbours t (fillDeltas s t d)).foldl insertNew []))

/-- The loop of `BasisnamesTwo::build` and `removeUnnecessaryStates` that sets `state_initial.idx`: the first state equal to the
initial one (equality of the quantum numbers, StateOld.cpp:226-229) sets it, otherwise the old value stays
(Basisnames.cpp:359-369, 415-423). -/
def findInitial {α : Type} [DecidableEq α] (init : α) (names : List (Named α)) (old : ℕ) : ℕ :=
  match names.find? fun x => decide (x.2 = init) with
  | some x => x.1
  | none => old

/-- `BasisnamesTwo::build` (Basisnames.cpp:393-430): the names and the index of the initial state, which is 0 before the loop
(StateOld.cpp:152-155). -/
def buildTwo (init : Old1 × Old1) (b1 b2 : List (Named Old1)) : List (Named (Old1 × Old1)) × ℕ :=
  let names := number 0 (b1.flatMap fun x => b2.map fun y => (x.2, y.2))
  (names, findInitial init names 0)

/-- The loop of `removeUnnecessaryStates` (Basisnames.cpp:263-281, 353-377); an index outside the mask is an access outside
of the vector. -/
def removeGo {α : Type} (mask : List Bool) (k : ℕ) : List (Named α) → Out (List (Named α))
  | [] => .ok []
  | x :: xs =>
    match mask[x.1]? with
    | none => .ub
    | some true =>
      match removeGo mask (k + 1) xs with
      | .ok r => .ok ((k, x.2) :: r)
      | .throw => .throw
      | .ub => .ub
    | some false => removeGo mask k xs

/-- `BasisnamesOne::removeUnnecessaryStates` (Basisnames.cpp:263-281). -/
def removeOne {α : Type} (mask : List Bool) (names : List (Named α)) : Out (List (Named α)) := removeGo mask 0 names

/-- `BasisnamesTwo::removeUnnecessaryStates` (Basisnames.cpp:353-377): the index of the initial state is updated if the state
is kept. -/
def removeTwo {α : Type} [DecidableEq α] (mask : List Bool) (init : α) (names : List (Named α)) (idx : ℕ) :
    Out (List (Named α) × ℕ) :=
  match removeGo mask 0 names with
  | .ok r => .ok (r, findInitial init r idx)
  | .throw => .throw
  | .ub => .ub

/-- `removeUnnecessaryStatesKeepIdx` (Basisnames.cpp:379-391). -/
def removeKeep {α : Type} (mask : List Bool) : List (Named α) → Out (List (Named α))
  | [] => .ok []
  | x :: xs =>
    match mask[x.1]? with
    | none => .ub
    | some b =>
      match removeKeep mask xs with
      | .ok r => .ok (if b then x :: r else r)
      | .throw => .throw
      | .ub => .ub

/-- `BasisnamesOne::build(StateOneOld, species, basis_two, i)` (Basisnames.cpp:230-261). -/
def buildFromTwo (second : Bool) (names : List (Named (Old1 × Old1))) : List (Named Old1) :=
  orderNames (number 0 ((names.map fun x => if second then x.2.2 else x.2.1).foldl insertNew []))

/-! ## Specification -/

/-- The quantum numbers are possible (spin 1/2, `j` and `m` doubled). -/
structure OldValid (s : Old1) : Prop where
  l0 : 0 ≤ s.l
  ln : s.l < s.n
  j : s.j = 2 * s.l + 1 ∨ s.j = |2 * s.l - 1|
  mj : |s.m| ≤ s.j
  mpar : s.m % 2 = 1

/-- A state lies in the requested neighbourhood; a negative delta means no restriction. -/
structure Near (s : Old1) (d : Deltas) (x : Old1) : Prop where
  n : |x.n - s.n| ≤ d.n
  l : d.l < 0 ∨ |x.l - s.l| ≤ d.l
  j : d.j < 0 ∨ |x.j - s.j| ≤ 2 * d.j
  m : d.m < 0 ∨ |x.m - s.m| ≤ 2 * d.m

/-! ## Loops -/

theorem mem_upTo {a b x : ℤ} : x ∈ upTo a b ↔ a ≤ x ∧ x ≤ b := by
  unfold upTo
  simp only [List.mem_map, List.mem_range]
  constructor
  · rintro ⟨k, hk, rfl⟩; omega
  · rintro ⟨h1, h2⟩
    exact ⟨(x - a).toNat, by omega, by omega⟩

theorem mem_upTo2 {a b x : ℤ} : x ∈ upTo2 a b ↔ a ≤ x ∧ x ≤ b ∧ (x - a) % 2 = 0 := by
  unfold upTo2
  simp only [List.mem_map, List.mem_range]
  constructor
  · rintro ⟨k, hk, rfl⟩; omega
  · rintro ⟨h1, h2, h3⟩
    exact ⟨((x - a) / 2).toNat, by omega, by omega⟩

theorem nodup_upTo (a b : ℤ) : (upTo a b).Nodup := by
  unfold upTo
  refine List.Nodup.map ?_ List.nodup_range
  intro x y h; simp only at h; omega

theorem nodup_upTo2 (a b : ℤ) : (upTo2 a b).Nodup := by
  unfold upTo2
  refine List.Nodup.map ?_ List.nodup_range
  intro x y h; simp only at h; omega

theorem nodup_flatMap_by {α β : Type} (L : List α) (f : α → List β) (key : β → α) (hL : L.Nodup)
    (hf : ∀ a ∈ L, (f a).Nodup) (hk : ∀ a ∈ L, ∀ x ∈ f a, key x = a) : (L.flatMap f).Nodup := by
  rw [List.nodup_flatMap]
  refine ⟨hf, ?_⟩
  have : L.Pairwise fun a b => a ≠ b := hL
  refine List.Pairwise.imp_of_mem ?_ this
  intro a b ha hb hab x hx hx'
  exact hab ((hk a ha x hx).symm.trans (hk b hb x hx'))

theorem nodup_neighbours (s : Old1) (d : Deltas) : (neighbours s d).Nodup := by
  unfold neighbours
  refine nodup_flatMap_by _ _ (·.n) (nodup_upTo _ _) ?_ ?_
  swap
  · intro n _ x hx
    simp only [List.mem_flatMap, List.mem_map] at hx
    obtain ⟨_, _, _, _, _, _, rfl⟩ := hx; rfl
  intro n _
  refine nodup_flatMap_by _ _ (·.l) (nodup_upTo _ _) ?_ ?_
  swap
  · intro l _ x hx
    simp only [List.mem_flatMap, List.mem_map] at hx
    obtain ⟨_, _, _, _, rfl⟩ := hx; rfl
  intro l _
  refine nodup_flatMap_by _ _ (·.j) (nodup_upTo2 _ _) ?_ ?_
  swap
  · intro j _ x hx
    simp only [List.mem_map] at hx
    obtain ⟨_, _, rfl⟩ := hx; rfl
  intro j _
  refine List.Nodup.map ?_ (nodup_upTo2 _ _)
  intro a b h
  simp only [Old1.mk.injEq, true_and] at h
  exact h

/-- The loops produce exactly the possible states within non-negative deltas. -/
theorem mem_neighbours {s x : Old1} {d : Deltas} (hs : OldValid s) :
    x ∈ neighbours s d ↔ OldValid x ∧ |x.n - s.n| ≤ d.n ∧ |x.l - s.l| ≤ d.l ∧ |x.j - s.j| ≤ 2 * d.j ∧ |x.m - s.m| ≤ 2 * d.m := by
  have hsm := hs.mpar
  have hsl := hs.l0
  have hsn := hs.ln
  have hsj : s.j % 2 = 1 := by
    rcases hs.j with h | h
    · omega
    · rcases abs_cases (2 * s.l - 1) with h3 | h3 <;> omega
  unfold neighbours
  simp only [List.mem_flatMap, List.mem_map, mem_upTo, mem_upTo2]
  constructor
  · rintro ⟨n, ⟨n1, n2⟩, l, ⟨l1, l2⟩, j, ⟨j1, j2, j3⟩, m, ⟨m1, m2, m3⟩, rfl⟩
    rw [max_le_iff] at n1 l1 j1 m1
    rw [le_min_iff] at l2 j2 m2
    have hja : |2 * l - 1| % 2 = 1 := by rcases abs_cases (2 * l - 1) with h3 | h3 <;> omega
    have jodd : j % 2 = 1 := by
      rcases max_choice |2 * l - 1| (s.j - 2 * d.j) with h | h <;> rw [h] at j3 <;> omega
    have modd : m % 2 = 1 := by
      rcases max_choice (-j) (s.m - 2 * d.m) with h | h <;> rw [h] at m3 <;> omega
    refine ⟨⟨by dsimp only; omega, by dsimp only; omega, ?_, by dsimp only; rw [abs_le]; omega, by dsimp only; omega⟩, ?_, ?_, ?_, ?_⟩
    · dsimp only
      rcases abs_cases (2 * l - 1) with h3 | h3 <;> omega
    all_goals (dsimp only; rw [abs_le]; omega)
  · rintro ⟨hx, h1, h2, h3, h4⟩
    have hxl := hx.l0
    have hxn := hx.ln
    have hxm := hx.mpar
    have hmj := hx.mj
    have hxj : x.j % 2 = 1 ∧ |2 * x.l - 1| ≤ x.j ∧ x.j ≤ 2 * x.l + 1 ∧ |2 * x.l - 1| % 2 = 1 := by
      rcases hx.j with h | h <;> rcases abs_cases (2 * x.l - 1) with h3 | h3 <;> omega
    obtain ⟨g1, g2, g3, g4⟩ := hxj
    rw [abs_le] at h1 h2 h3 h4 hmj
    refine ⟨x.n, ⟨?_, ?_⟩, x.l, ⟨?_, ?_⟩, x.j, ⟨?_, ?_, ?_⟩, x.m, ⟨?_, ?_, ?_⟩, rfl⟩
    · rw [max_le_iff]; omega
    · omega
    · rw [max_le_iff]; omega
    · rw [le_min_iff]; omega
    · rw [max_le_iff]; omega
    · rw [le_min_iff]; omega
    · rcases max_choice |2 * x.l - 1| (s.j - 2 * d.j) with h | h <;> rw [h] <;> omega
    · rw [max_le_iff]; omega
    · rw [le_min_iff]; omega
    · rcases max_choice (-x.j) (s.m - 2 * d.m) with h | h <;> rw [h] <;> omega

/-- The substituted values impose no restriction, provided the largest magnetic quantum number of the start states is at least
the size of that of the state considered. -/
theorem fill_near {s t u x : Old1} {d : Deltas} (hs : OldValid s) (ht : OldValid t) (hu : u = s ∨ u = t) (hx : OldValid x) (hn : 0 ≤ d.n)
    (hm : 0 ≤ d.m ∨ |u.m| ≤ max s.m t.m) :
    (|x.n - u.n| ≤ d.n ∧ |x.l - u.l| ≤ (fillDeltas s t d).l ∧ |x.j - u.j| ≤ 2 * (fillDeltas s t d).j ∧ |x.m - u.m| ≤ 2 * (fillDeltas s t d).m) ↔
      Near u d x := by
  have hu' : OldValid u := by rcases hu with rfl | rfl <;> assumption
  have jb : ∀ {y : Old1}, OldValid y → 1 ≤ y.j ∧ y.j ≤ 2 * y.l + 1 ∧ y.j % 2 = 1 := by
    intro y hy
    have := hy.l0
    rcases hy.j with h | h <;> rcases abs_cases (2 * y.l - 1) with h3 | h3 <;> omega
  obtain ⟨a1, a2, a3⟩ := jb hs
  obtain ⟨b1, b2, b3⟩ := jb ht
  obtain ⟨c1, c2, c3⟩ := jb hx
  obtain ⟨e1, e2, e3⟩ := jb hu'
  have s1 := hs.l0; have s2 := hs.ln; have s3 := hs.mpar; have s4 := hs.mj
  have t1 := ht.l0; have t2 := ht.ln; have t3 := ht.mpar; have t4 := ht.mj
  have x1 := hx.l0; have x2 := hx.ln; have x3 := hx.mpar; have x4 := hx.mj
  have u1 := hu'.l0; have u2 := hu'.ln; have u3 := hu'.mpar; have u4 := hu'.mj
  have ml : u.l ≤ max s.l t.l := by rcases hu with rfl | rfl <;> simp
  have mn : u.n ≤ max s.n t.n := by rcases hu with rfl | rfl <;> simp
  have mj : u.j ≤ max s.j t.j := by rcases hu with rfl | rfl <;> simp
  have mm : u.m ≤ max s.m t.m := by rcases hu with rfl | rfl <;> simp
  have pj : max s.j t.j % 2 = 1 := by rcases max_choice s.j t.j with h | h <;> rw [h] <;> assumption
  have pm : max s.m t.m % 2 = 1 := by rcases max_choice s.m t.m with h | h <;> rw [h] <;> assumption
  have dj : (max s.j t.j + 2 * max s.n t.n + 2 * d.n - 1).tdiv 2 * 2 = max s.j t.j + 2 * max s.n t.n + 2 * d.n - 1 := by
    have : (2 : ℤ) ∣ (max s.j t.j + 2 * max s.n t.n + 2 * d.n - 1) := by omega
    rw [Int.tdiv_eq_ediv_of_dvd this]; omega
  have dm : (max s.m t.m + 2 * max s.n t.n + 2 * d.n - 1).tdiv 2 * 2 = max s.m t.m + 2 * max s.n t.n + 2 * d.n - 1 := by
    have : (2 : ℤ) ∣ (max s.m t.m + 2 * max s.n t.n + 2 * d.n - 1) := by omega
    rw [Int.tdiv_eq_ediv_of_dvd this]; omega
  rw [abs_le] at x4 u4
  constructor
  · rintro ⟨h1, h2, h3, h4⟩
    refine ⟨h1, ?_, ?_, ?_⟩
    · by_cases h : d.l < 0
      · exact Or.inl h
      · right; unfold fillDeltas at h2; simpa only [if_neg h] using h2
    · by_cases h : d.j < 0
      · exact Or.inl h
      · right; unfold fillDeltas at h3; simpa only [if_neg h] using h3
    · by_cases h : d.m < 0
      · exact Or.inl h
      · right; unfold fillDeltas at h4; simpa only [if_neg h] using h4
  · rintro ⟨h1, h2, h3, h4⟩
    have h1' := h1
    rw [abs_le] at h1'
    refine ⟨h1, ?_, ?_, ?_⟩
    · unfold fillDeltas
      dsimp only
      split
      · rw [abs_le]; omega
      · exact h2.resolve_left ‹_›
    · unfold fillDeltas
      dsimp only
      split
      · rw [abs_le]; omega
      · exact h3.resolve_left ‹_›
    · unfold fillDeltas
      dsimp only
      split
      · rename_i h
        have hm' := hm.resolve_left (by omega)
        rw [abs_le] at hm'
        rw [abs_le]; omega
      · exact h4.resolve_left ‹_›

/-! ## Numbering -/

theorem number_snd {α : Type} (k : ℕ) (L : List α) : (number k L).map (·.2) = L := by
  induction L generalizing k with
  | nil => rfl
  | cons x xs ih => simp [number, ih]

theorem number_fst {α : Type} (k : ℕ) (L : List α) : (number k L).map (·.1) = List.range' k L.length := by
  induction L generalizing k with
  | nil => rfl
  | cons x xs ih => simp [number, ih, List.range'_succ]

theorem number_getElem? {α : Type} (k : ℕ) (L : List α) (i : ℕ) : (number k L)[i]? = L[i]?.map fun x => (k + i, x) := by
  induction L generalizing k i with
  | nil => simp [number]
  | cons x xs ih =>
    cases i with
    | zero => simp [number]
    | succ i => simp [number, ih, Nat.add_assoc, Nat.add_comm 1 i]

theorem number_length {α : Type} (k : ℕ) (L : List α) : (number k L).length = L.length := by
  rw [← List.length_map (f := (·.2)), number_snd]

/-! ## C55: one-atom bases -/

/-- C55 (basis of one start state): the list contains each possible state of the requested neighbourhood exactly once, in the
order of its indices, a negative delta imposing no restriction; `0 ≤ delta_m` or `0 ≤ m` of the start state is needed. -/
theorem C55_single_partial (s : Old1) (d : Deltas) (hs : OldValid s) (hn : 0 ≤ d.n) (hm : 0 ≤ d.m ∨ 0 ≤ s.m) :
    ((buildOne s d).map (·.2)).Nodup ∧
    (∀ x, x ∈ (buildOne s d).map (·.2) ↔ OldValid x ∧ Near s d x) ∧
    (buildOne s d).map (·.1) = List.range (buildOne s d).length := by
  unfold buildOne
  refine ⟨?_, ?_, ?_⟩
  · rw [number_snd]; exact nodup_neighbours _ _
  · intro x
    rw [number_snd, mem_neighbours hs]
    have hm' : 0 ≤ d.m ∨ |s.m| ≤ max s.m s.m := by
      refine hm.imp id fun h => ?_
      rw [abs_of_nonneg h, max_self]
    constructor
    · rintro ⟨hx, h⟩
      exact ⟨hx, (fill_near hs hs (Or.inl rfl) hx hn hm').1 h⟩
    · rintro ⟨hx, h⟩
      exact ⟨hx, (fill_near hs hs (Or.inl rfl) hx hn hm').2 h⟩
  · rw [number_fst, number_length, List.range_eq_range']

/-- Example: 70 S with all deltas. -/
example : OldValid ⟨70, 0, 1, 1⟩ ∧ (0 : ℤ) ≤ 3 ∧ ((0 : ℤ) ≤ -1 ∨ (0 : ℤ) ≤ 1) :=
  ⟨⟨by decide, by decide, Or.inl rfl, by decide, rfl⟩, by decide, Or.inr (by decide)⟩

/-- C55 does not hold for a start state with negative `m` and no restriction on it: the value substituted for the negative delta
is too small. Around `|2 P 3/2, -3/2>` with `delta_n = 0`, the state `m = 3/2` of the same level is missing. -/
theorem C55_negative_m_fails :
    ∃ s d x, OldValid s ∧ 0 ≤ d.n ∧ d.m < 0 ∧ OldValid x ∧ Near s d x ∧ x ∉ (buildOne s d).map (·.2) := by
  refine ⟨⟨2, 1, 3, -3⟩, ⟨0, 0, 0, -1⟩, ⟨2, 1, 3, 3⟩, ⟨by decide, by decide, Or.inl rfl, by decide, rfl⟩, by decide, by decide,
    ⟨by decide, by decide, Or.inl rfl, by decide, rfl⟩, ⟨by decide, Or.inr (by decide), Or.inr (by decide), Or.inl (by decide)⟩, ?_⟩
  decide +kernel

theorem mem_insertNew {l : List Old1} {x y : Old1} : y ∈ insertNew l x ↔ y ∈ l ∨ y = x := by
  unfold insertNew
  split_ifs with h
  · constructor
    · exact Or.inl
    · rintro (h' | rfl) <;> assumption
  · simp

theorem nodup_insertNew {l : List Old1} {x : Old1} (h : l.Nodup) : (insertNew l x).Nodup := by
  unfold insertNew
  split_ifs with hx
  · exact h
  · rw [List.nodup_append]
    refine ⟨h, List.nodup_singleton x, ?_⟩
    intro a ha b hb
    rw [List.mem_singleton] at hb
    subst hb
    rintro rfl
    exact hx ha

theorem foldl_insertNew (L acc : List Old1) (h : acc.Nodup) :
    (L.foldl insertNew acc).Nodup ∧ ∀ y, y ∈ L.foldl insertNew acc ↔ y ∈ acc ∨ y ∈ L := by
  induction L generalizing acc with
  | nil => exact ⟨h, by simp⟩
  | cons x xs ih =>
    obtain ⟨a, b⟩ := ih (insertNew acc x) (nodup_insertNew h)
    refine ⟨a, fun y => ?_⟩
    rw [List.foldl_cons, b, mem_insertNew, List.mem_cons, or_assoc]

/-- The order of the states (lexicographic in `n`, `l`, `j`, `m`). -/
def Old1.Before (a b : Old1) : Prop :=
  a.n < b.n ∨ (a.n = b.n ∧ (a.l < b.l ∨ (a.l = b.l ∧ (a.j < b.j ∨ (a.j = b.j ∧ a.m < b.m)))))

theorem orderNames_props (L : List Old1) (h : L.Nodup) :
    ((orderNames (number 0 L)).map (·.2)).Pairwise Old1.Before ∧
    (∀ x, x ∈ (orderNames (number 0 L)).map (·.2) ↔ x ∈ L) ∧
    ((orderNames (number 0 L)).map (·.1)).Perm (List.range L.length) ∧
    (orderNames (number 0 L)).length = L.length := by
  have hp : (orderNames (number 0 L)).Perm (number 0 L) := List.perm_insertionSort _ _
  have hsort : (orderNames (number 0 L)).Pairwise fun a b => a.2.le b.2 = true := by
    have : Std.Total fun a b : Named Old1 => a.2.le b.2 = true := ⟨by
      intro a b
      simp only [Old1.le, decide_eq_true_eq]
      omega⟩
    have : IsTrans (Named Old1) fun a b => a.2.le b.2 = true := ⟨by
      intro a b c hab hbc
      simp only [Old1.le, decide_eq_true_eq] at hab hbc ⊢
      omega⟩
    exact List.pairwise_insertionSort _ _
  have hnd : ((orderNames (number 0 L)).map (·.2)).Nodup := by
    have := hp.map (·.2)
    rw [number_snd] at this
    exact this.nodup_iff.2 h
  refine ⟨?_, ?_, ?_, ?_⟩
  · have h1 : ((orderNames (number 0 L)).map (·.2)).Pairwise fun a b => a.le b = true := by
      rw [List.pairwise_map]; exact hsort
    refine (h1.and hnd).imp ?_
    rintro ⟨an, al, aj, am⟩ ⟨bn, bl, bj, bm⟩ ⟨hle, hne⟩
    simp only [Old1.le, decide_eq_true_eq] at hle
    simp only [ne_eq, Old1.mk.injEq] at hne
    simp only [Old1.Before]
    omega
  · intro x
    have := (hp.map (·.2)).mem_iff (a := x)
    rw [number_snd] at this
    exact this
  · have := hp.map (·.1)
    rw [number_fst, ← List.range_eq_range'] at this
    exact this
  · rw [hp.length_eq, number_length]

/-- C55 (common basis of two start states): the list is sorted, so free of duplicates, contains exactly the possible states in
one of the two neighbourhoods, and its indices are 0, 1, ... in some order. -/
theorem C55_both_partial (s t : Old1) (d : Deltas) (hs : OldValid s) (ht : OldValid t) (hn : 0 ≤ d.n)
    (hm : 0 ≤ d.m ∨ (|s.m| ≤ max s.m t.m ∧ |t.m| ≤ max s.m t.m)) :
    ((buildBoth s t d).map (·.2)).Pairwise Old1.Before ∧
    (∀ x, x ∈ (buildBoth s t d).map (·.2) ↔ OldValid x ∧ (Near s d x ∨ Near t d x)) ∧
    ((buildBoth s t d).map (·.1)).Perm (List.range (buildBoth s t d).length) := by
  unfold buildBoth
  obtain ⟨h1, h2⟩ := foldl_insertNew (neighbours s (fillDeltas s t d) ++ neighbours t (fillDeltas s t d)) [] List.nodup_nil
  obtain ⟨g1, g2, g3, g4⟩ := orderNames_props _ h1
  refine ⟨g1, fun x => ?_, by rw [g4]; exact g3⟩
  rw [g2, h2]
  simp only [List.not_mem_nil, false_or, List.mem_append, mem_neighbours hs, mem_neighbours ht]
  have A := fun hx : OldValid x => fill_near hs ht (Or.inl rfl) hx hn (hm.imp id fun h => h.1)
  have B := fun hx : OldValid x => fill_near hs ht (Or.inr rfl) hx hn (hm.imp id fun h => h.2)
  constructor
  · rintro (⟨hx, h⟩ | ⟨hx, h⟩)
    · exact ⟨hx, Or.inl ((A hx).1 h)⟩
    · exact ⟨hx, Or.inr ((B hx).1 h)⟩
  · rintro ⟨hx, h | h⟩
    · exact Or.inl ⟨hx, (A hx).2 h⟩
    · exact Or.inr ⟨hx, (B hx).2 h⟩

/-- Example: two start states with positive `m`, no restriction on `m`. -/
example : OldValid ⟨70, 0, 1, 1⟩ ∧ OldValid ⟨71, 1, 3, 3⟩ ∧ |(1 : ℤ)| ≤ max 1 3 ∧ |(3 : ℤ)| ≤ max 1 3 :=
  ⟨⟨by decide, by decide, Or.inl rfl, by decide, rfl⟩, ⟨by decide, by decide, Or.inl rfl, by decide, rfl⟩, by decide, by decide⟩

/-- The stored indices need not be the positions: with start states `|2 P 1/2, 1/2>` and `|3 S 1/2, 1/2>`, `delta_n = 1` and
`delta_l = 0`, `|2 S 1/2>` comes first in the list but carries a later index than `|2 P 1/2>`. -/
theorem C55_index_is_not_position :
    ∃ s t d, OldValid s ∧ OldValid t ∧ 0 ≤ d.n ∧ 0 ≤ d.m ∧
      (buildBoth s t d).map (·.1) ≠ List.range (buildBoth s t d).length := by
  refine ⟨⟨2, 1, 1, 1⟩, ⟨3, 0, 1, 1⟩, ⟨1, 0, 0, 0⟩, ⟨by decide, by decide, Or.inr rfl, by decide, rfl⟩,
    ⟨by decide, by decide, Or.inl rfl, by decide, rfl⟩, by decide, by decide, ?_⟩
  decide +kernel

/-! ## C56: pair bases -/

theorem getElem?_product {α β γ : Type} (f : α → β → γ) (L : List α) (M : List β) (i k : ℕ) (hk : k < M.length) :
    (L.flatMap fun x => M.map fun y => f x y)[i * M.length + k]? = (L[i]?).bind fun x => (M[k]?).map fun y => f x y := by
  induction L generalizing i with
  | nil => simp
  | cons x xs ih =>
    rw [List.flatMap_cons]
    cases i with
    | zero =>
      rw [Nat.zero_mul, Nat.zero_add, List.getElem?_append_left (by simpa using hk)]
      simp
    | succ i =>
      rw [List.getElem?_append_right (by simp; nlinarith), List.length_map,
        show (i + 1) * M.length + k - M.length = i * M.length + k by
          rw [Nat.add_mul, Nat.one_mul]; omega, ih]
      simp

/-- C56: the pair basis lists the combination of the `i1`-th and the `i2`-th one-atom state at position `i1 N2 + i2`, with this
index, and nothing else; it has no duplicates if the one-atom bases have none. -/
theorem C56_pair_basis (init : Old1 × Old1) (b1 b2 : List (Named Old1)) :
    (buildTwo init b1 b2).1.length = b1.length * b2.length ∧
    (∀ i1 i2 x y, b1[i1]? = some x → b2[i2]? = some y →
      (buildTwo init b1 b2).1[i1 * b2.length + i2]? = some (i1 * b2.length + i2, (x.2, y.2))) ∧
    ((b1.map (·.2)).Nodup → (b2.map (·.2)).Nodup → ((buildTwo init b1 b2).1.map (·.2)).Nodup) := by
  refine ⟨?_, ?_, ?_⟩
  · simp [buildTwo, number_length, List.length_flatMap]
  · intro i1 i2 x y h1 h2
    have hk : i2 < b2.length := (List.getElem?_eq_some_iff.1 h2).1
    simp only [buildTwo]
    rw [number_getElem?, getElem?_product (fun x y : Named Old1 => (x.2, y.2)) b1 b2 i1 i2 hk, h1, h2]
    simp
  · intro h1 h2
    simp only [buildTwo, number_snd]
    have : (b1.flatMap fun x => b2.map fun y => (x.2, y.2)) = (b1.map (·.2)).product (b2.map (·.2)) := by
      simp [List.product, List.flatMap_map, List.map_map, Function.comp_def]
    rw [this]
    exact h1.product h2

theorem findInitial_spec {α : Type} [DecidableEq α] (init : α) (L : List α) (old : ℕ) :
    (init ∈ L → L[findInitial init (number 0 L) old]? = some init) ∧
    (init ∉ L → findInitial init (number 0 L) old = old) := by
  unfold findInitial
  constructor
  · intro h
    cases hf : (number 0 L).find? fun x => decide (x.2 = init) with
    | none =>
      exfalso
      rw [List.find?_eq_none] at hf
      have : init ∈ (number 0 L).map (·.2) := by rw [number_snd]; exact h
      obtain ⟨x, hx, hx'⟩ := List.mem_map.1 this
      exact hf x hx (by simpa using hx')
    | some x =>
      have h1 := List.find?_some hf
      have h2 := List.mem_of_find?_eq_some hf
      simp only [decide_eq_true_eq] at h1
      obtain ⟨i, hi⟩ := List.mem_iff_getElem?.1 h2
      rw [number_getElem?] at hi
      cases hL : L[i]? with
      | none => rw [hL] at hi; simp at hi
      | some a =>
        rw [hL] at hi
        simp only [Option.map_some, Option.some.injEq] at hi
        subst hi
        simp only [Nat.zero_add] at h1 ⊢
        rw [hL, h1]
  · intro h
    have hf : (number 0 L).find? (fun x => decide (x.2 = init)) = none := by
      rw [List.find?_eq_none]
      intro x hx
      have : x.2 ∈ (number 0 L).map (·.2) := List.mem_map_of_mem hx
      rw [number_snd] at this
      simp only [decide_eq_true_eq]
      rintro rfl
      exact h this
    rw [hf]

/-- C56: the recorded index of the initial state is its position if the basis contains it. -/
theorem C56_initial (init : Old1 × Old1) (b1 b2 : List (Named Old1))
    (h1 : init.1 ∈ b1.map (·.2)) (h2 : init.2 ∈ b2.map (·.2)) :
    ((buildTwo init b1 b2).1.map (·.2))[(buildTwo init b1 b2).2]? = some init := by
  simp only [buildTwo, number_snd]
  refine (findInitial_spec init _ 0).1 ?_
  obtain ⟨x, hx, hx'⟩ := List.mem_map.1 h1
  obtain ⟨y, hy, hy'⟩ := List.mem_map.1 h2
  refine List.mem_flatMap.2 ⟨x, hx, List.mem_map.2 ⟨y, hy, ?_⟩⟩
  rw [hx', hy']

theorem removeGo_spec {α : Type} (mask : List Bool) (k : ℕ) (L : List (Named α)) :
    ((∀ x ∈ L, x.1 < mask.length) →
      removeGo mask k L = .ok (number k ((L.filter fun x => mask.getD x.1 false).map (·.2)))) ∧
    (¬ (∀ x ∈ L, x.1 < mask.length) → removeGo mask k L = .ub) := by
  induction L generalizing k with
  | nil => exact ⟨fun _ => rfl, fun h => absurd (by simp) h⟩
  | cons x xs ih =>
    constructor
    · intro h
      have hx : x.1 < mask.length := h x (by simp)
      have hxs : ∀ y ∈ xs, y.1 < mask.length := fun y hy => h y (by simp [hy])
      unfold removeGo
      rw [List.getElem?_eq_getElem hx, List.filter_cons]
      have hg : mask.getD x.1 false = mask[x.1] := by simp [List.getD, hx]
      rw [hg]
      cases hb : mask[x.1] with
      | true => simp [(ih (k + 1)).1 hxs, number]
      | false => simp [(ih k).1 hxs]
    · intro h
      unfold removeGo
      by_cases hx : x.1 < mask.length
      · have hxs : ¬ ∀ y ∈ xs, y.1 < mask.length := by
          intro h'
          exact h (by intro y hy; rcases List.mem_cons.1 hy with rfl | hy; exacts [hx, h' y hy])
        rw [List.getElem?_eq_getElem hx]
        cases hb : mask[x.1] with
        | true => simp [(ih (k + 1)).2 hxs]
        | false => simp [(ih k).2 hxs]
      · rw [List.getElem?_eq_none (by omega)]

/-- C56 (removal, both classes): the states whose index is marked stay, in their order, and the indices become the positions. -/
theorem C56_remove {α : Type} (mask : List Bool) (names : List (Named α)) (h : ∀ x ∈ names, x.1 < mask.length) :
    ∃ r, removeOne mask names = .ok r ∧
      r.map (·.2) = (names.filter fun x => mask.getD x.1 false).map (·.2) ∧ r.map (·.1) = List.range r.length := by
  refine ⟨_, (removeGo_spec mask 0 names).1 h, number_snd _ _, ?_⟩
  rw [number_fst, number_length, List.range_eq_range']

/-- Without a mask entry for each index the code reads outside of the mask. -/
theorem C56_remove_short_mask {α : Type} (mask : List Bool) (names : List (Named α)) (h : ∃ x ∈ names, mask.length ≤ x.1) :
    removeOne mask names = .ub := by
  refine (removeGo_spec mask 0 names).2 ?_
  obtain ⟨x, hx, hx'⟩ := h
  intro h'
  have := h' x hx
  omega

/-- C56: removal makes the indices of the common basis of two start states the positions, whatever they were before. -/
theorem C56_remove_reindexes (s t : Old1) (d : Deltas) (mask : List Bool) (h : mask.length = (buildBoth s t d).length) :
    ∃ r, removeOne mask (buildBoth s t d) = .ok r ∧ r.map (·.1) = List.range r.length ∧
      (r.map (·.2)).Sublist ((buildBoth s t d).map (·.2)) := by
  have hb : ∀ x ∈ buildBoth s t d, x.1 < mask.length := by
    intro x hx
    unfold buildBoth at hx h
    obtain ⟨h1, _⟩ := foldl_insertNew (neighbours s (fillDeltas s t d) ++ neighbours t (fillDeltas s t d)) [] List.nodup_nil
    obtain ⟨_, _, g3, g4⟩ := orderNames_props _ h1
    have := g3.mem_iff.1 (List.mem_map_of_mem hx)
    rw [h, g4]
    exact List.mem_range.1 this
  obtain ⟨r, h1, h2, h3⟩ := C56_remove mask _ hb
  refine ⟨r, h1, h3, ?_⟩
  rw [h2]
  exact List.Sublist.map _ List.filter_sublist

/-- C56: after the removal of pair states the recorded index of the initial state is its position, provided the state was kept. -/
theorem C56_initial_kept_partial {α : Type} [DecidableEq α] (mask : List Bool) (init : α) (names : List (Named α)) (idx : ℕ)
    (h : ∀ x ∈ names, x.1 < mask.length) (hk : ∃ x ∈ names, x.2 = init ∧ mask.getD x.1 false = true) :
    ∃ r i, removeTwo mask init names idx = .ok (r, i) ∧
      r.map (·.2) = (names.filter fun x => mask.getD x.1 false).map (·.2) ∧ r.map (·.1) = List.range r.length ∧
      (r.map (·.2))[i]? = some init := by
  obtain ⟨r, h1, h2, h3⟩ := C56_remove mask names h
  have hr : r = number 0 ((names.filter fun x => mask.getD x.1 false).map (·.2)) := by
    have := (removeGo_spec mask 0 names).1 h
    unfold removeOne at h1
    rw [this] at h1
    exact (Out.ok.inj h1).symm
  unfold removeOne at h1
  refine ⟨r, _, by unfold removeTwo; rw [h1], h2, h3, ?_⟩
  rw [hr, number_snd]
  refine (findInitial_spec init _ idx).1 ?_
  obtain ⟨x, hx, hx', hm⟩ := hk
  exact List.mem_map.2 ⟨x, List.mem_filter.2 ⟨hx, hm⟩, hx'⟩

/-- Example: two pair states, the second one is kept and is the initial one. -/
example : ∃ r, removeTwo [false, true] 8 [(0, 7), (1, 8)] 1 = .ok (r, 0) := ⟨_, rfl⟩

/-- C56 does not hold if the initial state itself is removed (or absent from the beginning): its recorded index stays and names
another state. -/
theorem C56_initial_removed_fails :
    ∃ (mask : List Bool) (init : ℕ) (names : List (Named ℕ)) (idx : ℕ) (r : List (Named ℕ)) (i : ℕ),
      (names.map (·.2))[idx]? = some init ∧ removeTwo mask init names idx = .ok (r, i) ∧ ∃ y, (r.map (·.2))[i]? = some y ∧ y ≠ init :=
  ⟨[false, true], 7, [(0, 7), (1, 8)], 0, [(0, 8)], 0, rfl, rfl, 8, rfl, by decide⟩

/-- C56: the variant that keeps the indices removes exactly the unmarked states and changes nothing else. -/
theorem C56_remove_keep {α : Type} (mask : List Bool) (names : List (Named α)) (h : ∀ x ∈ names, x.1 < mask.length) :
    removeKeep mask names = .ok (names.filter fun x => mask.getD x.1 false) := by
  induction names with
  | nil => rfl
  | cons x xs ih =>
    have hx : x.1 < mask.length := h x (by simp)
    unfold removeKeep
    rw [ih fun y hy => h y (by simp [hy]), List.getElem?_eq_getElem hx, List.filter_cons]
    have hg : mask.getD x.1 false = mask[x.1] := by simp [List.getD, hx]
    rw [hg]

/-- C56: the one-atom basis recovered from a pair basis is sorted and contains exactly the states of that atom. -/
theorem C56_from_two (second : Bool) (names : List (Named (Old1 × Old1))) :
    ((buildFromTwo second names).map (·.2)).Pairwise Old1.Before ∧
    (∀ x, x ∈ (buildFromTwo second names).map (·.2) ↔ ∃ y ∈ names, (if second then y.2.2 else y.2.1) = x) ∧
    ((buildFromTwo second names).map (·.1)).Perm (List.range (buildFromTwo second names).length) := by
  unfold buildFromTwo
  obtain ⟨h1, h2⟩ := foldl_insertNew (names.map fun x => if second then x.2.2 else x.2.1) [] List.nodup_nil
  obtain ⟨g1, g2, g3, g4⟩ := orderNames_props _ h1
  refine ⟨g1, fun x => ?_, by rw [g4]; exact g3⟩
  rw [g2, h2]
  simp

end PI
