import Verif.Pert.Model
import Mathlib.Data.List.Perm.Basic
import Mathlib.Data.List.Nodup
import Mathlib.Tactic.Linarith
import Mathlib.Tactic.Ring
import Mathlib.Tactic.NormNum
import Mathlib.Tactic.LinearCombination
import Mathlib.Algebra.Order.Floor.Ring
import Mathlib.Data.Complex.Basic

/-!
# C48-C50, C75: perturbative C3, C6 and energies

## Specification
-/

namespace PI

/-- The quantum numbers of a one-atom state are possible (doubled `s`, `j`, `m`). -/
structure ValidQ (a : QA) : Prop where
  l0 : 0 ≤ a.l
  ln : a.l < a.n
  s0 : 0 ≤ a.s
  jlo : |2 * a.l - a.s| ≤ a.j
  jhi : a.j ≤ 2 * a.l + a.s
  jpar : (a.j - a.s) % 2 = 0
  mj : |a.m| ≤ a.j
  mpar : (a.m - a.j) % 2 = 0

/-- The electric dipole selection rules between two states of one atom. -/
structure DipoleStep (a v : QA) : Prop where
  sp : v.sp = a.sp
  s : v.s = a.s
  l : v.l = a.l + 1 ∨ v.l = a.l - 1
  j : |v.j - a.j| ≤ 2
  m : |v.m - a.m| ≤ 2

/-! ## The loops -/

theorem mem_intRange {a b x : ℤ} : x ∈ intRange a b ↔ a ≤ x ∧ x ≤ b := by
  unfold intRange
  simp only [List.mem_map, List.mem_range]
  constructor
  · rintro ⟨k, hk, rfl⟩; omega
  · rintro ⟨h1, h2⟩
    exact ⟨(x - a).toNat, by omega, by omega⟩

theorem nodup_intRange (a b : ℤ) : (intRange a b).Nodup := by
  unfold intRange
  refine List.Nodup.map ?_ List.nodup_range
  intro x y h
  simp only at h
  omega

theorem mem_nLoop_nat {lo hi x : ℤ} {D : ℕ} : x ∈ nLoop lo hi (D : ℚ) ↔ lo - D ≤ x ∧ x ≤ hi + D := by
  unfold nLoop
  rw [mem_intRange]
  have h1 : truncQ ((lo : ℚ) - (D : ℚ)) = lo - D := by
    unfold truncQ
    have e : ((lo : ℚ) - (D : ℚ)) = ((lo - (D : ℤ) : ℤ) : ℚ) := by push_cast; ring
    rw [e]; split <;> simp
  have h2 : ⌊((hi : ℚ) + (D : ℚ))⌋ = hi + D := by
    have e : ((hi : ℚ) + (D : ℚ)) = ((hi + (D : ℤ) : ℤ) : ℚ) := by push_cast; ring
    rw [e]; simp
  rw [h1, h2]

/-- For a fractional `deltaN` nothing inside the range is missed. -/
theorem mem_nLoop_of {lo hi x : ℤ} {δ : ℚ} (h1 : (lo : ℚ) - δ ≤ x) (h2 : (x : ℚ) ≤ hi + δ) : x ∈ nLoop lo hi δ := by
  unfold nLoop
  rw [mem_intRange]
  refine ⟨?_, Int.le_floor.2 h2⟩
  unfold truncQ
  split
  · exact_mod_cast (Int.floor_le _).trans h1
  · exact Int.ceil_le.2 h1

theorem nodup_nLoop (lo hi : ℤ) (δ : ℚ) : (nLoop lo hi δ).Nodup := nodup_intRange _ _

theorem mem_lLoop {l n x : ℤ} : x ∈ lLoop l n ↔ (0 < l ∧ x = l - 1) ∨ (l < n - 1 ∧ x = l + 1) := by
  unfold lLoop
  rw [List.mem_append]
  by_cases h1 : 0 < l <;> by_cases h2 : l < n - 1 <;> simp [h1, h2]

theorem nodup_lLoop (l n : ℤ) : (lLoop l n).Nodup := by
  unfold lLoop
  by_cases h1 : 0 < l <;> by_cases h2 : l < n - 1 <;> simp [h1, h2]
  omega

theorem mem_setIns {x y : ℤ} {l : List ℤ} : y ∈ setIns x l ↔ y = x ∨ y ∈ l := by
  unfold setIns
  by_cases h : x ∈ l
  · rw [if_pos h]
    exact ⟨Or.inr, fun h' => h'.elim (fun e => e ▸ h) id⟩
  · rw [if_neg h, List.mem_append, List.mem_singleton]; tauto

theorem nodup_setIns {x : ℤ} {l : List ℤ} (hl : l.Nodup) : (setIns x l).Nodup := by
  unfold setIns
  by_cases h : x ∈ l
  · rw [if_pos h]; exact hl
  · rw [if_neg h, List.nodup_append]
    refine ⟨hl, List.nodup_singleton _, ?_⟩
    intro a ha b hb
    rw [List.mem_singleton] at hb
    rintro rfl
    exact h (hb ▸ ha)

theorem foldl_setIns (xs l : List ℤ) (hl : l.Nodup) :
    (xs.foldl (fun r x => setIns x r) l).Nodup ∧ ∀ y, y ∈ xs.foldl (fun r x => setIns x r) l ↔ y ∈ xs ∨ y ∈ l := by
  induction xs generalizing l with
  | nil => simp [hl]
  | cons x xs ih =>
    rw [List.foldl_cons]
    obtain ⟨h1, h2⟩ := ih (setIns x l) (nodup_setIns hl)
    refine ⟨h1, fun y => ?_⟩
    rw [h2, mem_setIns, List.mem_cons]; tauto

/-- The set before the intermediate values are inserted. -/
def jEnds (l s j : ℤ) : List ℤ :=
  if |2 * l + s - j| < 4 then setIns (2 * l + s) (if |(|2 * l - s|) - j| < 4 then [|2 * l - s|] else [])
  else (if |(|2 * l - s|) - j| < 4 then [|2 * l - s|] else [])

theorem mem_jEnds {l s j x : ℤ} : x ∈ jEnds l s j ↔ (x = |2 * l - s| ∨ x = 2 * l + s) ∧ |x - j| < 4 := by
  unfold jEnds
  have hb : x ∈ (if |(|2 * l - s|) - j| < 4 then [|2 * l - s|] else []) ↔ x = |2 * l - s| ∧ |x - j| < 4 := by
    split
    · rename_i h; rw [List.mem_singleton]
      exact ⟨fun e => ⟨e, e ▸ h⟩, fun e => e.1⟩
    · rename_i h
      simp only [List.not_mem_nil, false_iff]
      rintro ⟨rfl, h2⟩; exact h h2
  split
  · rename_i h
    rw [mem_setIns, hb]
    constructor
    · rintro (rfl | h1)
      · exact ⟨Or.inr rfl, h⟩
      · exact ⟨Or.inl h1.1, h1.2⟩
    · rintro ⟨h1 | h1, h2⟩
      · exact Or.inr ⟨h1, h2⟩
      · exact Or.inl h1
  · rename_i h
    rw [hb]
    constructor
    · rintro h1; exact ⟨Or.inl h1.1, h1.2⟩
    · rintro ⟨h1 | h1, h2⟩
      · exact ⟨h1, h2⟩
      · rw [h1] at h2; exact absurd h2 h

theorem nodup_jEnds (l s j : ℤ) : (jEnds l s j).Nodup := by
  unfold jEnds
  have hb : (if |(|2 * l - s|) - j| < 4 then [|2 * l - s|] else []).Nodup := by split <;> simp
  split
  · exact nodup_setIns hb
  · exact hb

theorem jLoop_eq (l s j : ℤ) : jLoop l s j =
    if (jEnds l s j).length = 2 then
      ((List.range ((2 * l + s - |2 * l - s| + 1) / 2 - 1).toNat).map fun k : ℕ => |2 * l - s| + 2 * (k + 1)).foldl
        (fun r x => setIns x r) (jEnds l s j)
    else jEnds l s j := rfl

theorem nodup_jLoop (l s j : ℤ) : (jLoop l s j).Nodup := by
  rw [jLoop_eq]
  split
  · exact (foldl_setIns _ _ (nodup_jEnds l s j)).1
  · exact nodup_jEnds l s j

/-- For spins 0 and 1/2 the inserted values are exactly the possible ones. -/
theorem mem_jLoop_small {l s j x : ℤ} (hs : s = 0 ∨ s = 1) (hl : 0 ≤ l) : x ∈ jLoop l s j ↔ x ∈ jEnds l s j := by
  rw [jLoop_eq]
  split
  · rw [(foldl_setIns _ _ (nodup_jEnds l s j)).2]
    have : ((2 * l + s - |2 * l - s| + 1) / 2 - 1).toNat = 0 := by
      have := abs_nonneg (2 * l - s)
      rcases hs with rfl | rfl
      · rw [abs_of_nonneg (by omega)]; omega
      · by_cases h0 : l = 0
        · subst h0; norm_num
        · rw [abs_of_nonneg (by omega)]; omega
    rw [this]; simp
  · rfl

/-- For every spin the inserted values obey the selection rule. -/
theorem mem_jLoop_sound {l s j x : ℤ} (hl : 0 ≤ l) (hs : 0 ≤ s) (h : x ∈ jLoop l s j) :
    |2 * l - s| ≤ x ∧ x ≤ 2 * l + s ∧ |x - j| < 4 ∧ (x - s) % 2 = 0 := by
  have ends : ∀ y, y ∈ jEnds l s j → |2 * l - s| ≤ y ∧ y ≤ 2 * l + s ∧ |y - j| < 4 ∧ (y - s) % 2 = 0 := by
    intro y hy
    rw [mem_jEnds] at hy
    obtain ⟨h1 | h1, h2⟩ := hy
    · refine ⟨h1.ge, ?_, h2, ?_⟩ <;> rw [h1] <;> rcases abs_cases (2 * l - s) with h3 | h3 <;> omega
    · refine ⟨?_, h1.le, h2, ?_⟩ <;> rw [h1] <;> rcases abs_cases (2 * l - s) with h3 | h3 <;> omega
  rw [jLoop_eq] at h
  split at h
  · rename_i h2
    rw [(foldl_setIns _ _ (nodup_jEnds l s j)).2] at h
    rcases h with h | h
    · rw [List.mem_map] at h
      obtain ⟨k, hk, rfl⟩ := h
      rw [List.mem_range] at hk
      -- both ends are in the set
      have hlo : |(|2 * l - s|) - j| < 4 ∧ |2 * l + s - j| < 4 := by
        unfold jEnds at h2
        by_cases e1 : |(|2 * l - s|) - j| < 4 <;> by_cases e2 : |2 * l + s - j| < 4
        · exact ⟨e1, e2⟩
        · rw [if_neg e2, if_pos e1] at h2; simp at h2
        · rw [if_pos e2, if_neg e1] at h2; simp [setIns] at h2
        · rw [if_neg e2, if_neg e1] at h2; simp at h2
      obtain ⟨g1, g2⟩ := hlo
      rw [abs_lt] at g1 g2
      refine ⟨by omega, by omega, ?_, ?_⟩
      · rw [abs_lt]; omega
      · rcases abs_cases (2 * l - s) with h3 | h3 <;> omega
    · exact ends x h
  · exact ends x h

theorem mem_qLoop {t : Bool} {q : ℤ × ℤ} :
    q ∈ qLoop t ↔ |q.1| ≤ 1 ∧ |q.2| ≤ 1 ∧ (t = true ∨ q.1 + q.2 = 0) := by
  obtain ⟨a, b⟩ := q
  have key : |a| ≤ 1 ↔ (a = -1 ∨ a = 0 ∨ a = 1) := by rw [abs_le]; omega
  have key2 : |b| ≤ 1 ↔ (b = -1 ∨ b = 0 ∨ b = 1) := by rw [abs_le]; omega
  simp only [key, key2]
  unfold qLoop
  cases t
  · simp only [Bool.false_eq_true, if_false, List.mem_cons, Prod.mk.injEq, List.not_mem_nil, or_false, false_or]; omega
  · simp only [if_true, List.mem_cons, Prod.mk.injEq, List.not_mem_nil, or_false, true_or, and_true]; omega

theorem nodup_qLoop (t : Bool) : (qLoop t).Nodup := by cases t <;> decide

/-! ## The scalar C6 -/

/-- One atom of a virtual state: what the loops over `n`, `l` and `j` produce. -/
def VLocal (δ : ℚ) (a v : QA) : Prop :=
  v.sp = a.sp ∧ v.s = a.s ∧ v.n ∈ nLoop a.n a.n δ ∧ v.l ∈ lLoop a.l v.n ∧ v.j ∈ jLoop v.l a.s a.j

theorem virtQ_some {a b : QA} {n0 n1 l0 l1 j0 j1 : ℤ} {q : ℤ × ℤ} {v : Virt} : virtQ a b n0 n1 l0 l1 j0 j1 q = some v ↔
    |a.m + 2 * q.1| ≤ j0 ∧ |b.m + 2 * q.2| ≤ j1 ∧
    v = ((⟨a.sp, n0, l0, a.s, j0, a.m + 2 * q.1⟩, ⟨b.sp, n1, l1, b.s, j1, b.m + 2 * q.2⟩), q) := by
  unfold virtQ
  by_cases h1 : j0 < |a.m + 2 * q.1|
  · rw [if_pos h1]; simp; intro h; omega
  · rw [if_neg h1]
    by_cases h2 : j1 < |b.m + 2 * q.2|
    · rw [if_pos h2]; simp; intro _ h; omega
    · rw [if_neg h2]; simp only [Option.some.injEq]
      exact ⟨fun h => ⟨not_lt.1 h1, not_lt.1 h2, h.symm⟩, fun h => h.2.2.symm⟩

theorem mem_virtuals {t : Bool} {δ : ℚ} {a b : QA} {v : Virt} : v ∈ virtuals t δ a b ↔
    VLocal δ a v.1.1 ∧ VLocal δ b v.1.2 ∧ v.2 ∈ qLoop t ∧ v.1.1.m = a.m + 2 * v.2.1 ∧ v.1.2.m = b.m + 2 * v.2.2 ∧
    |v.1.1.m| ≤ v.1.1.j ∧ |v.1.2.m| ≤ v.1.2.j := by
  unfold virtuals
  simp only [List.mem_flatMap, List.mem_filterMap, virtQ_some]
  constructor
  · rintro ⟨n0, h1, n1, h2, l0, h3, l1, h4, j0, h5, j1, h6, q, h7, h8, h9, rfl⟩
    exact ⟨⟨rfl, rfl, h1, h3, h5⟩, ⟨rfl, rfl, h2, h4, h6⟩, h7, rfl, rfl, h8, h9⟩
  · obtain ⟨⟨⟨sa, na, la, s_a, ja, ma⟩, ⟨sb, nb, lb, s_b, jb, mb⟩⟩, q⟩ := v
    rintro ⟨⟨e1, e2, h1, h3, h5⟩, ⟨e3, e4, h2, h4, h6⟩, h7, e5, e6, h8, h9⟩
    dsimp only at *
    subst e1 e2 e3 e4 e5 e6
    exact ⟨na, h1, nb, h2, la, h3, lb, h4, ja, h5, jb, h6, q, h7, h8, h9, rfl⟩

theorem nodup_flatMap_key {α β : Type} (L : List α) (f : α → List β) (key : β → α) (hL : L.Nodup)
    (hf : ∀ a ∈ L, (f a).Nodup) (hk : ∀ a ∈ L, ∀ x ∈ f a, key x = a) : (L.flatMap f).Nodup := by
  rw [List.nodup_flatMap]
  refine ⟨hf, ?_⟩
  have : L.Pairwise fun a b => a ≠ b := hL
  refine List.Pairwise.imp_of_mem ?_ this
  intro a b ha hb hab x hx hx'
  exact hab ((hk a ha x hx).symm.trans (hk b hb x hx'))

theorem nodup_filterMap_key {α β : Type} (L : List α) (f : α → Option β) (key : β → α) (hL : L.Nodup)
    (hk : ∀ a x, f a = some x → key x = a) : (L.filterMap f).Nodup := by
  refine hL.filterMap ?_
  intro a a' x h h'
  rw [Option.mem_def] at h h'
  exact (hk a x h).symm.trans (hk a' x h')

theorem nodup_virtuals (t : Bool) (δ : ℚ) (a b : QA) : ((virtuals t δ a b).map (·.1)).Nodup := by
  have h : (virtuals t δ a b).Nodup := by
    unfold virtuals
    refine nodup_flatMap_key _ _ (fun v => v.1.1.n) (nodup_nLoop _ _ _) ?_ ?_
    swap
    · intro n0 _ x hx
      simp only [List.mem_flatMap, List.mem_filterMap, virtQ_some] at hx
      obtain ⟨n1, h2, l0, h3, l1, h4, j0, h5, j1, h6, q, h7, h8, h9, rfl⟩ := hx; rfl
    intro n0 _
    refine nodup_flatMap_key _ _ (fun v => v.1.2.n) (nodup_nLoop _ _ _) ?_ ?_
    swap
    · intro n1 _ x hx
      simp only [List.mem_flatMap, List.mem_filterMap, virtQ_some] at hx
      obtain ⟨l0, h3, l1, h4, j0, h5, j1, h6, q, h7, h8, h9, rfl⟩ := hx; rfl
    intro n1 _
    refine nodup_flatMap_key _ _ (fun v => v.1.1.l) (nodup_lLoop _ _) ?_ ?_
    swap
    · intro l0 _ x hx
      simp only [List.mem_flatMap, List.mem_filterMap, virtQ_some] at hx
      obtain ⟨l1, h4, j0, h5, j1, h6, q, h7, h8, h9, rfl⟩ := hx; rfl
    intro l0 _
    refine nodup_flatMap_key _ _ (fun v => v.1.2.l) (nodup_lLoop _ _) ?_ ?_
    swap
    · intro l1 _ x hx
      simp only [List.mem_flatMap, List.mem_filterMap, virtQ_some] at hx
      obtain ⟨j0, h5, j1, h6, q, h7, h8, h9, rfl⟩ := hx; rfl
    intro l1 _
    refine nodup_flatMap_key _ _ (fun v => v.1.1.j) (nodup_jLoop _ _ _) ?_ ?_
    swap
    · intro j0 _ x hx
      simp only [List.mem_flatMap, List.mem_filterMap, virtQ_some] at hx
      obtain ⟨j1, h6, q, h7, h8, h9, rfl⟩ := hx; rfl
    intro j0 _
    refine nodup_flatMap_key _ _ (fun v => v.1.2.j) (nodup_jLoop _ _ _) ?_ ?_
    swap
    · intro j1 _ x hx
      simp only [List.mem_filterMap, virtQ_some] at hx
      obtain ⟨q, h7, h8, h9, rfl⟩ := hx; rfl
    intro j1 _
    refine nodup_filterMap_key _ _ (fun v => v.2) (nodup_qLoop t) ?_
    intro q x hx
    rw [virtQ_some] at hx
    rw [hx.2.2]
  refine List.Nodup.map_on ?_ h
  intro x hx y hy hxy
  rw [mem_virtuals] at hx hy
  obtain ⟨_, _, _, x1, x2, _⟩ := hx
  obtain ⟨_, _, _, y1, y2, _⟩ := hy
  refine Prod.ext hxy (Prod.ext ?_ ?_)
  · rw [hxy] at x1; omega
  · rw [hxy] at x2; omega

/-- One atom: what the loops produce are exactly the possible neighbours. -/
theorem vlocal_iff {D : ℕ} {a v : QA} (ha : ValidQ a) (hs : a.s = 0 ∨ a.s = 1) (hD : (D : ℤ) ≤ a.n - a.l)
    (hm : |v.m| ≤ v.j) (hm2 : ∃ q : ℤ, |q| ≤ 1 ∧ v.m = a.m + 2 * q) :
    VLocal (D : ℚ) a v ↔ ValidQ v ∧ DipoleStep a v ∧ |v.n - a.n| ≤ (D : ℤ) := by
  obtain ⟨q, hq, hq2⟩ := hm2
  have hl := ha.l0
  have hln := ha.ln
  have hp := ha.jpar
  have hmp := ha.mpar
  rw [abs_le] at hq
  constructor
  · rintro ⟨e1, e2, h1, h2, h3⟩
    rw [mem_nLoop_nat] at h1
    rw [mem_lLoop] at h2
    have hvl : 0 ≤ v.l := by omega
    obtain ⟨j1, j2, j3, j4⟩ := mem_jLoop_sound hvl ha.s0 h3
    rw [abs_lt] at j3
    refine ⟨⟨hvl, by omega, by rw [e2]; exact ha.s0, by rw [e2]; exact j1, by rw [e2]; exact j2, by rw [e2]; exact j4, hm, by omega⟩,
      ⟨e1, e2, by omega, ?_, ?_⟩, ?_⟩
    · rw [abs_le]; omega
    · rw [abs_le]; omega
    · rw [abs_le]; omega
  · rintro ⟨hv, hd, hn⟩
    have := hv.l0
    have := hv.ln
    have hjp := hv.jpar
    rw [hd.s] at hjp
    rw [abs_le] at hn
    refine ⟨hd.sp, hd.s, ?_, ?_, ?_⟩
    · rw [mem_nLoop_nat]; omega
    · rw [mem_lLoop]
      rcases hd.l with h | h
      · right; omega
      · left; omega
    · rw [mem_jLoop_small hs hv.l0, mem_jEnds]
      have h1 := hv.jlo
      have h2 := hv.jhi
      have h3 := hd.j
      rw [hd.s] at h1 h2
      constructor
      · rcases hs with e | e
        · rw [e] at h1 h2 ⊢
          right; rcases abs_cases (2 * v.l - 0) with h4 | h4 <;> omega
        · rw [e] at h1 h2 hjp ⊢
          rcases abs_cases (2 * v.l - 1) with h4 | h4 <;> omega
      · rw [abs_le] at h3; rw [abs_lt]; omega

/-- **C48** (spins 0 and 1/2, integer `deltaN` not larger than `n - l`): the virtual pair states over which the scalar C6 sums
are exactly the possible pair states that are dipole-allowed for both atoms, with principal quantum numbers within `deltaN` and,
if the interatomic axis is the quantisation axis, with conserved total m; each occurs once. -/
theorem C48_virtual_states_partial (tilted : Bool) (D : ℕ) (a b : QA) (ha : ValidQ a) (hb : ValidQ b) (sa : a.s = 0 ∨ a.s = 1)
    (sb : b.s = 0 ∨ b.s = 1) (hDa : (D : ℤ) ≤ a.n - a.l) (hDb : (D : ℤ) ≤ b.n - b.l) :
    ((virtuals tilted (D : ℚ) a b).map (·.1)).Nodup ∧
    ∀ v w, (v, w) ∈ (virtuals tilted (D : ℚ) a b).map (·.1) ↔
      ValidQ v ∧ ValidQ w ∧ DipoleStep a v ∧ DipoleStep b w ∧ |v.n - a.n| ≤ (D : ℤ) ∧ |w.n - b.n| ≤ (D : ℤ) ∧
      (tilted = true ∨ (v.m - a.m) + (w.m - b.m) = 0) := by
  refine ⟨nodup_virtuals _ _ _ _, fun v w => ?_⟩
  rw [List.mem_map]
  constructor
  · rintro ⟨⟨x, q⟩, hx, e⟩
    dsimp only at e
    subst e
    rw [mem_virtuals] at hx
    obtain ⟨h1, h2, h3, h4, h5, h6, h7⟩ := hx
    dsimp only at *
    rw [mem_qLoop] at h3
    obtain ⟨v1, v2, v3⟩ := (vlocal_iff ha sa hDa h6 ⟨q.1, h3.1, h4⟩).1 h1
    obtain ⟨w1, w2, w3⟩ := (vlocal_iff hb sb hDb h7 ⟨q.2, h3.2.1, h5⟩).1 h2
    refine ⟨v1, w1, v2, w2, v3, w3, h3.2.2.imp_right fun h => ?_⟩
    omega
  · rintro ⟨v1, w1, v2, w2, v3, w3, ht⟩
    have pm : ∀ {a v : QA}, ValidQ a → ValidQ v → DipoleStep a v → |(v.m - a.m) / 2| ≤ 1 ∧ v.m = a.m + 2 * ((v.m - a.m) / 2) := by
      intro a v ha hv hd
      have q1 := ha.jpar
      have q2 := hv.jpar
      have q3 := ha.mpar
      have q4 := hv.mpar
      have q5 := hd.s
      have q6 := hd.m
      rw [abs_le] at q6 ⊢
      omega
    obtain ⟨p1, p2⟩ := pm ha v1 v2
    obtain ⟨p3, p4⟩ := pm hb w1 w2
    refine ⟨((v, w), ((v.m - a.m) / 2, (w.m - b.m) / 2)), ?_, rfl⟩
    rw [mem_virtuals]
    refine ⟨(vlocal_iff ha sa hDa v1.mj ⟨_, p1, p2⟩).2 ⟨v1, v2, v3⟩, (vlocal_iff hb sb hDb w1.mj ⟨_, p3, p4⟩).2 ⟨w1, w2, w3⟩, ?_, p2, p4,
      v1.mj, w1.mj⟩
    rw [mem_qLoop]
    refine ⟨p1, p3, ht.imp_right fun h => ?_⟩
    dsimp only
    omega

/-- **C48** (completeness, spins 0 and 1/2, every rational `deltaN`): no possible pair state that is dipole-allowed for both
atoms and lies within `deltaN` is missed. -/
theorem C48_complete_partial (tilted : Bool) (δ : ℚ) (a b v w : QA) (ha : ValidQ a) (hb : ValidQ b) (sa : a.s = 0 ∨ a.s = 1)
    (sb : b.s = 0 ∨ b.s = 1) (hv : ValidQ v) (hw : ValidQ w) (dv : DipoleStep a v) (dw : DipoleStep b w)
    (nv : |(v.n : ℚ) - a.n| ≤ δ) (nw : |(w.n : ℚ) - b.n| ≤ δ) (ht : tilted = true ∨ (v.m - a.m) + (w.m - b.m) = 0) :
    (v, w) ∈ (virtuals tilted δ a b).map (·.1) := by
  -- l and j do not depend on `deltaN`: use a large integer one
  obtain ⟨p1, p2⟩ : |(v.m - a.m) / 2| ≤ 1 ∧ v.m = a.m + 2 * ((v.m - a.m) / 2) := by
    have q1 := ha.jpar
    have q2 := hv.jpar
    have q3 := ha.mpar
    have q4 := hv.mpar
    have q5 := dv.s
    have q6 := dv.m
    rw [abs_le] at q6 ⊢
    omega
  obtain ⟨p3, p4⟩ : |(w.m - b.m) / 2| ≤ 1 ∧ w.m = b.m + 2 * ((w.m - b.m) / 2) := by
    have q1 := hb.jpar
    have q2 := hw.jpar
    have q3 := hb.mpar
    have q4 := hw.mpar
    have q5 := dw.s
    have q6 := dw.m
    rw [abs_le] at q6 ⊢
    omega
  have loc : ∀ {a v : QA}, ValidQ a → (a.s = 0 ∨ a.s = 1) → ValidQ v → DipoleStep a v → |(v.n : ℚ) - a.n| ≤ δ → VLocal δ a v := by
    intro a v ha hs hv hd hn
    have := hv.l0
    have := hv.ln
    have := ha.l0
    have hjp := hv.jpar
    have hjp2 := ha.jpar
    rw [hd.s] at hjp
    rw [abs_le] at hn
    refine ⟨hd.sp, hd.s, mem_nLoop_of (by linarith [hn.1]) (by linarith [hn.2]), ?_, ?_⟩
    · rw [mem_lLoop]
      rcases hd.l with h | h
      · right; omega
      · left; omega
    · rw [mem_jLoop_small hs hv.l0, mem_jEnds]
      have h1 := hv.jlo
      have h2 := hv.jhi
      have h3 := hd.j
      rw [hd.s] at h1 h2
      constructor
      · rcases hs with e | e
        · rw [e] at h1 h2 ⊢
          right; rcases abs_cases (2 * v.l - 0) with h4 | h4 <;> omega
        · rw [e] at h1 h2 hjp ⊢
          rcases abs_cases (2 * v.l - 1) with h4 | h4 <;> omega
      · rw [abs_le] at h3; rw [abs_lt]; omega
  rw [List.mem_map]
  refine ⟨((v, w), ((v.m - a.m) / 2, (w.m - b.m) / 2)), ?_, rfl⟩
  rw [mem_virtuals]
  refine ⟨loc ha sa hv dv nv, loc hb sb hw dw nw, ?_, p2, p4, hv.mj, hw.mj⟩
  rw [mem_qLoop]
  refine ⟨p1, p3, ht.imp_right fun h => ?_⟩
  dsimp only
  omega

/-- Rubidium 60S1/2, m = 1/2. -/
def qS : QA := ⟨"Rb", 60, 0, 1, 1, 1⟩
/-- Rubidium 60P3/2, m = 3/2. -/
def qP : QA := ⟨"Rb", 60, 1, 1, 3, 3⟩

theorem qS_valid : ValidQ qS := by constructor <;> decide
theorem qP_valid : ValidQ qP := by constructor <;> decide

example : (qP, (⟨"Rb", 58, 1, 1, 1, -1⟩ : QA)) ∈ (virtuals false ((5 : ℕ) : ℚ) qS qS).map (·.1) :=
  ((C48_virtual_states_partial false 5 qS qS qS_valid qS_valid (by decide) (by decide) (by decide) (by decide)).2 _ _).2
    ⟨qP_valid, by constructor <;> decide, by constructor <;> decide, by constructor <;> decide, by decide, by decide, by decide⟩

/-- Triplet states (spin 1): the intermediate state 3D2 of 3P1 is missed, because 3D3 is not reachable and the values between the
ends are only inserted if both ends are. -/
theorem C48_triplet_fails :
    ∃ a v : QA, ValidQ a ∧ ValidQ v ∧ DipoleStep a v ∧ |v.n - a.n| ≤ 1 ∧
      (v, v) ∉ (virtuals true ((1 : ℕ) : ℚ) a a).map (·.1) ∧ (v, v) ∉ (virtuals false ((1 : ℕ) : ℚ) a a).map (·.1) := by
  have key : ∀ t, ((⟨"Sr3", 60, 2, 2, 4, 2⟩ : QA), (⟨"Sr3", 60, 2, 2, 4, 2⟩ : QA)) ∉
      (virtuals t ((1 : ℕ) : ℚ) ⟨"Sr3", 60, 1, 2, 2, 2⟩ ⟨"Sr3", 60, 1, 2, 2, 2⟩).map (·.1) := by
    intro t h
    rw [List.mem_map] at h
    obtain ⟨⟨x, q⟩, hx, e⟩ := h
    dsimp only at e
    subst e
    rw [mem_virtuals] at hx
    exact absurd (show (4 : ℤ) ∈ jLoop 2 2 2 from hx.1.2.2.2.2) (by decide)
  exact ⟨⟨"Sr3", 60, 1, 2, 2, 2⟩, ⟨"Sr3", 60, 2, 2, 4, 2⟩, by constructor <;> decide, by constructor <;> decide,
    by constructor <;> decide, by decide, key true, key false⟩

/-- For a large `deltaN` impossible states (l not smaller than n) are visited: the lower neighbour is not checked. -/
theorem C48_impossible_state_fails :
    ∃ (a v : QA) (D : ℕ), ValidQ a ∧ (v, v) ∈ (virtuals true (D : ℚ) a a).map (·.1) ∧ ¬ v.l < v.n := by
  refine ⟨⟨"Rb", 6, 4, 1, 9, 1⟩, ⟨"Rb", 3, 3, 1, 7, 1⟩, 3, by constructor <;> decide, ?_, by decide⟩
  rw [List.mem_map]
  refine ⟨((⟨"Rb", 3, 3, 1, 7, 1⟩, ⟨"Rb", 3, 3, 1, 7, 1⟩), (0, 0)), ?_, rfl⟩
  rw [mem_virtuals]
  have hn : (3 : ℤ) ∈ nLoop 6 6 ((3 : ℕ) : ℚ) := by rw [mem_nLoop_nat]; decide
  refine ⟨⟨rfl, rfl, hn, by decide, by decide⟩, ⟨rfl, rfl, hn, by decide, by decide⟩, by decide, by decide, by decide, by decide, by decide⟩

/-- A fractional `deltaN` is rounded towards zero on the lower side only: with `deltaN = 1/2` the state with n - 1 is included
although it is not within `deltaN` (n + 1 is not included). -/
theorem C48_fractional_deltaN_fails :
    ∃ (a v : QA), ValidQ a ∧ (v, v) ∈ (virtuals true (1 / 2 : ℚ) a a).map (·.1) ∧ v.n = a.n - 1 := by
  refine ⟨qS, ⟨"Rb", 59, 1, 1, 1, 1⟩, qS_valid, ?_, by decide⟩
  rw [List.mem_map]
  refine ⟨((⟨"Rb", 59, 1, 1, 1, 1⟩, ⟨"Rb", 59, 1, 1, 1, 1⟩), (0, 0)), ?_, rfl⟩
  rw [mem_virtuals]
  have hn : (59 : ℤ) ∈ nLoop 60 60 (1 / 2 : ℚ) := by
    unfold nLoop truncQ
    rw [mem_intRange]
    have h1 : ⌊(((60 : ℤ) : ℚ) - 1 / 2)⌋ = 59 := by rw [Int.floor_eq_iff]; norm_num
    have h2 : ⌊(((60 : ℤ) : ℚ) + 1 / 2)⌋ = 60 := by rw [Int.floor_eq_iff]; norm_num
    rw [if_pos (by norm_num), h1, h2]; norm_num
  refine ⟨⟨rfl, rfl, hn, by decide, by decide⟩, ⟨rfl, rfl, hn, by decide, by decide⟩, by decide, by decide, by decide, by decide, by decide⟩

/-! ## The angular factors -/

/-- **C75**: every entry of the table of angular factors that belongs to a listed change of (m1, m2) is initialised. -/
theorem C75_initialised (θ : ℝ) (q : ℤ × ℤ) (hq : q ∈ qLoop (decide (θ ≠ 0))) : ∃ x, angleTerm θ q = some x := by
  by_cases h : θ = 0
  · subst h
    simp only [ne_eq, not_true_eq_false, decide_false, qLoop, Bool.false_eq_true, if_false, List.mem_cons, List.not_mem_nil, or_false] at hq
    rcases hq with rfl | rfl | rfl
    all_goals exact ⟨_, by unfold angleTerm; simp; rfl⟩
  · simp only [ne_eq, h, not_false_eq_true, decide_true, qLoop, if_true, List.mem_cons, List.not_mem_nil, or_false] at hq
    rcases hq with rfl | rfl | rfl | rfl | rfl | rfl | rfl | rfl | rfl
    all_goals exact ⟨_, by unfold angleTerm; simp [h]; rfl⟩

/-- The Cartesian components of a vector operator from its spherical ones: `x = (d₋ - d₊)/√2`, `y = i (d₋ + d₊)/√2`,
`z = d₀`. -/
noncomputable def cartX (d : ℤ → ℂ) : ℂ := (d (-1) - d 1) / (Real.sqrt 2 : ℂ)
/-- The y component. -/
noncomputable def cartY (d : ℤ → ℂ) : ℂ := Complex.I * (d (-1) + d 1) / (Real.sqrt 2 : ℂ)

/-- **C75**: the angular factors are those of the dipole-dipole interaction of two atoms whose distance vector encloses the angle
θ with the quantisation axis: the sum over the listed changes (q1, q2) of factor times spherical components equals
d1·d2 - 3 (d1·e)(d2·e) with e = (sin θ, 0, cos θ). For θ = 0 only three changes are listed; the others have the factor zero. -/
theorem C75_dipole_dipole (θ : ℝ) (d1 d2 : ℤ → ℂ) :
    ((qLoop (decide (θ ≠ 0))).map fun q => (angleVal θ q : ℂ) * d1 q.1 * d2 q.2).sum =
      (cartX d1 * cartX d2 + cartY d1 * cartY d2 + d1 0 * d2 0) -
      3 * (cartX d1 * Real.sin θ + d1 0 * Real.cos θ) * (cartX d2 * Real.sin θ + d2 0 * Real.cos θ) := by
  have h2 : (Real.sqrt 2 : ℂ) * (Real.sqrt 2 : ℂ) = 2 := by
    rw [← Complex.ofReal_mul, Real.mul_self_sqrt (by norm_num)]; norm_num
  have h0 : (Real.sqrt 2 : ℂ) ≠ 0 := by
    intro h; rw [h] at h2; norm_num at h2
  have hI : Complex.I * Complex.I = -1 := Complex.I_mul_I
  obtain ⟨r, hr⟩ : ∃ r : ℂ, r = 1 / (Real.sqrt 2 : ℂ) := ⟨_, rfl⟩
  have hrr : r * r = 1 / 2 := by rw [hr, div_mul_div_comm, h2, one_mul]
  have hX : ∀ d, cartX d = (d (-1) - d 1) * r := by intro d; rw [hr]; unfold cartX; ring
  have hY : ∀ d, cartY d = Complex.I * (d (-1) + d 1) * r := by intro d; rw [hr]; unfold cartY; ring
  rw [hX, hX, hY, hY]
  by_cases h : θ = 0
  · subst h
    simp [qLoop, angleVal, angleTerm]
    linear_combination (-(d1 (-1) - d1 1) * (d2 (-1) - d2 1) - (d1 (-1) + d1 1) * (d2 (-1) + d2 1) * Complex.I * Complex.I) * hrr +
      (-(d1 (-1) + d1 1) * (d2 (-1) + d2 1) / 2) * hI
  · have sc := Complex.ofReal_cos θ
    have ss := Complex.ofReal_sin θ
    have hsq : ((3 / Real.sqrt 2 : ℝ) : ℂ) = 3 * r := by rw [hr]; push_cast; ring
    have hsq' : ((-3 / Real.sqrt 2 : ℝ) : ℂ) = -(3 * r) := by rw [hr]; push_cast; ring
    simp only [qLoop, ne_eq, h, not_false_eq_true, decide_true, if_true, List.map_cons, List.map_nil, List.sum_cons, List.sum_nil,
      angleVal, angleTerm, if_false]
    norm_num
    simp only [← sc, ← ss]
    generalize ((Real.cos θ : ℝ) : ℂ) = c at *
    generalize ((Real.sin θ : ℝ) : ℂ) = s at *
    have e3 : (3 : ℂ) / (Real.sqrt 2 : ℂ) = 3 * r := by rw [hr]; ring
    have e3' : (-3 : ℂ) / (Real.sqrt 2 : ℂ) = -(3 * r) := by rw [hr]; ring
    simp only [e3, e3']
    linear_combination (-(d1 (-1) - d1 1) * (d2 (-1) - d2 1) * (1 - 3 * s ^ 2) - (d1 (-1) + d1 1) * (d2 (-1) + d2 1) * Complex.I * Complex.I) * hrr +
      (-(d1 (-1) + d1 1) * (d2 (-1) + d2 1) / 2) * hI

/-- Reversing the transition changes the factor by (-1)^(q1 + q2). -/
theorem angleVal_neg (θ : ℝ) (q : ℤ × ℤ) (h1 : |q.1| ≤ 1) (h2 : |q.2| ≤ 1) :
    angleVal θ (-q.1, -q.2) = (-1) ^ (q.1 + q.2).natAbs * angleVal θ q := by
  obtain ⟨a, b⟩ := q
  dsimp only at h1 h2 ⊢
  have k1 : a = -1 ∨ a = 0 ∨ a = 1 := by rw [abs_le] at h1; omega
  have k2 : b = -1 ∨ b = 0 ∨ b = 1 := by rw [abs_le] at h2; omega
  by_cases h : θ = 0
  · subst h
    rcases k1 with rfl | rfl | rfl <;> rcases k2 with rfl | rfl | rfl <;> simp [angleVal, angleTerm]
  · rcases k1 with rfl | rfl | rfl <;> rcases k2 with rfl | rfl | rfl <;> simp [angleVal, angleTerm, h] <;> ring

end PI
