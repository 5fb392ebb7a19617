import Verif.ElemCache.PrecalcModel
import Verif.ElemCache.DipoleLemma
import Verif.ElemCache.Props
import Mathlib.Tactic.Linarith

/-!
# C105: precalculation is enough
-/

namespace PI

/-- The result of a lookup that had nothing left to calculate: a value, and neither the cache nor the database file changes. -/
def NothingToDo (r : Out ℝ × MEC × Rows) (c : MEC) (f : Rows) : Prop := ∃ v, r = (.ok v, c, f)

/-- All physical states of the basis have the same species and spin. -/
def OneSpecies (basis : List (Option QN)) : Prop := ∀ a b, some a ∈ basis → some b ∈ basis → a.species = b.species ∧ a.s = b.s

/-- `a` stands before `b` in the basis, or they are the same entry. -/
def NotAfter (basis : List (Option QN)) (a b : QN) : Prop := ∃ i k : ℕ, i ≤ k ∧ basis[i]? = some (some a) ∧ basis[k]? = some (some b)

theorem notAfter_total (basis : List (Option QN)) (a b : QN) (ha : some a ∈ basis) (hb : some b ∈ basis) :
    NotAfter basis a b ∨ NotAfter basis b a := by
  obtain ⟨i, hi⟩ := List.mem_iff_getElem?.1 ha
  obtain ⟨k, hk⟩ := List.mem_iff_getElem?.1 hb
  rcases le_total i k with h | h
  · exact Or.inl ⟨i, k, h, hi, hk⟩
  · exact Or.inr ⟨k, i, h, hk, hi⟩

theorem NotAfter.mem {basis : List (Option QN)} {a b : QN} (h : NotAfter basis a b) : some a ∈ basis ∧ some b ∈ basis := by
  obtain ⟨i, k, -, hi, hk⟩ := h
  exact ⟨List.mem_of_getElem? hi, List.mem_of_getElem? hk⟩

theorem firstPhysical_spec (basis : List (Option QN)) (a : QN) (ha : some a ∈ basis) : ∃ f, firstPhysical basis = some f ∧ some f ∈ basis := by
  unfold firstPhysical
  cases h : basis.find? Option.isSome with
  | none => exact absurd (List.find?_eq_none.1 h _ ha) (by simp)
  | some x =>
    cases x with
    | none => exact absurd (List.find?_some h) (by simp)
    | some f => exact ⟨f, rfl, List.mem_of_find?_eq_some h⟩

/-- The keys of a pair of the basis are cached or missing after `precalculate`. -/
theorem precalculate_mem (c : MEC) (basis : List (Option QN)) (hsp : OneSpecies basis) (ka : ℤ) (q : Option ℤ) (kr : ℤ) (el mag rad : Bool) (row col : QN)
    (h : NotAfter basis row col) (k : CKey) (hk : k ∈ pairKeys c.method row.species row.s row col ka q kr el mag rad) :
    ((c.precalculate basis ka q kr el mag rad).cache.get k).isSome ∨ k ∈ (c.precalculate basis ka q kr el mag rad).missing := by
  obtain ⟨hr, hc⟩ := h.mem
  obtain ⟨f, hf, hfm⟩ := firstPhysical_spec basis row hr
  obtain ⟨e1, e2⟩ := hsp f row hfm hr
  unfold MEC.precalculate
  rw [hf]
  apply wantAll_mem
  obtain ⟨i, n, hin, hi, hn⟩ := h
  refine List.mem_flatMap.2 ⟨n, List.mem_range.2 ((List.getElem?_eq_some_iff.1 hn).1), List.mem_flatMap.2 ⟨i, List.mem_range.2 (by omega), ?_⟩⟩
  rw [hi, hn]
  dsimp only [Option.join]
  rw [e1, e2]
  exact hk

theorem precalculate_method (c : MEC) (basis : List (Option QN)) (ka : ℤ) (q : Option ℤ) (kr : ℤ) (el mag rad : Bool) :
    (c.precalculate basis ka q kr el mag rad).method = c.method := by
  unfold MEC.precalculate
  cases firstPhysical basis with
  | none => rfl
  | some f => exact (wantAll_same _ c).1

/-- After `update` nothing is missing and everything wanted is there. -/
theorem update_there {E : CacheEnv} {c c' : MEC} {f f' : Rows} {b : Bool} (h : c.update E f = (.ok b, c', f')) :
    c'.missing = [] ∧ c'.method = c.method ∧ ∀ k, (c.cache.get k).isSome ∨ k ∈ c.missing → (c'.cache.get k).isSome := by
  have := update_gen (E := E) (PC := fun _ _ => True) (PF := fun _ _ => True) (fun _ _ _ => trivial) (f := f) (fun _ _ => trivial) (c := c)
    ⟨fun _ _ => trivial, fun _ _ _ _ => trivial⟩ (fun _ _ _ => trivial)
  rw [h] at this
  obtain ⟨-, h2, -, -, h5, -⟩ := this
  obtain ⟨h6, h7⟩ := h5 (by simp)
  exact ⟨h6, h2.method, h7⟩

theorem want_there {c : MEC} {k : CKey} (h : (c.cache.get k).isSome) : c.want k = c := by
  unfold MEC.want; rw [if_pos (Or.inl h)]

theorem wantAll_there {c : MEC} {ks : List CKey} (h : ∀ k ∈ ks, (c.cache.get k).isSome) : c.wantAll ks = c := by
  unfold MEC.wantAll
  induction ks with
  | nil => rfl
  | cons k ks ih => rw [List.foldl_cons, want_there (h k List.mem_cons_self)]; exact ih fun k hk => h k (List.mem_cons_of_mem _ hk)

theorem update_idle {E : CacheEnv} {c : MEC} {f : Rows} (h : c.missing = []) : c.update E f = (.ok false, c, f) := by
  unfold MEC.update; rw [if_pos h]

theorem deref_there {c : MEC} {k : CKey} (h : (c.cache.get k).isSome) : ∃ v, deref c k = .ok v := by
  obtain ⟨v, hv⟩ := Option.isSome_iff_exists.1 h
  exact ⟨v, by unfold deref; rw [hv]⟩

/-- The keys of an electric multipole element. -/
noncomputable def mulKeys (m : Method) (row col : QN) (kr ka : ℤ) : List CKey :=
  [.rad (RadKey.make m row.species kr row.n col.n row.l col.l row.j col.j), .ang (AngKey.make ka row.j col.j row.m col.m).1,
    .comS (ComKey.make row.s ka row.l col.l row.j col.j).1, .mul (MulKey.make ka row.l col.l).1]

/-- The keys of a magnetic dipole element. -/
noncomputable def magKeys (m : Method) (row col : QN) : List CKey :=
  [.rad (RadKey.make m row.species 0 row.n col.n row.l col.l row.j col.j), .ang (AngKey.make 1 row.j col.j row.m col.m).1,
    .comS (ComKey.make row.s 1 row.l col.l row.j col.j).1, .comL (ComKey.make row.s 1 row.l col.l row.j col.j).1]

theorem multipole_idle (E : CacheEnv) (c : MEC) (f : Rows) (row col : QN) (kr ka : ℤ) (hs : row.species = col.species) (hm : c.missing = [])
    (hk : ∀ k ∈ mulKeys c.method row col kr ka, (c.cache.get k).isSome) : NothingToDo (c.getElectricMultipole E f row col kr ka) c f := by
  unfold MEC.getElectricMultipole
  rw [if_neg (fun h => h hs)]
  dsimp only
  have hw := wantAll_there hk
  unfold mulKeys at hw hk
  rw [hw, update_idle hm]
  dsimp only
  obtain ⟨v1, h1⟩ := deref_there (hk _ (by simp) : (c.cache.get (.rad (RadKey.make c.method row.species kr row.n col.n row.l col.l row.j col.j))).isSome)
  obtain ⟨v2, h2⟩ := deref_there (hk _ (by simp) : (c.cache.get (.ang (AngKey.make ka row.j col.j row.m col.m).1)).isSome)
  obtain ⟨v3, h3⟩ := deref_there (hk _ (by simp) : (c.cache.get (.comS (ComKey.make row.s ka row.l col.l row.j col.j).1)).isSome)
  obtain ⟨v4, h4⟩ := deref_there (hk _ (by simp) : (c.cache.get (.mul (MulKey.make ka row.l col.l).1)).isSome)
  rw [h1, h2, h3, h4]
  exact ⟨_, rfl⟩

theorem magnetic_idle (E : CacheEnv) (c : MEC) (f : Rows) (row col : QN) (hs : row.species = col.species) (hm : c.missing = [])
    (hk : ∀ k ∈ magKeys c.method row col, (c.cache.get k).isSome) : NothingToDo (c.getMagneticDipole E f row col) c f := by
  unfold MEC.getMagneticDipole
  rw [if_neg (fun h => h hs)]
  dsimp only
  have hw := wantAll_there hk
  unfold magKeys at hw hk
  rw [hw, update_idle hm]
  dsimp only
  obtain ⟨v1, h1⟩ := deref_there (hk _ (by simp) : (c.cache.get (.rad (RadKey.make c.method row.species 0 row.n col.n row.l col.l row.j col.j))).isSome)
  obtain ⟨v2, h2⟩ := deref_there (hk _ (by simp) : (c.cache.get (.ang (AngKey.make 1 row.j col.j row.m col.m).1)).isSome)
  obtain ⟨v3, h3⟩ := deref_there (hk _ (by simp) : (c.cache.get (.comS (ComKey.make row.s 1 row.l col.l row.j col.j).1)).isSome)
  obtain ⟨v4, h4⟩ := deref_there (hk _ (by simp) : (c.cache.get (.comL (ComKey.make row.s 1 row.l col.l row.j col.j).1)).isSome)
  rw [h1, h2, h3, h4]
  exact ⟨_, rfl⟩

theorem radial_idle (E : CacheEnv) (c : MEC) (f : Rows) (row col : QN) (k : ℤ) (hs : row.species = col.species) (hm : c.missing = [])
    (hk : (c.cache.get (.rad (RadKey.make c.method row.species k row.n col.n row.l col.l row.j col.j))).isSome) :
    NothingToDo (c.getRadial E f row col k) c f := by
  unfold MEC.getRadial
  rw [if_neg (fun h => h hs)]
  dsimp only
  rw [want_there hk, update_idle hm]
  dsimp only
  obtain ⟨v1, h1⟩ := deref_there hk
  rw [h1]
  exact ⟨v1, by simp⟩

/-! ## Exchanging row and column -/

theorem RadKey.make_swap (m : Method) (sp : String) (k n1 n2 l1 l2 j1 j2 : ℤ) : RadKey.make m sp k n2 n1 l2 l1 j2 j1 = RadKey.make m sp k n1 n2 l1 l2 j1 j2 := by
  unfold RadKey.make
  by_cases h : n1 < n2 ∨ (n1 = n2 ∧ (l1 < l2 ∨ (l1 = l2 ∧ j1 ≤ j2))) <;>
    by_cases h' : n2 < n1 ∨ (n2 = n1 ∧ (l2 < l1 ∨ (l2 = l1 ∧ j2 ≤ j1)))
  · obtain ⟨rfl, rfl, rfl⟩ : n1 = n2 ∧ l1 = l2 ∧ j1 = j2 := by omega
    rfl
  · rw [if_pos h, if_neg h']
  · rw [if_neg h, if_pos h']
  · omega

theorem AngKey.make_swap (k j1 j2 m1 m2 : ℤ) : (AngKey.make k j2 j1 m2 m1).1 = (AngKey.make k j1 j2 m1 m2).1 := by
  unfold AngKey.make
  by_cases h : j1 < j2 ∨ (j1 = j2 ∧ m1 ≤ m2) <;> by_cases h' : j2 < j1 ∨ (j2 = j1 ∧ m2 ≤ m1)
  · obtain ⟨rfl, rfl⟩ : j1 = j2 ∧ m1 = m2 := by omega
    rfl
  · rw [if_pos h, if_neg h']
  · rw [if_neg h, if_pos h']
  · omega

theorem ComKey.make_swap (s k l1 l2 j1 j2 : ℤ) : (ComKey.make s k l2 l1 j2 j1).1 = (ComKey.make s k l1 l2 j1 j2).1 := by
  unfold ComKey.make
  by_cases h : l1 < l2 ∨ (l1 = l2 ∧ j1 ≤ j2) <;> by_cases h' : l2 < l1 ∨ (l2 = l1 ∧ j2 ≤ j1)
  · obtain ⟨rfl, rfl⟩ : l1 = l2 ∧ j1 = j2 := by omega
    rfl
  · rw [if_pos h, if_neg h']
  · rw [if_neg h, if_pos h']
  · omega

theorem MulKey.make_swap (k l1 l2 : ℤ) : (MulKey.make k l2 l1).1 = (MulKey.make k l1 l2).1 := by
  unfold MulKey.make
  by_cases h : l1 ≤ l2 <;> by_cases h' : l2 ≤ l1
  · obtain rfl : l1 = l2 := by omega
    rfl
  · rw [if_pos h, if_neg h']
  · rw [if_neg h, if_pos h']
  · omega

theorem mulKeys_swap (m : Method) (a b : QN) (hs : a.species = b.species) (hS : a.s = b.s) (kr ka : ℤ) : mulKeys m b a kr ka = mulKeys m a b kr ka := by
  unfold mulKeys
  rw [hs, hS, RadKey.make_swap, AngKey.make_swap, ComKey.make_swap, MulKey.make_swap]

theorem magKeys_swap (m : Method) (a b : QN) (hs : a.species = b.species) (hS : a.s = b.s) : magKeys m b a = magKeys m a b := by
  unfold magKeys
  rw [hs, hS, RadKey.make_swap, AngKey.make_swap, ComKey.make_swap]

/-! ## The theorems -/

/-- The selection rules of the theorem, in the doubled `j` and `m`: `|Δl| ≤ k` with the parity of `k`, `|Δj| ≤ k ≤ j + j'`, `|Δm| ≤ k`, and the one vanishing quadrupole case. -/
def AllowedMultipole (a b : QN) (k : ℤ) : Prop :=
  |a.l - b.l| ≤ k ∧ k.tmod 2 = |a.l - b.l|.tmod 2 ∧ |a.j - b.j| ≤ 2 * k ∧ 2 * k ≤ a.j + b.j ∧ |a.m - b.m| ≤ 2 * k ∧
  ¬ (k = 2 ∧ a.j = 3 ∧ b.j = 3 ∧ a.m = -b.m ∧ |a.m - b.m| = 2)

/-- Magnetic dipole: same `l`, `|Δj| ≤ 1`, `|Δm| ≤ 1`. -/
def AllowedMagnetic (a b : QN) : Prop := a.l = b.l ∧ |a.j - b.j| ≤ 2 ∧ |a.m - b.m| ≤ 2

theorem selMultipole_iff (a b : QN) (k : ℤ) : selMultipole a b k = true ↔ AllowedMultipole a b k := by
  unfold selMultipole AllowedMultipole
  simp only [Bool.and_eq_true, decide_eq_true_eq, Bool.not_eq_true', Bool.and_eq_false_iff, decide_eq_false_iff_not, ge_iff_le]
  constructor
  · rintro ⟨⟨⟨⟨h1, h2⟩, h3, h4⟩, h5⟩, h6⟩
    refine ⟨h1, h2, h3, h4, h5, ?_⟩
    rintro ⟨g1, g2, g3, g4, g5⟩
    rcases h6 with (((h | h) | h) | h) | h
    · exact h g1
    · exact h (g2.trans g3.symm)
    · exact h g3
    · exact h g4
    · exact h g5
  · rintro ⟨h1, h2, h3, h4, h5, h6⟩
    refine ⟨⟨⟨⟨h1, h2⟩, h3, h4⟩, h5⟩, ?_⟩
    by_contra hc
    push Not at hc
    exact h6 ⟨hc.1.1.1.1, hc.1.1.1.2.trans hc.1.1.2, hc.1.1.2, hc.1.2, hc.2⟩

theorem selMomentum_iff (a b : QN) : selMomentum a b = true ↔ AllowedMagnetic a b := by
  unfold selMomentum AllowedMagnetic
  simp only [Bool.and_eq_true, decide_eq_true_eq, and_assoc]

theorem AllowedMultipole.symm {a b : QN} {k : ℤ} (h : AllowedMultipole a b k) : AllowedMultipole b a k := by
  obtain ⟨h1, h2, h3, h4, h5, h6⟩ := h
  refine ⟨by rw [abs_sub_comm]; exact h1, by rw [abs_sub_comm b.l]; exact h2, by rw [abs_sub_comm]; exact h3, by linarith, by rw [abs_sub_comm]; exact h5, ?_⟩
  rintro ⟨g1, g2, g3, g4, g5⟩
  exact h6 ⟨g1, g3, g2, by omega, by rw [abs_sub_comm]; exact g5⟩

theorem AllowedMagnetic.symm {a b : QN} (h : AllowedMagnetic a b) : AllowedMagnetic b a :=
  ⟨h.1.symm, by rw [abs_sub_comm]; exact h.2.1, by rw [abs_sub_comm]; exact h.2.2⟩

/-- A pair that a precalculation of electric elements with the restriction `q` covers. -/
theorem electric_covered (E : CacheEnv) (c c' : MEC) (f f' : Rows) (b : Bool) (basis : List (Option QN)) (hsp : OneSpecies basis) (ka : ℤ) (q : Option ℤ) (kr : ℤ)
    (hu : (c.precalculate basis ka q kr true false false).update E f = (.ok b, c', f')) (row col : QN) (h : NotAfter basis row col)
    (hq : ∀ x, q = some x → row.m - col.m = 2 * x) (hsel : AllowedMultipole row col ka) :
    NothingToDo (c'.getElectricMultipole E f' row col kr ka) c' f' ∧ NothingToDo (c'.getElectricMultipole E f' col row kr ka) c' f' := by
  obtain ⟨u1, u2, u3⟩ := update_there hu
  obtain ⟨hr, hc⟩ := h.mem
  obtain ⟨e1, e2⟩ := hsp row col hr hc
  rw [precalculate_method] at u2
  have hk : ∀ k ∈ mulKeys c'.method row col kr ka, (c'.cache.get k).isSome := by
    intro k hk
    rw [u2] at hk
    refine u3 k (precalculate_mem c basis hsp ka q kr true false false row col h k ?_)
    unfold pairKeys
    have hany : ¬ (q.any fun x => decide (row.m - col.m ≠ 2 * x)) = true := by
      cases q with
      | none => simp
      | some x => simp [hq x rfl]
    rw [if_neg hany, if_pos (by rw [(selMultipole_iff row col ka).2 hsel]; rfl)]
    unfold mulKeys at hk
    simp only [List.mem_cons, List.not_mem_nil, or_false] at hk
    rcases hk with rfl | rfl | rfl | rfl <;> simp
  refine ⟨multipole_idle E c' f' row col kr ka e1 u1 hk, multipole_idle E c' f' col row kr ka e1.symm u1 ?_⟩
  rw [mulKeys_swap c'.method row col e1 e2]
  exact hk

theorem magnetic_covered (E : CacheEnv) (c c' : MEC) (f f' : Rows) (b : Bool) (basis : List (Option QN)) (hsp : OneSpecies basis) (q : Option ℤ)
    (hu : (c.precalculate basis 1 q 0 false true false).update E f = (.ok b, c', f')) (row col : QN) (h : NotAfter basis row col)
    (hq : ∀ x, q = some x → row.m - col.m = 2 * x) (hsel : AllowedMagnetic row col) :
    NothingToDo (c'.getMagneticDipole E f' row col) c' f' ∧ NothingToDo (c'.getMagneticDipole E f' col row) c' f' := by
  obtain ⟨u1, u2, u3⟩ := update_there hu
  obtain ⟨hr, hc⟩ := h.mem
  obtain ⟨e1, e2⟩ := hsp row col hr hc
  rw [precalculate_method] at u2
  have hk : ∀ k ∈ magKeys c'.method row col, (c'.cache.get k).isSome := by
    intro k hk
    rw [u2] at hk
    refine u3 k (precalculate_mem c basis hsp 1 q 0 false true false row col h k ?_)
    unfold pairKeys
    have hany : ¬ (q.any fun x => decide (row.m - col.m ≠ 2 * x)) = true := by
      cases q with
      | none => simp
      | some x => simp [hq x rfl]
    rw [if_neg hany, if_pos (by rw [(selMomentum_iff row col).2 hsel]; rfl)]
    unfold magKeys at hk
    simp only [List.mem_cons, List.not_mem_nil, or_false] at hk
    rcases hk with rfl | rfl | rfl | rfl <;> simp
  refine ⟨magnetic_idle E c' f' row col e1 u1 hk, magnetic_idle E c' f' col row e1.symm u1 ?_⟩
  rw [magKeys_swap c'.method row col e1 e2]
  exact hk

/-- **C105, multipoles.** For all caches and database files in any state, all bases of one species (which may contain artificial states) and all orders `k`: after
`precalculateMultipole` and `update`, `getElectricMultipole` between any two states of the basis that the selection rules allow finds everything: it returns a value, and neither the cache nor the
file changes. -/
theorem C105_multipole (E : CacheEnv) (c c' : MEC) (f f' : Rows) (b : Bool) (basis : List (Option QN)) (hsp : OneSpecies basis) (k : ℤ)
    (hu : (c.preMultipole basis k).update E f = (.ok b, c', f')) (row col : QN) (hr : some row ∈ basis) (hc : some col ∈ basis) (hsel : AllowedMultipole row col k) :
    NothingToDo (c'.getElectricMultipole E f' row col k k) c' f' := by
  rcases notAfter_total basis row col hr hc with h | h
  · exact (electric_covered E c c' f f' b basis hsp k none k hu row col h (by simp) hsel).1
  · exact (electric_covered E c c' f f' b basis hsp k none k hu col row h (by simp) hsel.symm).2

/-- **C105, radial elements.** The same for `precalculateRadial` and `getRadial`, for any two states of the basis. -/
theorem C105_radial (E : CacheEnv) (c c' : MEC) (f f' : Rows) (b : Bool) (basis : List (Option QN)) (hsp : OneSpecies basis) (k : ℤ)
    (hu : (c.preRadial basis k).update E f = (.ok b, c', f')) (row col : QN) (hr : some row ∈ basis) (hc : some col ∈ basis) :
    NothingToDo (c'.getRadial E f' row col k) c' f' := by
  obtain ⟨u1, u2, u3⟩ := update_there hu
  unfold MEC.preRadial at u2 u3
  rw [precalculate_method] at u2
  obtain ⟨e1, e2⟩ := hsp row col hr hc
  have key : ∀ a b : QN, NotAfter basis a b → (c'.cache.get (.rad (RadKey.make c'.method a.species k a.n b.n a.l b.l a.j b.j))).isSome := by
    intro a b h
    rw [u2]
    refine u3 _ (precalculate_mem c basis hsp k none k false false true a b h _ ?_)
    unfold pairKeys
    rw [if_neg (by simp), if_pos (by simp)]
    simp
  refine radial_idle E c' f' row col k e1 u1 ?_
  rcases notAfter_total basis row col hr hc with h | h
  · exact key row col h
  · rw [RadKey.make_swap, e1]; exact key col row h

/-- **C105, elements of one polarisation.** For `precalculateElectricMomentum`, `precalculateMagneticMomentum` and `precalculateDiamagnetism` with a given `q` or with all: the elements
between a state `row` and a state `col` that is not before it in the basis, with `m_row - m_col = q`, are found, and those of the exchanged pair as well. -/
theorem C105_polarisation_partial (E : CacheEnv) (c c' : MEC) (f f' : Rows) (b : Bool) (basis : List (Option QN)) (hsp : OneSpecies basis) (q : Option ℤ)
    (row col : QN) (h : NotAfter basis row col) (hq : ∀ x, q = some x → row.m - col.m = 2 * x) :
    ((c.preElectric basis q).update E f = (.ok b, c', f') → AllowedMultipole row col 1 →
      NothingToDo (c'.getElectricDipole E f' row col) c' f' ∧ NothingToDo (c'.getElectricDipole E f' col row) c' f') ∧
    ((c.preMagnetic basis q).update E f = (.ok b, c', f') → AllowedMagnetic row col →
      NothingToDo (c'.getMagneticDipole E f' row col) c' f' ∧ NothingToDo (c'.getMagneticDipole E f' col row) c' f') ∧
    (∀ k, (c.preDiamagnetism basis k q).update E f = (.ok b, c', f') → AllowedMultipole row col k →
      NothingToDo (c'.getDiamagnetism E f' row col k) c' f' ∧ NothingToDo (c'.getDiamagnetism E f' col row k) c' f') := by
  refine ⟨fun hu hs => electric_covered E c c' f f' b basis hsp 1 q 1 hu row col h hq hs, fun hu hs => magnetic_covered E c c' f f' b basis hsp q hu row col h hq hs,
    fun k hu hs => ?_⟩
  obtain ⟨⟨v, h1⟩, ⟨w, h2⟩⟩ := electric_covered E c c' f f' b basis hsp k q 2 hu row col h hq hs
  constructor
  · exact ⟨_, by unfold MEC.getDiamagnetism; rw [h1]⟩
  · exact ⟨_, by unfold MEC.getDiamagnetism; rw [h2]⟩

/-- **C105, all polarisations.** Without a given `q` the order in the basis does not matter. -/
theorem C105_all_polarisations (E : CacheEnv) (c c' : MEC) (f f' : Rows) (b : Bool) (basis : List (Option QN)) (hsp : OneSpecies basis) (row col : QN)
    (hr : some row ∈ basis) (hc : some col ∈ basis) :
    ((c.preElectric basis none).update E f = (.ok b, c', f') → AllowedMultipole row col 1 → NothingToDo (c'.getElectricDipole E f' row col) c' f') ∧
    ((c.preMagnetic basis none).update E f = (.ok b, c', f') → AllowedMagnetic row col → NothingToDo (c'.getMagneticDipole E f' row col) c' f') ∧
    (∀ k, (c.preDiamagnetism basis k none).update E f = (.ok b, c', f') → AllowedMultipole row col k → NothingToDo (c'.getDiamagnetism E f' row col k) c' f') := by
  rcases notAfter_total basis row col hr hc with h | h
  · obtain ⟨h1, h2, h3⟩ := C105_polarisation_partial E c c' f f' b basis hsp none row col h (by simp)
    exact ⟨fun hu hs => (h1 hu hs).1, fun hu hs => (h2 hu hs).1, fun k hu hs => (h3 k hu hs).1⟩
  · obtain ⟨h1, h2, h3⟩ := C105_polarisation_partial E c c' f f' b basis hsp none col row h (by simp)
    exact ⟨fun hu hs => (h1 hu hs.symm).2, fun hu hs => (h2 hu hs.symm).2, fun k hu hs => (h3 k hu hs.symm).2⟩

/-! ## Counterexamples and examples -/

/-- Without a database file: a missing key that cannot be computed. -/
theorem update_throws {E : CacheEnv} {c : MEC} {f : Rows} (hd : c.dbOn = false) (k : CKey) (hk : k ∈ c.missing) (hn : c.compute E k = none) :
    (c.update E f).1 = .throw := by
  unfold MEC.update
  rw [if_neg (by rintro h; rw [h] at hk; simp at hk)]
  have h1 : c.load f = c := by unfold MEC.load; rw [hd]; rfl
  have h2 : c.begin = some c := by unfold MEC.begin; rw [hd]; rfl
  dsimp only
  rw [h1, h2]
  have h3 : (c.calcAll E (calcOrder c.missing)).1 = false := by
    rw [Bool.eq_false_iff]
    intro h
    have := (calcAll_ok _ c).1 h k (mem_calcOrder.2 hk)
    rw [hn] at this; cases this
  dsimp only
  rcases hc : c.calcAll E (calcOrder c.missing) with ⟨b, c2⟩
  rw [hc] at h3
  dsimp only at h3
  subst h3
  rfl

theorem mem_missing_of_empty (c : MEC) (h0 : c.cache = []) (ks : List CKey) (k : CKey) (hk : k ∈ ks) : k ∈ (c.wantAll ks).missing := by
  rcases wantAll_mem ks c k hk with h | h
  · rw [(wantAll_same ks c).2.2.2.2, h0] at h; cases h
  · exact h

/-- |60 S1/2, m = 1/2>. -/
def exPreS : QN := ⟨"Rb", 60, 0, 1, 1, 1⟩
/-- |60 P3/2, m = 3/2>. -/
def exPreP : QN := ⟨"Rb", 60, 1, 3, 3, 1⟩
/-- A state of another species, |70 S1/2, m = 1/2>. -/
def exPreCs : QN := ⟨"Cs", 70, 0, 1, 1, 1⟩
/-- Radial elements are known for rubidium at n = 60 only and for caesium. -/
noncomputable def exPreEnv : CacheEnv := ⟨⟨1, 1, 1, 1⟩, fun _ _ a => if a.species = "Cs" ∨ a.n = (60, 60) then some 1 else none, fun _ => false⟩
/-- No radial element can be calculated. -/
noncomputable def exNoEnv : CacheEnv := ⟨⟨1, 1, 1, 1⟩, fun _ _ _ => none, fun _ => false⟩

/-- **C105 fails for one polarisation.** Only pairs whose row stands before the column in the basis are looked at: after `precalculateElectricMomentum(basis, 1)` and `update`, the allowed
element with m_row - m_col = 1 has not been calculated; looking it up has to calculate it, and here throws. -/
theorem C105_order_fails : ∃ c', ((MEC.fresh false).preElectric [some exPreS, some exPreP] (some 1)).update exNoEnv [] = (.ok false, c', []) ∧
    AllowedMultipole exPreP exPreS 1 ∧ exPreP.m - exPreS.m = 2 * 1 ∧ (c'.getElectricDipole exNoEnv [] exPreP exPreS).1 = .throw := by
  have h0 : (MEC.fresh false).preElectric [some exPreS, some exPreP] (some 1) = MEC.fresh false := by
    unfold MEC.preElectric MEC.precalculate
    rw [show firstPhysical [some exPreS, some exPreP] = some exPreS from rfl]
    dsimp only
    rw [show List.range [some exPreS, some exPreP].length = [0, 1] from rfl]
    simp only [List.flatMap_cons, List.flatMap_nil, show List.range (0 + 1) = [0] from rfl, show List.range (1 + 1) = [0, 1] from rfl, List.getElem?_cons_zero,
      List.getElem?_cons_succ, Option.join_some, List.append_nil]
    have k1 : pairKeys (MEC.fresh false).method exPreS.species exPreS.s exPreS exPreS 1 (some 1) 1 true false false = [] := by
      unfold pairKeys; rw [if_pos (by decide)]
    have k2 : pairKeys (MEC.fresh false).method exPreS.species exPreS.s exPreS exPreP 1 (some 1) 1 true false false = [] := by
      unfold pairKeys; rw [if_pos (by decide)]
    have k3 : pairKeys (MEC.fresh false).method exPreS.species exPreS.s exPreP exPreP 1 (some 1) 1 true false false = [] := by
      unfold pairKeys; rw [if_pos (by decide)]
    simp only [k1, k2, k3, List.append_nil]
    rfl
  refine ⟨MEC.fresh false, by rw [h0]; exact update_idle rfl, ?_, by decide, ?_⟩
  · rw [← selMultipole_iff]; decide
  · have hw := update_throws (E := exNoEnv) (c := (MEC.fresh false).wantAll (mulKeys (MEC.fresh false).method exPreP exPreS 1 1)) (f := [])
      (by rw [(wantAll_same _ _).2.2.1]; rfl) (.rad (RadKey.make (MEC.fresh false).method exPreP.species 1 exPreP.n exPreS.n exPreP.l exPreS.l exPreP.j exPreS.j))
      (mem_missing_of_empty _ rfl _ _ (by unfold mulKeys; simp)) rfl
    unfold MEC.getElectricDipole MEC.getElectricMultipole
    rw [if_neg (by decide)]
    dsimp only
    unfold mulKeys at hw
    rcases hu : ((MEC.fresh false).wantAll [.rad (RadKey.make (MEC.fresh false).method exPreP.species 1 exPreP.n exPreS.n exPreP.l exPreS.l exPreP.j exPreS.j),
      .ang (AngKey.make 1 exPreP.j exPreS.j exPreP.m exPreS.m).1, .comS (ComKey.make exPreP.s 1 exPreP.l exPreS.l exPreP.j exPreS.j).1, .mul (MulKey.make 1 exPreP.l exPreS.l).1]).update exNoEnv [] with ⟨o, c2, f2⟩
    rw [hu] at hw
    dsimp only at hw
    subst hw
    rfl

/-- **C105 fails for several species.** The species of the first state is used for all states: with a rubidium and a caesium state, rubidium elements with the quantum numbers of the caesium
state are calculated. Here they are not available, and `update` throws, although the element of either state with itself can be looked up. -/
theorem C105_two_species_fails :
    (((MEC.fresh false).preMultipole [some exPreS, some exPreCs] 0).update exPreEnv []).1 = .throw ∧
    (∃ v, ((MEC.fresh false).getElectricMultipole exPreEnv [] exPreS exPreS 0 0).1 = .ok v) ∧
    (∃ v, ((MEC.fresh false).getElectricMultipole exPreEnv [] exPreCs exPreCs 0 0).1 = .ok v) := by
  refine ⟨?_, ?_, ?_⟩
  · have hcache : ∀ c : MEC, c.precalculate [some exPreS, some exPreCs] 0 none 0 true false false =
        c.wantAll ((List.range [some exPreS, some exPreCs].length).flatMap fun ic => (List.range (ic + 1)).flatMap fun ir =>
          match [some exPreS, some exPreCs][ic]?.join, [some exPreS, some exPreCs][ir]?.join with
          | some col, some row => pairKeys c.method exPreS.species exPreS.s row col 0 none 0 true false false
          | _, _ => []) := fun c => rfl
    unfold MEC.preMultipole
    rw [hcache]
    refine update_throws (by rw [(wantAll_same _ _).2.2.1]; rfl) (.rad (RadKey.make .numerov "Rb" 0 70 70 0 0 1 1)) (mem_missing_of_empty _ rfl _ _ ?_) ?_
    · refine List.mem_flatMap.2 ⟨1, by decide, List.mem_flatMap.2 ⟨1, by decide, ?_⟩⟩
      show _ ∈ pairKeys (MEC.fresh false).method exPreS.species exPreS.s exPreCs exPreCs 0 none 0 true false false
      unfold pairKeys
      rw [if_neg (by simp), if_pos (by decide)]
      exact List.mem_append_left _ (List.mem_append_left _ (List.mem_append_left _ (List.mem_append_left _ (List.mem_singleton.2 rfl))))
    · unfold MEC.compute
      simp only [exPreEnv, RadKey.make, RadKey.args]
      simp
  all_goals
    have := fresh_run (E := exPreEnv) (MEC.fresh false) (o := .multipole exPreS exPreS 0 0) rfl rfl (by
      intro k hk
      simp only [COp.keys, List.mem_cons, List.not_mem_nil, or_false] at hk
      rcases hk with rfl | rfl | rfl | rfl <;> simp [MEC.compute, exPreEnv, RadKey.make, RadKey.args, exPreS])
    have this2 := fresh_run (E := exPreEnv) (MEC.fresh false) (o := .multipole exPreCs exPreCs 0 0) rfl rfl (by
      intro k hk
      simp only [COp.keys, List.mem_cons, List.not_mem_nil, or_false] at hk
      rcases hk with rfl | rfl | rfl | rfl <;> simp [MEC.compute, exPreEnv, RadKey.make, RadKey.args, exPreCs])
  · exact ⟨_, this⟩
  · exact ⟨_, this2⟩

/-- A rubidium basis with an artificial state: after precalculating the dipole elements, the S-P element is there in both directions. -/
example (E : CacheEnv) (c c' : MEC) (f f' : Rows) (b : Bool) (hu : (c.preMultipole [none, some exPreS, some exPreP] 1).update E f = (.ok b, c', f')) :
    NothingToDo (c'.getElectricMultipole E f' exPreP exPreS 1 1) c' f' ∧ NothingToDo (c'.getElectricMultipole E f' exPreS exPreP 1 1) c' f' := by
  have hsp : OneSpecies [none, some exPreS, some exPreP] := by
    intro a b ha hb
    simp only [List.mem_cons, List.not_mem_nil, or_false, reduceCtorEq, false_or, Option.some.injEq] at ha hb
    rcases ha with rfl | rfl <;> rcases hb with rfl | rfl <;> exact ⟨rfl, rfl⟩
  exact ⟨C105_multipole E c c' f f' b _ hsp 1 hu exPreP exPreS (by simp) (by simp) ((selMultipole_iff _ _ _).1 (by decide)),
    C105_multipole E c c' f f' b _ hsp 1 hu exPreS exPreP (by simp) (by simp) ((selMultipole_iff _ _ _).1 (by decide))⟩

/-- And such an update exists: without a file, if the radial elements can be calculated. -/
example : ∃ b c' f', ((MEC.fresh false).preMultipole [none, some exPreS, some exPreP] 1).update exPreEnv [] = (.ok b, c', f') := by
  have h := update_gen (E := exPreEnv) (PC := fun _ _ => True) (PF := fun _ _ => True) (fun _ _ _ => trivial) (f := []) (fun _ _ => trivial)
    (c := (MEC.fresh false).preMultipole [none, some exPreS, some exPreP] 1) ⟨fun _ _ => trivial, fun _ _ _ _ => trivial⟩ (fun _ _ _ => trivial)
  set c := (MEC.fresh false).preMultipole [none, some exPreS, some exPreP] 1 with hc
  have hd : c.dbOn = false := by rw [hc]; unfold MEC.preMultipole MEC.precalculate; exact (wantAll_same _ _).2.2.1
  have hcomp : ∀ k ∈ c.missing, (c.compute exPreEnv k).isSome := by
    intro k hk
    rw [hc] at hk
    unfold MEC.preMultipole MEC.precalculate at hk
    rw [show firstPhysical [none, some exPreS, some exPreP] = some exPreS from rfl] at hk
    dsimp only at hk
    rcases wantAll_missing_sub _ _ _ hk with h1 | h1
    · cases h1
    · cases k <;> simp only [MEC.compute, Option.isSome_some]
      rename_i r
      obtain ⟨ic, hic, h1⟩ := List.mem_flatMap.1 h1
      obtain ⟨ir, hir, h1⟩ := List.mem_flatMap.1 h1
      have hn : r.args.n = (60, 60) := by
        have h60 : ∀ (i : ℕ) (a : QN), ([none, some exPreS, some exPreP] : List (Option QN))[i]?.join = some a → a.n = 60 := by
          intro i a ha
          match i, ha with
          | 1, ha => cases ha; rfl
          | 2, ha => cases ha; rfl
        cases hcol : ([none, some exPreS, some exPreP] : List (Option QN))[ic]?.join with
        | none => rw [hcol] at h1; simp at h1
        | some col =>
          cases hrow : ([none, some exPreS, some exPreP] : List (Option QN))[ir]?.join with
          | none => rw [hcol, hrow] at h1; simp at h1
          | some row =>
            rw [hcol, hrow] at h1
            dsimp only at h1
            unfold pairKeys at h1
            have e1 := h60 ic col hcol
            have e2 := h60 ir row hrow
            rw [if_neg (by simp)] at h1
            split at h1
            · simp only [Bool.or_false, if_true, List.mem_append, List.mem_singleton, CKey.rad.injEq, reduceCtorEq, or_false, Bool.false_eq_true, if_false,
                List.not_mem_nil] at h1
              rw [h1, e1, e2]; unfold RadKey.make; split_ifs <;> rfl
            · simp at h1
      show (if _ then some 1 else none : Option ℝ).isSome = true
      rw [if_pos (Or.inr hn)]; rfl
  have hok : (c.update exPreEnv []).1 ≠ .throw := by
    unfold MEC.update
    split_ifs with hm
    · simp
    · have h1 : c.load [] = c := by unfold MEC.load; rw [hd]; rfl
      have h2 : c.begin = some c := by unfold MEC.begin; rw [hd]; rfl
      dsimp only
      rw [h1, h2]
      have h3 := (calcAll_ok (E := exPreEnv) (calcOrder c.missing) c).2 fun k hk => hcomp k (mem_calcOrder.1 hk)
      dsimp only
      rcases hca : c.calcAll exPreEnv (calcOrder c.missing) with ⟨b, c2⟩
      rw [hca] at h3
      dsimp only at h3
      subst h3
      simp
  rcases hr : c.update exPreEnv [] with ⟨o, c', f'⟩
  rw [hr] at hok h
  cases o with
  | ok b => exact ⟨b, c', f', rfl⟩
  | throw => exact absurd rfl hok
  | ub => exact absurd rfl h.2.2.2.1

end PI
