import Verif.ElemCache.Props
import Verif.ElemCache.DipoleModel

/-! # What `update` keeps, for arbitrary properties of rows -/

namespace PI

theorem Rows.insert_keep {r : Rows} {k k' : CKey} {v w : ℝ} (h : r.get k' = some w) :
    (r.insert k v).get k' = some w := by
  unfold Rows.insert
  split_ifs
  · exact h
  · unfold Rows.get at h ⊢
    rw [List.find?_append]
    cases hf : r.find? (fun e => decide (e.1 = k')) with
    | none => rw [hf] at h; simp at h
    | some e => rw [hf] at h; simpa using h

theorem compute_congr {E : CacheEnv} {c c' : MEC} (hm : c'.method = c.method) (hd : c'.defectdb = c.defectdb)
    (k : CKey) : c'.compute E k = c.compute E k := by
  cases k <;> simp only [MEC.compute]
  rw [hm, hd]

/-- All cached rows satisfy `PC`, all rows of an open transaction satisfy `PF`. -/
structure RInv (PC PF : CKey → ℝ → Prop) (c : MEC) : Prop where
  cache : ∀ e ∈ c.cache, PC e.1 e.2
  txn : ∀ r, c.txn = some r → ∀ e ∈ r, PF e.1 e.2

/-- What a step keeps: settings, and the value of every cached key. -/
structure Keeps (c c' : MEC) : Prop where
  method : c'.method = c.method
  defectdb : c'.defectdb = c.defectdb
  dbOn : c'.dbOn = c.dbOn
  get : ∀ k v, c.cache.get k = some v → c'.cache.get k = some v

theorem Keeps.refl (c : MEC) : Keeps c c := ⟨rfl, rfl, rfl, fun _ _ h => h⟩

theorem Keeps.trans {a b c : MEC} (h : Keeps a b) (g : Keeps b c) : Keeps a c :=
  ⟨g.method.trans h.method, g.defectdb.trans h.defectdb, g.dbOn.trans h.dbOn,
    fun k v hk => g.get k v (h.get k v hk)⟩

theorem Keeps.isSome {a b : MEC} (h : Keeps a b) {k : CKey} (hk : (a.cache.get k).isSome) :
    (b.cache.get k).isSome := by
  obtain ⟨v, hv⟩ := Option.isSome_iff_exists.mp hk
  rw [h.get k v hv]; rfl

variable {PC PF : CKey → ℝ → Prop}

theorem loadOne_gen (hPF : ∀ k v, PF k v → PC k v) {f : Rows} (hf : ∀ e ∈ f, PF e.1 e.2) {c : MEC}
    (h : RInv PC PF c) (k : CKey) :
    RInv PC PF (c.loadOne f k) ∧ Keeps c (c.loadOne f k) ∧ (c.loadOne f k).txn = c.txn ∧
    (∀ k', k' ∈ c.missing → k' ∈ (c.loadOne f k).missing ∨ ((c.loadOne f k).cache.get k').isSome) ∧
    (∀ k', k' ∈ (c.loadOne f k).missing → k' ∈ c.missing) := by
  have triv : RInv PC PF c ∧ Keeps c c ∧ c.txn = c.txn ∧
    (∀ k', k' ∈ c.missing → k' ∈ c.missing ∨ (c.cache.get k').isSome) ∧
    (∀ k', k' ∈ c.missing → k' ∈ c.missing) := ⟨h, Keeps.refl c, rfl, fun _ h => Or.inl h, fun _ h => h⟩
  unfold MEC.loadOne
  split_ifs with hm
  · cases hg : Rows.get (f ++ c.txn.getD []) k with
    | none => exact triv
    | some v =>
      have hv : PC k v := by
        rcases List.mem_append.mp (Rows.get_mem hg) with h1 | h1
        · exact hPF _ _ (hf _ h1)
        · cases ht : c.txn with
          | none => rw [ht] at h1; simp at h1
          | some r => rw [ht] at h1; exact hPF _ _ (h.txn r ht _ h1)
      refine ⟨⟨?_, h.txn⟩, ⟨rfl, rfl, rfl, fun k' w hw => Rows.insert_keep hw⟩, rfl, ?_, ?_⟩
      · intro e he
        rcases Rows.mem_insert he with h1 | rfl
        · exact h.cache e h1
        · exact hv
      · intro k' hk'
        by_cases e : k' = k
        · right; rw [e]; exact Rows.insert_self _ _ _
        · left; exact (List.mem_erase_of_ne e).mpr hk'
      · intro k' hk'; exact List.mem_of_mem_erase hk'
  · exact triv

theorem loadFold_gen (hPF : ∀ k v, PF k v → PC k v) {f : Rows} (hf : ∀ e ∈ f, PF e.1 e.2) (ks : List CKey)
    {c : MEC} (h : RInv PC PF c) :
    let c' := ks.foldl (MEC.loadOne f) c
    RInv PC PF c' ∧ Keeps c c' ∧ c'.txn = c.txn ∧
    (∀ k', k' ∈ c.missing → k' ∈ c'.missing ∨ (c'.cache.get k').isSome) ∧
    (∀ k', k' ∈ c'.missing → k' ∈ c.missing) := by
  induction ks generalizing c with
  | nil => exact ⟨h, Keeps.refl c, rfl, fun _ h => Or.inl h, fun _ h => h⟩
  | cons k ks ih =>
    obtain ⟨a1, a2, a3, a4, a5⟩ := loadOne_gen hPF hf h k
    obtain ⟨b1, b2, b3, b4, b5⟩ := ih a1
    refine ⟨b1, a2.trans b2, b3.trans a3, ?_, fun k' h => a5 k' (b5 k' h)⟩
    intro k' hk'
    rcases a4 k' hk' with h1 | h1
    · exact b4 k' h1
    · exact Or.inr (b2.isSome h1)

theorem load_gen (hPF : ∀ k v, PF k v → PC k v) {f : Rows} (hf : ∀ e ∈ f, PF e.1 e.2) {c : MEC}
    (h : RInv PC PF c) :
    RInv PC PF (c.load f) ∧ Keeps c (c.load f) ∧ (c.load f).txn = c.txn ∧
    (∀ k', k' ∈ c.missing → k' ∈ (c.load f).missing ∨ ((c.load f).cache.get k').isSome) ∧
    (∀ k', k' ∈ (c.load f).missing → k' ∈ c.missing) := by
  unfold MEC.load
  split_ifs
  · exact loadFold_gen hPF hf _ h
  · exact ⟨h, Keeps.refl c, rfl, fun _ h => Or.inl h, fun _ h => h⟩

theorem calcAll_gen {E : CacheEnv} (hPF : ∀ k v, PF k v → PC k v) (ks : List CKey) {c : MEC}
    (h : RInv PC PF c) (hP : ∀ k v, c.compute E k = some v → PF k v) :
    let b := (c.calcAll E ks).1
    let c' := (c.calcAll E ks).2
    RInv PC PF c' ∧ Keeps c c' ∧ c'.missing = c.missing ∧ (c.dbOn = false → c'.txn = c.txn) ∧
    (b = true → ∀ k ∈ ks, (c'.cache.get k).isSome) := by
  induction ks generalizing c with
  | nil => exact ⟨h, Keeps.refl c, rfl, fun _ => rfl, by simp⟩
  | cons k ks ih =>
    unfold MEC.calcAll MEC.calcOne
    cases hv : c.compute E k with
    | none => exact ⟨h, Keeps.refl c, rfl, fun _ => rfl, by simp⟩
    | some v =>
      dsimp only
      have a1 : RInv PC PF { c with
          cache := c.cache.insert k v
          txn := if c.dbOn then some ((c.txn.getD []).insert k v) else c.txn } := by
        refine ⟨?_, ?_⟩
        · intro e he
          rcases Rows.mem_insert he with h1 | rfl
          · exact h.cache e h1
          · exact hPF _ _ (hP _ _ hv)
        · intro r hr e he
          dsimp only at hr
          split_ifs at hr
          · simp only [Option.some.injEq] at hr
            subst hr
            rcases Rows.mem_insert he with h1 | rfl
            · cases ht : c.txn with
              | none => rw [ht] at h1; simp at h1
              | some r => rw [ht] at h1; exact h.txn r ht _ h1
            · exact hP _ _ hv
          · exact h.txn r hr e he
      have a2 : Keeps c { c with
          cache := c.cache.insert k v
          txn := if c.dbOn then some ((c.txn.getD []).insert k v) else c.txn } :=
        ⟨rfl, rfl, rfl, fun k' w hw => Rows.insert_keep hw⟩
      obtain ⟨b1, b2, b3, b4, b5⟩ := ih a1 (fun k' v' hv' => hP k' v' (by rw [← hv']; exact
        (compute_congr a2.method a2.defectdb k').symm))
      refine ⟨b1, a2.trans b2, b3, ?_, ?_⟩
      · intro hdb; rw [b4 hdb]; simp [hdb]
      · intro hb k' hk'
        rcases List.mem_cons.mp hk' with rfl | h1
        · exact b2.isSome (Rows.insert_self _ _ _)
        · exact b5 hb k' h1

theorem foldl_insert_gen (r : Rows) {f : Rows} (hf : ∀ e ∈ f, PF e.1 e.2) (hr : ∀ e ∈ r, PF e.1 e.2) :
    ∀ e ∈ r.foldl (fun f e => f.insert e.1 e.2) f, PF e.1 e.2 := by
  induction r generalizing f with
  | nil => exact hf
  | cons e r ih =>
    simp only [List.foldl_cons]
    refine ih ?_ (fun e' he' => hr e' (List.mem_cons_of_mem _ he'))
    intro e' he'
    rcases Rows.mem_insert he' with h1 | rfl
    · exact hf e' h1
    · exact hr e (by simp)

/-- What `update` keeps and adds, whatever the outcome. -/
theorem update_gen {E : CacheEnv} (hPF : ∀ k v, PF k v → PC k v) {f : Rows} (hf : ∀ e ∈ f, PF e.1 e.2) {c : MEC}
    (h : RInv PC PF c) (hP : ∀ k v, c.compute E k = some v → PF k v) :
    let r := c.update E f
    RInv PC PF r.2.1 ∧ Keeps c r.2.1 ∧ (∀ e ∈ r.2.2, PF e.1 e.2) ∧ r.1 ≠ .ub ∧
    (r.1 ≠ .throw → r.2.1.missing = [] ∧
      ∀ k, (c.cache.get k).isSome ∨ k ∈ c.missing → (r.2.1.cache.get k).isSome) ∧
    (r.1 ≠ .throw → c.txn = none → r.2.1.txn = none) := by
  unfold MEC.update
  by_cases hm : c.missing = []
  · rw [if_pos hm]
    refine ⟨h, Keeps.refl c, hf, by simp, fun _ => ⟨hm, ?_⟩, fun _ h => h⟩
    rintro k (hk | hk)
    · exact hk
    · rw [hm] at hk; simp at hk
  rw [if_neg hm]
  obtain ⟨a1, a2, a3, a4, a5⟩ := load_gen hPF hf h
  dsimp only
  cases hb : (c.load f).begin with
  | none => exact ⟨a1, a2, hf, by simp, by simp, by simp⟩
  | some c1 =>
    have hc1 : RInv PC PF c1 ∧ Keeps (c.load f) c1 ∧ c1.missing = (c.load f).missing ∧
        c1.cache = (c.load f).cache ∧ (c1.dbOn = false → c1.txn = (c.load f).txn) := by
      unfold MEC.begin at hb
      split_ifs at hb with hdb
      · cases ht : (c.load f).txn with
        | some r => rw [ht] at hb; simp at hb
        | none =>
          rw [ht] at hb
          simp only [Option.some.injEq] at hb
          subst hb
          refine ⟨⟨a1.cache, ?_⟩, ⟨rfl, rfl, rfl, fun _ _ h => h⟩, rfl, rfl, fun h => ?_⟩
          · intro r hr e he
            simp only [Option.some.injEq] at hr
            subst hr
            simp at he
          · dsimp only at h; rw [hdb] at h; cases h
      · simp only [Option.some.injEq] at hb
        subst hb
        exact ⟨a1, Keeps.refl _, rfl, rfl, fun _ => rfl⟩
    obtain ⟨i1, i2, i3, i4, i5⟩ := hc1
    have ik := a2.trans i2
    obtain ⟨b1, b2, b3, b4, b5⟩ := calcAll_gen (E := E) hPF (calcOrder c1.missing) i1
      (fun k v hv => hP k v (by rw [← hv]; exact (compute_congr ik.method ik.defectdb k).symm))
    rcases hcalc : c1.calcAll E (calcOrder c1.missing) with ⟨b, c2⟩
    rw [hcalc] at b1 b2 b3 b4 b5
    dsimp only at b1 b2 b3 b4 b5 ⊢
    rw [hcalc]
    have hk2 := ik.trans b2
    cases b with
    | false => exact ⟨b1, hk2, hf, by simp, by simp, by simp⟩
    | true =>
      dsimp only
      have hcache : ∀ k, (c.cache.get k).isSome ∨ k ∈ c.missing → (c2.cache.get k).isSome := by
        intro k hk
        rcases hk with hk | hk
        · exact hk2.isSome hk
        · rcases a4 k hk with h1 | h1
          · apply b5 rfl; rw [mem_calcOrder, i3]; exact h1
          · exact (i2.trans b2).isSome h1
      unfold MEC.commit
      by_cases hdb : c2.dbOn = true
      · simp only [hdb, if_true]
        refine ⟨⟨b1.cache, by simp⟩, ⟨hk2.method, hk2.defectdb, ?_, hk2.get⟩, ?_, by simp, fun _ => ⟨trivial, hcache⟩,
          fun _ _ => trivial⟩
        · exact hdb ▸ hk2.dbOn
        · apply foldl_insert_gen _ hf
          cases ht : c2.txn with
          | none => simp
          | some r => exact b1.txn r ht
      · rw [if_neg hdb]
        refine ⟨⟨b1.cache, b1.txn⟩, ⟨hk2.method, hk2.defectdb, hk2.dbOn, hk2.get⟩, hf, by simp,
          fun _ => ⟨rfl, hcache⟩, fun _ ht => ?_⟩
        have hdf : c1.dbOn = false := by
          rw [← b2.dbOn]; simpa using hdb
        show c2.txn = none
        rw [b4 hdf, i5 hdf, a3, ht]

/-- The values of the angular tables are right; nothing is said about the radial table. -/
def AngRight : CKey → ℝ → Prop
  | .rad _, _ => True
  | .ang k, v => v = k.value
  | .comS k, v => v = k.valueS
  | .comL k, v => v = k.valueL
  | .mul k, v => v = k.value

theorem compute_ang {E : CacheEnv} {c : MEC} (k : CKey) (v : ℝ) (h : c.compute E k = some v) : AngRight k v := by
  cases k <;> simp only [MEC.compute, Option.some.injEq] at h <;> simp only [AngRight] <;> exact h.symm

/-- Every cache and file of an arbitrary history: the angular values are right. -/
abbrev AInv (c : MEC) : Prop := RInv AngRight AngRight c

theorem want_keeps (c : MEC) (k : CKey) : Keeps c (c.want k) := by
  unfold MEC.want; split_ifs
  · exact Keeps.refl c
  · exact ⟨rfl, rfl, rfl, fun _ _ h => h⟩

theorem wantAll_keeps (ks : List CKey) (c : MEC) : Keeps c (c.wantAll ks) := by
  obtain ⟨h1, h2, h3, h4, h5⟩ := wantAll_same ks c
  exact ⟨h1, h2, h3, fun k v h => by rw [h5]; exact h⟩

theorem RInv.wantAll {c : MEC} (h : RInv PC PF c) (ks : List CKey) : RInv PC PF (c.wantAll ks) := by
  obtain ⟨h1, h2, h3, h4, h5⟩ := wantAll_same ks c
  refine ⟨?_, ?_⟩
  · rw [h5]; exact h.cache
  · rw [h4]; exact h.txn

/-- Any operation of C22's histories keeps the cached values, and the properties of the rows. -/
theorem run_gen {E : CacheEnv} (hPF : ∀ k v, PF k v → PC k v)
    (hP : ∀ (c : MEC) k v, c.compute E k = some v → PF k v) {f : Rows} (hf : ∀ e ∈ f, PF e.1 e.2) {c : MEC}
    (h : RInv PC PF c) (o : COp) :
    RInv PC PF (o.run E c f).2.1 ∧ (∀ e ∈ (o.run E c f).2.2, PF e.1 e.2) ∧
    (∀ k v, c.cache.get k = some v → (o.run E c f).2.1.cache.get k = some v) := by
  by_cases hg : o.isGet = true
  · by_cases hs : o.sameSpecies
    · obtain ⟨r1, -, -⟩ := run_get (E := E) hg hs c f
      rw [r1]
      obtain ⟨u1, u2, u3, -⟩ := update_gen (E := E) hPF hf (h.wantAll (o.keys c.method)) (hP _)
      exact ⟨u1, u3, ((wantAll_keeps _ _).trans u2).get⟩
    · rw [run_mismatch hg hs]; exact ⟨h, hf, fun _ _ h => h⟩
  · cases o with
    | multipole => simp [COp.isGet] at hg
    | magnetic => simp [COp.isGet] at hg
    | radial => simp [COp.isGet] at hg
    | precalculate basis ka q kr el mag rad =>
      simp only [COp.run, MEC.precalculate]
      cases firstPhysical basis with
      | none => exact ⟨h, hf, fun _ _ h => h⟩
      | some p => exact ⟨h.wantAll _, hf, (wantAll_keeps _ _).get⟩
    | setMethod m => exact ⟨⟨h.cache, h.txn⟩, hf, fun _ _ h => h⟩
    | setDefectDB p => exact ⟨⟨h.cache, h.txn⟩, hf, fun _ _ h => h⟩
    | reload => exact ⟨⟨h.cache, by simp [COp.run, MEC.reload]⟩, hf, fun _ _ h => h⟩
    | shuffle ks =>
      simp only [COp.run]
      split_ifs with hp
      · exact ⟨⟨h.cache, h.txn⟩, hf, fun _ _ h => h⟩
      · exact ⟨h, hf, fun _ _ h => h⟩

end PI
