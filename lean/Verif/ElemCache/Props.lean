import Verif.ElemCache.Model

/-! # Properties C22–C24: lookup histories, crashes and processes, failed lookups -/

namespace PI

/-! ## Specification -/

/-- The value `v` is the right one for key `k` if the quantum-defect database is `d`: for a radial key,
the integral computed with the method named in the key. -/
def Right (E : CacheEnv) (d : String) : CKey → ℝ → Prop
  | .rad k, v => E.radial d k.method k.args = some v
  | .ang k, v => v = k.value
  | .comS k, v => v = k.valueS
  | .comL k, v => v = k.valueL
  | .mul k, v => v = k.value

/-- All rows are right. -/
def RowsRight (E : CacheEnv) (d : String) (r : Rows) : Prop := ∀ e ∈ r, Right E d e.1 e.2

/-- A newly constructed cache without database and with the same settings. -/
def MEC.freshLike (c : MEC) : MEC := ⟨c.method, c.defectdb, false, none, [], []⟩

/-- The operations for which the history property holds: the method is not changed while radial keys
are waiting to be computed; the quantum-defect database is not changed (or lost by serialization) once
radial values are cached. -/
def COp.Tame (o : COp) (c : MEC) : Prop :=
  match o with
  | .setMethod m => m = c.method ∨ ∀ k ∈ c.missing, k.isRad = false
  | .setDefectDB p => p = c.defectdb ∨ ∀ e ∈ c.cache, e.1.isRad = false
  | .reload => c.defectdb = "" ∨ ∀ e ∈ c.cache, e.1.isRad = false
  | _ => True

/-- Every operation of the history is tame when it happens. -/
def TameHist (E : CacheEnv) : List COp → MEC → Rows → Prop
  | [], _, _ => True
  | o :: os, c, f => o.Tame c ∧ TameHist E os (o.run E c f).2.1 (o.run E c f).2.2

/-! ## Rows -/

theorem Rows.get_mem {r : Rows} {k : CKey} {v : ℝ} (h : r.get k = some v) : (k, v) ∈ r := by
  unfold Rows.get at h
  rw [Option.map_eq_some_iff] at h
  obtain ⟨e, he, rfl⟩ := h
  have h1 := List.mem_of_find?_eq_some he
  have h2 : decide (e.1 = k) = true := List.find?_some (p := fun e : CKey × ℝ => decide (e.1 = k)) he
  rw [← of_decide_eq_true h2]; exact h1

theorem Rows.get_isSome {r : Rows} {k : CKey} : (r.get k).isSome ↔ ∃ v, (k, v) ∈ r := by
  constructor
  · intro h
    obtain ⟨v, hv⟩ := Option.isSome_iff_exists.mp h
    exact ⟨v, Rows.get_mem hv⟩
  · rintro ⟨v, hv⟩
    unfold Rows.get
    rw [Option.isSome_map, List.find?_isSome]
    exact ⟨(k, v), hv, by simp⟩

theorem Rows.mem_insert {r : Rows} {k : CKey} {v : ℝ} {e} (h : e ∈ r.insert k v) : e ∈ r ∨ e = (k, v) := by
  unfold Rows.insert at h
  split_ifs at h
  · exact Or.inl h
  · simpa using h

theorem Rows.insert_mono {r : Rows} {k k' : CKey} {v : ℝ} (h : (r.get k').isSome) :
    ((r.insert k v).get k').isSome := by
  rw [Rows.get_isSome] at *
  obtain ⟨w, hw⟩ := h
  refine ⟨w, ?_⟩
  unfold Rows.insert
  split_ifs
  · exact hw
  · exact List.mem_append_left _ hw

theorem Rows.insert_self (r : Rows) (k : CKey) (v : ℝ) : ((r.insert k v).get k).isSome := by
  unfold Rows.insert
  split_ifs with h
  · exact h
  · rw [Rows.get_isSome]; exact ⟨v, by simp⟩

theorem RowsRight.insert {E : CacheEnv} {d : String} {r : Rows} {k : CKey} {v : ℝ}
    (h : RowsRight E d r) (hv : Right E d k v) : RowsRight E d (r.insert k v) := by
  intro e he
  rcases Rows.mem_insert he with h1 | rfl
  · exact h e h1
  · exact hv

/-! ## Invariant -/

/-- What holds of every cache and file in tame histories. -/
structure CInv (E : CacheEnv) (c : MEC) : Prop where
  cache : RowsRight E c.defectdb c.cache
  missing : ∀ k, CKey.rad k ∈ c.missing → k.method = c.method
  txn : ∀ r, c.txn = some r → RowsRight E "" r
  db : c.dbOn = true → c.defectdb = ""

theorem CInv.want {E : CacheEnv} {c : MEC} (h : CInv E c) (k : CKey)
    (hk : ∀ r, k = .rad r → r.method = c.method) : CInv E (c.want k) := by
  unfold MEC.want
  split_ifs
  · exact h
  · refine ⟨h.cache, ?_, h.txn, h.db⟩
    intro r hr
    simp only [List.mem_append, List.mem_singleton] at hr
    rcases hr with hr | hr
    · exact h.missing r hr
    · exact hk r hr.symm

theorem want_same (c : MEC) (k : CKey) : (c.want k).method = c.method ∧ (c.want k).defectdb = c.defectdb ∧
    (c.want k).dbOn = c.dbOn ∧ (c.want k).txn = c.txn ∧ (c.want k).cache = c.cache := by
  unfold MEC.want; split_ifs <;> simp

theorem want_mem (c : MEC) (k : CKey) : ((c.want k).cache.get k).isSome ∨ k ∈ (c.want k).missing := by
  unfold MEC.want
  split_ifs with h
  · exact h
  · right; simp

theorem want_missing_mono (c : MEC) (k k' : CKey) (h : k' ∈ c.missing) : k' ∈ (c.want k).missing := by
  unfold MEC.want
  split_ifs
  · exact h
  · exact List.mem_append_left _ h

theorem want_missing_sub (c : MEC) (k k' : CKey) (h : k' ∈ (c.want k).missing) : k' ∈ c.missing ∨ k' = k := by
  unfold MEC.want at h
  split_ifs at h
  · exact Or.inl h
  · simpa using h

theorem wantAll_same (ks : List CKey) (c : MEC) : (c.wantAll ks).method = c.method ∧
    (c.wantAll ks).defectdb = c.defectdb ∧ (c.wantAll ks).dbOn = c.dbOn ∧ (c.wantAll ks).txn = c.txn ∧
    (c.wantAll ks).cache = c.cache := by
  induction ks generalizing c with
  | nil => simp [MEC.wantAll]
  | cons k ks ih =>
    have h := ih (c.want k)
    have h' := want_same c k
    simp only [MEC.wantAll, List.foldl_cons] at *
    rw [h'.1, h'.2.1, h'.2.2.1, h'.2.2.2.1, h'.2.2.2.2] at h
    exact h

theorem wantAll_missing_mono (ks : List CKey) (c : MEC) (k' : CKey) (h : k' ∈ c.missing) :
    k' ∈ (c.wantAll ks).missing := by
  induction ks generalizing c with
  | nil => exact h
  | cons k ks ih => exact ih _ (want_missing_mono c k k' h)

theorem wantAll_mem (ks : List CKey) (c : MEC) (k' : CKey) (h : k' ∈ ks) :
    ((c.wantAll ks).cache.get k').isSome ∨ k' ∈ (c.wantAll ks).missing := by
  induction ks generalizing c with
  | nil => simp at h
  | cons k ks ih =>
    rcases List.mem_cons.mp h with rfl | h
    · rcases want_mem c k' with h1 | h1
      · left
        have := (wantAll_same ks (c.want k')).2.2.2.2
        show (((c.want k').wantAll ks).cache.get k').isSome
        rw [this]; exact h1
      · right; exact wantAll_missing_mono ks _ _ h1
    · exact ih _ h

theorem wantAll_missing_sub (ks : List CKey) (c : MEC) (k' : CKey) (h : k' ∈ (c.wantAll ks).missing) :
    k' ∈ c.missing ∨ k' ∈ ks := by
  induction ks generalizing c with
  | nil => exact Or.inl h
  | cons k ks ih =>
    rcases ih (c.want k) h with h1 | h1
    · rcases want_missing_sub c k k' h1 with h2 | h2
      · exact Or.inl h2
      · right; simp [h2]
    · right; exact List.mem_cons_of_mem _ h1

theorem CInv.wantAll {E : CacheEnv} {c : MEC} (h : CInv E c) (ks : List CKey)
    (hk : ∀ r, CKey.rad r ∈ ks → r.method = c.method) : CInv E (c.wantAll ks) := by
  obtain ⟨s1, s2, s3, s4, s5⟩ := wantAll_same ks c
  refine ⟨by rw [s2, s5]; exact h.cache, ?_, by rw [s4]; exact h.txn, by rw [s3, s2]; exact h.db⟩
  intro r hr
  rw [s1]
  rcases wantAll_missing_sub ks c _ hr with h1 | h1
  · exact h.missing r h1
  · exact hk r h1

/-! ## Loading -/

theorem loadOne_props {E : CacheEnv} {f : Rows} (hf : RowsRight E "" f) (k : CKey) (c : MEC) (h : CInv E c)
    (hdb : c.dbOn = true) :
    CInv E (c.loadOne f k) ∧ (c.loadOne f k).method = c.method ∧ (c.loadOne f k).defectdb = c.defectdb ∧
    (c.loadOne f k).dbOn = c.dbOn ∧ (c.loadOne f k).txn = c.txn ∧
    (∀ k', (c.cache.get k').isSome → ((c.loadOne f k).cache.get k').isSome) ∧
    (∀ k', k' ∈ c.missing → k' ∈ (c.loadOne f k).missing ∨ ((c.loadOne f k).cache.get k').isSome) ∧
    (∀ k', k' ∈ (c.loadOne f k).missing → k' ∈ c.missing) := by
  unfold MEC.loadOne
  split_ifs with hm
  · cases hg : Rows.get (f ++ c.txn.getD []) k with
    | none => exact ⟨h, rfl, rfl, rfl, rfl, fun _ h => h, fun _ h => Or.inl h, fun _ h => h⟩
    | some v =>
      refine ⟨⟨?_, ?_, h.txn, h.db⟩, rfl, rfl, rfl, rfl, ?_, ?_, ?_⟩
      · refine RowsRight.insert h.cache ?_
        rw [h.db hdb]
        have hmem := Rows.get_mem hg
        rcases List.mem_append.mp hmem with h1 | h1
        · exact hf _ h1
        · cases ht : c.txn with
          | none => rw [ht] at h1; simp at h1
          | some r => rw [ht] at h1; exact h.txn r ht _ h1
      · intro r hr; exact h.missing r (List.mem_of_mem_erase hr)
      · intro k' hk'; exact Rows.insert_mono hk'
      · intro k' hk'
        by_cases e : k' = k
        · right; rw [e]; exact Rows.insert_self _ _ _
        · left; exact (List.mem_erase_of_ne e).mpr hk'
      · intro k' hk'; exact List.mem_of_mem_erase hk'
  · exact ⟨h, rfl, rfl, rfl, rfl, fun _ h => h, fun _ h => Or.inl h, fun _ h => h⟩

theorem loadFold_props {E : CacheEnv} {f : Rows} (hf : RowsRight E "" f) (ks : List CKey) (c : MEC)
    (h : CInv E c) (hdb : c.dbOn = true) :
    let c' := ks.foldl (MEC.loadOne f) c
    CInv E c' ∧ c'.method = c.method ∧ c'.defectdb = c.defectdb ∧
    c'.dbOn = c.dbOn ∧ c'.txn = c.txn ∧
    (∀ k', (c.cache.get k').isSome → (c'.cache.get k').isSome) ∧
    (∀ k', k' ∈ c.missing → k' ∈ c'.missing ∨ (c'.cache.get k').isSome) ∧
    (∀ k', k' ∈ c'.missing → k' ∈ c.missing) := by
  induction ks generalizing c with
  | nil => exact ⟨h, rfl, rfl, rfl, rfl, fun _ h => h, fun _ h => Or.inl h, fun _ h => h⟩
  | cons k ks ih =>
    obtain ⟨a1, a2, a3, a4, a5, a6, a7, a8⟩ := loadOne_props hf k c h hdb
    obtain ⟨b1, b2, b3, b4, b5, b6, b7, b8⟩ := ih _ a1 (by rw [a4]; exact hdb)
    refine ⟨b1, b2.trans a2, b3.trans a3, b4.trans a4, b5.trans a5, fun k' h => b6 k' (a6 k' h), ?_,
      fun k' h => a8 k' (b8 k' h)⟩
    intro k' hk'
    rcases a7 k' hk' with h1 | h1
    · exact b7 k' h1
    · exact Or.inr (b6 k' h1)

theorem load_props {E : CacheEnv} {f : Rows} (hf : RowsRight E "" f) (c : MEC) (h : CInv E c) :
    CInv E (c.load f) ∧ (c.load f).method = c.method ∧ (c.load f).defectdb = c.defectdb ∧
    (c.load f).dbOn = c.dbOn ∧ (c.load f).txn = c.txn ∧
    (∀ k', (c.cache.get k').isSome → ((c.load f).cache.get k').isSome) ∧
    (∀ k', k' ∈ c.missing → k' ∈ (c.load f).missing ∨ ((c.load f).cache.get k').isSome) ∧
    (∀ k', k' ∈ (c.load f).missing → k' ∈ c.missing) := by
  unfold MEC.load
  split_ifs with hdb
  · exact loadFold_props hf _ c h hdb
  · exact ⟨h, rfl, rfl, rfl, rfl, fun _ h => h, fun _ h => Or.inl h, fun _ h => h⟩

/-! ## Computing -/

theorem compute_right {E : CacheEnv} {c : MEC} {k : CKey} {v : ℝ}
    (hk : ∀ r, k = .rad r → r.method = c.method) (h : c.compute E k = some v) :
    Right E c.defectdb k v := by
  cases k with
  | rad r => simp only [MEC.compute] at h; simp only [Right]; rw [hk r rfl]; exact h
  | ang k => simp only [MEC.compute, Option.some.injEq] at h; exact h.symm
  | comS k => simp only [MEC.compute, Option.some.injEq] at h; exact h.symm
  | comL k => simp only [MEC.compute, Option.some.injEq] at h; exact h.symm
  | mul k => simp only [MEC.compute, Option.some.injEq] at h; exact h.symm

theorem calcOne_props {E : CacheEnv} {c c' : MEC} {k : CKey} (h : CInv E c)
    (hk : ∀ r, k = .rad r → r.method = c.method) (hc : c.calcOne E k = some c') :
    CInv E c' ∧ c'.method = c.method ∧ c'.defectdb = c.defectdb ∧ c'.dbOn = c.dbOn ∧
    c'.missing = c.missing ∧ (c.dbOn = false → c'.txn = c.txn) ∧
    (∀ k', (c.cache.get k').isSome → (c'.cache.get k').isSome) ∧ (c'.cache.get k).isSome := by
  unfold MEC.calcOne at hc
  cases hv : c.compute E k with
  | none => rw [hv] at hc; simp at hc
  | some v =>
    rw [hv] at hc
    simp only [Option.some.injEq] at hc
    subst hc
    have hr := compute_right hk hv
    refine ⟨⟨RowsRight.insert h.cache hr, h.missing, ?_, h.db⟩, rfl, rfl, rfl, rfl, ?_, ?_, ?_⟩
    · intro r hr'
      dsimp only at hr'
      split_ifs at hr' with hdb
      · simp only [Option.some.injEq] at hr'
        subst hr'
        rw [h.db hdb] at hr
        refine RowsRight.insert ?_ hr
        cases ht : c.txn with
        | none => intro e he; simp at he
        | some r => exact h.txn r ht
      · exact h.txn r hr'
    · intro hdb; simp [hdb]
    · intro k' hk'; exact Rows.insert_mono hk'
    · exact Rows.insert_self _ _ _

theorem calcAll_props {E : CacheEnv} (ks : List CKey) {c : MEC} (h : CInv E c)
    (hk : ∀ r, CKey.rad r ∈ ks → r.method = c.method) :
    let b := (c.calcAll E ks).1
    let c' := (c.calcAll E ks).2
    CInv E c' ∧ c'.method = c.method ∧ c'.defectdb = c.defectdb ∧ c'.dbOn = c.dbOn ∧
    c'.missing = c.missing ∧ (c.dbOn = false → c'.txn = c.txn) ∧
    (∀ k', (c.cache.get k').isSome → (c'.cache.get k').isSome) ∧
    (b = true → ∀ k ∈ ks, (c'.cache.get k).isSome) := by
  induction ks generalizing c with
  | nil => exact ⟨h, rfl, rfl, rfl, rfl, fun _ => rfl, fun _ h => h, by simp⟩
  | cons k ks ih =>
    unfold MEC.calcAll
    cases hc : c.calcOne E k with
    | none => exact ⟨h, rfl, rfl, rfl, rfl, fun _ => rfl, fun _ h => h, by simp⟩
    | some c1 =>
      obtain ⟨a1, a2, a3, a4, a5, a6, a7, a8⟩ :=
        calcOne_props h (fun r hr => hk r (by simp [hr])) hc
      obtain ⟨b1, b2, b3, b4, b5, b6, b7, b8⟩ :=
        ih a1 (fun r hr => by rw [a2]; exact hk r (List.mem_cons_of_mem _ hr))
      refine ⟨b1, b2.trans a2, b3.trans a3, b4.trans a4, b5.trans a5, ?_, fun k' h => b7 k' (a7 k' h), ?_⟩
      · intro hdb; exact (b6 (by rw [a4]; exact hdb)).trans (a6 hdb)
      · intro hb k' hk'
        rcases List.mem_cons.mp hk' with rfl | h1
        · exact b7 _ a8
        · exact b8 hb k' h1

/-- The computing loop fails exactly when one of the keys cannot be computed with the settings. -/
theorem calcAll_ok {E : CacheEnv} (ks : List CKey) (c : MEC) :
    (c.calcAll E ks).1 = true ↔ ∀ k ∈ ks, (c.compute E k).isSome := by
  induction ks generalizing c with
  | nil => simp [MEC.calcAll]
  | cons k ks ih =>
    unfold MEC.calcAll
    cases hv : c.compute E k with
    | none => simp [MEC.calcOne, hv]
    | some v =>
      simp only [MEC.calcOne, hv, ih, List.mem_cons, forall_eq_or_imp, Option.isSome_some, true_and]
      apply forall₂_congr
      intro k' _
      cases k' <;> rfl

theorem mem_calcOrder {ks : List CKey} {k : CKey} : k ∈ calcOrder ks ↔ k ∈ ks := by
  unfold calcOrder
  simp only [List.mem_append, List.mem_filter]
  cases k.isRad <;> simp

/-! ## update -/

theorem commit_file {E : CacheEnv} {f : Rows} (hf : RowsRight E "" f) (c : MEC) (h : CInv E c) :
    RowsRight E "" (c.commit f).2 := by
  unfold MEC.commit
  split_ifs
  · cases ht : c.txn with
    | none => exact hf
    | some r =>
      have hr := h.txn r ht
      simp only [Option.getD_some]
      clear ht h
      induction r generalizing f with
      | nil => exact hf
      | cons e r ih =>
        simp only [List.foldl_cons]
        exact ih (RowsRight.insert hf (hr e (by simp))) (fun e' he' => hr e' (List.mem_cons_of_mem _ he'))
  · exact hf

/-- What `update` does, whatever the outcome. -/
theorem update_props {E : CacheEnv} {f : Rows} (hf : RowsRight E "" f) (c : MEC) (h : CInv E c) :
    let r := c.update E f
    CInv E r.2.1 ∧ RowsRight E "" r.2.2 ∧ r.2.1.method = c.method ∧ r.2.1.defectdb = c.defectdb ∧
    r.2.1.dbOn = c.dbOn ∧ r.1 ≠ .ub ∧
    (r.1 ≠ .throw → r.2.1.missing = [] ∧ ∀ k, (c.cache.get k).isSome ∨ k ∈ c.missing → (r.2.1.cache.get k).isSome) := by
  unfold MEC.update
  by_cases hm : c.missing = []
  · rw [if_pos hm]
    refine ⟨h, hf, rfl, rfl, rfl, by simp, fun _ => ⟨hm, ?_⟩⟩
    rintro k (hk | hk)
    · exact hk
    · rw [hm] at hk; simp at hk
  · rw [if_neg hm]
    obtain ⟨a1, a2, a3, a4, a5, a6, a7, a8⟩ := load_props hf c h
    dsimp only
    cases hb : (c.load f).begin with
    | none => exact ⟨a1, hf, a2, a3, a4, by simp, by simp⟩
    | some c1 =>
      have hc1 : CInv E c1 ∧ c1.method = c.method ∧ c1.defectdb = c.defectdb ∧ c1.dbOn = c.dbOn ∧
          c1.cache = (c.load f).cache ∧ c1.missing = (c.load f).missing := by
        unfold MEC.begin at hb
        split_ifs at hb with hdb
        · cases ht : (c.load f).txn with
          | some r => rw [ht] at hb; simp at hb
          | none =>
            rw [ht] at hb
            simp only [Option.some.injEq] at hb
            subst hb
            refine ⟨⟨a1.cache, a1.missing, ?_, a1.db⟩, a2, a3, a4, rfl, rfl⟩
            intro r hr
            simp only [Option.some.injEq] at hr
            subst hr
            intro e he; simp at he
        · simp only [Option.some.injEq] at hb
          subst hb
          exact ⟨a1, a2, a3, a4, rfl, rfl⟩
      obtain ⟨i1, i2, i3, i4, i5, i6⟩ := hc1
      have hp := calcAll_props (calcOrder c1.missing) i1
        (fun r hr => i1.missing r (mem_calcOrder.mp hr))
      obtain ⟨b1, b2, b3, b4, b5, b6, b7, b8⟩ := hp
      rcases hcalc : c1.calcAll E (calcOrder c1.missing) with ⟨b, c2⟩
      rw [hcalc] at b1 b2 b3 b4 b5 b6 b7 b8
      dsimp only at b1 b2 b3 b4 b5 b6 b7 b8 ⊢
      rw [hcalc]
      cases b with
      | false => exact ⟨b1, hf, b2.trans i2, b3.trans i3, b4.trans i4, by simp, by simp⟩
      | true =>
        have hc2 : CInv E { c2 with missing := [] } := ⟨b1.cache, by simp, b1.txn, b1.db⟩
        have hfile := commit_file hf _ hc2
        dsimp only
        have hcom : ∀ x : MEC, (x.commit f).1.cache = x.cache ∧ (x.commit f).1.missing = x.missing ∧
            (x.commit f).1.method = x.method ∧ (x.commit f).1.defectdb = x.defectdb ∧
            (x.commit f).1.dbOn = x.dbOn ∧ (∀ r, (x.commit f).1.txn = some r → x.txn = some r) := by
          intro x
          unfold MEC.commit
          split_ifs <;> simp
        obtain ⟨k1, k2, k3, k4, k5, k6⟩ := hcom { c2 with missing := [] }
        refine ⟨⟨?_, ?_, ?_, ?_⟩, hfile, ?_, ?_, ?_, by simp, fun _ => ⟨k2, ?_⟩⟩
        · rw [k1, k4]; exact hc2.cache
        · rw [k2]; simp
        · intro r hr; exact hc2.txn r (k6 r hr)
        · rw [k5, k4]; exact hc2.db
        · rw [k3]; exact b2.trans i2
        · rw [k4]; exact b3.trans i3
        · rw [k5]; exact b4.trans i4
        · intro k hk
          rw [k1]
          have : ((c.load f).cache.get k).isSome ∨ k ∈ (c.load f).missing := by
            rcases hk with hk | hk
            · exact Or.inl (a6 k hk)
            · exact (a7 k hk).symm
          rcases this with h1 | h1
          · apply b7; rw [i5]; exact h1
          · apply b8 rfl; rw [mem_calcOrder, i6]; exact h1

/-! ## Lookups -/

/-- A lookup as a list of keys and a formula in the found values. -/
noncomputable def lookup (E : CacheEnv) (c : MEC) (f : Rows) (ks : List CKey) (comb : MEC → Out ℝ) :
    Out ℝ × MEC × Rows :=
  match (c.wantAll ks).update E f with
  | (.ok _, c, f) => (comb c, c, f)
  | (.throw, c, f) => (.throw, c, f)
  | (.ub, c, f) => (.ub, c, f)

/-- The keys a lookup needs under method `m`. -/
noncomputable def COp.keys (m : Method) : COp → List CKey
  | .multipole row col kr ka =>
    [.rad (RadKey.make m row.species kr row.n col.n row.l col.l row.j col.j),
     .ang (AngKey.make ka row.j col.j row.m col.m).1,
     .comS (ComKey.make row.s ka row.l col.l row.j col.j).1, .mul (MulKey.make ka row.l col.l).1]
  | .magnetic row col =>
    [.rad (RadKey.make m row.species 0 row.n col.n row.l col.l row.j col.j),
     .ang (AngKey.make 1 row.j col.j row.m col.m).1,
     .comS (ComKey.make row.s 1 row.l col.l row.j col.j).1,
     .comL (ComKey.make row.s 1 row.l col.l row.j col.j).1]
  | .radial row col kappa =>
    [.rad (RadKey.make m row.species kappa row.n col.n row.l col.l row.j col.j)]
  | _ => []

theorem RadKey.make_method (m : Method) (sp : String) (k n1 n2 l1 l2 j1 j2 : ℤ) :
    (RadKey.make m sp k n1 n2 l1 l2 j1 j2).method = m := by
  unfold RadKey.make; split_ifs <;> rfl

theorem keys_method (m : Method) (o : COp) (r : RadKey) (h : CKey.rad r ∈ o.keys m) : r.method = m := by
  cases o <;> simp only [COp.keys, List.mem_cons, CKey.rad.injEq, List.not_mem_nil, or_false, reduceCtorEq] at h
  all_goals subst h; exact RadKey.make_method _ _ _ _ _ _ _ _ _

/-- What the lookup computes from a cache that holds all keys, written with the values found. -/
noncomputable def COp.formula (E : CacheEnv) (m : Method) (val : CKey → Out ℝ) : COp → Out ℝ
  | .multipole row col kr ka => do
      let v1 ← val (.rad (RadKey.make m row.species kr row.n col.n row.l col.l row.j col.j))
      let v2 ← val (.ang (AngKey.make ka row.j col.j row.m col.m).1)
      let v3 ← val (.comS (ComKey.make row.s ka row.l col.l row.j col.j).1)
      let v4 ← val (.mul (MulKey.make ka row.l col.l).1)
      pure (E.C.e * v1 * (AngKey.make ka row.j col.j row.m col.m).2 * v2 *
        (ComKey.make row.s ka row.l col.l row.j col.j).2 * v3 * (MulKey.make ka row.l col.l).2 * v4)
  | .magnetic row col => do
      let v1 ← val (.rad (RadKey.make m row.species 0 row.n col.n row.l col.l row.j col.j))
      let v2 ← val (.ang (AngKey.make 1 row.j col.j row.m col.m).1)
      let v3 ← val (.comS (ComKey.make row.s 1 row.l col.l row.j col.j).1)
      let v4 ← val (.comL (ComKey.make row.s 1 row.l col.l row.j col.j).1)
      pure (-E.C.muB * v1 * (AngKey.make 1 row.j col.j row.m col.m).2 * v2 *
        (E.C.gL * (ComKey.make row.s 1 row.l col.l row.j col.j).2 * v3 *
          Real.sqrt (row.l * (row.l + 1) * (2 * row.l + 1)) +
         E.C.gS * (ComKey.make row.s 1 row.l col.l row.j col.j).2 * v4 *
          Real.sqrt ((row.s : ℝ) / 2 * (row.s / 2 + 1) * (row.s + 1))))
  | .radial row col kappa =>
      val (.rad (RadKey.make m row.species kappa row.n col.n row.l col.l row.j col.j))
  | _ => .ok 0

/-- The states a lookup is about have one species. -/
def COp.sameSpecies : COp → Prop
  | .multipole row col _ _ | .magnetic row col | .radial row col _ => row.species = col.species
  | _ => True

theorem run_mismatch {E : CacheEnv} {o : COp} (hg : o.isGet = true) (hs : ¬ o.sameSpecies) (c : MEC) (f : Rows) :
    o.run E c f = (.throw, c, f) := by
  cases o <;> simp only [COp.isGet, Bool.false_eq_true] at hg <;> simp only [COp.sameSpecies] at hs
  · simp only [COp.run, MEC.getElectricMultipole]; rw [if_pos hs]
  · simp only [COp.run, MEC.getMagneticDipole]; rw [if_pos hs]
  · simp only [COp.run, MEC.getRadial]; rw [if_pos hs]

/-- Shape of a lookup with matching species. -/
theorem run_get {E : CacheEnv} {o : COp} (hg : o.isGet = true) (hs : o.sameSpecies) (c : MEC) (f : Rows) :
    let u := (c.wantAll (o.keys c.method)).update E f
    (o.run E c f).2 = u.2 ∧
    (u.1 = .throw → (o.run E c f).1 = .throw) ∧
    (∀ b, u.1 = .ok b → (o.run E c f).1 = o.formula E c.method (deref u.2.1) ∨
      ((∃ row col kappa, o = .radial row col kappa) ∧ (o.run E c f).1 = .ub ∧
        (∃ k ∈ o.keys c.method, (c.cache.get k).isSome) ∧
        (∃ r, CKey.rad r ∈ (c.wantAll (o.keys c.method)).missing) ∧ E.rehash (c.wantAll (o.keys c.method)) = true)) := by
  cases o <;> simp only [COp.isGet, Bool.false_eq_true] at hg <;> simp only [COp.sameSpecies] at hs
  · simp only [COp.run, MEC.getElectricMultipole]
    rw [if_neg (by simpa using hs)]
    simp only [COp.keys, COp.formula]
    rcases MEC.update E _ f with ⟨x, y, z⟩
    cases x <;> simp
  · simp only [COp.run, MEC.getMagneticDipole]
    rw [if_neg (by simpa using hs)]
    simp only [COp.keys, COp.formula]
    rcases MEC.update E _ f with ⟨x, y, z⟩
    cases x <;> simp
  · rename_i row col kappa
    simp only [COp.run, MEC.getRadial]
    rw [if_neg (by simpa using hs)]
    simp only [COp.keys, COp.formula, MEC.wantAll, List.foldl_cons, List.foldl_nil]
    generalize hk : CKey.rad (RadKey.make c.method row.species kappa row.n col.n row.l col.l row.j col.j) = k
    rcases hu : MEC.update E (c.want k) f with ⟨x, y, z⟩
    cases x with
    | throw => simp
    | ub => simp
    | ok b =>
      simp only [reduceCtorEq, false_implies, Out.ok.injEq, forall_eq', true_and]
      split_ifs with hcond
      · right
        simp only [Bool.and_eq_true] at hcond
        refine ⟨⟨row, col, kappa, rfl⟩, rfl, ⟨k, by simp, hcond.1.1.2⟩, ?_, hcond.2⟩
        obtain ⟨k', hk', hr⟩ := List.any_eq_true.mp hcond.1.2
        cases k' <;> simp only [CKey.isRad, Bool.false_eq_true] at hr
        exact ⟨_, hk'⟩
      · left; rfl

/-- Two value functions that agree on the keys give the same result. -/
theorem formula_congr {E : CacheEnv} {m : Method} {o : COp} {v w : CKey → Out ℝ}
    (h : ∀ k ∈ o.keys m, v k = w k) : o.formula E m v = o.formula E m w := by
  cases o <;> simp only [COp.keys, List.mem_cons, List.not_mem_nil, or_false, forall_eq_or_imp, forall_eq] at h <;>
    simp only [COp.formula]
  · rw [h.1, h.2.1, h.2.2.1, h.2.2.2]
  · rw [h.1, h.2.1, h.2.2.1, h.2.2.2]
  · rw [h]

/-- In a right cache, a cached key of the current method is found with the computed value. -/
theorem deref_right {E : CacheEnv} {c : MEC} (h : CInv E c) {k : CKey} (hc : (c.cache.get k).isSome)
    (hk : ∀ r, k = .rad r → r.method = c.method) :
    ∃ v, deref c k = .ok v ∧ c.compute E k = some v := by
  obtain ⟨v, hv⟩ := Option.isSome_iff_exists.mp hc
  refine ⟨v, by simp [deref, hv], ?_⟩
  have hr := h.cache _ (Rows.get_mem hv)
  cases k with
  | rad r => simp only [Right] at hr; simp only [MEC.compute]; rw [← hk r rfl]; exact hr
  | ang k => simp only [Right] at hr; simp only [MEC.compute]; rw [hr]
  | comS k => simp only [Right] at hr; simp only [MEC.compute]; rw [hr]
  | comL k => simp only [Right] at hr; simp only [MEC.compute]; rw [hr]
  | mul k => simp only [Right] at hr; simp only [MEC.compute]; rw [hr]

theorem formula_ok {E : CacheEnv} {m : Method} {o : COp} (g : CKey → ℝ) :
    ∃ v, o.formula E m (fun k => .ok (g k)) = .ok v := by
  cases o <;> exact ⟨_, rfl⟩

/-- `update` succeeds if no transaction is open and every missing key can be computed. -/
theorem update_progress {E : CacheEnv} {f : Rows} (hf : RowsRight E "" f) (c : MEC) (h : CInv E c)
    (ht : c.dbOn = false ∨ c.txn = none) (hk : ∀ k ∈ c.missing, (c.compute E k).isSome) :
    ∃ b, (c.update E f).1 = .ok b := by
  unfold MEC.update
  split_ifs with hm
  · exact ⟨_, rfl⟩
  · obtain ⟨a1, a2, a3, a4, a5, a6, a7, a8⟩ := load_props hf c h
    dsimp only
    have hb : ∃ c1, (c.load f).begin = some c1 ∧ c1.missing = (c.load f).missing ∧ c1.method = c.method ∧
        c1.defectdb = c.defectdb := by
      unfold MEC.begin
      rw [a4, a5]
      rcases ht with ht | ht
      · rw [ht]; exact ⟨c.load f, by simp, rfl, a2, a3⟩
      · rw [ht]
        split_ifs
        · exact ⟨_, rfl, rfl, a2, a3⟩
        · exact ⟨_, rfl, rfl, a2, a3⟩
    obtain ⟨c1, e1, e2, e3, e4⟩ := hb
    rw [e1]
    dsimp only
    have hok : (c1.calcAll E (calcOrder c1.missing)).1 = true := by
      rw [calcAll_ok]
      intro k hk'
      rw [mem_calcOrder, e2] at hk'
      have := hk k (a8 k hk')
      cases k <;> simp only [MEC.compute] at * <;> try simp
      rw [e3, e4]; exact this
    rcases hc : c1.calcAll E (calcOrder c1.missing) with ⟨b, c2⟩
    rw [hc] at hok
    dsimp only at hok
    subst hok
    exact ⟨_, rfl⟩

/-- The invariant gives fresh results. -/
theorem get_fresh {E : CacheEnv} {f : Rows} (hf : RowsRight E "" f) {c : MEC} (h : CInv E c) {o : COp}
    (hg : o.isGet = true) :
    (∀ v, (o.run E c f).1 = .ok v → (o.run E c.freshLike []).1 = .ok v) ∧
    ((o.run E c f).1 = .ub → ∃ row col kappa, o = .radial row col kappa) := by
  by_cases hs : o.sameSpecies
  swap
  · rw [run_mismatch hg hs]; simp
  obtain ⟨r1, r2, r3⟩ := run_get (E := E) hg hs c f
  have hw : CInv E (c.wantAll (o.keys c.method)) :=
    h.wantAll _ (fun r hr => keys_method _ _ r hr)
  obtain ⟨u1, u2, u3, u4, u5, u6, u7⟩ := update_props hf _ hw
  have hsame := wantAll_same (o.keys c.method) c
  cases hu : ((c.wantAll (o.keys c.method)).update E f).1 with
  | throw => rw [r2 hu]; simp
  | ub => exact absurd hu u6
  | ok b =>
    obtain ⟨-, hall⟩ := u7 (by rw [hu]; simp)
    rcases r3 b hu with hr | ⟨hr, hub, -⟩
    swap
    · rw [hub]; simp [hr]
    -- values found are the computed ones
    have hval : ∀ k ∈ o.keys c.method, ∃ v, deref ((c.wantAll (o.keys c.method)).update E f).2.1 k = .ok v ∧
        c.compute E k = some v := by
      intro k hk
      obtain ⟨v, hv1, hv2⟩ := deref_right u1 (hall k (wantAll_mem _ c k hk)) (by
        rintro r rfl
        rw [u3, hsame.1]; exact keys_method _ _ r hk)
      refine ⟨v, hv1, ?_⟩
      rw [← hv2]
      cases k <;> simp only [MEC.compute]
      rw [u3, u4, hsame.1, hsame.2.1]
    -- the fresh cache
    have hfi : CInv E c.freshLike := ⟨by intro e he; simp [MEC.freshLike] at he, by simp [MEC.freshLike],
      by simp [MEC.freshLike], by simp [MEC.freshLike]⟩
    obtain ⟨q1, q2, q3⟩ := run_get (E := E) hg hs c.freshLike []
    have hm : c.freshLike.method = c.method := rfl
    rw [hm] at q1 q2 q3
    have hfw : CInv E (c.freshLike.wantAll (o.keys c.method)) :=
      hfi.wantAll _ (fun r hr => keys_method _ _ r hr)
    have hfs := wantAll_same (o.keys c.method) c.freshLike
    have hnil : RowsRight E "" [] := by intro e he; simp at he
    obtain ⟨w1, w2, w3, w4, w5, w6, w7⟩ := update_props hnil _ hfw
    obtain ⟨b', hb'⟩ := update_progress hnil _ hfw (Or.inl (by rw [hfs.2.2.1]; rfl)) (by
      intro k hk
      rcases wantAll_missing_sub _ _ _ hk with h1 | h1
      · simp [MEC.freshLike] at h1
      · obtain ⟨v, -, hv⟩ := hval k h1
        rw [Option.isSome_iff_exists]
        refine ⟨v, ?_⟩
        rw [← hv]
        cases k <;> simp only [MEC.compute]
        rw [hfs.1, hfs.2.1]; rfl)
    obtain ⟨-, hall'⟩ := w7 (by rw [hb']; simp)
    have hq : (o.run E c.freshLike []).1 =
        o.formula E c.method (deref ((c.freshLike.wantAll (o.keys c.method)).update E []).2.1) := by
      rcases q3 b' hb' with hq | ⟨-, -, ⟨k, -, hk⟩, -⟩
      · exact hq
      · simp [MEC.freshLike, Rows.get] at hk
    constructor
    · intro v hv
      rw [hq, ← hv, hr]
      apply formula_congr
      intro k hk
      obtain ⟨v1, e1, e2⟩ := hval k hk
      rw [e1]
      obtain ⟨v2, e3, e4⟩ := deref_right w1 (hall' k (wantAll_mem _ _ k hk)) (by
        rintro r rfl
        rw [w3, hfs.1]; exact keys_method _ _ r hk)
      rw [e3]
      have : c.compute E k = some v2 := by
        rw [← e4]
        cases k <;> simp only [MEC.compute]
        rw [w3, w4, hfs.1, hfs.2.1]; rfl
      rw [e2] at this
      simp only [Option.some.injEq] at this
      rw [this]
    · intro hub
      exfalso
      rw [hr] at hub
      have : o.formula E c.method (deref ((c.wantAll (o.keys c.method)).update E f).2.1)
          = o.formula E c.method (fun k => .ok ((c.compute E k).getD 0)) := by
        apply formula_congr
        intro k hk
        obtain ⟨v1, e1, e2⟩ := hval k hk
        rw [e1, e2]; rfl
      rw [this] at hub
      obtain ⟨v, hv⟩ := formula_ok (E := E) (m := c.method) (o := o) (fun k => (c.compute E k).getD 0)
      rw [hv] at hub
      simp at hub

/-! ## Histories -/

theorem pairKeys_method {m : Method} {sp : String} {s : ℤ} {row col : QN} {ka : ℤ} {q : Option ℤ} {kr : ℤ}
    {el mag rad : Bool} {r : RadKey} (h : CKey.rad r ∈ pairKeys m sp s row col ka q kr el mag rad) :
    r.method = m := by
  unfold pairKeys at h
  split_ifs at h <;>
    simp only [List.append_nil, List.mem_append, List.mem_cons, List.not_mem_nil, CKey.rad.injEq, or_false,
      reduceCtorEq] at h
  all_goals subst h; exact RadKey.make_method _ _ _ _ _ _ _ _ _

theorem step_inv {E : CacheEnv} {f : Rows} (hf : RowsRight E "" f) {c : MEC} (h : CInv E c) (o : COp)
    (ht : o.Tame c) : CInv E (o.run E c f).2.1 ∧ RowsRight E "" (o.run E c f).2.2 := by
  by_cases hg : o.isGet = true
  · by_cases hs : o.sameSpecies
    · obtain ⟨r1, -, -⟩ := run_get (E := E) hg hs c f
      rw [r1]
      obtain ⟨u1, u2, -⟩ := update_props hf _ (h.wantAll _ (fun r hr => keys_method _ o r hr))
      exact ⟨u1, u2⟩
    · rw [run_mismatch hg hs]; exact ⟨h, hf⟩
  · refine ⟨?_, ?_⟩
    swap
    · cases o <;> simp only [COp.isGet, not_true_eq_false] at hg <;> simp only [COp.run] <;> exact hf
    cases o with
    | multipole => simp [COp.isGet] at hg
    | magnetic => simp [COp.isGet] at hg
    | radial => simp [COp.isGet] at hg
    | precalculate basis ka q kr el mag rad =>
      simp only [COp.run, MEC.precalculate]
      cases firstPhysical basis with
      | none => exact h
      | some p =>
        dsimp only
        apply h.wantAll
        intro r hr
        simp only [List.mem_flatMap] at hr
        obtain ⟨ic, -, ir, -, hr⟩ := hr
        split at hr
        · exact pairKeys_method hr
        · simp at hr
    | setMethod m =>
      simp only [COp.run, MEC.setMethod]
      refine ⟨h.cache, ?_, h.txn, h.db⟩
      intro r hr
      rcases ht with rfl | ht
      · exact h.missing r hr
      · have := ht _ hr; simp [CKey.isRad] at this
    | setDefectDB p =>
      simp only [COp.run, MEC.setDefectDB]
      refine ⟨?_, h.missing, h.txn, by simp⟩
      rcases ht with rfl | ht
      · exact h.cache
      · intro e he
        have h1 := h.cache e he
        have h2 := ht e he
        rcases e with ⟨k, v⟩
        cases k <;> simp only [CKey.isRad, reduceCtorEq] at h2 <;> exact h1
    | reload =>
      simp only [COp.run, MEC.reload]
      refine ⟨?_, h.missing, by simp, by simp⟩
      rcases ht with ht | ht
      · have := h.cache; rw [ht] at this; exact this
      · intro e he
        have h1 := h.cache e he
        have h2 := ht e he
        rcases e with ⟨k, v⟩
        cases k <;> simp only [CKey.isRad, reduceCtorEq] at h2 <;> exact h1
    | shuffle ks =>
      simp only [COp.run]
      split_ifs with hp
      · exact ⟨h.cache, fun r hr => h.missing r (hp.subset hr), h.txn, h.db⟩
      · exact h

theorem hist_inv {E : CacheEnv} (os : List COp) {f : Rows} (hf : RowsRight E "" f) {c : MEC} (h : CInv E c)
    (ht : TameHist E os c f) : CInv E (runHist E os c f).1 ∧ RowsRight E "" (runHist E os c f).2 := by
  induction os generalizing c f with
  | nil => exact ⟨h, hf⟩
  | cons o os ih =>
    obtain ⟨h1, h2⟩ := step_inv hf h o ht.1
    exact ih h2 h1 ht.2

theorem fresh_inv (E : CacheEnv) (db : Bool) : CInv E (MEC.fresh db) :=
  ⟨by intro e he; simp [MEC.fresh] at he, by simp [MEC.fresh], by simp [MEC.fresh], by simp [MEC.fresh]⟩

/-! ## C22 -/

theorem update_txn {E : CacheEnv} {c : MEC} {f : Rows} {b : Bool} (h : (c.update E f).1 = .ok b)
    (ht : c.txn = none) (hi : CInv E c) (hf : RowsRight E "" f) : (c.update E f).2.1.txn = none := by
  obtain ⟨a1, a2, a3, a4, a5, -⟩ := load_props hf c hi
  unfold MEC.update at *
  by_cases hm : c.missing = []
  · rw [if_pos hm]; exact ht
  · rw [if_neg hm] at *
    dsimp only at *
    cases hb : (c.load f).begin with
    | none => rw [hb] at h; simp at h
    | some c1 =>
      have hc1 : CInv E c1 ∧ c1.dbOn = c.dbOn ∧ (c.dbOn = false → c1.txn = none) := by
        unfold MEC.begin at hb
        split_ifs at hb with hdb
        · rw [a5, ht] at hb
          simp only [Option.some.injEq] at hb
          subst hb
          refine ⟨⟨a1.cache, a1.missing, ?_, a1.db⟩, a4, ?_⟩
          · intro r hr
            simp only [Option.some.injEq] at hr
            subst hr
            intro e he; simp at he
          · intro hd; rw [a4] at hdb; rw [hd] at hdb; simp at hdb
        · simp only [Option.some.injEq] at hb
          subst hb
          exact ⟨a1, a4, fun _ => by rw [a5]; exact ht⟩
      rw [hb] at h
      dsimp only at *
      obtain ⟨b1, b2, b3, b4, b5, b6, b7, b8⟩ := calcAll_props (calcOrder c1.missing) hc1.1
        (fun r hr => hc1.1.missing r (mem_calcOrder.mp hr))
      rcases hcalc : c1.calcAll E (calcOrder c1.missing) with ⟨bb, c2⟩
      rw [hcalc] at h b4 b6
      cases bb with
      | false => simp at h
      | true =>
        dsimp only at *
        unfold MEC.commit
        split_ifs with hd
        · rfl
        · have hd' : c.dbOn = false := by
            rw [← hc1.2.1, ← b4]; simpa using hd
          dsimp only
          rw [b6 (by rw [hc1.2.1]; exact hd')]
          exact hc1.2.2 hd'

theorem step_txn {E : CacheEnv} (htot : ∀ d m a, (E.radial d m a).isSome) {f : Rows} (hf : RowsRight E "" f)
    {c : MEC} (h : CInv E c) (hn : c.txn = none) (o : COp) : (o.run E c f).2.1.txn = none := by
  by_cases hg : o.isGet = true
  · by_cases hs : o.sameSpecies
    · obtain ⟨r1, -, -⟩ := run_get (E := E) hg hs c f
      rw [r1]
      have hw := h.wantAll _ (fun r hr => keys_method c.method o r hr)
      have hn' : (c.wantAll (o.keys c.method)).txn = none := by rw [(wantAll_same _ c).2.2.2.1]; exact hn
      obtain ⟨b, hb⟩ := update_progress hf _ hw (Or.inr hn') (by
        intro k _; cases k <;> simp [MEC.compute, htot])
      exact update_txn hb hn' hw hf
    · rw [run_mismatch hg hs]; exact hn
  · cases o <;> simp only [COp.isGet, not_true_eq_false] at hg <;> simp only [COp.run]
    · unfold MEC.precalculate
      split
      · exact hn
      · rw [(wantAll_same _ c).2.2.2.1]; exact hn
    · exact hn
    · exact hn
    · simp [MEC.reload]
    · split_ifs <;> exact hn

theorem hist_txn {E : CacheEnv} (htot : ∀ d m a, (E.radial d m a).isSome) (os : List COp) {f : Rows}
    (hf : RowsRight E "" f) {c : MEC} (h : CInv E c) (hn : c.txn = none) (ht : TameHist E os c f) :
    (runHist E os c f).1.txn = none := by
  induction os generalizing c f with
  | nil => exact hn
  | cons o os ih =>
    obtain ⟨h1, h2⟩ := step_inv hf h o ht.1
    exact ih h2 h1 (step_txn htot hf h hn o) ht.2

/-- **C22 (partial).** Start with any cache object (with or without a database file whose rows are
right) and any history of lookups, precalculations, setting changes and serializations, in which
operations may throw, and in which the method is not changed while radial elements are waiting and the
quantum-defect database is not changed once radial values are cached.  Then:
a lookup that returns a value returns what a new cache with the same settings returns; undefined
behaviour occurs at most in `getRadial`; and if all radial integrals can be computed, electric and
magnetic lookups return exactly what the new cache returns.
Missing: the excluded histories, for which the property fails (`C22_pending_method_fails`,
`C22_defect_db_fails`, `C22_serialization_fails`, `C22_get_radial_ub_fails`). -/
theorem C22_history_partial (E : CacheEnv) (db : Bool) (f : Rows) (hf : RowsRight E "" f) (ops : List COp)
    (ht : TameHist E ops (MEC.fresh db) f) (o : COp) (hg : o.isGet = true) :
    let c := (runHist E ops (MEC.fresh db) f).1
    let f' := (runHist E ops (MEC.fresh db) f).2
    (∀ v, (o.run E c f').1 = .ok v → (o.run E c.freshLike []).1 = .ok v) ∧
    ((o.run E c f').1 = .ub → ∃ row col kappa, o = .radial row col kappa) ∧
    ((∀ d m a, (E.radial d m a).isSome) → (∀ row col kappa, o ≠ .radial row col kappa) →
      (o.run E c f').1 = (o.run E c.freshLike []).1) := by
  obtain ⟨hi, hf'⟩ := hist_inv ops hf (fresh_inv E db) ht
  obtain ⟨g1, g2⟩ := get_fresh hf' hi hg
  refine ⟨g1, g2, ?_⟩
  intro htot hnr
  by_cases hs : o.sameSpecies
  swap
  · rw [run_mismatch hg hs, run_mismatch hg hs]
  have hn := hist_txn htot ops hf (fresh_inv E db) rfl ht
  have hw := hi.wantAll _ (fun r hr => keys_method (runHist E ops (MEC.fresh db) f).1.method o r hr)
  obtain ⟨b, hb⟩ := update_progress hf' _ hw (Or.inr (by rw [(wantAll_same _ _).2.2.2.1]; exact hn)) (by
    intro k _; cases k <;> simp [MEC.compute, htot])
  cases hrun : (o.run E (runHist E ops (MEC.fresh db) f).1 (runHist E ops (MEC.fresh db) f).2).1 with
  | ok v => exact (g1 v hrun).symm
  | ub => obtain ⟨a, b, c, h⟩ := g2 hrun; exact absurd h (hnr a b c)
  | throw =>
    obtain ⟨-, -, r3⟩ := run_get (E := E) hg hs (runHist E ops (MEC.fresh db) f).1 (runHist E ops (MEC.fresh db) f).2
    rcases r3 b hb with h1 | ⟨-, h1, -⟩
    · exfalso
      obtain ⟨u1, u2, u3, u4, u5, u6, u7⟩ := update_props hf' _ hw
      obtain ⟨-, hall⟩ := u7 (by rw [hb]; simp)
      rw [hrun] at h1
      have hsame := wantAll_same (o.keys (runHist E ops (MEC.fresh db) f).1.method) (runHist E ops (MEC.fresh db) f).1
      have hval : ∀ k ∈ o.keys (runHist E ops (MEC.fresh db) f).1.method, ∃ v,
          deref (((runHist E ops (MEC.fresh db) f).1.wantAll (o.keys (runHist E ops (MEC.fresh db) f).1.method)).update E
            (runHist E ops (MEC.fresh db) f).2).2.1 k = .ok v := by
        intro k hk
        obtain ⟨v, hv1, -⟩ := deref_right u1 (hall k (wantAll_mem _ _ k hk)) (by
          rintro r rfl
          rw [u3, hsame.1]; exact keys_method _ _ r hk)
        exact ⟨v, hv1⟩
      rw [formula_congr (w := fun k => .ok (match deref (((runHist E ops (MEC.fresh db) f).1.wantAll
        (o.keys (runHist E ops (MEC.fresh db) f).1.method)).update E (runHist E ops (MEC.fresh db) f).2).2.1 k with
        | .ok v => v | _ => 0)) (by
          intro k hk
          obtain ⟨v, hv⟩ := hval k hk
          rw [hv])] at h1
      obtain ⟨v, hv⟩ := formula_ok (E := E) (m := (runHist E ops (MEC.fresh db) f).1.method) (o := o)
        (fun k => (match deref (((runHist E ops (MEC.fresh db) f).1.wantAll
        (o.keys (runHist E ops (MEC.fresh db) f).1.method)).update E (runHist E ops (MEC.fresh db) f).2).2.1 k with
        | .ok v => v | _ => 0))
      rw [hv] at h1
      simp at h1
    · rw [hrun] at h1; simp at h1

/-- Demo states. -/
def demoA : QN := ⟨"Rb", 61, 0, 1, 1, 1⟩
/-- Demo states. -/
def demoB : QN := ⟨"Rb", 60, 1, 3, 3, 1⟩
/-- Demo states. -/
def demoC : QN := ⟨"Rb", 62, 0, 1, 1, 1⟩

/-- A world in which the two methods give different numbers (as they do) and maps rehash. -/
noncomputable def demoEnv : CacheEnv :=
  ⟨⟨1, 1, 1, 2⟩, fun d m _ => match m with
    | .numerov => some (if d = "" then 1 else 3)
    | .whittaker => some (if d = "" then 2 else 4), fun _ => true⟩

/-- A tame history with lookups, precalculation, a method change and serialization exists. -/
example : TameHist demoEnv [.radial demoA demoB 1, .setMethod .whittaker,
    .precalculate [some demoA, some demoB] 1 none 1 false false true, .radial demoA demoB 1, .reload]
    (MEC.fresh true) [] := by
  refine ⟨trivial, Or.inr ?_, trivial, trivial, Or.inl rfl, trivial⟩
  have : (COp.run demoEnv (.radial demoA demoB 1) (MEC.fresh true) []).2.1.missing = [] := rfl
  rw [this]; simp

/-- **C22 fails** if the method is changed between precalculation and lookup: precalculate with
Numerov, look up with Whittaker, go back to Numerov — the Numerov lookup returns the Whittaker value. -/
theorem C22_pending_method_fails :
    ∃ (E : CacheEnv) (ops : List COp) (o : COp), (∀ d m a, (E.radial d m a).isSome) ∧ o.isGet = true ∧
      (∀ p ∈ ops, ∀ d, p ≠ .setDefectDB d) ∧
      let c := (runHist E ops (MEC.fresh false) []).1
      (o.run E c []).1 = .ok 2 ∧ (o.run E c.freshLike []).1 = .ok 1 := by
  refine ⟨demoEnv, [.precalculate [some demoA, some demoB] 1 none 1 false false true, .setMethod .whittaker,
    .radial demoA demoB 1, .setMethod .numerov], .radial demoA demoB 1, ?_, rfl, ?_, ?_, ?_⟩
  · intro d m a; cases m <;> rfl
  · simp
  · rfl
  · rfl

/-- **C22 fails** if the quantum-defect database is changed after a lookup: the old radial value is
still returned. -/
theorem C22_defect_db_fails :
    ∃ (E : CacheEnv) (ops : List COp) (o : COp), (∀ d m a, (E.radial d m a).isSome) ∧ o.isGet = true ∧
      (∀ p ∈ ops, ∀ m, p ≠ .setMethod m) ∧
      let c := (runHist E ops (MEC.fresh false) []).1
      (o.run E c []).1 = .ok 1 ∧ (o.run E c.freshLike []).1 = .ok 3 := by
  refine ⟨demoEnv, [.radial demoA demoB 1, .setDefectDB "my.db"], .radial demoA demoB 1, ?_, rfl, ?_, ?_, ?_⟩
  · intro d m a; cases m <;> rfl
  · simp
  · rfl
  · show _ = Out.ok (if "my.db" = "" then 1 else 3)
    rfl

/-- **C22 fails** across serialization: the restored cache has lost the name of the quantum-defect
database but kept the values computed with it. -/
theorem C22_serialization_fails :
    ∃ (E : CacheEnv) (o : COp), o.isGet = true ∧
      let c := (runHist E [.setDefectDB "my.db", o, .reload] (MEC.fresh false) []).1
      (o.run E c []).1 = .ok 3 ∧ (o.run E c.freshLike []).1 = .ok 1 := by
  refine ⟨demoEnv, .radial demoA demoB 1, rfl, ?_, ?_⟩
  · show _ = Out.ok (if "my.db" = "" then 1 else 3)
    rfl
  · show _ = Out.ok (if "" = "" then 1 else 3)
    rfl

/-- **C22 fails** for `getRadial` of a cached element while other elements are waiting: an iterator is
used after the map it points into has been rehashed. -/
theorem C22_get_radial_ub_fails :
    ∃ (E : CacheEnv) (ops : List COp) (o : COp), TameHist E ops (MEC.fresh false) [] ∧ o.isGet = true ∧
      (o.run E (runHist E ops (MEC.fresh false) []).1 []).1 = .ub := by
  refine ⟨demoEnv, [.radial demoA demoB 1,
    .precalculate [some demoC, some demoB] 1 none 1 false false true], .radial demoA demoB 1,
    ⟨trivial, trivial, trivial⟩, rfl, rfl⟩

/-! ## C23 -/

/-- Several processes with one database file. -/
structure CWorld where
  file : Rows
  proc : ℕ → MEC

/-- Replace the state of one process. -/
def CWorld.put (w : CWorld) (p : ℕ) (c : MEC) : CWorld := { w with proc := Function.update w.proc p c }

/-- One step of one process.  `update` is split where other processes can come in between: each read
of a row, the beginning of the transaction, each computed value, and the commit
(MatrixElementCache.cpp:628-966).  In a crash, any part of the rows of the open transaction may or may
not have reached the file (coarser than SQLite's guarantee for a rollback journal); another process may
take the place of the dead one. -/
inductive CStep (E : CacheEnv) : CWorld → CWorld → Prop
  | settings (w : CWorld) (p : ℕ) (o : COp) (h : o.isGet = false) (ht : o.Tame (w.proc p)) :
      CStep E w (w.put p (o.run E (w.proc p) w.file).2.1)
  | request (w : CWorld) (p : ℕ) (o : COp) (h : o.isGet = true) (hs : o.sameSpecies) :
      CStep E w (w.put p ((w.proc p).wantAll (o.keys (w.proc p).method)))
  | loadRow (w : CWorld) (p : ℕ) (k : CKey) (h : (w.proc p).dbOn = true) :
      CStep E w (w.put p ((w.proc p).loadOne w.file k))
  | begin (w : CWorld) (p : ℕ) (c : MEC) (h : (w.proc p).begin = some c) : CStep E w (w.put p c)
  | compute (w : CWorld) (p : ℕ) (k : CKey) (hk : k ∈ (w.proc p).missing) (c : MEC)
      (h : (w.proc p).calcOne E k = some c) : CStep E w (w.put p c)
  | commit (w : CWorld) (p : ℕ) (h : ∀ k ∈ (w.proc p).missing, ((w.proc p).cache.get k).isSome) :
      CStep E w ⟨((MEC.commit { w.proc p with missing := [] } w.file).2),
        (w.put p (MEC.commit { w.proc p with missing := [] } w.file).1).proc⟩
  | crash (w : CWorld) (p : ℕ) (survived : Rows) (h : ∀ e ∈ survived, e ∈ (w.proc p).txn.getD []) (db : Bool) :
      CStep E w ⟨survived.foldl (fun f e => f.insert e.1 e.2) w.file, (w.put p (MEC.fresh db)).proc⟩

/-- All worlds reachable from new processes and a right (for example empty) file. -/
def CReach (E : CacheEnv) (w : CWorld) : Prop :=
  ∃ w0 : CWorld, RowsRight E "" w0.file ∧ (∀ p, ∃ db, w0.proc p = MEC.fresh db) ∧
    Relation.ReflTransGen (CStep E) w0 w

theorem foldl_insert_right {E : CacheEnv} {d : String} (r : Rows) {f : Rows} (hf : RowsRight E d f)
    (hr : RowsRight E d r) : RowsRight E d (r.foldl (fun f e => f.insert e.1 e.2) f) := by
  induction r generalizing f with
  | nil => exact hf
  | cons e r ih =>
    exact ih (RowsRight.insert hf (hr e (by simp))) (fun e' he' => hr e' (List.mem_cons_of_mem _ he'))

theorem put_inv {E : CacheEnv} {w : CWorld} {p : ℕ} {c : MEC} (h : ∀ q, CInv E (w.proc q)) (hc : CInv E c) :
    ∀ q, CInv E ((w.put p c).proc q) := by
  intro q
  unfold CWorld.put
  by_cases e : q = p
  · subst e; simpa using hc
  · simp only [Function.update_of_ne e]; exact h q

theorem begin_inv {E : CacheEnv} {c c' : MEC} (h : CInv E c) (hb : c.begin = some c') : CInv E c' := by
  unfold MEC.begin at hb
  split_ifs at hb with hd
  · cases ht : c.txn with
    | some r => rw [ht] at hb; simp at hb
    | none =>
      rw [ht] at hb
      simp only [Option.some.injEq] at hb
      subst hb
      refine ⟨h.cache, h.missing, ?_, h.db⟩
      intro r hr
      simp only [Option.some.injEq] at hr
      subst hr
      intro e he; simp at he
  · simp only [Option.some.injEq] at hb
    subst hb; exact h

theorem cstep_inv {E : CacheEnv} {w w' : CWorld} (hs : CStep E w w')
    (hf : RowsRight E "" w.file) (h : ∀ p, CInv E (w.proc p)) :
    RowsRight E "" w'.file ∧ ∀ p, CInv E (w'.proc p) := by
  cases hs with
  | settings p o hg ht => exact ⟨hf, put_inv h (step_inv hf (h p) o ht).1⟩
  | request p o hg hs => exact ⟨hf, put_inv h ((h p).wantAll _ (fun r hr => keys_method _ o r hr))⟩
  | loadRow p k hd => exact ⟨hf, put_inv h (loadOne_props hf k _ (h p) hd).1⟩
  | begin p c hb => exact ⟨hf, put_inv h (begin_inv (h p) hb)⟩
  | compute p k hk c hc =>
    exact ⟨hf, put_inv h (calcOne_props (h p) (fun r hr => (h p).missing r (hr ▸ hk)) hc).1⟩
  | commit p hall =>
    have hc2 : CInv E { w.proc p with missing := [] } := ⟨(h p).cache, by simp, (h p).txn, (h p).db⟩
    refine ⟨commit_file hf _ hc2, put_inv h ?_⟩
    unfold MEC.commit
    split_ifs
    · exact ⟨hc2.cache, by simp, by simp, hc2.db⟩
    · exact hc2
  | crash p survived hsub db =>
    refine ⟨foldl_insert_right survived hf ?_, put_inv h (fresh_inv E db)⟩
    intro e he
    have := hsub e he
    cases ht : (w.proc p).txn with
    | none => rw [ht] at this; simp at this
    | some r => rw [ht] at this; exact (h p).txn r ht e this

/-- **C23 (partial).** For any number of processes, any interleaving of their steps and any crashes at
any point (with any part of the dying process's transaction reaching the file): every row of the file
is right, and in every reachable world every lookup of every process that returns, returns what a new
cache with the same settings and no file returns.
Missing: changes of the method while elements are waiting (`C23_wrong_row_fails`); damage to the file
below the level of rows, which SQLite does not exclude with `journal_mode = MEMORY`. -/
theorem C23_crash_and_processes_partial (E : CacheEnv) (w : CWorld) (hr : CReach E w) :
    RowsRight E "" w.file ∧
    ∀ (p : ℕ) (o : COp), o.isGet = true →
      ∀ v, (o.run E (w.proc p) w.file).1 = .ok v → (o.run E (w.proc p).freshLike []).1 = .ok v := by
  obtain ⟨w0, hf, hp, hsteps⟩ := hr
  have : RowsRight E "" w.file ∧ ∀ p, CInv E (w.proc p) := by
    induction hsteps with
    | refl =>
      refine ⟨hf, fun p => ?_⟩
      obtain ⟨db, e⟩ := hp p
      rw [e]; exact fresh_inv E db
    | tail _ hs ih => exact cstep_inv hs ih.1 ih.2
  exact ⟨this.1, fun p o hg => (get_fresh this.1 (this.2 p) hg).1⟩

theorem put_put (w : CWorld) (p : ℕ) (c d : MEC) : (w.put p c).put p d = w.put p d := by
  simp [CWorld.put]

theorem put_proc (w : CWorld) (p : ℕ) (c : MEC) : (w.put p c).proc p = c := by simp [CWorld.put]

theorem loadFold_steps {E : CacheEnv} (w : CWorld) (p : ℕ) (ks : List CKey) (c : MEC) (hd : c.dbOn = true) :
    Relation.ReflTransGen (CStep E) (w.put p c) (w.put p (ks.foldl (MEC.loadOne w.file) c)) := by
  induction ks generalizing c with
  | nil => exact .refl
  | cons k ks ih =>
    have h1 : CStep E (w.put p c) ((w.put p c).put p (((w.put p c).proc p).loadOne w.file k)) :=
      .loadRow _ p k (by rw [put_proc]; exact hd)
    rw [put_put, put_proc] at h1
    refine Relation.ReflTransGen.head h1 (ih _ ?_)
    unfold MEC.loadOne
    split_ifs
    · split <;> exact hd
    · exact hd

theorem calcAll_steps {E : CacheEnv} (w : CWorld) (p : ℕ) (ks : List CKey) (c : MEC) (hk : ∀ k ∈ ks, k ∈ c.missing) :
    Relation.ReflTransGen (CStep E) (w.put p c) (w.put p (c.calcAll E ks).2) := by
  induction ks generalizing c with
  | nil => exact .refl
  | cons k ks ih =>
    unfold MEC.calcAll
    cases hc : c.calcOne E k with
    | none => exact .refl
    | some c1 =>
      have h1 : CStep E (w.put p c) ((w.put p c).put p c1) :=
        .compute _ p k (by rw [put_proc]; exact hk k (by simp)) c1 (by rw [put_proc]; exact hc)
      rw [put_put] at h1
      have hm : c1.missing = c.missing := by
        unfold MEC.calcOne at hc
        cases hv : c.compute E k with
        | none => rw [hv] at hc; simp at hc
        | some v => rw [hv] at hc; simp only [Option.some.injEq] at hc; rw [← hc]
      exact Relation.ReflTransGen.head h1 (ih c1 (fun k' h' => by rw [hm]; exact hk k' (List.mem_cons_of_mem _ h')))

/-- The steps of `CStep` really are those of `update`: an `update` done without interruption, whatever
its outcome, is a sequence of such steps. -/
theorem update_is_steps {E : CacheEnv} (w : CWorld) (p : ℕ) (hf : RowsRight E "" w.file)
    (hi : CInv E (w.proc p)) :
    Relation.ReflTransGen (CStep E) w
      ⟨((w.proc p).update E w.file).2.2, (w.put p ((w.proc p).update E w.file).2.1).proc⟩ := by
  have hw : w = w.put p (w.proc p) := by simp [CWorld.put]
  obtain ⟨a1, -⟩ := load_props hf _ hi
  have hload : Relation.ReflTransGen (CStep E) w (w.put p ((w.proc p).load w.file)) := by
    unfold MEC.load
    split_ifs with hd
    · conv => arg 2; rw [hw]
      exact loadFold_steps w p _ _ hd
    · rw [← hw]
  unfold MEC.update
  by_cases hm : (w.proc p).missing = []
  · rw [if_pos hm]; dsimp only
    rw [show (⟨w.file, (w.put p (w.proc p)).proc⟩ : CWorld) = w by rw [← hw]]
  · rw [if_neg hm]
    dsimp only
    cases hb : ((w.proc p).load w.file).begin with
    | none => exact hload
    | some c1 =>
      have hbeg : CStep E (w.put p ((w.proc p).load w.file)) ((w.put p ((w.proc p).load w.file)).put p c1) :=
        .begin _ p c1 (by rw [put_proc]; exact hb)
      rw [put_put] at hbeg
      have hall := hload.tail hbeg
      have hcalc := hall.trans (calcAll_steps (E := E) w p (calcOrder c1.missing) c1 (fun k hk => mem_calcOrder.mp hk))
      obtain ⟨b1, b2, b3, b4, b5, b6, b7, b8⟩ := calcAll_props (calcOrder c1.missing) (begin_inv a1 hb)
        (fun r hr => (begin_inv a1 hb).missing r (mem_calcOrder.mp hr))
      dsimp only
      rcases hc : c1.calcAll E (calcOrder c1.missing) with ⟨b, c2⟩
      rw [hc] at hcalc b5 b8
      cases b with
      | false => exact hcalc
      | true =>
        have h1 : CStep E (w.put p c2) _ := .commit (w.put p c2) p (by
          rw [put_proc]
          intro k hk
          refine b8 rfl k ?_
          rw [mem_calcOrder, ← b5]; exact hk)
        rw [put_proc, put_put] at h1
        exact hcalc.tail h1

/-- A reachable world that has rows in the file: one process looks up, another crashes. -/
example : ∃ w, CReach demoEnv w ∧ w.file ≠ [] := by
  let w0 : CWorld := ⟨[], fun _ => MEC.fresh true⟩
  have hnil : RowsRight demoEnv "" [] := by intro e he; simp at he
  have s1 : CStep demoEnv w0 _ := .request w0 0 (.radial demoA demoB 1) rfl rfl
  have hi := put_inv (E := demoEnv) (w := w0) (p := 0) (fun _ => fresh_inv _ _)
    ((fresh_inv demoEnv true).wantAll _ (fun r hr => keys_method .numerov (.radial demoA demoB 1) r hr))
  have s2 := update_is_steps (E := demoEnv) (w0.put 0 ((MEC.fresh true).wantAll
    ((COp.radial demoA demoB 1).keys .numerov))) 0 hnil (hi 0)
  refine ⟨_, ⟨w0, hnil, fun _ => ⟨true, rfl⟩, (Relation.ReflTransGen.head s1 s2).tail
    (.crash _ 1 [] (by simp) false)⟩, ?_⟩
  show [_] ≠ []
  simp

/-- **C23 fails** if a process changes the method between precalculation and lookup: it writes the
Whittaker value into the Numerov row, and a later process reads it as the Numerov value. -/
theorem C23_wrong_row_fails :
    ∃ (E : CacheEnv) (ops : List COp) (o : COp), (∀ d m a, (E.radial d m a).isSome) ∧ o.isGet = true ∧
      let f := (runHist E ops (MEC.fresh true) []).2
      (o.run E (MEC.fresh true) f).1 = .ok 2 ∧ (o.run E (MEC.fresh true).freshLike []).1 = .ok 1 := by
  refine ⟨demoEnv, [.precalculate [some demoA, some demoB] 1 none 1 false false true, .setMethod .whittaker,
    .radial demoA demoB 1], .radial demoA demoB 1, ?_, rfl, ?_, ?_⟩
  · intro d m a; cases m <;> rfl
  · rfl
  · rfl

/-! ## C24 -/

/-- Histories without setting changes. -/
def COp.Steady : COp → Prop
  | .setMethod _ | .setDefectDB _ | .reload => False
  | _ => True

/-- Some element waits that cannot be computed with the current settings. -/
def Poisoned (E : CacheEnv) (c : MEC) : Prop :=
  ∃ r, CKey.rad r ∈ c.missing ∧ E.radial c.defectdb c.method r.args = none

theorem Steady.tame {o : COp} (h : o.Steady) (c : MEC) : o.Tame c := by
  cases o <;> simp only [COp.Steady] at h <;> trivial

theorem poisoned_update {E : CacheEnv} {f : Rows} (hf : RowsRight E "" f) {c : MEC} (h : CInv E c)
    (hp : Poisoned E c) : (c.update E f).1 = .throw ∧ Poisoned E (c.update E f).2.1 := by
  obtain ⟨r, hr, hn⟩ := hp
  obtain ⟨a1, a2, a3, a4, a5, a6, a7, a8⟩ := load_props hf c h
  have hr' : CKey.rad r ∈ (c.load f).missing := by
    rcases a7 _ hr with h1 | h1
    · exact h1
    · exfalso
      obtain ⟨v, -, hv⟩ := deref_right a1 h1 (by
        rintro r' e
        simp only [CKey.rad.injEq] at e
        rw [← e, a2]; exact h.missing r hr)
      simp only [MEC.compute] at hv
      rw [a2, a3, hn] at hv; simp at hv
  unfold MEC.update
  rw [if_neg (by intro e; rw [e] at hr; simp at hr)]
  dsimp only
  cases hb : (c.load f).begin with
  | none => exact ⟨rfl, r, hr', by rw [a2, a3]; exact hn⟩
  | some c1 =>
    have hc1 : c1.method = c.method ∧ c1.defectdb = c.defectdb ∧ c1.missing = (c.load f).missing := by
      unfold MEC.begin at hb
      split_ifs at hb with hd
      · cases ht : (c.load f).txn with
        | some r => rw [ht] at hb; simp at hb
        | none => rw [ht] at hb; simp only [Option.some.injEq] at hb; subst hb; exact ⟨a2, a3, rfl⟩
      · simp only [Option.some.injEq] at hb; subst hb; exact ⟨a2, a3, rfl⟩
    obtain ⟨b1, b2, b3, b4, b5, b6, b7, b8⟩ := calcAll_props (calcOrder c1.missing) (begin_inv a1 hb)
      (fun r hr => (begin_inv a1 hb).missing r (mem_calcOrder.mp hr))
    have hfail : (c1.calcAll E (calcOrder c1.missing)).1 = false := by
      rw [Bool.eq_false_iff]
      intro hok
      rw [calcAll_ok] at hok
      have := hok (.rad r) (by rw [mem_calcOrder, hc1.2.2]; exact hr')
      simp only [MEC.compute] at this
      rw [hc1.1, hc1.2.1, hn] at this; simp at this
    dsimp only
    rcases hc : c1.calcAll E (calcOrder c1.missing) with ⟨b, c2⟩
    rw [hc] at hfail b2 b3 b5
    dsimp only at hfail b2 b3 b5
    subst hfail
    refine ⟨rfl, r, ?_, ?_⟩
    · dsimp only; rw [b5, hc1.2.2]; exact hr'
    · dsimp only; rw [b2, b3, hc1.1, hc1.2.1]; exact hn

/-- If `update` throws although no transaction was left open, an uncomputable element waits. -/
theorem throw_poisons {E : CacheEnv} {f : Rows} (hf : RowsRight E "" f) {c : MEC} (h : CInv E c)
    (ht : c.txn = none) (hthrow : (c.update E f).1 = .throw) : Poisoned E (c.update E f).2.1 := by
  by_cases hp : Poisoned E c
  · exact (poisoned_update hf h hp).2
  · obtain ⟨b, hb⟩ := update_progress hf c h (Or.inr ht) (by
      intro k hk
      cases k with
      | rad r =>
        simp only [MEC.compute]
        rw [Option.isSome_iff_ne_none]
        intro hn
        exact hp ⟨r, hk, hn⟩
      | _ => simp [MEC.compute])
    rw [hb] at hthrow; simp at hthrow

theorem poisoned_wantAll {E : CacheEnv} {c : MEC} (hp : Poisoned E c) (ks : List CKey) : Poisoned E (c.wantAll ks) := by
  obtain ⟨r, h1, h2⟩ := hp
  obtain ⟨s1, s2, -⟩ := wantAll_same ks c
  exact ⟨r, wantAll_missing_mono ks c _ h1, by rw [s1, s2]; exact h2⟩

theorem poisoned_step {E : CacheEnv} {f : Rows} (hf : RowsRight E "" f) {c : MEC} (h : CInv E c)
    (hp : Poisoned E c) (o : COp) (hs : o.Steady) :
    Poisoned E (o.run E c f).2.1 ∧ (o.isGet = true → (o.run E c f).1 = .throw) := by
  by_cases hg : o.isGet = true
  · by_cases hsp : o.sameSpecies
    · obtain ⟨r1, r2, -⟩ := run_get (E := E) hg hsp c f
      have := poisoned_update hf (h.wantAll _ (fun r hr => keys_method _ o r hr)) (poisoned_wantAll hp (o.keys c.method))
      rw [r1]
      exact ⟨this.2, fun _ => r2 this.1⟩
    · rw [run_mismatch hg hsp]; exact ⟨hp, fun _ => rfl⟩
  · refine ⟨?_, fun h => absurd h hg⟩
    cases o <;> simp only [COp.isGet, not_true_eq_false] at hg <;> simp only [COp.Steady] at hs <;> simp only [COp.run]
    · unfold MEC.precalculate
      split
      · exact hp
      · exact poisoned_wantAll hp _
    · split_ifs with hperm
      · obtain ⟨r, h1, h2⟩ := hp
        exact ⟨r, hperm.mem_iff.mpr h1, h2⟩
      · exact hp

theorem poisoned_hist {E : CacheEnv} (os : List COp) (hs : ∀ o ∈ os, o.Steady) {f : Rows} (hf : RowsRight E "" f)
    {c : MEC} (h : CInv E c) (hp : Poisoned E c) :
    Poisoned E (runHist E os c f).1 ∧ CInv E (runHist E os c f).1 ∧ RowsRight E "" (runHist E os c f).2 := by
  induction os generalizing c f with
  | nil => exact ⟨hp, h, hf⟩
  | cons o os ih =>
    obtain ⟨h1, h2⟩ := step_inv hf h o (Steady.tame (hs o (by simp)) c)
    exact ih (fun o' h' => hs o' (List.mem_cons_of_mem _ h')) h2 h1 (poisoned_step hf h hp o (hs o (by simp))).1

theorem steady_clean {E : CacheEnv} (os : List COp) (hs : ∀ o ∈ os, o.Steady) {f : Rows} (hf : RowsRight E "" f)
    {c : MEC} (h : CInv E c) (hp : c.txn = none ∨ Poisoned E c) :
    ((runHist E os c f).1.txn = none ∨ Poisoned E (runHist E os c f).1) ∧ CInv E (runHist E os c f).1 ∧
      RowsRight E "" (runHist E os c f).2 := by
  induction os generalizing c f with
  | nil => exact ⟨hp, h, hf⟩
  | cons o os ih =>
    obtain ⟨h1, h2⟩ := step_inv hf h o (Steady.tame (hs o (by simp)) c)
    refine ih (fun o' h' => hs o' (List.mem_cons_of_mem _ h')) h2 h1 ?_
    have hso := hs o (by simp)
    rcases hp with hp | hp
    swap
    · exact Or.inr (poisoned_step hf h hp o hso).1
    by_cases hg : o.isGet = true
    · by_cases hsp : o.sameSpecies
      · obtain ⟨r1, -, -⟩ := run_get (E := E) hg hsp c f
        rw [r1]
        have hw := h.wantAll _ (fun r hr => keys_method c.method o r hr)
        have hn : (c.wantAll (o.keys c.method)).txn = none := by rw [(wantAll_same _ c).2.2.2.1]; exact hp
        cases hu : ((c.wantAll (o.keys c.method)).update E f).1 with
        | ok b => exact Or.inl (update_txn hu hn hw hf)
        | throw => exact Or.inr (throw_poisons hf hw hn hu)
        | ub => exact absurd hu (update_props hf _ hw).2.2.2.2.2.1
      · rw [run_mismatch hg hsp]; exact Or.inl hp
    · left
      cases o <;> simp only [COp.isGet, not_true_eq_false] at hg <;> simp only [COp.Steady] at hso <;> simp only [COp.run]
      · unfold MEC.precalculate
        split
        · exact hp
        · rw [(wantAll_same _ c).2.2.2.1]; exact hp
      · split_ifs <;> exact hp

/-- **C24 fails**, and in the worst way: whatever the history of a cache object with fixed settings, once
one lookup (of states of one species) has thrown, every later lookup of any element throws, also of
elements that are already cached, after any further history. -/
theorem C24_failed_lookup_poisons (E : CacheEnv) (db : Bool) (f : Rows) (hf : RowsRight E "" f)
    (ops : List COp) (hops : ∀ o ∈ ops, o.Steady) (o : COp) (hg : o.isGet = true) (hsp : o.sameSpecies)
    (hthrow : (o.run E (runHist E ops (MEC.fresh db) f).1 (runHist E ops (MEC.fresh db) f).2).1 = .throw)
    (more : List COp) (hmore : ∀ o ∈ more, o.Steady) (o' : COp) (hg' : o'.isGet = true) :
    let s := runHist E (ops ++ o :: more) (MEC.fresh db) f
    (o'.run E s.1 s.2).1 = .throw := by
  have happ : ∀ (a b : List COp) (c : MEC) (f : Rows),
      runHist E (a ++ b) c f = runHist E b (runHist E a c f).1 (runHist E a c f).2 := by
    intro a
    induction a with
    | nil => intro b c f; rfl
    | cons x a ih => intro b c f; exact ih b _ _
  have hso : o.Steady := by cases o <;> simp [COp.isGet] at hg <;> trivial
  have hso' : o'.Steady := by cases o' <;> simp [COp.isGet] at hg' <;> trivial
  obtain ⟨k1, k2, k3⟩ := steady_clean ops hops hf (fresh_inv E db) (Or.inl rfl)
  rw [happ]
  generalize runHist E ops (MEC.fresh db) f = s at *
  have hp : Poisoned E (o.run E s.1 s.2).2.1 := by
    rcases k1 with k1 | k1
    swap
    · exact (poisoned_step k3 k2 k1 o hso).1
    obtain ⟨r1, r2, r3⟩ := run_get (E := E) hg hsp s.1 s.2
    rw [r1]
    have hw := k2.wantAll _ (fun r hr => keys_method s.1.method o r hr)
    have hn : (s.1.wantAll (o.keys s.1.method)).txn = none := by rw [(wantAll_same _ s.1).2.2.2.1]; exact k1
    cases hu : ((s.1.wantAll (o.keys s.1.method)).update E s.2).1 with
    | throw => exact throw_poisons k3 hw hn hu
    | ub => exact absurd hu (update_props k3 _ hw).2.2.2.2.2.1
    | ok b =>
      exfalso
      obtain ⟨u1, u2, u3, u4, u5, u6, u7⟩ := update_props k3 _ hw
      obtain ⟨-, hall⟩ := u7 (by rw [hu]; simp)
      have hsame := wantAll_same (o.keys s.1.method) s.1
      rcases r3 b hu with h1 | ⟨-, h1, -⟩
      · rw [hthrow] at h1
        rw [formula_congr (w := fun k => .ok ((s.1.compute E k).getD 0)) (by
          intro k hk
          obtain ⟨v, hv1, hv2⟩ := deref_right u1 (hall k (wantAll_mem _ _ k hk)) (by
            rintro r rfl
            rw [u3, hsame.1]; exact keys_method _ _ r hk)
          rw [hv1]
          have : s.1.compute E k = some v := by
            rw [← hv2]
            cases k <;> simp only [MEC.compute]
            rw [u3, u4, hsame.1, hsame.2.1]
          rw [this]; rfl)] at h1
        obtain ⟨v, hv⟩ := formula_ok (E := E) (m := s.1.method) (o := o) (fun k => (s.1.compute E k).getD 0)
        rw [hv] at h1; simp at h1
      · rw [hthrow] at h1; simp at h1
  obtain ⟨i1, i2⟩ := step_inv k3 k2 o (Steady.tame hso s.1)
  obtain ⟨q1, q2, q3⟩ := poisoned_hist more hmore i2 i1 hp
  exact (poisoned_step q3 q2 q1 o' hso').2 hg'

/-- A world in which elements with n = 61 cannot be computed. -/
noncomputable def demoEnvBad : CacheEnv :=
  ⟨⟨1, 1, 1, 2⟩, fun _ _ a => if a.n.2 = 61 then none else some 1, fun _ => false⟩

/-- The situation of the theorem occurs: one element throws; the other one, computable, throws after it. -/
theorem C24_failed_lookup_fails :
    ∃ (E : CacheEnv) (o o' : COp), o.isGet = true ∧ o'.isGet = true ∧ o.sameSpecies ∧
      (o'.run E (MEC.fresh false) []).1 = .ok 1 ∧ (o.run E (MEC.fresh false) []).1 = .throw ∧
      (o'.run E (runHist E [o', o] (MEC.fresh false) []).1 []).1 = .throw := by
  refine ⟨demoEnvBad, .radial demoA demoB 1, .radial demoC demoB 1, rfl, rfl, rfl, rfl, rfl, rfl⟩

/-- **C24 (partial).** A lookup rejected because the species differ leaves cache and file as they were.
Missing: lookups that throw while computing; for them the property fails (above). -/
theorem C24_mismatch_partial (E : CacheEnv) (o o' : COp) (hg : o.isGet = true) (hs : ¬ o.sameSpecies)
    (c : MEC) (f : Rows) :
    (o.run E c f).1 = .throw ∧ o'.run E (o.run E c f).2.1 (o.run E c f).2.2 = o'.run E c f := by
  rw [run_mismatch hg hs]; exact ⟨rfl, rfl⟩

/-- A lookup with differing species. -/
example : ¬ (COp.radial demoA { demoB with species := "Cs" } 1).sameSpecies := by
  simp [COp.sameSpecies, demoA, demoB]

/-! ## The value a new cache returns -/

/-- A lookup in a new cache, in terms of the computed values of its keys. -/
theorem fresh_run {E : CacheEnv} (c : MEC) {o : COp} (hg : o.isGet = true) (hs : o.sameSpecies)
    (hc : ∀ k ∈ o.keys c.method, (c.compute E k).isSome) :
    (o.run E c.freshLike []).1 = o.formula E c.method (fun k => .ok ((c.compute E k).getD 0)) := by
  have hfi : CInv E c.freshLike := ⟨by intro e he; simp [MEC.freshLike] at he, by simp [MEC.freshLike],
    by simp [MEC.freshLike], by simp [MEC.freshLike]⟩
  obtain ⟨q1, q2, q3⟩ := run_get (E := E) hg hs c.freshLike []
  have hm : c.freshLike.method = c.method := rfl
  rw [hm] at q1 q2 q3
  have hfw : CInv E (c.freshLike.wantAll (o.keys c.method)) :=
    hfi.wantAll _ (fun r hr => keys_method _ _ r hr)
  have hfs := wantAll_same (o.keys c.method) c.freshLike
  have hnil : RowsRight E "" [] := by intro e he; simp at he
  obtain ⟨w1, w2, w3, w4, w5, w6, w7⟩ := update_props hnil _ hfw
  obtain ⟨b', hb'⟩ := update_progress hnil _ hfw (Or.inl (by rw [hfs.2.2.1]; rfl)) (by
    intro k hk
    rcases wantAll_missing_sub _ _ _ hk with h1 | h1
    · simp [MEC.freshLike] at h1
    · have := hc k h1
      cases k <;> simp only [MEC.compute] at * <;> try simp
      rw [hfs.1, hfs.2.1]; exact this)
  obtain ⟨-, hall'⟩ := w7 (by rw [hb']; simp)
  rcases q3 b' hb' with hq | ⟨-, -, ⟨k, -, hk⟩, -⟩
  swap
  · simp [MEC.freshLike, Rows.get] at hk
  rw [hq]
  apply formula_congr
  intro k hk
  obtain ⟨v2, e3, e4⟩ := deref_right w1 (hall' k (wantAll_mem _ _ k hk)) (by
    rintro r rfl
    rw [w3, hfs.1]; exact keys_method _ _ r hk)
  rw [e3]
  have : c.compute E k = some v2 := by
    rw [← e4]
    cases k <;> simp only [MEC.compute]
    rw [w3, w4, hfs.1, hfs.2.1]; rfl
  rw [this]; rfl

/-- **C22, reference value.** What a new cache returns is the matrix element of C21 and C63: the product
formula with the radial integral computed under the current method and database. -/
theorem C22_fresh_value (E : CacheEnv) (c : MEC) (row col : QN) (kr ka : ℤ) (hs : row.species = col.species)
    (htot : ∀ d m a, (E.radial d m a).isSome) :
    ((COp.multipole row col kr ka).run E c.freshLike []).1 =
      electricMultipole E.C (fun k => (E.radial c.defectdb c.method k.args).getD 0) c.method row col kr ka ∧
    ((COp.magnetic row col).run E c.freshLike []).1 =
      magneticDipole E.C (fun k => (E.radial c.defectdb c.method k.args).getD 0) c.method row col ∧
    ((COp.radial row col kr).run E c.freshLike []).1 =
      .ok ((E.radial c.defectdb c.method
        (RadKey.make c.method row.species kr row.n col.n row.l col.l row.j col.j).args).getD 0) := by
  have ht : ∀ o : COp, ∀ k ∈ o.keys c.method, (c.compute E k).isSome := by
    intro o k _; cases k <;> simp [MEC.compute, htot]
  refine ⟨?_, ?_, ?_⟩
  · rw [fresh_run (o := (COp.multipole row col kr ka)) c rfl hs (ht _)]
    unfold electricMultipole
    rw [if_neg (by simpa using hs)]
    rfl
  · rw [fresh_run (o := (COp.magnetic row col)) c rfl hs (ht _)]
    unfold magneticDipole
    rw [if_neg (by simpa using hs)]
    rfl
  · rw [fresh_run (o := (COp.radial row col kr)) c rfl hs (ht _)]
    rfl

end PI
