import Verif.ElemCache.DipoleLemma
import Verif.Element.Props

/-! # Property C92: loaded dipole elements are the ones returned -/

namespace PI

/-- The rows of a file that are read. -/
def dipRows (ls : List DipLine) : List DipRow :=
  ls.filterMap fun l => match l with | .row r => some r | _ => none

/-- Two rows are about the same two levels, in the same or in exchanged order. -/
def DipRow.SameLevels (r r' : DipRow) : Prop :=
  ((r.n1, r.l1, r.j1) = (r'.n1, r'.l1, r'.j1) ∧ (r.n2, r.l2, r.j2) = (r'.n2, r'.l2, r'.j2)) ∨
  ((r.n1, r.l1, r.j1) = (r'.n2, r'.l2, r'.j2) ∧ (r.n2, r.l2, r.j2) = (r'.n1, r'.l1, r'.j1))

/-- The first level of the row is the lower one in the order n, l, j. -/
def DipRow.Upward (r : DipRow) : Prop :=
  r.n1 < r.n2 ∨ (r.n1 = r.n2 ∧ (r.l1 < r.l2 ∨ (r.l1 = r.l2 ∧ r.j1 ≤ r.j2)))

/-- The state belongs to the first level of the row. -/
def DipRow.First (r : DipRow) (a : QN) : Prop := a.n = r.n1 ∧ a.l = r.l1 ∧ a.j = r.j1

/-- The state belongs to the second level of the row. -/
def DipRow.Second (r : DipRow) (b : QN) : Prop := b.n = r.n2 ∧ b.l = r.l2 ∧ b.j = r.j2

/-- ⟨l₁j₁‖er‖l₂j₂⟩ over the radial integral, for dipole transitions: must not vanish for a row to make
sense. -/
noncomputable def reducedDipole (s l1 l2 j1 j2 : ℤ) : ℝ := commutesSSpec s 1 l1 l2 j1 j2 * multipoleSpec 1 l1 l2

/-- The spin rule is the one of the state's constructor (State.cpp:180-187). -/
theorem dipoleSpin_eq (sp : String) : dipoleSpin sp =
    (match StateOne.analyzeSpecies sp with | .ok p => .ok p.2 | .throw => .throw | .ub => .ub) := by
  unfold dipoleSpin StateOne.analyzeSpecies
  cases sp.toList.getLast? with
  | none => rfl
  | some c => dsimp only; split_ifs <;> rfl

/-! ## The reading loop -/

theorem demand_props (c : MEC) (k : CKey) : (c.demand k).cache = c.cache ∧ (c.demand k).txn = c.txn ∧
    (c.demand k).method = c.method ∧ (c.demand k).defectdb = c.defectdb ∧ (c.demand k).dbOn = c.dbOn ∧
    (∀ k', k' ∈ c.missing → k' ∈ (c.demand k).missing) ∧ k ∈ (c.demand k).missing ∧
    (∀ k', k' ∈ (c.demand k).missing → k' ∈ c.missing ∨ k' = k) := by
  unfold MEC.demand
  split_ifs with h
  · exact ⟨rfl, rfl, rfl, rfl, rfl, fun _ h => h, h, fun _ h => Or.inl h⟩
  · refine ⟨rfl, rfl, rfl, rfl, rfl, fun k' hk => ?_, ?_, fun k' hk => ?_⟩
    · simp [hk]
    · simp
    · simpa using hk

theorem read_props (u : ℝ) (sp : String) (s : ℤ) (ls : List DipLine) (c : MEC) :
    let x := c.readDipoles u sp s ls
    x.2.cache = c.cache ∧ x.2.txn = c.txn ∧ x.2.method = c.method ∧ x.2.defectdb = c.defectdb ∧
    x.2.dbOn = c.dbOn ∧ (∀ k, k ∈ c.missing → k ∈ x.2.missing) ∧
    (∀ raw, x.1 = .ok raw → raw = (dipRows ls).map (fun r => (r.key c.method sp, r.val * u)) ∧
      ∀ r ∈ dipRows ls, CKey.comS (ComKey.make s 1 r.l1 r.l2 r.j1 r.j2).1 ∈ x.2.missing ∧
        CKey.mul (MulKey.make 1 r.l1 r.l2).1 ∈ x.2.missing) := by
  induction ls generalizing c with
  | nil => simp [MEC.readDipoles, dipRows]
  | cons l ls ih =>
    cases l with
    | invalid =>
      have := ih c
      simpa [MEC.readDipoles, dipRows] using this
    | tooLarge => simp [MEC.readDipoles]
    | short => simp [MEC.readDipoles]
    | row r =>
      have p1 := demand_props c (.comS (ComKey.make s 1 r.l1 r.l2 r.j1 r.j2).1)
      have p2 := demand_props (c.demand (.comS (ComKey.make s 1 r.l1 r.l2 r.j1 r.j2).1)) (.mul (MulKey.make 1 r.l1 r.l2).1)
      generalize hc' : (c.demand (.comS (ComKey.make s 1 r.l1 r.l2 r.j1 r.j2).1)).demand (.mul (MulKey.make 1 r.l1 r.l2).1)
        = c' at p2
      obtain ⟨a1, a2, a3, a4, a5, a6, a7, -⟩ := p1
      obtain ⟨b1, b2, b3, b4, b5, b6, b7, -⟩ := p2
      obtain ⟨d1, d2, d3, d4, d5, d6, d7⟩ := ih c'
      have hshape : (MEC.readDipoles u sp s (.row r :: ls) c).2 = (MEC.readDipoles u sp s ls c').2 ∧
          (MEC.readDipoles u sp s (.row r :: ls) c).1 = (match (MEC.readDipoles u sp s ls c').1 with
            | .ok raw => .ok ((r.key c.method sp, r.val * u) :: raw) | .throw => .throw | .ub => .ub) := by
        simp only [MEC.readDipoles, hc']
        rcases MEC.readDipoles u sp s ls c' with ⟨x, y⟩
        cases x <;> exact ⟨rfl, rfl⟩
      dsimp only
      rw [hshape.1, hshape.2]
      refine ⟨d1.trans (b1.trans a1), d2.trans (b2.trans a2), d3.trans (b3.trans a3), d4.trans (b4.trans a4),
        d5.trans (b5.trans a5), fun k hk => d6 k (b6 k (a6 k hk)), ?_⟩
      intro raw hraw
      cases hx : (MEC.readDipoles u sp s ls c').1 with
      | throw => rw [hx] at hraw; cases hraw
      | ub => rw [hx] at hraw; cases hraw
      | ok raw' =>
        rw [hx] at hraw
        simp only [Out.ok.injEq] at hraw
        obtain ⟨e1, e2⟩ := d7 raw' hx
        have hm : c'.method = c.method := b3.trans a3
        refine ⟨?_, ?_⟩
        · rw [← hraw, e1, hm]; simp [dipRows]
        · intro r' hr'
          have : r' = r ∨ r' ∈ dipRows ls := by simpa [dipRows] using hr'
          rcases this with rfl | h1
          · exact ⟨d6 _ (b6 _ a7), d6 _ b7⟩
          · exact e2 r' h1

/-! ## The storing loop -/

theorem Rows.set_self (r : Rows) (k : CKey) (v : ℝ) : (r.set k v).get k = some v := by
  unfold Rows.set Rows.get
  rw [List.find?_append]
  have : (r.filter (fun e => !decide (e.1 = k))).find? (fun e => decide (e.1 = k)) = none := by
    rw [List.find?_eq_none]
    intro e he
    have := (List.mem_filter.mp he).2
    simpa using this
  rw [this]; simp

theorem Rows.set_other {r : Rows} {k k' : CKey} {v : ℝ} (h : k' ≠ k) : (r.set k v).get k' = r.get k' := by
  unfold Rows.set Rows.get
  rw [List.find?_append, List.find?_filter]
  have : (fun a : CKey × ℝ => decide ((!decide (a.1 = k)) = true ∧ decide (a.1 = k') = true)) = (fun a => decide (a.1 = k')) := by
    funext a
    by_cases h1 : a.1 = k'
    · simp [h1, h]
    · simp [h1]
  have h2 : ([(k, v)] : Rows).find? (fun e => decide (e.1 = k')) = none := by
    simp [Ne.symm h]
  rw [this, h2]; simp

theorem Rows.mem_set {r : Rows} {k : CKey} {v : ℝ} {e : CKey × ℝ} (h : e ∈ r.set k v) : e ∈ r ∨ e = (k, v) := by
  unfold Rows.set at h
  rcases List.mem_append.mp h with h1 | h1
  · exact Or.inl (List.mem_filter.mp h1).1
  · exact Or.inr (by simpa using h1)

theorem bracket_present {c : MEC} {k : CKey} {v : ℝ} (h : c.cache.get k = some v) : c.bracket k = (v, c) := by
  have : c.cache.insert k 0 = c.cache := by unfold Rows.insert; rw [if_pos (by rw [h]; rfl)]
  unfold MEC.bracket
  rw [this, h]; rfl

/-- The divisor used for a radial key. -/
noncomputable def keyDiv (s : ℤ) (k : RadKey) : ℝ :=
  (ComKey.make s 1 k.l.1 k.l.2 k.j.1 k.j.2).2 * (ComKey.make s 1 k.l.1 k.l.2 k.j.1 k.j.2).1.valueS *
    (MulKey.make 1 k.l.1 k.l.2).2 * (MulKey.make 1 k.l.1 k.l.2).1.value

/-- The angular keys of a radial key are in the cache. -/
def Ready (s : ℤ) (c : MEC) (k : RadKey) : Prop :=
  (c.cache.get (.comS (ComKey.make s 1 k.l.1 k.l.2 k.j.1 k.j.2).1)).isSome ∧
  (c.cache.get (.mul (MulKey.make 1 k.l.1 k.l.2).1)).isSome

theorem store_cons {s : ℤ} {k : RadKey} {v : ℝ} {raw : List (RadKey × ℝ)} {c : MEC} (h : AInv c) (hr : Ready s c k) :
    MEC.storeDipoles s ((k, v) :: raw) c = if keyDiv s k = 0 then (.ub, c) else
      MEC.storeDipoles s raw { c with cache := c.cache.set (.rad k) (v / keyDiv s k) } := by
  obtain ⟨x3, h3⟩ := Option.isSome_iff_exists.mp hr.1
  obtain ⟨x4, h4⟩ := Option.isSome_iff_exists.mp hr.2
  have e3 : x3 = _ := h.cache _ (Rows.get_mem h3)
  have e4 : x4 = _ := h.cache _ (Rows.get_mem h4)
  simp only [MEC.storeDipoles]
  rw [bracket_present h3]
  dsimp only
  rw [bracket_present h4]
  dsimp only
  rw [e3, e4]
  rfl

theorem set_AInv {c : MEC} (h : AInv c) (k : RadKey) (v : ℝ) : AInv { c with cache := c.cache.set (.rad k) v } := by
  refine ⟨?_, h.txn⟩
  intro e he
  rcases Rows.mem_set he with h1 | rfl
  · exact h.cache e h1
  · trivial

theorem set_ready {s : ℤ} {c : MEC} {k' : RadKey} (h : Ready s c k') (k : RadKey) (v : ℝ) :
    Ready s { c with cache := c.cache.set (.rad k) v } k' := by
  unfold Ready at h ⊢
  dsimp only
  rw [Rows.set_other (by simp), Rows.set_other (by simp)]
  exact h

theorem store_props {s : ℤ} (raw : List (RadKey × ℝ)) {c : MEC} (h : AInv c) (hr : ∀ p ∈ raw, Ready s c p.1) :
    let x := c.storeDipoles s raw
    AInv x.2 ∧ x.2.txn = c.txn ∧ x.2.method = c.method ∧ x.2.missing = c.missing ∧ x.2.dbOn = c.dbOn ∧
    x.2.defectdb = c.defectdb ∧
    (∀ k, (∀ p ∈ raw, k ≠ .rad p.1) → x.2.cache.get k = c.cache.get k) ∧
    (x.1 = .ok () ↔ ∀ p ∈ raw, keyDiv s p.1 ≠ 0) ∧ x.1 ≠ .throw ∧
    (x.1 = .ok () → ∀ pre post k v, raw = pre ++ (k, v) :: post → (∀ p ∈ post, p.1 ≠ k) →
      x.2.cache.get (.rad k) = some (v / keyDiv s k)) := by
  induction raw generalizing c with
  | nil => simp [MEC.storeDipoles, h]
  | cons p raw ih =>
    obtain ⟨k0, v0⟩ := p
    dsimp only
    rw [store_cons h (hr (k0, v0) (by simp))]
    by_cases hd : keyDiv s k0 = 0
    · rw [if_pos hd]
      refine ⟨h, rfl, rfl, rfl, rfl, rfl, fun _ _ => rfl, ⟨?_, ?_⟩, by simp, ?_⟩
      · intro h; cases h
      · intro h; exact absurd hd (h (k0, v0) (by simp))
      · intro h; cases h
    · rw [if_neg hd]
      obtain ⟨d1, d2, d3, d4, d5, d6, d7, d8, d9, d10⟩ := ih (set_AInv h k0 (v0 / keyDiv s k0))
        (fun p hp => set_ready (hr p (by simp [hp])) k0 (v0 / keyDiv s k0))
      refine ⟨d1, d2, d3, d4, d5, d6, ?_, ?_, d9, ?_⟩
      · intro k hk
        rw [d7 k (fun p hp => hk p (by simp [hp]))]
        exact Rows.set_other (hk (k0, v0) (by simp))
      · rw [d8]; simp [hd]
      · intro hok pre post k v hraw hpost
        cases pre with
        | nil =>
          simp only [List.nil_append, List.cons.injEq, Prod.mk.injEq] at hraw
          obtain ⟨⟨rfl, rfl⟩, rfl⟩ := hraw
          rw [d7 _ (fun p hp => by
            intro he
            exact hpost p hp (by simpa using he.symm))]
          exact Rows.set_self _ _ _
        | cons p0 pre =>
          simp only [List.cons_append, List.cons.injEq] at hraw
          exact d10 hok pre post k v hraw.2 hpost

/-! ## The function -/

theorem key_ready {s : ℤ} {m : Method} {sp : String} {r : DipRow} {c : MEC}
    (h3 : (c.cache.get (.comS (ComKey.make s 1 r.l1 r.l2 r.j1 r.j2).1)).isSome)
    (h4 : (c.cache.get (.mul (MulKey.make 1 r.l1 r.l2).1)).isSome) : Ready s c (r.key m sp) := by
  unfold Ready DipRow.key RadKey.make
  split_ifs
  · exact ⟨h3, h4⟩
  · refine ⟨?_, ?_⟩
    · rw [comKey_shared]; exact h3
    · rw [(C18_multipole_order _ _ _).2]; exact h4

/-- `update` succeeds if no transaction is open and every missing key can be computed. -/
theorem update_progress_gen {E : CacheEnv} {f : Rows} {c : MEC} (ht : c.txn = none)
    (hk : ∀ k ∈ c.missing, (c.compute E k).isSome) : ∃ b, (c.update E f).1 = .ok b := by
  unfold MEC.update
  split_ifs with hm
  · exact ⟨_, rfl⟩
  · obtain ⟨-, a2, a3, a4, a5⟩ := load_gen (PC := fun _ _ => True) (PF := fun _ _ => True) (fun _ _ h => h)
      (f := f) (fun _ _ => trivial) (c := c) ⟨fun _ _ => trivial, fun _ _ _ _ => trivial⟩
    dsimp only
    have hb : ∃ c1, (c.load f).begin = some c1 ∧ c1.missing = (c.load f).missing ∧ c1.method = c.method ∧
        c1.defectdb = c.defectdb := by
      unfold MEC.begin
      rw [a3, ht]
      split_ifs
      · exact ⟨_, rfl, rfl, a2.method, a2.defectdb⟩
      · exact ⟨_, rfl, rfl, a2.method, a2.defectdb⟩
    obtain ⟨c1, e1, e2, e3, e4⟩ := hb
    rw [e1]
    dsimp only
    have hok : (c1.calcAll E (calcOrder c1.missing)).1 = true := by
      rw [calcAll_ok]
      intro k hk'
      rw [mem_calcOrder, e2] at hk'
      rw [compute_congr e3 e4]
      exact hk k (a5 k hk')
    rcases hc : c1.calcAll E (calcOrder c1.missing) with ⟨b, c2⟩
    rw [hc] at hok
    dsimp only at hok
    subst hok
    exact ⟨_, rfl⟩

/-- Everything about one call. -/
theorem loadDipoles_props {E : CacheEnv} {u : ℝ} {f : Rows} (hf : ∀ e ∈ f, AngRight e.1 e.2) {c : MEC} (h : AInv c)
    (ls : List DipLine) (sp : String) :
    let x := c.loadElectricDipoleDB E u f ls sp
    AInv x.2.1 ∧ (∀ e ∈ x.2.2, AngRight e.1 e.2) ∧ x.2.1.method = c.method ∧
    (∀ k v, (∀ r ∈ dipRows ls, k ≠ .rad (r.key c.method sp)) → c.cache.get k = some v → x.2.1.cache.get k = some v) ∧
    (∀ s, x.1 = .ok () → dipoleSpin sp = .ok s → ∀ pre r post, dipRows ls = pre ++ r :: post →
      (∀ r' ∈ post, r'.key c.method sp ≠ r.key c.method sp) →
      keyDiv s (r.key c.method sp) ≠ 0 ∧
      x.2.1.cache.get (.rad (r.key c.method sp)) = some (r.val * u / keyDiv s (r.key c.method sp))) ∧
    ((∀ d m a, (E.radial d m a).isSome) → c.txn = none → x.2.1.txn = none) ∧
    (∀ s, dipoleSpin sp = .ok s → (∀ d m a, (E.radial d m a).isSome) → c.txn = none →
      (∀ l ∈ ls, (∃ r, l = .row r) ∨ l = .invalid) →
      x.1 ≠ .throw ∧ ((∀ r ∈ dipRows ls, keyDiv s (r.key c.method sp) ≠ 0) → x.1 = .ok ())) := by
  unfold MEC.loadElectricDipoleDB
  cases hs : dipoleSpin sp with
  | throw =>
    dsimp only
    exact ⟨h, hf, rfl, fun _ _ _ h => h, (by intro s hx; cases hx), fun _ h => h, (by intro s hx; cases hx)⟩
  | ub =>
    dsimp only
    exact ⟨h, hf, rfl, fun _ _ _ h => h, (by intro s hx; cases hx), fun _ h => h, (by intro s hx; cases hx)⟩
  | ok s =>
    dsimp only
    obtain ⟨a1, a2, a3, a4, a5, a6, a7⟩ := read_props u sp s ls c
    have hnoerr : (∀ l ∈ ls, (∃ r, l = .row r) ∨ l = .invalid) → ∃ raw, (c.readDipoles u sp s ls).1 = .ok raw := by
      clear a1 a2 a3 a4 a5 a6 a7 h hf
      induction ls generalizing c with
      | nil => intro _; exact ⟨[], rfl⟩
      | cons l ls ih =>
        intro hl
        rcases hl l (by simp) with ⟨r, rfl⟩ | rfl
        · obtain ⟨raw, hraw⟩ := ih (c := (c.demand (.comS (ComKey.make s 1 r.l1 r.l2 r.j1 r.j2).1)).demand
            (.mul (MulKey.make 1 r.l1 r.l2).1)) (fun l hl' => hl l (by simp [hl']))
          simp only [MEC.readDipoles]
          rcases hx : MEC.readDipoles u sp s ls ((c.demand (.comS (ComKey.make s 1 r.l1 r.l2 r.j1 r.j2).1)).demand
            (.mul (MulKey.make 1 r.l1 r.l2).1)) with ⟨x, y⟩
          rw [hx] at hraw
          dsimp only at hraw
          subst hraw
          exact ⟨_, rfl⟩
        · exact ih (fun l hl' => hl l (by simp [hl']))
    rcases hx : c.readDipoles u sp s ls with ⟨o, c1⟩
    rw [hx] at a1 a2 a3 a4 a5 a6 a7 hnoerr
    dsimp only at a1 a2 a3 a4 a5 a6 a7 hnoerr
    have h1 : AInv c1 := ⟨by rw [a1]; exact h.cache, by rw [a2]; exact h.txn⟩
    cases o with
    | throw =>
      refine ⟨h1, hf, a3, fun k v _ hk => by rw [a1]; exact hk, (by intro s hx; cases hx),
        fun _ ht => a2.trans ht, fun s _ _ _ hl => ?_⟩
      obtain ⟨raw, hraw⟩ := hnoerr hl; cases hraw
    | ub =>
      refine ⟨h1, hf, a3, fun k v _ hk => by rw [a1]; exact hk, (by intro s hx; cases hx),
        fun _ ht => a2.trans ht, fun s _ _ _ hl => ?_⟩
      obtain ⟨raw, hraw⟩ := hnoerr hl; cases hraw
    | ok raw =>
      dsimp only
      obtain ⟨r1, r2⟩ := a7 raw rfl
      obtain ⟨b1, b2, b3, b4, b5, b6⟩ := update_gen (E := E) (fun _ _ h => h) hf h1 compute_ang
      have hprog := update_progress_gen (E := E) (f := f) (c := c1)
      have hkeep : ∀ k v, c.cache.get k = some v → (c1.update E f).2.1.cache.get k = some v :=
        fun k v hk => b2.get k v (by rw [a1]; exact hk)
      have htot : (∀ d m a, (E.radial d m a).isSome) → ∀ k ∈ c1.missing, (c1.compute E k).isSome := by
        intro ht k _; cases k <;> simp [MEC.compute, ht]
      rcases hu : c1.update E f with ⟨o2, c2, f2⟩
      rw [hu] at b1 b2 b3 b4 b5 b6 hprog hkeep
      dsimp only at b1 b2 b3 b4 b5 b6 hprog hkeep
      cases o2 with
      | ub => exact absurd rfl b4
      | throw =>
        refine ⟨b1, b3, b2.method.trans a3, fun k v _ hk => hkeep k v hk, (by intro s hx; cases hx), ?_, ?_⟩
        · intro ht htx
          obtain ⟨b, hb⟩ := hprog (a2.trans htx) (htot ht)
          cases hb
        · intro s _ ht htx _
          obtain ⟨b, hb⟩ := hprog (a2.trans htx) (htot ht)
          cases hb
      | ok b =>
        dsimp only
        obtain ⟨m1, m2⟩ := b5 (by simp)
        have hready : ∀ p ∈ raw, Ready s c2 p.1 := by
          intro p hp
          rw [r1] at hp
          obtain ⟨r, hr, rfl⟩ := List.mem_map.mp hp
          exact key_ready (m2 _ (Or.inr (r2 r hr).1)) (m2 _ (Or.inr (r2 r hr).2))
        obtain ⟨d1, d2, d3, d4, d5, d6, d7, d8, d9, d10⟩ := store_props raw b1 hready
        refine ⟨d1, b3, d3.trans (b2.method.trans a3), ?_, ?_, ?_, ?_⟩
        · intro k v hk hv
          rw [d7 k ?_]
          · exact hkeep k v hv
          · intro p hp
            rw [r1] at hp
            obtain ⟨r, hr, rfl⟩ := List.mem_map.mp hp
            exact hk r hr
        · intro s' hok hs' pre r post hrows hpost
          simp only [Out.ok.injEq] at hs'
          subst hs'
          rw [hrows] at r1
          refine ⟨?_, ?_⟩
          · exact d8.mp hok (r.key c.method sp, r.val * u) (by rw [r1]; simp)
          · refine d10 hok (pre.map fun r => (r.key c.method sp, r.val * u))
              (post.map fun r => (r.key c.method sp, r.val * u)) _ _ (by rw [r1]; simp) ?_
            intro p hp
            obtain ⟨r', hr', rfl⟩ := List.mem_map.mp hp
            exact hpost r' hr'
        · intro ht htx
          rw [d2]; exact b6 (by simp) (a2.trans htx)
        · intro s' hs' ht htx _
          simp only [Out.ok.injEq] at hs'
          subst hs'
          refine ⟨d9, fun hd => ?_⟩
          rw [d8]
          intro p hp
          rw [r1] at hp
          obtain ⟨r, hr, rfl⟩ := List.mem_map.mp hp
          exact hd r hr

end PI
