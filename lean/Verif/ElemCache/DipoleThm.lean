import Verif.ElemCache.Dipole
import Verif.Legacy.HamOne

/-! # Property C92: theorems -/

namespace PI

theorem reducedDipole_swap (s l1 l2 j1 j2 : ℤ) (h1 : (j1 + s) % 2 = 0) (h2 : (j2 + s) % 2 = 0) :
    reducedDipole s l2 l1 j2 j1 = sgn ((j1 - j2) / 2) * reducedDipole s l1 l2 j1 j2 := by
  unfold reducedDipole
  by_cases hp : (l1 + 1 + l2) % 2 = 0
  · rw [commutesS_sym s 1 l2 l1 j2 j1 h2 h1, multipole_sym 1 l2 l1]
    have key : sgn ((2 * l2 + j2 + 2 * l1 + j1 + 2 * s) / 2) * sgn 1 = sgn ((j1 - j2) / 2) := by
      rw [sgn_mul]; apply sgn_congr; omega
    rw [← key]; ring
  · have z1 : multipoleSpec 1 l1 l2 = 0 := by
      unfold multipoleSpec; rw [w3j_zero_of_odd _ _ _ (by omega), mul_zero]
    have z2 : multipoleSpec 1 l2 l1 = 0 := by
      unfold multipoleSpec; rw [w3j_zero_of_odd _ _ _ (by omega), mul_zero]
    rw [z1, z2]; ring

theorem keyDiv_eq (s : ℤ) (m : Method) (sp : String) (r : DipRow) [Decidable r.Upward]
    (h1 : (r.j1 + s) % 2 = 0) (h2 : (r.j2 + s) % 2 = 0) :
    keyDiv s (r.key m sp) =
      (if r.Upward then 1 else sgn ((r.j1 - r.j2) / 2)) * reducedDipole s r.l1 r.l2 r.j1 r.j2 := by
  have hgen : ∀ l1 l2 j1 j2 : ℤ, (j1 + s) % 2 = 0 → (j2 + s) % 2 = 0 →
      (ComKey.make s 1 l1 l2 j1 j2).2 * (ComKey.make s 1 l1 l2 j1 j2).1.valueS *
        (MulKey.make 1 l1 l2).2 * (MulKey.make 1 l1 l2).1.value = reducedDipole s l1 l2 j1 j2 := by
    intro l1 l2 j1 j2 g1 g2
    unfold reducedDipole
    rw [← (C17_commutes_order_partial s 1 l1 l2 j1 j2 g1 g2).1, ← (C18_multipole_order 1 l1 l2).1]
    ring
  unfold keyDiv DipRow.key RadKey.make
  by_cases hu : r.Upward
  · have hu' := hu
    unfold DipRow.Upward at hu'
    rw [if_pos hu', if_pos hu, one_mul]
    exact hgen _ _ _ _ h1 h2
  · have hu' := hu
    unfold DipRow.Upward at hu'
    rw [if_neg hu', if_neg hu, ← reducedDipole_swap _ _ _ _ _ h1 h2]
    exact hgen _ _ _ _ h2 h1

theorem key_same (m m' : Method) (sp sp' : String) (r r' : DipRow) :
    r.key m sp = r'.key m' sp' ↔ m = m' ∧ sp = sp' ∧ r.SameLevels r' := by
  unfold DipRow.key DipRow.SameLevels
  rw [C19_radial_keys]
  simp

/-! ## Histories -/

/-- The operation does not load another value for the two levels of the row. -/
def DOp.Spares (sp : String) (r : DipRow) : DOp → Prop
  | .base _ => True
  | .loadDipoles ls sp' => sp' = sp → ∀ r' ∈ dipRows ls, ¬ r.SameLevels r'

theorem dop_inv {E : CacheEnv} {u : ℝ} {f : Rows} (hf : ∀ e ∈ f, AngRight e.1 e.2) {c : MEC} (h : AInv c) (o : DOp) :
    AInv (o.run E u c f).1 ∧ (∀ e ∈ (o.run E u c f).2, AngRight e.1 e.2) ∧
    (∀ sp r m v, o.Spares sp r → c.cache.get (.rad (r.key m sp)) = some v →
      (o.run E u c f).1.cache.get (.rad (r.key m sp)) = some v) := by
  cases o with
  | base o =>
    obtain ⟨a1, a2, a3⟩ := run_gen (E := E) (fun _ _ h => h) (fun _ => compute_ang) hf h o
    exact ⟨a1, a2, fun sp r m v _ hv => a3 _ v hv⟩
  | loadDipoles ls sp' =>
    obtain ⟨a1, a2, a3, a4, -⟩ := loadDipoles_props (E := E) (u := u) hf h ls sp'
    refine ⟨a1, a2, fun sp r m v hs hv => a4 _ v ?_ hv⟩
    intro r' hr' he
    simp only [CKey.rad.injEq] at he
    obtain ⟨-, e2, e3⟩ := (key_same _ _ _ _ _ _).mp he
    exact hs e2.symm r' hr' e3

theorem runD_inv {E : CacheEnv} {u : ℝ} (os : List DOp) {f : Rows} (hf : ∀ e ∈ f, AngRight e.1 e.2) {c : MEC}
    (h : AInv c) :
    AInv (runD E u os c f).1 ∧ (∀ e ∈ (runD E u os c f).2, AngRight e.1 e.2) ∧
    (∀ sp r m v, (∀ o ∈ os, o.Spares sp r) → c.cache.get (.rad (r.key m sp)) = some v →
      (runD E u os c f).1.cache.get (.rad (r.key m sp)) = some v) := by
  induction os generalizing c f with
  | nil => exact ⟨h, hf, fun _ _ _ _ _ h => h⟩
  | cons o os ih =>
    obtain ⟨a1, a2, a3⟩ := dop_inv (E := E) (u := u) hf h o
    obtain ⟨b1, b2, b3⟩ := ih a2 a1
    exact ⟨b1, b2, fun sp r m v hs hv => b3 sp r m v (fun o' ho' => hs o' (by simp [ho']))
      (a3 sp r m v (hs o (by simp)) hv)⟩

/-- If all radial integrals can be computed no transaction stays open. -/
theorem runD_txn {E : CacheEnv} {u : ℝ} (htot : ∀ d m a, (E.radial d m a).isSome) (os : List DOp) {f : Rows}
    (hf : ∀ e ∈ f, AngRight e.1 e.2) {c : MEC} (h : AInv c) (ht : c.txn = none) : (runD E u os c f).1.txn = none := by
  induction os generalizing c f with
  | nil => exact ht
  | cons o os ih =>
    obtain ⟨a1, a2, -⟩ := dop_inv (E := E) (u := u) hf h o
    refine ih a2 a1 ?_
    cases o with
    | loadDipoles ls sp => exact (loadDipoles_props (E := E) (u := u) hf h ls sp).2.2.2.2.2.1 htot ht
    | base o =>
      show (o.run E c f).2.1.txn = none
      by_cases hg : o.isGet = true
      · by_cases hs : o.sameSpecies
        · obtain ⟨r1, -, -⟩ := run_get (E := E) hg hs c f
          rw [r1]
          obtain ⟨-, -, -, -, -, u6⟩ := update_gen (E := E) (fun _ _ h => h) hf (h.wantAll (o.keys c.method)) compute_ang
          have ht' : (c.wantAll (o.keys c.method)).txn = none := by rw [(wantAll_same _ _).2.2.2.1]; exact ht
          obtain ⟨b, hb⟩ := update_progress_gen (E := E) (f := f) ht' (fun k _ => by
            cases k <;> simp [MEC.compute, htot])
          exact u6 (by rw [hb]; simp) ht'
        · rw [run_mismatch hg hs]; exact ht
      · cases o with
        | multipole => simp [COp.isGet] at hg
        | magnetic => simp [COp.isGet] at hg
        | radial => simp [COp.isGet] at hg
        | precalculate basis ka q kr el mag rad =>
          simp only [COp.run, MEC.precalculate]
          cases firstPhysical basis with
          | none => exact ht
          | some p => exact (wantAll_same _ _).2.2.2.1.trans ht
        | setMethod m => exact ht
        | setDefectDB p => exact ht
        | reload => rfl
        | shuffle ks =>
          simp only [COp.run]
          split_ifs
          · exact ht
          · exact ht

/-- A dipole lookup when the radial value is cached: the angular factors are the textbook ones. -/
theorem dipole_lookup {E : CacheEnv} {f : Rows} (hf : ∀ e ∈ f, AngRight e.1 e.2) {c : MEC} (h : AInv c) {a b : QN}
    (ha : a.Physical) (hb : b.Physical) (hsp : a.species = b.species) (hss : a.s = b.s) {v : ℝ}
    (hv : c.cache.get (.rad (RadKey.make c.method a.species 1 a.n b.n a.l b.l a.j b.j)) = some v) :
    ((COp.multipole a b 1 1).run E c f).1 = .ok (E.C.e * v * (angularSpec 1 a.j b.j a.m b.m *
      reducedDipole a.s a.l b.l a.j b.j)) ∨
    (((COp.multipole a b 1 1).run E c f).1 = .throw ∧
      ¬ (c.txn = none ∧ ∀ d m a, (E.radial d m a).isSome)) := by
  obtain ⟨r1, r2, r3⟩ := run_get (E := E) (o := COp.multipole a b 1 1) rfl hsp c f
  obtain ⟨u1, u2, u3, u4, u5, u6⟩ := update_gen (E := E) (fun _ _ h => h) hf
    (h.wantAll ((COp.multipole a b 1 1).keys c.method)) compute_ang
  have hprog := update_progress_gen (E := E) (f := f) (c := c.wantAll ((COp.multipole a b 1 1).keys c.method))
  cases hu : ((c.wantAll ((COp.multipole a b 1 1).keys c.method)).update E f).1 with
  | ub => exact absurd hu u4
  | throw =>
    right
    refine ⟨r2 hu, ?_⟩
    rintro ⟨ht, htot⟩
    obtain ⟨x, hx⟩ := hprog (by rw [(wantAll_same _ _).2.2.2.1]; exact ht) (fun k _ => by
      cases k <;> simp [MEC.compute, htot])
    rw [hu] at hx; cases hx
  | ok x =>
    left
    rcases r3 x hu with hq | ⟨⟨_, _, _, ho⟩, -⟩
    swap
    · cases ho
    rw [hq]
    obtain ⟨-, hall⟩ := u5 (by rw [hu]; simp)
    have hk : ∀ k ∈ (COp.multipole a b 1 1).keys c.method,
        ∃ w, deref ((c.wantAll ((COp.multipole a b 1 1).keys c.method)).update E f).2.1 k = .ok w ∧ AngRight k w := by
      intro k hk
      obtain ⟨w, hw⟩ := Option.isSome_iff_exists.mp (hall k (wantAll_mem _ _ k hk))
      exact ⟨w, by simp [deref, hw], u1.cache _ (Rows.get_mem hw)⟩
    have hv' := u2.get _ _ ((wantAll_keeps ((COp.multipole a b 1 1).keys c.method) c).get _ _ hv)
    generalize hc' : ((c.wantAll ((COp.multipole a b 1 1).keys c.method)).update E f).2.1 = c' at hk hv'
    simp only [COp.keys, List.mem_cons, List.not_mem_nil, or_false, forall_eq_or_imp, forall_eq] at hk
    obtain ⟨-, ⟨w2, e2, q2⟩, ⟨w3, e3, q3⟩, ⟨w4, e4, q4⟩⟩ := hk
    have e1 : deref c' (.rad (RadKey.make c.method a.species 1 a.n b.n a.l b.l a.j b.j)) = .ok v := by
      simp [deref, hv']
    simp only [AngRight] at q2 q3 q4
    simp only [COp.formula, e1, e2, e3, e4, Out.ok_bind, Out.pure_eq, Out.ok.injEq]
    unfold QN.Physical at ha hb
    have p2 := (C16_angular_order 1 a.j b.j a.m b.m (by omega) (by omega)).1
    have p3 := (C17_commutes_order_partial a.s 1 a.l b.l a.j b.j (by omega) (by omega)).1
    have p4 := (C18_multipole_order 1 a.l b.l).1
    unfold reducedDipole
    rw [← p2, ← p3, ← p4, q2, q3, q4]
    ring

/-- The value of a row, whatever its direction, with the sign the library gives to it. -/
theorem row_value (E : CacheEnv) (u : ℝ) (db : Bool) (f : Rows) (hf : ∀ e ∈ f, AngRight e.1 e.2)
    (before after : List DOp) (ls : List DipLine) (sp : String) (s : ℤ) (hs : dipoleSpin sp = .ok s)
    (pre post : List DipRow) (r : DipRow) (hrow : dipRows ls = pre ++ r :: post)
    (hlast : ∀ r' ∈ post, ¬ r.SameLevels r') (hafter : ∀ o ∈ after, o.Spares sp r) [Decidable r.Upward] :
    let w := runD E u before (MEC.fresh db) f
    let x := w.1.loadElectricDipoleDB E u w.2 ls sp
    let z := runD E u after x.2.1 x.2.2
    x.1 = .ok () → z.1.method = w.1.method → ∀ a b : QN, a.Physical → b.Physical → a.species = sp → b.species = sp →
      a.s = s → b.s = s → r.First a → r.Second b →
      ((COp.multipole a b 1 1).run E z.1 z.2).1 =
        .ok ((if r.Upward then 1 else sgn ((r.j1 - r.j2) / 2)) *
          (E.C.e * (r.val * u) * angularSpec 1 a.j b.j a.m b.m)) ∨
      (((COp.multipole a b 1 1).run E z.1 z.2).1 = .throw ∧ ∃ d m a, E.radial d m a = none) := by
  intro w x z hok hm a b ha hb hsa hsb hssa hssb ⟨n1, l1, j1⟩ ⟨n2, l2, j2⟩
  have hfi : AInv (MEC.fresh db) := ⟨by simp [MEC.fresh], by simp [MEC.fresh]⟩
  obtain ⟨w1, w2, -⟩ := runD_inv (E := E) (u := u) before hf hfi
  obtain ⟨x1, x2, x3, -, x5, x6, -⟩ := loadDipoles_props (E := E) (u := u) w2 w1 ls sp
  obtain ⟨z1, z2, z3⟩ := runD_inv (E := E) (u := u) after x2 x1
  obtain ⟨d1, d2⟩ := x5 s hok hs pre r post hrow (fun r' hr' he => hlast r' hr' (by
    have := ((key_same _ _ _ _ _ _).mp he.symm).2.2; exact this))
  have hv := z3 sp r _ _ hafter d2
  have hpa := ha; have hpb := hb
  unfold QN.Physical at hpa hpb
  rw [keyDiv_eq s _ _ r (by rw [← j1, ← hssa]; omega) (by rw [← j2, ← hssb]; omega)] at hv d1
  have hkey : RadKey.make z.1.method a.species 1 a.n b.n a.l b.l a.j b.j = r.key w.1.method sp := by
    unfold DipRow.key
    rw [hm, hsa, n1, n2, l1, l2, j1, j2]
  have hlook := dipole_lookup (E := E) (f := z.2) z2 z1 ha hb (hsa.trans hsb.symm) (hssa.trans hssb.symm)
    (v := r.val * u / ((if r.Upward then 1 else sgn ((r.j1 - r.j2) / 2)) * reducedDipole s r.l1 r.l2 r.j1 r.j2))
    (by
      show z.1.cache.get _ = _
      rw [hkey]; exact hv)
  rcases hlook with h1 | ⟨h1, h2⟩
  · left
    refine h1.trans ?_
    rw [hssa, l1, l2]
    conv_lhs => rw [show reducedDipole s r.l1 r.l2 a.j b.j = reducedDipole s r.l1 r.l2 r.j1 r.j2 by rw [j1, j2]]
    obtain ⟨g1, g2⟩ := mul_ne_zero_iff.mp d1
    generalize hσ : (if r.Upward then (1 : ℝ) else sgn ((r.j1 - r.j2) / 2)) = σ at *
    have hσ2 : σ * σ = 1 := by
      rw [← hσ]; split_ifs
      · norm_num
      · exact sgn_self _
    simp only [Out.ok.injEq]
    field_simp
    linear_combination (-(E.C.e * r.val * u * angularSpec 1 a.j b.j a.m b.m)) * hσ2
  · right
    refine ⟨h1, ?_⟩
    by_contra hno
    push Not at hno
    have htot : ∀ d m a, (E.radial d m a).isSome := fun d m a => Option.isSome_iff_ne_none.mpr (hno d m a)
    apply h2
    refine ⟨?_, htot⟩
    have t1 := runD_txn (E := E) (u := u) htot before hf hfi rfl
    exact runD_txn (E := E) (u := u) htot after x2 x1 (x6 htot t1)

/-- **C92 (partial).** In any history of the cache (lookups, precalculation, changes of method and database,
serialization, other dipole files): once a dipole file has been loaded, and until another value is loaded for
the same two levels, with the method in force when it was loaded, the dipole element the library returns
between any two Zeeman states of the levels of a row (the last one for these levels in the file) is
e · (value of the row in µm) · (Wigner–Eckart factor of the two states); it throws only if some radial
integral cannot be computed (C24).  The database file may hold anything in its radial table.
Missing: rows that name the higher level first and have an odd j₁ − j₂ (see `C92_reversed_row_fails`), and
rows of forbidden transitions (see `C92_forbidden_row_fails`). -/
theorem C92_row_value_partial (E : CacheEnv) (u : ℝ) (db : Bool) (f : Rows) (hf : ∀ e ∈ f, AngRight e.1 e.2)
    (before after : List DOp) (ls : List DipLine) (sp : String) (s : ℤ) (hs : dipoleSpin sp = .ok s)
    (pre post : List DipRow) (r : DipRow) (hrow : dipRows ls = pre ++ r :: post)
    (hlast : ∀ r' ∈ post, ¬ r.SameLevels r') (hafter : ∀ o ∈ after, o.Spares sp r)
    (hdir : r.Upward ∨ (r.j1 - r.j2) % 4 = 0) :
    let w := runD E u before (MEC.fresh db) f
    let x := w.1.loadElectricDipoleDB E u w.2 ls sp
    let z := runD E u after x.2.1 x.2.2
    x.1 = .ok () → z.1.method = w.1.method → ∀ a b : QN, a.Physical → b.Physical → a.species = sp → b.species = sp →
      a.s = s → b.s = s → r.First a → r.Second b →
      ((COp.multipole a b 1 1).run E z.1 z.2).1 = .ok (E.C.e * (r.val * u) * angularSpec 1 a.j b.j a.m b.m) ∨
      (((COp.multipole a b 1 1).run E z.1 z.2).1 = .throw ∧ ∃ d m a, E.radial d m a = none) := by
  classical
  intro w x z hok hm a b ha hb hsa hsb hssa hssb h1 h2
  have h := row_value E u db f hf before after ls sp s hs pre post r hrow hlast hafter hok hm a b ha hb hsa hsb
    hssa hssb h1 h2
  have hone : (if r.Upward then (1 : ℝ) else sgn ((r.j1 - r.j2) / 2)) = 1 := by
    rcases hdir with h | h
    · rw [if_pos h]
    · rw [sgn_even (show (r.j1 - r.j2) / 2 % 2 = 0 by omega)]; simp
  rw [hone, one_mul] at h
  exact h

/-- **C92, loading succeeds** for every file whose lines are rows of allowed transitions (or are skipped), if
the radial integrals still waiting can be computed. -/
theorem C92_loads (E : CacheEnv) (u : ℝ) (db : Bool) (f : Rows) (hf : ∀ e ∈ f, AngRight e.1 e.2)
    (before : List DOp) (ls : List DipLine) (sp : String) (s : ℤ) (hs : dipoleSpin sp = .ok s)
    (htot : ∀ d m a, (E.radial d m a).isSome) (hl : ∀ l ∈ ls, (∃ r, l = .row r) ∨ l = .invalid)
    (hr : ∀ r ∈ dipRows ls, (r.j1 + s) % 2 = 0 ∧ (r.j2 + s) % 2 = 0 ∧ reducedDipole s r.l1 r.l2 r.j1 r.j2 ≠ 0) :
    let w := runD E u before (MEC.fresh db) f
    (w.1.loadElectricDipoleDB E u w.2 ls sp).1 = .ok () := by
  classical
  intro w
  have hfi : AInv (MEC.fresh db) := ⟨by simp [MEC.fresh], by simp [MEC.fresh]⟩
  obtain ⟨w1, w2, -⟩ := runD_inv (E := E) (u := u) before hf hfi
  refine ((loadDipoles_props (E := E) (u := u) w2 w1 ls sp).2.2.2.2.2.2 s hs htot
    (runD_txn (E := E) (u := u) htot before hf hfi rfl) hl).2 ?_
  intro r hr'
  obtain ⟨h1, h2, h3⟩ := hr r hr'
  rw [keyDiv_eq s _ _ r h1 h2]
  refine mul_ne_zero ?_ h3
  split_ifs
  · exact one_ne_zero
  · exact sgn_ne_zero _

/-- A row of the database file was there at the beginning or holds a value computed by the library. -/
def Computed (E : CacheEnv) (f0 : Rows) (k : CKey) (v : ℝ) : Prop := (k, v) ∈ f0 ∨ ∃ c : MEC, c.compute E k = some v

theorem dop_file {E : CacheEnv} {u : ℝ} {f0 f : Rows} (hf : ∀ e ∈ f, Computed E f0 e.1 e.2) {c : MEC}
    (h : RInv (fun _ _ => True) (Computed E f0) c) (o : DOp) :
    RInv (fun _ _ => True) (Computed E f0) (o.run E u c f).1 ∧ ∀ e ∈ (o.run E u c f).2, Computed E f0 e.1 e.2 := by
  have hP : ∀ (c : MEC) k v, c.compute E k = some v → Computed E f0 k v := fun c k v h => Or.inr ⟨c, h⟩
  cases o with
  | base o =>
    obtain ⟨a1, a2, -⟩ := run_gen (E := E) (fun _ _ _ => trivial) hP hf h o
    exact ⟨a1, a2⟩
  | loadDipoles ls sp =>
    show RInv _ _ (c.loadElectricDipoleDB E u f ls sp).2.1 ∧ ∀ e ∈ (c.loadElectricDipoleDB E u f ls sp).2.2, _
    unfold MEC.loadElectricDipoleDB
    cases hs : dipoleSpin sp with
    | throw => exact ⟨h, hf⟩
    | ub => exact ⟨h, hf⟩
    | ok s =>
      dsimp only
      obtain ⟨a1, a2, a3, -⟩ := read_props u sp s ls c
      rcases hx : c.readDipoles u sp s ls with ⟨o, c1⟩
      rw [hx] at a1 a2 a3
      dsimp only at a1 a2 a3
      have h1 : RInv (fun _ _ => True) (Computed E f0) c1 := ⟨fun _ _ => trivial, by rw [a2]; exact h.txn⟩
      cases o with
      | throw => exact ⟨h1, hf⟩
      | ub => exact ⟨h1, hf⟩
      | ok raw =>
        dsimp only
        obtain ⟨b1, -, b3, -⟩ := update_gen (E := E) (fun _ _ _ => trivial) hf h1 (hP _)
        rcases hu : c1.update E f with ⟨o2, c2, f2⟩
        rw [hu] at b1 b3
        dsimp only at b1 b3
        cases o2 with
        | ub => exact ⟨b1, b3⟩
        | throw => exact ⟨b1, b3⟩
        | ok b =>
          dsimp only
          refine ⟨⟨fun _ _ => trivial, ?_⟩, b3⟩
          have : ∀ (raw : List (RadKey × ℝ)) (c : MEC), (c.storeDipoles s raw).2.txn = c.txn := by
            intro raw
            induction raw with
            | nil => intro c; rfl
            | cons p raw ih =>
              intro c
              obtain ⟨k, v⟩ := p
              simp only [MEC.storeDipoles]
              split_ifs
              · rfl
              · rw [ih]; rfl
          rw [this]
          exact b1.txn

/-- **C92, the database.** In no history does a loaded dipole element get into the database file: every
radial row of the file was there at the beginning or is a radial integral the library computed. -/
theorem C92_database (E : CacheEnv) (u : ℝ) (db : Bool) (f : Rows) (os : List DOp) (k : RadKey) (v : ℝ)
    (h : (CKey.rad k, v) ∈ (runD E u os (MEC.fresh db) f).2) :
    (CKey.rad k, v) ∈ f ∨ ∃ d m, E.radial d m k.args = some v := by
  have key : ∀ (os : List DOp) (c : MEC) (g : Rows), RInv (fun _ _ => True) (Computed E f) c →
      (∀ e ∈ g, Computed E f e.1 e.2) → ∀ e ∈ (runD E u os c g).2, Computed E f e.1 e.2 := by
    intro os
    induction os with
    | nil => intro c g _ hg; exact hg
    | cons o os ih =>
      intro c g hc hg
      obtain ⟨a1, a2⟩ := dop_file (E := E) (u := u) hg hc o
      exact ih _ _ a1 a2
  rcases key os (MEC.fresh db) f ⟨fun _ _ => trivial, by simp [MEC.fresh]⟩ (fun e he => Or.inl he) _ h with h1 | ⟨c, h1⟩
  · exact Or.inl h1
  · exact Or.inr ⟨_, _, h1⟩

/-! ## Witnesses -/

theorem w6j_031120 : w6j 0 1 1 3 2 2 ^ 2 = 1 / 6 := by
  obtain ⟨f0, f1, f2, f3, f4, f5, f6, f7⟩ := fct_vals
  obtain ⟨g0, g1, g2, g3, g4, gn⟩ := ifct_vals
  rw [w6j_sq _ _ _ _ _ _ (by decide), sum6_eq]
  have : Finset.Icc (((0 : ℤ) + 1 + 1) / 2) ((0 + 1 + 3 + 2) / 2) = {1, 2, 3} := by decide
  rw [this]
  norm_num [delta2, f0, f1, f2, f3, f4, f5, f6, g0, g1, g2, sgn, gn]

theorem w3j_022 : w3j 0 2 2 0 0 0 ^ 2 = 1 / 3 := by
  obtain ⟨f0, f1, f2, f3, f4, f5, f6, f7⟩ := fct_vals
  obtain ⟨g0, g1, g2, g3, g4, gn⟩ := ifct_vals
  rw [w3j_sq _ _ _ _ _ _ (by decide), sum3_eq]
  norm_num [rad3, f0, f1, f2, f3, f4, g0, g1, g2, sgn]

theorem w3j_123 : w3j 1 2 3 (-1) (1 - 3) 3 ^ 2 = 1 / 4 := by
  obtain ⟨f0, f1, f2, f3, f4, f5, f6, f7⟩ := fct_vals
  obtain ⟨g0, g1, g2, g3, g4, gn⟩ := ifct_vals
  rw [w3j_sq _ _ _ _ _ _ (by decide), sum3_eq]
  norm_num [rad3, f0, f1, f2, f3, f4, g0, g1, g2, sgn]

/-- S1/2 – P3/2 is an allowed transition. -/
theorem reduced_SP : reducedDipole 1 0 1 1 3 ≠ 0 := by
  unfold reducedDipole commutesSSpec multipoleSpec
  have h6 : w6j (2 * 0) 1 1 3 (2 * 1) (2 * 1) ≠ 0 := by
    intro h; have := w6j_031120; norm_num at h; rw [h] at this; norm_num at this
  have h3 : w3j (2 * 0) (2 * 1) (2 * 1) 0 0 0 ≠ 0 := by
    intro h; have := w3j_022; norm_num at h; rw [h] at this; norm_num at this
  refine mul_ne_zero (mul_ne_zero (mul_ne_zero (sgn_ne_zero _) ?_) h6) (mul_ne_zero (mul_ne_zero (sgn_ne_zero _) ?_) h3)
  · exact (Real.sqrt_pos.mpr (by norm_num)).ne'
  · exact (Real.sqrt_pos.mpr (by norm_num)).ne'

/-- A row of testsuite/dipole.csv: rubidium 5S1/2 → 5P3/2, 5.956 a.u. -/
noncomputable def rowUp : DipRow := ⟨5, 0, 1, 5, 1, 3, 5.956⟩
/-- Another one: rubidium 6S1/2 → 5P3/2, 6.013 a.u., the higher level first. -/
noncomputable def rowDown : DipRow := ⟨6, 0, 1, 5, 1, 3, 6.013⟩
/-- Rubidium 5S1/2, m = 1/2. -/
def rbS (n : ℤ) : QN := ⟨"Rb", n, 0, 1, 1, 1⟩
/-- Rubidium 5P3/2, m = 3/2. -/
def rbP : QN := ⟨"Rb", 5, 1, 3, 3, 1⟩

theorem spin_Rb : dipoleSpin "Rb" = .ok 1 := by decide

/-- The hypotheses of C92 are met: a history with a lookup before, a file with a header line and both
rows, and later operations. -/
example : ∃ (before after : List DOp) (ls : List DipLine) (pre post : List DipRow),
    dipRows ls = pre ++ rowUp :: post ∧ (∀ r' ∈ post, ¬ rowUp.SameLevels r') ∧ (∀ o ∈ after, o.Spares "Rb" rowUp) ∧
    rowUp.Upward ∧
    (let w := runD demoEnv 1 before (MEC.fresh true) []
     let x := w.1.loadElectricDipoleDB demoEnv 1 w.2 ls "Rb"
     x.1 = .ok ()) ∧ (rbS 5).Physical ∧ rbP.Physical ∧ rowUp.First (rbS 5) ∧ rowUp.Second rbP ∧
    before ≠ [] ∧ after ≠ [] := by
  refine ⟨[.base (.multipole (rbS 5) rbP 1 1)], [.base .reload], [.invalid, .row rowUp, .row rowDown], [], [rowDown],
    rfl, ?_, ?_, ?_, ?_, ?_, ?_, ⟨rfl, rfl, rfl⟩, ⟨rfl, rfl, rfl⟩, by simp, by simp⟩
  · intro r' hr'
    simp only [List.mem_singleton] at hr'
    subst hr'
    simp [DipRow.SameLevels, rowUp, rowDown]
  · intro o ho
    simp only [List.mem_singleton] at ho
    subst ho; trivial
  · right; refine ⟨rfl, Or.inl ?_⟩; simp [rowUp]
  · refine C92_loads demoEnv 1 true [] (by simp) [.base (.multipole (rbS 5) rbP 1 1)] _ "Rb" 1 spin_Rb ?_ ?_ ?_
    · intro d m a; cases m <;> rfl
    · intro l hl
      simp only [List.mem_cons, List.not_mem_nil, or_false] at hl
      rcases hl with rfl | rfl | rfl
      · exact Or.inr rfl
      · exact Or.inl ⟨_, rfl⟩
      · exact Or.inl ⟨_, rfl⟩
    · intro r hr
      have : r = rowUp ∨ r = rowDown := by simpa [dipRows] using hr
      rcases this with rfl | rfl
      · exact ⟨by simp [rowUp], by simp [rowUp], reduced_SP⟩
      · exact ⟨by simp [rowDown], by simp [rowDown], reduced_SP⟩
  · unfold QN.Physical; decide
  · unfold QN.Physical; decide

/-- **C92 fails** for rows that name the higher level first: after loading the row 6S1/2 → 5P3/2 of
testsuite/dipole.csv into a new cache, the element ⟨6S1/2, 1/2| er |5P3/2, 3/2⟩ has the opposite sign: the
value is taken as that of 5P3/2 → 6S1/2, the order of the radial key, and the two differ by (−1)^{j₁−j₂}. -/
theorem C92_reversed_row_fails (db : Bool) :
    let x := (MEC.fresh db).loadElectricDipoleDB demoEnv 1 [] [.row rowDown] "Rb"
    x.1 = .ok () ∧
    ((COp.multipole (rbS 6) rbP 1 1).run demoEnv x.2.1 x.2.2).1 =
      .ok (-(demoEnv.C.e * (rowDown.val * 1) * angularSpec 1 1 3 1 3)) ∧
    ((COp.multipole (rbS 6) rbP 1 1).run demoEnv x.2.1 x.2.2).1 ≠
      .ok (demoEnv.C.e * (rowDown.val * 1) * angularSpec 1 1 3 1 3) := by
  classical
  have hok : ((MEC.fresh db).loadElectricDipoleDB demoEnv 1 [] [.row rowDown] "Rb").1 = .ok () := by
    refine C92_loads demoEnv 1 db [] (by simp) [] [.row rowDown] "Rb" 1 spin_Rb ?_ ?_ ?_
    · intro d m a; cases m <;> rfl
    · intro l hl
      simp only [List.mem_singleton] at hl
      exact Or.inl ⟨_, hl⟩
    · intro r hr
      have : r = rowDown := by simpa [dipRows] using hr
      subst this
      exact ⟨by simp [rowDown], by simp [rowDown], reduced_SP⟩
  have hmeth : ((MEC.fresh db).loadElectricDipoleDB demoEnv 1 [] [.row rowDown] "Rb").2.1.method
      = (MEC.fresh db).method :=
    (loadDipoles_props (E := demoEnv) (u := 1) (f := []) (by simp) (c := MEC.fresh db)
      ⟨by simp [MEC.fresh], by simp [MEC.fresh]⟩ [.row rowDown] "Rb").2.2.1
  have h := row_value demoEnv 1 db [] (by simp) [] [] [.row rowDown] "Rb" 1 spin_Rb [] [] rowDown rfl (by simp) (by simp)
    hok hmeth (rbS 6) rbP (by unfold QN.Physical; decide) (by unfold QN.Physical; decide) rfl rfl rfl rfl
    ⟨rfl, rfl, rfl⟩ ⟨rfl, rfl, rfl⟩
  have hsign : (if rowDown.Upward then (1 : ℝ) else sgn ((rowDown.j1 - rowDown.j2) / 2)) = -1 := by
    rw [if_neg (by simp [DipRow.Upward, rowDown])]
    exact sgn_odd (by simp [rowDown])
  rw [hsign] at h
  have hval : ((COp.multipole (rbS 6) rbP 1 1).run demoEnv
      ((MEC.fresh db).loadElectricDipoleDB demoEnv 1 [] [.row rowDown] "Rb").2.1
      ((MEC.fresh db).loadElectricDipoleDB demoEnv 1 [] [.row rowDown] "Rb").2.2).1 =
      .ok (-(demoEnv.C.e * (rowDown.val * 1) * angularSpec 1 1 3 1 3)) := by
    rcases h with h | ⟨-, d, m, a, h⟩
    · refine h.trans ?_
      simp only [Out.ok.injEq, rbS, rbP]; ring
    · cases m <;> cases h
  refine ⟨hok, hval, ?_⟩
  intro x
  rw [hval] at x
  simp only [Out.ok.injEq] at x
  have hne : angularSpec 1 1 3 1 3 ≠ 0 := by
    unfold angularSpec
    refine mul_ne_zero (sgn_ne_zero _) ?_
    intro h; have h2 := w3j_123
    rw [show (2 * 1 : ℤ) = 2 by norm_num] at h
    rw [h] at h2; norm_num at h2
  have : demoEnv.C.e * (rowDown.val * 1) * angularSpec 1 1 3 1 3 = 0 := by linarith
  have hc : demoEnv.C.e * (rowDown.val * 1) ≠ 0 := by
    simp only [demoEnv, rowDown]; norm_num
  exact (mul_ne_zero hc hne) this

/-- **C92 fails** for a row of a forbidden transition (S1/2 → S1/2): the value is divided by zero, and an
infinity or NaN is stored, silently (in the model: `ub`). -/
theorem C92_forbidden_row_fails (db : Bool) (v : ℝ) :
    ((MEC.fresh db).loadElectricDipoleDB demoEnv 1 [] [.row ⟨5, 0, 1, 6, 0, 1, v⟩] "Rb").1 = .ub := by
  classical
  have h := (loadDipoles_props (E := demoEnv) (u := 1) (f := []) (by simp) (c := MEC.fresh db)
      ⟨by simp [MEC.fresh], by simp [MEC.fresh]⟩ [.row ⟨5, 0, 1, 6, 0, 1, v⟩] "Rb")
  have hz : keyDiv 1 ((⟨5, 0, 1, 6, 0, 1, v⟩ : DipRow).key (MEC.fresh db).method "Rb") = 0 := by
    rw [keyDiv_eq 1 _ _ _ (by simp) (by simp)]
    have : reducedDipole 1 0 0 1 1 = 0 := by
      unfold reducedDipole multipoleSpec
      rw [w3j_zero_of_odd _ _ _ (by norm_num)]; simp
    dsimp only
    rw [this, mul_zero]
  cases hx : ((MEC.fresh db).loadElectricDipoleDB demoEnv 1 [] [.row ⟨5, 0, 1, 6, 0, 1, v⟩] "Rb").1 with
  | ub => rfl
  | ok y =>
    exact absurd hz (h.2.2.2.2.1 1 hx spin_Rb [] _ [] rfl (by simp)).1
  | throw =>
    exact absurd hx (h.2.2.2.2.2.2 1 spin_Rb (by intro d m a; cases m <;> rfl) rfl
      (by intro l hl; simp only [List.mem_singleton] at hl; exact Or.inl ⟨_, hl⟩)).1

end PI
