import Verif.Legacy.ElemModel
import Verif.Field.Props
import Mathlib.NumberTheory.Real.Irrational

/-!
# Legacy matrix elements: proofs (C84, C85)
-/

namespace PI

/-! ## precalculate -/

theorem foldl_addMissing (ks : List OldKey) : ∀ (c : Cells) (t : List OldKey) (k : OldKey),
    ((ks.foldl addMissing (c, t)).1 k = if (c k).isSome then c k else if k ∈ ks then some none else none) ∧
    (k ∈ (ks.foldl addMissing (c, t)).2 ↔ k ∈ t ∨ (c k = none ∧ k ∈ ks)) := by
  induction ks with
  | nil =>
    intro c t k
    cases h : c k <;> simp [h]
  | cons x ks ih =>
    intro c t k
    rw [List.foldl_cons]
    by_cases hx : (c x).isSome = true
    · rw [show addMissing (c, t) x = (c, t) from if_pos hx]
      obtain ⟨i1, i2⟩ := ih c t k
      rw [i1, i2]
      by_cases hk : k = x
      · subst hk
        rw [if_pos hx, if_pos hx]
        refine ⟨rfl, ?_⟩
        have : c k ≠ none := by intro h; rw [h] at hx; simp at hx
        simp [this]
      · simp [hk]
    · rw [show addMissing (c, t) x = (Function.update c x (some none), t ++ [x]) from if_neg hx]
      have hn : c x = none := by simpa using hx
      obtain ⟨i1, i2⟩ := ih (Function.update c x (some none)) (t ++ [x]) k
      rw [i1, i2]
      by_cases hk : k = x
      · subst hk
        simp [hn]
      · simp [hk]

/-- The keys a call asks for. -/
def Pre.allKeys (p : Pre) (basis : List Old1) : List OldKey := basis.flatMap fun col => basis.flatMap fun row => p.keys row col

theorem Pre.mem_allKeys (p : Pre) (basis : List Old1) (k : OldKey) :
    k ∈ p.allKeys basis ↔ ∃ row ∈ basis, ∃ col ∈ basis, k ∈ p.keys row col := by
  unfold Pre.allKeys
  simp only [List.mem_flatMap]
  constructor
  · rintro ⟨c, hc, r, hr, h⟩; exact ⟨r, hr, c, hc, h⟩
  · rintro ⟨r, hr, c, hc, h⟩; exact ⟨c, hc, r, hr, h⟩

/-- What a call does when no entry waits, every formula has a value and nobody else writes. -/
theorem precalculate_spec (U : Units) (I : OldKey → ℝ) (db : OldDb) (c : Cells) (basis : List Old1) (p : Pre) (hc : ∀ k, c k ≠ some none) :
    ∃ (val : OldKey → ℝ) (s : Cells × OldDb), (∀ k, oldValue U (some I) k = .ok (val k)) ∧
      precalculate U (some I) db db c basis p = .ok s ∧
      (∀ k, s.1 k = if (c k).isSome then c k else if k ∈ p.allKeys basis then some (some ((db k).getD (val k))) else none) ∧
      (∀ k, s.2 k = if c k = none ∧ k ∈ p.allKeys basis ∧ db k = none then some (printR (val k)) else db k) := by
  have hv : ∀ k, ∃ v, oldValue U (some I) k = .ok v := by
    intro k
    cases k <;> simp [oldValue, oldRadial]
  choose val hval using hv
  refine ⟨val, ?_⟩
  set c1 := (p.allKeys basis).foldl addMissing (c, []) with hc1
  set c2 : Cells := fun k => if k ∈ c1.2 then (match db k with | some v => some (some v) | none => c1.1 k) else c1.1 k with hc2
  have f1 := fun k => (foldl_addMissing (p.allKeys basis) c [] k).1
  have f2 := fun k => (foldl_addMissing (p.allKeys basis) c [] k).2
  have h2 : ∀ k, c2 k = if (c k).isSome then c k else if k ∈ p.allKeys basis then (match db k with | some v => some (some v) | none => some none) else none := by
    intro k
    have g1 : c1.1 k = _ := f1 k
    have g2 : k ∈ c1.2 ↔ _ := f2 k
    simp only [hc2]
    cases hk : c k with
    | some x =>
      rw [if_neg (by rw [g2]; simp [hk]), g1]
      simp [hk]
    | none =>
      by_cases hm : k ∈ p.allKeys basis
      · rw [if_pos (by rw [g2]; exact Or.inr ⟨hk, hm⟩), g1]
        simp [hk, hm]
      · rw [if_neg (by rw [g2]; simp [hm]), g1]
        simp [hk, hm]
  have hp : ∀ k, c2 k = some none ↔ c k = none ∧ k ∈ p.allKeys basis ∧ db k = none := by
    intro k
    rw [h2]
    cases hk : c k with
    | some x =>
      have := hc k; rw [hk] at this
      simp
      intro h; exact this (by rw [h])
    | none =>
      by_cases hm : k ∈ p.allKeys basis
      · cases hd : db k <;> simp [hm]
      · simp [hm]
  refine ⟨(fun k => if c2 k = some none then (match oldValue U (some I) k with | .ok v => some (some v) | _ => none) else c2 k,
      fun k => if c2 k = some none then (match oldValue U (some I) k with | .ok v => some (printR v) | _ => none) else db k), hval, ?_, ?_, ?_⟩
  · unfold precalculate
    dsimp only
    refine Eq.trans (if_neg ?_) ?_
    · rintro ⟨k, hk, h⟩
      have hk' := (hp k).mp hk
      rcases h with h | h
      · rw [hval] at h; cases h
      · rw [hk'.2.2] at h; simp at h
    · congr 1
  · intro k
    dsimp only
    by_cases h : c2 k = some none
    · have hk := (hp k).mp h
      rw [if_pos h, hval, hk.1, if_neg (by simp), if_pos hk.2.1, hk.2.2]; rfl
    · rw [if_neg h, h2]
      cases hk : c k with
      | some x => simp
      | none =>
        by_cases hm : k ∈ p.allKeys basis
        · cases hd : db k with
          | some v => simp [hm]
          | none => exact absurd ((hp k).mpr ⟨hk, hm, hd⟩) h
        · simp [hm]
  · intro k
    dsimp only
    by_cases h : c2 k = some none
    · rw [if_pos h, if_pos ((hp k).mp h), hval]
    · rw [if_neg h, if_neg (fun h' => h ((hp k).mpr h'))]

/-- The formula values. -/
noncomputable def oldVal (U : Units) (I : OldKey → ℝ) (k : OldKey) : ℝ := match oldValue U (some I) k with | .ok v => v | _ => 0

theorem oldVal_ok (U : Units) (I : OldKey → ℝ) (k : OldKey) : oldValue U (some I) k = .ok (oldVal U I k) := by
  unfold oldVal
  cases k <;> simp [oldValue, oldRadial]

/-- What holds of map and database of an object between calls; `R` says which numbers are acceptable for a key. -/
structure OldInv (R : OldKey → ℝ → Prop) (s : Cells × OldDb) : Prop where
  done : ∀ k, s.1 k ≠ some none
  cell : ∀ k v, s.1 k = some (some v) → R k v
  row : ∀ k v, s.1 k = none → s.2 k = some v → R k v

theorem precalcAll_spec (U : Units) (I : OldKey → ℝ) (R : OldKey → ℝ → Prop) (hR : ∀ k, R k (oldVal U I k)) (basis : List Old1) (ps : List Pre) :
    ∀ s : Cells × OldDb, OldInv R s → ∃ s', precalcAll U (some I) basis ps s = .ok s' ∧ OldInv R s' ∧
      (∀ k, (s.1 k).isSome → s'.1 k = s.1 k) ∧ (∀ p ∈ ps, ∀ k ∈ p.allKeys basis, (s'.1 k).isSome) ∧
      (∀ k v, s'.2 k = some v → s.2 k = some v ∨ v = printR (oldVal U I k)) ∧ (∀ k v, s.2 k = some v → s'.2 k = some v) := by
  induction ps with
  | nil => intro s hs; exact ⟨s, rfl, hs, fun _ _ => rfl, by simp, fun k v h => Or.inl h, fun k v h => h⟩
  | cons p ps ih =>
    intro s hs
    obtain ⟨val, s1, e1, e2, e3, e4⟩ := precalculate_spec U I s.2 s.1 basis p hs.done
    have ev : ∀ k, val k = oldVal U I k := by
      intro k
      have := (e1 k).symm.trans (oldVal_ok U I k)
      injection this
    have i1 : OldInv R s1 := by
      constructor
      · intro k
        rw [e3]
        by_cases h : (s.1 k).isSome = true
        · rw [if_pos h]; exact hs.done k
        · rw [if_neg h]; split_ifs <;> simp
      · intro k v hv
        rw [e3] at hv
        by_cases h : (s.1 k).isSome = true
        · rw [if_pos h] at hv; exact hs.cell k v hv
        · rw [if_neg h] at hv
          have hn : s.1 k = none := by simpa using h
          by_cases hm : k ∈ p.allKeys basis
          · rw [if_pos hm] at hv
            cases hd : s.2 k with
            | none => rw [hd] at hv; simp at hv; rw [← hv, ev]; exact hR k
            | some w => rw [hd] at hv; simp at hv; rw [← hv]; exact hs.row k w hn hd
          · rw [if_neg hm] at hv; cases hv
      · intro k v hn hv
        rw [e3] at hn
        by_cases h : (s.1 k).isSome = true
        · rw [if_pos h] at hn; rw [hn] at h; simp at h
        · rw [if_neg h] at hn
          have hn' : s.1 k = none := by simpa using h
          by_cases hm : k ∈ p.allKeys basis
          · rw [if_pos hm] at hn; cases hn
          · rw [e4, if_neg (by simp [hm])] at hv
            exact hs.row k v hn' hv
    obtain ⟨s', r1, r2, r3, r4, r5, r6⟩ := ih s1 i1
    refine ⟨s', ?_, r2, ?_, ?_, ?_, ?_⟩
    · show (precalculate U (some I) s.2 s.2 s.1 basis p >>= fun s' => precalcAll U (some I) basis ps s') = _
      rw [e2]; exact r1
    · intro k hk
      have : s1.1 k = s.1 k := by rw [e3, if_pos hk]
      rw [r3 k (by rw [this]; exact hk), this]
    · intro p' hp' k hk
      rcases List.mem_cons.mp hp' with rfl | hp'
      · have : (s1.1 k).isSome = true := by
          rw [e3]
          by_cases h : (s.1 k).isSome = true
          · rw [if_pos h]; exact h
          · rw [if_neg h, if_pos hk]; rfl
        rw [r3 k this]; exact this
      · exact r4 p' hp' k hk
    · intro k v hv
      rcases r5 k v hv with h | h
      · rw [e4] at h
        by_cases hc : s.1 k = none ∧ k ∈ p.allKeys basis ∧ s.2 k = none
        · rw [if_pos hc] at h; right; rw [← ev]; simpa using h.symm
        · rw [if_neg hc] at h; exact Or.inl h
      · exact Or.inr h
    · intro k v hv
      apply r6
      rw [e4, if_neg (by simp [hv])]; exact hv

/-! ## Specification -/

/-- The same state in the new library (species sp, spin 1/2). -/
def Old1.qn (sp : String) (a : Old1) : QN := ⟨sp, a.n, a.l, a.j, a.m, 1⟩

/-- The constants of the new library. -/
noncomputable def Units.consts (U : Units) : FieldConsts := ⟨⟨U.e, U.bohr, U.gL, U.gS⟩, U.mass, U.ke⟩

/-- The radial elements of the new library for integrals J (MatrixElementCache.cpp:532-541). -/
noncomputable def Units.radial (U : Units) (J : RadKey → ℝ) (k : RadKey) : ℝ := U.um ^ k.kappa * J k

/-- The same integrals as the legacy program sees them. -/
def oldIntegral (me : Method) (sp : String) (J : RadKey → ℝ) : OldKey → ℝ
  | .rad k n l j => J ⟨me, sp, k, n, l, j⟩
  | _ => 0

theorem Old1.qn_physical (sp : String) (a : Old1) (ha : OldValid a) : (a.qn sp).Physical := by
  obtain ⟨h1, h2, h3, h4, h5⟩ := ha
  unfold QN.Physical Old1.qn
  dsimp only
  have habs : |2 * a.l - 1| ≤ a.j := by
    rcases h3 with h | h
    · rw [h, abs_le]; constructor <;> omega
    · rw [h]
  refine ⟨h1, by norm_num, habs, ?_, ?_, h4, ?_⟩
  · rcases h3 with h | h
    · omega
    · rw [h, abs_le]; constructor <;> omega
  · rcases h3 with h | h
    · omega
    · rcases abs_choice (2 * a.l - 1) with h' | h' <;> omega
  · rcases h3 with h | h
    · omega
    · rcases abs_choice (2 * a.l - 1) with h' | h' <;> omega

theorem oldSel_eq (sp : String) (a b : Old1) (k q : ℤ) :
    oldSelMultipole a b k = selMultipole (a.qn sp) (b.qn sp) k ∧ oldSelMultipoleQ a b k q = selMultipoleQ (a.qn sp) (b.qn sp) k q ∧
    oldSelMomentum a b = selMomentum (a.qn sp) (b.qn sp) ∧ oldSelMomentumQ a b q = selMomentumQ (a.qn sp) (b.qn sp) q := ⟨rfl, rfl, rfl, rfl⟩

section
variable (U : Units) (J : RadKey → ℝ) (me : Method) (sp : String)

theorem val_rad (k : ℤ) (a b : Old1) : oldVal U (oldIntegral me sp J) (.radOf k a b)
    = (if k = 0 then 1 else U.GHz / U.Vcm * U.um ^ (k - 1)) * J (RadKey.make me sp k a.n b.n a.l b.l a.j b.j) := by
  unfold OldKey.radOf RadKey.make
  by_cases h : a.n < b.n ∨ (a.n = b.n ∧ (a.l < b.l ∨ (a.l = b.l ∧ (a.j < b.j ∨ a.j = b.j))))
  · have h' : a.n < b.n ∨ (a.n = b.n ∧ (a.l < b.l ∨ (a.l = b.l ∧ a.j ≤ b.j))) := by omega
    rw [if_pos h, if_pos h']; rfl
  · have h' : ¬ (a.n < b.n ∨ (a.n = b.n ∧ (a.l < b.l ∨ (a.l = b.l ∧ a.j ≤ b.j)))) := by omega
    rw [if_neg h, if_neg h']; rfl

theorem val_ang (k : ℤ) (a b : Old1) : oldVal U (oldIntegral me sp J) (.angOf k a b) = angularSpec k a.j b.j a.m b.m := rfl

theorem val_comS (k : ℤ) (a b : Old1) (ha : OldValid a) (hb : OldValid b) :
    oldVal U (oldIntegral me sp J) (.comSOf k a b) = commutesSSpec 1 k a.l b.l a.j b.j := by
  have pa := Old1.qn_physical sp a ha
  have pb := Old1.qn_physical sp b hb
  unfold QN.Physical Old1.qn at pa pb
  dsimp only at pa pb
  have := valueS_eq 1 k a.l b.l a.j b.j (by omega) (by omega)
  rw [← this]
  unfold ComKey.valueS OldKey.comSOf oldVal oldValue
  dsimp only
  by_cases h : 2 * a.l ≥ |a.j - 1| ∧ 2 * a.l ≤ a.j + 1 ∧ a.l ≥ |b.l - k| ∧ a.l ≤ b.l + k ∧
        b.j ≥ |a.j - 2 * k| ∧ b.j ≤ a.j + 2 * k ∧ b.j ≥ |2 * b.l - 1| ∧ b.j ≤ 2 * b.l + 1
  · rw [if_pos h, if_pos h, tdiv_even (by omega)]
  · rw [if_neg h, if_neg h]

theorem val_comL (k : ℤ) (a b : Old1) (hl : a.l = b.l) :
    oldVal U (oldIntegral me sp J) (.comLOf k a b) = commutesLSpec 1 k a.l b.l a.j b.j := by
  unfold commutesLSpec
  rw [if_pos hl]; rfl

theorem val_mul (k : ℤ) (a b : Old1) : oldVal U (oldIntegral me sp J) (.mulOf k a b) = multipoleSpec k a.l b.l := rfl

/-- Entries that are missing or exact. -/
def CellsExact (c : Cells) : Prop := ∀ k, c k = none ∨ c k = some (some (oldVal U (oldIntegral me sp J) k))

theorem get_exact {c : Cells} (hc : CellsExact U J me sp c) (k : OldKey) :
    (c k).isSome ∧ c.get k = oldVal U (oldIntegral me sp J) k ∨ c.get k = 0 := by
  rcases hc k with h | h
  · right; simp [Cells.get, h]
  · left; simp [Cells.get, h]

theorem get_some {c : Cells} (hc : CellsExact U J me sp c) (k : OldKey) (h : (c k).isSome = true) :
    c.get k = oldVal U (oldIntegral me sp J) k := by
  rcases hc k with h' | h'
  · rw [h'] at h; simp at h
  · simp [Cells.get, h']

theorem conv_eq (hU : U.um ≠ 0) (k : ℤ) (hk : k ≠ 0) : U.GHz / U.Vcm * U.um ^ (k - 1) = U.e * U.um ^ k := by
  unfold Units.e
  rw [zpow_sub_one₀ hU]
  field_simp

end

/-- The call covers the pair (row, col) for component q = m_row − m_col. -/
def Pre.covers (p : Pre) (row col : Old1) : Prop := ∀ q ∈ p.q, row.m - col.m = 2 * q

theorem Pre.keys_el (p : Pre) (row col : Old1) (hc : p.covers row col) (he : p.el = true) (hs : oldSelMultipole row col p.kappa = true) :
    OldKey.radOf p.kr row col ∈ p.keys row col ∧ OldKey.angOf p.kappa row col ∈ p.keys row col ∧ OldKey.comSOf p.kappa row col ∈ p.keys row col ∧
    OldKey.mulOf p.kappa row col ∈ p.keys row col := by
  have h1 : ¬ (p.q.any fun q => decide (row.m - col.m ≠ 2 * q)) = true := by
    rw [Option.any_eq_true]
    rintro ⟨q, hq, h⟩
    exact (of_decide_eq_true h) (hc q hq)
  unfold Pre.keys
  rw [if_neg h1, if_pos (by simp [he, hs])]
  simp [he]

theorem Pre.keys_mag (p : Pre) (row col : Old1) (hc : p.covers row col) (he : p.mag = true) (hs : oldSelMomentum row col = true) :
    OldKey.radOf p.kr row col ∈ p.keys row col ∧ OldKey.angOf p.kappa row col ∈ p.keys row col ∧ OldKey.comSOf p.kappa row col ∈ p.keys row col ∧
    OldKey.comLOf p.kappa row col ∈ p.keys row col := by
  have h1 : ¬ (p.q.any fun q => decide (row.m - col.m ≠ 2 * q)) = true := by
    rw [Option.any_eq_true]
    rintro ⟨q, hq, h⟩
    exact (of_decide_eq_true h) (hc q hq)
  unfold Pre.keys
  rw [if_neg h1, if_pos (by simp [he, hs])]
  simp [he]

/-- The rows of the database are exact. -/
def DbExact (U : Units) (I : OldKey → ℝ) (db : OldDb) : Prop := ∀ k v, db k = some v → v = oldVal U I k

section
variable (U : Units) (J : RadKey → ℝ) (me : Method) (sp : String)

theorem exact_cells (basis : List Old1) (ps : List Pre) (db : OldDb) (hdb : DbExact U (oldIntegral me sp J) db) :
    ∃ s, precalcAll U (some (oldIntegral me sp J)) basis ps (fun _ => none, db) = .ok s ∧ CellsExact U J me sp s.1 ∧
      ∀ p ∈ ps, ∀ row ∈ basis, ∀ col ∈ basis, ∀ k ∈ p.keys row col, (s.1 k).isSome := by
  obtain ⟨s, h1, h2, -, h4, -, -⟩ := precalcAll_spec U (oldIntegral me sp J) (fun k v => v = oldVal U (oldIntegral me sp J) k) (fun _ => rfl) basis ps
    (fun _ => none, db) ⟨by simp, by simp, fun k v _ h => hdb k v h⟩
  refine ⟨s, h1, ?_, ?_⟩
  · intro k
    cases hk : s.1 k with
    | none => left; rfl
    | some x =>
      cases x with
      | none => exact absurd hk (h2.done k)
      | some v => right; rw [h2.cell k v hk]
  · intro p hp row hr col hc k hk
    exact h4 p hp k ((p.mem_allKeys basis k).mpr ⟨row, hr, col, hc, hk⟩)

theorem multipoleAngular_eq (a b : Old1) (k q : ℤ) (hq : a.m - b.m = 2 * q) :
    multipoleAngular (a.qn sp) (b.qn sp) k q = angularSpec k a.j b.j a.m b.m * commutesSSpec 1 k a.l b.l a.j b.j * multipoleSpec k a.l b.l := by
  unfold multipoleAngular angularSpec Old1.qn
  rw [hq]

/-- The product of the cached angular factors is the formula, present or not, as long as they are present when the selection rule holds. -/
theorem old_el_product {c : Cells} (hc : CellsExact U J me sp c) (a b : Old1) (ha : OldValid a) (hb : OldValid b) (kr k : ℤ) (hk : 0 ≤ k)
    (hpres : oldSelMultipole a b k = true → (c (.radOf kr a b)).isSome ∧ (c (.angOf k a b)).isSome ∧ (c (.comSOf k a b)).isSome ∧ (c (.mulOf k a b)).isSome)
    (q : ℤ) (hq : a.m - b.m = 2 * q) :
    c.get (.radOf kr a b) * c.get (.angOf k a b) * c.get (.comSOf k a b) * c.get (.mulOf k a b) =
      (if kr = 0 then 1 else U.GHz / U.Vcm * U.um ^ (kr - 1)) * J (RadKey.make me sp kr a.n b.n a.l b.l a.j b.j) *
        (angularSpec k a.j b.j a.m b.m * commutesSSpec 1 k a.l b.l a.j b.j * multipoleSpec k a.l b.l) := by
  by_cases hs : oldSelMultipole a b k = true
  · obtain ⟨h1, h2, h3, h4⟩ := hpres hs
    rw [get_some U J me sp hc _ h1, get_some U J me sp hc _ h2, get_some U J me sp hc _ h3, get_some U J me sp hc _ h4,
      val_rad, val_ang, val_comS U J me sp k a b ha hb, val_mul]
    ring
  · have hz := (C20_selection_rules_sound (a.qn sp) (b.qn sp) k q hk).2.1 (by
      have := (oldSel_eq sp a b k q).1; rw [← this]; simpa using hs)
    rw [multipoleAngular_eq sp a b k q hq] at hz
    rw [hz, mul_zero]
    rcases get_exact U J me sp hc (.angOf k a b) with ⟨-, h2⟩ | h2
    · rcases get_exact U J me sp hc (.comSOf k a b) with ⟨-, h3⟩ | h3
      · rcases get_exact U J me sp hc (.mulOf k a b) with ⟨-, h4⟩ | h4
        · rw [h2, h3, h4, val_ang, val_comS U J me sp k a b ha hb, val_mul, mul_assoc, mul_assoc, ← mul_assoc (angularSpec _ _ _ _ _), hz, mul_zero]
        · rw [h4, mul_zero]
      · rw [h3]; ring
    · rw [h2]; ring

theorem half_sqrt : Real.sqrt (0.5 * (0.5 + 1) * (2 * 0.5 + 1)) = Real.sqrt (((1 : ℤ) : ℝ) / 2 * (((1 : ℤ) : ℝ) / 2 + 1) * (((1 : ℤ) : ℝ) + 1)) := by
  congr 1; norm_num

/-- **C84.** For all bases, all sequences of precalculations of one object and all databases with exact rows: no call throws, and afterwards every
element between states of the basis for which a fitting call was made — selection rules fulfilled or not — equals the element of the new library for the same
integrals and constants: the electric multipole elements of order k, minus the magnetic dipole elements, and the diamagnetic elements including
their prefactor 1/(8 m). -/
theorem C84_elements (hU : U.um ≠ 0 ∧ U.Vcm ≠ 0 ∧ U.GHz ≠ 0 ∧ U.G ≠ 0) (basis : List Old1) (hb : ∀ x ∈ basis, OldValid x) (ps : List Pre) (db : OldDb)
    (hdb : DbExact U (oldIntegral me sp J) db) :
    ∃ s, precalcAll U (some (oldIntegral me sp J)) basis ps (fun _ => none, db) = .ok s ∧ ∀ row ∈ basis, ∀ col ∈ basis, ∀ p ∈ ps, p.covers row col →
      (p.el = true → 1 ≤ p.kappa → p.kr = p.kappa →
        electricMultipole U.consts.elem (U.radial J) me (row.qn sp) (col.qn sp) p.kappa p.kappa = .ok (oldMultipole s.1 row col p.kappa)) ∧
      (p.mag = true → p.kappa = 1 → p.kr = 0 → row.l = col.l →
        magneticDipole U.consts.elem (U.radial J) me (row.qn sp) (col.qn sp) = .ok (-oldMagnetic U s.1 row col)) ∧
      (p.el = true → 0 ≤ p.kappa → p.kr = 2 → valD U.consts (U.radial J) me p.kappa (row.qn sp) (col.qn sp) = oldDiamagnetism U s.1 row col p.kappa) := by
  obtain ⟨s, h1, h2, h3⟩ := exact_cells U J me sp basis ps db hdb
  refine ⟨s, h1, ?_⟩
  intro row hr col hc p hp hcov
  have vr := hb row hr
  have vc := hb col hc
  have pr := Old1.qn_physical sp row vr
  have pc := Old1.qn_physical sp col vc
  have hqx : row.m - col.m = 2 * ((row.m - col.m) / 2) := by
    have := vr.mpar; have := vc.mpar; omega
  have hpres : p.el = true → oldSelMultipole row col p.kappa = true → (s.1 (.radOf p.kr row col)).isSome ∧ (s.1 (.angOf p.kappa row col)).isSome ∧
      (s.1 (.comSOf p.kappa row col)).isSome ∧ (s.1 (.mulOf p.kappa row col)).isSome := by
    intro he hs
    obtain ⟨k1, k2, k3, k4⟩ := p.keys_el row col hcov he hs
    exact ⟨h3 p hp row hr col hc _ k1, h3 p hp row hr col hc _ k2, h3 p hp row hr col hc _ k3, h3 p hp row hr col hc _ k4⟩
  have hel : p.el = true → 0 ≤ p.kappa → _ := fun he hk =>
    old_el_product U J me sp h2 row col vr vc p.kr p.kappa hk (hpres he) _ hqx
  refine ⟨?_, ?_, ?_⟩
  · intro he hk hkr
    have e := hel he (by omega)
    rw [electricMultipole_eq _ _ _ _ _ _ _ pr pc rfl rfl]
    unfold oldMultipole
    rw [hkr, if_neg (by omega), conv_eq U hU.1 _ (by omega)] at e
    rw [e]
    congr 1
    have : (RadKey.make me sp p.kappa row.n col.n row.l col.l row.j col.j).kappa = p.kappa := by unfold RadKey.make; split_ifs <;> rfl
    show U.e * (U.um ^ (RadKey.make me sp p.kappa row.n col.n row.l col.l row.j col.j).kappa * _) * _ = _
    rw [this]
    simp only [Old1.qn]
    ring
  · intro hm hk hkr hl
    have hz : (RadKey.make me sp 0 row.n col.n row.l col.l row.j col.j).kappa = 0 := by unfold RadKey.make; split_ifs <;> rfl
    rw [magneticDipole_eq _ _ _ _ _ pr pc rfl rfl hl]
    congr 1
    have hrad : U.radial J (RadKey.make me sp 0 row.n col.n row.l col.l row.j col.j) = J (RadKey.make me sp 0 row.n col.n row.l col.l row.j col.j) := by
      unfold Units.radial; rw [hz, zpow_zero, one_mul]
    show -U.bohr * U.radial J (RadKey.make me sp 0 row.n col.n row.l col.l row.j col.j) *
      (U.gL * (angularSpec 1 row.j col.j row.m col.m * commutesSSpec 1 1 row.l col.l row.j col.j) * Real.sqrt (row.l * (row.l + 1) * (2 * row.l + 1)) +
       U.gS * (angularSpec 1 row.j col.j row.m col.m * commutesLSpec 1 1 row.l col.l row.j col.j) *
        Real.sqrt (((1 : ℤ) : ℝ) / 2 * (((1 : ℤ) : ℝ) / 2 + 1) * (((1 : ℤ) : ℝ) + 1))) = _
    rw [hrad, ← half_sqrt]
    unfold oldMagnetic Units.bohr
    by_cases hs : oldSelMomentum row col = true
    · obtain ⟨k1, k2, k3, k4⟩ := p.keys_mag row col hcov hm hs
      rw [hk] at k2 k3 k4; rw [hkr] at k1
      rw [get_some U J me sp h2 _ (h3 p hp row hr col hc _ k1), get_some U J me sp h2 _ (h3 p hp row hr col hc _ k2),
        get_some U J me sp h2 _ (h3 p hp row hr col hc _ k3), get_some U J me sp h2 _ (h3 p hp row hr col hc _ k4),
        val_rad, val_ang, val_comS U J me sp 1 row col vr vc, val_comL U J me sp 1 row col hl, if_pos rfl]
      ring
    · have hzz := (C20_selection_rules_sound (row.qn sp) (col.qn sp) 1 ((row.m - col.m) / 2) (by norm_num)).2.2.2 (by
        have := (oldSel_eq sp row col 1 0).2.2.1; rw [← this]; simpa using hs)
      have z1 : angularSpec 1 row.j col.j row.m col.m * commutesSSpec 1 1 row.l col.l row.j col.j = 0 := by
        have := hzz.1
        unfold momentumAngularL at this
        rw [if_pos (show (row.qn sp).l = (col.qn sp).l from hl)] at this
        unfold angularSpec; rw [hqx]; exact this
      have z2 : angularSpec 1 row.j col.j row.m col.m * commutesLSpec 1 1 row.l col.l row.j col.j = 0 := by
        have := hzz.2
        unfold momentumAngularS at this
        unfold angularSpec; rw [hqx]; exact this
      rw [z1, z2]
      have g1 : s.1.get (.angOf 1 row col) * s.1.get (.comSOf 1 row col) = 0 := by
        rcases get_exact U J me sp h2 (.angOf 1 row col) with ⟨-, h⟩ | h
        · rcases get_exact U J me sp h2 (.comSOf 1 row col) with ⟨-, h'⟩ | h'
          · rw [h, h', val_ang, val_comS U J me sp 1 row col vr vc, z1]
          · rw [h', mul_zero]
        · rw [h, zero_mul]
      have g2 : s.1.get (.angOf 1 row col) * s.1.get (.comLOf 1 row col) = 0 := by
        rcases get_exact U J me sp h2 (.angOf 1 row col) with ⟨-, h⟩ | h
        · rcases get_exact U J me sp h2 (.comLOf 1 row col) with ⟨-, h'⟩ | h'
          · rw [h, h', val_ang, val_comL U J me sp 1 row col hl, z2]
          · rw [h', mul_zero]
        · rw [h, zero_mul]
      have : ∀ A R S1 S2 : ℝ, A * R * s.1.get (.angOf 1 row col) * (U.gL * s.1.get (.comSOf 1 row col) * S1 + U.gS * s.1.get (.comLOf 1 row col) * S2)
          = A * R * (U.gL * (s.1.get (.angOf 1 row col) * s.1.get (.comSOf 1 row col)) * S1 + U.gS * (s.1.get (.angOf 1 row col) * s.1.get (.comLOf 1 row col)) * S2) := by
        intros; ring
      rw [this, g1, g2]
      ring
  · intro he hk hkr
    have e := hel he hk
    unfold valD
    rw [electricMultipole_eq _ _ _ _ _ _ _ pr pc rfl rfl]
    unfold oldDiamagnetism outVal
    rw [hkr, if_neg (by norm_num), conv_eq U hU.1 _ (by norm_num)] at e
    have : (RadKey.make me sp 2 row.n col.n row.l col.l row.j col.j).kappa = 2 := by unfold RadKey.make; split_ifs <;> rfl
    show 1 / (8 * U.mass) * (2 / 3 * U.e * (U.e * (U.um ^ (RadKey.make me sp 2 row.n col.n row.l col.l row.j col.j).kappa * _) * _)) = _
    rw [this]
    have a1 : ∀ x y z w : ℝ, U.e * U.invMass * 1 / 12 * x * y * z * w = U.e * U.invMass * 1 / 12 * (x * y * z * w) := by intros; ring
    rw [a1, e]
    have hm : U.invMass = 1 / U.mass := by
      unfold Units.invMass Units.mass
      have := hU.2.1; have := hU.2.2.1; have := hU.2.2.2
      field_simp
    rw [hm]
    simp only [Old1.qn]
    have hmass : U.mass ≠ 0 := by
      unfold Units.mass
      have := hU.2.1; have := hU.2.2.1; have := hU.2.2.2
      positivity
    field_simp
    ring

end

/-- C84 applies to a basis with a non-zero dipole element: 60S and 60P of rubidium. -/
example : (∀ x ∈ [(⟨60, 0, 1, 1⟩ : Old1), ⟨60, 1, 1, 1⟩], OldValid x) ∧ DbExact ⟨1, 1, 1, 1, 1, 2⟩ (fun _ => 1) (fun _ => none) ∧
    (preElectric 0).covers ⟨60, 0, 1, 1⟩ ⟨60, 1, 1, 1⟩ ∧ oldSelMultipole ⟨60, 0, 1, 1⟩ ⟨60, 1, 1, 1⟩ 1 = true := by
  refine ⟨?_, ?_, ?_, by decide⟩
  · intro x hx
    simp only [List.mem_cons, List.not_mem_nil, or_false] at hx
    rcases hx with rfl | rfl <;> constructor <;> decide
  · intro k v h; cases h
  · intro q hq
    simp only [preElectric, Option.mem_def, Option.some.injEq] at hq
    subst hq; decide

/-! ## C85: printing and reloading -/

theorem printAbs_rel (x : ℝ) : |printAbs x - x| ≤ 5e-6 * |x| := by
  unfold printAbs
  by_cases hx : x = 0
  · rw [if_pos hx, hx]; simp
  · rw [if_neg hx]
    dsimp only
    have hpos : 0 < |x| := abs_pos.mpr hx
    set p : ℤ := 5 - Int.log 10 |x| with hp
    have h10 : (0 : ℝ) < 10 ^ p := by positivity
    have hlow : (10 : ℝ) ^ (Int.log 10 |x|) ≤ |x| := by
      have := Int.zpow_log_le_self (b := 10) (by norm_num) hpos
      exact_mod_cast this
    have hbig : (10 : ℝ) ^ (5 : ℤ) ≤ |x| * 10 ^ p := by
      have : (10 : ℝ) ^ (5 : ℤ) = 10 ^ (Int.log 10 |x|) * 10 ^ p := by
        rw [← zpow_add₀ (by norm_num)]; congr 1; rw [hp]; ring
      rw [this]
      exact mul_le_mul_of_nonneg_right hlow h10.le
    have hr : |x * 10 ^ p - round (x * 10 ^ p)| ≤ 1 / 2 := abs_sub_round _
    have e : (round (x * 10 ^ p) : ℝ) / 10 ^ p - x = -(x * 10 ^ p - round (x * 10 ^ p)) / 10 ^ p := by
      field_simp; ring
    rw [e, abs_div, abs_neg, abs_of_pos h10, div_le_iff₀ h10]
    have : (10 : ℝ) ^ (5 : ℤ) = 100000 := by norm_num
    rw [this] at hbig
    linarith [hr, hbig]

theorem printR_rel (x : ℝ) : |printR x - x| ≤ 5e-6 * |x| := by
  unfold printR
  by_cases h : x < 0
  · rw [if_pos h]
    have := printAbs_rel (-x)
    rw [abs_neg, ← abs_neg] at this
    rwa [show -printAbs (-x) - x = -(printAbs (-x) - -x) by ring]
  · rw [if_neg h]
    exact printAbs_rel x

/-- The digits do not depend on the sign. -/
theorem printR_neg (x : ℝ) : printR (-x) = -printR x := by
  unfold printR
  rcases lt_trichotomy x 0 with h | h | h
  · rw [if_neg (by linarith), if_pos h, neg_neg]
  · subst h
    simp [printAbs]
  · rw [if_pos (by linarith), if_neg (by linarith), neg_neg]

/-- The databases that any sequence of runs of the program can leave behind (a run may stop after any of its calls). -/
inductive OldReach (U : Units) (I : OldKey → ℝ) : OldDb → Prop where
  | empty : OldReach U I (fun _ => none)
  | run {db : OldDb} (h : OldReach U I db) (basis : List Old1) (ps : List Pre) (s : Cells × OldDb)
      (e : precalcAll U (some I) basis ps (fun _ => none, db) = .ok s) : OldReach U I s.2

theorem reach_rows (U : Units) (I : OldKey → ℝ) (db : OldDb) (h : OldReach U I db) : ∀ k v, db k = some v → v = printR (oldVal U I k) := by
  induction h with
  | empty => intro k v h; cases h
  | run h basis ps s e ih =>
    obtain ⟨s', h1, -, -, -, h5, -⟩ := precalcAll_spec U I (fun _ _ => True) (fun _ => trivial) basis ps (fun _ => none, _)
      ⟨by simp, by simp, fun _ _ _ _ => trivial⟩
    rw [h1] at e
    injection e with e
    subst e
    intro k v hv
    rcases h5 k v hv with h' | h'
    · exact ih k v h'
    · exact h'

/-- Relative accuracy of a product of four factors. -/
theorem rel_four {a b c d a' b' c' d' : ℝ} (ha : |a' - a| ≤ 5e-6 * |a|) (hb : |b' - b| ≤ 5e-6 * |b|) (hc : |c' - c| ≤ 5e-6 * |c|) (hd : |d' - d| ≤ 5e-6 * |d|) :
    |a' * b' * c' * d' - a * b * c * d| ≤ 2.1e-5 * |a * b * c * d| := by
  have f : ∀ x x' : ℝ, |x' - x| ≤ 5e-6 * |x| → ∃ e : ℝ, |e| ≤ 5e-6 ∧ x' = x * (1 + e) := by
    intro x x' h
    by_cases hx : x = 0
    · subst hx; refine ⟨0, by norm_num, ?_⟩; simp at h; simp [h]
    · refine ⟨(x' - x) / x, ?_, by field_simp; ring⟩
      rw [abs_div, div_le_iff₀ (abs_pos.mpr hx)]; exact h
  obtain ⟨e1, h1, rfl⟩ := f a a' ha
  obtain ⟨e2, h2, rfl⟩ := f b b' hb
  obtain ⟨e3, h3, rfl⟩ := f c c' hc
  obtain ⟨e4, h4, rfl⟩ := f d d' hd
  have e : a * (1 + e1) * (b * (1 + e2)) * (c * (1 + e3)) * (d * (1 + e4)) - a * b * c * d = ((1 + e1) * (1 + e2) * (1 + e3) * (1 + e4) - 1) * (a * b * c * d) := by ring
  rw [e, abs_mul]
  apply mul_le_mul_of_nonneg_right _ (abs_nonneg _)
  rw [abs_le] at h1 h2 h3 h4 ⊢
  have p12 : |(1 + e1) * (1 + e2) - 1| ≤ 1.0001e-5 := by
    have : (1 + e1) * (1 + e2) - 1 = e1 + e2 + e1 * e2 := by ring
    rw [this]
    have : |e1 * e2| ≤ 5e-6 * 5e-6 := by rw [abs_mul]; exact mul_le_mul (abs_le.mpr h1) (abs_le.mpr h2) (abs_nonneg _) (by norm_num)
    rw [abs_le] at this ⊢
    constructor <;> linarith [this.1, this.2, h1.1, h1.2, h2.1, h2.2]
  have p34 : |(1 + e3) * (1 + e4) - 1| ≤ 1.0001e-5 := by
    have : (1 + e3) * (1 + e4) - 1 = e3 + e4 + e3 * e4 := by ring
    rw [this]
    have : |e3 * e4| ≤ 5e-6 * 5e-6 := by rw [abs_mul]; exact mul_le_mul (abs_le.mpr h3) (abs_le.mpr h4) (abs_nonneg _) (by norm_num)
    rw [abs_le] at this ⊢
    constructor <;> linarith [this.1, this.2, h3.1, h3.2, h4.1, h4.2]
  have : (1 + e1) * (1 + e2) * (1 + e3) * (1 + e4) - 1 = ((1 + e1) * (1 + e2) - 1) + ((1 + e3) * (1 + e4) - 1) + ((1 + e1) * (1 + e2) - 1) * ((1 + e3) * (1 + e4) - 1) := by ring
  rw [this]
  have hq : |((1 + e1) * (1 + e2) - 1) * ((1 + e3) * (1 + e4) - 1)| ≤ 1.0001e-5 * 1.0001e-5 := by
    rw [abs_mul]; exact mul_le_mul p12 p34 (abs_nonneg _) (by norm_num)
  rw [abs_le] at p12 p34 hq
  constructor <;> linarith [p12.1, p12.2, p34.1, p34.2, hq.1, hq.2]

/-- Present entries that are the formula or the printed formula give elements that deviate by at most 2.1e-5 of their size. -/
theorem elem_rel (U : Units) (J : RadKey → ℝ) (me : Method) (sp : String) (hU : U.um ≠ 0) (c : Cells)
    (hcell : ∀ k, c k = none ∨ c k = some (some (oldVal U (oldIntegral me sp J) k)) ∨ c k = some (some (printR (oldVal U (oldIntegral me sp J) k))))
    (row col : Old1) (vr : OldValid row) (vc : OldValid col) (κ : ℤ) (hk : 1 ≤ κ)
    (pres : oldSelMultipole row col κ = true → (c (.radOf κ row col)).isSome = true ∧ (c (.angOf κ row col)).isSome = true ∧
      (c (.comSOf κ row col)).isSome = true ∧ (c (.mulOf κ row col)).isSome = true) :
    ∃ x, electricMultipole U.consts.elem (U.radial J) me (row.qn sp) (col.qn sp) κ κ = .ok x ∧ |oldMultipole c row col κ - x| ≤ 2.1e-5 * |x| := by
  set I := oldIntegral me sp J with hI
  have hrel : ∀ k, (c k).isSome = true → |c.get k - oldVal U I k| ≤ 5e-6 * |oldVal U I k| := by
    intro k hk
    rcases hcell k with h | h | h
    · rw [h] at hk; simp at hk
    · simp only [Cells.get, h, Option.getD_some]; rw [sub_self, abs_zero]; positivity
    · simp only [Cells.get, h, Option.getD_some]; exact printR_rel _
  have hzero : ∀ k, oldVal U I k = 0 → c.get k = 0 := by
    intro k hk
    rcases hcell k with h | h | h
    · simp [Cells.get, h]
    · simp [Cells.get, h, hk]
    · simp [Cells.get, h, hk, printR, printAbs]
  have pr := Old1.qn_physical sp row vr
  have pc := Old1.qn_physical sp col vc
  have hqx : row.m - col.m = 2 * ((row.m - col.m) / 2) := by
    have := vr.mpar; have := vc.mpar; omega
  refine ⟨_, electricMultipole_eq _ _ _ _ _ _ _ pr pc rfl rfl, ?_⟩
  have ex : U.consts.elem.e * U.radial J (RadKey.make me (row.qn sp).species κ (row.qn sp).n (col.qn sp).n (row.qn sp).l (col.qn sp).l (row.qn sp).j (col.qn sp).j) *
      (angularSpec κ (row.qn sp).j (col.qn sp).j (row.qn sp).m (col.qn sp).m * commutesSSpec (row.qn sp).s κ (row.qn sp).l (col.qn sp).l (row.qn sp).j (col.qn sp).j *
        multipoleSpec κ (row.qn sp).l (col.qn sp).l)
      = oldVal U I (.radOf κ row col) * oldVal U I (.angOf κ row col) * oldVal U I (.comSOf κ row col) * oldVal U I (.mulOf κ row col) := by
    rw [hI, val_rad, val_ang, val_comS U J me sp κ row col vr vc, val_mul, if_neg (by omega), conv_eq U hU _ (by omega)]
    have : (RadKey.make me sp κ row.n col.n row.l col.l row.j col.j).kappa = κ := by unfold RadKey.make; split_ifs <;> rfl
    show U.e * (U.um ^ (RadKey.make me sp κ row.n col.n row.l col.l row.j col.j).kappa * _) * _ = _
    rw [this]
    simp only [Old1.qn]
    ring
  rw [ex]
  unfold oldMultipole
  by_cases hs : oldSelMultipole row col κ = true
  · obtain ⟨k1, k2, k3, k4⟩ := pres hs
    exact rel_four (hrel _ k1) (hrel _ k2) (hrel _ k3) (hrel _ k4)
  · have hz := (C20_selection_rules_sound (row.qn sp) (col.qn sp) κ ((row.m - col.m) / 2) (by omega)).2.1 (by
      have := (oldSel_eq sp row col κ 0).1; rw [← this]; simpa using hs)
    rw [multipoleAngular_eq sp row col κ _ hqx] at hz
    have hz' : oldVal U I (.angOf κ row col) * oldVal U I (.comSOf κ row col) * oldVal U I (.mulOf κ row col) = 0 := by
      rw [hI, val_ang, val_comS U J me sp κ row col vr vc, val_mul]; exact hz
    have e0 : c.get (.radOf κ row col) * c.get (.angOf κ row col) * c.get (.comSOf κ row col) * c.get (.mulOf κ row col) = 0 := by
      rcases mul_eq_zero.mp hz' with h | h
      · rcases mul_eq_zero.mp h with h | h
        · rw [hzero _ h]; ring
        · rw [hzero _ h]; ring
      · rw [hzero _ h]; ring
    have e1 : oldVal U I (.radOf κ row col) * oldVal U I (.angOf κ row col) * oldVal U I (.comSOf κ row col) * oldVal U I (.mulOf κ row col) = 0 := by
      rw [mul_assoc, mul_assoc, ← mul_assoc (oldVal U I (.angOf κ row col)), hz', mul_zero]
    rw [e0, e1]; norm_num

/-- **C85 (partial).** For every database left behind by any sequence of earlier runs (stopped anywhere between calls), every basis and every sequence of
calls: no call throws; every entry is the formula or the formula printed with six digits; hence every electric multipole element deviates from the one of the new
library by at most 2.1e-5 of its size. Missing: exact reproduction of the values of the first run (`C85_reload_fails`). -/
theorem C85_history_partial (U : Units) (J : RadKey → ℝ) (me : Method) (sp : String) (hU : U.um ≠ 0) (db : OldDb)
    (hdb : OldReach U (oldIntegral me sp J) db) (basis : List Old1) (hb : ∀ x ∈ basis, OldValid x) (ps : List Pre) :
    ∃ s, precalcAll U (some (oldIntegral me sp J)) basis ps (fun _ => none, db) = .ok s ∧
      (∀ k, s.1 k = none ∨ s.1 k = some (some (oldVal U (oldIntegral me sp J) k)) ∨ s.1 k = some (some (printR (oldVal U (oldIntegral me sp J) k)))) ∧
      ∀ row ∈ basis, ∀ col ∈ basis, ∀ p ∈ ps, p.covers row col → p.el = true → 1 ≤ p.kappa → p.kr = p.kappa →
        ∃ x, electricMultipole U.consts.elem (U.radial J) me (row.qn sp) (col.qn sp) p.kappa p.kappa = .ok x ∧
          |oldMultipole s.1 row col p.kappa - x| ≤ 2.1e-5 * |x| := by
  set I := oldIntegral me sp J with hI
  obtain ⟨s, h1, h2, -, h4, -, -⟩ := precalcAll_spec U I (fun k v => v = oldVal U I k ∨ v = printR (oldVal U I k)) (fun _ => Or.inl rfl) basis ps
    (fun _ => none, db) ⟨by simp, by simp, fun k v _ h => Or.inr (reach_rows U I db hdb k v h)⟩
  have hcell : ∀ k, s.1 k = none ∨ s.1 k = some (some (oldVal U I k)) ∨ s.1 k = some (some (printR (oldVal U I k))) := by
    intro k
    cases hk : s.1 k with
    | none => left; rfl
    | some x =>
      cases x with
      | none => exact absurd hk (h2.done k)
      | some v =>
        right
        rcases h2.cell k v hk with h | h
        · left; rw [h]
        · right; rw [h]
  refine ⟨s, h1, hcell, ?_⟩
  intro row hr col hc p hp hcov he hk hkr
  refine elem_rel U J me sp hU s.1 hcell row col (hb row hr) (hb col hc) p.kappa hk fun hs => ?_
  obtain ⟨k1, k2, k3, k4⟩ := p.keys_el row col hcov he hs
  have pres := fun k (hk : k ∈ p.keys row col) => h4 p hp k ((p.mem_allKeys basis k).mpr ⟨row, hr, col, hc, hk⟩)
  rw [hkr] at k1
  exact ⟨pres _ k1, pres _ k2, pres _ k3, pres _ k4⟩

theorem printR_third : printR (1 / 3) ≠ 1 / 3 := by
  unfold printR
  rw [if_neg (by norm_num)]
  unfold printAbs
  rw [if_neg (by norm_num)]
  intro h
  dsimp only at h
  have hl : Int.log 10 |(1 / 3 : ℝ)| = -1 := by
    rw [abs_of_pos (by norm_num)]
    have h1 : (-1 : ℤ) ≤ Int.log 10 (1 / 3 : ℝ) := (Int.zpow_le_iff_le_log (b := 10) (by norm_num) (by norm_num)).mp (by norm_num)
    have h2 : Int.log 10 (1 / 3 : ℝ) < 0 := (Int.lt_zpow_iff_log_lt (b := 10) (by norm_num) (by norm_num)).mp (by norm_num)
    omega
  rw [hl] at h
  have h6 : ((10 : ℝ) ^ (5 - -1 : ℤ)) = 1000000 := by norm_num
  rw [h6, div_eq_iff (by norm_num)] at h
  have h' : (3 * round ((1 : ℝ) / 3 * 1000000) : ℤ) = (1000000 : ℤ) := by
    have : (3 : ℝ) * (round ((1 : ℝ) / 3 * 1000000) : ℝ) = 1000000 := by rw [h]; norm_num
    exact_mod_cast this
  omega

/-- **C85, the violation.** The values read from the database are not the values the first run used: with one basis state and a radial integral of 1/3, the run that
starts from an empty database returns 1/3 from `getRadial`, and the next run, whose database is the one left behind, another number. -/
theorem C85_reload_fails : ∃ (U : Units) (I : OldKey → ℝ) (basis : List Old1) (ps : List Pre) (s1 s2 : Cells × OldDb) (a : Old1),
    (∀ x ∈ basis, OldValid x) ∧ a ∈ basis ∧
    precalcAll U (some I) basis ps (fun _ => none, fun _ => none) = .ok s1 ∧ precalcAll U (some I) basis ps (fun _ => none, s1.2) = .ok s2 ∧
    oldRadialGet s1.1 a a 2 = 1 / 3 ∧ oldRadialGet s2.1 a a 2 ≠ oldRadialGet s1.1 a a 2 := by
  set U : Units := ⟨1, 1, 1, 1, 1, 2⟩
  set a : Old1 := ⟨60, 0, 1, 1⟩
  set I : OldKey → ℝ := fun _ => 1 / 3
  have hk : OldKey.radOf 2 a a ∈ (preRadial 2).allKeys [a] := by decide
  obtain ⟨v1, s1, e1, e2, e3, e4⟩ := precalculate_spec U I (fun _ => none) (fun _ => none) [a] (preRadial 2) (by simp)
  obtain ⟨v2, s2, f1, f2, f3, f4⟩ := precalculate_spec U I s1.2 (fun _ => none) [a] (preRadial 2) (by simp)
  have hv : v1 (OldKey.radOf 2 a a) = 1 / 3 := by
    have h := e1 (OldKey.radOf 2 a a)
    have : OldKey.radOf 2 a a = .rad 2 (60, 60) (0, 0) (1, 1) := by decide
    rw [this] at h ⊢
    simp only [oldValue, oldRadial, U, I] at h
    injection h with h
    rw [← h]; norm_num
  have c1 := e3 (OldKey.radOf 2 a a)
  have d1 := e4 (OldKey.radOf 2 a a)
  have c2 := f3 (OldKey.radOf 2 a a)
  simp only [hk, hv, Option.isSome_none, if_true, Option.getD_none, and_self, Bool.false_eq_true, if_false] at c1 d1
  simp only [hk, d1, Option.isSome_none, if_true, Option.getD_some, Bool.false_eq_true, if_false] at c2
  refine ⟨U, I, [a], [preRadial 2], s1, s2, a, ?_, by simp, ?_, ?_, ?_, ?_⟩
  · intro x hx
    simp only [List.mem_cons, List.not_mem_nil, or_false] at hx
    subst hx; constructor <;> decide
  · refine (congrArg (fun z => z >>= fun s' => precalcAll U (some I) [a] [] s') e2).trans ?_
    rfl
  · refine (congrArg (fun z => z >>= fun s' => precalcAll U (some I) [a] [] s') f2).trans ?_
    rfl
  · simp only [oldRadialGet, Cells.get, c1, Option.getD_some]
  · simp only [oldRadialGet, Cells.get, c1, c2, Option.getD_some]
    exact printR_third

/-- **C85, the violation with two processes.** Whenever a process finds a key missing and another process inserts its row before the first one does, the
first one throws (the rows are inserted without `OR IGNORE`); a run alone with either database does not throw. -/
theorem C85_concurrent_insert_fails (U : Units) (I : OldKey → ℝ) (basis : List Old1) (p : Pre) (k : OldKey) (hk : k ∈ p.allKeys basis) :
    ∃ s, precalculate U (some I) (fun _ => none) (fun _ => none) (fun _ => none) basis p = .ok s ∧
      precalculate U (some I) (fun _ => none) s.2 (fun _ => none) basis p = .throw ∧
      ∃ s', precalculate U (some I) s.2 s.2 (fun _ => none) basis p = .ok s' := by
  obtain ⟨v1, s1, e1, e2, e3, e4⟩ := precalculate_spec U I (fun _ => none) (fun _ => none) basis p (by simp)
  obtain ⟨v2, s2, f1, f2, f3, f4⟩ := precalculate_spec U I s1.2 (fun _ => none) basis p (by simp)
  refine ⟨s1, e2, ?_, s2, f2⟩
  have d1 := e4 k
  simp only [hk, and_self, if_true] at d1
  have hmem := foldl_addMissing (p.allKeys basis) (fun _ => none) [] k
  unfold precalculate
  dsimp only
  rw [if_pos]
  refine ⟨k, ?_, Or.inr (by rw [d1]; rfl)⟩
  simp only [Option.isSome_none, Bool.false_eq_true, if_false, hk, if_true, List.not_mem_nil, false_or, true_and, iff_true] at hmem
  refine (if_pos hmem.2).trans ?_
  exact hmem.1

example : OldKey.radOf 1 ⟨60, 0, 1, 1⟩ ⟨60, 1, 1, 1⟩ ∈ (preElectric 0).allKeys [(⟨60, 0, 1, 1⟩ : Old1), ⟨60, 1, 1, 1⟩] := by decide

/-- C85 applies to the database a run leaves behind, which is not empty. -/
example : ∃ db, OldReach ⟨1, 1, 1, 1, 1, 2⟩ (fun _ => 1 / 3) db ∧ ∃ k, (db k).isSome = true := by
  have hk : OldKey.radOf 1 ⟨60, 0, 1, 1⟩ ⟨60, 1, 1, 1⟩ ∈ (preElectric 0).allKeys [(⟨60, 0, 1, 1⟩ : Old1), ⟨60, 1, 1, 1⟩] := by decide
  obtain ⟨v1, s1, e1, e2, e3, e4⟩ := precalculate_spec ⟨1, 1, 1, 1, 1, 2⟩ (fun _ => 1 / 3) (fun _ => none) (fun _ => none) [(⟨60, 0, 1, 1⟩ : Old1), ⟨60, 1, 1, 1⟩] (preElectric 0) (by simp)
  refine ⟨s1.2, OldReach.run OldReach.empty [(⟨60, 0, 1, 1⟩ : Old1), ⟨60, 1, 1, 1⟩] [preElectric 0] s1 ?_, OldKey.radOf 1 ⟨60, 0, 1, 1⟩ ⟨60, 1, 1, 1⟩, ?_⟩
  · exact (congrArg (fun z => z >>= fun s' => precalcAll _ _ _ [] s') e2).trans rfl
  · have := e4 (OldKey.radOf 1 ⟨60, 0, 1, 1⟩ ⟨60, 1, 1, 1⟩)
    simp only [hk, and_self, if_true] at this
    rw [this]; rfl

end PI
