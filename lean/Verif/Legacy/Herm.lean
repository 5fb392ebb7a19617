import Verif.Legacy.Spectrum

/-!
# Legacy elements: when the multipole operators are Hermitian, and what a second run finds (C89)
-/

namespace PI

section
variable (U : Units) (J : RadKey → ℝ) (me : Method) (sp : String)

theorem radOf_swap (k : ℤ) (a b : Old1) : OldKey.radOf k b a = OldKey.radOf k a b := by
  unfold OldKey.radOf
  by_cases h : a.n < b.n ∨ (a.n = b.n ∧ (a.l < b.l ∨ (a.l = b.l ∧ (a.j < b.j ∨ a.j = b.j))))
  · by_cases h' : b.n < a.n ∨ (b.n = a.n ∧ (b.l < a.l ∨ (b.l = a.l ∧ (b.j < a.j ∨ b.j = a.j))))
    · have h1 : a.n = b.n := by omega
      have h2 : a.l = b.l := by omega
      have h3 : a.j = b.j := by omega
      rw [if_pos h, if_pos h', h1, h2, h3]
    · rw [if_pos h, if_neg h']
  · rw [if_neg h, if_pos (by omega)]

theorem ang_swap (k : ℤ) (a b : Old1) (ha : OldValid a) (hb : OldValid b) : oldVal U (oldIntegral me sp J) (.angOf k b a) =
    sgn ((a.j - b.j - a.m + b.m) / 2) * oldVal U (oldIntegral me sp J) (.angOf k a b) := by
  show sgn ((b.j - b.m) / 2) * w3j b.j (2 * k) a.j (-b.m) (b.m - a.m) a.m = sgn _ * (sgn ((a.j - a.m) / 2) * w3j a.j (2 * k) b.j (-a.m) (a.m - b.m) b.m)
  have pa := Old1.qn_physical sp a ha
  have pb := Old1.qn_physical sp b hb
  unfold QN.Physical Old1.qn at pa pb
  dsimp only at pa pb
  rw [w3j_swap_neg, neg_neg, neg_sub, ← mul_assoc, sgn_mul]
  congr 1
  exact sgn_congr (by omega)

theorem comS_swap (k : ℤ) (a b : Old1) (ha : OldValid a) (hb : OldValid b) : oldVal U (oldIntegral me sp J) (.comSOf k b a) =
    sgn (a.l - b.l + (a.j - b.j) / 2) * oldVal U (oldIntegral me sp J) (.comSOf k a b) := by
  have pa := Old1.qn_physical sp a ha
  have pb := Old1.qn_physical sp b hb
  unfold QN.Physical Old1.qn at pa pb
  dsimp only at pa pb
  rw [val_comS _ _ _ _ _ _ _ ha hb, val_comS _ _ _ _ _ _ _ hb ha]
  unfold commutesSSpec
  rw [w6j_swap, mul_comm ((b.j : ℝ) + 1), ← mul_assoc, ← mul_assoc, sgn_mul]
  congr 2
  exact sgn_congr (by omega)

theorem mul_swap (k : ℤ) (a b : Old1) (h : (a.l - b.l - k) % 2 = 0) : oldVal U (oldIntegral me sp J) (.mulOf k b a) =
    sgn (a.l - b.l) * oldVal U (oldIntegral me sp J) (.mulOf k a b) := by
  show sgn b.l * Real.sqrt ((2 * b.l + 1) * (2 * a.l + 1)) * w3j (2 * b.l) (2 * k) (2 * a.l) 0 0 0 =
    sgn _ * (sgn a.l * Real.sqrt ((2 * a.l + 1) * (2 * b.l + 1)) * w3j (2 * a.l) (2 * k) (2 * b.l) 0 0 0)
  rw [w3j_swap_neg, neg_zero, mul_comm ((2 * (b.l : ℝ) + 1)), ← mul_assoc, ← mul_assoc, sgn_mul]
  congr 2
  exact sgn_congr (by omega)

/-- An object that holds, for all its states and ranks, the values after an odd function: the exact ones, or those that were printed. -/
theorem herm_of_cells (g : ℝ → ℝ) (hg : ∀ x, g (-x) = -g x) (c : Cells) (basis : List Old1) (hb : ∀ x ∈ basis, OldValid x) (kmax : ℤ)
    (hc : ∀ k, 1 ≤ k → k ≤ kmax → ∀ key ∈ (preMultipole k).allKeys basis, c.get key = g (oldVal U (oldIntegral me sp J) key)) : CellsHerm c (· ∈ basis) kmax := by
  intro a b ha hb' k h1 h2 hsel
  have gs : ∀ q x, g (sgn q * x) = sgn q * g x := by
    intro q x
    unfold sgn
    split_ifs
    · rw [one_mul, one_mul]
    · rw [neg_one_mul, neg_one_mul, hg]
  have cov : ∀ x y, (preMultipole k).covers x y := fun x y q hq => by simp [preMultipole] at hq
  have key : ∀ x ∈ basis, ∀ y ∈ basis, oldSelMultipole x y k = true → oldMultipole c x y k =
      g (oldVal U (oldIntegral me sp J) (.radOf k x y)) * g (oldVal U (oldIntegral me sp J) (.angOf k x y)) * g (oldVal U (oldIntegral me sp J) (.comSOf k x y)) *
        g (oldVal U (oldIntegral me sp J) (.mulOf k x y)) := by
    intro x hx y hy h
    obtain ⟨k1, k2, k3, k4⟩ := Pre.keys_el (preMultipole k) x y (cov x y) rfl h
    have mem : ∀ key ∈ (preMultipole k).keys x y, key ∈ (preMultipole k).allKeys basis := fun key hk => ((preMultipole k).mem_allKeys basis key).mpr ⟨x, hx, y, hy, hk⟩
    unfold oldMultipole
    have r1 := hc k h1 h2 _ (mem _ k1)
    have r2 := hc k h1 h2 _ (mem _ k2)
    have r3 := hc k h1 h2 _ (mem _ k3)
    have r4 := hc k h1 h2 _ (mem _ k4)
    simp only [preMultipole] at r1 r2 r3 r4
    rw [r1, r2, r3, r4]
  have va := hb a ha
  have vb := hb b hb'
  rw [key a ha b hb' hsel, key b hb' a ha (by rw [oldSel_symm]; exact hsel), radOf_swap, ang_swap U J me sp k a b va vb, comS_swap U J me sp k a b va vb,
    mul_swap U J me sp k a b (oldSel_bound a b k hsel).2, gs, gs, gs]
  have p1 := va.mpar
  have p2 := vb.mpar
  have pa := Old1.qn_physical sp a va
  have pb := Old1.qn_physical sp b vb
  unfold QN.Physical Old1.qn at pa pb
  dsimp only at pa pb
  have e : sgn ((a.j - b.j - a.m + b.m) / 2) * sgn (a.l - b.l + (a.j - b.j) / 2) * sgn (a.l - b.l) = sgn ((a.m - b.m) / 2) := by
    rw [sgn_mul, sgn_mul]
    exact sgn_congr (by omega)
  rw [← e]
  ring

/-- One call of an object whose database holds every row it asks for. -/
theorem precalculate_hit (I : OldKey → ℝ) (db : OldDb) (c : Cells) (basis : List Old1) (p : Pre) (hc : ∀ k, c k ≠ some none) (hd : ∀ k ∈ p.allKeys basis, db k ≠ none) :
    precalculate U (some I) db db c basis p = .ok (fun k => if (c k).isSome then c k else if k ∈ p.allKeys basis then (db k).map some else none, db) := by
  obtain ⟨val, s, -, h1, h2, h3⟩ := precalculate_spec U I db c basis p hc
  rw [h1]
  congr 1
  refine Prod.ext ?_ ?_
  · funext k
    rw [h2]
    dsimp only
    by_cases h : (c k).isSome = true
    · rw [if_pos h, if_pos h]
    · rw [if_neg h, if_neg h]
      by_cases hk : k ∈ p.allKeys basis
      · rw [if_pos hk, if_pos hk]
        obtain ⟨v, hv⟩ := Option.ne_none_iff_exists'.mp (hd k hk)
        rw [hv]
        rfl
      · rw [if_neg hk, if_neg hk]
  · funext k
    rw [h3, if_neg]
    rintro ⟨-, hk, hn⟩
    exact hd k hk hn

/-- Both objects of a run whose database holds every row: they are equal, and nothing is written. -/
theorem two_hit (I : OldKey → ℝ) (b1 b2 : List Old1) (hb : ∀ x, x ∈ b1 ↔ x ∈ b2) (db : OldDb) : ∀ (ks : List ℤ) (c : Cells), (∀ k, c k ≠ some none) →
    (∀ k ∈ ks, ∀ key ∈ (preMultipole k).allKeys b1, db key ≠ none) →
    ∃ c' : Cells, twoPrecalc U (some I) (some I) true b1 b2 ks ((c, db), (c, db)) = .ok ((c', db), (c', db)) ∧
      ∀ key, c' key = if (c key).isSome then c key else if ∃ k ∈ ks, key ∈ (preMultipole k).allKeys b1 then (db key).map some else none := by
  intro ks
  have keys : ∀ k key, key ∈ (preMultipole k).allKeys b2 ↔ key ∈ (preMultipole k).allKeys b1 := by
    intro k key
    simp only [Pre.mem_allKeys, hb]
  induction ks with
  | nil =>
    intro c hc hd
    refine ⟨c, rfl, fun key => ?_⟩
    by_cases h : (c key).isSome = true
    · rw [if_pos h]
    · rw [if_neg h, if_neg (by simp)]
      simpa using h
  | cons k ks ih =>
    intro c hc hd
    set c1 : Cells := fun key => if (c key).isSome then c key else if key ∈ (preMultipole k).allKeys b1 then (db key).map some else none with hc1
    have e1 : precalculate U (some I) db db c b1 (preMultipole k) = .ok (c1, db) :=
      precalculate_hit U I db c b1 _ hc fun key hk => hd k List.mem_cons_self key hk
    have e2 : precalculate U (some I) db db c b2 (preMultipole k) = .ok (c1, db) := by
      rw [precalculate_hit U I db c b2 _ hc fun key hk => hd k List.mem_cons_self key ((keys k key).mp hk)]
      simp only [keys, hc1]
    have hc1' : ∀ key, c1 key ≠ some none := by
      intro key
      rw [hc1]
      dsimp only
      by_cases h : (c key).isSome = true
      · rw [if_pos h]; exact hc key
      · rw [if_neg h]
        by_cases hk : key ∈ (preMultipole k).allKeys b1
        · rw [if_pos hk]
          cases db key <;> simp
        · rw [if_neg hk]; simp
    obtain ⟨c', h1, h2⟩ := ih c1 hc1' fun k' hk' => hd k' (List.mem_cons_of_mem _ hk')
    refine ⟨c', ?_, fun key => ?_⟩
    · unfold twoPrecalc
      rw [e1]
      refine (Out.ok_bind _ _).trans ?_
      dsimp only
      rw [if_pos rfl, e2]
      refine (Out.ok_bind _ _).trans ?_
      dsimp only
      rw [if_pos rfl]
      exact h1
    · rw [h2]
      simp only [hc1, List.mem_cons, exists_eq_or_imp]
      by_cases h : (c key).isSome = true
      · rw [if_pos h, if_pos h, if_pos h]
      · rw [if_neg h, if_neg h]
        by_cases hk : key ∈ (preMultipole k).allKeys b1
        · rw [if_pos hk, if_pos (Or.inl hk)]
          by_cases hn : (Option.map some (db key)).isSome = true
          · rw [if_pos hn]
          · exfalso
            have := hd k List.mem_cons_self key hk
            simp [this] at hn
        · rw [if_neg hk]
          simp [hk]

/-- Objects whose entries are all in the database, which both share. -/
def Backed (s : (Cells × OldDb) × (Cells × OldDb)) : Prop :=
  s.1.2 = s.2.2 ∧ ∀ k, (s.1.1 k ≠ some none ∧ ((s.1.1 k).isSome = true → s.1.2 k ≠ none)) ∧ (s.2.1 k ≠ some none ∧ ((s.2.1 k).isSome = true → s.1.2 k ≠ none))

/-- One call leaves a row for every key it asks for. -/
theorem call_rows (I : OldKey → ℝ) (db : OldDb) (c : Cells) (basis : List Old1) (p : Pre) (hc : ∀ k, c k ≠ some none ∧ ((c k).isSome = true → db k ≠ none))
    (hdb : DbPrinted U I db) : ∃ s, precalculate U (some I) db db c basis p = .ok s ∧ (∀ k, s.1 k ≠ some none ∧ ((s.1 k).isSome = true → s.2 k ≠ none)) ∧ DbPrinted U I s.2 ∧
      (∀ k, db k ≠ none → s.2 k ≠ none) ∧ ∀ k ∈ p.allKeys basis, s.2 k ≠ none := by
  obtain ⟨val, s, hv, h1, h2, h3⟩ := precalculate_spec U I db c basis p fun k => (hc k).1
  have rows : ∀ k, db k ≠ none → s.2 k ≠ none := by
    intro k hk
    rw [h3, if_neg (fun h => hk h.2.2)]
    exact hk
  have all : ∀ k ∈ p.allKeys basis, s.2 k ≠ none := by
    intro k hk
    by_cases hd : db k = none
    · have hn : c k = none := by
        by_contra hn
        exact (hc k).2 (by rw [← Option.ne_none_iff_isSome]; exact hn) hd
      rw [h3, if_pos ⟨hn, hk, hd⟩]
      simp
    · exact rows k hd
  refine ⟨s, h1, fun k => ⟨?_, ?_⟩, ?_, rows, all⟩
  · rw [h2]
    split_ifs
    · exact (hc k).1
    · simp
    · simp
  · intro hs
    rw [h2] at hs
    split_ifs at hs with g1 g2
    · exact rows k ((hc k).2 g1)
    · exact all k g2
    · simp at hs
  · intro k v hk
    rw [h3] at hk
    split_ifs at hk with g
    · have e := hv k
      rw [oldVal_ok] at e
      injection e with e
      rw [e]
      exact (Option.some.inj hk).symm
    · exact hdb k v hk

/-- A run leaves a row for every key it asks for. -/
theorem two_rows (I : OldKey → ℝ) (b1 b2 : List Old1) : ∀ (ks : List ℤ) (s : (Cells × OldDb) × (Cells × OldDb)), Backed s → DbPrinted U I s.1.2 →
    ∃ t, twoPrecalc U (some I) (some I) true b1 b2 ks s = .ok t ∧ Backed t ∧ DbPrinted U I t.1.2 ∧ (∀ k, s.1.2 k ≠ none → t.1.2 k ≠ none) ∧
      ∀ k ∈ ks, ∀ key ∈ (preMultipole k).allKeys b1, t.1.2 key ≠ none := by
  intro ks
  induction ks with
  | nil => exact fun s hs hd => ⟨s, rfl, hs, hd, fun k h => h, by simp⟩
  | cons k ks ih =>
    intro s hs hd
    obtain ⟨s1, p1, p2, p3, p4, p5⟩ := call_rows U I s.1.2 s.1.1 b1 (preMultipole k) (fun k => (hs.2 k).1) hd
    obtain ⟨s2, q1, q2, q3, q4, q5⟩ := call_rows U I s1.2 s.2.1 b2 (preMultipole k) (fun k => ⟨(hs.2 k).2.1, fun h => p4 k ((hs.2 k).2.2 h)⟩) p3
    obtain ⟨t, t1, t2, t3, t4, t5⟩ := ih ((s1.1, s2.2), s2) ⟨rfl, fun k => ⟨⟨(p2 k).1, fun h => q4 k ((p2 k).2 h)⟩, q2 k⟩⟩ q3
    refine ⟨t, ?_, t2, t3, fun k h => t4 k (q4 k (p4 k h)), ?_⟩
    · unfold twoPrecalc
      rw [p1]
      refine (Out.ok_bind _ _).trans ?_
      dsimp only
      rw [if_pos rfl, q1]
      refine (Out.ok_bind _ _).trans ?_
      rw [if_pos rfl]
      exact t1
    · intro k' hk' key hkey
      rcases List.mem_cons.mp hk' with rfl | h
      · exact t4 key (q4 key (p5 key hkey))
      · exact t5 k' h key hkey

/-- The second run: from any database that earlier runs left, one run for two atoms of the same species leaves all rows, and from then on both objects hold the printed
elements. -/
theorem second_cells (b1 b2 : List Old1) (hb : ∀ x, x ∈ b1 ↔ x ∈ b2) (exponent : ℤ) (db : OldDb) (hdb : DbPrinted U (oldIntegral me sp J) db) :
    ∃ t, twoPrecalc U (some (oldIntegral me sp J)) (some (oldIntegral me sp J)) true b1 b2 (oldKappas exponent) ((fun _ => none, db), (fun _ => none, db)) = .ok t ∧
      DbPrinted U (oldIntegral me sp J) t.1.2 ∧
      ∃ c : Cells, twoPrecalc U (some (oldIntegral me sp J)) (some (oldIntegral me sp J)) true b1 b2 (oldKappas exponent) ((fun _ => none, t.1.2), (fun _ => none, t.1.2)) =
        .ok ((c, t.1.2), (c, t.1.2)) ∧
        ∀ k, 1 ≤ k → k ≤ exponent - 2 → ∀ key ∈ (preMultipole k).allKeys b1, c.get key = printR (oldVal U (oldIntegral me sp J) key) := by
  obtain ⟨t, t1, t2, t3, -, t5⟩ := two_rows U (oldIntegral me sp J) b1 b2 (oldKappas exponent) ((fun _ => none, db), (fun _ => none, db))
    ⟨rfl, fun k => ⟨by simp, by simp⟩⟩ hdb
  obtain ⟨c, c1, c2⟩ := two_hit U (oldIntegral me sp J) b1 b2 hb t.1.2 (oldKappas exponent) (fun _ => none) (by simp) t5
  refine ⟨t, t1, t3, c, c1, fun k h1 h2 key hk => ?_⟩
  have hm : ∃ k ∈ oldKappas exponent, key ∈ (preMultipole k).allKeys b1 := ⟨k, (kappas_mem exponent k).mpr ⟨h1, h2⟩, hk⟩
  obtain ⟨v, hv⟩ := Option.ne_none_iff_exists'.mp (t5 k ((kappas_mem exponent k).mpr ⟨h1, h2⟩) key hk)
  unfold Cells.get
  rw [c2, if_neg (by simp), if_pos hm, hv, t3 key v hv]
  rfl

/-- The symmetry of the second run: both objects hold the same, Hermitian, elements. -/
theorem second_run (b1 b2 : List Old1) (hb : ∀ x, x ∈ b1 ↔ x ∈ b2) (hv : ∀ x ∈ b1, OldValid x) (exponent : ℤ) (db : OldDb) (hdb : DbPrinted U (oldIntegral me sp J) db) :
    ∃ t, twoPrecalc U (some (oldIntegral me sp J)) (some (oldIntegral me sp J)) true b1 b2 (oldKappas exponent) ((fun _ => none, db), (fun _ => none, db)) = .ok t ∧
      DbPrinted U (oldIntegral me sp J) t.1.2 ∧
      ∃ c : Cells, twoPrecalc U (some (oldIntegral me sp J)) (some (oldIntegral me sp J)) true b1 b2 (oldKappas exponent) ((fun _ => none, t.1.2), (fun _ => none, t.1.2)) =
        .ok ((c, t.1.2), (c, t.1.2)) ∧ CellsHerm c (· ∈ b1) (exponent - 2) := by
  obtain ⟨t, t1, t2, c, c1, c2⟩ := second_cells U J me sp b1 b2 hb exponent db hdb
  exact ⟨t, t1, t2, c, c1, herm_of_cells U J me sp printR printR_neg c b1 hv _ c2⟩

/-- The states of the first and of the second atom in a product basis. -/
theorem mem_product {n : ℕ} (s : Fin n → Old1) (second : Bool) (x : Old1) :
    x ∈ (buildFromTwo second (number 0 (List.ofFn (pairState s s)))).map (·.2) ↔ ∃ i, s i = x := by
  set names := number 0 (List.ofFn (pairState s s)) with hn
  rw [(C56_from_two second names).2.1]
  constructor
  · rintro ⟨y, hy, rfl⟩
    have : y.2 ∈ names.map (·.2) := List.mem_map.mpr ⟨y, hy, rfl⟩
    rw [number_snd, List.mem_ofFn] at this
    obtain ⟨i, hi⟩ := this
    rw [← hi]
    cases second
    · exact ⟨_, rfl⟩
    · exact ⟨_, rfl⟩
  · rintro ⟨i, rfl⟩
    have : (s i, s i) ∈ names.map (·.2) := by
      rw [number_snd, List.mem_ofFn]
      exact ⟨finProdFinEquiv (i, i), by unfold pairState; rw [Equiv.symm_apply_apply]⟩
    obtain ⟨y, hy, e⟩ := List.mem_map.mp this
    exact ⟨y, hy, by cases second <;> rw [e] <;> rfl⟩

open Matrix in
/-- **C89.** The program, run twice for two atoms of the same species on a database that earlier runs left: from the second run on the characteristic polynomial of the
matrix without symmetries is the product of those of the blocks. (In the first run the two objects hold different elements, see `C87_exchange_fails`.) -/
theorem C89_second_run {n : ℕ} (s : Fin n → Old1) (hs : ∀ i, OldValid (s i)) (A : OldOne n) (hA : A.basisᴴ * A.basis = 1) (exponent : ℤ)
    (db : OldDb) (hdb : ∀ k v, db k = some v → v = printR (oldVal U (oldIntegral me sp J) k))
    (R deltaE : ℝ) (steps : List (OldOne n × OldOne n)) (hst : (A, A) ∈ steps) (conf : OldSymConf)
    (hinv : conf.inv = (false, false) ∨ conf.inv = (true, true)) (hper : conf.per = (false, false) ∨ conf.per = (true, true)) (href : conf.ref = (false, false))
    (hsame : conf.sametrafo = false) (hpe : conf.per = (true, true) → exponent ≤ 3) (par mu : Fin A.nb → ℤ) (hp : ∀ c, par c = 1 ∨ par c = -1)
    (hpar : conf.inv = (true, true) → ∀ r c, A.basis r c ≠ 0 → parityOf (s r).l = par c) (hmu : conf.conserveM = true → ∀ r c, A.basis r c ≠ 0 → (s r).m = mu c)
    (init : Old1 × Old1) :
    let names := number 0 (List.ofFn (pairState s s))
    let run := fun db : OldDb => twoPrecalc U (some (oldIntegral me sp J)) (some (oldIntegral me sp J)) true ((buildFromTwo false names).map (·.2)) ((buildFromTwo true names).map (·.2))
      (oldKappas exponent) ((fun _ => none, db), (fun _ => none, db))
    ∃ first second, run db = .ok first ∧ run first.1.2 = .ok second ∧ second.1.2 = first.1.2 ∧
    ∃ blk : OldSym → Σ k, Matrix (Fin k) (Fin k) ℂ,
      (∀ sym ∈ oldSymmetries conf init (List.ofFn (pairState s s)), oldBlock U second.1.1 second.2.1 sym s s A A deltaE
        (oldNecessary conf (oldSymmetries conf init (List.ofFn (pairState s s))) init (pairState s s) (oldCutoff steps deltaE)) exponent R = .ok (blk sym)) ∧
      ∃ B, oldBlock U second.1.1 second.2.1 ⟨none, none, none, none⟩ s s A A deltaE
          (oldNecessary .plain (oldSymmetries .plain init (List.ofFn (pairState s s))) init (pairState s s) (oldCutoff steps deltaE)) exponent R = .ok B ∧
        B.2.charpoly = ((oldSymmetries conf init (List.ofFn (pairState s s))).map fun sym => (blk sym).2.charpoly).prod := by
  intro names run
  have mem : ∀ second x, x ∈ (buildFromTwo second names).map (·.2) ↔ ∃ i, s i = x := fun second x => mem_product s second x
  obtain ⟨t, t1, -, c, c1, c2⟩ := second_run U J me sp ((buildFromTwo false names).map (·.2)) ((buildFromTwo true names).map (·.2))
    (fun x => by rw [mem, mem]) (fun x hx => by obtain ⟨i, rfl⟩ := (mem _ _).mp hx; exact hs i) exponent db hdb
  refine ⟨t, ((c, t.1.2), (c, t.1.2)), t1, c1, rfl, ?_⟩
  exact C89_spectrum U c s hs A hA exponent (fun a b ha hb => c2 a b ((mem _ _).mpr ha) ((mem _ _).mpr hb)) R deltaE steps hst conf hinv hper href hsame hpe par mu hp hpar hmu init

end

/-! ## A case that meets the hypotheses: an S and a P state without fields -/

/-- The eigenvectors of two states without fields. -/
noncomputable def exOne : OldOne 2 := ⟨2, 1, ![0, 1]⟩

/-- The states. -/
def exStates : Fin 2 → Old1 := ![⟨60, 0, 1, 1⟩, ⟨60, 1, 3, 1⟩]

theorem exStates_valid (i : Fin 2) : OldValid (exStates i) := by
  fin_cases i
  · exact ⟨by decide, by decide, by decide, by decide, by decide⟩
  · exact ⟨by decide, by decide, by decide, by decide, by decide⟩

open Matrix in
theorem exOne_orth : exOne.basisᴴ * exOne.basis = (1 : Matrix (Fin exOne.nb) (Fin exOne.nb) ℂ) := by
  show (1 : Matrix (Fin 2) (Fin 2) ℂ)ᴴ * (1 : Matrix (Fin 2) (Fin 2) ℂ) = 1
  rw [conjTranspose_one, Matrix.mul_one]

open Matrix in
theorem exOne_orth' : exOne.basis * exOne.basisᴴ = (1 : Matrix (Fin 2) (Fin 2) ℂ) := by
  show (1 : Matrix (Fin 2) (Fin 2) ℂ) * (1 : Matrix (Fin 2) (Fin 2) ℂ)ᴴ = 1
  rw [conjTranspose_one, Matrix.mul_one]

open Matrix in
theorem exOne_eig : diagonal (fun c : Fin 2 => ((![0, 1] c : ℝ) : ℂ)) * exOne.basis = exOne.basis * diagonal fun c => (exOne.diag c : ℂ) := by
  show diagonal (fun c : Fin 2 => ((![0, 1] c : ℝ) : ℂ)) * (1 : Matrix (Fin 2) (Fin 2) ℂ) = (1 : Matrix (Fin 2) (Fin 2) ℂ) * diagonal fun c : Fin 2 => ((![0, 1] c : ℝ) : ℂ)
  rw [Matrix.mul_one, Matrix.one_mul]

theorem exOne_mem (r : Fin 2) (c : Fin exOne.nb) (h : exOne.basis r c ≠ 0) : r = c := by
  by_contra hne
  exact h (show (1 : Matrix (Fin 2) (Fin 2) ℂ) r c = 0 from Matrix.one_apply_ne hne)

/-- Every symmetry at once, dipole-dipole interaction, empty database, a cutoff: the hypotheses of `C89_second_run` hold. -/
example (U : Units) (J : RadKey → ℝ) (me : Method) (sp : String) :=
  C89_second_run U J me sp exStates exStates_valid exOne exOne_orth 3 (fun _ => none) (by simp) 1 5 [(exOne, exOne)] (by simp)
    ⟨(true, true), (true, true), (false, false), true, false, false⟩ (Or.inr rfl) (Or.inr rfl) rfl rfl (fun _ => le_rfl)
    (![1, -1] : Fin 2 → ℤ) (![1, 1] : Fin 2 → ℤ) (fun c => by revert c; exact (by decide : ∀ c : Fin 2, (![1, -1] : Fin 2 → ℤ) c = 1 ∨ (![1, -1] : Fin 2 → ℤ) c = -1))
    (fun _ r c h => by rw [← exOne_mem r c h]; revert r; intro r _; fin_cases r <;> decide)
    (fun _ r c h => by rw [← exOne_mem r c h]; revert r; intro r _; fin_cases r <;> decide) (exStates 0, exStates 0)

/-- The hypotheses of `C88_block` and `C88_spectrum` hold for the same states, with a total momentum of one. -/
example (U : Units) (c : Cells) := C88_block U c c (some 1) exStates exStates exOne exOne _ _ exOne_orth exOne_orth
    exOne_eig exOne_eig
    (![1, 1] : Fin 2 → ℤ) (![1, 1] : Fin 2 → ℤ)
    (fun _ r c h => by rw [← exOne_mem r c h]; revert r; intro r _; fin_cases r <;> decide)
    (fun _ r c h => by rw [← exOne_mem r c h]; revert r; intro r _; fin_cases r <;> decide) 5 [(exOne, exOne)] (by simp)
    ⟨(false, false), (false, false), (false, false), true, false, false⟩ (exStates 0, exStates 0) [⟨none, none, none, some 1⟩] (by simp) 3 1

example (U : Units) (c : Cells) := C88_spectrum U c c exStates exStates exOne exOne _ _ exOne_orth exOne_orth
    exOne_orth' exOne_orth'
    exOne_eig exOne_eig
    (-1) (by norm_num) [(exOne, exOne)] (by simp) .plain (exStates 0, exStates 0) [⟨none, none, none, none⟩] (by simp) 3 1

end PI
