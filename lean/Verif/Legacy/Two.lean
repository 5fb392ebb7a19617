import Verif.Legacy.TwoModel
import Verif.Legacy.HamOne
import Verif.Pair.Multi

/-!
# C87: the two-atom interaction of the legacy program
-/

namespace PI

variable {N : ℕ}

/-! ## Precalculation -/

theorem two_diff (U : Units) (I1 I2 : Option (OldKey → ℝ)) (b1 b2 : List Old1) (ks : List ℤ) : ∀ (s : (Cells × OldDb) × (Cells × OldDb)) (t1 t2 : Cells × OldDb),
    precalcAll U I1 b1 (ks.map preMultipole) s.1 = .ok t1 → precalcAll U I2 b2 (ks.map preMultipole) s.2 = .ok t2 →
    twoPrecalc U I1 I2 false b1 b2 ks s = .ok (t1, t2) := by
  induction ks with
  | nil =>
    intro s t1 t2 h1 h2
    have e1 : s.1 = t1 := by injection h1
    have e2 : s.2 = t2 := by injection h2
    rw [← e1, ← e2]; rfl
  | cons k ks ih =>
    intro s t1 t2 h1 h2
    have h1' : (precalculate U I1 s.1.2 s.1.2 s.1.1 b1 (preMultipole k) >>= fun s' => precalcAll U I1 b1 (ks.map preMultipole) s') = .ok t1 := h1
    have h2' : (precalculate U I2 s.2.2 s.2.2 s.2.1 b2 (preMultipole k) >>= fun s' => precalcAll U I2 b2 (ks.map preMultipole) s') = .ok t2 := h2
    show (precalculate U I1 s.1.2 s.1.2 s.1.1 b1 (preMultipole k) >>= fun s1 =>
      precalculate U I2 s.2.2 s.2.2 s.2.1 b2 (preMultipole k) >>= fun s2 => twoPrecalc U I1 I2 false b1 b2 ks ((s1.1, s1.2), s2)) = _
    cases e1 : precalculate U I1 s.1.2 s.1.2 s.1.1 b1 (preMultipole k) with
    | ok s1 =>
      cases e2 : precalculate U I2 s.2.2 s.2.2 s.2.1 b2 (preMultipole k) with
      | ok s2 =>
        rw [e1] at h1'; rw [e2] at h2'
        exact ih (s1, s2) t1 t2 h1' h2'
      | throw => rw [e2] at h2'; cases h2'
      | ub => rw [e2] at h2'; cases h2'
    | throw => rw [e1] at h1'; cases h1'
    | ub => rw [e1] at h1'; cases h1'

/-- A value that is the formula or the printed formula. -/
def NearVal (U : Units) (I : OldKey → ℝ) (k : OldKey) (v : ℝ) : Prop := v = oldVal U I k ∨ v = printR (oldVal U I k)

/-- The rows of the database are formulas printed with six digits (what every run leaves behind, `reach_rows`). -/
def DbPrinted (U : Units) (I : OldKey → ℝ) (db : OldDb) : Prop := ∀ k v, db k = some v → v = printR (oldVal U I k)

/-- Maps of an object whose calls are complete and whose entries are formulas or printed formulas. -/
structure CellsNear (U : Units) (I : OldKey → ℝ) (c : Cells) : Prop where
  done : ∀ k, c k ≠ some none
  cell : ∀ k v, c k = some (some v) → NearVal U I k v

theorem near_call (U : Units) (I : OldKey → ℝ) (db : OldDb) (c : Cells) (basis : List Old1) (p : Pre) (hc : CellsNear U I c) (hdb : DbPrinted U I db) :
    ∃ s, precalculate U (some I) db db c basis p = .ok s ∧ CellsNear U I s.1 ∧ DbPrinted U I s.2 ∧ (∀ k, (c k).isSome = true → (s.1 k).isSome = true) ∧
      ∀ k ∈ p.allKeys basis, (s.1 k).isSome = true := by
  obtain ⟨val, s, e1, e2, e3, e4⟩ := precalculate_spec U I db c basis p hc.done
  have ev : ∀ k, val k = oldVal U I k := by
    intro k
    have := (e1 k).symm.trans (oldVal_ok U I k)
    injection this
  refine ⟨s, e2, ⟨?_, ?_⟩, ?_, ?_, ?_⟩
  · intro k
    rw [e3]
    by_cases h : (c k).isSome = true
    · rw [if_pos h]; exact hc.done k
    · rw [if_neg h]; split_ifs <;> simp
  · intro k v hv
    rw [e3] at hv
    by_cases h : (c k).isSome = true
    · rw [if_pos h] at hv; exact hc.cell k v hv
    · rw [if_neg h] at hv
      by_cases hm : k ∈ p.allKeys basis
      · rw [if_pos hm] at hv
        cases hd : db k with
        | none => rw [hd] at hv; simp at hv; left; rw [← hv, ev]
        | some w => rw [hd] at hv; simp at hv; right; rw [← hv]; exact hdb k w hd
      · rw [if_neg hm] at hv; cases hv
  · intro k v hv
    rw [e4] at hv
    by_cases h : c k = none ∧ k ∈ p.allKeys basis ∧ db k = none
    · rw [if_pos h] at hv; rw [← ev]; simpa using hv.symm
    · rw [if_neg h] at hv; exact hdb k v hv
  · intro k hk; rw [e3, if_pos hk]; exact hk
  · intro k hk
    rw [e3]
    by_cases h : (c k).isSome = true
    · rw [if_pos h]; exact h
    · rw [if_neg h, if_pos hk]; rfl

/-- What the precalculations of both atoms leave, for equal or different species. -/
theorem two_near (U : Units) (I1 I2 : OldKey → ℝ) (same : Bool) (hsame : same = true → I1 = I2) (b1 b2 : List Old1) (ks : List ℤ) :
    ∀ s : (Cells × OldDb) × (Cells × OldDb), CellsNear U I1 s.1.1 → CellsNear U I2 s.2.1 → DbPrinted U I1 s.1.2 → DbPrinted U I2 s.2.2 →
    ∃ t, twoPrecalc U (some I1) (some I2) same b1 b2 ks s = .ok t ∧ CellsNear U I1 t.1.1 ∧ CellsNear U I2 t.2.1 ∧ DbPrinted U I1 t.1.2 ∧ DbPrinted U I2 t.2.2 ∧
      (∀ k, (s.1.1 k).isSome = true → (t.1.1 k).isSome = true) ∧ (∀ k, (s.2.1 k).isSome = true → (t.2.1 k).isSome = true) ∧
      (∀ κ ∈ ks, ∀ k ∈ (preMultipole κ).allKeys b1, (t.1.1 k).isSome = true) ∧ (∀ κ ∈ ks, ∀ k ∈ (preMultipole κ).allKeys b2, (t.2.1 k).isSome = true) := by
  induction ks with
  | nil => intro s h1 h2 h3 h4; exact ⟨s, rfl, h1, h2, h3, h4, fun _ h => h, fun _ h => h, by simp, by simp⟩
  | cons κ ks ih =>
    intro s h1 h2 h3 h4
    obtain ⟨s1, a1, a2, a3, a4, a5⟩ := near_call U I1 s.1.2 s.1.1 b1 (preMultipole κ) h1 h3
    have hdb2 : DbPrinted U I2 (if same then s1.2 else s.2.2) := by
      cases same with
      | true => rw [if_pos rfl, ← hsame rfl]; exact a3
      | false => exact h4
    obtain ⟨s2, d1, d2, d3, d4, d5⟩ := near_call U I2 (if same then s1.2 else s.2.2) s.2.1 b2 (preMultipole κ) h2 hdb2
    have hdb1 : DbPrinted U I1 (if same then s2.2 else s1.2) := by
      cases same with
      | true => rw [if_pos rfl, hsame rfl]; exact d3
      | false => exact a3
    obtain ⟨t, r1, r2, r3, r4, r5, r6, r7, r8, r9⟩ := ih ((s1.1, if same then s2.2 else s1.2), s2) a2 d2 hdb1 d3
    refine ⟨t, ?_, r2, r3, r4, r5, fun k hk => r6 k (a4 k hk), fun k hk => r7 k (d4 k hk), ?_, ?_⟩
    · show (precalculate U (some I1) s.1.2 s.1.2 s.1.1 b1 (preMultipole κ) >>= fun s1 =>
        precalculate U (some I2) (if same then s1.2 else s.2.2) (if same then s1.2 else s.2.2) s.2.1 b2 (preMultipole κ) >>= fun s2 =>
        twoPrecalc U (some I1) (some I2) same b1 b2 ks ((s1.1, if same then s2.2 else s1.2), s2)) = _
      rw [a1]
      show (precalculate U (some I2) (if same then s1.2 else s.2.2) (if same then s1.2 else s.2.2) s.2.1 b2 (preMultipole κ) >>= fun s2 =>
        twoPrecalc U (some I1) (some I2) same b1 b2 ks ((s1.1, if same then s2.2 else s1.2), s2)) = _
      rw [d1]
      exact r1
    · intro κ' hκ k hk
      rcases List.mem_cons.mp hκ with rfl | hκ
      · exact r6 k (a5 k hk)
      · exact r8 κ' hκ k hk
    · intro κ' hκ k hk
      rcases List.mem_cons.mp hκ with rfl | hκ
      · exact r7 k (d5 k hk)
      · exact r9 κ' hκ k hk

/-! ## The values -/

/-- The pair states of the program as pair states of the library. -/
def oldPairs (sp1 sp2 : String) (b : Fin N → Old1 × Old1) (i : Fin N) : Option (QN × QN) := some ((b i).1.qn sp1, (b i).2.qn sp2)

/-- Specification: the sum of the sizes of the terms of an order. -/
noncomputable def multipoleSize (C : FieldConsts) (radial : RadKey → ℝ) (me : Method) (order : ℕ) (a b : QN × QN) : ℝ :=
  if a.1.m + a.2.m = b.1.m + b.2.m then ∑ i ∈ Finset.range (order - 2), |multipoleTerm C radial me (i + 1) (order - 2 - i) a b| else 0

theorem multipoleSize_symm (C : FieldConsts) (radial : RadKey → ℝ) (me : Method) (o : ℕ) (a b : QN × QN) (ok : PairOK a b) :
    multipoleSize C radial me o b a = multipoleSize C radial me o a b := by
  unfold multipoleSize
  by_cases hm : a.1.m + a.2.m = b.1.m + b.2.m
  · rw [if_pos hm, if_pos hm.symm]
    exact Finset.sum_congr rfl fun i _ => by rw [multipoleTerm_symm C radial me _ _ a b ok hm]
  · rw [if_neg hm, if_neg (fun h => hm h.symm)]

/-- The elements that the objects return are those of the library up to the relative error ε. -/
def ElemsNear (C : FieldConsts) (radial : RadKey → ℝ) (me : Method) (sp : String) (ε : ℝ) (kmax : ℤ) (S : Old1 → Prop) (c : Cells) : Prop :=
  ∀ a b, S a → S b → ∀ k, 1 ≤ k → k ≤ kmax → |oldMultipole c a b k - elem C radial me k (a.qn sp) (b.qn sp)| ≤ ε * |elem C radial me k (a.qn sp) (b.qn sp)|

theorem prod_rel {x x' y y' ε : ℝ} (hε : 0 ≤ ε) (hx : |x' - x| ≤ ε * |x|) (hy : |y' - y| ≤ ε * |y|) : |x' * y' - x * y| ≤ (2 * ε + ε ^ 2) * |x * y| := by
  have e : x' * y' - x * y = (x' - x) * (y' - y) + (x' - x) * y + x * (y' - y) := by ring
  rw [e, abs_mul x y]
  refine (abs_add_three _ _ _).trans ?_
  rw [abs_mul, abs_mul, abs_mul]
  have h1 := mul_le_mul hx hy (abs_nonneg _) (by positivity)
  have h2 := mul_le_mul_of_nonneg_right hx (abs_nonneg y)
  have h3 := mul_le_mul_of_nonneg_left hy (abs_nonneg x)
  nlinarith

theorem pair_ok (sp1 sp2 : String) (a b : Old1 × Old1) (ha : OldValid a.1 ∧ OldValid a.2) (hb : OldValid b.1 ∧ OldValid b.2) :
    PairOK (a.1.qn sp1, a.2.qn sp2) (b.1.qn sp1, b.2.qn sp2) :=
  ⟨a.1.qn_physical sp1 ha.1, a.2.qn_physical sp2 ha.2, b.1.qn_physical sp1 hb.1, b.2.qn_physical sp2 hb.2, rfl, rfl, rfl, rfl⟩

theorem pairVal_rel (U : Units) (radial : RadKey → ℝ) (me : Method) (sp1 sp2 : String) (ε : ℝ) (hε : 0 ≤ ε) (sum : ℕ) (hsum : 2 ≤ sum) (S1 S2 : Old1 → Prop) (c1 c2 : Cells)
    (h1 : ElemsNear U.consts radial me sp1 ε (sum - 1) S1 c1) (h2 : ElemsNear U.consts radial me sp2 ε (sum - 1) S2 c2)
    (a b : Old1 × Old1) (ha : OldValid a.1 ∧ OldValid a.2) (hb : OldValid b.1 ∧ OldValid b.2) (sa : S1 a.1 ∧ S2 a.2) (sb : S1 b.1 ∧ S2 b.2)
    (hm : a.1.m + a.2.m = b.1.m + b.2.m) :
    |oldPairVal U c1 c2 sum a b - multipoleSpecPair U.consts radial me (sum + 1) (a.1.qn sp1, a.2.qn sp2) (b.1.qn sp1, b.2.qn sp2)| ≤
      (2 * ε + ε ^ 2) * multipoleSize U.consts radial me (sum + 1) (a.1.qn sp1, a.2.qn sp2) (b.1.qn sp1, b.2.qn sp2) := by
  have ok := pair_ok sp1 sp2 a b ha hb
  have hm' : (a.1.qn sp1).m + (a.2.qn sp2).m = (b.1.qn sp1).m + (b.2.qn sp2).m := hm
  unfold multipoleSpecPair multipoleSize
  rw [if_pos hm', if_pos hm']
  unfold oldPairVal
  rw [← List.sum_toFinset _ (List.nodup_range), List.toFinset_range, show sum + 1 - 2 = sum - 1 by omega, ← Finset.sum_sub_distrib, Finset.mul_sum]
  refine (Finset.abs_sum_le_sum_abs _ _).trans (Finset.sum_le_sum fun i hi => ?_)
  rw [Finset.mem_range] at hi
  have hk2 : ((sum : ℤ) - ((i : ℤ) + 1)) = ((sum - 1 - i : ℕ) : ℤ) := by omega
  rw [hk2, show (i : ℤ) + 1 = ((i + 1 : ℕ) : ℤ) by push_cast; rfl]
  have r1 := h1 a.1 b.1 sa.1 sb.1 ((i + 1 : ℕ) : ℤ) (by omega) (by omega)
  have r2 := h2 a.2 b.2 sa.2 sb.2 ((sum - 1 - i : ℕ) : ℤ) (by omega) (by omega)
  unfold oldPairTerm multipoleTerm
  dsimp only
  by_cases s1 : oldSelMultipole a.1 b.1 ((i + 1 : ℕ) : ℤ) = true
  · by_cases s2 : oldSelMultipole a.2 b.2 ((sum - 1 - i : ℕ) : ℤ) = true
    · have p1 := ha.1.mpar
      have p2 := ha.2.mpar
      have p3 := hb.1.mpar
      have p4 := hb.2.mpar
      have q1 : (a.1.m - b.1.m).tdiv 2 = (a.1.m - b.1.m) / 2 := Int.tdiv_eq_ediv_of_dvd (by omega)
      have q2 : (a.2.m - b.2.m).tdiv 2 = -((a.1.m - b.1.m) / 2) := by rw [Int.tdiv_eq_ediv_of_dvd (by omega)]; omega
      rw [s1, s2, if_pos (by simp), q1, q2, neg_neg, if_pos rfl, sub_neg_eq_add, sgn_nat]
      have ed : ((a.1.qn sp1).m - (b.1.qn sp1).m) / 2 = (a.1.m - b.1.m) / 2 := rfl
      rw [ed, show U.consts.ke = U.ke from rfl]
      set q := (a.1.m - b.1.m) / 2
      set f : ℝ := U.ke * (-1) ^ (sum - 1 - i) * Real.sqrt ((i + 1 + (sum - 1 - i)).choose (((i + 1 : ℕ) : ℤ) + q).toNat * (i + 1 + (sum - 1 - i)).choose (((sum - 1 - i : ℕ) : ℤ) + q).toNat) with hf
      have eb : U.ke * (-1) ^ (sum - 1 - i) * Real.sqrt ((binom (((i + 1 : ℕ) : ℤ) + ((sum - 1 - i : ℕ) : ℤ)) (((i + 1 : ℕ) : ℤ) + q) : ℕ) *
          (binom (((i + 1 : ℕ) : ℤ) + ((sum - 1 - i : ℕ) : ℤ)) (((sum - 1 - i : ℕ) : ℤ) + q) : ℕ)) = f := by
        unfold binom
        rw [hf]
        have : (((i + 1 : ℕ) : ℤ) + ((sum - 1 - i : ℕ) : ℤ)).toNat = i + 1 + (sum - 1 - i) := by omega
        rw [this]
      rw [eb]
      clear_value f
      show |f * _ * _ - f * _ * _| ≤ _ * |f * _ * _|
      rw [mul_assoc, mul_assoc f, ← mul_sub, abs_mul, abs_mul f, mul_left_comm]
      exact mul_le_mul_of_nonneg_left (prod_rel hε r1 r2) (abs_nonneg f)
    · have z := elem_zero U.consts radial me (a.2.qn sp2) (b.2.qn sp2) ok.a2 ok.b2 ok.sp2 ok.s2 _ (Int.natCast_nonneg (sum - 1 - i)) (by
        rw [← (oldSel_eq sp2 a.2 b.2 _ 0).1]; simpa using s2)
      rw [z, mul_zero]
      simp [s2]
  · have z := elem_zero U.consts radial me (a.1.qn sp1) (b.1.qn sp1) ok.a1 ok.b1 ok.sp1 ok.s1 _ (Int.natCast_nonneg (i + 1)) (by
        rw [← (oldSel_eq sp1 a.1 b.1 _ 0).1]; simpa using s1)
    rw [z, mul_zero, zero_mul]
    simp only [s1, Bool.false_and, Bool.false_eq_true, if_false]
    simp

theorem pairMat_rel (U : Units) (radial : RadKey → ℝ) (me : Method) (sp1 sp2 : String) (ε : ℝ) (hε : 0 ≤ ε) (sum : ℕ) (hsum : 2 ≤ sum) (c1 c2 : Cells)
    (b : Fin N → Old1 × Old1) (hb : ∀ i, OldValid (b i).1 ∧ OldValid (b i).2) (nec : Fin N → Bool)
    (h1 : ElemsNear U.consts radial me sp1 ε (sum - 1) (fun x => ∃ i, (b i).1 = x) c1) (h2 : ElemsNear U.consts radial me sp2 ε (sum - 1) (fun x => ∃ i, (b i).2 = x) c2)
    (r c : Fin N) :
    ‖oldPairMat U c1 c2 nec b sum r c - (if nec r = true ∧ nec c = true then
        (multipoleSpecPair U.consts radial me (sum + 1) ((b r).1.qn sp1, (b r).2.qn sp2) ((b c).1.qn sp1, (b c).2.qn sp2) : ℂ) else 0)‖ ≤
      (2 * ε + ε ^ 2) * multipoleSize U.consts radial me (sum + 1) ((b r).1.qn sp1, (b r).2.qn sp2) ((b c).1.qn sp1, (b c).2.qn sp2) + 1e-32 := by
  have low : ∀ r c : Fin N, |oldPairEntry U c1 c2 nec b sum r c - (if nec r = true ∧ nec c = true then
        multipoleSpecPair U.consts radial me (sum + 1) ((b r).1.qn sp1, (b r).2.qn sp2) ((b c).1.qn sp1, (b c).2.qn sp2) else 0)| ≤
      (2 * ε + ε ^ 2) * multipoleSize U.consts radial me (sum + 1) ((b r).1.qn sp1, (b r).2.qn sp2) ((b c).1.qn sp1, (b c).2.qn sp2) + 1e-32 := by
    intro r c
    have hs0 : 0 ≤ multipoleSize U.consts radial me (sum + 1) ((b r).1.qn sp1, (b r).2.qn sp2) ((b c).1.qn sp1, (b c).2.qn sp2) := by
      unfold multipoleSize; split_ifs
      · exact Finset.sum_nonneg fun i _ => abs_nonneg _
      · exact le_rfl
    have hb0 : 0 ≤ (2 * ε + ε ^ 2) * multipoleSize U.consts radial me (sum + 1) ((b r).1.qn sp1, (b r).2.qn sp2) ((b c).1.qn sp1, (b c).2.qn sp2) + 1e-32 := by positivity
    unfold oldPairEntry
    by_cases hn : nec r = true ∧ nec c = true
    · rw [if_pos hn, if_neg (by simp [hn.1, hn.2])]
      have p1 := (hb r).1.mpar
      have p2 := (hb r).2.mpar
      have p3 := (hb c).1.mpar
      have p4 := (hb c).2.mpar
      have d1 : ((b c).1.m + (b c).2.m).tdiv 2 = ((b c).1.m + (b c).2.m) / 2 := Int.tdiv_eq_ediv_of_dvd (by omega)
      have d2 : ((b r).1.m + (b r).2.m).tdiv 2 = ((b r).1.m + (b r).2.m) / 2 := Int.tdiv_eq_ediv_of_dvd (by omega)
      rw [d1, d2]
      by_cases hm : (b r).1.m + (b r).2.m = (b c).1.m + (b c).2.m
      · rw [if_neg (by rw [hm]; simp)]
        have key := pairVal_rel U radial me sp1 sp2 ε hε sum hsum _ _ c1 c2 h1 h2 (b r) (b c) (hb r) (hb c) ⟨⟨r, rfl⟩, r, rfl⟩ ⟨⟨c, rfl⟩, c, rfl⟩ hm
        by_cases ht : |oldPairVal U c1 c2 sum (b r) (b c)| > 1e-32
        · rw [if_pos ht]; linarith
        · rw [if_neg ht]
          rw [not_lt] at ht
          rw [abs_le] at key ht ⊢
          constructor <;> linarith [key.1, key.2, ht.1, ht.2]
      · rw [if_pos (by omega)]
        have hm' : ¬ (((b r).1.qn sp1).m + ((b r).2.qn sp2).m = ((b c).1.qn sp1).m + ((b c).2.qn sp2).m) := hm
        unfold multipoleSpecPair at *
        rw [if_neg hm', sub_self, abs_zero]
        exact hb0
    · rw [if_neg hn, if_pos (by
        by_cases h : nec c = true
        · right; have : ¬ nec r = true := fun h' => hn ⟨h', h⟩
          simpa using this
        · left; simpa using h), sub_self, abs_zero]
      exact hb0
  unfold oldPairMat
  have ok := pair_ok sp1 sp2 (b r) (b c) (hb r) (hb c)
  by_cases hrc : r < c
  · have l := low c r
    rw [if_pos hrc]
    rw [multipoleSpecPair_symm _ _ _ _ _ _ ok, multipoleSize_symm _ _ _ _ _ _ ok] at l
    have e : (nec c = true ∧ nec r = true) = (nec r = true ∧ nec c = true) := by rw [and_comm]
    simp only [e] at l
    refine le_trans (le_of_eq ?_) l
    rw [← Real.norm_eq_abs, ← Complex.norm_real]
    congr 1
    split_ifs <;> push_cast <;> rfl
  · have l := low r c
    rw [if_neg hrc]
    refine le_trans (le_of_eq ?_) l
    rw [← Real.norm_eq_abs, ← Complex.norm_real]
    congr 1
    split_ifs <;> push_cast <;> rfl

theorem interaction_rel (U : Units) (radial : RadKey → ℝ) (me : Method) (sp1 sp2 : String) (ε : ℝ) (hε : 0 ≤ ε) (exponent : ℤ) (c1 c2 : Cells)
    (b : Fin N → Old1 × Old1) (hb : ∀ i, OldValid (b i).1 ∧ OldValid (b i).2) (nec : Fin N → Bool)
    (h1 : ElemsNear U.consts radial me sp1 ε (exponent - 2) (fun x => ∃ i, (b i).1 = x) c1)
    (h2 : ElemsNear U.consts radial me sp2 ε (exponent - 2) (fun x => ∃ i, (b i).2 = x) c2) (p : PairParams) (hp : OnAxis p) (ho : p.order = exponent.toNat) (r c : Fin N) :
    ‖oldInteraction U c1 c2 nec b exponent p.dist r c - (if nec r = true ∧ nec c = true then pairH U.consts radial me (oldPairs sp1 sp2 b) p r c else 0)‖ ≤
      ∑ o ∈ Finset.Icc 3 p.order, |1 / p.dist ^ o| *
        ((2 * ε + ε ^ 2) * multipoleSize U.consts radial me o ((b r).1.qn sp1, (b r).2.qn sp2) ((b c).1.qn sp1, (b c).2.qn sp2) + 1e-32) := by
  have hgood : GoodPairs (oldPairs sp1 sp2 b) := by
    intro i a hi
    injection hi with hi
    subst hi
    refine ⟨(b i).1.qn_physical sp1 (hb i).1, (b i).2.qn_physical sp2 (hb i).2, ?_⟩
    intro j a' hj
    injection hj with hj
    subst hj
    exact ⟨rfl, rfl, rfl, rfl⟩
  have lib := C44_multipole_operator U.consts radial me (oldPairs sp1 sp2 b) hgood p hp r c
  dsimp only [oldPairs] at lib
  have eI : Finset.Icc 3 p.order = Finset.Ico 3 (p.order + 1) := by ext x; simp only [Finset.mem_Icc, Finset.mem_Ico]; omega
  have eL : oldInteraction U c1 c2 nec b exponent p.dist r c = ∑ o ∈ Finset.Icc 3 p.order, ((1 / p.dist ^ o : ℝ) : ℂ) * oldPairMat U c1 c2 nec b (o - 1) r c := by
    unfold oldInteraction oldSums
    rw [msum_apply, List.map_map, eI, Finset.sum_Ico_eq_sum_range]
    by_cases he : exponent > 2
    · rw [if_pos he, List.map_map, ← List.sum_toFinset _ List.nodup_range, List.toFinset_range, show p.order + 1 - 3 = (exponent - 2).toNat by omega]
      refine Finset.sum_congr rfl fun i _ => ?_
      simp only [Function.comp, Matrix.smul_apply, smul_eq_mul]
      rw [show i + 2 + 1 = 3 + i by omega, show i + 2 = 3 + i - 1 by omega]
    · rw [if_neg he, show p.order + 1 - 3 = 0 by omega]; simp
  have eR : (if nec r = true ∧ nec c = true then pairH U.consts radial me (oldPairs sp1 sp2 b) p r c else 0) =
      ∑ o ∈ Finset.Icc 3 p.order, ((1 / p.dist ^ o : ℝ) : ℂ) * (if nec r = true ∧ nec c = true then
        (multipoleSpecPair U.consts radial me o ((b r).1.qn sp1, (b r).2.qn sp2) ((b c).1.qn sp1, (b c).2.qn sp2) : ℂ) else 0) := by
    by_cases hn : nec r = true ∧ nec c = true
    · simp only [if_pos hn]
      refine Eq.trans lib ?_
      push_cast; rfl
    · simp only [if_neg hn, mul_zero, Finset.sum_const_zero]
  rw [eL, eR, ← Finset.sum_sub_distrib]
  refine (norm_sum_le _ _).trans (Finset.sum_le_sum fun o hoo => ?_)
  rw [Finset.mem_Icc] at hoo
  rw [← mul_sub, norm_mul, Complex.norm_real, Real.norm_eq_abs]
  refine mul_le_mul_of_nonneg_left ?_ (abs_nonneg _)
  have hw : ∀ {sp : String} {S : Old1 → Prop} {c : Cells}, ElemsNear U.consts radial me sp ε (exponent - 2) S c →
      ElemsNear U.consts radial me sp ε (((o - 1 : ℕ) : ℤ) - 1) S c := fun h a a' ha ha' k k1 k2 => h a a' ha ha' k k1 (by omega)
  have := pairMat_rel U radial me sp1 sp2 ε hε (o - 1) (by omega) c1 c2 b hb nec (hw h1) (hw h2) r c
  rw [show o - 1 + 1 = o by omega] at this
  exact this

theorem kappas_mem (exponent : ℤ) (k : ℤ) : k ∈ oldKappas exponent ↔ 1 ≤ k ∧ k ≤ exponent - 2 := by
  unfold oldKappas
  by_cases h : exponent > 2
  · rw [if_pos h]
    simp only [List.mem_map, List.mem_range]
    constructor
    · rintro ⟨i, hi, rfl⟩; omega
    · rintro ⟨h1, h2⟩; exact ⟨(k - 1).toNat, by omega, by omega⟩
  · rw [if_neg h]
    simp only [List.not_mem_nil, false_iff]
    omega

theorem mem_first (names : List (Named (Old1 × Old1))) (second : Bool) (x : Old1) :
    x ∈ (buildFromTwo second names).map (·.2) ↔ ∃ i : Fin names.length, (if second then (names.get i).2.2 else (names.get i).2.1) = x := by
  rw [(C56_from_two second names).2.1]
  constructor
  · rintro ⟨y, hy, rfl⟩
    obtain ⟨i, hi, rfl⟩ := List.mem_iff_getElem.mp hy
    exact ⟨⟨i, hi⟩, rfl⟩
  · rintro ⟨i, rfl⟩
    exact ⟨names.get i, List.get_mem _ _, rfl⟩

section
variable (U : Units) (J : RadKey → ℝ) (me : Method) (sp1 sp2 : String)

/-- **C87.** For all species that differ, all pair bases of valid states, all restrictions, exponents and distances, and all databases without rounded rows: the
program does not throw, and its interaction between necessary states is the multipole operator of the library along z with that order (C44) up to the
tolerance of 1e-32 per order; every other entry is zero. -/
theorem C87_first_run (hU : U.um ≠ 0 ∧ U.Vcm ≠ 0 ∧ U.GHz ≠ 0 ∧ U.G ≠ 0) (hsp : sp1 ≠ sp2) (names : List (Named (Old1 × Old1)))
    (hv : ∀ x ∈ names, OldValid x.2.1 ∧ OldValid x.2.2) (nec : Fin names.length → Bool) (exponent : ℤ) (db1 db2 : OldDb)
    (h1 : DbExact U (oldIntegral me sp1 J) db1) (h2 : DbExact U (oldIntegral me sp2 J) db2) :
    ∃ H, oldTwo U (some (oldIntegral me sp1 J)) (some (oldIntegral me sp2 J)) (decide (sp1 = sp2)) names nec exponent db1 db2 = .ok H ∧
      ∀ p : PairParams, OnAxis p → p.order = exponent.toNat → ∀ r c,
        ‖H p.dist r c - (if nec r = true ∧ nec c = true then pairH U.consts (U.radial J) me (oldPairs sp1 sp2 fun i => (names.get i).2) p r c else 0)‖ ≤
          ∑ o ∈ Finset.Icc 3 p.order, |1 / p.dist ^ o| * 1e-32 := by
  set b1 := (buildFromTwo false names).map (·.2) with hb1
  set b2 := (buildFromTwo true names).map (·.2) with hb2
  have v1 : ∀ x ∈ b1, OldValid x := by
    intro x hx
    obtain ⟨i, rfl⟩ := (mem_first names false x).mp hx
    exact (hv _ (List.get_mem names i)).1
  have v2 : ∀ x ∈ b2, OldValid x := by
    intro x hx
    obtain ⟨i, rfl⟩ := (mem_first names true x).mp hx
    exact (hv _ (List.get_mem names i)).2
  obtain ⟨t1, e1, f1⟩ := C84_elements U J me sp1 hU b1 v1 ((oldKappas exponent).map preMultipole) db1 h1
  obtain ⟨t2, e2, f2⟩ := C84_elements U J me sp2 hU b2 v2 ((oldKappas exponent).map preMultipole) db2 h2
  have ht := two_diff U _ _ b1 b2 (oldKappas exponent) ((fun _ => none, db1), (fun _ => none, db2)) t1 t2 e1 e2
  refine ⟨fun R => oldInteraction U t1.1 t2.1 nec (fun i => (names.get i).2) exponent R, ?_, ?_⟩
  · unfold oldTwo
    rw [decide_eq_false hsp, ← hb1, ← hb2, ht]
    rfl
  · intro p hp ho r c
    have n1 : ElemsNear U.consts (U.radial J) me sp1 0 (exponent - 2) (fun x => ∃ i, (names.get i).2.1 = x) t1.1 := by
      rintro a b ha hb k k1 k2
      have := (f1 a ((mem_first names false a).mpr ha) b ((mem_first names false b).mpr hb) (preMultipole k)
        (List.mem_map_of_mem ((kappas_mem exponent k).mpr ⟨k1, k2⟩)) (by intro q hq; cases hq)).1 rfl k1 rfl
      unfold elem
      rw [show (preMultipole k).kappa = k from rfl] at this
      rw [this]
      simp [outVal]
    have n2 : ElemsNear U.consts (U.radial J) me sp2 0 (exponent - 2) (fun x => ∃ i, (names.get i).2.2 = x) t2.1 := by
      rintro a b ha hb k k1 k2
      have := (f2 a ((mem_first names true a).mpr ha) b ((mem_first names true b).mpr hb) (preMultipole k)
        (List.mem_map_of_mem ((kappas_mem exponent k).mpr ⟨k1, k2⟩)) (by intro q hq; cases hq)).1 rfl k1 rfl
      unfold elem
      rw [show (preMultipole k).kappa = k from rfl] at this
      rw [this]
      simp [outVal]
    have := interaction_rel U (U.radial J) me sp1 sp2 0 le_rfl exponent t1.1 t2.1 (fun i => (names.get i).2) (fun i => hv _ (List.get_mem names i)) nec n1 n2 p hp ho r c
    simpa using this

/-- The elements of an object whose entries are formulas or printed formulas. -/
theorem near_elems (hU : U.um ≠ 0) (sp : String) (c : Cells) (hc : CellsNear U (oldIntegral me sp J) c) (kmax : ℤ) (basis : List Old1) (hv : ∀ x ∈ basis, OldValid x)
    (hpres : ∀ κ, 1 ≤ κ → κ ≤ kmax → ∀ k ∈ (preMultipole κ).allKeys basis, (c k).isSome = true) :
    ElemsNear U.consts (U.radial J) me sp 2.1e-5 kmax (fun x => x ∈ basis) c := by
  intro a b ha hb k k1 k2
  obtain ⟨x, hx, hr⟩ := elem_rel U J me sp hU c (by
    intro k
    cases hk : c k with
    | none => left; rfl
    | some y =>
      cases y with
      | none => exact absurd hk (hc.done k)
      | some v =>
        right
        rcases hc.cell k v hk with h | h
        · left; rw [h]
        · right; rw [h]) a b (hv a ha) (hv b hb) k k1 (by
    intro hs
    obtain ⟨q1, q2, q3, q4⟩ := (preMultipole k).keys_el a b (by intro q hq; cases hq) rfl hs
    have pres := fun k' (hk' : k' ∈ (preMultipole k).keys a b) => hpres k k1 k2 k' (((preMultipole k).mem_allKeys basis k').mpr ⟨a, ha, b, hb, hk'⟩)
    exact ⟨pres _ q1, pres _ q2, pres _ q3, pres _ q4⟩)
  have : elem U.consts (U.radial J) me k (a.qn sp) (b.qn sp) = x := by unfold elem; rw [hx]; rfl
  rw [this]
  exact hr

/-- **C87.** For equal or different species, and all databases that earlier runs can have left behind: the program does not throw, and its interaction between
necessary states deviates from the multipole operator of the library by at most 4.3e-5 of the sizes of the terms (and the tolerance of 1e-32 per order). -/
theorem C87_any_history (hU : U.um ≠ 0) (names : List (Named (Old1 × Old1)))
    (hv : ∀ x ∈ names, OldValid x.2.1 ∧ OldValid x.2.2) (nec : Fin names.length → Bool) (exponent : ℤ) (db1 db2 : OldDb)
    (h1 : DbPrinted U (oldIntegral me sp1 J) db1) (h2 : DbPrinted U (oldIntegral me sp2 J) db2) :
    ∃ H, oldTwo U (some (oldIntegral me sp1 J)) (some (oldIntegral me sp2 J)) (decide (sp1 = sp2)) names nec exponent db1 db2 = .ok H ∧
      ∀ p : PairParams, OnAxis p → p.order = exponent.toNat → ∀ r c,
        ‖H p.dist r c - (if nec r = true ∧ nec c = true then pairH U.consts (U.radial J) me (oldPairs sp1 sp2 fun i => (names.get i).2) p r c else 0)‖ ≤
          ∑ o ∈ Finset.Icc 3 p.order, |1 / p.dist ^ o| * (4.3e-5 * multipoleSize U.consts (U.radial J) me o
            ((names.get r).2.1.qn sp1, (names.get r).2.2.qn sp2) ((names.get c).2.1.qn sp1, (names.get c).2.2.qn sp2) + 1e-32) := by
  set b1 := (buildFromTwo false names).map (·.2) with hb1
  set b2 := (buildFromTwo true names).map (·.2) with hb2
  have v1 : ∀ x ∈ b1, OldValid x := by
    intro x hx
    obtain ⟨i, rfl⟩ := (mem_first names false x).mp hx
    exact (hv _ (List.get_mem names i)).1
  have v2 : ∀ x ∈ b2, OldValid x := by
    intro x hx
    obtain ⟨i, rfl⟩ := (mem_first names true x).mp hx
    exact (hv _ (List.get_mem names i)).2
  obtain ⟨t, ht, n1, n2, -, -, -, -, p1, p2⟩ := two_near U (oldIntegral me sp1 J) (oldIntegral me sp2 J) (decide (sp1 = sp2))
    (by intro h; rw [of_decide_eq_true h]) b1 b2 (oldKappas exponent) ((fun _ => none, db1), (fun _ => none, db2)) ⟨by simp, by simp⟩ ⟨by simp, by simp⟩ h1 h2
  refine ⟨fun R => oldInteraction U t.1.1 t.2.1 nec (fun i => (names.get i).2) exponent R, ?_, ?_⟩
  · unfold oldTwo
    rw [← hb1, ← hb2, ht]
    rfl
  · intro p hp ho r c
    have m1 := near_elems U J me hU sp1 t.1.1 n1 (exponent - 2) b1 v1 fun κ k1 k2 => p1 κ ((kappas_mem exponent κ).mpr ⟨k1, k2⟩)
    have m2 := near_elems U J me hU sp2 t.2.1 n2 (exponent - 2) b2 v2 fun κ k1 k2 => p2 κ ((kappas_mem exponent κ).mpr ⟨k1, k2⟩)
    refine (interaction_rel U (U.radial J) me sp1 sp2 2.1e-5 (by norm_num) exponent t.1.1 t.2.1 (fun i => (names.get i).2) (fun i => hv _ (List.get_mem names i)) nec
      (fun a b ha hb => m1 a b ((mem_first names false a).mpr ha) ((mem_first names false b).mpr hb))
      (fun a b ha hb => m2 a b ((mem_first names true a).mpr ha) ((mem_first names true b).mpr hb)) p hp ho r c).trans ?_
    refine Finset.sum_le_sum fun o _ => mul_le_mul_of_nonneg_left (add_le_add_left ?_ _) (abs_nonneg _)
    refine mul_le_mul_of_nonneg_right (by norm_num) ?_
    unfold multipoleSize; split_ifs
    · exact Finset.sum_nonneg fun i _ => abs_nonneg _
    · exact le_rfl

end

/-- **C87.** Whatever the database holds: the interaction is real and symmetric, couples only necessary pair states of equal total momentum, and an exponent
below three gives none. -/
theorem C87_structure (U : Units) (I1 I2 : Option (OldKey → ℝ)) (same : Bool) (names : List (Named (Old1 × Old1))) (nec : Fin names.length → Bool) (exponent : ℤ)
    (db1 db2 : OldDb) (H : ℝ → Matrix (Fin names.length) (Fin names.length) ℂ) (h : oldTwo U I1 I2 same names nec exponent db1 db2 = .ok H)
    (hv : ∀ x ∈ names, OldValid x.2.1 ∧ OldValid x.2.2) (R : ℝ) (r c : Fin names.length) :
    H R r c = H R c r ∧ (H R r c).im = 0 ∧
    (H R r c ≠ 0 → nec r = true ∧ nec c = true ∧ (names.get r).2.1.m + (names.get r).2.2.m = (names.get c).2.1.m + (names.get c).2.2.m ∧ 2 < exponent) := by
  have hH : ∃ c1 c2, H = fun R => oldInteraction U c1 c2 nec (fun i => (names.get i).2) exponent R := by
    unfold oldTwo at h
    revert h
    cases twoPrecalc U I1 I2 same ((buildFromTwo false names).map (·.2)) ((buildFromTwo true names).map (·.2)) (oldKappas exponent) ((fun _ => none, db1), (fun _ => none, db2)) with
    | ok s => intro h; exact ⟨s.1.1, s.2.1, (Out.ok.inj h).symm⟩
    | throw => intro h; cases h
    | ub => intro h; cases h
  obtain ⟨c1, c2, rfl⟩ := hH
  dsimp only
  have low : ∀ (sum : ℕ) (r c : Fin names.length), oldPairEntry U c1 c2 nec (fun i => (names.get i).2) sum r c ≠ 0 →
      nec r = true ∧ nec c = true ∧ (names.get r).2.1.m + (names.get r).2.2.m = (names.get c).2.1.m + (names.get c).2.2.m := by
    intro sum r c
    unfold oldPairEntry
    by_cases hn : nec c = false ∨ nec r = false
    · rw [if_pos hn]; simp
    · rw [if_neg hn]
      intro h
      have hn' : nec r = true ∧ nec c = true := by
        rw [not_or] at hn; simpa [and_comm] using hn
      by_cases hm : ((names.get c).2.1.m + (names.get c).2.2.m).tdiv 2 ≠ ((names.get r).2.1.m + (names.get r).2.2.m).tdiv 2
      · rw [if_pos hm] at h; exact absurd rfl h
      · refine ⟨hn'.1, hn'.2, ?_⟩
        rw [not_not] at hm
        have p1 := (hv _ (List.get_mem names r)).1.mpar
        have p2 := (hv _ (List.get_mem names r)).2.mpar
        have p3 := (hv _ (List.get_mem names c)).1.mpar
        have p4 := (hv _ (List.get_mem names c)).2.mpar
        rw [Int.tdiv_eq_ediv_of_dvd (by omega), Int.tdiv_eq_ediv_of_dvd (by omega)] at hm
        omega
  have sym : ∀ sum, oldPairMat U c1 c2 nec (fun i => (names.get i).2) sum r c = oldPairMat U c1 c2 nec (fun i => (names.get i).2) sum c r := by
    intro sum
    unfold oldPairMat
    by_cases h1 : r < c
    · rw [if_pos h1, if_neg (by omega)]
    · by_cases h2 : c < r
      · rw [if_neg h1, if_pos h2]
      · have : r = c := by omega
        subst this; rfl
  have im0 : ∀ sum, (oldPairMat U c1 c2 nec (fun i => (names.get i).2) sum r c).im = 0 := by
    intro sum; unfold oldPairMat; split_ifs <;> exact Complex.ofReal_im _
  have e : ∀ r c, oldInteraction U c1 c2 nec (fun i => (names.get i).2) exponent R r c =
      ((oldSums exponent).map fun sum => ((1 / R ^ (sum + 1) : ℝ) : ℂ) * oldPairMat U c1 c2 nec (fun i => (names.get i).2) sum r c).sum := by
    intro r c; unfold oldInteraction; rw [msum_apply, List.map_map]; rfl
  refine ⟨?_, ?_, ?_⟩
  · rw [e, e]; congr 1; exact List.map_congr_left fun s _ => by rw [sym]
  · rw [e]
    have : ∀ L : List ℕ, ((L.map fun sum => ((1 / R ^ (sum + 1) : ℝ) : ℂ) * oldPairMat U c1 c2 nec (fun i => (names.get i).2) sum r c).sum).im = 0 := by
      intro L
      induction L with
      | nil => simp
      | cons x L ih => simp only [List.map_cons, List.sum_cons, Complex.add_im, Complex.im_ofReal_mul, im0, ih]; ring
    exact this _
  · intro hne
    rw [e] at hne
    have hex : ∃ sum ∈ oldSums exponent, oldPairMat U c1 c2 nec (fun i => (names.get i).2) sum r c ≠ 0 := by
      by_contra hcon
      push Not at hcon
      apply hne
      apply List.sum_eq_zero
      intro x hx
      obtain ⟨sum, hs, rfl⟩ := List.mem_map.mp hx
      rw [hcon sum hs, mul_zero]
    obtain ⟨sum, hs, hnz⟩ := hex
    have hexp : 2 < exponent := by
      by_contra hh
      unfold oldSums at hs
      rw [if_neg (by omega)] at hs
      exact absurd hs (List.not_mem_nil)
    unfold oldPairMat at hnz
    by_cases h1 : r < c
    · rw [if_pos h1] at hnz
      obtain ⟨a1, a2, a3⟩ := low sum c r (by intro h0; rw [h0] at hnz; exact hnz Complex.ofReal_zero)
      exact ⟨a2, a1, a3.symm, hexp⟩
    · rw [if_neg h1] at hnz
      obtain ⟨a1, a2, a3⟩ := low sum r c (by intro h0; rw [h0] at hnz; exact hnz Complex.ofReal_zero)
      exact ⟨a1, a2, a3, hexp⟩

/-! ## Equal species: the exchange of the atoms -/

theorem w3j_1210 : w3j 1 2 1 (-1) 0 1 ^ 2 = 1 / 6 := by
  obtain ⟨f0, f1, f2, f3, f4, f5, f6, f7⟩ := fct_vals
  obtain ⟨g0, g1, g2, g3, g4, gn⟩ := ifct_vals
  rw [w3j_sq _ _ _ _ _ _ (by decide), sum3_eq]
  have : Finset.Icc (0 : ℤ) ((1 + 2 - 1) / 2) = {0, 1} := by decide
  rw [this]
  norm_num [rad3, f0, f1, f2, f3, f4, f5, f6, g0, g1, g2, sgn, gn]

theorem w6j_211102 : w6j 2 1 1 1 0 2 ^ 2 = 1 / 6 := by
  obtain ⟨f0, f1, f2, f3, f4, f5, f6, f7⟩ := fct_vals
  obtain ⟨g0, g1, g2, g3, g4, gn⟩ := ifct_vals
  rw [w6j_sq _ _ _ _ _ _ (by decide), sum6_eq]
  have : Finset.Icc (((2 : ℤ) + 1 + 1) / 2) ((2 + 1 + 1 + 0) / 2) = {2} := by decide
  rw [this]
  norm_num [delta2, f0, f1, f2, f3, f4, f5, f6, g0, g1, g2, sgn, gn]

theorem w3j_220 : w3j 2 2 0 0 0 0 ^ 2 = 1 / 3 := by
  obtain ⟨f0, f1, f2, f3, f4, f5, f6, f7⟩ := fct_vals
  obtain ⟨g0, g1, g2, g3, g4, gn⟩ := ifct_vals
  rw [w3j_sq _ _ _ _ _ _ (by decide), sum3_eq]
  have : Finset.Icc (0 : ℤ) ((2 + 2 - 0) / 2) = {0, 1, 2} := by decide
  rw [this]
  norm_num [rad3, f0, f1, f2, f3, f4, f5, f6, g0, g1, g2, sgn, gn]

theorem printR_one : printR 1 = 1 := by
  unfold printR
  rw [if_neg (by norm_num)]
  unfold printAbs
  rw [if_neg (by norm_num)]
  dsimp only
  rw [abs_one, Int.log_one_right]
  have h6 : ((1 : ℝ) * (10 : ℝ) ^ (5 - 0 : ℤ)) = ((100000 : ℤ) : ℝ) := by norm_num
  rw [h6, round_intCast]
  norm_num

theorem printR_bound (x : ℝ) : |x| / 2 ≤ |printR x| := by
  have h := printR_rel x
  have h' := abs_sub_abs_le_abs_sub x (printR x)
  rw [abs_sub_comm] at h'
  nlinarith [abs_nonneg x]

/-- nS and nP states, m = 1/2. -/
def oS (n : ℤ) : Old1 := ⟨n, 0, 1, 1⟩
@[inherit_doc oS] def oP (n : ℤ) : Old1 := ⟨n, 1, 1, 1⟩

/-- Two pair states and the same with the atoms exchanged. -/
def swapNames : List (Named (Old1 × Old1)) := [(0, (oS 60, oS 61)), (1, (oP 60, oP 61)), (2, (oS 61, oS 60)), (3, (oP 61, oP 60))]

/-- Radial integrals 1/3 for n = 60 and 1 otherwise. -/
noncomputable def J3 (k : RadKey) : ℝ := if k.n.1 = 60 then 1 / 3 else 1

/-- **C87, the violation for equal species.** The object of the second atom reads the rows that the object of the first one has just printed with six digits. So for two
atoms of the same species, already in the first run, the element between two pair states differs from the element between the same pair states with the atoms
exchanged: the interaction does not commute with the exchange. -/
theorem C87_exchange_fails : ∃ (U : Units) (J : RadKey → ℝ) (me : Method) (sp : String) (names : List (Named (Old1 × Old1)))
    (H : ℝ → Matrix (Fin names.length) (Fin names.length) ℂ) (r c r' c' : Fin names.length),
    (∀ x ∈ names, OldValid x.2.1 ∧ OldValid x.2.2) ∧
    oldTwo U (some (oldIntegral me sp J)) (some (oldIntegral me sp J)) (decide (sp = sp)) names (fun _ => true) 3 (fun _ => none) (fun _ => none) = .ok H ∧
    (names.get r').2 = (names.get r).2.swap ∧ (names.get c').2 = (names.get c).2.swap ∧ H 1 r' c' ≠ H 1 r c := by
  set U : Units := ⟨1, 1, 1, 1, 1, 2⟩ with hUdef
  set I := oldIntegral .numerov "Rb" J3 with hI
  set b1 := (buildFromTwo false swapNames).map (·.2) with hb1
  set b2 := (buildFromTwo true swapNames).map (·.2) with hb2
  obtain ⟨val, s1, e1, e2, e3, e4⟩ := precalculate_spec U I (fun _ => none) (fun _ => none) b1 (preMultipole 1) (by simp)
  obtain ⟨val', s2, f1, f2, f3, f4⟩ := precalculate_spec U I s1.2 (fun _ => none) b2 (preMultipole 1) (by simp)
  have ev : ∀ k, val k = oldVal U I k := by
    intro k
    have := (e1 k).symm.trans (oldVal_ok U I k)
    injection this
  have mb1 : oS 60 ∈ b1 ∧ oP 60 ∈ b1 ∧ oS 61 ∈ b1 ∧ oP 61 ∈ b1 := by decide
  have mb2 : oS 60 ∈ b2 ∧ oP 60 ∈ b2 ∧ oS 61 ∈ b2 ∧ oP 61 ∈ b2 := by decide
  have cells : ∀ n : ℤ, n = 60 ∨ n = 61 → ∀ k ∈ (preMultipole 1).keys (oP n) (oS n), s1.1.get k = oldVal U I k ∧ s2.1.get k = printR (oldVal U I k) := by
    intro n hn k hk
    have h1 : k ∈ (preMultipole 1).allKeys b1 := by
      rw [Pre.mem_allKeys]
      rcases hn with rfl | rfl
      · exact ⟨_, mb1.2.1, _, mb1.1, hk⟩
      · exact ⟨_, mb1.2.2.2, _, mb1.2.2.1, hk⟩
    have h2 : k ∈ (preMultipole 1).allKeys b2 := by
      rw [Pre.mem_allKeys]
      rcases hn with rfl | rfl
      · exact ⟨_, mb2.2.1, _, mb2.1, hk⟩
      · exact ⟨_, mb2.2.2.2, _, mb2.2.2.1, hk⟩
    have c1 := e3 k
    have d1 := e4 k
    have c2 := f3 k
    simp only [h1, ev, Option.isSome_none, if_true, Option.getD_none, and_self, Bool.false_eq_true, if_false] at c1 d1
    simp only [h2, d1, Option.isSome_none, if_true, Option.getD_some, Bool.false_eq_true, if_false] at c2
    simp only [Cells.get, c1, c2, Option.getD_some, and_self]
  have vP : ∀ n : ℤ, 2 ≤ n → OldValid (oP n) := fun n hn => ⟨by simp [oP], by show (1 : ℤ) < n; omega, by simp [oP], by simp [oP], by simp [oP]⟩
  have vS : ∀ n : ℤ, 2 ≤ n → OldValid (oS n) := fun n hn => ⟨by simp [oS], by show (0 : ℤ) < n; omega, by simp [oS], by simp [oS], by simp [oS]⟩
  have rk : ∀ n : ℤ, oldVal U I (.radOf 1 (oP n) (oS n)) = if n = 60 then 1 / 3 else 1 := by
    intro n
    rw [hI, val_rad]
    simp only [oP, oS]
    have : (RadKey.make Method.numerov "Rb" 1 n n 1 0 1 1).n.1 = n := by unfold RadKey.make; split_ifs <;> rfl
    unfold J3
    rw [this]
    simp [hUdef]
  set A := oldVal U I (.angOf 1 (oP 60) (oS 60)) with hA
  set S := oldVal U I (.comSOf 1 (oP 60) (oS 60)) with hS
  set M := oldVal U I (.mulOf 1 (oP 60) (oS 60)) with hM
  have ss : ∀ z, sgn z ^ 2 = 1 := fun z => by rw [sq, sgn_self]
  have a2 : A ^ 2 = 1 / 6 := by
    rw [hA, hI, val_ang]
    unfold angularSpec
    simp only [oP, oS]
    rw [mul_pow, ss, one_mul]
    exact w3j_1210
  have s2' : S ^ 2 = 4 / 6 := by
    rw [hS, hI, val_comS U J3 .numerov "Rb" 1 _ _ (vP 60 (by norm_num)) (vS 60 (by norm_num))]
    unfold commutesSSpec
    simp only [oP, oS]
    rw [mul_pow, mul_pow, ss, one_mul, Real.sq_sqrt (by norm_num)]
    norm_num
    rw [w6j_211102]; norm_num
  have m2 : M ^ 2 = 1 := by
    rw [hM, hI, val_mul]
    unfold multipoleSpec
    simp only [oP, oS]
    rw [mul_pow, mul_pow, ss, one_mul, Real.sq_sqrt (by norm_num)]
    norm_num
    rw [w3j_220]; norm_num
  set X := A * S * M with hX
  set X' := printR A * printR S * printR M with hX'
  have x2 : X ^ 2 = 1 / 9 := by rw [hX, mul_pow, mul_pow, a2, s2', m2]; norm_num
  have xa : |X| = 1 / 3 := by
    have : |X| ^ 2 = (1 / 3) ^ 2 := by rw [sq_abs, x2]; norm_num
    exact (pow_left_inj₀ (abs_nonneg _) (by norm_num) (by norm_num)).mp this
  have xa' : 1 / 24 ≤ |X'| := by
    have h1 := printR_bound A
    have h2 := printR_bound S
    have h3 := printR_bound M
    have h4 : |A| / 2 * (|S| / 2) * (|M| / 2) ≤ |printR A| * |printR S| * |printR M| :=
      mul_le_mul (mul_le_mul h1 h2 (by positivity) (abs_nonneg _)) h3 (by positivity) (by positivity)
    have h5 : |A| / 2 * (|S| / 2) * (|M| / 2) = |X| / 8 := by rw [hX, abs_mul, abs_mul]; ring
    have h6 : |printR A| * |printR S| * |printR M| = |X'| := by rw [hX', abs_mul, abs_mul]
    rw [h5, h6, xa] at h4
    linarith
  have el : ∀ n : ℤ, n = 60 ∨ n = 61 → oldMultipole s1.1 (oP n) (oS n) 1 = (if n = 60 then 1 / 3 else 1) * X ∧
      oldMultipole s2.1 (oP n) (oS n) 1 = printR (if n = 60 then 1 / 3 else 1) * X' := by
    intro n hn
    obtain ⟨k1, k2, k3, k4⟩ := (preMultipole 1).keys_el (oP n) (oS n) (by intro q hq; cases hq) rfl rfl
    have k1 : OldKey.radOf 1 (oP n) (oS n) ∈ _ := k1
    have k2 : OldKey.angOf 1 (oP n) (oS n) ∈ _ := k2
    have k3 : OldKey.comSOf 1 (oP n) (oS n) ∈ _ := k3
    have k4 : OldKey.mulOf 1 (oP n) (oS n) ∈ _ := k4
    unfold oldMultipole
    rw [(cells n hn _ k1).1, (cells n hn _ k2).1, (cells n hn _ k3).1, (cells n hn _ k4).1,
      (cells n hn _ k1).2, (cells n hn _ k2).2, (cells n hn _ k3).2, (cells n hn _ k4).2, rk]
    have q2 : OldKey.angOf 1 (oP n) (oS n) = OldKey.angOf 1 (oP 60) (oS 60) := rfl
    have q3 : OldKey.comSOf 1 (oP n) (oS n) = OldKey.comSOf 1 (oP 60) (oS 60) := rfl
    have q4 : OldKey.mulOf 1 (oP n) (oS n) = OldKey.mulOf 1 (oP 60) (oS 60) := rfl
    rw [q2, q3, q4, ← hA, ← hS, ← hM, hX, hX']
    exact ⟨by ring, by ring⟩
  have v : ∀ n n' : ℤ, (n = 60 ∨ n = 61) → (n' = 60 ∨ n' = 61) → oldPairVal U s1.1 s2.1 2 (oP n, oP n') (oS n, oS n') =
      -2 * ((if n = 60 then 1 / 3 else 1) * X) * (printR (if n' = 60 then 1 / 3 else 1) * X') := by
    intro n n' hn hn'
    have sel : ∀ n, oldSelMultipole (oP n) (oS n) 1 = true := fun n => rfl
    unfold oldPairVal
    simp only [Nat.add_one_sub_one, List.range_one, List.map_cons, List.map_nil, List.sum_cons, List.sum_nil, add_zero, Nat.cast_zero, zero_add, Nat.cast_ofNat]
    unfold oldPairTerm
    dsimp only
    rw [show ((2 : ℤ) - 1) = 1 by norm_num, sel, sel, if_pos (by simp)]
    have q : ((oP n).m - (oS n).m).tdiv 2 = 0 := rfl
    have q' : ((oP n').m - (oS n').m).tdiv 2 = 0 := rfl
    rw [q, q', neg_zero, if_pos rfl, (el n hn).1, (el n' hn').2]
    have hb : binom (1 + 1) (1 + 0) = 2 ∧ binom (1 + 1) (1 - 0) = 2 := by decide
    rw [hb.1, hb.2]
    have h4 : Real.sqrt (((2 : ℕ) : ℝ) * ((2 : ℕ) : ℝ)) = 2 := by rw [← sq, Real.sqrt_sq (by norm_num)]; norm_num
    rw [h4]
    have hke : U.ke = 1 := by rw [hUdef]; unfold Units.ke; norm_num
    rw [hke]
    norm_num [sgn]
  have big : ∀ y : ℝ, 1 / 10 ≤ |y| → |-2 * X * (y * X')| > 1e-32 := by
    intro y hy
    rw [abs_mul (-2 * X), abs_mul (-2) X, xa, abs_mul y]
    have := mul_le_mul hy xa' (by norm_num) (abs_nonneg _)
    norm_num at this ⊢
    linarith
  have p3 : 1 / 6 ≤ |printR (1 / 3)| := by
    have := printR_bound (1 / 3)
    rw [abs_of_pos (by norm_num : (0 : ℝ) < 1 / 3)] at this
    linarith
  have val10 : oldPairVal U s1.1 s2.1 2 (oP 60, oP 61) (oS 60, oS 61) = -2 * X * (1 / 3 * X') := by
    rw [v 60 61 (by simp) (by simp)]
    rw [if_pos rfl, if_neg (by norm_num), printR_one]; ring
  have val32 : oldPairVal U s1.1 s2.1 2 (oP 61, oP 60) (oS 61, oS 60) = -2 * X * (printR (1 / 3) * X') := by
    rw [v 61 60 (by simp) (by simp)]
    rw [if_pos rfl, if_neg (by norm_num)]; ring
  refine ⟨U, J3, .numerov, "Rb", swapNames, fun R => oldInteraction U s1.1 s2.1 (fun _ => true) (fun i => (swapNames.get i).2) 3 R,
    ⟨1, by decide⟩, ⟨0, by decide⟩, ⟨3, by decide⟩, ⟨2, by decide⟩, ?_, ?_, rfl, rfl, ?_⟩
  · intro x hx
    simp only [swapNames, List.mem_cons, List.not_mem_nil, or_false] at hx
    rcases hx with rfl | rfl | rfl | rfl
    · exact ⟨vS 60 (by norm_num), vS 61 (by norm_num)⟩
    · exact ⟨vP 60 (by norm_num), vP 61 (by norm_num)⟩
    · exact ⟨vS 61 (by norm_num), vS 60 (by norm_num)⟩
    · exact ⟨vP 61 (by norm_num), vP 60 (by norm_num)⟩
  · rw [decide_eq_true rfl]
    unfold oldTwo
    rw [← hb1, ← hb2, ← hI]
    show ((precalculate U (some I) (fun _ => none) (fun _ => none) (fun _ => none) b1 (preMultipole 1) >>= fun s1 =>
      precalculate U (some I) s1.2 s1.2 (fun _ => none) b2 (preMultipole 1) >>= fun s2 => .ok ((s1.1, s2.2), s2)) >>= fun s =>
      Out.ok fun R => oldInteraction U s.1.1 s.2.1 (fun _ => true) (fun i => (swapNames.get i).2) 3 R) = _
    rw [e2]
    show ((precalculate U (some I) s1.2 s1.2 (fun _ => none) b2 (preMultipole 1) >>= fun s2 => .ok ((s1.1, s2.2), s2)) >>= fun s =>
      Out.ok fun R => oldInteraction U s.1.1 s.2.1 (fun _ => true) (fun i => (swapNames.get i).2) 3 R) = _
    rw [f2]
    rfl
  · have eS : oldSums 3 = [2] := rfl
    have eval : ∀ r c : Fin swapNames.length, ¬ r < c → ((swapNames.get c).2.1.m + (swapNames.get c).2.2.m).tdiv 2 = ((swapNames.get r).2.1.m + (swapNames.get r).2.2.m).tdiv 2 →
        |oldPairVal U s1.1 s2.1 2 (swapNames.get r).2 (swapNames.get c).2| > 1e-32 →
        oldInteraction U s1.1 s2.1 (fun _ => true) (fun i => (swapNames.get i).2) 3 1 r c = (oldPairVal U s1.1 s2.1 2 (swapNames.get r).2 (swapNames.get c).2 : ℂ) := by
      intro r c hrc hm ht
      unfold oldInteraction
      rw [eS]
      simp only [List.map_cons, List.map_nil, List.sum_cons, List.sum_nil, add_zero, one_pow, div_one, Complex.ofReal_one, one_smul]
      unfold oldPairMat oldPairEntry
      rw [if_neg hrc, if_neg (by simp), if_neg (by rw [hm]; simp), if_pos ht]
    dsimp only
    rw [eval ⟨3, by decide⟩ ⟨2, by decide⟩ (by decide) rfl (by
        show |oldPairVal U s1.1 s2.1 2 (oP 61, oP 60) (oS 61, oS 60)| > 1e-32
        rw [val32]; exact big _ (by linarith)),
      eval ⟨1, by decide⟩ ⟨0, by decide⟩ (by decide) rfl (by
        show |oldPairVal U s1.1 s2.1 2 (oP 60, oP 61) (oS 60, oS 61)| > 1e-32
        rw [val10]; exact big _ (by rw [abs_of_pos (by norm_num : (0 : ℝ) < 1 / 3)]; norm_num))]
    show ((oldPairVal U s1.1 s2.1 2 (oP 61, oP 60) (oS 61, oS 60) : ℝ) : ℂ) ≠ ((oldPairVal U s1.1 s2.1 2 (oP 60, oP 61) (oS 60, oS 61) : ℝ) : ℂ)
    rw [val32, val10]
    intro h
    have h' := Complex.ofReal_injective h
    have hx0 : X ≠ 0 := by intro h0; rw [h0] at xa; norm_num at xa
    have hx0' : X' ≠ 0 := by intro h0; rw [h0] at xa'; norm_num at xa'
    have : printR (1 / 3) * X' = 1 / 3 * X' := mul_left_cancel₀ (mul_ne_zero (by norm_num) hx0) h'
    exact printR_third (mul_right_cancel₀ hx0' this)

/-- The hypotheses of C87 are met by two atoms with 60S, 60P, 61S, 61P states, an empty database and the order 5. -/
example (J : RadKey → ℝ) (me : Method) :=
  C87_first_run ⟨1, 1, 1, 1, 1, 2⟩ J me "Rb" "Cs" (by norm_num) (by decide) swapNames (by
    intro x hx
    simp only [swapNames, List.mem_cons, List.not_mem_nil, or_false] at hx
    rcases hx with rfl | rfl | rfl | rfl <;> constructor <;> constructor <;> simp [oS, oP]) (fun _ => true) 5 (fun _ => none) (fun _ => none)
    (fun _ _ h => by cases h) (fun _ _ h => by cases h)

example : OnAxis ⟨0, 0, 5, 5, false, dblMax, 5⟩ := ⟨by have := dblMax_big; intro h; dsimp only at h; linarith, rfl, rfl, rfl, rfl⟩

end PI
