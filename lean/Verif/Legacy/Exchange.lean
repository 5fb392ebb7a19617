import Verif.Legacy.Two
import Verif.Legacy.CombineModel

/-!
# Legacy interaction: the exchange of two atoms of the same species
-/

namespace PI

/-- The multipole operators that an object returns are Hermitian: exchanging the states gives the sign of the magnetic quantum numbers. -/
def CellsHerm (c : Cells) (S : Old1 → Prop) (kmax : ℤ) : Prop :=
  ∀ a b, S a → S b → ∀ k, 1 ≤ k → k ≤ kmax → oldSelMultipole a b k = true → oldMultipole c b a k = sgn ((a.m - b.m) / 2) * oldMultipole c a b k

theorem oldSel_symm (a b : Old1) (k : ℤ) : oldSelMultipole b a k = oldSelMultipole a b k := by
  unfold oldSelMultipole
  rw [Bool.eq_iff_iff]
  simp only [Bool.and_eq_true, decide_eq_true_eq, Bool.not_eq_true', Bool.and_eq_false_iff, decide_eq_false_iff_not]
  rw [abs_sub_comm b.l a.l, abs_sub_comm b.j a.j, abs_sub_comm b.m a.m, add_comm b.j a.j]
  constructor
  · rintro ⟨⟨⟨h1, h2⟩, h3⟩, h4⟩
    exact ⟨⟨⟨h1, h2⟩, h3⟩, by omega⟩
  · rintro ⟨⟨⟨h1, h2⟩, h3⟩, h4⟩
    exact ⟨⟨⟨h1, h2⟩, h3⟩, by omega⟩

theorem oldSel_bound (a b : Old1) (k : ℤ) (h : oldSelMultipole a b k = true) : |a.m - b.m| ≤ 2 * k ∧ (a.l - b.l - k) % 2 = 0 := by
  unfold oldSelMultipole at h
  simp only [Bool.and_eq_true, decide_eq_true_eq] at h
  refine ⟨h.1.2, ?_⟩
  have h1 := h.1.1.1.2
  have h0 := h.1.1.1.1
  rw [Int.tmod_eq_emod_of_nonneg (by have := abs_nonneg (a.l - b.l); omega), Int.tmod_eq_emod_of_nonneg (abs_nonneg _)] at h1
  rcases abs_cases (a.l - b.l) with ⟨e, -⟩ | ⟨e, -⟩ <;> rw [e] at h1 <;> omega

theorem binom_symm (n k : ℤ) (h0 : 0 ≤ k) (h : k ≤ n) : binom n (n - k) = binom n k := by
  unfold binom
  rw [← Nat.choose_symm (by omega : k.toNat ≤ n.toNat)]
  congr 1
  omega

/-- One term, with the condition on the momenta resolved. -/
theorem term_form (U : Units) (c1 c2 : Cells) (k1 k2 : ℤ) (x y : Old1 × Old1) (hx : OldValid x.1 ∧ OldValid x.2) (hy : OldValid y.1 ∧ OldValid y.2)
    (hm : x.1.m + x.2.m = y.1.m + y.2.m) :
    oldPairTerm U c1 c2 k1 k2 x y = if (oldSelMultipole x.1 y.1 k1 && oldSelMultipole x.2 y.2 k2) = true then
      U.ke * sgn k2 * Real.sqrt (binom (k1 + k2) (k1 + (x.1.m - y.1.m) / 2) * binom (k1 + k2) (k2 + (x.1.m - y.1.m) / 2)) * oldMultipole c1 x.1 y.1 k1 * oldMultipole c2 x.2 y.2 k2
      else 0 := by
  have p1 := hx.1.mpar
  have p2 := hx.2.mpar
  have p3 := hy.1.mpar
  have p4 := hy.2.mpar
  have q1 : (x.1.m - y.1.m).tdiv 2 = (x.1.m - y.1.m) / 2 := Int.tdiv_eq_ediv_of_dvd (by omega)
  have q2 : (x.2.m - y.2.m).tdiv 2 = -((x.1.m - y.1.m) / 2) := by rw [Int.tdiv_eq_ediv_of_dvd (by omega)]; omega
  unfold oldPairTerm
  dsimp only
  rw [q1, q2, neg_neg, if_pos rfl, sub_neg_eq_add]

/-- Exchanging row and column. -/
theorem term_symm (U : Units) (c1 c2 : Cells) (S1 S2 : Old1 → Prop) (kmax : ℤ) (h1 : CellsHerm c1 S1 kmax) (h2 : CellsHerm c2 S2 kmax) (k1 k2 : ℤ)
    (hk1 : 1 ≤ k1 ∧ k1 ≤ kmax) (hk2 : 1 ≤ k2 ∧ k2 ≤ kmax) (x y : Old1 × Old1) (hx : OldValid x.1 ∧ OldValid x.2) (hy : OldValid y.1 ∧ OldValid y.2)
    (sx : S1 x.1 ∧ S2 x.2) (sy : S1 y.1 ∧ S2 y.2) (hm : x.1.m + x.2.m = y.1.m + y.2.m) : oldPairTerm U c1 c2 k1 k2 y x = oldPairTerm U c1 c2 k1 k2 x y := by
  rw [term_form U c1 c2 k1 k2 x y hx hy hm, term_form U c1 c2 k1 k2 y x hy hx hm.symm, oldSel_symm x.1 y.1, oldSel_symm x.2 y.2]
  by_cases h : (oldSelMultipole x.1 y.1 k1 && oldSelMultipole x.2 y.2 k2) = true
  · rw [if_pos h, if_pos h]
    rw [Bool.and_eq_true] at h
    have b1 := (oldSel_bound _ _ _ h.1).1
    have b2 := (oldSel_bound _ _ _ h.2).1
    rw [abs_le] at b1 b2
    have p1 := hx.1.mpar
    have p3 := hy.1.mpar
    have p2 := hx.2.mpar
    have p4 := hy.2.mpar
    rw [h1 x.1 y.1 sx.1 sy.1 k1 hk1.1 hk1.2 h.1, h2 x.2 y.2 sx.2 sy.2 k2 hk2.1 hk2.2 h.2]
    have eq : (x.2.m - y.2.m) / 2 = -((x.1.m - y.1.m) / 2) := by omega
    have eq' : (y.1.m - x.1.m) / 2 = -((x.1.m - y.1.m) / 2) := by omega
    rw [eq, eq']
    have e1 : 2 * ((x.1.m - y.1.m) / 2) = x.1.m - y.1.m := by omega
    set q := (x.1.m - y.1.m) / 2
    have s : sgn q * sgn (-q) = 1 := by rw [sgn_mul, add_neg_cancel]; exact sgn_zero
    have B1 : binom (k1 + k2) (k1 + -q) = binom (k1 + k2) (k2 + q) := by
      rw [← binom_symm _ (k2 + q) (by omega) (by omega)]; congr 1; omega
    have B2 : binom (k1 + k2) (k2 + -q) = binom (k1 + k2) (k1 + q) := by
      rw [← binom_symm _ (k1 + q) (by omega) (by omega)]; congr 1; omega
    rw [B1, B2, mul_comm ((binom (k1 + k2) (k2 + q) : ℕ) : ℝ)]
    linear_combination (U.ke * sgn k2 * Real.sqrt (binom (k1 + k2) (k1 + q) * binom (k1 + k2) (k2 + q)) * oldMultipole c1 x.1 y.1 k1 * oldMultipole c2 x.2 y.2 k2) * s
  · rw [if_neg h, if_neg h]

/-- Exchanging the atoms. -/
theorem term_swap (U : Units) (c : Cells) (k1 k2 : ℤ) (x y : Old1 × Old1) (hx : OldValid x.1 ∧ OldValid x.2) (hy : OldValid y.1 ∧ OldValid y.2)
    (hm : x.1.m + x.2.m = y.1.m + y.2.m) : oldPairTerm U c c k1 k2 x.swap y.swap = sgn (k1 + k2) * oldPairTerm U c c k2 k1 x y := by
  rw [term_form U c c k2 k1 x y hx hy hm, term_form U c c k1 k2 x.swap y.swap hx.symm hy.symm (by rw [Prod.fst_swap, Prod.snd_swap, Prod.fst_swap, Prod.snd_swap]; omega)]
  simp only [Prod.fst_swap, Prod.snd_swap]
  rw [Bool.and_comm]
  by_cases h : (oldSelMultipole x.1 y.1 k2 && oldSelMultipole x.2 y.2 k1) = true
  · rw [if_pos h, if_pos h]
    rw [Bool.and_eq_true] at h
    have b1 := (oldSel_bound _ _ _ h.1).1
    have b2 := (oldSel_bound _ _ _ h.2).1
    rw [abs_le] at b1 b2
    have p1 := hx.1.mpar
    have p3 := hy.1.mpar
    have p2 := hx.2.mpar
    have p4 := hy.2.mpar
    have eq : (x.2.m - y.2.m) / 2 = -((x.1.m - y.1.m) / 2) := by omega
    rw [eq]
    have e1 : 2 * ((x.1.m - y.1.m) / 2) = x.1.m - y.1.m := by omega
    set q := (x.1.m - y.1.m) / 2
    have B1 : binom (k1 + k2) (k1 + -q) = binom (k2 + k1) (k2 + q) := by
      rw [add_comm k1 k2, ← binom_symm _ (k2 + q) (by omega) (by omega)]; congr 1; omega
    have B2 : binom (k1 + k2) (k2 + -q) = binom (k2 + k1) (k1 + q) := by
      rw [add_comm k1 k2, ← binom_symm _ (k1 + q) (by omega) (by omega)]; congr 1; omega
    have s : sgn (k1 + k2) * sgn k1 = sgn k2 := by rw [sgn_mul]; exact sgn_congr (by omega)
    rw [B1, B2, ← s]
    ring
  · rw [if_neg h, if_neg h, mul_zero]

theorem val_symm (U : Units) (c1 c2 : Cells) (S1 S2 : Old1 → Prop) (sum : ℕ) (h1 : CellsHerm c1 S1 (sum - 1)) (h2 : CellsHerm c2 S2 (sum - 1))
    (x y : Old1 × Old1) (hx : OldValid x.1 ∧ OldValid x.2) (hy : OldValid y.1 ∧ OldValid y.2)
    (sx : S1 x.1 ∧ S2 x.2) (sy : S1 y.1 ∧ S2 y.2) (hm : x.1.m + x.2.m = y.1.m + y.2.m) : oldPairVal U c1 c2 sum y x = oldPairVal U c1 c2 sum x y := by
  unfold oldPairVal
  congr 1
  refine List.map_congr_left fun i hi => ?_
  rw [List.mem_range] at hi
  exact term_symm U c1 c2 S1 S2 _ h1 h2 _ _ (by omega) (by omega) x y hx hy sx sy hm

theorem val_swap (U : Units) (c : Cells) (sum : ℕ) (x y : Old1 × Old1) (hx : OldValid x.1 ∧ OldValid x.2) (hy : OldValid y.1 ∧ OldValid y.2)
    (hm : x.1.m + x.2.m = y.1.m + y.2.m) : oldPairVal U c c sum x.swap y.swap = sgn sum * oldPairVal U c c sum x y := by
  unfold oldPairVal
  rw [← List.sum_toFinset _ List.nodup_range, ← List.sum_toFinset _ List.nodup_range, List.toFinset_range, Finset.mul_sum, ← Finset.sum_range_reflect]
  refine Finset.sum_congr rfl fun i hi => ?_
  rw [Finset.mem_range] at hi
  rw [term_swap U c _ _ x y hx hy hm]
  congr 2
  · omega
  · omega
  · omega

theorem val_parity (U : Units) (c1 c2 : Cells) (sum : ℕ) (x y : Old1 × Old1) (h : (x.1.l + x.2.l - y.1.l - y.2.l - sum) % 2 ≠ 0) : oldPairVal U c1 c2 sum x y = 0 := by
  unfold oldPairVal
  apply List.sum_eq_zero
  intro v hv
  obtain ⟨i, -, rfl⟩ := List.mem_map.mp hv
  unfold oldPairTerm
  rw [if_neg]
  intro hs
  rw [Bool.and_eq_true] at hs
  have b1 := (oldSel_bound _ _ _ hs.1).2
  have b2 := (oldSel_bound _ _ _ hs.2).2
  omega

/-! ## The interaction matrix -/

/-- The tolerance of an entry (HamiltonianTwo.cpp:584). -/
noncomputable def aboveTol (v : ℝ) : ℝ := open Classical in if |v| > 1e-32 then v else 0

theorem aboveTol_sgn (k : ℤ) (v : ℝ) : aboveTol (sgn k * v) = sgn k * aboveTol v := by
  unfold aboveTol
  have : |sgn k * v| = |v| := by
    rw [abs_mul]
    have : |sgn k| = 1 := by unfold sgn; split_ifs <;> simp
    rw [this, one_mul]
  rw [this]
  split_ifs <;> simp

/-- The entries in both triangles. -/
theorem pairMat_form (U : Units) (c1 c2 : Cells) (S1 S2 : Old1 → Prop) (sum : ℕ) (h1 : CellsHerm c1 S1 (sum - 1)) (h2 : CellsHerm c2 S2 (sum - 1)) {N : ℕ}
    (b : Fin N → Old1 × Old1) (hb : ∀ i, OldValid (b i).1 ∧ OldValid (b i).2) (sb : ∀ i, S1 (b i).1 ∧ S2 (b i).2) (r c : Fin N) :
    oldPairMat U c1 c2 (fun _ => true) b sum r c = ((if (b r).1.m + (b r).2.m = (b c).1.m + (b c).2.m then aboveTol (oldPairVal U c1 c2 sum (b r) (b c)) else 0 : ℝ) : ℂ) := by
  have low : ∀ r c, oldPairEntry U c1 c2 (fun _ => true) b sum r c = if (b r).1.m + (b r).2.m = (b c).1.m + (b c).2.m then aboveTol (oldPairVal U c1 c2 sum (b r) (b c)) else 0 := by
    intro r c
    unfold oldPairEntry aboveTol
    rw [if_neg (by simp)]
    have p1 := (hb r).1.mpar
    have p2 := (hb r).2.mpar
    have p3 := (hb c).1.mpar
    have p4 := (hb c).2.mpar
    rw [Int.tdiv_eq_ediv_of_dvd (by omega), Int.tdiv_eq_ediv_of_dvd (by omega)]
    by_cases h : (b r).1.m + (b r).2.m = (b c).1.m + (b c).2.m
    · rw [if_pos h, if_neg (by omega)]
    · rw [if_neg h, if_pos (by omega)]
  unfold oldPairMat
  rw [low, low]
  by_cases h : r < c
  · rw [if_pos h]
    congr 1
    by_cases hm : (b r).1.m + (b r).2.m = (b c).1.m + (b c).2.m
    · rw [if_pos hm, if_pos hm.symm, val_symm U c1 c2 S1 S2 sum h1 h2 (b r) (b c) (hb r) (hb c) (sb r) (sb c) hm]
    · rw [if_neg hm, if_neg (fun h => hm h.symm)]
  · rw [if_neg h]

/-- The row of a pair of states with the atoms exchanged. -/
def swapIdx {n : ℕ} (i : Fin (n * n)) : Fin (n * n) := finProdFinEquiv (finProdFinEquiv.symm i).swap

theorem swapIdx_swapIdx {n : ℕ} (i : Fin (n * n)) : swapIdx (swapIdx i) = i := by
  unfold swapIdx
  rw [Equiv.symm_apply_apply, Prod.swap_swap, Equiv.apply_symm_apply]

theorem swapIdx_state {n : ℕ} (s : Fin n → Old1) (i : Fin (n * n)) : pairState s s (swapIdx i) = (pairState s s i).swap := by
  unfold pairState swapIdx
  rw [Equiv.symm_apply_apply]
  rfl

theorem pairMat_swap (U : Units) (c : Cells) (sum : ℕ) {n : ℕ} (s : Fin n → Old1) (hs : ∀ i, OldValid (s i)) (hc : CellsHerm c (fun x => ∃ i, s i = x) (sum - 1))
    (r t : Fin (n * n)) : oldPairMat U c c (fun _ => true) (pairState s s) sum (swapIdx r) (swapIdx t) =
      (sgn sum : ℂ) * oldPairMat U c c (fun _ => true) (pairState s s) sum r t := by
  have hb : ∀ i : Fin (n * n), OldValid (pairState s s i).1 ∧ OldValid (pairState s s i).2 := fun i => ⟨hs _, hs _⟩
  have sb : ∀ i : Fin (n * n), (∃ k, s k = (pairState s s i).1) ∧ (∃ k, s k = (pairState s s i).2) := fun i => ⟨⟨_, rfl⟩, ⟨_, rfl⟩⟩
  rw [pairMat_form U c c _ _ sum hc hc _ hb sb, pairMat_form U c c _ _ sum hc hc _ hb sb, swapIdx_state, swapIdx_state, ← Complex.ofReal_mul]
  congr 1
  simp only [Prod.fst_swap, Prod.snd_swap]
  by_cases hm : (pairState s s r).1.m + (pairState s s r).2.m = (pairState s s t).1.m + (pairState s s t).2.m
  · rw [if_pos hm, if_pos (by omega), val_swap U c sum _ _ (hb r) (hb t) hm]
    exact aboveTol_sgn _ _
  · rw [if_neg hm, if_neg (by omega), mul_zero]

/-- Entries conserve the total momentum, and change the orbital parity by the sign of the sum of ranks. -/
theorem pairMat_rules (U : Units) (c1 c2 : Cells) (S1 S2 : Old1 → Prop) (sum : ℕ) (h1 : CellsHerm c1 S1 (sum - 1)) (h2 : CellsHerm c2 S2 (sum - 1)) {N : ℕ}
    (b : Fin N → Old1 × Old1) (hb : ∀ i, OldValid (b i).1 ∧ OldValid (b i).2) (sb : ∀ i, S1 (b i).1 ∧ S2 (b i).2) (r c : Fin N)
    (h : oldPairMat U c1 c2 (fun _ => true) b sum r c ≠ 0) :
    (b r).1.m + (b r).2.m = (b c).1.m + (b c).2.m ∧ sgn sum = parityL (b r) * parityL (b c) := by
  rw [pairMat_form U c1 c2 S1 S2 sum h1 h2 b hb sb] at h
  by_cases hm : (b r).1.m + (b r).2.m = (b c).1.m + (b c).2.m
  · refine ⟨hm, ?_⟩
    rw [if_pos hm] at h
    have hp : ((b r).1.l + (b r).2.l - (b c).1.l - (b c).2.l - sum) % 2 = 0 := by
      by_contra hp
      rw [val_parity U c1 c2 sum _ _ hp] at h
      unfold aboveTol at h
      simp at h
    unfold parityL parityOf sgn
    split_ifs <;> first | omega | norm_num
  · rw [if_neg hm] at h
    simp at h

theorem interaction_apply (U : Units) (c1 c2 : Cells) {N : ℕ} (nec : Fin N → Bool) (b : Fin N → Old1 × Old1) (exponent : ℤ) (R : ℝ) (r c : Fin N) :
    oldInteraction U c1 c2 nec b exponent R r c = ((oldSums exponent).map fun sum => ((1 / R ^ (sum + 1) : ℝ) : ℂ) * oldPairMat U c1 c2 nec b sum r c).sum := by
  unfold oldInteraction
  generalize oldSums exponent = Ls
  induction Ls with
  | nil => rfl
  | cons t Ls ih => rw [List.map_cons, List.sum_cons, List.map_cons, List.sum_cons, Matrix.add_apply, ih]; rfl

theorem oldSums_mem (exponent : ℤ) (sum : ℕ) : sum ∈ oldSums exponent ↔ 2 ≤ sum ∧ (sum : ℤ) ≤ exponent - 1 := by
  unfold oldSums
  by_cases h : exponent > 2
  · rw [if_pos h]
    simp only [List.mem_map, List.mem_range]
    constructor
    · rintro ⟨i, hi, rfl⟩; omega
    · rintro ⟨h1, h2⟩; exact ⟨sum - 2, by omega, by omega⟩
  · rw [if_neg h]
    simp only [List.not_mem_nil, false_iff]
    omega

theorem CellsHerm.mono {c : Cells} {S : Old1 → Prop} {k k' : ℤ} (h : CellsHerm c S k) (hk : k' ≤ k) : CellsHerm c S k' :=
  fun a b ha hb x h1 h2 => h a b ha hb x h1 (h2.trans hk)

section
variable (U : Units) (c : Cells) {n : ℕ} (s : Fin n → Old1) (hs : ∀ i, OldValid (s i)) (exponent : ℤ) (hc : CellsHerm c (fun x => ∃ i, s i = x) (exponent - 2)) (R : ℝ)
include hs hc

theorem interaction_rules {m : ℕ} (t : Fin m → Old1) (c' : Cells) (ht : ∀ i, OldValid (t i)) (hc' : CellsHerm c' (fun x => ∃ i, t i = x) (exponent - 2)) (i j : Fin (n * m))
    (h : oldInteraction U c c' (fun _ => true) (pairState s t) exponent R i j ≠ 0) :
    (pairState s t i).1.m + (pairState s t i).2.m = (pairState s t j).1.m + (pairState s t j).2.m ∧ (exponent ≤ 3 → parityL (pairState s t i) = parityL (pairState s t j)) := by
  rw [interaction_apply] at h
  have : ∃ sum ∈ oldSums exponent, oldPairMat U c c' (fun _ => true) (pairState s t) sum i j ≠ 0 := by
    by_contra hcon
    push Not at hcon
    apply h
    apply List.sum_eq_zero
    intro x hx
    obtain ⟨sum, hm, rfl⟩ := List.mem_map.mp hx
    rw [hcon sum hm, mul_zero]
  obtain ⟨sum, hm, hne⟩ := this
  rw [oldSums_mem] at hm
  obtain ⟨a1, a2⟩ := pairMat_rules U c c' _ _ sum (hc.mono (by omega)) (hc'.mono (by omega)) (pairState s t) (fun i => ⟨hs _, ht _⟩) (fun i => ⟨⟨_, rfl⟩, ⟨_, rfl⟩⟩) i j hne
  refine ⟨a1, fun he => ?_⟩
  have : sum = 2 := by omega
  subst this
  have e : parityL (pairState s t i) * parityL (pairState s t j) = 1 := by
    have h2 : sgn ((2 : ℕ) : ℤ) = 1 := sgn_even (by norm_num)
    rw [h2] at a2
    exact_mod_cast a2.symm
  unfold parityL parityOf at e ⊢
  split_ifs at e ⊢ <;> first | rfl | omega

theorem interaction_swap (i j : Fin (n * n)) : oldInteraction U c c (fun _ => true) (pairState s s) exponent R (swapIdx i) (swapIdx j) =
    (parityL (pairState s s i) : ℂ) * parityL (pairState s s j) * oldInteraction U c c (fun _ => true) (pairState s s) exponent R i j := by
  rw [interaction_apply, interaction_apply, ← List.sum_map_mul_left]
  congr 1
  refine List.map_congr_left fun sum hm => ?_
  rw [oldSums_mem] at hm
  rw [pairMat_swap U c sum s hs (hc.mono (by omega))]
  by_cases h : oldPairMat U c c (fun _ => true) (pairState s s) sum i j = 0
  · rw [h]; simp
  · have := (pairMat_rules U c c _ _ sum (hc.mono (by omega)) (hc.mono (by omega)) (pairState s s) (fun i => ⟨hs _, hs _⟩) (fun i => ⟨⟨_, rfl⟩, ⟨_, rfl⟩⟩) i j h).2
    have e : ((sgn sum : ℝ) : ℂ) = (parityL (pairState s s i) : ℂ) * parityL (pairState s s j) := by rw [this]; push_cast; rfl
    rw [e]
    ring

theorem interaction_exchange (he : exponent ≤ 3) (i j : Fin (n * n)) : oldInteraction U c c (fun _ => true) (pairState s s) exponent R (swapIdx i) (swapIdx j) =
    oldInteraction U c c (fun _ => true) (pairState s s) exponent R i j := by
  rw [interaction_swap U c s hs exponent hc]
  by_cases h : oldInteraction U c c (fun _ => true) (pairState s s) exponent R i j = 0
  · rw [h, mul_zero]
  · rw [(interaction_rules U c s hs exponent hc R s c hs hc i j h).2 he]
    have : (parityL (pairState s s j) : ℂ) * parityL (pairState s s j) = 1 := by
      unfold parityL parityOf
      split_ifs <;> simp
    rw [this, one_mul]

end

end PI
