import Mathlib.Data.Nat.Choose.Basic
import Mathlib.Data.Real.Basic
import Mathlib.Algebra.BigOperators.Ring.Finset
import Mathlib.Algebra.BigOperators.Intervals
import Mathlib.Tactic.Ring
import Mathlib.Tactic.LinearCombination
import Mathlib.Tactic.Push

/-!
# The double sum that turns three 3j symbols into a 6j symbol
-/

namespace PI

/-- A binomial coefficient, zero for a negative lower number. -/
noncomputable def bin (n : ℕ) (k : ℤ) : ℝ := if k < 0 then 0 else (n.choose k.toNat : ℝ)

theorem bin_nat (n k : ℕ) : bin n k = (n.choose k : ℝ) := by
  unfold bin; rw [if_neg (by omega), Int.toNat_natCast]

theorem bin_neg (n : ℕ) (k : ℤ) (h : k < 0) : bin n k = 0 := by unfold bin; rw [if_pos h]

theorem bin_gt (n : ℕ) (k : ℤ) (h : (n : ℤ) < k) : bin n k = 0 := by
  unfold bin; rw [if_neg (by omega), Nat.choose_eq_zero_of_lt (by omega), Nat.cast_zero]

theorem bin_succ (n : ℕ) (k : ℤ) : bin (n + 1) k = bin n k + bin n (k - 1) := by
  by_cases h : k < 0
  · rw [bin_neg _ _ h, bin_neg _ _ h, bin_neg _ _ (by omega), add_zero]
  · obtain ⟨m, rfl⟩ : ∃ m : ℕ, k = m := ⟨k.toNat, by omega⟩
    cases m with
    | zero => rw [bin_neg n (((0 : ℕ) : ℤ) - 1) (by norm_num), bin_nat, bin_nat]; simp
    | succ m => rw [show (((m + 1 : ℕ) : ℤ) - 1) = (m : ℤ) by push_cast; ring, bin_nat, bin_nat, bin_nat, Nat.choose_succ_succ]; push_cast; ring

theorem bin_zero (k : ℤ) : bin 0 k = if k = 0 then 1 else 0 := by
  by_cases h : k = 0
  · rw [if_pos h, h]; unfold bin; simp
  · rw [if_neg h]
    rcases lt_or_gt_of_ne h with h | h
    · exact bin_neg _ _ h
    · exact bin_gt _ _ (by simpa using h)

/-- Vandermonde. -/
theorem vand (h N : ℕ) (k : ℤ) (m : ℕ) : ∀ t : ℕ, (m + t < N ∨ k < N) → ∑ w ∈ Finset.range N, bin m ((w : ℤ) - t) * bin h (k - w) = bin (m + h) (k - t) := by
  induction m with
  | zero =>
    intro t hN
    rw [zero_add]
    by_cases ht : t < N
    · rw [Finset.sum_eq_single t]
      · rw [sub_self, bin_zero, if_pos rfl, one_mul]
      · intro w _ hw; rw [bin_zero, if_neg (by omega), zero_mul]
      · intro hc; exact absurd (Finset.mem_range.2 ht) hc
    · rw [bin_neg h _ (by omega)]
      refine Finset.sum_eq_zero fun w hw => ?_
      have := Finset.mem_range.1 hw
      rw [bin_zero, if_neg (by omega), zero_mul]
  | succ m ih =>
    intro t hN
    rw [show m + 1 + h = m + h + 1 by omega, bin_succ, ← ih t (by omega), show k - t - 1 = k - ((t + 1 : ℕ) : ℤ) by push_cast; ring, ← ih (t + 1) (by omega), ← Finset.sum_add_distrib]
    refine Finset.sum_congr rfl fun w _ => ?_
    rw [bin_succ, show (w : ℤ) - t - 1 = (w : ℤ) - ((t + 1 : ℕ) : ℤ) by push_cast; ring]
    ring

/-- The sum with both upper numbers running. -/
theorem sum_up (n N : ℕ) : ∀ m : ℕ, ∑ τ ∈ Finset.range (N + 1), ((τ.choose n : ℝ) * ((N - τ).choose m : ℝ)) = ((N + 1).choose (n + m + 1) : ℝ) := by
  induction N with
  | zero =>
    intro m
    rw [Finset.sum_range_one]
    cases n with
    | zero => cases m with
      | zero => simp
      | succ m => rw [Nat.choose_eq_zero_of_lt (show 0 + 1 < 0 + (m + 1) + 1 by omega)]; simp
    | succ n => rw [Nat.choose_eq_zero_of_lt (show 0 + 1 < n + 1 + m + 1 by omega)]; simp
  | succ N ih =>
    intro m
    rw [Finset.sum_range_succ, Nat.sub_self]
    cases m with
    | zero =>
      have := ih 0
      simp only [Nat.choose_zero_right, Nat.cast_one, mul_one, add_zero] at this ⊢
      rw [this, Nat.choose_succ_succ (N + 1) n]; push_cast; ring
    | succ m =>
      have e : ∀ τ ∈ Finset.range (N + 1), ((τ.choose n : ℝ) * ((N + 1 - τ).choose (m + 1) : ℝ)) =
          (τ.choose n : ℝ) * ((N - τ).choose m : ℝ) + (τ.choose n : ℝ) * ((N - τ).choose (m + 1) : ℝ) := by
        intro τ hτ
        have := Finset.mem_range.1 hτ
        rw [show N + 1 - τ = (N - τ) + 1 by omega, Nat.choose_succ_succ]; push_cast; ring
      rw [Finset.sum_congr rfl e, Finset.sum_add_distrib, ih m, ih (m + 1), show n + (m + 1) + 1 = (n + m + 1) + 1 by omega, Nat.choose_succ_succ (N + 1)]
      simp

/-- The coefficients of (1-x)^{-(g+1)}. -/
noncomputable def phi (g : ℕ) (x : ℤ) : ℝ := if x < 0 then 0 else ((g + x.toNat).choose g : ℝ)

theorem alt_sum (g N : ℕ) (W : ℤ) (n : ℕ) : ∀ v : ℕ, (n + v < N ∨ W < N) → ((n : ℤ) + v ≤ g + W) →
    ∑ t ∈ Finset.range N, (-1 : ℝ) ^ t * (bin n ((t : ℤ) - v) * phi g (W - t)) = (-1) ^ v * bin ((g : ℤ) + W - v - n).toNat (W - v) := by
  induction n with
  | zero =>
    intro v hN hv
    have hp : phi g (W - v) = bin ((g : ℤ) + W - v - (0 : ℕ)).toNat (W - v) := by
      unfold phi bin
      by_cases h : W - v < 0
      · rw [if_pos h, if_pos h]
      · rw [if_neg h, if_neg h, show ((g : ℤ) + W - v - (0 : ℕ)).toNat = g + (W - v).toNat by omega]
        congr 1
        rw [← Nat.choose_symm_add]
    rw [← hp]
    by_cases ht : v < N
    · rw [Finset.sum_eq_single v]
      · rw [sub_self, bin_zero, if_pos rfl, one_mul]
      · intro w _ hw; rw [bin_zero, if_neg (by omega), zero_mul, mul_zero]
      · intro hc; exact absurd (Finset.mem_range.2 ht) hc
    · have : phi g (W - v) = 0 := by unfold phi; rw [if_pos (by omega)]
      rw [this, mul_zero]
      refine Finset.sum_eq_zero fun w hw => ?_
      have := Finset.mem_range.1 hw
      rw [bin_zero, if_neg (by omega), zero_mul, mul_zero]
  | succ n ih =>
    intro v hN hv
    have a := ih v (by omega) (by omega)
    have b := ih (v + 1) (by omega) (by push_cast at hv ⊢; omega)
    have e : ∑ t ∈ Finset.range N, (-1 : ℝ) ^ t * (bin (n + 1) ((t : ℤ) - v) * phi g (W - t)) =
        ∑ t ∈ Finset.range N, (-1 : ℝ) ^ t * (bin n ((t : ℤ) - v) * phi g (W - t)) +
          ∑ t ∈ Finset.range N, (-1 : ℝ) ^ t * (bin n ((t : ℤ) - ((v + 1 : ℕ) : ℤ)) * phi g (W - t)) := by
      rw [← Finset.sum_add_distrib]
      refine Finset.sum_congr rfl fun t _ => ?_
      rw [bin_succ, show (t : ℤ) - v - 1 = (t : ℤ) - ((v + 1 : ℕ) : ℤ) by push_cast; ring]
      ring
    rw [e, a, b]
    obtain ⟨M, hM⟩ : ∃ M : ℕ, (g : ℤ) + W - v - (n + 1) = M := ⟨((g : ℤ) + W - v - (n + 1)).toNat, by push_cast at hv; omega⟩
    rw [show ((g : ℤ) + W - v - n).toNat = M + 1 by omega, show ((g : ℤ) + W - ((v + 1 : ℕ) : ℤ) - n).toNat = M by push_cast; omega,
      show ((g : ℤ) + W - v - ((n + 1 : ℕ) : ℤ)).toNat = M by push_cast; omega, bin_succ, show W - v - 1 = W - ((v + 1 : ℕ) : ℤ) by push_cast; ring, pow_succ]
    ring

theorem stepA (a b g h κ t : ℕ) :
    ∑ τ ∈ Finset.range (a + b + 1), ((τ.choose (a + t) : ℝ) * ((g + (a + b - τ)).choose g : ℝ) * bin (h + (a + b - τ)) ((κ : ℤ) - t)) =
      ∑ w ∈ Finset.range (κ + 1), bin h ((κ : ℤ) - w) * phi g ((w : ℤ) - t) * bin (g + (a + b) + 1) ((b : ℤ) - w) := by
  have e : ∀ τ ∈ Finset.range (a + b + 1), ((τ.choose (a + t) : ℝ) * ((g + (a + b - τ)).choose g : ℝ) * bin (h + (a + b - τ)) ((κ : ℤ) - t)) =
      ∑ w ∈ Finset.range (κ + 1), bin h ((κ : ℤ) - w) * phi g ((w : ℤ) - t) * ((τ.choose (a + t) : ℝ) * bin (g + (a + b) - τ) (g + ((w : ℤ) - t))) := by
    intro τ hτ
    have r := Finset.mem_range.1 hτ
    rw [add_comm h, ← vand h (κ + 1) κ (a + b - τ) t (by omega), Finset.mul_sum]
    refine Finset.sum_congr rfl fun w _ => ?_
    have key : ((g + (a + b - τ)).choose g : ℝ) * bin (a + b - τ) ((w : ℤ) - t) = phi g ((w : ℤ) - t) * bin (g + (a + b) - τ) (g + ((w : ℤ) - t)) := by
      by_cases hw : (w : ℤ) - t < 0
      · rw [bin_neg _ _ hw]; unfold phi; rw [if_pos hw]; ring
      · obtain ⟨x, hx⟩ : ∃ x : ℕ, (w : ℤ) - t = x := ⟨((w : ℤ) - t).toNat, by omega⟩
        unfold phi
        rw [if_neg hw, hx, Int.toNat_natCast, bin_nat, ← Nat.cast_add, bin_nat, show g + (a + b) - τ = g + (a + b - τ) by omega]
        have c := Nat.choose_mul (n := g + (a + b - τ)) (k := g + x) (s := g) (by omega)
        rw [Nat.add_sub_cancel_left, Nat.add_sub_cancel_left] at c
        rw [← Nat.cast_mul, ← Nat.cast_mul, ← c, mul_comm]
    linear_combination ((τ.choose (a + t) : ℝ) * bin h ((κ : ℤ) - w)) * key
  rw [Finset.sum_congr rfl e, Finset.sum_comm]
  refine Finset.sum_congr rfl fun w _ => ?_
  rw [← Finset.mul_sum]
  by_cases hw : (w : ℤ) - t < 0
  · unfold phi; rw [if_pos hw]; ring
  congr 1
  obtain ⟨x, hx⟩ : ∃ x : ℕ, (w : ℤ) - t = x := ⟨((w : ℤ) - t).toNat, by omega⟩
  have U := sum_up (a + t) (g + (a + b)) (g + x)
  have cut : ∑ τ ∈ Finset.range (g + (a + b) + 1), ((τ.choose (a + t) : ℝ) * ((g + (a + b) - τ).choose (g + x) : ℝ)) =
      ∑ τ ∈ Finset.range (a + b + 1), ((τ.choose (a + t) : ℝ) * ((g + (a + b) - τ).choose (g + x) : ℝ)) := by
    symm
    refine Finset.sum_subset (Finset.range_mono (by omega)) fun τ h1 h2 => ?_
    rw [Finset.mem_range] at h1 h2
    rw [Nat.choose_eq_zero_of_lt (show g + (a + b) - τ < g + x by omega), Nat.cast_zero, mul_zero]
  rw [cut] at U
  rw [hx]
  simp only [← Nat.cast_add, bin_nat]
  rw [U]
  by_cases hb : w ≤ b
  · rw [show ((b : ℤ) - w) = ((b - w : ℕ) : ℤ) by omega, bin_nat]
    congr 1
    rw [show b - w = g + (a + b) + 1 - (a + t + (g + x) + 1) by omega, Nat.choose_symm (by omega)]
  · rw [bin_neg _ _ (by omega), Nat.choose_eq_zero_of_lt (by omega), Nat.cast_zero]

theorem stepD (g h κ P w v : ℕ) (hP : g + κ = P + h) (hw : w ≤ κ) (hv : v ≤ κ) :
    bin h ((κ : ℤ) - w) * bin ((g : ℤ) + w - P).toNat ((w : ℤ) - v) = bin h ((κ : ℤ) - v) * bin (κ - v) ((w : ℤ) - v) := by
  by_cases h1 : w < v
  · rw [bin_neg _ ((w : ℤ) - v) (by omega), bin_neg _ ((w : ℤ) - v) (by omega), mul_zero, mul_zero]
  · rw [show ((κ : ℤ) - w) = ((κ - w : ℕ) : ℤ) by omega, show ((κ : ℤ) - v) = ((κ - v : ℕ) : ℤ) by omega, show ((w : ℤ) - v) = ((w - v : ℕ) : ℤ) by omega]
    simp only [bin_nat]
    by_cases h2 : h < κ - w
    · rw [Nat.choose_eq_zero_of_lt h2, Nat.choose_eq_zero_of_lt (show h < κ - v by omega)]; simp
    · have c := Nat.choose_mul (n := h) (k := κ - v) (s := κ - w) (by omega)
      rw [show ((g : ℤ) + w - P).toNat = h - (κ - w) by omega, show w - v = κ - v - (κ - w) by omega, ← Nat.cast_mul, ← c, Nat.choose_symm (by omega)]
      push_cast; ring

/-- The double sum of the contraction is the sum of the Racah formula. -/
theorem racah_sum (a b e h κ g P : ℕ) (hP : g + κ = P + h) :
    ∑ t ∈ Finset.range (κ + 1), (-1 : ℝ) ^ t * (P.choose t : ℝ) * ((a + t).choose e : ℝ) *
      ∑ τ ∈ Finset.range (a + b + 1), ((τ.choose (a + t) : ℝ) * ((g + (a + b - τ)).choose g : ℝ) * bin (h + (a + b - τ)) ((κ : ℤ) - t)) =
      ∑ v ∈ Finset.range (κ + 1), (-1 : ℝ) ^ v * (bin a ((e : ℤ) - v) * (P.choose v : ℝ) * bin h ((κ : ℤ) - v) * bin (κ - v + (g + (a + b) + 1)) ((b : ℤ) - v)) := by
  have s1 : ∑ t ∈ Finset.range (κ + 1), (-1 : ℝ) ^ t * (P.choose t : ℝ) * ((a + t).choose e : ℝ) *
      ∑ τ ∈ Finset.range (a + b + 1), ((τ.choose (a + t) : ℝ) * ((g + (a + b - τ)).choose g : ℝ) * bin (h + (a + b - τ)) ((κ : ℤ) - t)) =
      ∑ w ∈ Finset.range (κ + 1), bin h ((κ : ℤ) - w) * bin (g + (a + b) + 1) ((b : ℤ) - w) *
        ∑ t ∈ Finset.range (κ + 1), (-1 : ℝ) ^ t * (P.choose t : ℝ) * ((a + t).choose e : ℝ) * phi g ((w : ℤ) - t) := by
    simp only [stepA, Finset.mul_sum]
    rw [Finset.sum_comm]
    exact Finset.sum_congr rfl fun w _ => Finset.sum_congr rfl fun t _ => by ring
  have s2 : ∀ w ∈ Finset.range (κ + 1), bin h ((κ : ℤ) - w) * bin (g + (a + b) + 1) ((b : ℤ) - w) *
        ∑ t ∈ Finset.range (κ + 1), (-1 : ℝ) ^ t * (P.choose t : ℝ) * ((a + t).choose e : ℝ) * phi g ((w : ℤ) - t) =
      ∑ v ∈ Finset.range (κ + 1), (-1 : ℝ) ^ v * (bin a ((e : ℤ) - v) * (P.choose v : ℝ) * bin h ((κ : ℤ) - v)) * (bin (κ - v) ((w : ℤ) - v) * bin (g + (a + b) + 1) ((b : ℤ) - w)) := by
    intro w hw
    have rw' := Finset.mem_range.1 hw
    by_cases h2 : (h : ℤ) < (κ : ℤ) - w
    · rw [bin_gt _ _ h2, zero_mul, zero_mul]
      symm
      refine Finset.sum_eq_zero fun v hv => ?_
      have rv := Finset.mem_range.1 hv
      have d := stepD g h κ P w v hP (by omega) (by omega)
      rw [bin_gt _ _ h2, zero_mul] at d
      linear_combination (-((-1 : ℝ) ^ v * bin a ((e : ℤ) - v) * (P.choose v : ℝ) * bin (g + (a + b) + 1) ((b : ℤ) - w))) * d
    · have c : ∑ t ∈ Finset.range (κ + 1), (-1 : ℝ) ^ t * (P.choose t : ℝ) * ((a + t).choose e : ℝ) * phi g ((w : ℤ) - t) =
          ∑ v ∈ Finset.range (κ + 1), (-1 : ℝ) ^ v * (bin a ((e : ℤ) - v) * (P.choose v : ℝ) * bin ((g : ℤ) + w - P).toNat ((w : ℤ) - v)) := by
        have t1 : ∀ t ∈ Finset.range (κ + 1), (-1 : ℝ) ^ t * (P.choose t : ℝ) * ((a + t).choose e : ℝ) * phi g ((w : ℤ) - t) =
            ∑ v ∈ Finset.range (κ + 1), bin a ((e : ℤ) - v) * (P.choose v : ℝ) * ((-1 : ℝ) ^ t * (bin (P - v) ((t : ℤ) - v) * phi g ((w : ℤ) - t))) := by
          intro t ht
          have rt := Finset.mem_range.1 ht
          have V := vand a (κ + 1) e t 0 (by omega)
          rw [Nat.cast_zero, sub_zero, bin_nat] at V
          simp only [sub_zero] at V
          rw [add_comm a, ← V, Finset.mul_sum, Finset.sum_mul]
          refine Finset.sum_congr rfl fun v _ => ?_
          have k : (P.choose t : ℝ) * bin t (v : ℤ) = (P.choose v : ℝ) * bin (P - v) ((t : ℤ) - v) := by
            rw [bin_nat]
            by_cases hv : v ≤ t
            · rw [show (t : ℤ) - v = ((t - v : ℕ) : ℤ) by omega, bin_nat, ← Nat.cast_mul, Nat.choose_mul hv, Nat.cast_mul]
            · rw [Nat.choose_eq_zero_of_lt (show t < v by omega), bin_neg _ _ (show (t : ℤ) - v < 0 by omega)]; simp
          linear_combination ((-1 : ℝ) ^ t * bin a ((e : ℤ) - v) * phi g ((w : ℤ) - t)) * k
        rw [Finset.sum_congr rfl t1, Finset.sum_comm]
        refine Finset.sum_congr rfl fun v hv => ?_
        have rv := Finset.mem_range.1 hv
        rw [← Finset.mul_sum]
        by_cases hPv : v ≤ P
        · rw [alt_sum g (κ + 1) w (P - v) v (by omega) (by omega), show ((g : ℤ) + w - v - ((P - v : ℕ) : ℤ)) = (g : ℤ) + w - P by omega]
          ring
        · rw [Nat.choose_eq_zero_of_lt (show P < v by omega)]; simp
      rw [c, Finset.mul_sum]
      refine Finset.sum_congr rfl fun v hv => ?_
      have rv := Finset.mem_range.1 hv
      have d := stepD g h κ P w v hP (by omega) (by omega)
      linear_combination ((-1 : ℝ) ^ v * bin a ((e : ℤ) - v) * (P.choose v : ℝ) * bin (g + (a + b) + 1) ((b : ℤ) - w)) * d
  rw [s1, Finset.sum_congr rfl s2, Finset.sum_comm]
  refine Finset.sum_congr rfl fun v hv => ?_
  have rv := Finset.mem_range.1 hv
  rw [← Finset.mul_sum, vand (g + (a + b) + 1) (κ + 1) b (κ - v) v (by omega)]
  ring

end PI
