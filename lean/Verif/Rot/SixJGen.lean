import Verif.Rot.SixJSum
import Verif.Rot.RecoupleEnd

/-!
# The recoupling constant is a 6j symbol, for all momenta
-/

namespace PI

theorem bin_ifct (n : ℕ) (k : ℤ) : bin n k = (n.factorial : ℝ) * (ifct k * ifct ((n : ℤ) - k)) := by
  by_cases h : k < 0
  · rw [bin_neg _ _ h, ifct_neg' h]; ring
  · obtain ⟨m, rfl⟩ : ∃ m : ℕ, k = m := ⟨k.toNat, by omega⟩
    by_cases hm : m ≤ n
    · rw [bin_nat, show (n : ℤ) - m = ((n - m : ℕ) : ℤ) by omega, ifct_nat, ifct_nat, choose_inv n m hm]
      have := fac_ne n
      field_simp
    · rw [bin_gt _ _ (by omega), ifct_neg' (show (n : ℤ) - m < 0 by omega)]; ring

theorem choose_ifct (n k : ℕ) : (n.choose k : ℝ) = (n.factorial : ℝ) * (ifct (k : ℤ) * ifct ((n : ℤ) - k)) := by
  rw [← bin_ifct, bin_nat]

/-- The Racah formula on projections counted from the top. -/
theorem w3i_racah (k1 k2 k3 l1 l2 l3 : ℕ) (h1 : l1 ≤ k2 + k3) (h2 : l2 ≤ k1 + k3) (h3 : l3 ≤ k1 + k2) (hl : l1 + l2 + l3 = k1 + k2 + k3) :
    w3i (k2 + k3) (k1 + k3) (k1 + k2) l1 l2 l3 *
      (Real.sqrt ((k2 + k3).choose l1) * Real.sqrt ((k1 + k3).choose l2) * Real.sqrt ((k1 + k2).choose l3)) =
    invNorm k1 k2 k3 * (k1.factorial * k2.factorial * k3.factorial) * (sgn ((l3 : ℤ) - k1) *
      ∑ a ∈ Finset.range (k3 + 1), sgn (a : ℤ) * (ifct a * ifct ((k2 : ℤ) - l1 + a) * ifct ((l2 : ℤ) - k3 + a) * ifct ((k3 : ℤ) - a) *
        ifct ((l1 : ℤ) - a) * ifct ((k1 : ℤ) + k3 - l2 - a))) := by
  unfold w3i
  rw [w3j_coeff k1 k2 k3 l1 l2 l3 h1 h2 h3, mul_assoc (invNorm k1 k2 k3)]
  congr 1
  rw [Finset.mul_sum, Finset.mul_sum]
  refine Finset.sum_congr rfl fun a ha => ?_
  have := racah_term k1 k2 k3 l1 l2 l3 a hl (by have := Finset.mem_range.1 ha; omega)
  have f1 := fac_ne k1; have f2 := fac_ne k2; have f3 := fac_ne k3
  rw [this]
  field_simp

theorem ab_term (a b g τ : ℕ) (hτ : τ ≤ a + b) : w3i (a + g) (b + g) (a + b) 0 (a + b + g - τ) τ * (Real.sqrt ((b + g).choose (a + b + g - τ)) * Real.sqrt ((a + b).choose τ)) =
    invNorm b a g * ((-1) ^ (a + b - τ + a) * bin b ((a + b - τ : ℕ) : ℤ)) := by
  by_cases h : a ≤ τ
  · have e := w3i_coeff_zero b a g (a + b + g - τ) τ (by omega) (by omega)
    rw [if_pos (by omega), show a + b + g - τ - g = a + b - τ by omega, add_comm b a] at e
    rw [e, bin_nat]
  · rw [w3i_oob _ _ _ _ _ _ (by omega), bin_gt _ _ (by omega)]; ring

theorem racah_bins (a b e h κ κ' g P Q R τ t : ℕ) (hτ : τ ≤ a + b) (ha : a ≤ τ) (e2 : b + g = P + Q) (e3 : κ + κ' = P + R) (e4 : κ' + e = P + a) (e5 : g + κ = P + h) :
    (ifct t * ifct ((Q : ℤ) - ((τ - a : ℕ) : ℤ) + t) * ifct ((κ' : ℤ) - P + t) * ifct ((P : ℤ) - t) * ifct (((τ - a : ℕ) : ℤ) - t) * ifct ((R : ℤ) + P - κ' - t)) *
      ((P.factorial : ℝ) * (τ.factorial * (g + (a + b - τ)).factorial * (h + (a + b - τ)).factorial)) =
    (e.factorial * g.factorial * (a + b - τ).factorial : ℝ) *
      ((P.choose t : ℝ) * ((a + t).choose e : ℝ) * ((τ.choose (a + t) : ℝ) * ((g + (a + b - τ)).choose g : ℝ) * bin (h + (a + b - τ)) ((κ : ℤ) - t))) := by
  rw [bin_ifct, choose_ifct, choose_ifct, choose_ifct, choose_ifct, show ((τ : ℤ) - ((a + t : ℕ) : ℤ)) = ((τ - a : ℕ) : ℤ) - t by omega,
    show (((a + t : ℕ) : ℤ) - e) = (κ' : ℤ) - P + t by omega, show (((h + (a + b - τ) : ℕ) : ℤ) - ((κ : ℤ) - t)) = (Q : ℤ) - ((τ - a : ℕ) : ℤ) + t by omega,
    show (R : ℤ) + P - κ' - t = (κ : ℤ) - t by omega, show (((g + (a + b - τ) : ℕ) : ℤ) - g) = ((a + b - τ : ℕ) : ℤ) by omega]
  simp only [ifct_nat]
  have f1 := fac_ne e; have f2 := fac_ne g; have f3 := fac_ne (a + b - τ); have f4 := fac_ne (a + t)
  field_simp

theorem sum_cut (m n : ℕ) (F : ℕ → ℝ) (hm : ∀ t, m ≤ t → F t = 0) (hn : ∀ t, n ≤ t → F t = 0) : ∑ t ∈ Finset.range m, F t = ∑ t ∈ Finset.range n, F t := by
  have h : ∀ k, (∀ t, k ≤ t → F t = 0) → ∑ t ∈ Finset.range k, F t = ∑ t ∈ Finset.range (max m n), F t ∨ max m n < k := by
    intro k hk
    by_cases c : k ≤ max m n
    · left
      refine Finset.sum_subset (Finset.range_mono c) fun t _ h2 => hk t ?_
      rw [Finset.mem_range] at h2; omega
    · right; omega
  rcases h m hm with h1 | h1
  · rcases h n hn with h2 | h2
    · rw [h1, h2]
    · omega
  · omega

/-- The terms of the double sum. -/
noncomputable def dblTerm (a b e h κ g P τ t : ℕ) : ℝ :=
  (-1 : ℝ) ^ t * (P.choose t : ℝ) * ((a + t).choose e : ℝ) * ((τ.choose (a + t) : ℝ) * ((g + (a + b - τ)).choose g : ℝ) * bin (h + (a + b - τ)) ((κ : ℤ) - t))

theorem racah_to_dbl (a b e h κ κ' g P Q R τ : ℕ) (hτ : τ ≤ a + b) (ha : a ≤ τ) (e2 : b + g = P + Q) (e3 : κ + κ' = P + R) (e4 : κ' + e = P + a) (e5 : g + κ = P + h) :
    (∑ t ∈ Finset.range (P + 1), sgn (t : ℤ) * (ifct t * ifct ((Q : ℤ) - ((τ - a : ℕ) : ℤ) + t) * ifct ((κ' : ℤ) - P + t) * ifct ((P : ℤ) - t) * ifct (((τ - a : ℕ) : ℤ) - t) *
        ifct ((R : ℤ) + P - κ' - t))) * ((P.factorial : ℝ) * (τ.factorial * (g + (a + b - τ)).factorial * (h + (a + b - τ)).factorial)) =
    (e.factorial * g.factorial * (a + b - τ).factorial : ℝ) * ∑ t ∈ Finset.range (κ + 1), dblTerm a b e h κ g P τ t := by
  rw [sum_cut (κ + 1) (P + 1) (dblTerm a b e h κ g P τ)]
  · rw [Finset.sum_mul, Finset.mul_sum]
    refine Finset.sum_congr rfl fun t _ => ?_
    have r := racah_bins a b e h κ κ' g P Q R τ t hτ ha e2 e3 e4 e5
    rw [inv_sgn_nat, mul_assoc ((-1 : ℝ) ^ t), r]
    unfold dblTerm
    ring
  · intro t ht; unfold dblTerm; rw [bin_neg _ _ (by omega)]; ring
  · intro t ht; unfold dblTerm; rw [Nat.choose_eq_zero_of_lt (show P < t by omega)]; simp

theorem dbl_zero (a b e h κ g P τ t : ℕ) (hz : τ < a ∨ τ < e) : dblTerm a b e h κ g P τ t = 0 := by
  unfold dblTerm
  by_cases c : τ < a + t
  · rw [Nat.choose_eq_zero_of_lt c]; simp
  · rw [Nat.choose_eq_zero_of_lt (show a + t < e by omega)]; simp

/-- The product of the three symbols with the inner projections fixed. -/
theorem triple_term (a b e b2 h κ κ' g P Q R τ : ℕ) (hτ : τ ≤ a + b) (e1 : a + b = e + b2) (e2 : b + g = P + Q) (e6 : b2 + h = Q + R) (e3 : κ + κ' = P + R)
    (e4 : κ' + e = P + a) (e5 : g + κ = P + h) :
    w3i (a + g) (b + g) (a + b) 0 (a + b + g - τ) τ * w3i (b + g) (κ + κ') (b2 + h) (a + b + g - τ) κ ((b2 + h) - (a + b + h - τ)) *
      w3i (e + h) (b2 + h) (a + b) 0 (a + b + h - τ) τ * Real.sqrt ((κ + κ').choose κ) =
    invNorm b a g * invNorm R Q P * invNorm b2 e h * (R.factorial * Q.factorial * b.factorial * b2.factorial * e.factorial * g.factorial /
      ((b + g).factorial * (b2 + h).factorial * (a + b).factorial)) * (sgn ((P + Q + R : ℕ) : ℤ) * sgn (((a + b + h - τ : ℕ) : ℤ) - R) * (-1) ^ (a + e)) *
      ∑ t ∈ Finset.range (κ + 1), dblTerm a b e h κ g P τ t := by
  by_cases hz : τ < a ∨ τ < e
  · rw [Finset.sum_eq_zero fun t _ => dbl_zero a b e h κ g P τ t hz, mul_zero]
    rcases hz with hz | hz
    · rw [w3i_oob (a + g) _ _ _ _ _ (by omega)]; ring
    · rw [w3i_oob (e + h) _ _ _ _ _ (by omega)]; ring
  · push Not at hz
    obtain ⟨ha, he⟩ := hz
    have A := ab_term a b g τ hτ
    have D := ab_term e b2 h τ (by omega)
    rw [← e1] at D
    have fl := w3i_flip (b + g) (κ + κ') (b2 + h) (τ - a) κ' (a + b + h - τ) (by omega) (by omega) (by omega)
    rw [show b + g - (τ - a) = a + b + g - τ by omega, show κ + κ' - κ' = κ by omega,
      show (((b + g : ℕ) : ℤ) + ((κ + κ' : ℕ) : ℤ) + ((b2 + h : ℕ) : ℤ)) / 2 = ((P + Q + R : ℕ) : ℤ) by omega] at fl
    have B := w3i_racah R Q P (τ - a) κ' (a + b + h - τ) (by omega) (by omega) (by omega) (by omega)
    rw [show Q + P = b + g by omega, show R + P = κ + κ' by omega, show R + Q = b2 + h by omega] at B
    have T := racah_to_dbl a b e h κ κ' g P Q R τ hτ ha e2 e3 e4 e5
    have c1 : (b + g).choose (τ - a) = (b + g).choose (a + b + g - τ) := by
      rw [← Nat.choose_symm (show τ - a ≤ b + g by omega)]; congr 1; omega
    have c2 : (κ + κ').choose κ' = (κ + κ').choose κ := by
      rw [← Nat.choose_symm (show κ ≤ κ + κ' by omega)]; congr 1; omega
    rw [c1, c2] at B
    rw [fl]
    have p1 := sqrt_choose_pos (show a + b + g - τ ≤ b + g by omega)
    have p2 := sqrt_choose_pos (show τ ≤ a + b by omega)
    have p3 := sqrt_choose_pos (show a + b + h - τ ≤ b2 + h by omega)
    have q1 := Real.mul_self_sqrt (show (0 : ℝ) ≤ ((b + g).choose (a + b + g - τ) : ℕ) by positivity)
    have q2 := Real.mul_self_sqrt (show (0 : ℝ) ≤ ((a + b).choose τ : ℕ) by positivity)
    have q3 := Real.mul_self_sqrt (show (0 : ℝ) ≤ ((b2 + h).choose (a + b + h - τ) : ℕ) by positivity)
    have d1 : ((b + g).choose (a + b + g - τ) : ℝ) * ((g + (a + b - τ)).factorial * (τ - a).factorial) = (b + g).factorial := by
      have := Nat.choose_mul_factorial_mul_factorial (show a + b + g - τ ≤ b + g by omega)
      rw [show b + g - (a + b + g - τ) = τ - a by omega, show (a + b + g - τ).factorial = (g + (a + b - τ)).factorial by congr 1; omega] at this
      rw [← mul_assoc]; exact_mod_cast this
    have d2 : ((b2 + h).choose (a + b + h - τ) : ℝ) * ((h + (a + b - τ)).factorial * (τ - e).factorial) = (b2 + h).factorial := by
      have := Nat.choose_mul_factorial_mul_factorial (show a + b + h - τ ≤ b2 + h by omega)
      rw [show b2 + h - (a + b + h - τ) = τ - e by omega, show (a + b + h - τ).factorial = (h + (a + b - τ)).factorial by congr 1; omega] at this
      rw [← mul_assoc]; exact_mod_cast this
    have d3 : ((a + b).choose τ : ℝ) * (τ.factorial * (a + b - τ).factorial) = (a + b).factorial := by
      have := Nat.choose_mul_factorial_mul_factorial hτ
      rw [← mul_assoc]; exact_mod_cast this
    have d4 : bin b ((a + b - τ : ℕ) : ℤ) * ((a + b - τ).factorial * (τ - a).factorial) = b.factorial := by
      have := Nat.choose_mul_factorial_mul_factorial (show a + b - τ ≤ b by omega)
      rw [show b - (a + b - τ) = τ - a by omega] at this
      rw [bin_nat, ← mul_assoc]; exact_mod_cast this
    have d5 : bin b2 ((a + b - τ : ℕ) : ℤ) * ((a + b - τ).factorial * (τ - e).factorial) = b2.factorial := by
      have := Nat.choose_mul_factorial_mul_factorial (show a + b - τ ≤ b2 by omega)
      rw [show b2 - (a + b - τ) = τ - e by omega] at this
      rw [bin_nat, ← mul_assoc]; exact_mod_cast this
    have s1 : ((-1 : ℝ) ^ (a + b - τ + a)) * (-1) ^ (a + b - τ + e) = (-1) ^ (a + e) := by
      rw [← pow_add, show a + b - τ + a + (a + b - τ + e) = a + e + 2 * (a + b - τ) by omega, pow_add, pow_mul, neg_one_sq, one_pow, mul_one]
    generalize hT : (∑ t ∈ Finset.range (P + 1), sgn (t : ℤ) * (ifct t * ifct ((Q : ℤ) - ((τ - a : ℕ) : ℤ) + t) * ifct ((κ' : ℤ) - P + t) * ifct ((P : ℤ) - t) * ifct (((τ - a : ℕ) : ℤ) - t) *
        ifct ((R : ℤ) + P - κ' - t))) = T1 at B T
    generalize (∑ t ∈ Finset.range (κ + 1), dblTerm a b e h κ g P τ t) = T2 at T ⊢
    generalize w3i (a + g) (b + g) (a + b) 0 (a + b + g - τ) τ = wA at A ⊢
    generalize w3i (e + h) (b2 + h) (a + b) 0 (a + b + h - τ) τ = wD at D ⊢
    generalize w3i (b + g) (κ + κ') (b2 + h) (τ - a) κ' (a + b + h - τ) = wB at B ⊢
    generalize Real.sqrt ((κ + κ').choose κ) = rK at B ⊢
    rw [← q1] at d1; rw [← q3] at d2; rw [← q2] at d3
    generalize Real.sqrt ((b + g).choose (a + b + g - τ)) = r1 at A B p1 d1
    generalize Real.sqrt ((a + b).choose τ) = r2 at A D p2 d3
    generalize Real.sqrt ((b2 + h).choose (a + b + h - τ)) = r3 at B D p3 d2
    have pr : r1 * r1 * (r2 * r2) * (r3 * r3) ≠ 0 := by positivity
    have all : wA * (sgn ((P + Q + R : ℕ) : ℤ) * wB) * wD * rK * (r1 * r1 * (r2 * r2) * (r3 * r3)) =
        sgn ((P + Q + R : ℕ) : ℤ) * (wA * (r1 * r2)) * (wB * (r1 * rK * r3)) * (wD * (r3 * r2)) := by ring
    rw [← mul_left_inj' pr, all, A, B, D, ← d1, ← d2, ← d3, ← d4, ← d5, ← s1]
    have f1 := fac_ne P; have f2 := fac_ne τ; have f3 := fac_ne (g + (a + b - τ)); have f4 := fac_ne (h + (a + b - τ)); have f5 := fac_ne (a + b - τ)
    have f6 := fac_ne (τ - a); have f7 := fac_ne (τ - e); have p1' := p1.ne'; have p2' := p2.ne'; have p3' := p3.ne'
    have hT1 : (P.factorial : ℝ) * T1 = (e.factorial * g.factorial * (a + b - τ).factorial : ℝ) * T2 / (τ.factorial * (g + (a + b - τ)).factorial * (h + (a + b - τ)).factorial) := by
      rw [eq_div_iff (by positivity), ← T]; ring
    generalize (-1 : ℝ) ^ (a + b - τ + a) = x1
    generalize (-1 : ℝ) ^ (a + b - τ + e) = x2
    generalize bin b ((a + b - τ : ℕ) : ℤ) = y1 at d4 ⊢
    generalize bin b2 ((a + b - τ : ℕ) : ℤ) = y2 at d5 ⊢
    generalize ((g + (a + b - τ)).factorial : ℝ) = F3 at f3 hT1 ⊢
    generalize ((h + (a + b - τ)).factorial : ℝ) = F4 at f4 hT1 ⊢
    generalize ((a + b - τ).factorial : ℝ) = F5 at f5 hT1 ⊢
    generalize ((τ - a).factorial : ℝ) = F6 at f6 ⊢
    generalize ((τ - e).factorial : ℝ) = F7 at f7 ⊢
    generalize (τ.factorial : ℝ) = F2 at f2 hT1 ⊢
    generalize (e.factorial : ℝ) = E at hT1 ⊢
    generalize (g.factorial : ℝ) = G at hT1 ⊢
    generalize (R.factorial : ℝ) = FR
    generalize (Q.factorial : ℝ) = FQ
    have fr : FR * FQ * (y1 * (F5 * F6)) * (y2 * (F5 * F7)) * E * G / (r1 * r1 * (F3 * F6) * (r3 * r3 * (F4 * F7)) * (r2 * r2 * (F2 * F5))) * (r1 * r1 * (r2 * r2) * (r3 * r3)) =
        FR * FQ * y1 * y2 * (E * G * F5 / (F2 * F3 * F4)) := by
      field_simp
    rw [mul_div_right_comm] at hT1
    linear_combination (sgn ((P + Q + R : ℕ) : ℤ) * invNorm b a g * x1 * y1 * invNorm R Q P * FR * FQ * sgn (((a + b + h - τ : ℕ) : ℤ) - R) * invNorm b2 e h * x2 * y2) * hT1 -
      (invNorm b a g * invNorm R Q P * invNorm b2 e h * sgn ((P + Q + R : ℕ) : ℤ) * sgn (((a + b + h - τ : ℕ) : ℤ) - R) * x1 * x2 * T2) * fr

/-- The contraction at the ends as a double sum. -/
theorem rec_dbl (a b e b2 h κ κ' g P Q R : ℕ) (e1 : a + b = e + b2) (e2 : b + g = P + Q) (e6 : b2 + h = Q + R) (e3 : κ + κ' = P + R)
    (e4 : κ' + e = P + a) (e5 : g + κ = P + h) :
    recF (b + g) (b2 + h) (a + b) (κ + κ') (a + g) (e + h) (a + g) κ 0 * Real.sqrt ((κ + κ').choose κ) =
    invNorm b a g * invNorm R Q P * invNorm b2 e h * (R.factorial * Q.factorial * b.factorial * b2.factorial * e.factorial * g.factorial /
      ((b + g).factorial * (b2 + h).factorial * (a + b).factorial)) * (-1) ^ (b2 + h + (a + b) + a + e) *
      ∑ τ ∈ Finset.range (a + b + 1), ∑ t ∈ Finset.range (κ + 1), dblTerm a b e h κ g P τ t := by
  rw [recF_top' (b + g) (b2 + h) (a + b) (κ + κ') (a + g) (e + h) κ (a + b + g) (a + b + h) (by omega) (by omega) (by omega) (by omega), mul_assoc, Finset.sum_mul,
    Finset.mul_sum, Finset.mul_sum]
  refine Finset.sum_congr rfl fun τ hτ => ?_
  have r := Finset.mem_range.1 hτ
  have t := triple_term a b e b2 h κ κ' g P Q R τ (by omega) e1 e2 e6 e3 e4 e5
  have sg : (-1 : ℝ) ^ (b + g) * (-1) ^ (b2 + h) * (-1) ^ (a + b) * (-1) ^ (a + b + g) * ((-1 : ℝ) ^ τ * (-1) ^ (a + b + g - τ) * (-1) ^ (a + b + h - τ)) *
      (sgn ((P + Q + R : ℕ) : ℤ) * sgn (((a + b + h - τ : ℕ) : ℤ) - R) * (-1) ^ (a + e)) = (-1) ^ (b2 + h + (a + b) + a + e) := by
    simp only [← sgn_natCast, sgn_mul]
    apply sgn_congr
    push_cast [Nat.cast_sub (show τ ≤ a + b + g by omega), Nat.cast_sub (show τ ≤ a + b + h by omega)]
    have : (b : ℤ) + g = P + Q := by exact_mod_cast e2
    have hh : ((b : ℤ) + g + (b2 + h) + (a + b) + (a + b + g) + (τ + (a + b + g - τ) + (a + b + h - τ)) + (P + Q + R + (a + b + h - τ - R) + (a + e)) - (b2 + h + (a + b) + a + e)) =
      2 * (b + g + (a + b + g) + (a + b + h) - τ) := by linear_combination -this
    omega
  rw [← sg]
  linear_combination ((-1 : ℝ) ^ (b + g) * (-1) ^ (b2 + h) * (-1) ^ (a + b) * (-1) ^ (a + b + g) * ((-1 : ℝ) ^ τ * (-1) ^ (a + b + g - τ) * (-1) ^ (a + b + h - τ))) * t

/-- The 6j sum as a finite one. -/
theorem racah_six (a b e h κ g P X Z V Y B1 B2 B3 : ℕ) (hX : X = a + b + g) (hZ : X + κ = Z + e) (hV : X + κ = V + b) (hY : X + κ = Y + P)
    (h1 : B1 + κ = X + κ + h) (h2 : B2 + e = X + κ + a) (h3 : B3 = X + κ) :
    ∑ v ∈ Finset.range (κ + 1), (-1 : ℝ) ^ v * (bin a ((e : ℤ) - v) * (P.choose v : ℝ) * bin h ((κ : ℤ) - v) * bin (κ - v + (g + (a + b) + 1)) ((b : ℤ) - v)) =
      (a.factorial * P.factorial * h.factorial / (V + 1).factorial : ℝ) * (-1) ^ (X + κ) * sum6 X Z V Y B1 B2 B3 := by
  have hs : sum6 X Z V Y B1 B2 B3 = ∑ v ∈ Finset.range (κ + 1), sgn ((X : ℤ) + κ - v) * fct ((X : ℤ) + κ - v + 1) * (ifct ((κ : ℤ) - v) * ifct ((e : ℤ) - v) * ifct ((b : ℤ) - v) * ifct ((P : ℤ) - v) *
      (ifct ((h : ℤ) - κ + v) * ifct ((a : ℤ) - e + v) * ifct (v : ℤ))) := by
    unfold sum6
    have hsup := finsum_eq_sum_of_support_subset (s := (Finset.range (κ + 1)).image fun v : ℕ => (X : ℤ) + κ - v) (fun t : ℤ =>
      sgn t * fct (t + 1) * (ifct (t - X) * ifct (t - Z) * ifct (t - V) * ifct (t - Y) * (ifct (B1 - t) * ifct (B2 - t) * ifct (B3 - t)))) (by
      intro t ht
      rw [Function.mem_support] at ht
      rw [Finset.mem_coe, Finset.mem_image]
      refine ⟨((X : ℤ) + κ - t).toNat, ?_, ?_⟩
      · rw [Finset.mem_range]
        by_contra c
        apply ht
        rw [ifct_neg' (show t - X < 0 by omega)]; ring
      · by_cases c : (B3 : ℤ) - t < 0
        · exfalso; apply ht; rw [ifct_neg' c]; ring
        · omega)
    rw [hsup, Finset.sum_image (by intro x _ y _ hxy; have : (X : ℤ) + κ - x = (X : ℤ) + κ - y := hxy; omega)]
    refine Finset.sum_congr rfl fun v _ => ?_
    rw [show (X : ℤ) + κ - v - X = (κ : ℤ) - v by omega, show (X : ℤ) + κ - v - Z = (e : ℤ) - v by omega, show (X : ℤ) + κ - v - V = (b : ℤ) - v by omega,
      show (X : ℤ) + κ - v - Y = (P : ℤ) - v by omega, show (B1 : ℤ) - ((X : ℤ) + κ - v) = (h : ℤ) - κ + v by omega,
      show (B2 : ℤ) - ((X : ℤ) + κ - v) = (a : ℤ) - e + v by omega, show (B3 : ℤ) - ((X : ℤ) + κ - v) = v by omega]
  rw [hs, Finset.mul_sum]
  refine Finset.sum_congr rfl fun v hv => ?_
  have r := Finset.mem_range.1 hv
  rw [bin_ifct, bin_ifct, bin_ifct, choose_ifct, show (a : ℤ) - (e - v) = (a : ℤ) - e + v by ring, show (h : ℤ) - (κ - v) = (h : ℤ) - κ + v by ring,
    show (((κ - v + (g + (a + b) + 1) : ℕ) : ℤ) - ((b : ℤ) - v)) = ((V + 1 : ℕ) : ℤ) by omega, show (X : ℤ) + κ - v + 1 = ((κ - v + (g + (a + b) + 1) : ℕ) : ℤ) by omega, fct_nat, ifct_nat (V + 1),
    show (X : ℤ) + κ - v = ((X + κ - v : ℕ) : ℤ) by omega, sgn_natCast]
  have sg : (-1 : ℝ) ^ (X + κ) * (-1) ^ (X + κ - v) = (-1) ^ v := by
    rw [← pow_add, show X + κ + (X + κ - v) = v + 2 * (X + κ - v) by omega, pow_add, pow_mul, neg_one_sq, one_pow, mul_one]
  rw [← sg]
  ring

theorem delta2_nat (x y z w : ℕ) (a b c : ℤ) (h1 : a + b - c = 2 * x) (h2 : a - b + c = 2 * y) (h3 : -a + b + c = 2 * z) (hw : w = x + y + z) :
    delta2 a b c = (x.factorial * y.factorial * z.factorial : ℝ) / (w + 1).factorial := by
  unfold delta2
  rw [show (a + b - c) / 2 = (x : ℤ) by omega, show (a - b + c) / 2 = (y : ℤ) by omega, show (-a + b + c) / 2 = (z : ℤ) by omega,
    show (a + b + c) / 2 + 1 = ((w + 1 : ℕ) : ℤ) by omega]
  simp only [fct_nat]

theorem invNorm_sq' (x y z n1 n2 n3 w : ℕ) (h1 : n1 = y + z) (h2 : n2 = x + z) (h3 : n3 = x + y) (hw : w = x + y + z) : invNorm x y z ^ 2 =
    (n1.factorial * n2.factorial * n3.factorial : ℝ) / ((w + 1).factorial * (x.factorial * y.factorial * z.factorial)) := by
  subst h1 h2 h3 hw; exact invNorm_sq x y z

theorem six_norm (a b g e b2 h P Q R κ κ' ρ L1 L2 S K J1 J2 X Y Z V : ℕ) (hL1 : L1 = b + g) (hL1' : L1 = P + Q) (hL2 : L2 = b2 + h) (hL2' : L2 = Q + R) (hS : S = a + b) (hS' : S = e + b2)
    (hK : K = κ + κ') (hK' : K = P + R) (hJ1 : J1 = a + g) (hJ1' : J1 = κ' + ρ) (hJ2 : J2 = e + h) (hJ2' : J2 = κ + ρ)
    (hX : X = a + b + g) (hY : Y = e + b2 + h) (hZ : Z = P + Q + R) (hV : V = κ + κ' + ρ) :
    invNorm b a g * invNorm R Q P * invNorm b2 e h * (R.factorial * Q.factorial * b.factorial * b2.factorial * e.factorial * g.factorial /
      (L1.factorial * L2.factorial * S.factorial)) * (a.factorial * P.factorial * h.factorial / (V + 1).factorial) =
    Real.sqrt (delta2 L1 J1 S * delta2 L1 L2 K * delta2 J2 J1 K * delta2 J2 L2 S) * invNorm κ' κ ρ := by
  have i1 := invNorm_pos b a g; have i2 := invNorm_pos R Q P; have i3 := invNorm_pos b2 e h; have i4 := invNorm_pos κ' κ ρ
  rw [← sq_eq_sq₀ (by positivity) (by positivity)]
  rw [delta2_nat g b a X L1 J1 S (by omega) (by omega) (by omega) (by omega), delta2_nat Q P R Z L1 L2 K (by omega) (by omega) (by omega) (by omega),
    delta2_nat ρ κ κ' V J2 J1 K (by omega) (by omega) (by omega) (by omega), delta2_nat h e b2 Y J2 L2 S (by omega) (by omega) (by omega) (by omega)]
  simp only [mul_pow]
  rw [Real.sq_sqrt (by positivity), invNorm_sq' b a g J1 L1 S X (by omega) (by omega) (by omega) (by omega), invNorm_sq' R Q P L1 K L2 Z (by omega) (by omega) (by omega) (by omega),
    invNorm_sq' b2 e h J2 L2 S Y (by omega) (by omega) (by omega) (by omega), invNorm_sq' κ' κ ρ J2 J1 K V (by omega) (by omega) (by omega) (by omega)]
  have f1 := fac_ne a; have f2 := fac_ne b; have f3 := fac_ne g; have f4 := fac_ne e; have f5 := fac_ne b2; have f6 := fac_ne h
  have f7 := fac_ne P; have f8 := fac_ne Q; have f9 := fac_ne R; have f10 := fac_ne κ; have f11 := fac_ne κ'; have f12 := fac_ne ρ
  have g1 := fac_ne L1; have g2 := fac_ne L2; have g3 := fac_ne S; have g4 := fac_ne K; have g5 := fac_ne J1; have g6 := fac_ne J2
  have g7 := fac_ne (X + 1); have g8 := fac_ne (Y + 1); have g9 := fac_ne (Z + 1); have g10 := fac_ne (V + 1)
  generalize (a.factorial : ℝ) = a at *
  generalize (b.factorial : ℝ) = b at *
  generalize (g.factorial : ℝ) = g at *
  generalize (e.factorial : ℝ) = e at *
  generalize (b2.factorial : ℝ) = b2 at *
  generalize (h.factorial : ℝ) = h at *
  generalize (P.factorial : ℝ) = P at *
  generalize (Q.factorial : ℝ) = Q at *
  generalize (R.factorial : ℝ) = R at *
  generalize (κ.factorial : ℝ) = κ at *
  generalize (κ'.factorial : ℝ) = κ' at *
  generalize (ρ.factorial : ℝ) = ρ at *
  generalize (L1.factorial : ℝ) = L1 at *
  generalize (L2.factorial : ℝ) = L2 at *
  generalize (S.factorial : ℝ) = S at *
  generalize (K.factorial : ℝ) = K at *
  generalize (J1.factorial : ℝ) = J1 at *
  generalize (J2.factorial : ℝ) = J2 at *
  generalize ((X + 1).factorial : ℝ) = X at *
  generalize ((Y + 1).factorial : ℝ) = Y at *
  generalize ((Z + 1).factorial : ℝ) = Z at *
  generalize ((V + 1).factorial : ℝ) = V at *
  field_simp

/-- The contraction at the ends is a 6j symbol times the symbol of the outer momenta. -/
theorem rec_six (a b g e b2 h P Q R κ κ' ρ L1 L2 S K J1 J2 X Y Z V : ℕ) (hL1 : L1 = b + g) (hL1' : L1 = P + Q) (hL2 : L2 = b2 + h) (hL2' : L2 = Q + R) (hS : S = a + b) (hS' : S = e + b2)
    (hK : K = κ + κ') (hK' : K = P + R) (hJ1 : J1 = a + g) (hJ1' : J1 = κ' + ρ) (hJ2 : J2 = e + h) (hJ2' : J2 = κ + ρ)
    (hX : X = a + b + g) (hY : Y = e + b2 + h) (hZ : Z = P + Q + R) (hV : V = κ + κ' + ρ) :
    recF L1 L2 S K J1 J2 J1 κ 0 = ((-1) ^ X * (-1) ^ Z * (-1) ^ S * w6j (L1 : ℤ) (J1 : ℤ) (S : ℤ) (J2 : ℤ) (L2 : ℤ) (K : ℤ)) * w3i J1 K J2 J1 κ 0 := by
  have d := rec_dbl a b e b2 h κ κ' g P Q R (by omega) (by omega) (by omega) (by omega) (by omega) (by omega)
  rw [← hL1, ← hL2, ← hS, ← hK, ← hJ1, ← hJ2] at d
  have sw : ∑ τ ∈ Finset.range (S + 1), ∑ t ∈ Finset.range (κ + 1), dblTerm a b e h κ g P τ t =
      ∑ t ∈ Finset.range (κ + 1), (-1 : ℝ) ^ t * (P.choose t : ℝ) * ((a + t).choose e : ℝ) *
      ∑ τ ∈ Finset.range (a + b + 1), ((τ.choose (a + t) : ℝ) * ((g + (a + b - τ)).choose g : ℝ) * bin (h + (a + b - τ)) ((κ : ℤ) - t)) := by
    rw [Finset.sum_comm, hS]
    refine Finset.sum_congr rfl fun t _ => ?_
    rw [Finset.mul_sum]
    rfl
  rw [sw, racah_sum a b e h κ g P (by omega), racah_six a b e h κ g P X Z V Y ((L1 + J1 + J2 + L2) / 2) ((J1 + S + L2 + K) / 2) ((L1 + S + J2 + K) / 2)
    hX (by omega) (by omega) (by omega) (by omega) (by omega) (by omega)] at d
  have n := six_norm a b g e b2 h P Q R κ κ' ρ L1 L2 S K J1 J2 X Y Z V hL1 hL1' hL2 hL2' hS hS' hK hK' hJ1 hJ1' hJ2 hJ2' hX hY hZ hV
  have w := w3i_end κ' κ ρ
  rw [show κ' + ρ = J1 by omega, show κ' + κ = K by omega, show κ + ρ = J2 by omega] at w
  have h6 : w6j (L1 : ℤ) (J1 : ℤ) (S : ℤ) (J2 : ℤ) (L2 : ℤ) (K : ℤ) = Real.sqrt (delta2 L1 J1 S * delta2 L1 L2 K * delta2 J2 J1 K * delta2 J2 L2 S) *
      sum6 X Z V Y ((L1 + J1 + J2 + L2) / 2 : ℕ) ((J1 + S + L2 + K) / 2 : ℕ) ((L1 + S + J2 + K) / 2 : ℕ) := by
    unfold w6j
    rw [if_pos ⟨by unfold Tri; omega, by unfold Tri; omega, by unfold Tri; omega, by unfold Tri; omega⟩,
      show ((L1 : ℤ) + J1 + S) / 2 = X by omega, show ((L1 : ℤ) + L2 + K) / 2 = Z by omega, show ((J2 : ℤ) + J1 + K) / 2 = V by omega, show ((J2 : ℤ) + L2 + S) / 2 = Y by omega]
    push_cast
    rfl
  have pK := sqrt_choose_pos (show κ ≤ K by omega)
  rw [w, h6, ← mul_left_inj' pK.ne', d]
  have sg : ((-1 : ℝ) ^ (L2 + S + a + e)) * (-1) ^ (X + κ) = (-1) ^ X * (-1) ^ Z * (-1) ^ S * (-1) ^ K := by
    simp only [← sgn_natCast, sgn_mul]
    apply sgn_congr
    have e : ((L2 : ℤ) + S + a + e + (X + κ) - (X + Z + S + K)) = 2 * (a - κ') := by omega
    push_cast
    omega
  generalize w6j (L1 : ℤ) (J1 : ℤ) (S : ℤ) (J2 : ℤ) (L2 : ℤ) (K : ℤ) = w6 at *
  generalize sum6 X Z V Y ((L1 + J1 + J2 + L2) / 2 : ℕ) ((J1 + S + L2 + K) / 2 : ℕ) ((L1 + S + J2 + K) / 2 : ℕ) = s6 at *
  generalize Real.sqrt (delta2 L1 J1 S * delta2 L1 L2 K * delta2 J2 J1 K * delta2 J2 L2 S) = rd at *
  rw [mul_assoc (_ : ℝ) ((-1 : ℝ) ^ K * _), mul_assoc ((-1 : ℝ) ^ K), div_mul_cancel₀ _ pK.ne']
  linear_combination ((-1 : ℝ) ^ (L2 + S + a + e) * (-1) ^ (X + κ) * s6) * n + (rd * invNorm κ' κ ρ * s6) * sg

/-- Recoupling: the contraction of three vertices over a triangle is a 6j symbol times the vertex of the outer momenta. -/
theorem recF_six (L1 L2 S K J1 J2 : ℕ) (ta : TriN L1 S J1) (td : TriN L2 S J2) (pb : (L1 + K + L2) % 2 = 0) :
    ∀ i1 ≤ J1, ∀ iq ≤ K, ∀ i2 ≤ J2, recF L1 L2 S K J1 J2 i1 iq i2 =
      ((-1) ^ ((J1 + S + L1) / 2) * (-1) ^ ((L1 + L2 + K) / 2) * (-1) ^ S * w6j (L1 : ℤ) (J1 : ℤ) (S : ℤ) (J2 : ℤ) (L2 : ℤ) (K : ℤ)) * w3i J1 K J2 i1 iq i2 := by
  by_cases tb : TriN L1 K L2
  · unfold TriN at ta td tb
    refine recF_eq L1 L2 S K J1 J2 (by omega) pb (by omega) _ fun tc => ?_
    unfold TriN at tc
    exact rec_six ((J1 + S - L1) / 2) ((L1 + S - J1) / 2) ((J1 + L1 - S) / 2) ((J2 + S - L2) / 2) ((L2 + S - J2) / 2) ((J2 + L2 - S) / 2)
      ((L1 + K - L2) / 2) ((L1 + L2 - K) / 2) ((L2 + K - L1) / 2) ((K + J2 - J1) / 2) ((K + J1 - J2) / 2) ((J1 + J2 - K) / 2) L1 L2 S K J1 J2
      ((J1 + S + L1) / 2) ((J2 + S + L2) / 2) ((L1 + L2 + K) / 2) ((J1 + J2 + K) / 2)
      (by omega) (by omega) (by omega) (by omega) (by omega) (by omega) (by omega) (by omega) (by omega) (by omega) (by omega) (by omega) (by omega) (by omega) (by omega) (by omega)
  · intro i1 _ iq _ i2 _
    have h6 : w6j (L1 : ℤ) (J1 : ℤ) (S : ℤ) (J2 : ℤ) (L2 : ℤ) (K : ℤ) = 0 := by
      unfold w6j
      rw [if_neg]
      rintro ⟨_, h, _, _⟩
      unfold Tri at h; unfold TriN at tb
      omega
    have h3 : ∀ x y z, w3i L1 K L2 x y z = 0 := by
      intro x y z
      unfold w3i
      rw [w3j_invalid]
      intro hv
      unfold Valid3 at hv; unfold TriN at tb
      omega
    rw [h6, mul_zero, zero_mul]
    unfold recF
    simp [h3]

end PI
