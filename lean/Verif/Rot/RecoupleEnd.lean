import Verif.Rot.Recouple

/-!
# The contraction at the ends
-/

namespace PI

theorem fac_ne (n : ℕ) : (n.factorial : ℝ) ≠ 0 := by exact_mod_cast Nat.factorial_ne_zero n

theorem fac_pos (n : ℕ) : 0 < (n.factorial : ℝ) := by exact_mod_cast Nat.factorial_pos n

theorem fac_succ (n : ℕ) : ((n + 1).factorial : ℝ) = ((n : ℝ) + 1) * n.factorial := by rw [Nat.factorial_succ]; push_cast; ring

theorem w3i_oob (n1 n2 n3 l1 l2 l3 : ℕ) (h : n2 < l2) : w3i n1 n2 n3 l1 l2 l3 = 0 := by
  unfold w3i
  rw [w3j_invalid]
  intro hv
  obtain ⟨_, _, _, _, _, _, _, _, _, h10, _⟩ := hv
  rw [abs_le] at h10
  omega

/-- The contraction at the ends of the outer momenta. -/
theorem recF_top (L1 L2 S K J1 J2 κ : ℕ) :
    recF L1 L2 S K J1 J2 J1 κ 0 = (-1) ^ L1 * (-1) ^ L2 * (-1) ^ S * sgn (((L1 : ℤ) + S + J1) / 2) *
      ∑ x ∈ Finset.range (L1 + 1), (-1 : ℝ) ^ x * ∑ y ∈ Finset.range (L2 + 1), (-1 : ℝ) ^ y * ∑ τ ∈ Finset.range (S + 1), (-1 : ℝ) ^ τ *
        (w3i J1 L1 S 0 x τ * w3i L1 K L2 x κ (L2 - y) * w3i J2 L2 S 0 y τ) := by
  unfold recF
  rw [sum_reflect', mul_assoc ((-1 : ℝ) ^ L1), mul_assoc ((-1 : ℝ) ^ L1), mul_assoc ((-1 : ℝ) ^ L1)]
  congr 1
  rw [Finset.mul_sum]
  refine Finset.sum_congr rfl fun x hx => ?_
  have r1 := Finset.mem_range.1 hx
  rw [← mul_assoc _ ((-1 : ℝ) ^ x), mul_comm _ ((-1 : ℝ) ^ x), mul_assoc ((-1 : ℝ) ^ x)]
  congr 1
  rw [sum_reflect', mul_assoc ((-1 : ℝ) ^ L2), mul_assoc ((-1 : ℝ) ^ L2)]
  congr 1
  rw [Finset.mul_sum]
  refine Finset.sum_congr rfl fun y hy => ?_
  have r2 := Finset.mem_range.1 hy
  rw [← mul_assoc _ ((-1 : ℝ) ^ y), mul_comm _ ((-1 : ℝ) ^ y), mul_assoc ((-1 : ℝ) ^ y)]
  congr 1
  rw [sum_reflect', mul_assoc ((-1 : ℝ) ^ S)]
  congr 1
  rw [Finset.mul_sum]
  refine Finset.sum_congr rfl fun τ hτ => ?_
  have r3 := Finset.mem_range.1 hτ
  have fa := w3i_flip L1 S J1 x τ 0 (by omega) (by omega) (by omega)
  rw [Nat.sub_zero] at fa
  rw [show L1 - (L1 - x) = x by omega, show L2 - (L2 - y) = y by omega, show S - (S - τ) = τ by omega, fa,
    w3i_cyc J1 L1 S 0 x τ (by omega) (by omega) (by omega), w3i_cyc J2 L2 S 0 y τ (by omega) (by omega) (by omega)]
  ring

theorem sum_pick (n X : ℕ) (g : ℕ → ℝ) (h : ∀ x, x ≠ X → g x = 0) (h' : n < X → g X = 0) : ∑ x ∈ Finset.range (n + 1), g x = g X := by
  by_cases hX : X ≤ n
  · exact Finset.sum_eq_single X (fun x _ hx => h x hx) (fun hc => absurd (Finset.mem_range.2 (by omega)) hc)
  · rw [h' (by omega)]
    exact Finset.sum_eq_zero fun x hx => h x (by have := Finset.mem_range.1 hx; omega)

/-- The same with the projections of the inner momenta inserted. -/
theorem recF_top' (L1 L2 S K J1 J2 κ X Y : ℕ) (hX : J1 + L1 + S = 2 * X) (hY : J2 + L2 + S = 2 * Y) (h1 : S ≤ X) (h2 : S ≤ Y) :
    recF L1 L2 S K J1 J2 J1 κ 0 = (-1) ^ L1 * (-1) ^ L2 * (-1) ^ S * (-1) ^ X *
      ∑ τ ∈ Finset.range (S + 1), (-1 : ℝ) ^ τ * (-1) ^ (X - τ) * (-1) ^ (Y - τ) *
        (w3i J1 L1 S 0 (X - τ) τ * w3i L1 K L2 (X - τ) κ (L2 - (Y - τ)) * w3i J2 L2 S 0 (Y - τ) τ) := by
  rw [recF_top, show ((L1 : ℤ) + S + J1) / 2 = (X : ℤ) by omega, sgn_natCast]
  congr 1
  have e : ∑ x ∈ Finset.range (L1 + 1), (-1 : ℝ) ^ x * ∑ y ∈ Finset.range (L2 + 1), (-1 : ℝ) ^ y * ∑ τ ∈ Finset.range (S + 1), (-1 : ℝ) ^ τ *
        (w3i J1 L1 S 0 x τ * w3i L1 K L2 x κ (L2 - y) * w3i J2 L2 S 0 y τ) =
      ∑ τ ∈ Finset.range (S + 1), ∑ x ∈ Finset.range (L1 + 1), ∑ y ∈ Finset.range (L2 + 1), (-1 : ℝ) ^ τ * (-1) ^ x * (-1) ^ y *
        (w3i J1 L1 S 0 x τ * w3i L1 K L2 x κ (L2 - y) * w3i J2 L2 S 0 y τ) := by
    rw [Finset.sum_comm]
    refine Finset.sum_congr rfl fun x _ => ?_
    rw [Finset.sum_comm, Finset.mul_sum]
    refine Finset.sum_congr rfl fun y _ => ?_
    rw [Finset.mul_sum, Finset.mul_sum]
    refine Finset.sum_congr rfl fun τ _ => ?_
    ring
  rw [e]
  refine Finset.sum_congr rfl fun τ hτ => ?_
  have r3 := Finset.mem_range.1 hτ
  rw [sum_pick L1 (X - τ)]
  · rw [sum_pick L2 (Y - τ)]
    · intro y hy
      rw [w3i_m_zero J2 L2 S 0 y τ (by omega), mul_zero, mul_zero]
    · intro hy
      rw [w3i_oob J2 L2 S 0 _ τ hy, mul_zero, mul_zero]
  · intro x hx
    refine Finset.sum_eq_zero fun y _ => ?_
    rw [w3i_m_zero J1 L1 S 0 x τ (by omega), zero_mul, zero_mul, mul_zero]
  · intro hx
    refine Finset.sum_eq_zero fun y _ => ?_
    rw [w3i_oob J1 L1 S 0 _ τ hx, zero_mul, zero_mul, mul_zero]

theorem invNorm_pos (a b c : ℕ) : 0 < invNorm a b c := by
  unfold invNorm
  have f1 := fac_pos a; have f2 := fac_pos b; have f3 := fac_pos c; have f4 := fac_pos (a + b + c + 1)
  have f5 := fac_pos (b + c); have f6 := fac_pos (a + c); have f7 := fac_pos (a + b)
  have := Real.sqrt_pos.2 (show 0 < ((a.factorial * b.factorial * c.factorial : ℝ) / (a + b + c + 1).factorial *
      ((b + c).factorial * (a + c).factorial * (a + b).factorial)) by positivity)
  positivity

/-- The symbol at the ends. -/
theorem w3i_end (a b c : ℕ) : w3i (a + c) (a + b) (b + c) (a + c) b 0 = (-1) ^ (a + b) * (invNorm a b c / Real.sqrt ((a + b).choose b)) := by
  have e := w3i_coeff_zero a b c (a + c) b (by omega) (by omega)
  rw [if_pos (by omega), Nat.add_sub_cancel, Nat.choose_self, Nat.choose_self, Nat.cast_one, Real.sqrt_one, one_mul, mul_one] at e
  rw [w3i_cyc (b + c) (a + c) (a + b) 0 (a + c) b (by omega) (by omega) (by omega)]
  have p := sqrt_choose_pos (show b ≤ a + b by omega)
  field_simp
  linear_combination e

end PI
