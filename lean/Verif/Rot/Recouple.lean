import Verif.Rot.SumRule
import Verif.Element.Lande
import Mathlib.Tactic.LinearCombination
import Mathlib.Tactic.FieldSimp
import Mathlib.Tactic.Linarith

/-!
# Recoupling

A contraction of three 3j symbols over a triangle is a multiple of the 3j symbol of the outer momenta.
-/

namespace PI

theorem ladC_sym (n l : ℕ) (h : l < n) : ladC n (n - (l + 1)) = ladC n l := by
  unfold ladC
  congr 1
  rw [Nat.cast_sub (by omega)]; push_cast; ring

theorem ladC_ne (n l : ℕ) (h : l < n) : ladC n l ≠ 0 := by
  unfold ladC
  have : (l : ℝ) < n := by exact_mod_cast h
  have : 0 < ((l : ℝ) + 1) * ((n : ℝ) - l) := mul_pos (by positivity) (by linarith)
  positivity

/-- Summation by parts over an inner line. -/
theorem by_parts (n : ℕ) (H : ℕ → ℕ → ℝ) :
    ∑ p ∈ Finset.range (n + 1), (-1 : ℝ) ^ p * (ladC n p * H (p + 1) (n - p)) =
      -∑ p ∈ Finset.range (n + 1), (-1 : ℝ) ^ p * (ladC n (n - p) * H p (n - p + 1)) := by
  rw [Finset.sum_range_succ, ladC_top, zero_mul, mul_zero, add_zero, Finset.sum_range_succ', Nat.sub_zero, ladC_top, zero_mul, mul_zero, add_zero,
    ← Finset.sum_neg_distrib]
  refine Finset.sum_congr rfl fun p hp => ?_
  have := Finset.mem_range.1 hp
  rw [ladC_sym n p this, show n - (p + 1) + 1 = n - p by omega, pow_succ]
  ring

/-- The contraction of three vertices over the inner momenta `L1`, `L2`, `S`; the outer momenta are `J1`, `K`, `J2`. -/
noncomputable def recF (L1 L2 S K J1 J2 i1 iq i2 : ℕ) : ℝ :=
  ∑ p1 ∈ Finset.range (L1 + 1), (-1 : ℝ) ^ p1 * ∑ p2 ∈ Finset.range (L2 + 1), (-1 : ℝ) ^ p2 * ∑ σ ∈ Finset.range (S + 1), (-1 : ℝ) ^ σ *
    (w3i L1 S J1 p1 σ i1 * w3i L1 K L2 (L1 - p1) iq p2 * w3i L2 S J2 (L2 - p2) (S - σ) i2)

/-- The contraction obeys the ladder relation of the outer momenta. -/
theorem recF_ladder (L1 L2 S K J1 J2 i1 iq i2 : ℕ) (h1 : i1 ≤ J1) (hq : iq ≤ K) (h2 : i2 ≤ J2) :
    ladC J1 i1 * recF L1 L2 S K J1 J2 (i1 + 1) iq i2 + ladC K iq * recF L1 L2 S K J1 J2 i1 (iq + 1) i2 +
      ladC J2 i2 * recF L1 L2 S K J1 J2 i1 iq (i2 + 1) = 0 := by
  set A := w3i L1 S J1 with hA
  set B := w3i L1 K L2 with hB
  set D := w3i L2 S J2 with hD
  have e1 := by_parts L1 fun p p' => ∑ p2 ∈ Finset.range (L2 + 1), (-1 : ℝ) ^ p2 * ∑ σ ∈ Finset.range (S + 1), (-1 : ℝ) ^ σ *
    (A p σ i1 * B p' iq p2 * D (L2 - p2) (S - σ) i2)
  have e2 : ∀ p1, _ := fun p1 => by_parts L2 fun p p' => ∑ σ ∈ Finset.range (S + 1), (-1 : ℝ) ^ σ *
    (A p1 σ i1 * B (L1 - p1) iq p * D p' (S - σ) i2)
  have e3 : ∀ p1 p2, _ := fun p1 p2 => by_parts S fun p p' => A p1 p i1 * B (L1 - p1) iq p2 * D (L2 - p2) p' i2
  have key : ∀ p1 ∈ Finset.range (L1 + 1), ∀ p2 ∈ Finset.range (L2 + 1), ∀ σ ∈ Finset.range (S + 1),
      ladC J1 i1 * (A p1 σ (i1 + 1) * B (L1 - p1) iq p2 * D (L2 - p2) (S - σ) i2) +
      ladC K iq * (A p1 σ i1 * B (L1 - p1) (iq + 1) p2 * D (L2 - p2) (S - σ) i2) +
      ladC J2 i2 * (A p1 σ i1 * B (L1 - p1) iq p2 * D (L2 - p2) (S - σ) (i2 + 1)) =
      -(ladC L1 p1 * (A (p1 + 1) σ i1 * B (L1 - p1) iq p2 * D (L2 - p2) (S - σ) i2)) -
      ladC S σ * (A p1 (σ + 1) i1 * B (L1 - p1) iq p2 * D (L2 - p2) (S - σ) i2) -
      ladC L1 (L1 - p1) * (A p1 σ i1 * B (L1 - p1 + 1) iq p2 * D (L2 - p2) (S - σ) i2) -
      ladC L2 p2 * (A p1 σ i1 * B (L1 - p1) iq (p2 + 1) * D (L2 - p2) (S - σ) i2) -
      ladC L2 (L2 - p2) * (A p1 σ i1 * B (L1 - p1) iq p2 * D (L2 - p2 + 1) (S - σ) i2) -
      ladC S (S - σ) * (A p1 σ i1 * B (L1 - p1) iq p2 * D (L2 - p2) (S - σ + 1) i2) := by
    intro p1 h p2 h' σ h''
    have r1 := Finset.mem_range.1 h
    have r2 := Finset.mem_range.1 h'
    have r3 := Finset.mem_range.1 h''
    have la := w3i_ladder L1 S J1 p1 σ i1 (by omega) (by omega) h1
    have lb := w3i_ladder L1 K L2 (L1 - p1) iq p2 (by omega) hq (by omega)
    have ld := w3i_ladder L2 S J2 (L2 - p2) (S - σ) i2 (by omega) (by omega) h2
    rw [← hA] at la; rw [← hB] at lb; rw [← hD] at ld
    linear_combination (B (L1 - p1) iq p2 * D (L2 - p2) (S - σ) i2) * la + (A p1 σ i1 * D (L2 - p2) (S - σ) i2) * lb +
      (A p1 σ i1 * B (L1 - p1) iq p2) * ld
  unfold recF
  rw [← hA, ← hB, ← hD]
  have c1 : ∑ p1 ∈ Finset.range (L1 + 1), (-1 : ℝ) ^ p1 * ∑ p2 ∈ Finset.range (L2 + 1), (-1 : ℝ) ^ p2 * ∑ σ ∈ Finset.range (S + 1), (-1 : ℝ) ^ σ *
      (ladC L1 p1 * (A (p1 + 1) σ i1 * B (L1 - p1) iq p2 * D (L2 - p2) (S - σ) i2)) +
      ∑ p1 ∈ Finset.range (L1 + 1), (-1 : ℝ) ^ p1 * ∑ p2 ∈ Finset.range (L2 + 1), (-1 : ℝ) ^ p2 * ∑ σ ∈ Finset.range (S + 1), (-1 : ℝ) ^ σ *
      (ladC L1 (L1 - p1) * (A p1 σ i1 * B (L1 - p1 + 1) iq p2 * D (L2 - p2) (S - σ) i2)) = 0 := by
    have : ∀ (c : ℝ) (X : ℕ → ℕ → ℝ), ∑ p2 ∈ Finset.range (L2 + 1), (-1 : ℝ) ^ p2 * ∑ σ ∈ Finset.range (S + 1), (-1 : ℝ) ^ σ * (c * X p2 σ) =
        c * ∑ p2 ∈ Finset.range (L2 + 1), (-1 : ℝ) ^ p2 * ∑ σ ∈ Finset.range (S + 1), (-1 : ℝ) ^ σ * X p2 σ := by
      intro c X
      rw [Finset.mul_sum]; refine Finset.sum_congr rfl fun p2 _ => ?_
      rw [Finset.mul_sum, Finset.mul_sum, Finset.mul_sum]; refine Finset.sum_congr rfl fun σ _ => ?_
      ring
    simp only [this]
    rw [e1]; ring
  have c2 : ∑ p1 ∈ Finset.range (L1 + 1), (-1 : ℝ) ^ p1 * ∑ p2 ∈ Finset.range (L2 + 1), (-1 : ℝ) ^ p2 * ∑ σ ∈ Finset.range (S + 1), (-1 : ℝ) ^ σ *
      (ladC L2 p2 * (A p1 σ i1 * B (L1 - p1) iq (p2 + 1) * D (L2 - p2) (S - σ) i2)) +
      ∑ p1 ∈ Finset.range (L1 + 1), (-1 : ℝ) ^ p1 * ∑ p2 ∈ Finset.range (L2 + 1), (-1 : ℝ) ^ p2 * ∑ σ ∈ Finset.range (S + 1), (-1 : ℝ) ^ σ *
      (ladC L2 (L2 - p2) * (A p1 σ i1 * B (L1 - p1) iq p2 * D (L2 - p2 + 1) (S - σ) i2)) = 0 := by
    have : ∀ (c : ℝ) (X : ℕ → ℝ), ∑ σ ∈ Finset.range (S + 1), (-1 : ℝ) ^ σ * (c * X σ) = c * ∑ σ ∈ Finset.range (S + 1), (-1 : ℝ) ^ σ * X σ := by
      intro c X
      rw [Finset.mul_sum]; refine Finset.sum_congr rfl fun σ _ => ?_
      ring
    simp only [this]
    rw [← Finset.sum_add_distrib]
    refine Finset.sum_eq_zero fun p1 _ => ?_
    rw [e2 p1]; ring
  have c3 : ∑ p1 ∈ Finset.range (L1 + 1), (-1 : ℝ) ^ p1 * ∑ p2 ∈ Finset.range (L2 + 1), (-1 : ℝ) ^ p2 * ∑ σ ∈ Finset.range (S + 1), (-1 : ℝ) ^ σ *
      (ladC S σ * (A p1 (σ + 1) i1 * B (L1 - p1) iq p2 * D (L2 - p2) (S - σ) i2)) +
      ∑ p1 ∈ Finset.range (L1 + 1), (-1 : ℝ) ^ p1 * ∑ p2 ∈ Finset.range (L2 + 1), (-1 : ℝ) ^ p2 * ∑ σ ∈ Finset.range (S + 1), (-1 : ℝ) ^ σ *
      (ladC S (S - σ) * (A p1 σ i1 * B (L1 - p1) iq p2 * D (L2 - p2) (S - σ + 1) i2)) = 0 := by
    rw [← Finset.sum_add_distrib]
    refine Finset.sum_eq_zero fun p1 _ => ?_
    rw [← mul_add, ← Finset.sum_add_distrib]
    rw [Finset.sum_eq_zero fun p2 _ => ?_, mul_zero]
    rw [e3 p1 p2]; ring
  set T3 : (ℕ → ℕ → ℕ → ℝ) → ℝ := fun f => ∑ p1 ∈ Finset.range (L1 + 1), (-1 : ℝ) ^ p1 * ∑ p2 ∈ Finset.range (L2 + 1), (-1 : ℝ) ^ p2 *
    ∑ σ ∈ Finset.range (S + 1), (-1 : ℝ) ^ σ * f p1 p2 σ with hS3
  have lin3 : ∀ (f g h : ℕ → ℕ → ℕ → ℝ) (x y z : ℝ), T3 (fun a b c => x * f a b c + y * g a b c + z * h a b c) = x * T3 f + y * T3 g + z * T3 h := by
    intro f g h x y z
    simp only [hS3, Finset.mul_sum, ← Finset.sum_add_distrib]
    refine Finset.sum_congr rfl fun p1 _ => Finset.sum_congr rfl fun p2 _ => Finset.sum_congr rfl fun σ _ => ?_
    ring
  have congr' : ∀ (f g : ℕ → ℕ → ℕ → ℝ), (∀ p1 ∈ Finset.range (L1 + 1), ∀ p2 ∈ Finset.range (L2 + 1), ∀ σ ∈ Finset.range (S + 1), f p1 p2 σ = g p1 p2 σ) → T3 f = T3 g := by
    intro f g h
    refine Finset.sum_congr rfl fun p1 h1 => ?_
    rw [Finset.sum_congr rfl fun p2 h2 => ?_]
    rw [Finset.sum_congr rfl fun σ h3 => ?_]
    rw [h p1 h1 p2 h2 σ h3]
  have k := congr' _ _ key
  have c1' : T3 (fun p1 p2 σ => ladC L1 p1 * (A (p1 + 1) σ i1 * B (L1 - p1) iq p2 * D (L2 - p2) (S - σ) i2)) +
    T3 (fun p1 p2 σ => ladC L1 (L1 - p1) * (A p1 σ i1 * B (L1 - p1 + 1) iq p2 * D (L2 - p2) (S - σ) i2)) = 0 := c1
  have c2' : T3 (fun p1 p2 σ => ladC L2 p2 * (A p1 σ i1 * B (L1 - p1) iq (p2 + 1) * D (L2 - p2) (S - σ) i2)) +
    T3 (fun p1 p2 σ => ladC L2 (L2 - p2) * (A p1 σ i1 * B (L1 - p1) iq p2 * D (L2 - p2 + 1) (S - σ) i2)) = 0 := c2
  have c3' : T3 (fun p1 p2 σ => ladC S σ * (A p1 (σ + 1) i1 * B (L1 - p1) iq p2 * D (L2 - p2) (S - σ) i2)) +
    T3 (fun p1 p2 σ => ladC S (S - σ) * (A p1 σ i1 * B (L1 - p1) iq p2 * D (L2 - p2) (S - σ + 1) i2)) = 0 := c3
  have exp2 : ∀ f1 f2 f3 f4 f5 f6 : ℕ → ℕ → ℕ → ℝ, T3 (fun a b c => -(f1 a b c) - f2 a b c - f3 a b c - f4 a b c - f5 a b c - f6 a b c) =
      -(T3 f1) - T3 f2 - T3 f3 - T3 f4 - T3 f5 - T3 f6 := by
    intro f1 f2 f3 f4 f5 f6
    have a := lin3 (fun a b c => -1 * f1 a b c + -1 * f2 a b c + -1 * f3 a b c) (fun a b c => -1 * f4 a b c + -1 * f5 a b c + -1 * f6 a b c) f6 1 1 0
    have b := lin3 f1 f2 f3 (-1) (-1) (-1)
    have c := lin3 f4 f5 f6 (-1) (-1) (-1)
    rw [b, c] at a
    have e : T3 (fun a b c => -(f1 a b c) - f2 a b c - f3 a b c - f4 a b c - f5 a b c - f6 a b c) =
        T3 (fun a b c => 1 * (-1 * f1 a b c + -1 * f2 a b c + -1 * f3 a b c) + 1 * (-1 * f4 a b c + -1 * f5 a b c + -1 * f6 a b c) + 0 * f6 a b c) := by
      congr 1; funext a b c; ring
    rw [e, a]; ring
  rw [exp2, lin3] at k
  change ladC J1 i1 * T3 (fun p1 p2 σ => A p1 σ (i1 + 1) * B (L1 - p1) iq p2 * D (L2 - p2) (S - σ) i2) +
    ladC K iq * T3 (fun p1 p2 σ => A p1 σ i1 * B (L1 - p1) (iq + 1) p2 * D (L2 - p2) (S - σ) i2) +
    ladC J2 i2 * T3 (fun p1 p2 σ => A p1 σ i1 * B (L1 - p1) iq p2 * D (L2 - p2) (S - σ) (i2 + 1)) = 0
  linear_combination k - c1' - c2' - c3'

theorem sum_reflect' (n : ℕ) (f : ℕ → ℝ) : ∑ p ∈ Finset.range (n + 1), (-1 : ℝ) ^ p * f p = (-1) ^ n * ∑ p ∈ Finset.range (n + 1), (-1 : ℝ) ^ p * f (n - p) := by
  rw [← Finset.sum_range_reflect, Finset.mul_sum]
  refine Finset.sum_congr rfl fun p hp => ?_
  have := Finset.mem_range.1 hp
  rw [show n + 1 - 1 - p = n - p by omega, ← mul_assoc, ← pow_add]
  congr 1
  obtain ⟨d, rfl⟩ : ∃ d, n = p + d := ⟨n - p, by omega⟩
  rw [show p + d - p = d by omega, show p + d + p = d + 2 * p by omega, pow_add, pow_mul, neg_one_sq, one_pow, mul_one]

theorem sgn_natCast (k : ℕ) : sgn (k : ℤ) = (-1) ^ k := by
  unfold sgn
  split_ifs with h
  · rw [Even.neg_one_pow (by rw [Nat.even_iff]; omega)]
  · rw [Odd.neg_one_pow (by rw [Nat.odd_iff]; omega)]

theorem recSign (L1 L2 S K J1 J2 : ℕ) (pa : (L1 + S + J1) % 2 = 0) (pb : (L1 + K + L2) % 2 = 0) (pd : (L2 + S + J2) % 2 = 0) :
    sgn (((J1 : ℤ) + K + J2) / 2) = (-1) ^ L1 * (-1) ^ L2 * (-1) ^ S * (sgn (((L1 : ℤ) + S + J1) / 2) * sgn (((L1 : ℤ) + K + L2) / 2) * sgn (((L2 : ℤ) + S + J2) / 2)) := by
  rw [← sgn_natCast, ← sgn_natCast, ← sgn_natCast, sgn_mul, sgn_mul, sgn_mul, sgn_mul, sgn_mul]
  apply sgn_congr
  omega

/-- The contraction with all outer projections reversed. -/
theorem recF_flip (L1 L2 S K J1 J2 : ℕ) (pa : (L1 + S + J1) % 2 = 0) (pb : (L1 + K + L2) % 2 = 0) (pd : (L2 + S + J2) % 2 = 0) : ∀ i1 ≤ J1, ∀ iq ≤ K, ∀ i2 ≤ J2,
    recF L1 L2 S K J1 J2 (J1 - i1) (K - iq) (J2 - i2) = sgn (((J1 : ℤ) + K + J2) / 2) * recF L1 L2 S K J1 J2 i1 iq i2 := by
  rw [recSign L1 L2 S K J1 J2 pa pb pd]
  intro i1 h1 iq hq i2 h2
  unfold recF
  rw [sum_reflect', mul_assoc ((-1 : ℝ) ^ L1), mul_assoc ((-1 : ℝ) ^ L1), mul_assoc ((-1 : ℝ) ^ L1)]
  congr 1
  rw [Finset.mul_sum]
  refine Finset.sum_congr rfl fun p1 hp1 => ?_
  have r1 := Finset.mem_range.1 hp1
  rw [← mul_assoc _ ((-1 : ℝ) ^ p1), mul_comm _ ((-1 : ℝ) ^ p1), mul_assoc ((-1 : ℝ) ^ p1)]
  congr 1
  rw [sum_reflect', mul_assoc ((-1 : ℝ) ^ L2), mul_assoc ((-1 : ℝ) ^ L2)]
  congr 1
  rw [Finset.mul_sum]
  refine Finset.sum_congr rfl fun p2 hp2 => ?_
  have r2 := Finset.mem_range.1 hp2
  rw [← mul_assoc _ ((-1 : ℝ) ^ p2), mul_comm _ ((-1 : ℝ) ^ p2), mul_assoc ((-1 : ℝ) ^ p2)]
  congr 1
  rw [sum_reflect', mul_assoc ((-1 : ℝ) ^ S)]
  congr 1
  rw [Finset.mul_sum]
  refine Finset.sum_congr rfl fun σ hσ => ?_
  have r3 := Finset.mem_range.1 hσ
  have fa := w3i_flip L1 S J1 p1 σ i1 (by omega) (by omega) h1
  have fb := w3i_flip L1 K L2 (L1 - p1) iq p2 (by omega) hq (by omega)
  have fd := w3i_flip L2 S J2 (L2 - p2) (S - σ) i2 (by omega) (by omega) h2
  rw [fa, fb, fd]
  ring

/-- An invariant is determined by its values at one end. -/
theorem inv_unique (n1 n2 n3 : ℕ) (f : ℕ → ℕ → ℕ → ℝ) (ε : ℝ)
    (up : ∀ i ≤ n1, ∀ j ≤ n2, ∀ k ≤ n3, ladC n1 i * f (i + 1) j k + ladC n2 j * f i (j + 1) k + ladC n3 k * f i j (k + 1) = 0)
    (fl : ∀ i ≤ n1, ∀ j ≤ n2, ∀ k ≤ n3, f (n1 - i) (n2 - j) (n3 - k) = ε * f i j k)
    (hz : ∀ j ≤ n2, f n1 j 0 = 0) : ∀ i ≤ n1, ∀ j ≤ n2, ∀ k ≤ n3, f i j k = 0 := by
  have s1 : ∀ k ≤ n3, ∀ j ≤ n2, f n1 j k = 0 := by
    intro k
    induction k with
    | zero => intro _ j hj; exact hz j hj
    | succ k ih =>
      intro hk j hj
      have u := up n1 le_rfl j hj k (by omega)
      rw [ladC_top, zero_mul, zero_add] at u
      have hc := ladC_ne n3 k (by omega)
      have t : ladC n2 j * f n1 (j + 1) k = 0 := by
        by_cases c : j = n2
        · rw [c, ladC_top, zero_mul]
        · rw [ih (by omega) (j + 1) (by omega), mul_zero]
      rw [t, zero_add] at u
      exact (mul_eq_zero.1 u).resolve_left hc
  have s0 : ∀ j ≤ n2, ∀ k ≤ n3, f 0 j k = 0 := by
    intro j hj k hk
    have := fl n1 le_rfl (n2 - j) (by omega) (n3 - k) (by omega)
    rw [show n1 - n1 = 0 by omega, show n2 - (n2 - j) = j by omega, show n3 - (n3 - k) = k by omega, s1 (n3 - k) (by omega) (n2 - j) (by omega), mul_zero] at this
    exact this
  intro i
  induction i with
  | zero => intro _; exact s0
  | succ i ih =>
    intro hi j hj k hk
    have u := up i (by omega) j hj k hk
    have t2 : ladC n2 j * f i (j + 1) k = 0 := by
      by_cases c : j = n2
      · rw [c, ladC_top, zero_mul]
      · rw [ih (by omega) (j + 1) (by omega) k hk, mul_zero]
    have t3 : ladC n3 k * f i j (k + 1) = 0 := by
      by_cases c : k = n3
      · rw [c, ladC_top, zero_mul]
      · rw [ih (by omega) j hj (k + 1) (by omega), mul_zero]
    rw [t2, t3, add_zero, add_zero] at u
    exact (mul_eq_zero.1 u).resolve_left (ladC_ne n1 i (by omega))

/-- An invariant that vanishes at one end of the second momentum vanishes. -/
theorem inv_zero (n1 n2 n3 : ℕ) (f : ℕ → ℕ → ℕ → ℝ)
    (up : ∀ i ≤ n1, ∀ j ≤ n2, ∀ k ≤ n3, ladC n1 i * f (i + 1) j k + ladC n2 j * f i (j + 1) k + ladC n3 k * f i j (k + 1) = 0)
    (hz : ∀ i ≤ n1, ∀ k ≤ n3, f i 0 k = 0) : ∀ j ≤ n2, ∀ i ≤ n1, ∀ k ≤ n3, f i j k = 0 := by
  intro j
  induction j with
  | zero => intro _; exact hz
  | succ j ih =>
    intro hj i hi k hk
    have u := up i hi j (by omega) k hk
    have t2 : ladC n1 i * f (i + 1) j k = 0 := by
      by_cases c : i = n1
      · rw [c, ladC_top, zero_mul]
      · rw [ih (by omega) (i + 1) (by omega) k hk, mul_zero]
    have t3 : ladC n3 k * f i j (k + 1) = 0 := by
      by_cases c : k = n3
      · rw [c, ladC_top, zero_mul]
      · rw [ih (by omega) i hi (k + 1) (by omega), mul_zero]
    rw [t2, t3, add_zero, zero_add] at u
    exact (mul_eq_zero.1 u).resolve_left (ladC_ne n2 j (by omega))

/-- The contraction conserves the projection. -/
theorem recF_weight (L1 L2 S K J1 J2 i1 iq i2 : ℕ) (h : J1 + K + J2 ≠ 2 * (i1 + iq + i2)) : recF L1 L2 S K J1 J2 i1 iq i2 = 0 := by
  unfold recF
  refine Finset.sum_eq_zero fun p1 hp1 => ?_
  have r1 := Finset.mem_range.1 hp1
  rw [Finset.sum_eq_zero fun p2 hp2 => ?_, mul_zero]
  have r2 := Finset.mem_range.1 hp2
  rw [Finset.sum_eq_zero fun σ hσ => ?_, mul_zero]
  have r3 := Finset.mem_range.1 hσ
  by_cases a : L1 + S + J1 = 2 * (p1 + σ + i1)
  · by_cases b : L1 + K + L2 = 2 * (L1 - p1 + iq + p2)
    · rw [w3i_m_zero L2 S J2 _ _ _ (by omega), mul_zero, mul_zero]
    · rw [w3i_m_zero L1 K L2 _ _ _ b, mul_zero, zero_mul, mul_zero]
  · rw [w3i_m_zero L1 S J1 _ _ _ a, zero_mul, zero_mul, mul_zero]

/-- The contraction is a multiple of the symbol of the outer momenta; the factor is known from one component. -/
theorem recF_eq (L1 L2 S K J1 J2 : ℕ) (pa : (L1 + S + J1) % 2 = 0) (pb : (L1 + K + L2) % 2 = 0) (pd : (L2 + S + J2) % 2 = 0) (c : ℝ)
    (hc : TriN J1 K J2 → recF L1 L2 S K J1 J2 J1 ((K + J2 - J1) / 2) 0 = c * w3i J1 K J2 J1 ((K + J2 - J1) / 2) 0) :
    ∀ i1 ≤ J1, ∀ iq ≤ K, ∀ i2 ≤ J2, recF L1 L2 S K J1 J2 i1 iq i2 = c * w3i J1 K J2 i1 iq i2 := by
  have fl := recF_flip L1 L2 S K J1 J2 pa pb pd
  by_cases hK : J1 + J2 < K
  · intro i1 h1 iq hq i2 h2
    have z := inv_zero J1 K J2 (recF L1 L2 S K J1 J2) (fun i hi j hj k hk => recF_ladder L1 L2 S K J1 J2 i j k hi hj hk)
      (fun i hi k hk => recF_weight _ _ _ _ _ _ _ _ _ (by omega)) iq hq i1 h1 i2 h2
    have z' := inv_zero J1 K J2 (w3i J1 K J2) (fun i hi j hj k hk => w3i_ladder J1 K J2 i j k hi hj hk)
      (fun i hi k hk => w3i_m_zero _ _ _ _ _ _ (by omega)) iq hq i1 h1 i2 h2
    rw [z, z', mul_zero]
  · have u := inv_unique J1 K J2 (fun i j k => recF L1 L2 S K J1 J2 i j k - c * w3i J1 K J2 i j k) (sgn (((J1 : ℤ) + K + J2) / 2))
      (by
        intro i hi j hj k hk
        have a := recF_ladder L1 L2 S K J1 J2 i j k hi hj hk
        have b := w3i_ladder J1 K J2 i j k hi hj hk
        linear_combination a - c * b)
      (by
        intro i hi j hj k hk
        have a := fl i hi j hj k hk
        have b := w3i_flip J1 K J2 i j k hi hj hk
        rw [a, b]; ring)
      (by
        intro j hj
        by_cases e : J1 + K + J2 = 2 * (J1 + j + 0)
        · rw [show j = (K + J2 - J1) / 2 by omega, hc (by unfold TriN; omega), sub_self]
        · rw [recF_weight _ _ _ _ _ _ _ _ _ e, w3i_m_zero _ _ _ _ _ _ e]; ring)
    intro i1 h1 iq hq i2 h2
    have := u i1 h1 iq hq i2 h2
    linarith

end PI
