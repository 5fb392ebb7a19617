import Verif.Rot.Invariant
import Verif.Element.Props
import Mathlib.Tactic.LinearCombination
import Mathlib.Tactic.FieldSimp
import Mathlib.Tactic.Linarith
import Mathlib.Algebra.BigOperators.Intervals
import Mathlib.Data.Nat.Choose.Sum
import Mathlib.Analysis.Calculus.Deriv.Pow
import Mathlib.Analysis.Calculus.Deriv.Mul
import Mathlib.Analysis.Calculus.Deriv.Add
import Mathlib.Analysis.Complex.Basic

/-!
# Orthogonality of the 3j symbols

The Racah formula of the library gives symbols whose squares add up to one.
-/

namespace PI

/-- The 3j symbol with the projections counted from the top. -/
noncomputable def w3i (n1 n2 n3 l1 l2 l3 : ℕ) : ℝ :=
  w3j (n1 : ℤ) (n2 : ℤ) (n3 : ℤ) ((n1 : ℤ) - 2 * l1) ((n2 : ℤ) - 2 * l2) ((n3 : ℤ) - 2 * l3)

theorem w3n_ofReal (n1 n2 n3 l1 l2 l3 : ℕ) : w3n n1 n2 n3 l1 l2 l3 = ((w3i n1 n2 n3 l1 l2 l3 : ℝ) : ℂ) := rfl

/-! ## Ladder relation -/

/-- The monomial sums with all first components one. -/
theorem gen_one (k1 k2 k3 : ℕ) (x y z : ℂ) :
    ∑ l1 ∈ Finset.range (k2 + k3 + 1), ∑ l2 ∈ Finset.range (k1 + k3 + 1), ∑ l3 ∈ Finset.range (k1 + k2 + 1),
      w3n (k2 + k3) (k1 + k3) (k1 + k2) l1 l2 l3 * (rtC (k2 + k3) l1 * rtC (k1 + k3) l2 * rtC (k1 + k2) l3) * (x ^ l1 * y ^ l2 * z ^ l3) =
    ((invNorm k1 k2 k3 : ℝ) : ℂ) * ((y - x) ^ k3 * (z - y) ^ k1 * (x - z) ^ k2) := by
  have h := w3j_generating k1 k2 k3 1 x 1 y 1 z
  simp only [monoN, one_pow, one_mul] at h
  exact h

/-- Shifting the summation index of a derivative. -/
theorem shift_sum (n : ℕ) (g : ℕ → ℂ) (x : ℂ) (hz : g (n + 1) = 0) :
    ∑ l ∈ Finset.range (n + 1), g l * ((l : ℂ) * x ^ (l - 1)) = ∑ l ∈ Finset.range (n + 1), ((l : ℂ) + 1) * g (l + 1) * x ^ l := by
  rw [Finset.sum_range_succ', Finset.sum_range_succ, hz]
  simp only [Nat.cast_zero, zero_mul, mul_zero, add_zero, Nat.add_sub_cancel, Nat.cast_add, Nat.cast_one]
  refine Finset.sum_congr rfl fun l _ => ?_
  ring

/-- The coefficients of a function of differences obey the ladder relation. -/
theorem ladder_of_shift (n1 n2 n3 : ℕ) (f : ℕ → ℕ → ℕ → ℂ) (z1 : ∀ j k, f (n1 + 1) j k = 0) (z2 : ∀ i k, f i (n2 + 1) k = 0) (z3 : ∀ i j, f i j (n3 + 1) = 0)
    (hs : ∀ x y z t : ℂ, ∑ i ∈ Finset.range (n1 + 1), ∑ j ∈ Finset.range (n2 + 1), ∑ k ∈ Finset.range (n3 + 1), f i j k * ((x + t) ^ i * (y + t) ^ j * (z + t) ^ k) =
      ∑ i ∈ Finset.range (n1 + 1), ∑ j ∈ Finset.range (n2 + 1), ∑ k ∈ Finset.range (n3 + 1), f i j k * (x ^ i * y ^ j * z ^ k)) :
    ∀ i ≤ n1, ∀ j ≤ n2, ∀ k ≤ n3, ((i : ℂ) + 1) * f (i + 1) j k + ((j : ℂ) + 1) * f i (j + 1) k + ((k : ℂ) + 1) * f i j (k + 1) = 0 := by
  intro i hi j hj k hk
  refine coeff3_zero_of_fun n1 n2 n3 (fun i j k => ((i : ℂ) + 1) * f (i + 1) j k + ((j : ℂ) + 1) * f i (j + 1) k + ((k : ℂ) + 1) * f i j (k + 1)) ?_
    i (Finset.mem_range.2 (by omega)) j (Finset.mem_range.2 (by omega)) k (Finset.mem_range.2 (by omega))
  intro x y z
  have hp : ∀ (w : ℂ) (l : ℕ), HasDerivAt (fun t : ℂ => (w + t) ^ l) ((l : ℂ) * w ^ (l - 1)) 0 := by
    intro w l
    have h := ((hasDerivAt_id (0 : ℂ)).const_add w).fun_pow l
    simpa using h
  have hd : HasDerivAt (fun t : ℂ => ∑ i ∈ Finset.range (n1 + 1), ∑ j ∈ Finset.range (n2 + 1), ∑ k ∈ Finset.range (n3 + 1),
      f i j k * ((x + t) ^ i * (y + t) ^ j * (z + t) ^ k))
      (∑ i ∈ Finset.range (n1 + 1), ∑ j ∈ Finset.range (n2 + 1), ∑ k ∈ Finset.range (n3 + 1),
        f i j k * (((i : ℂ) * x ^ (i - 1) * y ^ j + x ^ i * ((j : ℂ) * y ^ (j - 1))) * z ^ k + x ^ i * y ^ j * ((k : ℂ) * z ^ (k - 1)))) 0 := by
    refine HasDerivAt.fun_sum fun i _ => HasDerivAt.fun_sum fun j _ => HasDerivAt.fun_sum fun k _ => ?_
    have h := (((hp x i).mul (hp y j)).mul (hp z k)).const_mul (f i j k)
    simpa using h
  have hc : HasDerivAt (fun t : ℂ => ∑ i ∈ Finset.range (n1 + 1), ∑ j ∈ Finset.range (n2 + 1), ∑ k ∈ Finset.range (n3 + 1),
      f i j k * ((x + t) ^ i * (y + t) ^ j * (z + t) ^ k)) 0 0 := by
    rw [show (fun t : ℂ => ∑ i ∈ Finset.range (n1 + 1), ∑ j ∈ Finset.range (n2 + 1), ∑ k ∈ Finset.range (n3 + 1),
      f i j k * ((x + t) ^ i * (y + t) ^ j * (z + t) ^ k)) = fun _ => ∑ i ∈ Finset.range (n1 + 1), ∑ j ∈ Finset.range (n2 + 1), ∑ k ∈ Finset.range (n3 + 1),
      f i j k * (x ^ i * y ^ j * z ^ k) from funext fun t => hs x y z t]
    exact hasDerivAt_const _ _
  have h0 := hd.unique hc
  have s1 : ∑ i ∈ Finset.range (n1 + 1), ∑ j ∈ Finset.range (n2 + 1), ∑ k ∈ Finset.range (n3 + 1), ((i : ℂ) + 1) * f (i + 1) j k * (x ^ i * y ^ j * z ^ k) =
      ∑ i ∈ Finset.range (n1 + 1), ∑ j ∈ Finset.range (n2 + 1), ∑ k ∈ Finset.range (n3 + 1), f i j k * ((i : ℂ) * x ^ (i - 1) * y ^ j * z ^ k) := by
    have h := shift_sum n1 (fun i => ∑ j ∈ Finset.range (n2 + 1), ∑ k ∈ Finset.range (n3 + 1), f i j k * (y ^ j * z ^ k)) x (by simp [z1])
    rw [Finset.sum_congr rfl fun (i : ℕ) _ => show ∑ j ∈ Finset.range (n2 + 1), ∑ k ∈ Finset.range (n3 + 1), ((i : ℂ) + 1) * f (i + 1) j k * (x ^ i * y ^ j * z ^ k) =
      ((i : ℂ) + 1) * (∑ j ∈ Finset.range (n2 + 1), ∑ k ∈ Finset.range (n3 + 1), f (i + 1) j k * (y ^ j * z ^ k)) * x ^ i by
        rw [Finset.mul_sum, Finset.sum_mul]; refine Finset.sum_congr rfl fun j _ => ?_
        rw [Finset.mul_sum, Finset.sum_mul]; refine Finset.sum_congr rfl fun k _ => ?_
        ring, ← h]
    refine Finset.sum_congr rfl fun i _ => ?_
    rw [Finset.sum_mul]; refine Finset.sum_congr rfl fun j _ => ?_
    rw [Finset.sum_mul]; refine Finset.sum_congr rfl fun k _ => ?_
    ring
  have s2 : ∑ i ∈ Finset.range (n1 + 1), ∑ j ∈ Finset.range (n2 + 1), ∑ k ∈ Finset.range (n3 + 1), ((j : ℂ) + 1) * f i (j + 1) k * (x ^ i * y ^ j * z ^ k) =
      ∑ i ∈ Finset.range (n1 + 1), ∑ j ∈ Finset.range (n2 + 1), ∑ k ∈ Finset.range (n3 + 1), f i j k * (x ^ i * ((j : ℂ) * y ^ (j - 1)) * z ^ k) := by
    refine Finset.sum_congr rfl fun i _ => ?_
    have h := shift_sum n2 (fun j => ∑ k ∈ Finset.range (n3 + 1), f i j k * (x ^ i * z ^ k)) y (by simp [z2])
    rw [Finset.sum_congr rfl fun (j : ℕ) _ => show ∑ k ∈ Finset.range (n3 + 1), ((j : ℂ) + 1) * f i (j + 1) k * (x ^ i * y ^ j * z ^ k) =
      ((j : ℂ) + 1) * (∑ k ∈ Finset.range (n3 + 1), f i (j + 1) k * (x ^ i * z ^ k)) * y ^ j by
        rw [Finset.mul_sum, Finset.sum_mul]; refine Finset.sum_congr rfl fun k _ => ?_
        ring, ← h]
    refine Finset.sum_congr rfl fun j _ => ?_
    rw [Finset.sum_mul]; refine Finset.sum_congr rfl fun k _ => ?_
    ring
  have s3 : ∑ i ∈ Finset.range (n1 + 1), ∑ j ∈ Finset.range (n2 + 1), ∑ k ∈ Finset.range (n3 + 1), ((k : ℂ) + 1) * f i j (k + 1) * (x ^ i * y ^ j * z ^ k) =
      ∑ i ∈ Finset.range (n1 + 1), ∑ j ∈ Finset.range (n2 + 1), ∑ k ∈ Finset.range (n3 + 1), f i j k * (x ^ i * y ^ j * ((k : ℂ) * z ^ (k - 1))) := by
    refine Finset.sum_congr rfl fun i _ => Finset.sum_congr rfl fun j _ => ?_
    have h := shift_sum n3 (fun k => f i j k * (x ^ i * y ^ j)) z (by simp [z3])
    rw [Finset.sum_congr rfl fun (k : ℕ) _ => show ((k : ℂ) + 1) * f i j (k + 1) * (x ^ i * y ^ j * z ^ k) =
      ((k : ℂ) + 1) * (f i j (k + 1) * (x ^ i * y ^ j)) * z ^ k by ring, ← h]
    refine Finset.sum_congr rfl fun k _ => ?_
    ring
  rw [← h0]
  have split : ∀ i j k : ℕ, (((i : ℂ) + 1) * f (i + 1) j k + ((j : ℂ) + 1) * f i (j + 1) k + ((k : ℂ) + 1) * f i j (k + 1)) * (x ^ i * y ^ j * z ^ k) =
      ((i : ℂ) + 1) * f (i + 1) j k * (x ^ i * y ^ j * z ^ k) + ((j : ℂ) + 1) * f i (j + 1) k * (x ^ i * y ^ j * z ^ k) +
        ((k : ℂ) + 1) * f i j (k + 1) * (x ^ i * y ^ j * z ^ k) := by intros; ring
  simp only [split, Finset.sum_add_distrib]
  rw [s1, s2, s3, ← Finset.sum_add_distrib, ← Finset.sum_add_distrib]
  refine Finset.sum_congr rfl fun i _ => ?_
  rw [← Finset.sum_add_distrib, ← Finset.sum_add_distrib]
  refine Finset.sum_congr rfl fun j _ => ?_
  rw [← Finset.sum_add_distrib, ← Finset.sum_add_distrib]
  refine Finset.sum_congr rfl fun k _ => ?_
  ring

/-- The matrix element of the ladder operator from index `l + 1` to `l`. -/
noncomputable def ladC (n l : ℕ) : ℝ := Real.sqrt (((l : ℝ) + 1) * ((n : ℝ) - l))

theorem ladC_top (n : ℕ) : ladC n n = 0 := by unfold ladC; simp

theorem ladC_choose (n l : ℕ) (h : l ≤ n) : ((l : ℝ) + 1) * Real.sqrt (n.choose (l + 1)) = ladC n l * Real.sqrt (n.choose l) := by
  unfold ladC
  have hn : (0 : ℝ) ≤ (n : ℝ) - l := by have : (l : ℝ) ≤ n := by exact_mod_cast h
                                        linarith
  have e : ((n.choose (l + 1) : ℕ) : ℝ) * ((l : ℝ) + 1) = (n.choose l : ℝ) * ((n : ℝ) - l) := by
    have := Nat.choose_succ_right_eq n l
    have h2 : (((n - l : ℕ) : ℕ) : ℝ) = (n : ℝ) - l := by rw [Nat.cast_sub h]
    rw [← h2]; exact_mod_cast this
  have hl : (0 : ℝ) ≤ (l : ℝ) + 1 := by positivity
  rw [← Real.sqrt_mul (by positivity)]
  rw [show ((l : ℝ) + 1) = Real.sqrt (((l : ℝ) + 1) * ((l : ℝ) + 1)) from (Real.sqrt_mul_self hl).symm, ← Real.sqrt_mul (by positivity),
    Real.sqrt_mul_self hl]
  congr 1
  linear_combination ((l : ℝ) + 1) * e

/-- The ladder relation of the 3j symbols. -/
theorem w3i_ladder (n1 n2 n3 l1 l2 l3 : ℕ) (h1 : l1 ≤ n1) (h2 : l2 ≤ n2) (h3 : l3 ≤ n3) :
    ladC n1 l1 * w3i n1 n2 n3 (l1 + 1) l2 l3 + ladC n2 l2 * w3i n1 n2 n3 l1 (l2 + 1) l3 + ladC n3 l3 * w3i n1 n2 n3 l1 l2 (l3 + 1) = 0 := by
  by_cases h : (n1 + n2 + n3) % 2 = 0 ∧ n3 ≤ n1 + n2 ∧ n1 ≤ n2 + n3 ∧ n2 ≤ n1 + n3
  · obtain ⟨k1, k2, k3, rfl, rfl, rfl⟩ : ∃ k1 k2 k3 : ℕ, n1 = k2 + k3 ∧ n2 = k1 + k3 ∧ n3 = k1 + k2 :=
      ⟨(n2 + n3 - n1) / 2, (n1 + n3 - n2) / 2, (n1 + n2 - n3) / 2, by omega, by omega, by omega⟩
    have L := ladder_of_shift (k2 + k3) (k1 + k3) (k1 + k2) (fun i j k => w3n (k2 + k3) (k1 + k3) (k1 + k2) i j k * (rtC (k2 + k3) i * rtC (k1 + k3) j * rtC (k1 + k2) k))
      (by intro j k; simp [rtC, Nat.choose_succ_self]) (by intro j k; simp [rtC, Nat.choose_succ_self]) (by intro j k; simp [rtC, Nat.choose_succ_self])
      (by intro x y z t; rw [gen_one, gen_one]; ring) l1 h1 l2 h2 l3 h3
    simp only [w3n_ofReal, rtC] at L
    have L' : ((l1 : ℝ) + 1) * (w3i (k2 + k3) (k1 + k3) (k1 + k2) (l1 + 1) l2 l3 * (Real.sqrt ((k2 + k3).choose (l1 + 1)) * Real.sqrt ((k1 + k3).choose l2) * Real.sqrt ((k1 + k2).choose l3))) +
        ((l2 : ℝ) + 1) * (w3i (k2 + k3) (k1 + k3) (k1 + k2) l1 (l2 + 1) l3 * (Real.sqrt ((k2 + k3).choose l1) * Real.sqrt ((k1 + k3).choose (l2 + 1)) * Real.sqrt ((k1 + k2).choose l3))) +
        ((l3 : ℝ) + 1) * (w3i (k2 + k3) (k1 + k3) (k1 + k2) l1 l2 (l3 + 1) * (Real.sqrt ((k2 + k3).choose l1) * Real.sqrt ((k1 + k3).choose l2) * Real.sqrt ((k1 + k2).choose (l3 + 1)))) = 0 := by
      exact_mod_cast L
    have c1 := ladC_choose (k2 + k3) l1 h1
    have c2 := ladC_choose (k1 + k3) l2 h2
    have c3 := ladC_choose (k1 + k2) l3 h3
    have p1 := sqrt_choose_pos h1
    have p2 := sqrt_choose_pos h2
    have p3 := sqrt_choose_pos h3
    have hp : Real.sqrt ((k2 + k3).choose l1) * Real.sqrt ((k1 + k3).choose l2) * Real.sqrt ((k1 + k2).choose l3) ≠ 0 := by positivity
    refine (mul_eq_zero.1 ?_).resolve_right hp
    rw [← L']
    linear_combination -(w3i (k2 + k3) (k1 + k3) (k1 + k2) (l1 + 1) l2 l3 * (Real.sqrt ((k1 + k3).choose l2) * Real.sqrt ((k1 + k2).choose l3))) * c1 -
      (w3i (k2 + k3) (k1 + k3) (k1 + k2) l1 (l2 + 1) l3 * (Real.sqrt ((k2 + k3).choose l1) * Real.sqrt ((k1 + k2).choose l3))) * c2 -
      (w3i (k2 + k3) (k1 + k3) (k1 + k2) l1 l2 (l3 + 1) * (Real.sqrt ((k2 + k3).choose l1) * Real.sqrt ((k1 + k3).choose l2))) * c3
  · have z : ∀ l1 l2 l3 : ℕ, w3i n1 n2 n3 l1 l2 l3 = 0 := by
      intro l1 l2 l3
      unfold w3i
      rw [w3j_invalid]
      intro hv
      unfold Valid3 at hv
      obtain ⟨_, v1, _, _, _, v2, v3, v4, _⟩ := hv
      exact h ⟨by omega, by omega, by omega, by omega⟩
    simp [z]

/-- Counting from the bottom instead of the top. -/
theorem w3i_flip (n1 n2 n3 l1 l2 l3 : ℕ) (h1 : l1 ≤ n1) (h2 : l2 ≤ n2) (h3 : l3 ≤ n3) :
    w3i n1 n2 n3 (n1 - l1) (n2 - l2) (n3 - l3) = sgn (((n1 : ℤ) + n2 + n3) / 2) * w3i n1 n2 n3 l1 l2 l3 := by
  unfold w3i
  rw [← w3j_neg]
  congr 1 <;> omega

/-- The ladder relation in the other direction. -/
theorem w3i_ladder_down (n1 n2 n3 l1 l2 l3 : ℕ) (h1 : l1 < n1) (h2 : l2 ≤ n2) (h3 : l3 ≤ n3) :
    ladC n1 l1 * w3i n1 n2 n3 l1 l2 l3 + (if l2 = 0 then 0 else ladC n2 (l2 - 1) * w3i n1 n2 n3 (l1 + 1) (l2 - 1) l3) +
      (if l3 = 0 then 0 else ladC n3 (l3 - 1) * w3i n1 n2 n3 (l1 + 1) l2 (l3 - 1)) = 0 := by
  have L := w3i_ladder n1 n2 n3 (n1 - (l1 + 1)) (n2 - l2) (n3 - l3) (by omega) (by omega) (by omega)
  have hc : ∀ n l : ℕ, l < n → ladC n (n - (l + 1)) = ladC n l := by
    intro n l h
    unfold ladC
    congr 1
    rw [Nat.cast_sub (by omega)]; push_cast; ring
  have a1 := w3i_flip n1 n2 n3 l1 l2 l3 (by omega) h2 h3
  rw [show n1 - (l1 + 1) + 1 = n1 - l1 by omega, hc n1 l1 h1, a1] at L
  have t2 : ladC n2 (n2 - l2) * w3i n1 n2 n3 (n1 - (l1 + 1)) (n2 - l2 + 1) (n3 - l3) =
      sgn (((n1 : ℤ) + n2 + n3) / 2) * (if l2 = 0 then 0 else ladC n2 (l2 - 1) * w3i n1 n2 n3 (l1 + 1) (l2 - 1) l3) := by
    by_cases z : l2 = 0
    · rw [if_pos z, z, Nat.sub_zero, ladC_top]; ring
    · rw [if_neg z]
      have := hc n2 (l2 - 1) (by omega)
      rw [show l2 - 1 + 1 = l2 by omega] at this
      have f := w3i_flip n1 n2 n3 (l1 + 1) (l2 - 1) l3 (by omega) (by omega) h3
      rw [show n2 - (l2 - 1) = n2 - l2 + 1 by omega] at f
      rw [this, f]; ring
  have t3 : ladC n3 (n3 - l3) * w3i n1 n2 n3 (n1 - (l1 + 1)) (n2 - l2) (n3 - l3 + 1) =
      sgn (((n1 : ℤ) + n2 + n3) / 2) * (if l3 = 0 then 0 else ladC n3 (l3 - 1) * w3i n1 n2 n3 (l1 + 1) l2 (l3 - 1)) := by
    by_cases z : l3 = 0
    · rw [if_pos z, z, Nat.sub_zero, ladC_top]; ring
    · rw [if_neg z]
      have := hc n3 (l3 - 1) (by omega)
      rw [show l3 - 1 + 1 = l3 by omega] at this
      have f := w3i_flip n1 n2 n3 (l1 + 1) l2 (l3 - 1) (by omega) h2 (by omega)
      rw [show n3 - (l3 - 1) = n3 - l3 + 1 by omega] at f
      rw [this, f]; ring
  rw [t2, t3] at L
  refine (mul_eq_zero.1 ?_).resolve_left (sgn_ne_zero (((n1 : ℤ) + n2 + n3) / 2))
  linear_combination L

/-! ## The sum of squares -/

/-- The sum of the squares for one projection of the first momentum. -/
noncomputable def sq3 (n1 n2 n3 l1 : ℕ) : ℝ :=
  ∑ l2 ∈ Finset.range (n2 + 1), ∑ l3 ∈ Finset.range (n3 + 1), w3i n1 n2 n3 l1 l2 l3 ^ 2

theorem sum_down (n : ℕ) (f g : ℕ → ℝ) :
    ∑ l ∈ Finset.range (n + 1), (if l = 0 then 0 else ladC n (l - 1) * f (l - 1)) * g l = ∑ l ∈ Finset.range (n + 1), ladC n l * f l * g (l + 1) := by
  rw [Finset.sum_range_succ', Finset.sum_range_succ, ladC_top]
  simp

theorem sq3_step (n1 n2 n3 l1 : ℕ) (h : l1 < n1) : sq3 n1 n2 n3 (l1 + 1) = sq3 n1 n2 n3 l1 := by
  have hc : ladC n1 l1 ≠ 0 := by
    unfold ladC
    have : (l1 : ℝ) < n1 := by exact_mod_cast h
    have : 0 < ((l1 : ℝ) + 1) * ((n1 : ℝ) - l1) := mul_pos (by positivity) (by linarith)
    positivity
  apply mul_left_cancel₀ hc
  set W := w3i n1 n2 n3 with hW
  have up : ladC n1 l1 * sq3 n1 n2 n3 (l1 + 1) =
      -(∑ l2 ∈ Finset.range (n2 + 1), ∑ l3 ∈ Finset.range (n3 + 1), ladC n2 l2 * W (l1 + 1) l2 l3 * W l1 (l2 + 1) l3) -
        ∑ l2 ∈ Finset.range (n2 + 1), ∑ l3 ∈ Finset.range (n3 + 1), ladC n3 l3 * W (l1 + 1) l2 l3 * W l1 l2 (l3 + 1) := by
    unfold sq3
    rw [← Finset.sum_neg_distrib, ← Finset.sum_sub_distrib, Finset.mul_sum]
    refine Finset.sum_congr rfl fun l2 h2 => ?_
    rw [← Finset.sum_neg_distrib, ← Finset.sum_sub_distrib, Finset.mul_sum]
    refine Finset.sum_congr rfl fun l3 h3 => ?_
    have := w3i_ladder n1 n2 n3 l1 l2 l3 (by omega) (by have := Finset.mem_range.1 h2; omega) (by have := Finset.mem_range.1 h3; omega)
    rw [← hW] at this ⊢
    linear_combination W (l1 + 1) l2 l3 * this
  have dn : ladC n1 l1 * sq3 n1 n2 n3 l1 =
      -(∑ l2 ∈ Finset.range (n2 + 1), ∑ l3 ∈ Finset.range (n3 + 1), (if l2 = 0 then 0 else ladC n2 (l2 - 1) * W (l1 + 1) (l2 - 1) l3) * W l1 l2 l3) -
        ∑ l2 ∈ Finset.range (n2 + 1), ∑ l3 ∈ Finset.range (n3 + 1), (if l3 = 0 then 0 else ladC n3 (l3 - 1) * W (l1 + 1) l2 (l3 - 1)) * W l1 l2 l3 := by
    unfold sq3
    rw [← Finset.sum_neg_distrib, ← Finset.sum_sub_distrib, Finset.mul_sum]
    refine Finset.sum_congr rfl fun l2 h2 => ?_
    rw [← Finset.sum_neg_distrib, ← Finset.sum_sub_distrib, Finset.mul_sum]
    refine Finset.sum_congr rfl fun l3 h3 => ?_
    have := w3i_ladder_down n1 n2 n3 l1 l2 l3 h (by have := Finset.mem_range.1 h2; omega) (by have := Finset.mem_range.1 h3; omega)
    rw [← hW] at this ⊢
    linear_combination W l1 l2 l3 * this
  rw [up, dn]
  congr 1
  · congr 1
    rw [Finset.sum_comm, Finset.sum_comm (s := Finset.range (n2 + 1))]
    refine Finset.sum_congr rfl fun l3 _ => ?_
    exact (sum_down n2 (fun l => W (l1 + 1) l l3) fun l => W l1 l l3).symm
  · refine Finset.sum_congr rfl fun l2 _ => ?_
    exact (sum_down n3 (fun l => W (l1 + 1) l2 l) fun l => W l1 l2 l).symm

/-- The negative binomial convolution. -/
theorem choose_conv (p q k : ℕ) : ∑ b ∈ Finset.range (k + 1), (p + b).choose b * (q + (k - b)).choose (k - b) = (p + q + k + 1).choose k := by
  induction q generalizing k with
  | zero =>
    have : ∀ b ∈ Finset.range (k + 1), (p + b).choose b * (0 + (k - b)).choose (k - b) = (p + b).choose p := by
      intro b _
      rw [zero_add, Nat.choose_self, mul_one, Nat.choose_symm_add]
    rw [Finset.sum_congr rfl this]
    have h := Nat.sum_range_add_choose k p
    rw [Finset.sum_congr rfl fun b _ => show (p + b).choose p = (b + p).choose p by rw [add_comm], h]
    rw [show k + p + 1 = (p + 1) + k by omega, Nat.choose_symm_add]
    congr 1; omega
  | succ q ih =>
    induction k with
    | zero => simp
    | succ k ihk =>
      rw [Finset.sum_range_succ]
      have : ∀ b ∈ Finset.range (k + 1), (p + b).choose b * (q + 1 + (k + 1 - b)).choose (k + 1 - b) =
          (p + b).choose b * (q + (k + 1 - b)).choose (k + 1 - b) + (p + b).choose b * (q + 1 + (k - b)).choose (k - b) := by
        intro b hb
        have hb' := Finset.mem_range.1 hb
        obtain ⟨d, rfl⟩ : ∃ d, k = b + d := ⟨k - b, by omega⟩
        rw [show b + d + 1 - b = d + 1 by omega, show b + d - b = d by omega, ← mul_add]
        congr 1
        rw [show q + 1 + (d + 1) = (q + (d + 1)) + 1 by omega, Nat.choose_succ_succ, show q + (d + 1) = q + 1 + d by omega, add_comm]
      rw [Finset.sum_congr rfl this, Finset.sum_add_distrib, ihk]
      have h2 := ih (k + 1)
      rw [Finset.sum_range_succ] at h2
      simp only [Nat.sub_self, add_zero, Nat.choose_zero_right, mul_one] at h2 ⊢
      rw [show p + (q + 1) + (k + 1) + 1 = (p + (q + 1) + k + 1) + 1 by omega, Nat.choose_succ_succ,
        show p + (q + 1) + k + 1 = p + q + (k + 1) + 1 by omega, ← h2]
      omega

theorem w3i_coeff_zero (k1 k2 k3 l2 l3 : ℕ) (h2 : l2 ≤ k1 + k3) (h3 : l3 ≤ k1 + k2) :
    w3i (k2 + k3) (k1 + k3) (k1 + k2) 0 l2 l3 * (Real.sqrt ((k1 + k3).choose l2) * Real.sqrt ((k1 + k2).choose l3)) =
      invNorm k1 k2 k3 * (if k3 ≤ l2 ∧ l3 + l2 = k1 + k2 + k3 then (-1) ^ (l2 - k3 + k2) * (k1.choose (l2 - k3) : ℝ) else 0) := by
  have e := w3j_coeff k1 k2 k3 0 l2 l3 (by omega) h2 h3
  rw [Nat.choose_zero_right, Nat.cast_one, Real.sqrt_one, one_mul] at e
  unfold w3i
  rw [e]
  congr 1
  rw [Finset.sum_eq_single 0]
  · by_cases h : k3 ≤ l2 ∧ l3 + l2 = k1 + k2 + k3
    · rw [if_pos h, Finset.sum_eq_single (l2 - k3), Finset.sum_eq_single k2]
      · unfold invTerm
        rw [if_pos (by omega)]
        simp
      · intro c hc hne; unfold invTerm; rw [if_neg (by omega)]
      · intro h; exact absurd (Finset.mem_range.2 (by omega)) h
      · intro b hb hne
        refine Finset.sum_eq_zero fun c hc => ?_
        unfold invTerm; rw [if_neg (by omega)]
      · intro h; exact absurd (Finset.mem_range.2 (by omega)) h
    · rw [if_neg h]
      refine Finset.sum_eq_zero fun b hb => Finset.sum_eq_zero fun c hc => ?_
      have := Finset.mem_range.1 hc
      unfold invTerm; rw [if_neg (by omega)]
  · intro a ha hne
    refine Finset.sum_eq_zero fun b hb => Finset.sum_eq_zero fun c hc => ?_
    have := Finset.mem_range.1 hc
    unfold invTerm; rw [if_neg (by omega)]
  · intro h; exact absurd (Finset.mem_range.2 (by omega)) h

theorem invNorm_sq (k1 k2 k3 : ℕ) : invNorm k1 k2 k3 ^ 2 =
    ((k2 + k3).factorial * (k1 + k3).factorial * (k1 + k2).factorial : ℝ) / ((k1 + k2 + k3 + 1).factorial * (k1.factorial * k2.factorial * k3.factorial)) := by
  have f1 : (k1.factorial : ℝ) ≠ 0 := by exact_mod_cast Nat.factorial_ne_zero _
  have f2 : (k2.factorial : ℝ) ≠ 0 := by exact_mod_cast Nat.factorial_ne_zero _
  have f3 : (k3.factorial : ℝ) ≠ 0 := by exact_mod_cast Nat.factorial_ne_zero _
  have f4 : ((k1 + k2 + k3 + 1).factorial : ℝ) ≠ 0 := by exact_mod_cast Nat.factorial_ne_zero _
  unfold invNorm
  rw [div_pow, Real.sq_sqrt (by positivity)]
  field_simp

theorem choose_real (n k : ℕ) : ((n + k).choose k : ℝ) = (n + k).factorial / (n.factorial * k.factorial) := by
  have h := Nat.add_choose_mul_factorial_mul_factorial n k
  have f1 : (n.factorial : ℝ) ≠ 0 := by exact_mod_cast Nat.factorial_ne_zero _
  have f2 : (k.factorial : ℝ) ≠ 0 := by exact_mod_cast Nat.factorial_ne_zero _
  rw [eq_div_iff (by positivity)]
  have h' : ((n + k).choose k : ℝ) * n.factorial * k.factorial = (n + k).factorial := by exact_mod_cast h
  rw [← h']; ring

/-- The square of the symbol with the first projection at its maximum. -/
theorem w3i_zero_sq (k1 k2 k3 b : ℕ) (hb : b ≤ k1) :
    w3i (k2 + k3) (k1 + k3) (k1 + k2) 0 (k3 + b) (k1 + k2 - b) ^ 2 =
      ((k2 + k3).factorial * k1.factorial : ℝ) / (k1 + k2 + k3 + 1).factorial * ((k3 + b).choose b * (k2 + (k1 - b)).choose (k1 - b)) := by
  obtain ⟨d, rfl⟩ : ∃ d, k1 = b + d := ⟨k1 - b, by omega⟩
  have e := w3i_coeff_zero (b + d) k2 k3 (k3 + b) (b + d + k2 - b) (by omega) (by omega)
  rw [if_pos (by omega), Nat.add_sub_cancel_left] at e
  have e2 := congrArg (fun x : ℝ => x ^ 2) e
  simp only [mul_pow] at e2
  rw [Real.sq_sqrt (by positivity), Real.sq_sqrt (by positivity), invNorm_sq, ← pow_mul, mul_comm (b + k2) 2, pow_mul, neg_one_sq, one_pow, one_mul] at e2
  rw [show b + d + k2 - b = k2 + d by omega] at e2 ⊢
  rw [show b + d - b = d by omega]
  have c1 : ((b + d + k3).choose (k3 + b) : ℝ) = (b + d + k3).factorial / (d.factorial * (k3 + b).factorial) := by
    have := choose_real d (k3 + b)
    rw [show d + (k3 + b) = b + d + k3 by omega] at this; exact this
  have c2 : ((b + d + k2).choose (k2 + d) : ℝ) = (b + d + k2).factorial / (b.factorial * (k2 + d).factorial) := by
    have := choose_real b (k2 + d)
    rw [show b + (k2 + d) = b + d + k2 by omega] at this; exact this
  have c3 : ((b + d).choose b : ℝ) = (b + d).factorial / (d.factorial * b.factorial) := by
    have := choose_real d b
    rw [show d + b = b + d by omega] at this; exact this
  rw [c1, c2, c3] at e2
  rw [choose_real k3 b, choose_real k2 d]
  have f : ∀ n : ℕ, (n.factorial : ℝ) ≠ 0 := fun n => by exact_mod_cast Nat.factorial_ne_zero n
  have hd : ((b + d + k3).factorial : ℝ) / (d.factorial * (k3 + b).factorial) * ((b + d + k2).factorial / (b.factorial * (k2 + d).factorial)) ≠ 0 := by
    have := f (b + d + k3); have := f d; have := f (k3 + b); have := f (b + d + k2); have := f b; have := f (k2 + d)
    positivity
  apply mul_right_cancel₀ hd
  rw [e2]
  have g1 := f (b + d + k3); have g2 := f d; have g3 := f (k3 + b); have g4 := f (b + d + k2); have g5 := f b; have g6 := f (k2 + d)
  have g7 := f (b + d); have g8 := f k2; have g9 := f k3; have g10 := f (b + d + k2 + k3 + 1); have g11 := f (k2 + k3)
  field_simp

theorem sq3_zero (k1 k2 k3 : ℕ) : sq3 (k2 + k3) (k1 + k3) (k1 + k2) 0 = 1 / ((k2 + k3 : ℕ) + 1 : ℝ) := by
  have hz : ∀ l2 l3, l2 ≤ k1 + k3 → l3 ≤ k1 + k2 → ¬(k3 ≤ l2 ∧ l3 + l2 = k1 + k2 + k3) → w3i (k2 + k3) (k1 + k3) (k1 + k2) 0 l2 l3 = 0 := by
    intro l2 l3 h2 h3 h
    have e := w3i_coeff_zero k1 k2 k3 l2 l3 h2 h3
    rw [if_neg h, mul_zero] at e
    have p2 := sqrt_choose_pos h2
    have p3 := sqrt_choose_pos h3
    exact (mul_eq_zero.1 e).resolve_right (by positivity)
  have hs : sq3 (k2 + k3) (k1 + k3) (k1 + k2) 0 = ∑ b ∈ Finset.range (k1 + 1), w3i (k2 + k3) (k1 + k3) (k1 + k2) 0 (k3 + b) (k1 + k2 - b) ^ 2 := by
    unfold sq3
    rw [show k1 + k3 + 1 = k3 + (k1 + 1) by omega, Finset.sum_range_add]
    rw [Finset.sum_eq_zero, zero_add]
    · refine Finset.sum_congr rfl fun b hb => ?_
      have hb' := Finset.mem_range.1 hb
      rw [Finset.sum_eq_single (k1 + k2 - b)]
      · intro l3 h3 hne
        have := Finset.mem_range.1 h3
        rw [hz _ _ (by omega) (by omega) (by omega)]; norm_num
      · intro h; exact absurd (Finset.mem_range.2 (by omega)) h
    · intro l2 h2
      have := Finset.mem_range.1 h2
      refine Finset.sum_eq_zero fun l3 h3 => ?_
      have := Finset.mem_range.1 h3
      rw [hz _ _ (by omega) (by omega) (by omega)]; norm_num
  rw [hs, Finset.sum_congr rfl fun b hb => w3i_zero_sq k1 k2 k3 b (by have := Finset.mem_range.1 hb; omega), ← Finset.mul_sum]
  have hc : ∑ b ∈ Finset.range (k1 + 1), ((k3 + b).choose b * (k2 + (k1 - b)).choose (k1 - b) : ℝ) = ((k2 + k3 + 1 + k1).choose k1 : ℝ) := by
    have := choose_conv k3 k2 k1
    rw [show k3 + k2 + k1 + 1 = k2 + k3 + 1 + k1 by omega] at this
    exact_mod_cast this
  rw [hc, choose_real, show k2 + k3 + 1 + k1 = k1 + k2 + k3 + 1 by omega]
  have f : ∀ n : ℕ, (n.factorial : ℝ) ≠ 0 := fun n => by exact_mod_cast Nat.factorial_ne_zero n
  have g1 := f (k1 + k2 + k3 + 1); have g2 := f k1; have g3 := f (k2 + k3)
  have : ((k2 + k3 + 1).factorial : ℝ) = ((k2 + k3 : ℕ) + 1 : ℝ) * (k2 + k3).factorial := by
    rw [Nat.factorial_succ]; push_cast; ring
  rw [this]
  have g4 : (((k2 + k3 : ℕ) : ℝ) + 1) ≠ 0 := by positivity
  field_simp

/-- The sum of the squares over the two other projections. -/
theorem sq3_eq (n1 n2 n3 l1 : ℕ) (ht : (n1 + n2 + n3) % 2 = 0 ∧ n3 ≤ n1 + n2 ∧ n1 ≤ n2 + n3 ∧ n2 ≤ n1 + n3) (h1 : l1 ≤ n1) :
    sq3 n1 n2 n3 l1 = 1 / ((n1 : ℝ) + 1) := by
  induction l1 with
  | zero =>
    obtain ⟨k1, k2, k3, rfl, rfl, rfl⟩ : ∃ k1 k2 k3 : ℕ, n1 = k2 + k3 ∧ n2 = k1 + k3 ∧ n3 = k1 + k2 :=
      ⟨(n2 + n3 - n1) / 2, (n1 + n3 - n2) / 2, (n1 + n2 - n3) / 2, by omega, by omega, by omega⟩
    exact sq3_zero k1 k2 k3
  | succ l ih => rw [sq3_step n1 n2 n3 l (by omega), ih (by omega)]

end PI
