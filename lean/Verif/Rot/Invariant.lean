import Verif.Rot.Rep
import Verif.Wigner.Symbols
import Mathlib.Data.Nat.Factorial.Cast
import Mathlib.Algebra.Polynomial.Roots
import Mathlib.Algebra.BigOperators.Field

/-!
# Invariance of the 3j symbol under rotations

The 3j symbols are the coefficients of the invariant `(u1 v2 - u2 v1)^k3 (u2 v3 - u3 v2)^k1 (u3 v1 - u1 v3)^k2`.
-/

namespace PI

open Polynomial

/-- The term of the expansion of the invariant with exponents `a`, `b`, `c`, if it belongs to the monomial `l1`, `l2`, `l3`. -/
def invTerm (k1 k2 k3 l1 l2 l3 a b c : ℕ) : ℝ :=
  if l1 + c = a + k2 ∧ l2 + a = k3 + b ∧ l3 + b = k1 + c then (-1) ^ (a + b + c) * (k3.choose a) * (k1.choose b) * (k2.choose c) else 0

/-- The normalisation of the invariant. -/
noncomputable def invNorm (k1 k2 k3 : ℕ) : ℝ :=
  Real.sqrt ((k1.factorial * k2.factorial * k3.factorial : ℝ) / (k1 + k2 + k3 + 1).factorial *
      ((k2 + k3).factorial * (k1 + k3).factorial * (k1 + k2).factorial)) / (k1.factorial * k2.factorial * k3.factorial)

theorem ifct_nat (k : ℕ) : ifct (k : ℤ) = 1 / (k.factorial : ℝ) := by
  unfold ifct; rw [if_neg (by omega), Int.toNat_natCast]

theorem fct_nat (k : ℕ) : fct (k : ℤ) = (k.factorial : ℝ) := by
  unfold fct; rw [Int.toNat_natCast]

theorem ifct_neg' {z : ℤ} (h : z < 0) : ifct z = 0 := by unfold ifct; rw [if_pos h]

theorem inv_sgn_nat (k : ℕ) : sgn (k : ℤ) = (-1 : ℝ) ^ k := by
  unfold sgn
  rcases Nat.even_or_odd k with h | h
  · rw [if_pos (by obtain ⟨r, rfl⟩ := h; omega), h.neg_one_pow]
  · rw [if_neg (by obtain ⟨r, rfl⟩ := h; omega), h.neg_one_pow]

theorem choose_inv (k a : ℕ) (h : a ≤ k) : (1 : ℝ) / a.factorial * (1 / (k - a).factorial) = (k.choose a : ℝ) / k.factorial := by
  have e : ((k.choose a : ℕ) : ℝ) * a.factorial * (k - a).factorial = k.factorial := by exact_mod_cast Nat.choose_mul_factorial_mul_factorial h
  have h1 : (a.factorial : ℝ) ≠ 0 := by exact_mod_cast Nat.factorial_ne_zero _
  have h2 : ((k - a).factorial : ℝ) ≠ 0 := by exact_mod_cast Nat.factorial_ne_zero _
  have h3 : (k.factorial : ℝ) ≠ 0 := by exact_mod_cast Nat.factorial_ne_zero _
  field_simp
  linarith

/-- One term of the Racah sum is one term of the expansion. -/
theorem racah_term (k1 k2 k3 l1 l2 l3 a : ℕ) (hl : l1 + l2 + l3 = k1 + k2 + k3) (ha : a ≤ k3) :
    sgn ((l3 : ℤ) - k1) * (sgn a * (ifct a * ifct ((k2 : ℤ) - l1 + a) * ifct ((l2 : ℤ) - k3 + a) * ifct ((k3 : ℤ) - a) * ifct ((l1 : ℤ) - a) *
      ifct ((k1 : ℤ) + k3 - l2 - a))) =
    (∑ b ∈ Finset.range (k1 + 1), ∑ c ∈ Finset.range (k2 + 1), invTerm k1 k2 k3 l1 l2 l3 a b c) /
      (k1.factorial * k2.factorial * k3.factorial) := by
  by_cases hv : l1 ≤ a + k2 ∧ a ≤ l1 ∧ k3 ≤ l2 + a ∧ l2 + a ≤ k1 + k3
  · obtain ⟨v1, v2, v3, v4⟩ := hv
    rw [Finset.sum_eq_single (l2 + a - k3), Finset.sum_eq_single (a + k2 - l1)]
    · unfold invTerm
      rw [if_pos (by omega)]
      rw [show (k2 : ℤ) - l1 + a = ((a + k2 - l1 : ℕ) : ℤ) by omega, show (l2 : ℤ) - k3 + a = ((l2 + a - k3 : ℕ) : ℤ) by omega,
        show (k3 : ℤ) - a = ((k3 - a : ℕ) : ℤ) by omega, show (l1 : ℤ) - a = ((k2 - (a + k2 - l1) : ℕ) : ℤ) by omega,
        show (k1 : ℤ) + k3 - l2 - a = ((k1 - (l2 + a - k3) : ℕ) : ℤ) by omega]
      simp only [ifct_nat]
      have e1 := choose_inv k3 a ha
      have e2 := choose_inv k2 (a + k2 - l1) (by omega)
      have e3 := choose_inv k1 (l2 + a - k3) (by omega)
      have es : sgn ((l3 : ℤ) - k1) * sgn a = (-1 : ℝ) ^ (a + (l2 + a - k3) + (a + k2 - l1)) := by
        rw [sgn_mul, ← inv_sgn_nat]
        apply sgn_congr; omega
      rw [← es]
      have : ∀ A B C A' B' C' : ℝ, sgn ((l3 : ℤ) - k1) * (sgn a * (A * B * C * A' * B' * C')) =
          sgn ((l3 : ℤ) - k1) * sgn a * ((A * A') * (C * C') * (B * B')) := by intros; ring
      rw [this, e1, e2, e3]
      have h1 : (k1.factorial : ℝ) ≠ 0 := by exact_mod_cast Nat.factorial_ne_zero _
      have h2 : (k2.factorial : ℝ) ≠ 0 := by exact_mod_cast Nat.factorial_ne_zero _
      have h3 : (k3.factorial : ℝ) ≠ 0 := by exact_mod_cast Nat.factorial_ne_zero _
      field_simp
    · intro c hc hne
      unfold invTerm; rw [if_neg (by omega)]
    · intro h; exact absurd (Finset.mem_range.2 (by omega)) h
    · intro b hb hne
      refine Finset.sum_eq_zero fun c _ => ?_
      unfold invTerm; rw [if_neg (by omega)]
    · intro h; exact absurd (Finset.mem_range.2 (by omega)) h
  · have z : ∑ b ∈ Finset.range (k1 + 1), ∑ c ∈ Finset.range (k2 + 1), invTerm k1 k2 k3 l1 l2 l3 a b c = 0 := by
      refine Finset.sum_eq_zero fun b hb => Finset.sum_eq_zero fun c hc => ?_
      have := Finset.mem_range.1 hb
      have := Finset.mem_range.1 hc
      unfold invTerm; rw [if_neg (by omega)]
    rw [z, zero_div]
    by_cases h1 : l1 ≤ a + k2
    · by_cases h2 : a ≤ l1
      · by_cases h3 : k3 ≤ l2 + a
        · rw [ifct_neg' (show (k1 : ℤ) + k3 - l2 - a < 0 by omega)]; ring
        · rw [ifct_neg' (show (l2 : ℤ) - k3 + a < 0 by omega)]; ring
      · rw [ifct_neg' (show (l1 : ℤ) - a < 0 by omega)]; ring
    · rw [ifct_neg' (show (k2 : ℤ) - l1 + a < 0 by omega)]; ring

/-- The 3j symbols are the coefficients of the invariant. -/
theorem w3j_coeff (k1 k2 k3 l1 l2 l3 : ℕ) (h1 : l1 ≤ k2 + k3) (h2 : l2 ≤ k1 + k3) (h3 : l3 ≤ k1 + k2) :
    w3j ((k2 + k3 : ℕ) : ℤ) ((k1 + k3 : ℕ) : ℤ) ((k1 + k2 : ℕ) : ℤ) (((k2 + k3 : ℕ) : ℤ) - 2 * l1) (((k1 + k3 : ℕ) : ℤ) - 2 * l2) (((k1 + k2 : ℕ) : ℤ) - 2 * l3) *
      (Real.sqrt ((k2 + k3).choose l1) * Real.sqrt ((k1 + k3).choose l2) * Real.sqrt ((k1 + k2).choose l3)) =
    invNorm k1 k2 k3 * ∑ a ∈ Finset.range (k3 + 1), ∑ b ∈ Finset.range (k1 + 1), ∑ c ∈ Finset.range (k2 + 1), invTerm k1 k2 k3 l1 l2 l3 a b c := by
  by_cases hl : l1 + l2 + l3 = k1 + k2 + k3
  · have hv : Valid3 ((k2 + k3 : ℕ) : ℤ) ((k1 + k3 : ℕ) : ℤ) ((k1 + k2 : ℕ) : ℤ) (((k2 + k3 : ℕ) : ℤ) - 2 * l1) (((k1 + k3 : ℕ) : ℤ) - 2 * l2)
        (((k1 + k2 : ℕ) : ℤ) - 2 * l3) := by
      unfold Valid3
      refine ⟨?_, ?_, ?_, ?_, ?_, ?_, ?_, ?_, ?_, ?_, ?_⟩ <;> first | omega | (rw [abs_le]; omega)
    unfold w3j
    rw [if_pos hv, sum3_eq]
    have d1 : (((k2 + k3 : ℕ) : ℤ) - ((k1 + k3 : ℕ) : ℤ) - (((k1 + k2 : ℕ) : ℤ) - 2 * l3)) / 2 = (l3 : ℤ) - k1 := by omega
    have d2 : (((k1 + k2 : ℕ) : ℤ) - ((k1 + k3 : ℕ) : ℤ) + (((k2 + k3 : ℕ) : ℤ) - 2 * l1)) / 2 = (k2 : ℤ) - l1 := by omega
    have d3 : (((k1 + k2 : ℕ) : ℤ) - ((k2 + k3 : ℕ) : ℤ) - (((k1 + k3 : ℕ) : ℤ) - 2 * l2)) / 2 = (l2 : ℤ) - k3 := by omega
    have d4 : (((k2 + k3 : ℕ) : ℤ) + ((k1 + k3 : ℕ) : ℤ) - ((k1 + k2 : ℕ) : ℤ)) / 2 = (k3 : ℤ) := by omega
    have d5 : (((k2 + k3 : ℕ) : ℤ) - (((k2 + k3 : ℕ) : ℤ) - 2 * l1)) / 2 = (l1 : ℤ) := by omega
    have d6 : (((k1 + k3 : ℕ) : ℤ) + (((k1 + k3 : ℕ) : ℤ) - 2 * l2)) / 2 = (k1 : ℤ) + k3 - l2 := by omega
    rw [d1, d2, d3, d4, d5, d6]
    have hs : ∑ t ∈ Finset.Icc (0 : ℤ) k3, sgn t * (ifct t * ifct ((k2 : ℤ) - l1 + t) * ifct ((l2 : ℤ) - k3 + t) * ifct ((k3 : ℤ) - t) *
        ifct ((l1 : ℤ) - t) * ifct ((k1 : ℤ) + k3 - l2 - t)) =
        ∑ a ∈ Finset.range (k3 + 1), sgn (a : ℤ) * (ifct a * ifct ((k2 : ℤ) - l1 + a) * ifct ((l2 : ℤ) - k3 + a) * ifct ((k3 : ℤ) - a) *
        ifct ((l1 : ℤ) - a) * ifct ((k1 : ℤ) + k3 - l2 - a)) := by
      symm
      refine Finset.sum_bij (fun a _ => (a : ℤ)) ?_ ?_ ?_ ?_
      · intro a ha; have := Finset.mem_range.1 ha; exact Finset.mem_Icc.2 ⟨by omega, by omega⟩
      · intro a _ b _ h; exact_mod_cast h
      · intro t ht; have := Finset.mem_Icc.1 ht
        exact ⟨t.toNat, Finset.mem_range.2 (by omega), by omega⟩
      · intro a _; rfl
    rw [hs]
    have hr : Real.sqrt (rad3 ((k2 + k3 : ℕ) : ℤ) ((k1 + k3 : ℕ) : ℤ) ((k1 + k2 : ℕ) : ℤ) (((k2 + k3 : ℕ) : ℤ) - 2 * l1) (((k1 + k3 : ℕ) : ℤ) - 2 * l2)
        (((k1 + k2 : ℕ) : ℤ) - 2 * l3)) *
        (Real.sqrt ((k2 + k3).choose l1) * Real.sqrt ((k1 + k3).choose l2) * Real.sqrt ((k1 + k2).choose l3)) =
        invNorm k1 k2 k3 * (k1.factorial * k2.factorial * k3.factorial) := by
      have f1 : (k1.factorial : ℝ) ≠ 0 := by exact_mod_cast Nat.factorial_ne_zero _
      have f2 : (k2.factorial : ℝ) ≠ 0 := by exact_mod_cast Nat.factorial_ne_zero _
      have f3 : (k3.factorial : ℝ) ≠ 0 := by exact_mod_cast Nat.factorial_ne_zero _
      unfold invNorm
      rw [div_mul_cancel₀ _ (by positivity)]
      rw [← Real.sqrt_mul (by positivity), ← Real.sqrt_mul (by positivity), ← Real.sqrt_mul]
      swap
      · unfold rad3 fct; positivity
      congr 1
      unfold rad3
      have c1 : (((k2 + k3 : ℕ) : ℤ) - ((k1 + k3 : ℕ) : ℤ) + ((k1 + k2 : ℕ) : ℤ)) / 2 = (k2 : ℤ) := by omega
      have c2 : (-((k2 + k3 : ℕ) : ℤ) + ((k1 + k3 : ℕ) : ℤ) + ((k1 + k2 : ℕ) : ℤ)) / 2 = (k1 : ℤ) := by omega
      have c3 : (((k2 + k3 : ℕ) : ℤ) + ((k1 + k3 : ℕ) : ℤ) + ((k1 + k2 : ℕ) : ℤ)) / 2 + 1 = ((k1 + k2 + k3 + 1 : ℕ) : ℤ) := by omega
      have c4 : (((k2 + k3 : ℕ) : ℤ) + (((k2 + k3 : ℕ) : ℤ) - 2 * l1)) / 2 = ((k2 + k3 - l1 : ℕ) : ℤ) := by omega
      have c5 : (((k1 + k3 : ℕ) : ℤ) + (((k1 + k3 : ℕ) : ℤ) - 2 * l2)) / 2 = ((k1 + k3 - l2 : ℕ) : ℤ) := by omega
      have c6 : (((k1 + k3 : ℕ) : ℤ) - (((k1 + k3 : ℕ) : ℤ) - 2 * l2)) / 2 = (l2 : ℤ) := by omega
      have c7 : (((k1 + k2 : ℕ) : ℤ) + (((k1 + k2 : ℕ) : ℤ) - 2 * l3)) / 2 = ((k1 + k2 - l3 : ℕ) : ℤ) := by omega
      have c8 : (((k1 + k2 : ℕ) : ℤ) - (((k1 + k2 : ℕ) : ℤ) - 2 * l3)) / 2 = (l3 : ℤ) := by omega
      rw [c1, c2, c3, c4, c5, c6, c7, c8, d4, d5]
      simp only [fct_nat]
      have e1 : (((k2 + k3).choose l1 : ℕ) : ℝ) * l1.factorial * (k2 + k3 - l1).factorial = (k2 + k3).factorial := by
        exact_mod_cast Nat.choose_mul_factorial_mul_factorial h1
      have e2 : (((k1 + k3).choose l2 : ℕ) : ℝ) * l2.factorial * (k1 + k3 - l2).factorial = (k1 + k3).factorial := by
        exact_mod_cast Nat.choose_mul_factorial_mul_factorial h2
      have e3 : (((k1 + k2).choose l3 : ℕ) : ℝ) * l3.factorial * (k1 + k2 - l3).factorial = (k1 + k2).factorial := by
        exact_mod_cast Nat.choose_mul_factorial_mul_factorial h3
      rw [← e1, ← e2, ← e3]
      ring
    rw [show ∀ S R T X : ℝ, S * R * T * X = (R * X) * (S * T) by intros; ring, hr, Finset.mul_sum]
    rw [Finset.sum_congr rfl fun a ha => racah_term k1 k2 k3 l1 l2 l3 a hl (by have := Finset.mem_range.1 ha; omega)]
    rw [← Finset.sum_div]
    have f1 : (k1.factorial : ℝ) ≠ 0 := by exact_mod_cast Nat.factorial_ne_zero _
    have f2 : (k2.factorial : ℝ) ≠ 0 := by exact_mod_cast Nat.factorial_ne_zero _
    have f3 : (k3.factorial : ℝ) ≠ 0 := by exact_mod_cast Nat.factorial_ne_zero _
    field_simp
  · rw [w3j_invalid, zero_mul]
    · symm
      rw [Finset.sum_eq_zero, mul_zero]
      intro a _
      refine Finset.sum_eq_zero fun b _ => Finset.sum_eq_zero fun c _ => ?_
      unfold invTerm; rw [if_neg (by omega)]
    · intro h; unfold Valid3 at h; omega

/-! ## The generating function -/

/-- The monomial of `l` in a spin `n/2`. -/
def monoN (n l : ℕ) (u v : ℂ) : ℂ := u ^ (n - l) * v ^ l

theorem invTerm_sum (k1 k2 k3 a b c : ℕ) (ha : a ≤ k3) (hb : b ≤ k1) (hc : c ≤ k2) (u1 v1 u2 v2 u3 v3 : ℂ) :
    ∑ l1 ∈ Finset.range (k2 + k3 + 1), ∑ l2 ∈ Finset.range (k1 + k3 + 1), ∑ l3 ∈ Finset.range (k1 + k2 + 1),
      ((invTerm k1 k2 k3 l1 l2 l3 a b c : ℝ) : ℂ) * (monoN (k2 + k3) l1 u1 v1 * monoN (k1 + k3) l2 u2 v2 * monoN (k1 + k2) l3 u3 v3) =
    (-(u2 * v1)) ^ a * (u1 * v2) ^ (k3 - a) * (k3.choose a) * ((-(u3 * v2)) ^ b * (u2 * v3) ^ (k1 - b) * (k1.choose b)) *
      ((-(u1 * v3)) ^ c * (u3 * v1) ^ (k2 - c) * (k2.choose c)) := by
  rw [Finset.sum_eq_single (a + k2 - c), Finset.sum_eq_single (k3 + b - a), Finset.sum_eq_single (k1 + c - b)]
  · unfold invTerm
    rw [if_pos (by omega)]
    unfold monoN
    rw [show k2 + k3 - (a + k2 - c) = (k3 - a) + c by omega, show k1 + k3 - (k3 + b - a) = a + (k1 - b) by omega,
      show k1 + k2 - (k1 + c - b) = b + (k2 - c) by omega, show a + k2 - c = a + (k2 - c) by omega,
      show k3 + b - a = (k3 - a) + b by omega, show k1 + c - b = (k1 - b) + c by omega]
    push_cast
    rw [neg_pow (u2 * v1), neg_pow (u3 * v2), neg_pow (u1 * v3)]
    ring
  · intro l3 _ hne; unfold invTerm; rw [if_neg (by omega)]; simp
  · intro h; exact absurd (Finset.mem_range.2 (by omega)) h
  · intro l2 _ hne
    refine Finset.sum_eq_zero fun l3 _ => ?_
    unfold invTerm; rw [if_neg (by omega)]; simp
  · intro h; exact absurd (Finset.mem_range.2 (by omega)) h
  · intro l1 _ hne
    refine Finset.sum_eq_zero fun l2 _ => Finset.sum_eq_zero fun l3 _ => ?_
    unfold invTerm; rw [if_neg (by omega)]; simp
  · intro h; exact absurd (Finset.mem_range.2 (by omega)) h

theorem sum_swap33 (A B C D E F : Finset ℕ) (f : ℕ → ℕ → ℕ → ℕ → ℕ → ℕ → ℂ) :
    ∑ x ∈ A, ∑ y ∈ B, ∑ z ∈ C, ∑ a ∈ D, ∑ b ∈ E, ∑ c ∈ F, f x y z a b c =
      ∑ a ∈ D, ∑ b ∈ E, ∑ c ∈ F, ∑ x ∈ A, ∑ y ∈ B, ∑ z ∈ C, f x y z a b c := by
  have h1 : ∀ (g : ℕ → ℕ → ℕ → ℂ) (P Q R : Finset ℕ), ∑ x ∈ P, ∑ y ∈ Q, ∑ z ∈ R, g x y z =
      ∑ p ∈ P ×ˢ (Q ×ˢ R), g p.1 p.2.1 p.2.2 := by
    intro g P Q R
    rw [Finset.sum_product]
    exact Finset.sum_congr rfl fun x _ => by rw [Finset.sum_product]
  rw [h1, h1]
  simp only [h1]
  exact Finset.sum_comm

/-- The value of the symbol for the indices `l` of the basis. -/
noncomputable def w3n (n1 n2 n3 l1 l2 l3 : ℕ) : ℂ :=
  ((w3j (n1 : ℤ) (n2 : ℤ) (n3 : ℤ) ((n1 : ℤ) - 2 * l1) ((n2 : ℤ) - 2 * l2) ((n3 : ℤ) - 2 * l3) : ℝ) : ℂ)

/-- The weight of the normalised basis. -/
noncomputable def rtC (n l : ℕ) : ℂ := ((Real.sqrt (n.choose l) : ℝ) : ℂ)

theorem w3j_generating (k1 k2 k3 : ℕ) (u1 v1 u2 v2 u3 v3 : ℂ) :
    ∑ l1 ∈ Finset.range (k2 + k3 + 1), ∑ l2 ∈ Finset.range (k1 + k3 + 1), ∑ l3 ∈ Finset.range (k1 + k2 + 1),
      w3n (k2 + k3) (k1 + k3) (k1 + k2) l1 l2 l3 * (rtC (k2 + k3) l1 * rtC (k1 + k3) l2 * rtC (k1 + k2) l3) *
        (monoN (k2 + k3) l1 u1 v1 * monoN (k1 + k3) l2 u2 v2 * monoN (k1 + k2) l3 u3 v3) =
    ((invNorm k1 k2 k3 : ℝ) : ℂ) * ((u1 * v2 - u2 * v1) ^ k3 * (u2 * v3 - u3 * v2) ^ k1 * (u3 * v1 - u1 * v3) ^ k2) := by
  have h : ∀ l1 ∈ Finset.range (k2 + k3 + 1), ∀ l2 ∈ Finset.range (k1 + k3 + 1), ∀ l3 ∈ Finset.range (k1 + k2 + 1),
      w3n (k2 + k3) (k1 + k3) (k1 + k2) l1 l2 l3 * (rtC (k2 + k3) l1 * rtC (k1 + k3) l2 * rtC (k1 + k2) l3) *
        (monoN (k2 + k3) l1 u1 v1 * monoN (k1 + k3) l2 u2 v2 * monoN (k1 + k2) l3 u3 v3) =
      ∑ a ∈ Finset.range (k3 + 1), ∑ b ∈ Finset.range (k1 + 1), ∑ c ∈ Finset.range (k2 + 1),
        ((invNorm k1 k2 k3 : ℝ) : ℂ) * (((invTerm k1 k2 k3 l1 l2 l3 a b c : ℝ) : ℂ) *
          (monoN (k2 + k3) l1 u1 v1 * monoN (k1 + k3) l2 u2 v2 * monoN (k1 + k2) l3 u3 v3)) := by
    intro l1 h1 l2 h2 l3 h3
    have e := w3j_coeff k1 k2 k3 l1 l2 l3 (by have := Finset.mem_range.1 h1; omega) (by have := Finset.mem_range.1 h2; omega)
      (by have := Finset.mem_range.1 h3; omega)
    have e' := congrArg (fun x : ℝ => (x : ℂ)) e
    simp only [Complex.ofReal_mul] at e'
    unfold w3n rtC
    rw [e']
    push_cast
    rw [mul_assoc, Finset.sum_mul, Finset.mul_sum]
    refine Finset.sum_congr rfl fun a _ => ?_
    rw [Finset.sum_mul, Finset.mul_sum]
    refine Finset.sum_congr rfl fun b _ => ?_
    rw [Finset.sum_mul, Finset.mul_sum]
  rw [Finset.sum_congr rfl fun l1 h1 => Finset.sum_congr rfl fun l2 h2 => Finset.sum_congr rfl fun l3 h3 => h l1 h1 l2 h2 l3 h3]
  rw [sum_swap33]
  have e1 : (u1 * v2 - u2 * v1) ^ k3 = ∑ a ∈ Finset.range (k3 + 1), (-(u2 * v1)) ^ a * (u1 * v2) ^ (k3 - a) * (k3.choose a) := by
    rw [← add_pow]; ring
  have e2 : (u2 * v3 - u3 * v2) ^ k1 = ∑ b ∈ Finset.range (k1 + 1), (-(u3 * v2)) ^ b * (u2 * v3) ^ (k1 - b) * (k1.choose b) := by
    rw [← add_pow]; ring
  have e3 : (u3 * v1 - u1 * v3) ^ k2 = ∑ c ∈ Finset.range (k2 + 1), (-(u1 * v3)) ^ c * (u3 * v1) ^ (k2 - c) * (k2.choose c) := by
    rw [← add_pow]; ring
  rw [e1, e2, e3, Finset.sum_mul_sum, Finset.sum_mul, Finset.mul_sum]
  refine Finset.sum_congr rfl fun a ha => ?_
  rw [Finset.sum_mul_sum, Finset.mul_sum]
  refine Finset.sum_congr rfl fun b hb => ?_
  rw [Finset.mul_sum]
  refine Finset.sum_congr rfl fun c hc => ?_
  rw [← invTerm_sum k1 k2 k3 a b c (by have := Finset.mem_range.1 ha; omega) (by have := Finset.mem_range.1 hb; omega)
    (by have := Finset.mem_range.1 hc; omega) u1 v1 u2 v2 u3 v3]
  rw [Finset.mul_sum]
  refine Finset.sum_congr rfl fun l1 _ => ?_
  rw [Finset.mul_sum]
  refine Finset.sum_congr rfl fun l2 _ => ?_
  rw [Finset.mul_sum]

/-! ## Invariance -/

theorem coeff_zero_of_fun (n : ℕ) (f : ℕ → ℂ) (h : ∀ x : ℂ, ∑ i ∈ Finset.range (n + 1), f i * x ^ i = 0) : ∀ i ∈ Finset.range (n + 1), f i = 0 := by
  have hp : (∑ i ∈ Finset.range (n + 1), C (f i) * X ^ i : ℂ[X]) = 0 := by
    apply Polynomial.funext
    intro r
    rw [eval_finsetSum]
    simpa using h r
  intro i hi
  have := congrArg (fun p => p.coeff i) hp
  simp only [finsetSum_coeff, coeff_zero, coeff_C_mul_X_pow] at this
  rw [Finset.sum_eq_single i] at this
  · simpa using this
  · intro b _ hb; rw [if_neg (Ne.symm hb)]
  · intro h; exact absurd hi h

theorem coeff3_zero_of_fun (n1 n2 n3 : ℕ) (f : ℕ → ℕ → ℕ → ℂ)
    (h : ∀ x y z : ℂ, ∑ i ∈ Finset.range (n1 + 1), ∑ j ∈ Finset.range (n2 + 1), ∑ k ∈ Finset.range (n3 + 1), f i j k * (x ^ i * y ^ j * z ^ k) = 0) :
    ∀ i ∈ Finset.range (n1 + 1), ∀ j ∈ Finset.range (n2 + 1), ∀ k ∈ Finset.range (n3 + 1), f i j k = 0 := by
  intro i hi j hj k hk
  have h1 : ∀ y z : ℂ, ∑ j ∈ Finset.range (n2 + 1), ∑ k ∈ Finset.range (n3 + 1), f i j k * (y ^ j * z ^ k) = 0 := by
    intro y z
    refine coeff_zero_of_fun n1 (fun i => ∑ j ∈ Finset.range (n2 + 1), ∑ k ∈ Finset.range (n3 + 1), f i j k * (y ^ j * z ^ k)) ?_ i hi
    intro x
    rw [← h x y z]
    refine Finset.sum_congr rfl fun i _ => ?_
    rw [Finset.sum_mul]
    refine Finset.sum_congr rfl fun j _ => ?_
    rw [Finset.sum_mul]
    exact Finset.sum_congr rfl fun k _ => by ring
  have h2 : ∀ z : ℂ, ∑ k ∈ Finset.range (n3 + 1), f i j k * z ^ k = 0 := by
    intro z
    refine coeff_zero_of_fun n2 (fun j => ∑ k ∈ Finset.range (n3 + 1), f i j k * z ^ k) ?_ j hj
    intro y
    rw [← h1 y z]
    refine Finset.sum_congr rfl fun j _ => ?_
    rw [Finset.sum_mul]
    exact Finset.sum_congr rfl fun k _ => by ring
  exact coeff_zero_of_fun n3 (fun k => f i j k) h2 k hk

theorem poly_natDegree (g : M2) (n l : ℕ) (hl : l ≤ n) : (g.poly n l).natDegree ≤ n := by
  unfold M2.poly
  refine natDegree_mul_le.trans ?_
  have h1 := natDegree_linear_pow_le g.a g.b (n - l)
  have h2 := natDegree_linear_pow_le g.c g.d l
  omega

/-- The image of a basis monomial, expanded in the normalised basis. -/
theorem sym_expand (g : M2) (n l : ℕ) (hl : l ≤ n) (x : ℂ) :
    rtC n l * monoN n l (g.a + g.b * x) (g.c + g.d * x) = ∑ i ∈ Finset.range (n + 1), g.sym n i l * (rtC n i * x ^ i) := by
  have e : monoN n l (g.a + g.b * x) (g.c + g.d * x) = (g.poly n l).eval x := by unfold monoN M2.poly; simp
  rw [e, eval_eq_sum_range' (n := n + 1) (by have := poly_natDegree g n l hl; omega), Finset.mul_sum]
  refine Finset.sum_congr rfl fun i hi => ?_
  have hi' : i ≤ n := by have := Finset.mem_range.1 hi; omega
  have h0 : rtC n i ≠ 0 := by unfold rtC; exact_mod_cast (sqrt_choose_pos hi').ne'
  unfold M2.sym
  have : (((Real.sqrt (n.choose l) / Real.sqrt (n.choose i) : ℝ)) : ℂ) = rtC n l / rtC n i := by unfold rtC; push_cast; rfl
  rw [this]
  field_simp

/-- The symbols as an invariant tensor, triangle condition met. -/
theorem w3n_invariant_aux (g : M2) (hg : g.a * g.d - g.b * g.c = 1) (k1 k2 k3 i1 i2 i3 : ℕ) (h1 : i1 ≤ k2 + k3) (h2 : i2 ≤ k1 + k3) (h3 : i3 ≤ k1 + k2) :
    ∑ l1 ∈ Finset.range (k2 + k3 + 1), ∑ l2 ∈ Finset.range (k1 + k3 + 1), ∑ l3 ∈ Finset.range (k1 + k2 + 1),
      g.sym (k2 + k3) i1 l1 * g.sym (k1 + k3) i2 l2 * g.sym (k1 + k2) i3 l3 * w3n (k2 + k3) (k1 + k3) (k1 + k2) l1 l2 l3 =
    w3n (k2 + k3) (k1 + k3) (k1 + k2) i1 i2 i3 := by
  have key : ∀ x y z : ℂ, ∑ i ∈ Finset.range (k2 + k3 + 1), ∑ j ∈ Finset.range (k1 + k3 + 1), ∑ k ∈ Finset.range (k1 + k2 + 1),
      ((∑ l1 ∈ Finset.range (k2 + k3 + 1), ∑ l2 ∈ Finset.range (k1 + k3 + 1), ∑ l3 ∈ Finset.range (k1 + k2 + 1),
        g.sym (k2 + k3) i l1 * g.sym (k1 + k3) j l2 * g.sym (k1 + k2) k l3 * w3n (k2 + k3) (k1 + k3) (k1 + k2) l1 l2 l3) -
        w3n (k2 + k3) (k1 + k3) (k1 + k2) i j k) * (rtC (k2 + k3) i * rtC (k1 + k3) j * rtC (k1 + k2) k) * (x ^ i * y ^ j * z ^ k) = 0 := by
    intro x y z
    have A := w3j_generating k1 k2 k3 (g.a + g.b * x) (g.c + g.d * x) (g.a + g.b * y) (g.c + g.d * y) (g.a + g.b * z) (g.c + g.d * z)
    have B := w3j_generating k1 k2 k3 1 x 1 y 1 z
    have b1 : (g.a + g.b * x) * (g.c + g.d * y) - (g.a + g.b * y) * (g.c + g.d * x) = 1 * y - 1 * x := by linear_combination (y - x) * hg
    have b2 : (g.a + g.b * y) * (g.c + g.d * z) - (g.a + g.b * z) * (g.c + g.d * y) = 1 * z - 1 * y := by linear_combination (z - y) * hg
    have b3 : (g.a + g.b * z) * (g.c + g.d * x) - (g.a + g.b * x) * (g.c + g.d * z) = 1 * x - 1 * z := by linear_combination (x - z) * hg
    rw [b1, b2, b3, ← B] at A
    have A' : ∑ l1 ∈ Finset.range (k2 + k3 + 1), ∑ l2 ∈ Finset.range (k1 + k3 + 1), ∑ l3 ∈ Finset.range (k1 + k2 + 1),
        w3n (k2 + k3) (k1 + k3) (k1 + k2) l1 l2 l3 * (rtC (k2 + k3) l1 * rtC (k1 + k3) l2 * rtC (k1 + k2) l3) *
        (monoN (k2 + k3) l1 (g.a + g.b * x) (g.c + g.d * x) * monoN (k1 + k3) l2 (g.a + g.b * y) (g.c + g.d * y) *
          monoN (k1 + k2) l3 (g.a + g.b * z) (g.c + g.d * z)) =
      ∑ i ∈ Finset.range (k2 + k3 + 1), ∑ j ∈ Finset.range (k1 + k3 + 1), ∑ k ∈ Finset.range (k1 + k2 + 1),
        ∑ l1 ∈ Finset.range (k2 + k3 + 1), ∑ l2 ∈ Finset.range (k1 + k3 + 1), ∑ l3 ∈ Finset.range (k1 + k2 + 1),
        g.sym (k2 + k3) i l1 * g.sym (k1 + k3) j l2 * g.sym (k1 + k2) k l3 * w3n (k2 + k3) (k1 + k3) (k1 + k2) l1 l2 l3 *
          (rtC (k2 + k3) i * rtC (k1 + k3) j * rtC (k1 + k2) k) * (x ^ i * y ^ j * z ^ k) := by
      rw [← sum_swap33]
      refine Finset.sum_congr rfl fun l1 h1 => Finset.sum_congr rfl fun l2 h2 => Finset.sum_congr rfl fun l3 h3 => ?_
      have s1 := sym_expand g (k2 + k3) l1 (by have := Finset.mem_range.1 h1; omega) x
      have s2 := sym_expand g (k1 + k3) l2 (by have := Finset.mem_range.1 h2; omega) y
      have s3 := sym_expand g (k1 + k2) l3 (by have := Finset.mem_range.1 h3; omega) z
      rw [show ∀ W r1 r2 r3 m1 m2 m3 : ℂ, W * (r1 * r2 * r3) * (m1 * m2 * m3) = (r1 * m1) * (r2 * m2) * (r3 * m3) * W by intros; ring,
        s1, s2, s3, Finset.sum_mul_sum, Finset.sum_mul, Finset.sum_mul]
      refine Finset.sum_congr rfl fun i _ => ?_
      rw [Finset.sum_mul_sum, Finset.sum_mul]
      refine Finset.sum_congr rfl fun j _ => ?_
      rw [Finset.sum_mul]
      exact Finset.sum_congr rfl fun k _ => by ring
    have B' : ∀ n l (x : ℂ), monoN n l 1 x = x ^ l := by intro n l x; unfold monoN; rw [one_pow, one_mul]
    rw [A'] at A
    simp only [B'] at A
    rw [← sub_eq_zero, ← Finset.sum_sub_distrib] at A
    rw [← A]
    refine Finset.sum_congr rfl fun i _ => ?_
    rw [← Finset.sum_sub_distrib]
    refine Finset.sum_congr rfl fun j _ => ?_
    rw [← Finset.sum_sub_distrib]
    refine Finset.sum_congr rfl fun k _ => ?_
    rw [sub_mul, sub_mul, Finset.sum_mul, Finset.sum_mul]
    congr 1
    refine Finset.sum_congr rfl fun l1 _ => ?_
    rw [Finset.sum_mul, Finset.sum_mul]
    refine Finset.sum_congr rfl fun l2 _ => ?_
    rw [Finset.sum_mul, Finset.sum_mul]
  have z := coeff3_zero_of_fun _ _ _ _ key i1 (Finset.mem_range.2 (by omega)) i2 (Finset.mem_range.2 (by omega)) i3 (Finset.mem_range.2 (by omega))
  have r1 : rtC (k2 + k3) i1 ≠ 0 := by unfold rtC; exact_mod_cast (sqrt_choose_pos h1).ne'
  have r2 : rtC (k1 + k3) i2 ≠ 0 := by unfold rtC; exact_mod_cast (sqrt_choose_pos h2).ne'
  have r3 : rtC (k1 + k2) i3 ≠ 0 := by unfold rtC; exact_mod_cast (sqrt_choose_pos h3).ne'
  have := (mul_eq_zero.1 z).resolve_right (mul_ne_zero (mul_ne_zero r1 r2) r3)
  exact sub_eq_zero.1 this

/-- The 3j symbols are invariant under the simultaneous transformation of the three spins by a matrix of determinant one. -/
theorem w3n_invariant (g : M2) (hg : g.a * g.d - g.b * g.c = 1) (n1 n2 n3 i1 i2 i3 : ℕ) (h1 : i1 ≤ n1) (h2 : i2 ≤ n2) (h3 : i3 ≤ n3) :
    ∑ l1 ∈ Finset.range (n1 + 1), ∑ l2 ∈ Finset.range (n2 + 1), ∑ l3 ∈ Finset.range (n3 + 1),
      g.sym n1 i1 l1 * g.sym n2 i2 l2 * g.sym n3 i3 l3 * w3n n1 n2 n3 l1 l2 l3 = w3n n1 n2 n3 i1 i2 i3 := by
  by_cases h : (n1 + n2 + n3) % 2 = 0 ∧ n3 ≤ n1 + n2 ∧ n1 ≤ n2 + n3 ∧ n2 ≤ n1 + n3
  · obtain ⟨k1, k2, k3, rfl, rfl, rfl⟩ : ∃ k1 k2 k3 : ℕ, n1 = k2 + k3 ∧ n2 = k1 + k3 ∧ n3 = k1 + k2 :=
      ⟨(n2 + n3 - n1) / 2, (n1 + n3 - n2) / 2, (n1 + n2 - n3) / 2, by omega, by omega, by omega⟩
    exact w3n_invariant_aux g hg k1 k2 k3 i1 i2 i3 h1 h2 h3
  · have z : ∀ l1 l2 l3 : ℕ, w3n n1 n2 n3 l1 l2 l3 = 0 := by
      intro l1 l2 l3
      unfold w3n
      rw [w3j_invalid]
      · simp
      · intro hv
        unfold Valid3 at hv
        obtain ⟨_, v1, _, _, _, v2, v3, v4, _⟩ := hv
        exact h ⟨by omega, by omega, by omega, by omega⟩
    simp [z]

end PI
