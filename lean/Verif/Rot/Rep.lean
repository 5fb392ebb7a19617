import Mathlib.Algebra.Polynomial.Basic
import Mathlib.Algebra.Polynomial.Coeff
import Mathlib.Algebra.Polynomial.Eval.Defs
import Mathlib.Algebra.Polynomial.Eval.Coeff
import Mathlib.Algebra.Polynomial.Degree.Lemmas
import Mathlib.Algebra.Polynomial.BigOperators
import Mathlib.Algebra.BigOperators.Ring.Finset
import Mathlib.Data.Nat.Choose.Sum
import Mathlib.Data.Complex.Basic
import Mathlib.Analysis.Complex.Basic
import Mathlib.Analysis.SpecialFunctions.Sqrt
import Mathlib.Tactic.Ring
import Mathlib.Tactic.FieldSimp
import Mathlib.Tactic.LinearCombination

/-!
# Symmetric powers of 2x2 matrices

Specification side of C61: the action of a 2x2 matrix on homogeneous polynomials of degree `n` (spin `n/2`), in the normalised
basis.
-/

namespace PI

open Polynomial

/-- A 2x2 matrix, by rows. -/
structure M2 where
  a : ℂ
  b : ℂ
  c : ℂ
  d : ℂ

/-- The product of 2x2 matrices. -/
def M2.mul (g h : M2) : M2 :=
  ⟨g.a * h.a + g.b * h.c, g.a * h.b + g.b * h.d, g.c * h.a + g.d * h.c, g.c * h.b + g.d * h.d⟩

/-- The image of the basis polynomial `x^l y^(n-l)`. -/
noncomputable def M2.poly (g : M2) (n l : ℕ) : ℂ[X] := (C g.a + C g.b * X) ^ (n - l) * (C g.c + C g.d * X) ^ l

/-- The matrix element of the symmetric power in the normalised basis. -/
noncomputable def M2.sym (g : M2) (n i l : ℕ) : ℂ :=
  (Real.sqrt (n.choose l) / Real.sqrt (n.choose i) : ℝ) * (g.poly n l).coeff i

/-- Homogeneous evaluation of a polynomial of formal degree `n`. -/
noncomputable def homEval (n : ℕ) (u v p : ℂ[X]) : ℂ[X] := ∑ k ∈ Finset.range (n + 1), C (p.coeff k) * u ^ (n - k) * v ^ k

theorem homEval_mul_linear (n : ℕ) (u v p : ℂ[X]) (α β : ℂ) (hp : p.natDegree ≤ n) :
    homEval (n + 1) u v (p * (C α + C β * X)) = homEval n u v p * (C α * u + C β * v) := by
  obtain ⟨q, hq0, hq1⟩ : ∃ q : ℕ → ℂ, q 0 = 0 ∧ ∀ k, q (k + 1) = p.coeff k :=
    ⟨fun k => match k with | 0 => 0 | k + 1 => p.coeff k, rfl, fun _ => rfl⟩
  have hc : ∀ k, C ((p * (C α + C β * X)).coeff k) = C (p.coeff k) * C α + C (q k) * C β := by
    intro k
    rw [mul_add, coeff_add, coeff_mul_C, mul_comm (C β) X, ← mul_assoc, coeff_mul_C, C_add, C_mul, C_mul]
    cases k with
    | zero => simp [hq0]
    | succ k => simp [hq1]
  have e : homEval (n + 1) u v (p * (C α + C β * X)) =
      ∑ k ∈ Finset.range (n + 2), C (p.coeff k) * C α * u ^ (n + 1 - k) * v ^ k +
      ∑ k ∈ Finset.range (n + 2), C (q k) * C β * u ^ (n + 1 - k) * v ^ k := by
    unfold homEval
    rw [← Finset.sum_add_distrib]
    exact Finset.sum_congr rfl fun k _ => by rw [hc k]; ring
  have e1 : ∑ k ∈ Finset.range (n + 2), C (p.coeff k) * C α * u ^ (n + 1 - k) * v ^ k = homEval n u v p * (C α * u) := by
    rw [Finset.sum_range_succ, coeff_eq_zero_of_natDegree_lt (by omega : p.natDegree < n + 1), C_0]
    unfold homEval
    rw [Finset.sum_mul, zero_mul, zero_mul, zero_mul, add_zero]
    refine Finset.sum_congr rfl fun k hk => ?_
    have : n + 1 - k = (n - k) + 1 := by have := Finset.mem_range.1 hk; omega
    rw [this, pow_succ]; ring
  have e2 : ∑ k ∈ Finset.range (n + 2), C (q k) * C β * u ^ (n + 1 - k) * v ^ k = homEval n u v p * (C β * v) := by
    rw [Finset.sum_range_succ', hq0, C_0]
    unfold homEval
    rw [Finset.sum_mul, zero_mul, zero_mul, zero_mul, add_zero]
    refine Finset.sum_congr rfl fun k hk => ?_
    have : n + 1 - (k + 1) = n - k := by omega
    rw [this, hq1, pow_succ]; ring
  rw [e, e1, e2]; ring

theorem natDegree_linear_le (α β : ℂ) : (C α + C β * X : ℂ[X]).natDegree ≤ 1 := by
  refine (natDegree_add_le _ _).trans (max_le (by simp) ?_)
  exact (natDegree_C_mul_le _ _).trans natDegree_X_le

theorem natDegree_linear_pow_le (α β : ℂ) (p : ℕ) : ((C α + C β * X : ℂ[X]) ^ p).natDegree ≤ p := by
  refine natDegree_pow_le.trans ?_
  have := natDegree_linear_le α β
  nlinarith

theorem homEval_pow_mul (u v P : ℂ[X]) (n p : ℕ) (α β : ℂ) (hP : P.natDegree ≤ n) :
    homEval (n + p) u v (P * (C α + C β * X) ^ p) = homEval n u v P * (C α * u + C β * v) ^ p := by
  induction p with
  | zero => simp
  | succ p ih =>
    rw [pow_succ, ← mul_assoc, ← Nat.add_assoc, homEval_mul_linear, ih, pow_succ]
    · ring
    · refine natDegree_mul_le.trans ?_
      have := natDegree_linear_pow_le α β p
      omega

theorem homEval_poly (h : M2) (n l : ℕ) (hl : l ≤ n) (u v : ℂ[X]) :
    homEval n u v (h.poly n l) = (C h.a * u + C h.b * v) ^ (n - l) * (C h.c * u + C h.d * v) ^ l := by
  unfold M2.poly
  have e1 : homEval (n - l) u v ((C h.a + C h.b * X) ^ (n - l)) = (C h.a * u + C h.b * v) ^ (n - l) := by
    have := homEval_pow_mul u v 1 0 (n - l) h.a h.b (by simp)
    simpa [homEval] using this
  have := homEval_pow_mul u v ((C h.a + C h.b * X) ^ (n - l)) (n - l) l h.c h.d (natDegree_linear_pow_le _ _ _)
  rw [Nat.sub_add_cancel hl, e1] at this
  exact this

theorem sqrt_choose_pos {n i : ℕ} (h : i ≤ n) : 0 < Real.sqrt (n.choose i) :=
  Real.sqrt_pos.2 (by exact_mod_cast Nat.choose_pos h)

/-- The symmetric power is multiplicative. -/
theorem sym_mul (g h : M2) (n i k : ℕ) (hk : k ≤ n) :
    ∑ l ∈ Finset.range (n + 1), g.sym n i l * h.sym n l k = (h.mul g).sym n i k := by
  have h1 : ((h.mul g).poly n k) = homEval n (C g.a + C g.b * X) (C g.c + C g.d * X) (h.poly n k) := by
    rw [homEval_poly h n k hk]
    unfold M2.poly M2.mul
    simp only [C_add, C_mul]
    congr 2 <;> ring
  unfold M2.sym
  rw [h1]
  unfold homEval
  rw [finsetSum_coeff, Finset.mul_sum]
  refine Finset.sum_congr rfl fun l hl => ?_
  have hl' : l ≤ n := by have := Finset.mem_range.1 hl; omega
  have e : (C ((h.poly n k).coeff l) * (C g.a + C g.b * X) ^ (n - l) * (C g.c + C g.d * X) ^ l).coeff i =
      (h.poly n k).coeff l * (g.poly n l).coeff i := by
    rw [mul_assoc, coeff_C_mul]; rfl
  rw [e]
  have hs : (Real.sqrt (n.choose l) / Real.sqrt (n.choose i) : ℝ) * (Real.sqrt (n.choose k) / Real.sqrt (n.choose l) : ℝ) =
      Real.sqrt (n.choose k) / Real.sqrt (n.choose i) := by
    have := (sqrt_choose_pos hl').ne'
    field_simp
  rw [← hs]
  push_cast
  ring

/-- The symmetric power of a diagonal matrix. -/
theorem sym_diag (e f : ℂ) (n i l : ℕ) (hl : l ≤ n) :
    (⟨e, 0, 0, f⟩ : M2).sym n i l = if i = l then e ^ (n - l) * f ^ l else 0 := by
  unfold M2.sym M2.poly
  simp only [C_0, zero_mul, add_zero, zero_add, mul_pow, ← C_pow]
  rw [coeff_C_mul, coeff_C_mul, coeff_X_pow]
  by_cases h : i = l
  · subst h
    rw [if_pos rfl, if_pos rfl, div_self (sqrt_choose_pos hl).ne']
    push_cast; ring
  · rw [if_neg h, if_neg h]; ring

/-- The symmetric power of the exchange of the two basis vectors. -/
theorem sym_swap (n i l : ℕ) (hl : l ≤ n) : (⟨0, 1, 1, 0⟩ : M2).sym n i l = if i = n - l then 1 else 0 := by
  unfold M2.sym M2.poly
  simp only [C_0, C_1, one_mul, zero_mul, add_zero, zero_add, one_pow, mul_one]
  rw [coeff_X_pow]
  by_cases h : i = n - l
  · subst h
    rw [if_pos rfl, Nat.choose_symm hl, div_self (sqrt_choose_pos hl).ne']
    push_cast; ring
  · rw [if_neg h]; ring

/-- The symmetric power of a multiple. -/
theorem sym_smul (z : ℂ) (g : M2) (n i l : ℕ) (hl : l ≤ n) :
    (⟨z * g.a, z * g.b, z * g.c, z * g.d⟩ : M2).sym n i l = z ^ n * g.sym n i l := by
  unfold M2.sym
  have : (⟨z * g.a, z * g.b, z * g.c, z * g.d⟩ : M2).poly n l = C (z ^ n) * g.poly n l := by
    unfold M2.poly
    have e1 : (C (z * g.a) + C (z * g.b) * X : ℂ[X]) = C z * (C g.a + C g.b * X) := by simp only [C_mul]; ring
    have e2 : (C (z * g.c) + C (z * g.d) * X : ℂ[X]) = C z * (C g.c + C g.d * X) := by simp only [C_mul]; ring
    dsimp only
    rw [e1, e2, mul_pow, mul_pow]
    have : (C (z ^ n) : ℂ[X]) = C z ^ (n - l) * C z ^ l := by rw [← pow_add, Nat.sub_add_cancel hl, C_pow]
    rw [this]; ring
  rw [this, coeff_C_mul]; ring

/-- The symmetric power of the transposed matrix is the transposed symmetric power. -/
theorem sym_transpose (g : M2) (n i l : ℕ) (hi : i ≤ n) (hl : l ≤ n) :
    (⟨g.a, g.c, g.b, g.d⟩ : M2).sym n l i = g.sym n i l := by
  have key : ((n.choose l : ℕ) : ℂ) * (g.poly n l).coeff i =
      ((n.choose i : ℕ) : ℂ) * ((⟨g.a, g.c, g.b, g.d⟩ : M2).poly n i).coeff l := by
    -- the coefficient of x^i y^l in (a + b x + y (c + d x))^n
    have A : ((((C (C g.a) + C (C g.b) * X) + C X * (C (C g.c) + C (C g.d) * X) : ℂ[X][X]) ^ n).coeff i).coeff l =
        ((n.choose l : ℕ) : ℂ) * (g.poly n l).coeff i := by
      rw [add_comm, add_pow, finsetSum_coeff, finsetSum_coeff, Finset.sum_eq_single l]
      · have : ((C X * (C (C g.c) + C (C g.d) * X)) ^ l * (C (C g.a) + C (C g.b) * X) ^ (n - l) * ((n.choose l : ℕ) : ℂ[X][X]) :
            ℂ[X][X]) = C (X ^ l * ((n.choose l : ℕ) : ℂ[X])) * (g.poly n l).map C := by
          unfold M2.poly
          simp only [Polynomial.map_mul, Polynomial.map_pow, Polynomial.map_add, map_C, map_X, mul_pow, C_mul, C_pow]
          rw [show (C ((n.choose l : ℕ) : ℂ[X]) : ℂ[X][X]) = ((n.choose l : ℕ) : ℂ[X][X]) from map_natCast _ _]
          ring
        rw [this, coeff_C_mul, coeff_map, coeff_mul_C, mul_comm (X ^ l), coeff_mul_X_pow']
        simp
      · intro b hb hbl
        have : ((C X * (C (C g.c) + C (C g.d) * X)) ^ b * (C (C g.a) + C (C g.b) * X) ^ (n - b) * ((n.choose b : ℕ) : ℂ[X][X]) :
            ℂ[X][X]) = C (X ^ b * ((n.choose b : ℕ) : ℂ[X])) * (g.poly n b).map C := by
          unfold M2.poly
          simp only [Polynomial.map_mul, Polynomial.map_pow, Polynomial.map_add, map_C, map_X, mul_pow, C_mul, C_pow]
          rw [show (C ((n.choose b : ℕ) : ℂ[X]) : ℂ[X][X]) = ((n.choose b : ℕ) : ℂ[X][X]) from map_natCast _ _]
          ring
        rw [this, coeff_C_mul, coeff_map, coeff_mul_C, mul_comm (X ^ b), coeff_mul_X_pow']
        split_ifs with h
        · have : l - b ≠ 0 := by omega
          rw [← C_eq_natCast, coeff_C, if_neg this, zero_mul]
        · simp
      · intro h; exact absurd (Finset.mem_range.2 (by omega)) h
    have B : ((((C (C g.a) + C (C g.b) * X) + C X * (C (C g.c) + C (C g.d) * X) : ℂ[X][X]) ^ n).coeff i).coeff l =
        ((n.choose i : ℕ) : ℂ) * ((⟨g.a, g.c, g.b, g.d⟩ : M2).poly n i).coeff l := by
      have e : ((C (C g.a) + C (C g.b) * X) + C X * (C (C g.c) + C (C g.d) * X) : ℂ[X][X]) =
          C (C g.b + C g.d * X) * X + C (C g.a + C g.c * X) := by
        simp only [C_add, C_mul]; ring
      rw [e, add_pow, finsetSum_coeff, Finset.sum_eq_single i]
      · rw [mul_pow, ← C_pow, ← C_pow, ← C_eq_natCast]
        rw [show (C ((C g.b + C g.d * X) ^ i) * X ^ i * C ((C g.a + C g.c * X) ^ (n - i)) * C ((n.choose i : ℕ) : ℂ[X]) : ℂ[X][X]) =
          C (((n.choose i : ℕ) : ℂ[X]) * ((C g.a + C g.c * X) ^ (n - i) * (C g.b + C g.d * X) ^ i)) * X ^ i by
            simp only [C_mul]; ring]
        rw [coeff_C_mul, coeff_X_pow, if_pos rfl, mul_one, ← C_eq_natCast, coeff_C_mul]
        rfl
      · intro b hb hbi
        rw [mul_pow, ← C_pow, ← C_pow, ← C_eq_natCast]
        rw [show (C ((C g.b + C g.d * X) ^ b) * X ^ b * C ((C g.a + C g.c * X) ^ (n - b)) * C ((n.choose b : ℕ) : ℂ[X]) : ℂ[X][X]) =
          C (((n.choose b : ℕ) : ℂ[X]) * ((C g.a + C g.c * X) ^ (n - b) * (C g.b + C g.d * X) ^ b)) * X ^ b by
            simp only [C_mul]; ring]
        rw [coeff_C_mul, coeff_X_pow, if_neg (Ne.symm hbi), mul_zero]
      · intro h; exact absurd (Finset.mem_range.2 (by omega)) h
    rw [← A, B]
  unfold M2.sym
  have hl0 := sqrt_choose_pos hl
  have hi0 := sqrt_choose_pos hi
  have sl : (Real.sqrt (n.choose l) : ℂ) * (Real.sqrt (n.choose l) : ℂ) = ((n.choose l : ℕ) : ℂ) := by
    rw [← Complex.ofReal_mul, Real.mul_self_sqrt (by positivity)]; simp
  have si : (Real.sqrt (n.choose i) : ℂ) * (Real.sqrt (n.choose i) : ℂ) = ((n.choose i : ℕ) : ℂ) := by
    rw [← Complex.ofReal_mul, Real.mul_self_sqrt (by positivity)]; simp
  rw [← sl, ← si] at key
  push_cast
  have h1 : (Real.sqrt (n.choose l) : ℂ) ≠ 0 := by exact_mod_cast hl0.ne'
  have h2 : (Real.sqrt (n.choose i) : ℂ) ≠ 0 := by exact_mod_cast hi0.ne'
  field_simp
  linear_combination -key

end PI
