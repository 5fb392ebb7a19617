import Mathlib.Analysis.SpecialFunctions.Sqrt
import Mathlib.Algebra.BigOperators.Finprod
import Mathlib.Data.Nat.Factorial.Basic
import Mathlib.Tactic.Ring
import Mathlib.Tactic.Linarith
import Mathlib.Tactic.SplitIfs
import Mathlib.Tactic.NormNum

/-!
# Wigner 3j and 6j symbols

The library `WignerSymbols` that `MatrixElementCache.cpp` calls (lines 810, 856, 905, 934) is outside
`/repo`.  It is modelled by the textbook (Racah) formulas, together with the selection rules it
checks.  All angular momenta are doubled integers.
-/

namespace PI

/-- (−1)^z, which is what `std::pow(-1, z)` returns for an integer `z`. -/
def sgn (z : ℤ) : ℝ := if z % 2 = 0 then 1 else -1

theorem sgn_mul (a b : ℤ) : sgn a * sgn b = sgn (a + b) := by
  unfold sgn
  split_ifs <;> first | omega | norm_num

theorem sgn_congr {a b : ℤ} (h : (a - b) % 2 = 0) : sgn a = sgn b := by
  unfold sgn; split_ifs <;> first | omega | rfl

theorem sgn_self (a : ℤ) : sgn a * sgn a = 1 := by unfold sgn; split_ifs <;> norm_num

theorem sgn_ne_zero (a : ℤ) : sgn a ≠ 0 := by unfold sgn; split_ifs <;> norm_num

theorem sgn_zero : sgn 0 = 1 := by simp [sgn]

theorem sgn_even {a : ℤ} (h : a % 2 = 0) : sgn a = 1 := by simp [sgn, h]

theorem sgn_odd {a : ℤ} (h : a % 2 = 1) : sgn a = -1 := by simp [sgn, h]

/-- `z!` for `z ≥ 0` (used only there). -/
noncomputable def fct (z : ℤ) : ℝ := (z.toNat.factorial : ℝ)

/-- `1/z!`, zero for negative `z`: the convention of the Racah sums. -/
noncomputable def ifct (z : ℤ) : ℝ := if z < 0 then 0 else 1 / (z.toNat.factorial : ℝ)

/-- The sum of the Racah formula for the 3j symbol, over all integers `t` (only finitely many terms
are non-zero, see `sum3_eq`). -/
noncomputable def sum3 (x1 x2 y1 y2 y3 : ℤ) : ℝ :=
  ∑ᶠ t : ℤ, sgn t * (ifct t * ifct (x1 + t) * ifct (x2 + t) * ifct (y1 - t) * ifct (y2 - t) * ifct (y3 - t))

/-- The sum as a finite one: `0 ≤ t ≤ y1`. -/
theorem sum3_eq (x1 x2 y1 y2 y3 : ℤ) : sum3 x1 x2 y1 y2 y3 =
    ∑ t ∈ Finset.Icc 0 y1,
      sgn t * (ifct t * ifct (x1 + t) * ifct (x2 + t) * ifct (y1 - t) * ifct (y2 - t) * ifct (y3 - t)) := by
  unfold sum3
  apply finsum_eq_sum_of_support_subset
  intro t ht
  simp only [Function.mem_support] at ht
  simp only [Finset.coe_Icc, Set.mem_Icc]
  constructor
  · by_contra h
    apply ht; have : t < 0 := by omega
    simp [ifct, this]
  · by_contra h
    apply ht; have : y1 - t < 0 := by omega
    have h2 : y1 < t := by omega
    simp [ifct, h2]

theorem sgn_smul_finsum (c : ℤ) (f : ℤ → ℝ) : sgn c * ∑ᶠ t, f t = ∑ᶠ t, sgn c * f t := by
  have := smul_finsum (sgn c) f
  simpa [smul_eq_mul] using this

theorem sum3_shift (x1 x2 y1 y2 y3 : ℤ) :
    sum3 (x1 - x2) (-x2) (y3 + x2) (y2 + x2) (y1 + x2) = sgn x2 * sum3 x1 x2 y1 y2 y3 := by
  unfold sum3
  rw [sgn_smul_finsum, ← finsum_comp_equiv (Equiv.addRight x2)]
  apply finsum_congr
  intro t
  simp only [Equiv.coe_addRight]
  rw [← mul_assoc (sgn x2), sgn_mul, add_comm x2 t]
  have e1 : x1 - x2 + (t + x2) = x1 + t := by ring
  have e2 : -x2 + (t + x2) = t := by ring
  have e3 : y3 + x2 - (t + x2) = y3 - t := by ring
  have e4 : y2 + x2 - (t + x2) = y2 - t := by ring
  have e5 : y1 + x2 - (t + x2) = y1 - t := by ring
  rw [e1, e2, e3, e4, e5, add_comm t x2]
  ring

theorem sum3_reflect (x1 x2 y1 y2 y3 : ℤ) :
    sum3 (y2 - y1) (y3 - y1) y1 (x1 + y1) (x2 + y1) = sgn y1 * sum3 x1 x2 y1 y2 y3 := by
  unfold sum3
  rw [sgn_smul_finsum, ← finsum_comp_equiv (Equiv.subLeft y1)]
  apply finsum_congr
  intro t
  simp only [Equiv.subLeft_apply]
  rw [← mul_assoc (sgn y1), sgn_mul]
  have e1 : y2 - y1 + (y1 - t) = y2 - t := by ring
  have e2 : y3 - y1 + (y1 - t) = y3 - t := by ring
  have e3 : y1 - (y1 - t) = t := by ring
  have e4 : x1 + y1 - (y1 - t) = x1 + t := by ring
  have e5 : x2 + y1 - (y1 - t) = x2 + t := by ring
  rw [e1, e2, e3, e4, e5, sgn_congr (show (y1 - t - (y1 + t)) % 2 = 0 by omega)]
  ring

/-- The conditions under which a 3j symbol can be non-zero (the `select` test of the library, plus
the requirement that each projection differs from its momentum by an integer). -/
def Valid3 (a b c α β γ : ℤ) : Prop :=
  α + β + γ = 0 ∧ (a + b + c) % 2 = 0 ∧ (a + α) % 2 = 0 ∧ (b + β) % 2 = 0 ∧ (c + γ) % 2 = 0 ∧
  c ≤ a + b ∧ a ≤ b + c ∧ b ≤ a + c ∧ |α| ≤ a ∧ |β| ≤ b ∧ |γ| ≤ c

instance (a b c α β γ : ℤ) : Decidable (Valid3 a b c α β γ) := by unfold Valid3; infer_instance

/-- The radicand of the Racah formula: Δ(abc)² times the factorials of j±m. -/
noncomputable def rad3 (a b c α β γ : ℤ) : ℝ :=
  fct ((a + b - c) / 2) * fct ((a - b + c) / 2) * fct ((-a + b + c) / 2) / fct ((a + b + c) / 2 + 1) *
  (fct ((a + α) / 2) * fct ((a - α) / 2) * fct ((b + β) / 2) * fct ((b - β) / 2) *
    fct ((c + γ) / 2) * fct ((c - γ) / 2))

/-- The Wigner 3j symbol (a b c; α β γ), doubled arguments. -/
noncomputable def w3j (a b c α β γ : ℤ) : ℝ :=
  if Valid3 a b c α β γ then
    sgn ((a - b - γ) / 2) * Real.sqrt (rad3 a b c α β γ) *
      sum3 ((c - b + α) / 2) ((c - a - β) / 2) ((a + b - c) / 2) ((a - α) / 2) ((b + β) / 2)
  else 0

/-- Exchanging the outer columns and all signs of the projections leaves the 3j symbol unchanged. -/
theorem w3j_swap_neg (a b c α β γ : ℤ) : w3j a b c α β γ = w3j c b a (-γ) (-β) (-α) := by
  unfold w3j
  by_cases h : Valid3 a b c α β γ
  · have h' : Valid3 c b a (-γ) (-β) (-α) := by
      unfold Valid3 at *
      obtain ⟨h1, h2, h3, h4, h5, h6, h7, h8, h9, h10, h11⟩ := h
      refine ⟨by omega, by omega, by omega, by omega, by omega, by omega, by omega, by omega, ?_, ?_, ?_⟩ <;>
        rw [abs_neg] <;> assumption
    rw [if_pos h, if_pos h']
    obtain ⟨h1, h2, h3, h4, h5, -⟩ := h
    have hr : rad3 c b a (-γ) (-β) (-α) = rad3 a b c α β γ := by
      unfold rad3
      rw [show c + b - a = -a + b + c by ring, show c - b + a = a - b + c by ring,
        show -c + b + a = a + b - c by ring, show c + b + a = a + b + c by ring,
        show c + -γ = c - γ by ring, show c - -γ = c + γ by ring, show b + -β = b - β by ring,
        show b - -β = b + β by ring, show a + -α = a - α by ring, show a - -α = a + α by ring]
      ring
    rw [hr]
    have hs := sum3_shift ((c - b + α) / 2) ((c - a - β) / 2) ((a + b - c) / 2) ((a - α) / 2) ((b + β) / 2)
    rw [show (a - b + -γ) / 2 = (c - b + α) / 2 - (c - a - β) / 2 by omega,
      show (a - c - -β) / 2 = -((c - a - β) / 2) by omega,
      show (c + b - a) / 2 = (b + β) / 2 + (c - a - β) / 2 by omega,
      show (c - -γ) / 2 = (a - α) / 2 + (c - a - β) / 2 by omega,
      show (b + -β) / 2 = (a + b - c) / 2 + (c - a - β) / 2 by omega, hs]
    rw [← mul_assoc, mul_right_comm (sgn ((c - b - -α) / 2)), sgn_mul]
    rw [sgn_congr (show ((a - b - γ) / 2 - ((c - b - -α) / 2 + (c - a - β) / 2)) % 2 = 0 by omega)]
  · have h' : ¬ Valid3 c b a (-γ) (-β) (-α) := by
      intro h'
      apply h
      unfold Valid3 at *
      obtain ⟨h1, h2, h3, h4, h5, h6, h7, h8, h9, h10, h11⟩ := h'
      rw [abs_neg] at h9 h10 h11
      exact ⟨by omega, by omega, by omega, by omega, by omega, by omega, by omega, by omega, h11, h10, h9⟩
    rw [if_neg h, if_neg h']

/-- Reversing the signs of all projections multiplies the 3j symbol by (−1)^{a+b+c}. -/
theorem w3j_neg (a b c α β γ : ℤ) :
    w3j a b c (-α) (-β) (-γ) = sgn ((a + b + c) / 2) * w3j a b c α β γ := by
  unfold w3j
  by_cases h : Valid3 a b c α β γ
  · have h' : Valid3 a b c (-α) (-β) (-γ) := by
      unfold Valid3 at *
      obtain ⟨h1, h2, h3, h4, h5, h6, h7, h8, h9, h10, h11⟩ := h
      refine ⟨by omega, by omega, by omega, by omega, by omega, by omega, by omega, by omega, ?_, ?_, ?_⟩ <;>
        rw [abs_neg] <;> assumption
    rw [if_pos h, if_pos h']
    obtain ⟨h1, h2, h3, h4, h5, -⟩ := h
    have hr : rad3 a b c (-α) (-β) (-γ) = rad3 a b c α β γ := by
      unfold rad3
      rw [show c + -γ = c - γ by ring, show c - -γ = c + γ by ring, show b + -β = b - β by ring,
        show b - -β = b + β by ring, show a + -α = a - α by ring, show a - -α = a + α by ring]
      ring
    rw [hr]
    have hs := sum3_reflect ((c - b + α) / 2) ((c - a - β) / 2) ((a + b - c) / 2) ((a - α) / 2) ((b + β) / 2)
    rw [show (c - b + -α) / 2 = (a - α) / 2 - (a + b - c) / 2 by omega,
      show (c - a - -β) / 2 = (b + β) / 2 - (a + b - c) / 2 by omega,
      show (a - -α) / 2 = (c - b + α) / 2 + (a + b - c) / 2 by omega,
      show (b + -β) / 2 = (c - a - β) / 2 + (a + b - c) / 2 by omega, hs]
    have e1 : sgn ((a - b - -γ) / 2) * √(rad3 a b c α β γ) * (sgn ((a + b - c) / 2) *
        sum3 ((c - b + α) / 2) ((c - a - β) / 2) ((a + b - c) / 2) ((a - α) / 2) ((b + β) / 2))
        = (sgn ((a - b - -γ) / 2) * sgn ((a + b - c) / 2)) * (√(rad3 a b c α β γ) *
        sum3 ((c - b + α) / 2) ((c - a - β) / 2) ((a + b - c) / 2) ((a - α) / 2) ((b + β) / 2)) := by ring
    have e2 : sgn ((a + b + c) / 2) * (sgn ((a - b - γ) / 2) * √(rad3 a b c α β γ) *
        sum3 ((c - b + α) / 2) ((c - a - β) / 2) ((a + b - c) / 2) ((a - α) / 2) ((b + β) / 2))
        = (sgn ((a + b + c) / 2) * sgn ((a - b - γ) / 2)) * (√(rad3 a b c α β γ) *
        sum3 ((c - b + α) / 2) ((c - a - β) / 2) ((a + b - c) / 2) ((a - α) / 2) ((b + β) / 2)) := by ring
    rw [e1, e2, sgn_mul, sgn_mul]
    congr 1
    apply sgn_congr
    omega
  · have h' : ¬ Valid3 a b c (-α) (-β) (-γ) := by
      intro h'
      apply h
      unfold Valid3 at *
      obtain ⟨h1, h2, h3, h4, h5, h6, h7, h8, h9, h10, h11⟩ := h'
      rw [abs_neg] at h9 h10 h11
      exact ⟨by omega, by omega, by omega, by omega, by omega, by omega, by omega, by omega, h9, h10, h11⟩
    rw [if_neg h, if_neg h', mul_zero]

/-- Exchanging the outer columns multiplies the 3j symbol by (−1)^{a+b+c}. -/
theorem w3j_swap (a b c α β γ : ℤ) :
    w3j a b c α β γ = sgn ((a + b + c) / 2) * w3j c b a γ β α := by
  rw [w3j_swap_neg, w3j_neg]
  congr 2; ring

theorem w3j_invalid {a b c α β γ : ℤ} (h : ¬ Valid3 a b c α β γ) : w3j a b c α β γ = 0 := by
  unfold w3j; rw [if_neg h]

/-- (a b c; 0 0 0) vanishes when a+b+c is odd. -/
theorem w3j_zero_of_odd (a b c : ℤ) (h : ((a + b + c) / 2) % 2 = 1) : w3j a b c 0 0 0 = 0 := by
  have := w3j_neg a b c 0 0 0
  simp only [neg_zero, sgn_odd h] at this
  linarith

/-- (a b a; α β α) vanishes when 2a+b is odd. -/
theorem w3j_zero_of_sym (a b α β : ℤ) (h : ((a + b + a) / 2) % 2 = 1) : w3j a b a α β α = 0 := by
  have := w3j_swap a b a α β α
  rw [sgn_odd h] at this
  linarith

/-! ## 6j -/

/-- Triangle condition with integer perimeter (doubled arguments). -/
def Tri (a b c : ℤ) : Prop := (a + b + c) % 2 = 0 ∧ c ≤ a + b ∧ a ≤ b + c ∧ b ≤ a + c

instance (a b c : ℤ) : Decidable (Tri a b c) := by unfold Tri; infer_instance

/-- Δ(abc)². -/
noncomputable def delta2 (a b c : ℤ) : ℝ :=
  fct ((a + b - c) / 2) * fct ((a - b + c) / 2) * fct ((-a + b + c) / 2) / fct ((a + b + c) / 2 + 1)

/-- The sum of the Racah formula for the 6j symbol; four lower limits `α`, three upper limits `β`. -/
noncomputable def sum6 (α1 α2 α3 α4 β1 β2 β3 : ℤ) : ℝ :=
  ∑ᶠ t : ℤ, sgn t * fct (t + 1) * (ifct (t - α1) * ifct (t - α2) * ifct (t - α3) * ifct (t - α4) *
    (ifct (β1 - t) * ifct (β2 - t) * ifct (β3 - t)))

/-- The sum as a finite one: `α1 ≤ t ≤ β1`. -/
theorem sum6_eq (α1 α2 α3 α4 β1 β2 β3 : ℤ) : sum6 α1 α2 α3 α4 β1 β2 β3 =
    ∑ t ∈ Finset.Icc α1 β1, sgn t * fct (t + 1) *
      (ifct (t - α1) * ifct (t - α2) * ifct (t - α3) * ifct (t - α4) *
      (ifct (β1 - t) * ifct (β2 - t) * ifct (β3 - t))) := by
  unfold sum6
  apply finsum_eq_sum_of_support_subset
  intro t ht
  simp only [Function.mem_support] at ht
  simp only [Finset.coe_Icc, Set.mem_Icc]
  constructor
  · by_contra h
    apply ht; have h2 : t < α1 := by omega
    simp [ifct, h2]
  · by_contra h
    apply ht; have h2 : β1 < t := by omega
    simp [ifct, h2]

/-- The Wigner 6j symbol {a b c; d e f}, doubled arguments. -/
noncomputable def w6j (a b c d e f : ℤ) : ℝ :=
  if Tri a b c ∧ Tri a e f ∧ Tri d b f ∧ Tri d e c then
    Real.sqrt (delta2 a b c * delta2 a e f * delta2 d b f * delta2 d e c) *
      sum6 ((a + b + c) / 2) ((a + e + f) / 2) ((d + b + f) / 2) ((d + e + c) / 2)
        ((a + b + d + e) / 2) ((b + c + e + f) / 2) ((a + c + d + f) / 2)
  else 0

theorem delta2_swap12 (a b c : ℤ) : delta2 b a c = delta2 a b c := by
  unfold delta2
  rw [show b + a - c = a + b - c by ring, show b - a + c = -a + b + c by ring,
    show -b + a + c = a - b + c by ring, show b + a + c = a + b + c by ring]
  ring

theorem delta2_swap13 (a b c : ℤ) : delta2 c b a = delta2 a b c := by
  unfold delta2
  rw [show c + b - a = -a + b + c by ring, show c - b + a = a - b + c by ring,
    show -c + b + a = a + b - c by ring, show c + b + a = a + b + c by ring]
  ring

theorem tri_swap12 (a b c : ℤ) : Tri b a c ↔ Tri a b c := by unfold Tri; constructor <;> intro h <;> omega

/-- {a b c; d e f} = {e d c; b a f}: exchange the first two columns, then upper and lower entries in
both. -/
theorem w6j_swap (a b c d e f : ℤ) : w6j a b c d e f = w6j e d c b a f := by
  unfold w6j
  have hiff : (Tri a b c ∧ Tri a e f ∧ Tri d b f ∧ Tri d e c) ↔
      (Tri e d c ∧ Tri e a f ∧ Tri b d f ∧ Tri b a c) := by
    rw [tri_swap12 d e c, tri_swap12 a e f, tri_swap12 d b f, tri_swap12 a b c]
    constructor <;> rintro ⟨h1, h2, h3, h4⟩ <;> exact ⟨h4, h2, h3, h1⟩
  by_cases h : Tri a b c ∧ Tri a e f ∧ Tri d b f ∧ Tri d e c
  · rw [if_pos h, if_pos (hiff.mp h)]
    have hd : delta2 e d c * delta2 e a f * delta2 b d f * delta2 b a c
        = delta2 a b c * delta2 a e f * delta2 d b f * delta2 d e c := by
      rw [delta2_swap12 d e c, delta2_swap12 a e f, delta2_swap12 d b f, delta2_swap12 a b c]; ring
    rw [hd]
    congr 1
    unfold sum6
    rw [show e + d + c = d + e + c by ring, show e + a + f = a + e + f by ring,
      show b + d + f = d + b + f by ring, show b + a + c = a + b + c by ring,
      show e + d + b + a = a + b + d + e by ring, show d + c + a + f = a + c + d + f by ring,
      show e + c + b + f = b + c + e + f by ring]
    apply finsum_congr
    intro t
    ring
  · rw [if_neg h, if_neg (fun h' => h (hiff.mpr h'))]

end PI
