import Verif.Field.Props
import Verif.Rot.Invariant
import Mathlib.Tactic.LinearCombination
import Mathlib.Tactic.FieldSimp
import Mathlib.Tactic.Linarith
import Mathlib.Tactic.FinCases

/-!
# C117: magnetic moment of a level

The magnetic dipole elements between the sublevels of one level are those of `-μ_B g_J J` with the Landé factor.
-/

namespace PI

/-! ## Specification -/

/-- Eigenvalue `x (x + 1)` of the square of an angular momentum, doubled argument. -/
noncomputable def casimir (x : ℤ) : ℝ := (x : ℝ) / 2 * ((x : ℝ) / 2 + 1)

/-- The Landé factor of the level with orbital momentum `l`, spin `s` and total momentum `j` (`s`, `j` doubled). -/
noncomputable def landeFactor (gL gS : ℝ) (l s j : ℤ) : ℝ :=
  gL * (casimir j + casimir (2 * l) - casimir s) / (2 * casimir j) + gS * (casimir j + casimir s - casimir (2 * l)) / (2 * casimir j)

/-- The spherical components of the angular momentum operator between `m1` and `m2` (doubled): `J_0 = J_z`, `J_±1 = ∓ (J_x ± i J_y) / √2`. -/
noncomputable def spinElt (j m1 m2 : ℤ) : ℝ :=
  if m1 = m2 then (m2 : ℝ) / 2
  else if m1 = m2 + 2 then -Real.sqrt (((j : ℝ) / 2 - (m2 : ℝ) / 2) * ((j : ℝ) / 2 + (m2 : ℝ) / 2 + 1) / 2)
  else if m1 = m2 - 2 then Real.sqrt (((j : ℝ) / 2 + (m2 : ℝ) / 2) * ((j : ℝ) / 2 - (m2 : ℝ) / 2 + 1) / 2)
  else 0

/-! ## Symbols with a unit momentum -/

theorem ifct_pred (z : ℤ) : ifct (z - 1) = z * ifct z := by
  unfold ifct
  by_cases h : z < 0
  · rw [if_pos (by omega), if_pos h, mul_zero]
  · by_cases h0 : z = 0
    · subst h0; simp
    · rw [if_neg (by omega), if_neg h]
      obtain ⟨n, rfl⟩ : ∃ n : ℕ, z = n + 1 := ⟨(z - 1).toNat, by omega⟩
      rw [show ((n : ℤ) + 1 - 1).toNat = n by omega, show ((n : ℤ) + 1).toNat = n + 1 by omega, Nat.factorial_succ]
      have : (n.factorial : ℝ) ≠ 0 := by exact_mod_cast Nat.factorial_ne_zero _
      have : ((n : ℝ) + 1) ≠ 0 := by positivity
      push_cast
      field_simp

theorem fct_succ' (z : ℤ) (h : 0 ≤ z) : fct (z + 1) = (z + 1) * fct z := by
  obtain ⟨n, rfl⟩ := Int.eq_ofNat_of_zero_le h
  unfold fct
  rw [show ((n : ℤ) + 1).toNat = n + 1 by omega, Int.toNat_natCast, Nat.factorial_succ]
  push_cast; ring

theorem fct_ifct (z : ℤ) (h : 0 ≤ z) : fct z * ifct z = 1 := by
  unfold fct ifct
  rw [if_neg (by omega)]
  have : (z.toNat.factorial : ℝ) ≠ 0 := by exact_mod_cast Nat.factorial_ne_zero _
  field_simp

theorem fct_zero' : fct 0 = 1 := by simp [fct]
theorem fct_one' : fct 1 = 1 := by simp [fct]
theorem ifct_zero' : ifct 0 = 1 := by simp [ifct]
theorem ifct_one' : ifct 1 = 1 := by simp [ifct]
theorem sgn_succ (z : ℤ) : sgn (z + 1) = -sgn z := by
  unfold sgn; by_cases h : z % 2 = 0
  · rw [if_pos h, if_neg (by omega)]
  · rw [if_neg h, if_pos (by omega)]; norm_num

theorem delta2_one (a : ℤ) (h : 1 ≤ a) : delta2 a a 2 = 1 / ((a : ℝ) * (a + 1) * (a + 2)) := by
  unfold delta2
  rw [show (a + a - 2) / 2 = a - 1 by omega, show (a - a + 2) / 2 = 1 by omega, show (-a + a + 2) / 2 = 1 by omega,
    show (a + a + 2) / 2 + 1 = a + 1 + 1 by omega, fct_one', fct_succ' (a + 1) (by omega), fct_succ' a (by omega)]
  have e : fct a = a * fct (a - 1) := by
    have := fct_succ' (a - 1) (by omega)
    rw [sub_add_cancel] at this
    rw [this]; push_cast; ring
  rw [e]
  have h0 := (fct_pos (a - 1)).ne'
  have h1 : (a : ℝ) ≠ 0 := by have : (1 : ℝ) ≤ a := by exact_mod_cast h
                              positivity
  have h2 : (a : ℝ) + 1 ≠ 0 := by have : (1 : ℝ) ≤ a := by exact_mod_cast h
                                  positivity
  have h3 : (a : ℝ) + 2 ≠ 0 := by have : (1 : ℝ) ≤ a := by exact_mod_cast h
                                  positivity
  have h4 : (a : ℝ) + 1 + 1 ≠ 0 := by rw [show (a : ℝ) + 1 + 1 = a + 2 by ring]; exact h3
  push_cast
  field_simp
  ring

/-- The product `x (x + 1) (2 x + 1)` of the reduced element, times four. -/
noncomputable def red4 (a : ℤ) : ℝ := (a : ℝ) * (a + 1) * (a + 2)

theorem red4_pos (a : ℤ) (h : 1 ≤ a) : 0 < red4 a := by
  have : (1 : ℝ) ≤ a := by exact_mod_cast h
  unfold red4; positivity

theorem delta2_sqrt (a : ℤ) (h : 1 ≤ a) : Real.sqrt (delta2 a a 2) = 1 / Real.sqrt (red4 a) := by
  rw [delta2_one a h, Real.sqrt_div (by norm_num), Real.sqrt_one]; rfl

/-- The 6j symbol of a reduced element within a level. -/
theorem w6j_one (a b c : ℤ) (h : Tri a b c) (ha : 1 ≤ a) (hb : 1 ≤ b) :
    w6j a b c b a 2 = sgn ((a + b + c) / 2) * (((c : ℝ) * (c + 2) - a * (a + 2) - b * (b + 2)) / 2) / (Real.sqrt (red4 a) * Real.sqrt (red4 b)) := by
  have hT := h
  obtain ⟨h1, h2, h3, h4⟩ := h
  set σ := (a + b + c) / 2 with hσ
  have hs : a + b + c = 2 * σ := by omega
  unfold w6j
  rw [if_pos ⟨hT, by unfold Tri; omega, by unfold Tri; omega, by unfold Tri; omega⟩]
  rw [show (a + a + 2) / 2 = a + 1 by omega, show (b + b + 2) / 2 = b + 1 by omega, show (b + a + c) / 2 = σ by omega,
    show (a + b + b + a) / 2 = a + b by omega, show (b + c + a + 2) / 2 = σ + 1 by omega, show (a + c + b + 2) / 2 = σ + 1 by omega]
  have hsum : sum6 σ (a + 1) (b + 1) σ (a + b) (σ + 1) (σ + 1) =
      sgn σ * fct (σ + 1) * (((σ - a : ℤ) : ℝ) * ((σ - b : ℤ) : ℝ) - (σ + 2) * ((a + b - σ : ℤ) : ℝ)) * (ifct (σ - a) * ifct (σ - b) * ifct (a + b - σ)) := by
    unfold sum6
    rw [finsum_eq_sum_of_support_subset (s := {σ, σ + 1})]
    · rw [Finset.sum_pair (by omega)]
      rw [show σ - σ = 0 by omega, show σ + 1 - σ = 1 by omega, show σ + 1 - (σ + 1) = 0 by omega,
        show σ - (a + 1) = (σ - a) - 1 by omega, show σ - (b + 1) = (σ - b) - 1 by omega,
        show σ + 1 - (a + 1) = σ - a by omega, show σ + 1 - (b + 1) = σ - b by omega, show a + b - (σ + 1) = (a + b - σ) - 1 by omega]
      rw [ifct_pred (σ - a), ifct_pred (σ - b), ifct_pred (a + b - σ), ifct_zero', ifct_one', sgn_succ, fct_succ' (σ + 1) (by omega)]
      push_cast
      ring
    · intro t ht
      simp only [Function.mem_support] at ht
      simp only [Finset.coe_insert, Finset.coe_singleton, Set.mem_insert_iff, Set.mem_singleton_iff]
      by_contra hc
      apply ht
      by_cases c1 : t < σ
      · rw [ifct_neg' (show t - σ < 0 by omega)]; ring
      · rw [ifct_neg' (show σ + 1 - t < 0 by omega)]; ring
  rw [hsum]
  have hd : delta2 b a c = delta2 a b c := delta2_swap12 a b c
  rw [hd]
  have dp := delta2_pos a b c
  rw [show delta2 a b c * delta2 a a 2 * delta2 b b 2 * delta2 a b c = delta2 a b c ^ 2 * (delta2 a a 2 * delta2 b b 2) by ring,
    Real.sqrt_mul (by positivity), Real.sqrt_sq dp.le, Real.sqrt_mul (delta2_pos _ _ _).le, delta2_sqrt a ha, delta2_sqrt b hb]
  have hdel : delta2 a b c * (fct (σ + 1) * (ifct (σ - a) * ifct (σ - b) * ifct (a + b - σ))) = 1 := by
    unfold delta2
    rw [show (a + b - c) / 2 = a + b - σ by omega, show (a - b + c) / 2 = σ - b by omega, show (-a + b + c) / 2 = σ - a by omega, ← hσ]
    have f1 := fct_ifct (a + b - σ) (by omega)
    have f2 := fct_ifct (σ - b) (by omega)
    have f3 := fct_ifct (σ - a) (by omega)
    have f4 := (fct_pos (σ + 1)).ne'
    field_simp
    calc _ = (fct (a + b - σ) * ifct (a + b - σ)) * (fct (σ - b) * ifct (σ - b)) * (fct (σ - a) * ifct (σ - a)) := by ring
      _ = 1 := by rw [f1, f2, f3]; ring
  have hx : ((σ - a : ℤ) : ℝ) * ((σ - b : ℤ) : ℝ) - (σ + 2) * ((a + b - σ : ℤ) : ℝ) = ((c : ℝ) * (c + 2) - a * (a + 2) - b * (b + 2)) / 2 := by
    have e : (a : ℝ) + b + c = 2 * σ := by exact_mod_cast hs
    have e' : (σ : ℝ) = (a + b + c) / 2 := by linarith
    push_cast
    rw [e']; ring
  rw [← hx]
  have p1 := Real.sqrt_pos.2 (red4_pos a ha)
  have p2 := Real.sqrt_pos.2 (red4_pos b hb)
  calc _ = sgn σ * (((σ - a : ℤ) : ℝ) * ((σ - b : ℤ) : ℝ) - (σ + 2) * ((a + b - σ : ℤ) : ℝ)) *
        (delta2 a b c * (fct (σ + 1) * (ifct (σ - a) * ifct (σ - b) * ifct (a + b - σ)))) / (Real.sqrt (red4 a) * Real.sqrt (red4 b)) := by
        field_simp
    _ = _ := by rw [hdel]; ring

/-- The angular factor of a vector operator within a level. -/
theorem ang_one (j m1 m2 : ℤ) (hj : 1 ≤ j) (h1 : |m1| ≤ j) (h2 : |m2| ≤ j) (p1 : (j + m1) % 2 = 0) (p2 : (j + m2) % 2 = 0) :
    angularSpec 1 j j m1 m2 = 2 * spinElt j m1 m2 / Real.sqrt (red4 j) := by
  rw [abs_le] at h1 h2
  have r4 := red4_pos j hj
  have hD : fct ((j + 2 - j) / 2) * fct ((j - 2 + j) / 2) * fct ((-j + 2 + j) / 2) / fct ((j + 2 + j) / 2 + 1) = 1 / red4 j := by
    have := delta2_one j hj
    unfold delta2 at this
    unfold red4
    rw [← this, show (j + j - 2) / 2 = (j - 2 + j) / 2 by omega, show (j - j + 2) / 2 = (j + 2 - j) / 2 by omega,
      show (-j + j + 2) / 2 = (-j + 2 + j) / 2 by omega, show (j + j + 2) / 2 = (j + 2 + j) / 2 by omega]
    ring
  unfold angularSpec spinElt
  by_cases c0 : m1 = m2
  · subst c0
    rw [if_pos rfl]
    unfold w3j
    rw [if_pos (by unfold Valid3; refine ⟨?_, ?_, ?_, ?_, ?_, ?_, ?_, ?_, ?_, ?_, ?_⟩ <;> first | omega | (rw [abs_le]; omega))]
    obtain ⟨i, hi⟩ : ∃ i : ℤ, j - m1 = 2 * i := ⟨(j - m1) / 2, by omega⟩
    rw [sum3_eq, show (j + 2 * 1 - j) / 2 = 1 by omega, show Finset.Icc (0 : ℤ) 1 = {0, 1} by decide, Finset.sum_pair (by norm_num)]
    unfold rad3
    rw [show (2 : ℤ) * 1 = 2 by norm_num, hD]
    rw [show (j - 2 + -m1) / 2 = i - 1 by omega, show (j - j - (m1 - m1)) / 2 = 0 by omega, show (j - -m1) / 2 = j - i by omega,
      show (2 + (m1 - m1)) / 2 = 1 by omega, show (2 - (m1 - m1)) / 2 = 1 by omega, show (j + -m1) / 2 = i by omega, show (j + m1) / 2 = j - i by omega,
      show (j - m1) / 2 = i by omega, show (j - 2 - m1) / 2 = i - 1 by omega]
    rw [show i - 1 + 1 = i by omega, show i - 1 + 0 = i - 1 by omega, show (0 : ℤ) + 1 = 1 by norm_num, show (0 : ℤ) + 0 = 0 by norm_num, show (1 : ℤ) - 0 = 1 by norm_num,
      show (1 : ℤ) - 1 = 0 by norm_num, show j - i - 0 = j - i by omega, ifct_pred i, ifct_pred (j - i), ifct_zero', ifct_one', fct_one', sgn_zero]
    have fi := fct_ifct i (by omega)
    have fj := fct_ifct (j - i) (by omega)
    have e1 : sgn 1 = -1 := sgn_odd (by norm_num)
    have e2 : sgn (i - 1) = -sgn i := by have := sgn_succ (i - 1); rw [sub_add_cancel] at this; rw [this]; ring
    have ss := sgn_self i
    rw [e1, e2, show (1 : ℝ) / red4 j * (fct i * fct (j - i) * 1 * 1 * fct (j - i) * fct i) = (fct i * fct (j - i)) ^ 2 / red4 j by ring,
      Real.sqrt_div (by positivity), Real.sqrt_sq (mul_pos (fct_pos _) (fct_pos _)).le]
    have hm : (m1 : ℝ) = j - 2 * i := by have : (j : ℝ) - m1 = 2 * i := by exact_mod_cast hi
                                         linarith
    have sp := Real.sqrt_pos.2 r4
    rw [hm]
    push_cast
    field_simp
    calc _ = (sgn i * sgn i) * (fct i * ifct i) * (fct (j - i) * ifct (j - i)) * ((j : ℝ) - 2 * i) := by ring
      _ = _ := by rw [fi, fj, ss]; ring
  · rw [if_neg c0]
    by_cases c1 : m1 = m2 + 2
    · subst c1
      rw [if_pos rfl]
      unfold w3j
      rw [if_pos (by unfold Valid3; refine ⟨?_, ?_, ?_, ?_, ?_, ?_, ?_, ?_, ?_, ?_, ?_⟩ <;> first | omega | (rw [abs_le]; omega))]
      obtain ⟨i, hi⟩ : ∃ i : ℤ, j - m2 = 2 * i := ⟨(j - m2) / 2, by omega⟩
      rw [sum3_eq, show (j + 2 * 1 - j) / 2 = 1 by omega, show Finset.Icc (0 : ℤ) 1 = {0, 1} by decide, Finset.sum_pair (by norm_num)]
      unfold rad3
      rw [show (2 : ℤ) * 1 = 2 by norm_num, hD]
      rw [show (j - 2 + -(m2 + 2)) / 2 = i - 2 by omega, show (j - j - (m2 + 2 - m2)) / 2 = -1 by omega, show (j - -(m2 + 2)) / 2 = j - i + 1 by omega,
        show (2 + (m2 + 2 - m2)) / 2 = 2 by omega, show (2 - (m2 + 2 - m2)) / 2 = 0 by omega, show (j + -(m2 + 2)) / 2 = i - 1 by omega, show (j + m2) / 2 = j - i by omega,
        show (j - m2) / 2 = i by omega, show (j - (m2 + 2)) / 2 = i - 1 by omega, show (j - 2 - m2) / 2 = i - 1 by omega]
      rw [show (-1 : ℤ) + 0 = -1 by norm_num, ifct_neg' (show (-1 : ℤ) < 0 by norm_num), show i - 2 + 1 = i - 1 by omega, show (-1 : ℤ) + 1 = 0 by norm_num,
        show (1 : ℤ) - 1 = 0 by norm_num, show j - i + 1 - 1 = j - i by omega, show (2 : ℤ) - 1 = 1 by norm_num, ifct_zero', ifct_one', fct_zero']
      have f2 : fct 2 = 2 := by simp [fct]
      have fi := fct_ifct (i - 1) (by omega)
      have fj := fct_ifct (j - i) (by omega)
      have e1 : sgn 1 = -1 := sgn_odd (by norm_num)
      have ss := sgn_self (i - 1)
      have g1 : fct i = i * fct (i - 1) := by
        have := fct_succ' (i - 1) (by omega); rw [sub_add_cancel] at this; rw [this]; push_cast; ring
      have g2 : fct (j - i + 1) = (j - i + 1) * fct (j - i) := by rw [fct_succ' (j - i) (by omega)]; push_cast; ring
      have q1 : (1 : ℝ) ≤ i := by have : 1 ≤ i := by omega
                                  exact_mod_cast this
      have q2 : (0 : ℝ) ≤ (j : ℝ) - i := by have : i ≤ j := by omega
                                            have : (i : ℝ) ≤ j := by exact_mod_cast this
                                            linarith
      have q3 : (0 : ℝ) ≤ (i : ℝ) * ((j : ℝ) - i + 1) := mul_nonneg (by linarith) (by linarith)
      rw [f2, e1, g1, g2, show (1 : ℝ) / red4 j * (fct (i - 1) * ((j - i + 1) * fct (j - i)) * 2 * 1 * fct (j - i) * (i * fct (i - 1))) =
        (fct (i - 1) * fct (j - i)) ^ 2 * (2 * ((i : ℝ) * ((j : ℝ) - i + 1))) / red4 j by ring,
        Real.sqrt_div (by positivity), Real.sqrt_mul (by positivity), Real.sqrt_sq (mul_pos (fct_pos _) (fct_pos _)).le]
      have hm : (m2 : ℝ) = j - 2 * i := by have : (j : ℝ) - m2 = 2 * i := by exact_mod_cast hi
                                           linarith
      have e4 : Real.sqrt (2 * ((i : ℝ) * ((j : ℝ) - i + 1))) = 2 * Real.sqrt (((j : ℝ) / 2 - (m2 : ℝ) / 2) * ((j : ℝ) / 2 + (m2 : ℝ) / 2 + 1) / 2) := by
        rw [hm, show (2 : ℝ) * ((i : ℝ) * ((j : ℝ) - i + 1)) = 2 ^ 2 * (((j : ℝ) / 2 - ((j : ℝ) - 2 * i) / 2) * ((j : ℝ) / 2 + ((j : ℝ) - 2 * i) / 2 + 1) / 2) by ring,
          Real.sqrt_mul (by norm_num), Real.sqrt_sq (by norm_num)]
      rw [e4]
      have sp := Real.sqrt_pos.2 r4
      generalize Real.sqrt (((j : ℝ) / 2 - (m2 : ℝ) / 2) * ((j : ℝ) / 2 + (m2 : ℝ) / 2 + 1) / 2) = Q
      field_simp
      calc _ = -((sgn (i - 1) * sgn (i - 1)) * (fct (i - 1) * ifct (i - 1)) * (fct (j - i) * ifct (j - i)) * Q) := by ring
        _ = _ := by rw [fi, fj, ss]; ring
    · rw [if_neg c1]
      by_cases c2 : m1 = m2 - 2
      · subst c2
        rw [if_pos rfl]
        unfold w3j
        rw [if_pos (by unfold Valid3; refine ⟨?_, ?_, ?_, ?_, ?_, ?_, ?_, ?_, ?_, ?_, ?_⟩ <;> first | omega | (rw [abs_le]; omega))]
        obtain ⟨i, hi⟩ : ∃ i : ℤ, j - m2 = 2 * i := ⟨(j - m2) / 2, by omega⟩
        rw [sum3_eq, show (j + 2 * 1 - j) / 2 = 1 by omega, show Finset.Icc (0 : ℤ) 1 = {0, 1} by decide, Finset.sum_pair (by norm_num)]
        unfold rad3
        rw [show (2 : ℤ) * 1 = 2 by norm_num, hD]
        rw [show (j - 2 + -(m2 - 2)) / 2 = i by omega, show (j - j - (m2 - 2 - m2)) / 2 = 1 by omega, show (j - -(m2 - 2)) / 2 = j - i - 1 by omega,
          show (2 + (m2 - 2 - m2)) / 2 = 0 by omega, show (2 - (m2 - 2 - m2)) / 2 = 2 by omega, show (j + -(m2 - 2)) / 2 = i + 1 by omega, show (j + m2) / 2 = j - i by omega,
          show (j - m2) / 2 = i by omega, show (j - (m2 - 2)) / 2 = i + 1 by omega, show (j - 2 - m2) / 2 = i - 1 by omega]
        rw [show (0 : ℤ) - 1 = -1 by norm_num, ifct_neg' (show (-1 : ℤ) < 0 by norm_num), show i + 0 = i by omega, show (1 : ℤ) + 0 = 1 by norm_num,
          show (1 : ℤ) - 0 = 1 by norm_num, show j - i - 1 - 0 = j - i - 1 by omega, show (0 : ℤ) - 0 = 0 by norm_num, ifct_zero', ifct_one', fct_zero', sgn_zero]
        have f2 : fct 2 = 2 := by simp [fct]
        have fi := fct_ifct i (by omega)
        have fj := fct_ifct (j - i - 1) (by omega)
        have e2 : sgn (i - 1) = sgn (i + 1) := sgn_congr (by omega)
        have ss := sgn_self (i + 1)
        have g1 : fct (i + 1) = (i + 1) * fct i := by rw [fct_succ' i (by omega)]
        have g2 : fct (j - i) = (j - i) * fct (j - i - 1) := by
          have := fct_succ' (j - i - 1) (by omega); rw [sub_add_cancel] at this; rw [this]; push_cast; ring
        have q1 : (0 : ℝ) ≤ i := by have : 0 ≤ i := by omega
                                    exact_mod_cast this
        have q2 : (0 : ℝ) ≤ (j : ℝ) - i := by have : i ≤ j := by omega
                                              have : (i : ℝ) ≤ j := by exact_mod_cast this
                                              linarith
        have q3 : (0 : ℝ) ≤ ((i : ℝ) + 1) * ((j : ℝ) - i) := mul_nonneg (by linarith) (by linarith)
        rw [f2, e2, g1, g2, show (1 : ℝ) / red4 j * ((i + 1) * fct i * fct (j - i - 1) * 1 * 2 * ((j - i) * fct (j - i - 1)) * fct i) =
          (fct i * fct (j - i - 1)) ^ 2 * (2 * (((i : ℝ) + 1) * ((j : ℝ) - i))) / red4 j by ring,
          Real.sqrt_div (by positivity), Real.sqrt_mul (by positivity), Real.sqrt_sq (mul_pos (fct_pos _) (fct_pos _)).le]
        have hm : (m2 : ℝ) = j - 2 * i := by have : (j : ℝ) - m2 = 2 * i := by exact_mod_cast hi
                                             linarith
        have e4 : Real.sqrt (2 * (((i : ℝ) + 1) * ((j : ℝ) - i))) = 2 * Real.sqrt (((j : ℝ) / 2 + (m2 : ℝ) / 2) * ((j : ℝ) / 2 - (m2 : ℝ) / 2 + 1) / 2) := by
          rw [hm, show (2 : ℝ) * (((i : ℝ) + 1) * ((j : ℝ) - i)) = 2 ^ 2 * (((j : ℝ) / 2 + ((j : ℝ) - 2 * i) / 2) * ((j : ℝ) / 2 - ((j : ℝ) - 2 * i) / 2 + 1) / 2) by ring,
            Real.sqrt_mul (by norm_num), Real.sqrt_sq (by norm_num)]
        rw [e4]
        have sp := Real.sqrt_pos.2 r4
        generalize Real.sqrt (((j : ℝ) / 2 + (m2 : ℝ) / 2) * ((j : ℝ) / 2 - (m2 : ℝ) / 2 + 1) / 2) = Q
        field_simp
        calc _ = ((sgn (i + 1) * sgn (i + 1)) * (fct i * ifct i) * (fct (j - i - 1) * ifct (j - i - 1)) * Q) := by ring
          _ = _ := by rw [fi, fj, ss]; ring
      · rw [if_neg c2, w3j_invalid, mul_zero, mul_zero, zero_div]
        intro hv
        obtain ⟨_, _, _, _, _, _, _, _, _, h10, _⟩ := hv
        rw [abs_le] at h10
        omega

/-! ## Reduced elements within a level -/

theorem sqrt_quarter (a : ℤ) : Real.sqrt ((a : ℝ) / 2 * ((a : ℝ) / 2 + 1) * ((a : ℝ) + 1)) = Real.sqrt (red4 a) / 2 := by
  unfold red4
  rw [show (a : ℝ) / 2 * ((a : ℝ) / 2 + 1) * ((a : ℝ) + 1) = (a : ℝ) * (a + 1) * (a + 2) / 2 ^ 2 by ring, Real.sqrt_div' _ (by norm_num),
    Real.sqrt_sq (by norm_num)]

theorem tri_of_physical (a : QN) (ha : a.Physical) : Tri (2 * a.l) a.j a.s := by
  unfold QN.Physical at ha
  obtain ⟨h1, h2, h3, h4, h5, h6, h7⟩ := ha
  rw [abs_le] at h3
  unfold Tri; omega

/-- A reduced element within a level in terms of the reduced element of the total momentum. -/
theorem reduced_level (a b c : ℤ) (hT : Tri a b c) (ha : 0 ≤ a) (hb : 1 ≤ b) :
    sgn ((a + b + c + 2) / 2) * ((b : ℝ) + 1) * w6j a b c b a 2 * (Real.sqrt (red4 a) / 2) =
      (casimir b + casimir a - casimir c) / (2 * casimir b) * (Real.sqrt (red4 b) / 2) := by
  have pb : (1 : ℝ) ≤ b := by exact_mod_cast hb
  have r4 := Real.sqrt_pos.2 (red4_pos b hb)
  have rsq := Real.mul_self_sqrt (red4_pos b hb).le
  by_cases h0 : a = 0
  · have hc : c = b := by unfold Tri at hT; omega
    rw [h0, hc]
    simp [casimir, red4]
  · have h1 : 1 ≤ a := by omega
    have a4 := Real.sqrt_pos.2 (red4_pos a h1)
    rw [w6j_one a b c hT h1 hb]
    have hss : sgn ((a + b + c + 2) / 2) * sgn ((a + b + c) / 2) = -1 := by
      rw [sgn_mul]; apply sgn_odd; unfold Tri at hT; omega
    set R := Real.sqrt (red4 b) with hR
    rw [show sgn ((a + b + c + 2) / 2) * ((b : ℝ) + 1) * (sgn ((a + b + c) / 2) * (((c : ℝ) * (c + 2) - a * (a + 2) - b * (b + 2)) / 2) / (Real.sqrt (red4 a) * R)) *
        (Real.sqrt (red4 a) / 2) =
      (sgn ((a + b + c + 2) / 2) * sgn ((a + b + c) / 2)) * (((b : ℝ) + 1) * ((c : ℝ) * (c + 2) - a * (a + 2) - b * (b + 2))) / (4 * R) by field_simp; ring, hss]
    have hne : (casimir b) ≠ 0 := by unfold casimir; positivity
    rw [div_mul_div_comm, div_eq_div_iff (by positivity) (by positivity)]
    have e : 4 * casimir b = b * (b + 2) := by unfold casimir; ring
    have e2 : red4 b = 4 * casimir b * (b + 1) := by rw [e]; unfold red4; ring
    rw [e2] at rsq
    have e3 : casimir b + casimir a - casimir c = -((c : ℝ) * (c + 2) - a * (a + 2) - b * (b + 2)) / 4 := by unfold casimir; ring
    rw [e3]
    linear_combination ((c : ℝ) * (c + 2) - a * (a + 2) - b * (b + 2)) * rsq

/-- **C117.** The magnetic dipole element between two sublevels of one level is that of the moment `-μ_B g_J J`, times the overlap of the radial wavefunction with itself. -/
theorem C117_magnetic_moment (C : ElemConsts) (radial : RadKey → ℝ) (me : Method) (a : QN) (m1 m2 : ℤ)
    (h1 : ({ a with m := m1 } : QN).Physical) (h2 : ({ a with m := m2 } : QN).Physical) :
    magneticDipole C radial me { a with m := m1 } { a with m := m2 } =
      .ok (-C.muB * landeFactor C.gL C.gS a.l a.s a.j * spinElt a.j m1 m2 * radial (RadKey.make me a.species 0 a.n a.n a.l a.l a.j a.j)) := by
  rw [magneticDipole_eq C radial me _ _ h1 h2 rfl rfl rfl]
  dsimp only
  have hT : Tri (2 * a.l) a.j a.s := tri_of_physical { a with m := m1 } h1
  unfold QN.Physical at h1 h2
  dsimp only at h1 h2
  have hj0 : 0 ≤ a.j := le_trans (abs_nonneg _) h1.2.2.1
  rw [Out.ok.injEq]
  by_cases hj : a.j = 0
  · have z1 : m1 = 0 := by have := h1.2.2.2.2.2.1; rw [hj, abs_le] at this; omega
    have z2 : m2 = 0 := by have := h2.2.2.2.2.2.1; rw [hj, abs_le] at this; omega
    have : angularSpec 1 a.j a.j m1 m2 = 0 := by
      unfold angularSpec
      rw [w3j_invalid, mul_zero]
      intro hv
      obtain ⟨_, _, _, _, _, _, _, h8, _⟩ := hv
      omega
    rw [this, z1, z2]
    simp [spinElt]
  · have hj1 : 1 ≤ a.j := by omega
    have r4 := Real.sqrt_pos.2 (red4_pos a.j hj1)
    have pj : (1 : ℝ) ≤ a.j := by exact_mod_cast hj1
    rw [ang_one a.j m1 m2 hj1 h1.2.2.2.2.2.1 h2.2.2.2.2.2.1 h1.2.2.2.2.2.2 h2.2.2.2.2.2.2]
    have hq : Real.sqrt (a.l * (a.l + 1) * (2 * a.l + 1)) = Real.sqrt (red4 (2 * a.l)) / 2 := by
      rw [← sqrt_quarter]; congr 1; push_cast; ring
    have hsq : Real.sqrt (((a.j : ℝ) + 1) * (a.j + 1)) = a.j + 1 := Real.sqrt_mul_self (by linarith)
    have o1 := reduced_level (2 * a.l) a.j a.s hT (by omega) hj1
    have o2 := reduced_level a.s a.j (2 * a.l) (by unfold Tri at *; omega) h1.2.1 hj1
    rw [hq, sqrt_quarter]
    unfold commutesSSpec commutesLSpec
    rw [if_pos rfl, hsq, show (2 : ℤ) * 1 = 2 by norm_num, show 2 * a.l + a.s + a.j + 2 = 2 * a.l + a.j + a.s + 2 by ring]
    rw [show a.s + a.j + 2 * a.l + 2 = 2 * a.l + a.j + a.s + 2 by ring] at o2
    unfold landeFactor
    set K := radial (RadKey.make me a.species 0 a.n a.n a.l a.l a.j a.j)
    set R := Real.sqrt (red4 a.j)
    set A := 2 * spinElt a.j m1 m2 / R with hA
    have hAR : A * (R / 2) = spinElt a.j m1 m2 := by rw [hA]; field_simp
    linear_combination (-C.muB * K * A) * (C.gL * o1 + C.gS * o2) +
      (-C.muB * K * (C.gL * ((casimir a.j + casimir (2 * a.l) - casimir a.s) / (2 * casimir a.j)) + C.gS * ((casimir a.j + casimir a.s - casimir (2 * a.l)) / (2 * casimir a.j)))) * hAR

/-- Landé factors: a level with l = 0 has the factor of the spin, a singlet that of the orbit, P₁/₂ has (4 g_L - g_S)/3. -/
theorem C117_factors (gL gS : ℝ) :
    (∀ s, 1 ≤ s → landeFactor gL gS 0 s s = gS) ∧ (∀ l, 1 ≤ l → landeFactor gL gS l 0 (2 * l) = gL) ∧ landeFactor gL gS 1 1 1 = (4 * gL - gS) / 3 ∧
    landeFactor gL gS 1 1 3 = (2 * gL + gS) / 3 := by
  refine ⟨?_, ?_, ?_, ?_⟩
  · intro s hs
    have : (1 : ℝ) ≤ s := by exact_mod_cast hs
    unfold landeFactor casimir
    have : (s : ℝ) / 2 * ((s : ℝ) / 2 + 1) ≠ 0 := by positivity
    simp only [mul_zero, Int.cast_zero, zero_div, zero_mul, add_zero, sub_zero, sub_self, zero_add]
    field_simp
    norm_num
  · intro l hl
    have : (1 : ℝ) ≤ l := by exact_mod_cast hl
    unfold landeFactor casimir
    have : ((2 * l : ℤ) : ℝ) / 2 * (((2 * l : ℤ) : ℝ) / 2 + 1) ≠ 0 := by push_cast; positivity
    simp only [Int.cast_zero, zero_div, zero_mul, add_zero, sub_zero, sub_self, mul_zero]
    field_simp
    norm_num
  · unfold landeFactor casimir; norm_num; ring
  · unfold landeFactor casimir; norm_num; ring

/-- The Hamiltonian of an atom restricted to one level in a magnetic field along z: the energy is shifted by `μ_B g_J m B` and sublevels are not mixed. -/
theorem C117_zeeman {N : ℕ} (C : FieldConsts) (radial : RadKey → ℝ) (me : Method) (st : Fin N → Option QN) (a : QN) (m : Fin N → ℤ)
    (hlev : ∀ i, st i = some { a with m := m i }) (hph : ∀ i, ({ a with m := m i } : QN).Physical)
    (op0 : Matrix (Fin N) (Fin N) ℂ) (p : FieldParams) (Bz : ℝ) (hB : p.B = ⟨0, 0, Bz⟩) (hE : p.E = ⟨0, 0, 0⟩) (hd : p.dia = false) (hq : p.charge = 0) (hp : NoTiny p)
    (r c : Fin N) :
    freshOper (fieldInter C radial me st) op0 1 p r c = op0 r c +
      if m r = m c then ((C.elem.muB * landeFactor C.elem.gL C.elem.gS a.l a.s a.j * ((m c : ℝ) / 2) * Bz *
        radial (RadKey.make me a.species 0 a.n a.n a.l a.l a.j a.j) : ℝ) : ℂ) else 0 := by
  have hst : GoodStates st := by
    intro i x hx
    rw [hlev i] at hx; cases hx
    refine ⟨hph i, ?_⟩
    intro k y hy
    rw [hlev k] at hy; cases hy
    exact ⟨rfl, rfl⟩
  rw [C37_physical_operator C radial me st hst op0 1 p hp, hB, hE, hd, hq]
  have zE : dotOp (⟨0, 0, 0⟩ : Vec3) (dipoleT C radial me st) = 0 := by unfold dotOp; simp
  have zB : dotOp (⟨0, 0, Bz⟩ : Vec3) (magneticT C radial me st) = (Bz : ℂ) • magneticT C radial me st 0 := by unfold dotOp; simp
  rw [zE, zB]
  have key : -((Bz : ℂ) * magneticT C radial me st 0 r c) =
      if m r = m c then ((C.elem.muB * landeFactor C.elem.gL C.elem.gS a.l a.s a.j * ((m c : ℝ) / 2) * Bz *
        radial (RadKey.make me a.species 0 a.n a.n a.l a.l a.j a.j) : ℝ) : ℂ) else 0 := by
    unfold magneticT tensorMat
    rw [hlev r, hlev c]
    dsimp only
    by_cases h : m r = m c
    · rw [if_pos (by omega), if_pos h]
      unfold magSpec valB
      rw [if_pos rfl, C117_magnetic_moment C.elem radial me a (m r) (m c) (hph r) (hph c)]
      unfold spinElt outVal
      rw [if_pos h]
      push_cast
      ring
    · rw [if_neg (by omega), if_neg h]; simp
  rw [← key]
  cases p.dist <;> simp

/-- The sublevels of 60 P₃/₂ in a field along z meet the hypotheses. -/
example : ∃ (m : Fin 4 → ℤ) (p : FieldParams), (∀ i, ({ qnP with m := m i } : QN).Physical) ∧ p.B = ⟨0, 0, 1⟩ ∧ p.E = ⟨0, 0, 0⟩ ∧ p.dia = false ∧ p.charge = 0 ∧ NoTiny p := by
  refine ⟨fun i => 3 - 2 * (i : ℤ), ⟨⟨0, 0, 0⟩, ⟨0, 0, 1⟩, false, 0, 0, none⟩, ?_, rfl, rfl, rfl, rfl, ?_⟩
  · intro i
    unfold QN.Physical
    fin_cases i <;> decide
  · have norm1 : ‖(1 : ℂ)‖ = 1 := by simp
    refine ⟨?_, ?_, ?_⟩
    · intro q; left; unfold sph; split_ifs <;> first | rfl | (apply Complex.ext <;> simp)
    · intro q
      by_cases h1 : q = 0
      · right
        subst h1
        have : sph ⟨0, 0, 1⟩ 0 = 1 := by unfold sph; norm_num; rfl
        rw [this]; unfold isBig; rw [decide_eq_true_eq, norm1]; norm_num
      · left
        unfold sph; split_ifs <;> first | rfl | (apply Complex.ext <;> simp)
    · intro k q
      have s0 : sph ⟨0, 0, 1⟩ 0 = 1 := by unfold sph; norm_num; rfl
      have s1 : sph ⟨0, 0, 1⟩ 1 = 0 := by unfold sph; norm_num; rfl
      have s2 : sph ⟨0, 0, 1⟩ (-1) = 0 := by unfold sph; norm_num; rfl
      unfold diaTerm
      rw [s0, s1, s2]
      split_ifs <;> first | (left; simp; done) | (right; unfold isBig; rw [decide_eq_true_eq]; simp; norm_num)

end PI
