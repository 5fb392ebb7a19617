import Verif.Rot.SixJGen

/-!
# C118: electric operators do not act on the spin
-/

namespace PI

/-! ## Specification -/

/-- The Clebsch–Gordan coefficient ⟨l μ, s σ | j m⟩ (all arguments doubled): (−1)^{l−s+m} √(2j+1) (l s j; μ σ −m). -/
noncomputable def clebsch (l s j μ σ m : ℤ) : ℝ := sgn ((l - s + m) / 2) * Real.sqrt (j + 1) * w3j l s j μ σ (-m)

/-- The element of an operator that acts only on the position of the electron, between the states |(l₁ s) j₁ m₁⟩ and |(l₂ s) j₂ m₂⟩: both states are written with
orbital projections μ₁, μ₂ and a spin projection σ, the same one on both sides, and `op μ₁ μ₂` are the elements between the orbital states. -/
noncomputable def orbitalOnly (l1 l2 s j1 j2 m1 m2 : ℤ) (op : ℤ → ℤ → ℝ) : ℝ :=
  ∑ p1 ∈ Finset.range (2 * l1.toNat + 1), ∑ p2 ∈ Finset.range (2 * l2.toNat + 1), ∑ r ∈ Finset.range (s.toNat + 1),
    clebsch (2 * l1) s j1 (2 * l1 - 2 * p1) (s - 2 * r) m1 * clebsch (2 * l2) s j2 (2 * l2 - 2 * p2) (s - 2 * r) m2 *
      op (2 * l1 - 2 * p1) (2 * l2 - 2 * p2)

/-- The element of the spherical harmonic C^κ_q, q = (μ₁−μ₂)/2, between the orbital states Y_{l₁ μ₁/2} and Y_{l₂ μ₂/2} (projections doubled), which is the Gaunt integral
(−1)^{l₁−μ₁/2} (l₁ κ l₂; −μ₁ q μ₂) · (−1)^{l₁} √((2l₁+1)(2l₂+1)) (l₁ κ l₂; 0 0 0). -/
noncomputable def harmonicElt (κ l1 l2 μ1 μ2 : ℤ) : ℝ :=
  sgn (l1 - μ1 / 2) * w3j (2 * l1) (2 * κ) (2 * l2) (-μ1) (μ1 - μ2) μ2 * (sgn l1 * Real.sqrt ((2 * l1 + 1) * (2 * l2 + 1)) * w3j (2 * l1) (2 * κ) (2 * l2) 0 0 0)

/-! ## Proof -/

theorem sign_term (l1 l2 s j1 j2 κ i1 i2 q1 q2 r m1 m2 X Y : ℤ) (hX : 2 * l1 + s + j1 = 2 * X) (hY : 2 * l2 + s + j2 = 2 * Y) (e1 : m1 = 2 * i1 - j1) (e2 : m2 = j2 - 2 * i2)
    (w2 : Y = 2 * l2 - q2 + (s - r) + i2) :
    sgn ((2 * l1 - s + m1) / 2) * sgn ((2 * l2 - s + m2) / 2) * sgn ((2 * l2 + s + j2) / 2) * sgn q1 =
      sgn ((j1 - i1) + (2 * l1 + s + j2 + 2 * κ) / 2 + (j1 + s + 2 * l1) / 2 + (l1 + l2 + κ) + s) * (sgn q1 * sgn q2 * sgn r) := by
  rw [show (2 * l1 - s + m1) / 2 = X - s - j1 + i1 by omega, show (2 * l2 - s + m2) / 2 = Y - s - i2 by omega, show (2 * l2 + s + j2) / 2 = Y by omega,
    show (2 * l1 + s + j2 + 2 * κ) / 2 = Y - l2 + l1 + κ by omega, show (j1 + s + 2 * l1) / 2 = X by omega]
  rw [sgn_mul, sgn_mul, sgn_mul, sgn_mul, sgn_mul, sgn_mul]
  apply sgn_congr
  rw [show X - s - j1 + i1 + (Y - s - i2) + Y + q1 - (j1 - i1 + (Y - l2 + l1 + κ) + X + (l1 + l2 + κ) + s + (q1 + q2 + r)) =
    2 * (i1 - j1 - l1 - κ - s - q2 - r + l2) by rw [w2]; ring]
  omega

/-- Recoupling: an orbital tensor operator between coupled states. -/
theorem orbital_recouple (l1 l2 s j1 j2 κ : ℕ) (m1 m2 : ℤ) (ta : TriN (2 * l1) s j1) (td : TriN (2 * l2) s j2)
    (h1 : |m1| ≤ j1) (h2 : |m2| ≤ j2) (p1 : ((j1 : ℤ) + m1) % 2 = 0) (p2 : ((j2 : ℤ) + m2) % 2 = 0) :
    orbitalOnly l1 l2 s j1 j2 m1 m2 (fun μ1 μ2 => angularSpec κ (2 * l1) (2 * l2) μ1 μ2) =
      angularSpec κ j1 j2 m1 m2 * commutesSSpec s κ l1 l2 j1 j2 := by
  rw [abs_le] at h1 h2
  unfold TriN at ta td
  obtain ⟨i1, hi1, e1⟩ : ∃ i : ℕ, i ≤ j1 ∧ m1 = 2 * (i : ℤ) - j1 := ⟨((m1 + j1) / 2).toNat, by omega, by omega⟩
  obtain ⟨i2, hi2, e2⟩ : ∃ i : ℕ, i ≤ j2 ∧ m2 = (j2 : ℤ) - 2 * i := ⟨(((j2 : ℤ) - m2) / 2).toNat, by omega, by omega⟩
  unfold orbitalOnly
  rw [Int.toNat_natCast, Int.toNat_natCast, Int.toNat_natCast]
  by_cases hq : |m1 - m2| ≤ 2 * (κ : ℤ)
  · rw [abs_le] at hq
    obtain ⟨iq, hiq, e3⟩ : ∃ i : ℕ, i ≤ 2 * κ ∧ m1 - m2 = 2 * (κ : ℤ) - 2 * i := ⟨((κ : ℤ) - (m1 - m2) / 2).toNat, by omega, by omega⟩
    have R := recF_six (2 * l1) (2 * l2) s (2 * κ) j1 j2 (by unfold TriN; omega) (by unfold TriN; omega) (by omega) i1 hi1 iq hiq i2 hi2
    have hL : angularSpec κ j1 j2 m1 m2 = sgn ((j1 : ℤ) - i1) * w3i j1 (2 * κ) j2 i1 iq i2 := by
      unfold angularSpec w3i
      rw [show ((j1 : ℤ) - m1) / 2 = (j1 : ℤ) - i1 by omega, show -m1 = (j1 : ℤ) - 2 * i1 by omega, show m1 - m2 = ((2 * κ : ℕ) : ℤ) - 2 * iq by push_cast; omega, e2]
      push_cast; rfl
    have hC : commutesSSpec s κ l1 l2 j1 j2 = sgn ((2 * (l1 : ℤ) + s + j2 + 2 * κ) / 2) * Real.sqrt (((j1 : ℝ) + 1) * ((j2 : ℝ) + 1)) *
        w6j ((2 * l1 : ℕ) : ℤ) j1 s j2 ((2 * l2 : ℕ) : ℤ) ((2 * κ : ℕ) : ℤ) := by
      unfold commutesSSpec; push_cast; rfl
    have hT : ∀ q1 ∈ Finset.range (2 * l1 + 1), ∀ q2 ∈ Finset.range (2 * l2 + 1), ∀ r ∈ Finset.range (s + 1),
        clebsch (2 * (l1 : ℤ)) s j1 (2 * (l1 : ℤ) - 2 * q1) ((s : ℤ) - 2 * r) m1 * clebsch (2 * (l2 : ℤ)) s j2 (2 * (l2 : ℤ) - 2 * q2) ((s : ℤ) - 2 * r) m2 *
          angularSpec κ (2 * l1) (2 * l2) (2 * (l1 : ℤ) - 2 * q1) (2 * (l2 : ℤ) - 2 * q2) =
        sgn (((j1 : ℤ) - i1) + (2 * (l1 : ℤ) + s + j2 + 2 * κ) / 2 + ((j1 : ℤ) + s + 2 * l1) / 2 + ((l1 : ℤ) + l2 + κ) + s) * Real.sqrt (((j1 : ℝ) + 1) * ((j2 : ℝ) + 1)) *
          ((-1) ^ q1 * ((-1) ^ q2 * ((-1) ^ r * (w3i (2 * l1) s j1 q1 r i1 * w3i (2 * l1) (2 * κ) (2 * l2) (2 * l1 - q1) iq q2 * w3i (2 * l2) s j2 (2 * l2 - q2) (s - r) i2)))) := by
      intro q1 h1 q2 h2 r hr
      have r1 := Finset.mem_range.1 h1
      have r2 := Finset.mem_range.1 h2
      have r3 := Finset.mem_range.1 hr
      have a1 : w3j (2 * (l1 : ℤ)) s j1 (2 * (l1 : ℤ) - 2 * q1) ((s : ℤ) - 2 * r) (-m1) = w3i (2 * l1) s j1 q1 r i1 := by
        unfold w3i; rw [e1]; push_cast; congr 1; ring
      have a2 : w3j (2 * (l2 : ℤ)) s j2 (2 * (l2 : ℤ) - 2 * q2) ((s : ℤ) - 2 * r) (-m2) = sgn (((2 * l2 : ℕ) + (s : ℤ) + j2) / 2) * w3i (2 * l2) s j2 (2 * l2 - q2) (s - r) i2 := by
        have f := w3i_flip (2 * l2) s j2 (2 * l2 - q2) (s - r) i2 (by omega) (by omega) hi2
        rw [← f, show 2 * l2 - (2 * l2 - q2) = q2 by omega, show s - (s - r) = r by omega]
        unfold w3i; rw [e2]; push_cast [Nat.cast_sub hi2]; congr 1; ring
      unfold clebsch
      rw [a1, a2]
      by_cases w1 : 2 * l1 + s + j1 = 2 * (q1 + r + i1)
      · by_cases w2 : 2 * l2 + s + j2 = 2 * (2 * l2 - q2 + (s - r) + i2)
        · have a3 : angularSpec κ (2 * l1) (2 * l2) (2 * (l1 : ℤ) - 2 * q1) (2 * (l2 : ℤ) - 2 * q2) = sgn q1 * w3i (2 * l1) (2 * κ) (2 * l2) (2 * l1 - q1) iq q2 := by
            unfold angularSpec w3i
            rw [show (2 * (l1 : ℤ) - (2 * (l1 : ℤ) - 2 * q1)) / 2 = q1 by omega]
            congr 1
            push_cast [Nat.cast_sub (show q1 ≤ 2 * l1 by omega)]
            congr 1 <;> omega
          rw [a3, ← sgn_natCast, ← sgn_natCast, ← sgn_natCast, Real.sqrt_mul (by positivity)]
          have es := sign_term l1 l2 s j1 j2 κ i1 i2 q1 q2 r m1 m2 ((2 * l1 + s + j1) / 2 : ℕ) ((2 * l2 + s + j2) / 2 : ℕ) (by omega) (by omega) e1 e2 (by omega)
          rw [show (((2 * l2 : ℕ) : ℤ) + (s : ℤ) + j2) = 2 * (l2 : ℤ) + s + j2 by push_cast; ring]
          linear_combination (Real.sqrt ((j1 : ℝ) + 1) * Real.sqrt ((j2 : ℝ) + 1) * w3i (2 * l1) s j1 q1 r i1 * w3i (2 * l1) (2 * κ) (2 * l2) (2 * l1 - q1) iq q2 *
            w3i (2 * l2) s j2 (2 * l2 - q2) (s - r) i2) * es
        · rw [w3i_m_zero (2 * l2) s j2 _ _ _ w2]; ring
      · rw [w3i_m_zero (2 * l1) s j1 _ _ _ w1]; ring
    rw [Finset.sum_congr rfl fun q1 h1 => Finset.sum_congr rfl fun q2 h2 => Finset.sum_congr rfl fun r hr => hT q1 h1 q2 h2 r hr]
    simp only [← Finset.mul_sum]
    have hR : ∑ q1 ∈ Finset.range (2 * l1 + 1), (-1 : ℝ) ^ q1 * ∑ q2 ∈ Finset.range (2 * l2 + 1), (-1 : ℝ) ^ q2 * ∑ r ∈ Finset.range (s + 1), (-1 : ℝ) ^ r *
        (w3i (2 * l1) s j1 q1 r i1 * w3i (2 * l1) (2 * κ) (2 * l2) (2 * l1 - q1) iq q2 * w3i (2 * l2) s j2 (2 * l2 - q2) (s - r) i2) =
        recF (2 * l1) (2 * l2) s (2 * κ) j1 j2 i1 iq i2 := rfl
    rw [hR, R, hL, hC, ← sgn_natCast, ← sgn_natCast, ← sgn_natCast]
    have es : sgn (((j1 : ℤ) - i1) + (2 * (l1 : ℤ) + s + j2 + 2 * κ) / 2 + ((j1 : ℤ) + s + 2 * l1) / 2 + ((l1 : ℤ) + l2 + κ) + s) *
        (sgn (((j1 + s + 2 * l1) / 2 : ℕ) : ℤ) * sgn (((2 * l1 + 2 * l2 + 2 * κ) / 2 : ℕ) : ℤ) * sgn (s : ℤ)) = sgn ((j1 : ℤ) - i1) * sgn ((2 * (l1 : ℤ) + s + j2 + 2 * κ) / 2) := by
      rw [show (((j1 + s + 2 * l1) / 2 : ℕ) : ℤ) = ((j1 : ℤ) + s + 2 * l1) / 2 by omega, show (((2 * l1 + 2 * l2 + 2 * κ) / 2 : ℕ) : ℤ) = (l1 : ℤ) + l2 + κ by omega]
      generalize ((j1 : ℤ) + s + 2 * l1) / 2 = X
      generalize (2 * (l1 : ℤ) + s + j2 + 2 * κ) / 2 = Z
      rw [sgn_mul, sgn_mul, sgn_mul, sgn_mul]
      apply sgn_congr
      rw [show (j1 : ℤ) - i1 + Z + X + ((l1 : ℤ) + l2 + κ) + s + (X + ((l1 : ℤ) + l2 + κ) + s) - (j1 - i1 + Z) = 2 * (X + l1 + l2 + κ + s) by ring]
      omega
    linear_combination (Real.sqrt (((j1 : ℝ) + 1) * ((j2 : ℝ) + 1)) * w6j ((2 * l1 : ℕ) : ℤ) j1 s j2 ((2 * l2 : ℕ) : ℤ) ((2 * κ : ℕ) : ℤ) * w3i j1 (2 * κ) j2 i1 iq i2) * es
  · have z : ∀ a b μ1 μ2 : ℤ, μ1 - μ2 = m1 - m2 → angularSpec κ a b μ1 μ2 = 0 := by
      intro a b μ1 μ2 h
      unfold angularSpec
      rw [w3j_invalid, mul_zero]
      intro hv
      obtain ⟨_, _, _, _, _, _, _, _, _, h10, _⟩ := hv
      rw [h] at h10
      exact hq h10
    rw [z j1 j2 m1 m2 rfl, zero_mul]
    refine Finset.sum_eq_zero fun q1 _ => Finset.sum_eq_zero fun q2 _ => Finset.sum_eq_zero fun r _ => ?_
    unfold clebsch
    dsimp only
    by_cases w1 : 2 * (l1 : ℤ) - 2 * q1 + ((s : ℤ) - 2 * r) = m1
    · by_cases w2 : 2 * (l2 : ℤ) - 2 * q2 + ((s : ℤ) - 2 * r) = m2
      · rw [z (2 * l1) (2 * l2) (2 * (l1 : ℤ) - 2 * q1) (2 * (l2 : ℤ) - 2 * q2) (by omega), mul_zero]
      · have : w3j (2 * (l2 : ℤ)) s j2 (2 * (l2 : ℤ) - 2 * q2) ((s : ℤ) - 2 * r) (-m2) = 0 := w3j_invalid (by unfold Valid3; omega)
        rw [this]; ring
    · have : w3j (2 * (l1 : ℤ)) s j1 (2 * (l1 : ℤ) - 2 * q1) ((s : ℤ) - 2 * r) (-m1) = 0 := w3j_invalid (by unfold Valid3; omega)
      rw [this]; ring

theorem harmonic_eq (κ l1 l2 μ1 μ2 : ℤ) (h : μ1 % 2 = 0) : harmonicElt κ l1 l2 μ1 μ2 = angularSpec κ (2 * l1) (2 * l2) μ1 μ2 * multipoleSpec κ l1 l2 := by
  unfold harmonicElt angularSpec multipoleSpec
  rw [show (2 * l1 - μ1) / 2 = l1 - μ1 / 2 by omega]

theorem orbitalOnly_mul (l1 l2 s j1 j2 m1 m2 : ℤ) (op : ℤ → ℤ → ℝ) (c : ℝ) :
    orbitalOnly l1 l2 s j1 j2 m1 m2 (fun μ1 μ2 => op μ1 μ2 * c) = orbitalOnly l1 l2 s j1 j2 m1 m2 op * c := by
  unfold orbitalOnly
  rw [Finset.sum_mul]
  refine Finset.sum_congr rfl fun _ _ => ?_
  rw [Finset.sum_mul]
  refine Finset.sum_congr rfl fun _ _ => ?_
  rw [Finset.sum_mul]
  exact Finset.sum_congr rfl fun _ _ => by ring

theorem orbitalOnly_congr (l1 l2 s j1 j2 m1 m2 : ℤ) (op op' : ℤ → ℤ → ℝ) (h : ∀ μ1 μ2, μ1 % 2 = 0 → μ2 % 2 = 0 → op μ1 μ2 = op' μ1 μ2) :
    orbitalOnly l1 l2 s j1 j2 m1 m2 op = orbitalOnly l1 l2 s j1 j2 m1 m2 op' := by
  unfold orbitalOnly
  exact Finset.sum_congr rfl fun _ _ => Finset.sum_congr rfl fun _ _ => Finset.sum_congr rfl fun _ _ => by rw [h _ _ (by omega) (by omega)]

/-- `orbital_recouple` for physical states. -/
theorem recouple_physical (a b : QN) (κ : ℤ) (hκ : 0 ≤ κ) (ha : a.Physical) (hb : b.Physical) (hss : a.s = b.s) :
    orbitalOnly a.l b.l a.s a.j b.j a.m b.m (fun μ1 μ2 => angularSpec κ (2 * a.l) (2 * b.l) μ1 μ2) =
      angularSpec κ a.j b.j a.m b.m * commutesSSpec a.s κ a.l b.l a.j b.j := by
  unfold QN.Physical at ha hb
  obtain ⟨a1, a2, a3, a4, a5, a6, a7⟩ := ha
  obtain ⟨b1, b2, b3, b4, b5, b6, b7⟩ := hb
  rw [abs_le] at a3 b3
  have hj1 := (abs_nonneg a.m).trans a6
  have hj2 := (abs_nonneg b.m).trans b6
  have R := orbital_recouple a.l.toNat b.l.toNat a.s.toNat a.j.toNat b.j.toNat κ.toNat a.m b.m (by unfold TriN; omega) (by unfold TriN; omega)
    (by omega) (by omega) (by omega) (by omega)
  rwa [Int.toNat_of_nonneg a1, Int.toNat_of_nonneg b1, Int.toNat_of_nonneg a2, Int.toNat_of_nonneg hj1, Int.toNat_of_nonneg hj2, Int.toNat_of_nonneg hκ] at R

/-- **C118 (electric operators).** For all states of one species (every spin) and all κ: the electric multipole element (in particular the dipole element) that the library returns
is e times the radial integral times the element of the spherical harmonic C^κ_q, acting on the position alone: with both states written as Σ ⟨l μ, s σ|j m⟩ Y_lμ χ_σ, the spin
projection is the same on both sides and the orbital element is the Gaunt integral. -/
theorem C118_electric (C : ElemConsts) (radial : RadKey → ℝ) (me : Method) (a b : QN) (kr κ : ℤ) (hκ : 0 ≤ κ)
    (ha : a.Physical) (hb : b.Physical) (hsp : a.species = b.species) (hss : a.s = b.s) :
    electricMultipole C radial me a b kr κ = .ok (C.e * radial (RadKey.make me a.species kr a.n b.n a.l b.l a.j b.j) *
      orbitalOnly a.l b.l a.s a.j b.j a.m b.m (fun μ1 μ2 => harmonicElt κ a.l b.l μ1 μ2)) := by
  rw [electricMultipole_eq C radial me a b kr κ ha hb hsp hss, orbitalOnly_congr _ _ _ _ _ _ _ _ _ (fun μ1 μ2 h _ => harmonic_eq κ a.l b.l μ1 μ2 h), orbitalOnly_mul,
    recouple_physical a b κ hκ ha hb hss]

/-- Not vacuous: S₁/₂ and P₃/₂ of rubidium, dipole. -/
example : qnS.Physical ∧ qnP.Physical ∧ qnS.species = qnP.species ∧ qnS.s = qnP.s := by
  unfold QN.Physical qnS qnP; simp

end PI
