import Verif.Rot.Decouple
import Verif.Element.Lande
import Verif.Field.Props

/-!
# C118: the spin part of the magnetic dipole operator, and its decomposition into orbit and spin
-/

namespace PI

/-! ## Specification -/

/-- The element of an operator that acts only on the spin of the electron, between the states |(l s) j₁ m₁⟩ and |(l s) j₂ m₂⟩: both states are written with an orbital
projection μ, the same one on both sides, and spin projections σ₁, σ₂; `op σ₁ σ₂` are the elements between the spin states. -/
noncomputable def spinOnly (l s j1 j2 m1 m2 : ℤ) (op : ℤ → ℤ → ℝ) : ℝ :=
  ∑ p ∈ Finset.range (2 * l.toNat + 1), ∑ r1 ∈ Finset.range (s.toNat + 1), ∑ r2 ∈ Finset.range (s.toNat + 1),
    clebsch (2 * l) s j1 (2 * l - 2 * p) (s - 2 * r1) m1 * clebsch (2 * l) s j2 (2 * l - 2 * p) (s - 2 * r2) m2 * op (s - 2 * r1) (s - 2 * r2)

/-! ## Coupled and uncoupled elements -/

theorem sign_term' (L1 L2 S j1 j2 i1 i2 q1 q2 r m1 m2 X Y : ℤ) (hX : L1 + S + j1 = 2 * X) (hY : L2 + S + j2 = 2 * Y) (e1 : m1 = 2 * i1 - j1) (e2 : m2 = j2 - 2 * i2)
    (w2 : Y = L2 - q2 + (S - r) + i2) :
    sgn ((L1 - S + m1) / 2) * sgn ((L2 - S + m2) / 2) * sgn Y * sgn q1 = sgn ((j1 - i1) + X + Y + L2 + S) * (sgn q1 * sgn q2 * sgn r) := by
  rw [show (L1 - S + m1) / 2 = X - S - j1 + i1 by omega, show (L2 - S + m2) / 2 = Y - S - i2 by omega]
  rw [sgn_mul, sgn_mul, sgn_mul, sgn_mul, sgn_mul, sgn_mul]
  apply sgn_congr
  rw [show X - S - j1 + i1 + (Y - S - i2) + Y + q1 - (j1 - i1 + X + Y + L2 + S + (q1 + q2 + r)) = 2 * (i1 - j1 - S - q2 - r) by rw [w2]; ring]
  omega

/-- A tensor operator acting on the first of two coupled momenta, given the value of the contraction. -/
theorem recouple_gen (L1 L2 S κ J1 J2 : ℕ) (m1 m2 : ℤ) (c : ℝ) (ta : TriN L1 S J1) (td : TriN L2 S J2) (pL : (L1 + L2) % 2 = 0)
    (hc : ∀ i1 ≤ J1, ∀ iq ≤ 2 * κ, ∀ i2 ≤ J2, recF L1 L2 S (2 * κ) J1 J2 i1 iq i2 = c * w3i J1 (2 * κ) J2 i1 iq i2)
    (h1 : |m1| ≤ J1) (h2 : |m2| ≤ J2) (p1 : ((J1 : ℤ) + m1) % 2 = 0) (p2 : ((J2 : ℤ) + m2) % 2 = 0) :
    ∑ q1 ∈ Finset.range (L1 + 1), ∑ q2 ∈ Finset.range (L2 + 1), ∑ r ∈ Finset.range (S + 1),
      clebsch L1 S J1 ((L1 : ℤ) - 2 * q1) ((S : ℤ) - 2 * r) m1 * clebsch L2 S J2 ((L2 : ℤ) - 2 * q2) ((S : ℤ) - 2 * r) m2 *
        angularSpec κ L1 L2 ((L1 : ℤ) - 2 * q1) ((L2 : ℤ) - 2 * q2) =
      sgn (((L1 : ℤ) + S + J1) / 2 + ((L2 : ℤ) + S + J2) / 2 + L2 + S) * Real.sqrt (((J1 : ℝ) + 1) * ((J2 : ℝ) + 1)) * c * angularSpec κ J1 J2 m1 m2 := by
  rw [abs_le] at h1 h2
  unfold TriN at ta td
  obtain ⟨i1, hi1, e1⟩ : ∃ i : ℕ, i ≤ J1 ∧ m1 = 2 * (i : ℤ) - J1 := ⟨((m1 + J1) / 2).toNat, by omega, by omega⟩
  obtain ⟨i2, hi2, e2⟩ : ∃ i : ℕ, i ≤ J2 ∧ m2 = (J2 : ℤ) - 2 * i := ⟨(((J2 : ℤ) - m2) / 2).toNat, by omega, by omega⟩
  by_cases hq : |m1 - m2| ≤ 2 * (κ : ℤ)
  · rw [abs_le] at hq
    obtain ⟨iq, hiq, e3⟩ : ∃ i : ℕ, i ≤ 2 * κ ∧ m1 - m2 = 2 * (κ : ℤ) - 2 * i := ⟨((κ : ℤ) - (m1 - m2) / 2).toNat, by omega, by omega⟩
    have R := hc i1 hi1 iq hiq i2 hi2
    have hL : angularSpec κ J1 J2 m1 m2 = sgn ((J1 : ℤ) - i1) * w3i J1 (2 * κ) J2 i1 iq i2 := by
      unfold angularSpec w3i
      rw [show ((J1 : ℤ) - m1) / 2 = (J1 : ℤ) - i1 by omega, show -m1 = (J1 : ℤ) - 2 * i1 by omega, show m1 - m2 = ((2 * κ : ℕ) : ℤ) - 2 * iq by push_cast; omega, e2]
      push_cast; rfl
    have hT : ∀ q1 ∈ Finset.range (L1 + 1), ∀ q2 ∈ Finset.range (L2 + 1), ∀ r ∈ Finset.range (S + 1),
        clebsch (L1 : ℤ) S J1 ((L1 : ℤ) - 2 * q1) ((S : ℤ) - 2 * r) m1 * clebsch (L2 : ℤ) S J2 ((L2 : ℤ) - 2 * q2) ((S : ℤ) - 2 * r) m2 *
          angularSpec κ L1 L2 ((L1 : ℤ) - 2 * q1) ((L2 : ℤ) - 2 * q2) =
        sgn (((J1 : ℤ) - i1) + ((L1 : ℤ) + S + J1) / 2 + ((L2 : ℤ) + S + J2) / 2 + L2 + S) * Real.sqrt (((J1 : ℝ) + 1) * ((J2 : ℝ) + 1)) *
          ((-1) ^ q1 * ((-1) ^ q2 * ((-1) ^ r * (w3i L1 S J1 q1 r i1 * w3i L1 (2 * κ) L2 (L1 - q1) iq q2 * w3i L2 S J2 (L2 - q2) (S - r) i2)))) := by
      intro q1 h1 q2 h2 r hr
      have r1 := Finset.mem_range.1 h1
      have r2 := Finset.mem_range.1 h2
      have r3 := Finset.mem_range.1 hr
      have a1 : w3j (L1 : ℤ) S J1 ((L1 : ℤ) - 2 * q1) ((S : ℤ) - 2 * r) (-m1) = w3i L1 S J1 q1 r i1 := by
        unfold w3i; rw [e1]; congr 1; ring
      have a2 : w3j (L2 : ℤ) S J2 ((L2 : ℤ) - 2 * q2) ((S : ℤ) - 2 * r) (-m2) = sgn (((L2 : ℤ) + (S : ℤ) + J2) / 2) * w3i L2 S J2 (L2 - q2) (S - r) i2 := by
        have f := w3i_flip L2 S J2 (L2 - q2) (S - r) i2 (by omega) (by omega) hi2
        rw [← f, show L2 - (L2 - q2) = q2 by omega, show S - (S - r) = r by omega]
        unfold w3i; rw [e2]; push_cast [Nat.cast_sub hi2]; congr 1; ring
      unfold clebsch
      rw [a1, a2]
      by_cases w1 : L1 + S + J1 = 2 * (q1 + r + i1)
      · by_cases w2 : L2 + S + J2 = 2 * (L2 - q2 + (S - r) + i2)
        · have a3 : angularSpec κ L1 L2 ((L1 : ℤ) - 2 * q1) ((L2 : ℤ) - 2 * q2) = sgn q1 * w3i L1 (2 * κ) L2 (L1 - q1) iq q2 := by
            unfold angularSpec w3i
            rw [show ((L1 : ℤ) - ((L1 : ℤ) - 2 * q1)) / 2 = q1 by omega]
            congr 1
            push_cast [Nat.cast_sub (show q1 ≤ L1 by omega)]
            congr 1 <;> omega
          rw [a3, ← sgn_natCast, ← sgn_natCast, ← sgn_natCast, Real.sqrt_mul (by positivity)]
          have es := sign_term' L1 L2 S J1 J2 i1 i2 q1 q2 r m1 m2 (((L1 : ℤ) + S + J1) / 2) (((L2 : ℤ) + S + J2) / 2) (by omega) (by omega) e1 e2 (by omega)
          linear_combination (Real.sqrt ((J1 : ℝ) + 1) * Real.sqrt ((J2 : ℝ) + 1) * w3i L1 S J1 q1 r i1 * w3i L1 (2 * κ) L2 (L1 - q1) iq q2 *
            w3i L2 S J2 (L2 - q2) (S - r) i2) * es
        · rw [w3i_m_zero L2 S J2 _ _ _ w2]; ring
      · rw [w3i_m_zero L1 S J1 _ _ _ w1]; ring
    rw [Finset.sum_congr rfl fun q1 h1 => Finset.sum_congr rfl fun q2 h2 => Finset.sum_congr rfl fun r hr => hT q1 h1 q2 h2 r hr]
    simp only [← Finset.mul_sum]
    have hR : ∑ q1 ∈ Finset.range (L1 + 1), (-1 : ℝ) ^ q1 * ∑ q2 ∈ Finset.range (L2 + 1), (-1 : ℝ) ^ q2 * ∑ r ∈ Finset.range (S + 1), (-1 : ℝ) ^ r *
        (w3i L1 S J1 q1 r i1 * w3i L1 (2 * κ) L2 (L1 - q1) iq q2 * w3i L2 S J2 (L2 - q2) (S - r) i2) =
        recF L1 L2 S (2 * κ) J1 J2 i1 iq i2 := rfl
    rw [hR, R, hL]
    have es : sgn (((J1 : ℤ) - i1) + ((L1 : ℤ) + S + J1) / 2 + ((L2 : ℤ) + S + J2) / 2 + L2 + S) =
        sgn (((L1 : ℤ) + S + J1) / 2 + ((L2 : ℤ) + S + J2) / 2 + L2 + S) * sgn ((J1 : ℤ) - i1) := by
      rw [sgn_mul]; congr 1; ring
    rw [es]; ring
  · have z : ∀ a b μ1 μ2 : ℤ, μ1 - μ2 = m1 - m2 → angularSpec κ a b μ1 μ2 = 0 := by
      intro a b μ1 μ2 h
      unfold angularSpec
      rw [w3j_invalid, mul_zero]
      intro hv
      obtain ⟨_, _, _, _, _, _, _, _, _, h10, _⟩ := hv
      rw [h] at h10
      exact hq h10
    rw [z J1 J2 m1 m2 rfl, mul_zero]
    refine Finset.sum_eq_zero fun q1 _ => Finset.sum_eq_zero fun q2 _ => Finset.sum_eq_zero fun r _ => ?_
    unfold clebsch
    by_cases w1 : (L1 : ℤ) - 2 * q1 + ((S : ℤ) - 2 * r) = m1
    · by_cases w2 : (L2 : ℤ) - 2 * q2 + ((S : ℤ) - 2 * r) = m2
      · rw [z L1 L2 ((L1 : ℤ) - 2 * q1) ((L2 : ℤ) - 2 * q2) (by omega), mul_zero]
      · have : w3j (L2 : ℤ) S J2 ((L2 : ℤ) - 2 * q2) ((S : ℤ) - 2 * r) (-m2) = 0 := w3j_invalid (by unfold Valid3; omega)
        rw [this]; ring
    · have : w3j (L1 : ℤ) S J1 ((L1 : ℤ) - 2 * q1) ((S : ℤ) - 2 * r) (-m1) = 0 := w3j_invalid (by unfold Valid3; omega)
      rw [this]; ring

theorem clebsch_swap (L S J p r i : ℕ) (hp : p ≤ L) (hr : r ≤ S) (hi : i ≤ J) (par : (L + S + J) % 2 = 0) :
    clebsch L S J ((L : ℤ) - 2 * p) ((S : ℤ) - 2 * r) (-((J : ℤ) - 2 * i)) =
      sgn ((L : ℤ) - S) * sgn (((L : ℤ) + S + J) / 2) * clebsch S L J ((S : ℤ) - 2 * r) ((L : ℤ) - 2 * p) (-((J : ℤ) - 2 * i)) := by
  have e1 := w3i_cyc J L S i p r hi hp hr
  have e2 := w3j_swap (J : ℤ) L S ((J : ℤ) - 2 * i) ((L : ℤ) - 2 * p) ((S : ℤ) - 2 * r)
  have e3 := w3i_cyc S L J r p i hr hp hi
  unfold w3i at e1 e3
  unfold clebsch
  rw [neg_neg, e1, e2, show ((J : ℤ) + L + S) / 2 = ((L : ℤ) + S + J) / 2 by congr 1; ring]
  have es : sgn (((L : ℤ) - S + -((J : ℤ) - 2 * i)) / 2) = sgn ((L : ℤ) - S) * sgn (((S : ℤ) - L + -((J : ℤ) - 2 * i)) / 2) := by
    rw [sgn_mul]; congr 1; omega
  rw [es]; ring

/-- A tensor operator on the spin between coupled states. -/
theorem spin_recouple (l s κ j1 j2 : ℕ) (m1 m2 : ℤ) (ta : TriN s (2 * l) j1) (td : TriN s (2 * l) j2)
    (h1 : |m1| ≤ j1) (h2 : |m2| ≤ j2) (p1 : ((j1 : ℤ) + m1) % 2 = 0) (p2 : ((j2 : ℤ) + m2) % 2 = 0) :
    spinOnly l s j1 j2 m1 m2 (fun σ1 σ2 => angularSpec κ s s σ1 σ2) = angularSpec κ j1 j2 m1 m2 * commutesLSpec s κ l l j1 j2 := by
  have G := recouple_gen s s (2 * l) κ j1 j2 m1 m2 _ ta td (by omega) (recF_six s s (2 * l) (2 * κ) j1 j2 ta td (by omega)) h1 h2 p1 p2
  rw [abs_le] at h1 h2
  unfold TriN at ta td
  obtain ⟨i1, hi1, e1⟩ : ∃ i : ℕ, i ≤ j1 ∧ m1 = -((j1 : ℤ) - 2 * i) := ⟨((m1 + j1) / 2).toNat, by omega, by omega⟩
  obtain ⟨i2, hi2, e2⟩ : ∃ i : ℕ, i ≤ j2 ∧ m2 = -((j2 : ℤ) - 2 * i) := ⟨((m2 + j2) / 2).toNat, by omega, by omega⟩
  have hT : spinOnly l s j1 j2 m1 m2 (fun σ1 σ2 => angularSpec κ s s σ1 σ2) = sgn ((((2 * l : ℕ) : ℤ) + s + j1) / 2) * sgn ((((2 * l : ℕ) : ℤ) + s + j2) / 2) *
      ∑ q1 ∈ Finset.range (s + 1), ∑ q2 ∈ Finset.range (s + 1), ∑ r ∈ Finset.range (2 * l + 1),
      clebsch s (2 * l : ℕ) j1 ((s : ℤ) - 2 * q1) (((2 * l : ℕ) : ℤ) - 2 * r) m1 * clebsch s (2 * l : ℕ) j2 ((s : ℤ) - 2 * q2) (((2 * l : ℕ) : ℤ) - 2 * r) m2 *
        angularSpec κ s s ((s : ℤ) - 2 * q1) ((s : ℤ) - 2 * q2) := by
    unfold spinOnly
    rw [Int.toNat_natCast, Int.toNat_natCast, Finset.sum_comm, Finset.mul_sum]
    refine Finset.sum_congr rfl fun r1 hr1 => ?_
    rw [Finset.sum_comm, Finset.mul_sum]
    refine Finset.sum_congr rfl fun r2 hr2 => ?_
    rw [Finset.mul_sum]
    refine Finset.sum_congr rfl fun p hp => ?_
    have b1 := Finset.mem_range.1 hr1
    have b2 := Finset.mem_range.1 hr2
    have b3 := Finset.mem_range.1 hp
    have c1 := clebsch_swap (2 * l) s j1 p r1 i1 (by omega) (by omega) hi1 (by omega)
    have c2 := clebsch_swap (2 * l) s j2 p r2 i2 (by omega) (by omega) hi2 (by omega)
    rw [← e1] at c1
    rw [← e2] at c2
    have ss := sgn_self (((2 * l : ℕ) : ℤ) - (s : ℤ))
    push_cast at c1 c2 ss ⊢
    rw [c1, c2]
    linear_combination (sgn ((2 * (l : ℤ) + s + j1) / 2) * sgn ((2 * (l : ℤ) + s + j2) / 2) * clebsch s (2 * (l : ℤ)) j1 (s - 2 * r1) (2 * l - 2 * p) m1 *
      clebsch s (2 * (l : ℤ)) j2 (s - 2 * r2) (2 * l - 2 * p) m2 * angularSpec κ s s (s - 2 * (r1 : ℤ)) (s - 2 * (r2 : ℤ))) * ss
  rw [hT, G]
  unfold commutesLSpec
  rw [if_pos rfl]
  have es : sgn ((((2 * l : ℕ) : ℤ) + s + j1) / 2) * sgn ((((2 * l : ℕ) : ℤ) + s + j2) / 2) *
      (sgn (((s : ℤ) + (2 * l : ℕ) + j1) / 2 + ((s : ℤ) + (2 * l : ℕ) + j2) / 2 + s + (2 * l : ℕ)) *
        (sgn (((j1 + 2 * l + s) / 2 : ℕ) : ℤ) * sgn (((s + s + 2 * κ) / 2 : ℕ) : ℤ) * sgn ((2 * l : ℕ) : ℤ))) =
      sgn ((2 * (l : ℤ) + s + j1 + 2 * κ) / 2) := by
    rw [show (((2 * l : ℕ) : ℤ) + s + j1) / 2 = ((j1 + 2 * l + s) / 2 : ℕ) by omega, show ((s : ℤ) + (2 * l : ℕ) + j1) / 2 = ((j1 + 2 * l + s) / 2 : ℕ) by omega,
      show ((s : ℤ) + (2 * l : ℕ) + j2) / 2 = (((2 * l : ℕ) : ℤ) + s + j2) / 2 by congr 1; ring, show (((s + s + 2 * κ) / 2 : ℕ) : ℤ) = s + κ by omega,
      show (2 * (l : ℤ) + s + j1 + 2 * κ) / 2 = ((j1 + 2 * l + s) / 2 : ℕ) + κ by omega]
    generalize (((j1 + 2 * l + s) / 2 : ℕ) : ℤ) = A
    generalize (((2 * l : ℕ) : ℤ) + s + j2) / 2 = B
    generalize ((2 * l : ℕ) : ℤ) = D
    rw [sgn_mul, sgn_mul, sgn_mul, sgn_mul, sgn_mul]
    apply sgn_congr
    rw [show A + B + (A + B + s + D + (A + ((s : ℤ) + κ) + D)) - (A + κ) = 2 * (A + B + s + D) by ring]
    omega
  rw [← es, sgn_natCast, sgn_natCast, sgn_natCast]
  push_cast
  ring

theorem spinOnly_mul (l s j1 j2 m1 m2 : ℤ) (op : ℤ → ℤ → ℝ) (c : ℝ) :
    spinOnly l s j1 j2 m1 m2 (fun μ1 μ2 => op μ1 μ2 * c) = spinOnly l s j1 j2 m1 m2 op * c := by
  unfold spinOnly
  rw [Finset.sum_mul]
  refine Finset.sum_congr rfl fun _ _ => ?_
  rw [Finset.sum_mul]
  refine Finset.sum_congr rfl fun _ _ => ?_
  rw [Finset.sum_mul]
  exact Finset.sum_congr rfl fun _ _ => by ring

/-- **C118 (magnetic dipole).** For all states of one species and spin (every spin) and the same l (every pair of fine-structure levels, not only the same one): the magnetic dipole
element the library returns is −μ_B times the radial overlap times (g_L ⟨L⟩ + g_S ⟨S⟩), where L acts on the orbital projection alone and S on the spin projection alone, with the
textbook elements of the components of an angular momentum. -/
theorem C118_magnetic (C : ElemConsts) (radial : RadKey → ℝ) (me : Method) (a b : QN) (ha : a.Physical) (hb : b.Physical) (hsp : a.species = b.species)
    (hss : a.s = b.s) (hl : a.l = b.l) :
    magneticDipole C radial me a b = .ok (-C.muB * radial (RadKey.make me a.species 0 a.n b.n a.l b.l a.j b.j) *
      (C.gL * orbitalOnly a.l a.l a.s a.j b.j a.m b.m (fun μ1 μ2 => spinElt (2 * a.l) μ1 μ2) +
        C.gS * spinOnly a.l a.s a.j b.j a.m b.m (fun σ1 σ2 => spinElt a.s σ1 σ2))) := by
  rw [magneticDipole_eq C radial me a b ha hb hsp hss hl]
  have hO := recouple_physical a b 1 (by norm_num) ha hb hss
  rw [← hl] at hO ⊢
  unfold QN.Physical at ha hb
  obtain ⟨a1, a2, a3, a4, a5, a6, a7⟩ := ha
  obtain ⟨b1, b2, b3, b4, b5, b6, b7⟩ := hb
  rw [← hl, ← hss] at b3 b4
  rw [← hss] at b5
  have hj1 := (abs_nonneg a.m).trans a6
  have hj2 := (abs_nonneg b.m).trans b6
  have o : angularSpec 1 a.j b.j a.m b.m * commutesSSpec a.s 1 a.l a.l a.j b.j * Real.sqrt (a.l * (a.l + 1) * (2 * a.l + 1)) =
      orbitalOnly a.l a.l a.s a.j b.j a.m b.m (fun μ1 μ2 => spinElt (2 * a.l) μ1 μ2) := by
    by_cases h0 : a.l = 0
    · rw [h0]
      unfold orbitalOnly spinElt
      simp
    · have r4 := Real.sqrt_pos.2 (red4_pos (2 * a.l) (by omega))
      have hq : Real.sqrt (a.l * (a.l + 1) * (2 * a.l + 1)) = Real.sqrt (red4 (2 * a.l)) / 2 := by
        rw [← sqrt_quarter]; congr 1; push_cast; ring
      rw [hq, ← hO, ← orbitalOnly_mul]
      unfold orbitalOnly
      refine Finset.sum_congr rfl fun p1 h1 => Finset.sum_congr rfl fun p2 h2 => Finset.sum_congr rfl fun r _ => ?_
      have q1 := Finset.mem_range.1 h1
      have q2 := Finset.mem_range.1 h2
      dsimp only
      rw [ang_one (2 * a.l) _ _ (by omega) (by rw [abs_le]; omega) (by rw [abs_le]; omega) (by omega) (by omega)]
      congr 1
      field_simp
  have s : angularSpec 1 a.j b.j a.m b.m * commutesLSpec a.s 1 a.l a.l a.j b.j * Real.sqrt ((a.s : ℝ) / 2 * (a.s / 2 + 1) * (a.s + 1)) =
      spinOnly a.l a.s a.j b.j a.m b.m (fun σ1 σ2 => spinElt a.s σ1 σ2) := by
    by_cases h0 : a.s = 0
    · rw [h0]
      unfold spinOnly spinElt
      simp
    · rw [sqrt_quarter]
      have r4 := Real.sqrt_pos.2 (red4_pos a.s (by omega))
      rw [abs_le] at a3 b3
      have R := spin_recouple a.l.toNat a.s.toNat 1 a.j.toNat b.j.toNat a.m b.m (by unfold TriN; omega) (by unfold TriN; omega) (by omega) (by omega) (by omega) (by omega)
      rw [Int.toNat_of_nonneg a1, Int.toNat_of_nonneg a2, Int.toNat_of_nonneg hj1, Int.toNat_of_nonneg hj2, Nat.cast_one] at R
      rw [← R, ← spinOnly_mul]
      unfold spinOnly
      refine Finset.sum_congr rfl fun p _ => Finset.sum_congr rfl fun r1 h1 => Finset.sum_congr rfl fun r2 h2 => ?_
      have q1 := Finset.mem_range.1 h1
      have q2 := Finset.mem_range.1 h2
      dsimp only
      rw [ang_one a.s _ _ (by omega) (by rw [abs_le]; omega) (by rw [abs_le]; omega) (by omega) (by omega)]
      congr 1
      field_simp
  rw [← o, ← s]
  ring_nf

/-- Not vacuous: the two fine-structure levels of a P state, and two of a triplet (s = 1) P state. -/
example : (⟨"Rb", 60, 1, 3, 1, 1⟩ : QN).Physical ∧ (⟨"Rb", 60, 1, 1, 1, 1⟩ : QN).Physical ∧ (⟨"Sr3", 60, 1, 4, 2, 2⟩ : QN).Physical ∧ (⟨"Sr3", 60, 1, 2, 2, 2⟩ : QN).Physical := by
  unfold QN.Physical; simp

end PI
