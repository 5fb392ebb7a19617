import Verif.Rot.DecoupleSpin
import Mathlib.LinearAlgebra.Matrix.NonsingularInverse
import Mathlib.Data.Fintype.BigOperators
import Mathlib.Data.Nat.Choose.Central

/-!
# C119: complete fine-structure multiplets
-/

namespace PI

/-! ## Specification -/

/-- The sum of `F j m` over all states of a fine-structure multiplet: all j = l+s, l+s−1, …, |l−s| and all m (l and s as orbital and spin momentum, everything doubled). -/
noncomputable def multipletSum (L S : ℕ) (F : ℤ → ℤ → ℝ) : ℝ :=
  ∑ t ∈ Finset.range (min L S + 1), ∑ i ∈ Finset.range (L + S - 2 * t + 1), F ((L : ℤ) + S - 2 * t) ((L : ℤ) + S - 2 * t - 2 * i)

/-- The state of the same atom and spin with other quantum numbers n, l, j, m. -/
def QN.level (a : QN) (n l j m : ℤ) : QN := { a with n := n, l := l, j := j, m := m }

/-! ## Orthogonality of the symbols -/

theorem w3i_scalar (L p : ℕ) (hp : p ≤ L) : w3i L 0 L (L - p) 0 p = (-1) ^ p * w3i L 0 L L 0 0 := by
  induction p with
  | zero => simp
  | succ p ih =>
    have l := w3i_ladder L 0 L (L - (p + 1)) 0 p (by omega) le_rfl (by omega)
    rw [ladC_top, zero_mul, add_zero, ladC_sym L p (by omega), show L - (p + 1) + 1 = L - p by omega, ih (by omega), ← mul_add] at l
    have := (mul_eq_zero.1 l).resolve_left (ladC_ne L p (by omega))
    rw [pow_succ]
    linear_combination this

theorem w3i_scalar_ne (L : ℕ) : w3i L 0 L L 0 0 ≠ 0 := by
  have e := w3i_end 0 0 L
  simp only [zero_add, add_zero, Nat.choose_self, Nat.cast_one, Real.sqrt_one, div_one, pow_zero, one_mul] at e
  rw [e]; exact (invNorm_pos 0 0 L).ne'

theorem ortho_ne (L S J1 J2 i1 i2 : ℕ) (ta : TriN L S J1) (td : TriN L S J2) (h1 : i1 ≤ J1) (h2 : i2 ≤ J2) (hne : ¬ (J1 = J2 ∧ i1 = i2)) :
    ∑ p ∈ Finset.range (L + 1), ∑ r ∈ Finset.range (S + 1), w3i L S J1 p r i1 * w3i L S J2 p r i2 = 0 := by
  have R := recF_six L L S 0 J1 J2 ta td (by omega) i1 h1 0 le_rfl (J2 - i2) (by omega)
  have z : w3i J1 0 J2 i1 0 (J2 - i2) = 0 := by
    by_cases hJ : J1 = J2
    · exact w3i_m_zero _ _ _ _ _ _ (by omega)
    · unfold w3i
      rw [w3j_invalid]
      intro hv
      unfold Valid3 at hv
      omega
  rw [z, mul_zero] at R
  unfold recF at R
  have e : ∀ p ∈ Finset.range (L + 1), (-1 : ℝ) ^ p * ∑ p2 ∈ Finset.range (L + 1), (-1 : ℝ) ^ p2 * ∑ σ ∈ Finset.range (S + 1), (-1 : ℝ) ^ σ *
      (w3i L S J1 p σ i1 * w3i L 0 L (L - p) 0 p2 * w3i L S J2 (L - p2) (S - σ) (J2 - i2)) =
      ((-1) ^ ((L + S + J1) / 2 - i1) * (w3i L 0 L L 0 0 * sgn (((L : ℤ) + S + J2) / 2))) * ∑ r ∈ Finset.range (S + 1), w3i L S J1 p r i1 * w3i L S J2 p r i2 := by
    intro p hp
    have rp := Finset.mem_range.1 hp
    rw [Finset.sum_eq_single p]
    · rw [Finset.mul_sum, Finset.mul_sum, Finset.mul_sum]
      refine Finset.sum_congr rfl fun r hr => ?_
      have rr := Finset.mem_range.1 hr
      rw [w3i_flip L S J2 p r i2 (by omega) (by omega) h2, w3i_scalar L p (by omega)]
      by_cases w : L + S + J1 = 2 * (p + r + i1)
      · rw [show (L + S + J1) / 2 - i1 = p + r by omega, pow_add]
        have : ((-1 : ℝ) ^ p) * (-1) ^ p = 1 := by rw [← pow_add, ← two_mul, pow_mul, neg_one_sq, one_pow]
        linear_combination ((-1 : ℝ) ^ p * (-1) ^ r * (w3i L 0 L L 0 0 * sgn (((L : ℤ) + S + J2) / 2)) * (w3i L S J1 p r i1 * w3i L S J2 p r i2)) * this
      · rw [w3i_m_zero L S J1 _ _ _ w]; ring
    · intro p2 hp2 hne
      have r2 := Finset.mem_range.1 hp2
      rw [Finset.sum_eq_zero, mul_zero]
      intro r _
      rw [w3i_m_zero L 0 L (L - p) 0 p2 (by omega)]; ring
    · intro hc; exact absurd hp hc
  rw [Finset.sum_congr rfl e, ← Finset.mul_sum] at R
  refine (mul_eq_zero.1 R).resolve_left ?_
  exact mul_ne_zero (pow_ne_zero _ (by norm_num)) (mul_ne_zero (w3i_scalar_ne L) (sgn_ne_zero _))

theorem ortho_eq (L S J i : ℕ) (ta : TriN L S J) (h : i ≤ J) :
    ∑ p ∈ Finset.range (L + 1), ∑ r ∈ Finset.range (S + 1), w3i L S J p r i * w3i L S J p r i = 1 / ((J : ℝ) + 1) := by
  unfold TriN at ta
  have s := sq3_eq J L S i (by omega) h
  unfold sq3 at s
  rw [← s]
  refine Finset.sum_congr rfl fun p hp => Finset.sum_congr rfl fun r hr => ?_
  have := Finset.mem_range.1 hp
  have := Finset.mem_range.1 hr
  rw [w3i_cyc J L S i p r h (by omega) (by omega), sq]

/-- **C119 (orthonormality).** The states of a multiplet, written with the Clebsch–Gordan coefficients formed from the symbols of the library, are orthonormal. -/
theorem C119_orthonormal (L S J1 J2 i1 i2 : ℕ) (ta : TriN L S J1) (td : TriN L S J2) (h1 : i1 ≤ J1) (h2 : i2 ≤ J2) :
    ∑ p ∈ Finset.range (L + 1), ∑ r ∈ Finset.range (S + 1),
      clebsch L S J1 ((L : ℤ) - 2 * p) ((S : ℤ) - 2 * r) ((J1 : ℤ) - 2 * i1) * clebsch L S J2 ((L : ℤ) - 2 * p) ((S : ℤ) - 2 * r) ((J2 : ℤ) - 2 * i2) =
      if J1 = J2 ∧ i1 = i2 then 1 else 0 := by
  have e : ∀ p r : ℕ, clebsch L S J1 ((L : ℤ) - 2 * p) ((S : ℤ) - 2 * r) ((J1 : ℤ) - 2 * i1) * clebsch L S J2 ((L : ℤ) - 2 * p) ((S : ℤ) - 2 * r) ((J2 : ℤ) - 2 * i2) =
      (sgn (((L : ℤ) - S + ((J1 : ℤ) - 2 * i1)) / 2) * sgn (((L : ℤ) - S + ((J2 : ℤ) - 2 * i2)) / 2) * (Real.sqrt ((J1 : ℝ) + 1) * Real.sqrt ((J2 : ℝ) + 1))) *
        (w3i L S J1 p r (J1 - i1) * w3i L S J2 p r (J2 - i2)) := by
    intro p r
    unfold clebsch w3i
    rw [show -((J1 : ℤ) - 2 * i1) = (J1 : ℤ) - 2 * ((J1 - i1 : ℕ) : ℤ) by omega, show -((J2 : ℤ) - 2 * i2) = (J2 : ℤ) - 2 * ((J2 - i2 : ℕ) : ℤ) by omega]
    push_cast
    ring
  simp only [e, ← Finset.mul_sum]
  by_cases hc : J1 = J2 ∧ i1 = i2
  · obtain ⟨rfl, rfl⟩ := hc
    rw [if_pos ⟨rfl, rfl⟩, ortho_eq L S J1 (J1 - i1) ta (by omega), sgn_self, one_mul, Real.mul_self_sqrt (by positivity)]
    field_simp
  · rw [if_neg hc, ortho_ne L S J1 J2 _ _ ta td (by omega) (by omega) (by omega), mul_zero]

theorem card_multiplet (L S : ℕ) : ∑ t ∈ Finset.range (min L S + 1), (L + S - 2 * t + 1) = (L + 1) * (S + 1) := by
  have h : ∀ k ≤ min L S, ∑ t ∈ Finset.range (k + 1), (L + S - 2 * t + 1) = (k + 1) * (L + S + 1 - k) := by
    intro k
    induction k with
    | zero => intro _; simp
    | succ k ih =>
      intro hk
      rw [Finset.sum_range_succ, ih (by omega)]
      obtain ⟨d, hd⟩ : ∃ d, L + S = 2 * k + 2 + d := ⟨L + S - (2 * k + 2), by omega⟩
      rw [show L + S + 1 - k = k + 3 + d by omega, show L + S - 2 * (k + 1) + 1 = d + 1 by omega, show L + S + 1 - (k + 1) = k + 2 + d by omega]
      ring
  rw [h _ le_rfl]
  rcases le_total L S with c | c
  · rw [min_eq_left c, show L + S + 1 - L = S + 1 by omega]
  · rw [min_eq_right c, show L + S + 1 - S = L + 1 by omega, mul_comm]

/-- **C119 (completeness).** The states of a multiplet span all product states: the multiplet has (2l+1)(2s+1) members and none is missing. -/
theorem C119_complete (L S p r p' r' : ℕ) (hp : p ≤ L) (hr : r ≤ S) (hp' : p' ≤ L) (hr' : r' ≤ S) :
    multipletSum L S (fun j m => clebsch L S j ((L : ℤ) - 2 * p) ((S : ℤ) - 2 * r) m * clebsch L S j ((L : ℤ) - 2 * p') ((S : ℤ) - 2 * r') m) =
      if p = p' ∧ r = r' then 1 else 0 := by
  set U : Matrix ((t : Fin (min L S + 1)) × Fin (L + S - 2 * t + 1)) (Fin (L + 1) × Fin (S + 1)) ℝ :=
    Matrix.of fun a b => clebsch L S ((L + S - 2 * (a.1 : ℕ) : ℕ) : ℤ) ((L : ℤ) - 2 * (b.1 : ℕ)) ((S : ℤ) - 2 * (b.2 : ℕ)) (((L + S - 2 * (a.1 : ℕ) : ℕ) : ℤ) - 2 * (a.2 : ℕ)) with hU
  have h1 : U * U.transpose = 1 := by
    ext ⟨t, i⟩ ⟨t', i'⟩
    rw [Matrix.mul_apply, Fintype.sum_prod_type]
    have o := C119_orthonormal L S (L + S - 2 * t) (L + S - 2 * t') i i' (by unfold TriN; omega) (by unfold TriN; omega) (by omega) (by omega)
    rw [Finset.sum_range] at o
    simp only [Finset.sum_range] at o
    simp only [hU, Matrix.transpose_apply, Matrix.of_apply]
    rw [o, Matrix.one_apply]
    by_cases ht : t = t'
    · subst ht
      by_cases hi : i = i'
      · subst hi; rw [if_pos ⟨rfl, rfl⟩, if_pos rfl]
      · rw [if_neg (fun c => hi (Fin.ext c.2)), if_neg (fun c => hi (by simpa using c))]
    · rw [if_neg (fun c => ht (Fin.ext (by omega))), if_neg (fun c => ht (congrArg Sigma.fst c))]
  have hc : Fintype.card ((t : Fin (min L S + 1)) × Fin (L + S - 2 * t + 1)) = Fintype.card (Fin (L + 1) × Fin (S + 1)) := by
    rw [Fintype.card_sigma, Fintype.card_prod, Fintype.card_fin, Fintype.card_fin, ← card_multiplet, Finset.sum_range]
    simp
  have h2 := (Matrix.mul_eq_one_comm_of_card_eq (R := ℝ) (eq := hc)).1 h1
  have h3 := congrFun (congrFun h2 (⟨p, by omega⟩, ⟨r, by omega⟩)) (⟨p', by omega⟩, ⟨r', by omega⟩)
  rw [Matrix.mul_apply, Fintype.sum_sigma, Matrix.one_apply] at h3
  simp only [hU, Matrix.transpose_apply, Matrix.of_apply, Prod.mk.injEq, Fin.mk.injEq] at h3
  rw [← h3]
  unfold multipletSum
  rw [Finset.sum_range]
  refine Finset.sum_congr rfl fun t _ => ?_
  rw [Finset.sum_range]
  refine Finset.sum_congr rfl fun i _ => ?_
  rw [show ((L + S - 2 * (t : ℕ) : ℕ) : ℤ) = (L : ℤ) + S - 2 * (t : ℕ) by omega]

/-! ## Sums over a multiplet -/

theorem multipletSum_congr (L S : ℕ) (F G : ℤ → ℤ → ℝ) (h : ∀ t i : ℕ, t ≤ min L S → i ≤ L + S - 2 * t → F ((L : ℤ) + S - 2 * t) ((L : ℤ) + S - 2 * t - 2 * i) = G ((L : ℤ) + S - 2 * t) ((L : ℤ) + S - 2 * t - 2 * i)) :
    multipletSum L S F = multipletSum L S G := by
  unfold multipletSum
  refine Finset.sum_congr rfl fun t ht => Finset.sum_congr rfl fun i hi => ?_
  have := Finset.mem_range.1 ht
  have := Finset.mem_range.1 hi
  exact h t i (by omega) (by omega)

theorem multipletSum_sum (L S n : ℕ) (F : ℕ → ℤ → ℤ → ℝ) :
    multipletSum L S (fun j m => ∑ k ∈ Finset.range n, F k j m) = ∑ k ∈ Finset.range n, multipletSum L S (F k) := by
  unfold multipletSum
  rw [Finset.sum_comm]
  refine Finset.sum_congr rfl fun t _ => ?_
  rw [Finset.sum_comm]

theorem multipletSum_mul (L S : ℕ) (c : ℝ) (F : ℤ → ℤ → ℝ) : multipletSum L S (fun j m => c * F j m) = c * multipletSum L S F := by
  unfold multipletSum
  simp only [Finset.mul_sum]

theorem multipletSum_add (L S : ℕ) (F G : ℤ → ℤ → ℝ) : multipletSum L S (fun j m => F j m + G j m) = multipletSum L S F + multipletSum L S G := by
  unfold multipletSum
  simp only [Finset.sum_add_distrib]

/-- Expansion in the product states and back. -/
theorem multiplet_expand (L S p r : ℕ) (hp : p ≤ L) (hr : r ≤ S) (v : ℕ → ℕ → ℝ) :
    multipletSum L S (fun j m => (∑ p2 ∈ Finset.range (L + 1), ∑ r2 ∈ Finset.range (S + 1), clebsch L S j ((L : ℤ) - 2 * p2) ((S : ℤ) - 2 * r2) m * v p2 r2) *
      clebsch L S j ((L : ℤ) - 2 * p) ((S : ℤ) - 2 * r) m) = v p r := by
  have e : ∀ j m : ℤ, (∑ p2 ∈ Finset.range (L + 1), ∑ r2 ∈ Finset.range (S + 1), clebsch L S j ((L : ℤ) - 2 * p2) ((S : ℤ) - 2 * r2) m * v p2 r2) *
      clebsch L S j ((L : ℤ) - 2 * p) ((S : ℤ) - 2 * r) m =
      ∑ p2 ∈ Finset.range (L + 1), ∑ r2 ∈ Finset.range (S + 1), v p2 r2 * (clebsch L S j ((L : ℤ) - 2 * p2) ((S : ℤ) - 2 * r2) m *
        clebsch L S j ((L : ℤ) - 2 * p) ((S : ℤ) - 2 * r) m) := by
    intro j m
    rw [Finset.sum_mul]
    refine Finset.sum_congr rfl fun _ _ => ?_
    rw [Finset.sum_mul]
    refine Finset.sum_congr rfl fun _ _ => ?_
    ring
  simp only [e]
  rw [multipletSum_sum]
  simp only [multipletSum_sum, multipletSum_mul]
  rw [Finset.sum_eq_single p, Finset.sum_eq_single r, C119_complete L S p r p r hp hr hp hr, if_pos ⟨rfl, rfl⟩, mul_one]
  · intro r2 h2 hne
    rw [C119_complete L S p r2 p r hp (by have := Finset.mem_range.1 h2; omega) hp hr, if_neg (fun c => hne c.2), mul_zero]
  · intro hc; exact absurd (Finset.mem_range.2 (by omega)) hc
  · intro p2 h2 hne
    refine Finset.sum_eq_zero fun r2 h3 => ?_
    rw [C119_complete L S p2 r2 p r (by have := Finset.mem_range.1 h2; omega) (by have := Finset.mem_range.1 h3; omega) hp hr, if_neg (fun c => hne c.1), mul_zero]
  · intro hc; exact absurd (Finset.mem_range.2 (by omega)) hc

/-- The length of a vector is the same in the coupled and in the product states. -/
theorem multiplet_parseval (L S : ℕ) (v : ℕ → ℕ → ℝ) :
    multipletSum L S (fun j m => (∑ p2 ∈ Finset.range (L + 1), ∑ r2 ∈ Finset.range (S + 1), clebsch L S j ((L : ℤ) - 2 * p2) ((S : ℤ) - 2 * r2) m * v p2 r2) ^ 2) =
      ∑ p ∈ Finset.range (L + 1), ∑ r ∈ Finset.range (S + 1), v p r ^ 2 := by
  have e : ∀ j m : ℤ, (∑ p2 ∈ Finset.range (L + 1), ∑ r2 ∈ Finset.range (S + 1), clebsch L S j ((L : ℤ) - 2 * p2) ((S : ℤ) - 2 * r2) m * v p2 r2) ^ 2 =
      ∑ p ∈ Finset.range (L + 1), ∑ r ∈ Finset.range (S + 1), v p r *
        ((∑ p2 ∈ Finset.range (L + 1), ∑ r2 ∈ Finset.range (S + 1), clebsch L S j ((L : ℤ) - 2 * p2) ((S : ℤ) - 2 * r2) m * v p2 r2) *
          clebsch L S j ((L : ℤ) - 2 * p) ((S : ℤ) - 2 * r) m) := by
    intro j m
    set A := ∑ p2 ∈ Finset.range (L + 1), ∑ r2 ∈ Finset.range (S + 1), clebsch L S j ((L : ℤ) - 2 * p2) ((S : ℤ) - 2 * r2) m * v p2 r2 with hA
    rw [sq]
    nth_rewrite 2 [hA]
    rw [Finset.mul_sum]
    refine Finset.sum_congr rfl fun _ _ => ?_
    rw [Finset.mul_sum]
    refine Finset.sum_congr rfl fun _ _ => ?_
    ring
  simp only [e]
  rw [multipletSum_sum]
  simp only [multipletSum_sum, multipletSum_mul]
  refine Finset.sum_congr rfl fun p hp => Finset.sum_congr rfl fun r hr => ?_
  rw [multiplet_expand L S p r (by have := Finset.mem_range.1 hp; omega) (by have := Finset.mem_range.1 hr; omega) v, sq]

/-! ## The theorems -/

/-- **C119 (members).** The sum over the multiplet runs over all physical states with this l and s, and over each of them once. -/
theorem C119_members (a : QN) (n : ℤ) (l : ℕ) (hs : 0 ≤ a.s) :
    (∀ j m, (a.level n l j m).Physical ↔ ∃ t i : ℕ, t ≤ min (2 * l) a.s.toNat ∧ i ≤ 2 * l + a.s.toNat - 2 * t ∧
      j = ((2 * l : ℕ) : ℤ) + a.s.toNat - 2 * t ∧ m = ((2 * l : ℕ) : ℤ) + a.s.toNat - 2 * t - 2 * i) ∧
    ∀ t i t' i' : ℕ, ((2 * l : ℕ) : ℤ) + a.s.toNat - 2 * t = ((2 * l : ℕ) : ℤ) + a.s.toNat - 2 * t' →
      ((2 * l : ℕ) : ℤ) + a.s.toNat - 2 * t - 2 * i = ((2 * l : ℕ) : ℤ) + a.s.toNat - 2 * t' - 2 * i' → t = t' ∧ i = i' := by
  refine ⟨fun j m => ?_, fun t i t' i' h1 h2 => by omega⟩
  unfold QN.Physical QN.level
  dsimp only
  constructor
  · rintro ⟨-, -, h3, h4, h5, h6, h7⟩
    rw [abs_le] at h3 h6
    exact ⟨((2 * l + a.s - j) / 2).toNat, ((j - m) / 2).toNat, by omega, by omega, by omega, by omega⟩
  · rintro ⟨t, i, h1, h2, rfl, rfl⟩
    refine ⟨by omega, hs, abs_le.2 ⟨by omega, by omega⟩, by omega, by omega, abs_le.2 ⟨by omega, by omega⟩, by omega⟩

theorem clebsch_zero (L S J μ σ m : ℤ) (h : μ + σ ≠ m) : clebsch L S J μ σ m = 0 := by
  unfold clebsch
  rw [w3j_invalid (by unfold Valid3; omega), mul_zero]

/-- The elements between one state and the members of a multiplet, in the product states. -/
theorem orbitalOnly_expand (l1 : ℤ) (l2 S : ℕ) (j1 m1 j m : ℤ) (op : ℤ → ℤ → ℝ) :
    orbitalOnly l1 l2 S j1 j m1 m op = ∑ p2 ∈ Finset.range (2 * l2 + 1), ∑ r ∈ Finset.range (S + 1),
      clebsch ((2 * l2 : ℕ) : ℤ) S j (((2 * l2 : ℕ) : ℤ) - 2 * p2) ((S : ℤ) - 2 * r) m *
        ∑ p1 ∈ Finset.range (2 * l1.toNat + 1), clebsch (2 * l1) S j1 (2 * l1 - 2 * p1) ((S : ℤ) - 2 * r) m1 * op (2 * l1 - 2 * p1) (2 * l2 - 2 * p2) := by
  unfold orbitalOnly
  rw [Int.toNat_natCast, Int.toNat_natCast, Finset.sum_comm]
  refine Finset.sum_congr rfl fun p2 _ => ?_
  rw [Finset.sum_comm]
  refine Finset.sum_congr rfl fun r _ => ?_
  rw [Finset.mul_sum]
  refine Finset.sum_congr rfl fun p1 _ => ?_
  push_cast
  ring

/-- **C119 (sum rule).** For every physical state and every multiplet (n₂, l₂) whose members all have the same radial integral R with it: the squares of the electric multipole elements
the library returns add up to (e R)² (2l₂+1) (l₁ κ l₂; 0 0 0)², which does not depend on j, m and the spin. -/
theorem C119_sum_rule (C : ElemConsts) (radial : RadKey → ℝ) (me : Method) (a : QN) (kr : ℤ) (κ : ℕ) (n2 : ℤ) (l2 : ℕ) (ha : a.Physical) (R : ℝ)
    (hR : ∀ j, radial (RadKey.make me a.species kr a.n n2 a.l l2 a.j j) = R) :
    ∃ x : ℤ → ℤ → ℝ, (∀ j m, (a.level n2 l2 j m).Physical → electricMultipole C radial me a (a.level n2 l2 j m) kr κ = .ok (x j m)) ∧
      multipletSum (2 * l2) a.s.toNat (fun j m => x j m ^ 2) = (C.e * R) ^ 2 * (2 * l2 + 1) * w3j (2 * a.l) (2 * κ) (2 * l2) 0 0 0 ^ 2 := by
  refine ⟨fun j m => C.e * R * orbitalOnly a.l l2 a.s a.j j a.m m (fun μ1 μ2 => harmonicElt κ a.l l2 μ1 μ2), ?_, ?_⟩
  · intro j m hb
    rw [C118_electric C radial me a (a.level n2 l2 j m) kr κ (by omega) ha hb rfl rfl]
    show Out.ok (C.e * radial (RadKey.make me a.species kr a.n n2 a.l l2 a.j j) * _) = _
    rw [hR]
    rfl
  · obtain ⟨a1, a2, a3, a4, a5, a6, a7⟩ := ha
    rw [abs_le] at a3
    have hj := (abs_nonneg a.m).trans a6
    rw [abs_le] at a6
    obtain ⟨l1, hl1⟩ := Int.eq_ofNat_of_zero_le a1
    obtain ⟨S, hS⟩ := Int.eq_ofNat_of_zero_le a2
    obtain ⟨J, hJ⟩ := Int.eq_ofNat_of_zero_le hj
    obtain ⟨i, hi⟩ : ∃ i : ℕ, a.m = (J : ℤ) - 2 * i := ⟨((a.j - a.m) / 2).toNat, by omega⟩
    have htri : TriN (2 * l1) S J := by unfold TriN; omega
    have hiJ : i ≤ J := by omega
    rw [hi, hl1, hS, hJ, Int.toNat_natCast]
    simp only [mul_pow]
    rw [multipletSum_mul]
    simp only [orbitalOnly_expand]
    rw [multiplet_parseval]
    rw [Int.toNat_natCast]
    have e : ∀ p ∈ Finset.range (2 * l2 + 1), ∀ r ∈ Finset.range (S + 1),
        (∑ p1 ∈ Finset.range (2 * l1 + 1), clebsch (2 * (l1 : ℤ)) S J (2 * (l1 : ℤ) - 2 * p1) ((S : ℤ) - 2 * r) ((J : ℤ) - 2 * i) *
          harmonicElt κ l1 l2 (2 * (l1 : ℤ) - 2 * p1) (2 * (l2 : ℤ) - 2 * p)) ^ 2 =
        ∑ p1 ∈ Finset.range (2 * l1 + 1), clebsch ((2 * l1 : ℕ) : ℤ) S J (((2 * l1 : ℕ) : ℤ) - 2 * p1) ((S : ℤ) - 2 * r) ((J : ℤ) - 2 * i) *
          clebsch ((2 * l1 : ℕ) : ℤ) S J (((2 * l1 : ℕ) : ℤ) - 2 * p1) ((S : ℤ) - 2 * r) ((J : ℤ) - 2 * i) *
          (angularSpec κ ((2 * l1 : ℕ) : ℤ) ((2 * l2 : ℕ) : ℤ) (((2 * l1 : ℕ) : ℤ) - 2 * p1) (((2 * l2 : ℕ) : ℤ) - 2 * p) ^ 2 * multipoleSpec κ l1 l2 ^ 2) := by
      intro p hp r hr
      have single : ∀ f : ℕ → ℝ, (∀ p1 : ℕ, 2 * (l1 : ℤ) - 2 * p1 + ((S : ℤ) - 2 * r) ≠ (J : ℤ) - 2 * i → f p1 = 0) →
          (∀ x y : ℕ, f x ≠ 0 → f y ≠ 0 → x = y) := by
        intro f hf x y hx hy
        have h1 : 2 * (l1 : ℤ) - 2 * x + ((S : ℤ) - 2 * r) = (J : ℤ) - 2 * i := by by_contra c; exact hx (hf x c)
        have h2 : 2 * (l1 : ℤ) - 2 * y + ((S : ℤ) - 2 * r) = (J : ℤ) - 2 * i := by by_contra c; exact hy (hf y c)
        omega
      have sqsum : ∀ (s : Finset ℕ) (f : ℕ → ℝ), (∀ x y : ℕ, f x ≠ 0 → f y ≠ 0 → x = y) → (∑ k ∈ s, f k) ^ 2 = ∑ k ∈ s, f k ^ 2 := by
        intro s f hf
        by_cases h : ∃ k ∈ s, f k ≠ 0
        · obtain ⟨k, hk, hk0⟩ := h
          rw [Finset.sum_eq_single k, Finset.sum_eq_single k]
          · intro y _ hy; by_contra c; exact hy (hf y k (fun z => c (by rw [z]; norm_num)) hk0)
          · intro c; exact absurd hk c
          · intro y _ hy; by_contra c; exact hy (hf y k c hk0)
          · intro c; exact absurd hk c
        · push Not at h
          rw [Finset.sum_eq_zero h, Finset.sum_eq_zero fun k hk => by rw [h k hk]; norm_num]
          norm_num
      rw [sqsum _ _ (single _ fun p1 hne => by rw [clebsch_zero _ _ _ _ _ _ hne, zero_mul])]
      refine Finset.sum_congr rfl fun p1 _ => ?_
      rw [harmonic_eq κ l1 l2 _ _ (by omega)]
      push_cast
      ring
    rw [Finset.sum_congr rfl fun p hp => Finset.sum_congr rfl fun r hr => e p hp r hr]
    have sw : ∀ (A : ℕ → ℕ → ℝ) (B : ℕ → ℕ → ℝ) (c : ℝ), (∑ p ∈ Finset.range (2 * l2 + 1), ∑ r ∈ Finset.range (S + 1), ∑ p1 ∈ Finset.range (2 * l1 + 1), A p1 r * (B p1 p * c)) =
        ∑ p1 ∈ Finset.range (2 * l1 + 1), ∑ r ∈ Finset.range (S + 1), A p1 r * ((∑ p ∈ Finset.range (2 * l2 + 1), B p1 p) * c) := by
      intro A B c
      rw [Finset.sum_comm]
      have : ∀ r : ℕ, (∑ p ∈ Finset.range (2 * l2 + 1), ∑ p1 ∈ Finset.range (2 * l1 + 1), A p1 r * (B p1 p * c)) =
          ∑ p1 ∈ Finset.range (2 * l1 + 1), A p1 r * ((∑ p ∈ Finset.range (2 * l2 + 1), B p1 p) * c) := by
        intro r
        rw [Finset.sum_comm]
        refine Finset.sum_congr rfl fun p1 _ => ?_
        rw [Finset.sum_mul, Finset.mul_sum]
      rw [Finset.sum_congr rfl fun r _ => this r, Finset.sum_comm]
    rw [sw]
    have o := C119_orthonormal (2 * l1) S J J i i htri htri hiJ hiJ
    rw [if_pos ⟨rfl, rfl⟩] at o
    have ms : multipoleSpec κ l1 l2 ^ 2 = (2 * (l1 : ℝ) + 1) * (2 * l2 + 1) * w3j (2 * (l1 : ℤ)) (2 * κ) (2 * l2) 0 0 0 ^ 2 := by
      unfold multipoleSpec
      rw [mul_pow, mul_pow, Real.sq_sqrt (by positivity), sq (sgn _), sgn_self]
      push_cast
      ring
    by_cases t : TriN (2 * l1) (2 * κ) (2 * l2)
    · have q : ∀ p1 ∈ Finset.range (2 * l1 + 1), ∑ p ∈ Finset.range (2 * l2 + 1), angularSpec κ ((2 * l1 : ℕ) : ℤ) ((2 * l2 : ℕ) : ℤ) (((2 * l1 : ℕ) : ℤ) - 2 * p1) (((2 * l2 : ℕ) : ℤ) - 2 * p) ^ 2 = 1 / (((2 * l1 : ℕ) : ℝ) + 1) := by
        intro p1 h1
        exact ang_from_a κ (2 * l1) (2 * l2) p1 (by have := Finset.mem_range.1 h1; omega) t
      rw [Finset.sum_congr rfl fun p1 h1 => Finset.sum_congr rfl fun r _ => by rw [q p1 h1]]
      simp only [← Finset.sum_mul]
      rw [o, ms]
      push_cast
      field_simp
    · have z : w3j (2 * (l1 : ℤ)) (2 * κ) (2 * l2) 0 0 0 = 0 := by
        refine w3j_invalid fun hv => t ?_
        unfold Valid3 at hv
        unfold TriN
        omega
      rw [ms, z]
      simp

/-- **C119 (product states).** For every physical state and every multiplet whose members have the same radial overlap R with it (same n, l): the sum of the magnetic dipole elements
the library returns, weighted with the Clebsch–Gordan coefficients of the product state |l μ⟩|s σ⟩, is −μ_B R (g_L L + g_S S) between the state and the product state. -/
theorem C119_product (C : ElemConsts) (radial : RadKey → ℝ) (me : Method) (a : QN) (l S : ℕ) (hl : a.l = l) (hS : a.s = S) (ha : a.Physical) (R : ℝ)
    (hR : ∀ j, radial (RadKey.make me a.species 0 a.n a.n l l a.j j) = R) :
    ∃ x : ℤ → ℤ → ℝ, (∀ j m, (a.level a.n l j m).Physical → magneticDipole C radial me a (a.level a.n l j m) = .ok (x j m)) ∧
      ∀ p r : ℕ, p ≤ 2 * l → r ≤ S →
        multipletSum (2 * l) S (fun j m => x j m * clebsch (2 * l) S j (2 * l - 2 * p) (S - 2 * r) m) =
          -C.muB * R * (C.gL * ∑ p1 ∈ Finset.range (2 * l + 1), clebsch (2 * l) S a.j (2 * l - 2 * p1) (S - 2 * r) a.m * spinElt (2 * l) (2 * l - 2 * p1) (2 * l - 2 * p) +
            C.gS * ∑ r1 ∈ Finset.range (S + 1), clebsch (2 * l) S a.j (2 * l - 2 * p) (S - 2 * r1) a.m * spinElt S (S - 2 * r1) (S - 2 * r)) := by
  refine ⟨fun j m => -C.muB * R * (C.gL * orbitalOnly l l S a.j j a.m m (fun μ1 μ2 => spinElt (2 * l) μ1 μ2) +
    C.gS * spinOnly l S a.j j a.m m (fun σ1 σ2 => spinElt S σ1 σ2)), ?_, ?_⟩
  · intro j m hb
    rw [C118_magnetic C radial me a (a.level a.n l j m) ha hb rfl rfl hl]
    show Out.ok (-C.muB * radial (RadKey.make me a.species 0 a.n a.n a.l l a.j j) * _) = _
    rw [hl, hR, hS]
    rfl
  · intro p r hp hr
    have so : ∀ j m : ℤ, spinOnly l S a.j j a.m m (fun σ1 σ2 => spinElt S σ1 σ2) = ∑ p2 ∈ Finset.range (2 * l + 1), ∑ r2 ∈ Finset.range (S + 1),
        clebsch ((2 * l : ℕ) : ℤ) S j (((2 * l : ℕ) : ℤ) - 2 * p2) ((S : ℤ) - 2 * r2) m *
          ∑ r1 ∈ Finset.range (S + 1), clebsch (2 * l) S a.j (2 * l - 2 * p2) (S - 2 * r1) a.m * spinElt S (S - 2 * r1) (S - 2 * r2) := by
      intro j m
      unfold spinOnly
      rw [Int.toNat_natCast, Int.toNat_natCast]
      refine Finset.sum_congr rfl fun p2 _ => ?_
      rw [Finset.sum_comm]
      refine Finset.sum_congr rfl fun r2 _ => ?_
      rw [Finset.mul_sum]
      refine Finset.sum_congr rfl fun r1 _ => ?_
      push_cast
      ring
    have e : ∀ j m : ℤ, -C.muB * R * (C.gL * orbitalOnly l l S a.j j a.m m (fun μ1 μ2 => spinElt (2 * l) μ1 μ2) + C.gS * spinOnly l S a.j j a.m m (fun σ1 σ2 => spinElt S σ1 σ2)) *
        clebsch (2 * l) S j (2 * l - 2 * p) (S - 2 * r) m =
        (-C.muB * R * C.gL) * (orbitalOnly l l S a.j j a.m m (fun μ1 μ2 => spinElt (2 * l) μ1 μ2) * clebsch ((2 * l : ℕ) : ℤ) S j (((2 * l : ℕ) : ℤ) - 2 * p) ((S : ℤ) - 2 * r) m) +
        (-C.muB * R * C.gS) * (spinOnly l S a.j j a.m m (fun σ1 σ2 => spinElt S σ1 σ2) * clebsch ((2 * l : ℕ) : ℤ) S j (((2 * l : ℕ) : ℤ) - 2 * p) ((S : ℤ) - 2 * r) m) := by
      intro j m
      push_cast
      ring
    simp only [e]
    rw [multipletSum_add, multipletSum_mul, multipletSum_mul]
    simp only [orbitalOnly_expand, so]
    rw [multiplet_expand (2 * l) S p r hp hr (fun p2 r2 => ∑ p1 ∈ Finset.range (2 * (l : ℤ).toNat + 1), clebsch (2 * l) S a.j (2 * l - 2 * p1) ((S : ℤ) - 2 * r2) a.m * spinElt (2 * l) (2 * l - 2 * p1) (2 * l - 2 * p2)),
      multiplet_expand (2 * l) S p r hp hr (fun p2 r2 => ∑ r1 ∈ Finset.range (S + 1), clebsch (2 * l) S a.j (2 * l - 2 * p2) (S - 2 * r1) a.m * spinElt S (S - 2 * r1) (S - 2 * r2)),
      Int.toNat_natCast]
    ring

/-- **C119 (decoupling by a strong field).** The product states |l μ⟩|s σ⟩ are eigenvectors of the matrix of the magnetic moment along the field that the library returns for the whole
multiplet, with the eigenvalue −μ_B R (g_L μ + g_S σ) (Paschen–Back limit): the multiplet is complete and phases and weights fit together. -/
theorem C119_paschen_back (C : ElemConsts) (radial : RadKey → ℝ) (me : Method) (a : QN) (l S : ℕ) (hl : a.l = l) (hS : a.s = S) (ha : a.Physical) (R : ℝ)
    (hR : ∀ j, radial (RadKey.make me a.species 0 a.n a.n l l a.j j) = R) :
    ∃ x : ℤ → ℤ → ℝ, (∀ j m, (a.level a.n l j m).Physical → magneticDipole C radial me a (a.level a.n l j m) = .ok (x j m)) ∧
      ∀ p r : ℕ, p ≤ 2 * l → r ≤ S →
        multipletSum (2 * l) S (fun j m => (if m = a.m then x j m else 0) * clebsch (2 * l) S j (2 * l - 2 * p) (S - 2 * r) m) =
          -C.muB * R * (C.gL * ((2 * l - 2 * p : ℝ) / 2) + C.gS * ((S - 2 * r : ℝ) / 2)) * clebsch (2 * l) S a.j (2 * l - 2 * p) (S - 2 * r) a.m := by
  obtain ⟨x, hx, hsum⟩ := C119_product C radial me a l S hl hS ha R hR
  refine ⟨x, hx, fun p r hp hr => ?_⟩
  by_cases w : (2 * l - 2 * p : ℤ) + (S - 2 * r) = a.m
  · have e : ∀ j m : ℤ, (if m = a.m then x j m else 0) * clebsch (2 * l) S j (2 * l - 2 * p) (S - 2 * r) m = x j m * clebsch (2 * l) S j (2 * l - 2 * p) (S - 2 * r) m := by
      intro j m
      by_cases h : m = a.m
      · rw [if_pos h]
      · rw [clebsch_zero _ _ _ _ _ _ (by omega), mul_zero, mul_zero]
    simp only [e]
    rw [hsum p r hp hr, Finset.sum_eq_single p, Finset.sum_eq_single r]
    · unfold spinElt
      rw [if_pos rfl, if_pos rfl]
      push_cast
      ring
    · intro r1 _ hne
      rw [clebsch_zero _ _ _ _ _ _ (by omega), zero_mul]
    · intro hc; exact absurd (Finset.mem_range.2 (by omega)) hc
    · intro p1 _ hne
      rw [clebsch_zero _ _ _ _ _ _ (by omega), zero_mul]
    · intro hc; exact absurd (Finset.mem_range.2 (by omega)) hc
  · rw [clebsch_zero _ _ _ _ _ _ w, mul_zero]
    have e : ∀ j m : ℤ, (if m = a.m then x j m else 0) * clebsch (2 * l) S j (2 * l - 2 * p) (S - 2 * r) m = 0 * clebsch (2 * l) S j (2 * l - 2 * p) (S - 2 * r) m := by
      intro j m
      by_cases h : m = a.m
      · rw [h, clebsch_zero _ _ _ _ _ _ w, mul_zero, mul_zero]
      · rw [if_neg h]
    simp only [e]
    rw [multipletSum_mul, zero_mul]

/-! ## Dipole transitions -/

theorem w3j_dipole_sq (l : ℕ) : w3j (2 * (l : ℤ)) 2 (2 * (l : ℤ) + 2) 0 0 0 ^ 2 = ((l : ℝ) + 1) / ((2 * l + 1) * (2 * l + 3)) := by
  have r := w3i_racah 2 (2 * l) 0 l 1 (l + 1) (by omega) (by omega) (by omega) (by omega)
  have hw : w3i (2 * l + 0) (2 + 0) (2 + 2 * l) l 1 (l + 1) = w3j (2 * (l : ℤ)) 2 (2 * (l : ℤ) + 2) 0 0 0 := by
    unfold w3i
    push_cast
    congr 1 <;> ring
  rw [hw] at r
  set W := w3j (2 * (l : ℤ)) 2 (2 * (l : ℤ) + 2) 0 0 0 with hW
  have hN := invNorm_sq 2 (2 * l) 0
  rw [zero_add, Finset.sum_range_one] at r
  simp only [Nat.cast_zero, add_zero, sub_zero] at r hN
  have i1 : ifct ((2 * l : ℕ) - (l : ℤ)) = 1 / (l.factorial : ℝ) := by
    rw [show ((2 * l : ℕ) : ℤ) - (l : ℤ) = ((l : ℕ) : ℤ) by push_cast; ring, ifct_nat]
  have i2 : ifct (((2 : ℕ) : ℤ) - ((1 : ℕ) : ℤ)) = 1 := by simp [ifct]
  have i3 : ifct ((1 : ℕ) : ℤ) = 1 := by simp [ifct]
  rw [i1, i2, i3, ifct_nat, ifct_zero'] at r
  have r2 := congrArg (· ^ 2) r
  simp only [mul_pow] at r2
  rw [Real.sq_sqrt (by positivity), Real.sq_sqrt (by positivity), Real.sq_sqrt (by positivity), hN, sq (sgn _), sgn_self, sq (sgn _), sgn_self] at r2
  have c1 : (((2 * l).choose l : ℕ) : ℝ) * (l.factorial * l.factorial) = (2 * l).factorial := by
    have := Nat.choose_mul_factorial_mul_factorial (show l ≤ 2 * l by omega)
    rw [show 2 * l - l = l by omega] at this
    exact_mod_cast (by rw [← this]; ring)
  have c2 : (((2 + 2 * l).choose (l + 1) : ℕ) : ℝ) * ((l : ℝ) + 1) = 2 * (2 * l + 1) * ((2 * l).choose l : ℕ) := by
    have := Nat.succ_mul_centralBinom_succ l
    unfold Nat.centralBinom at this
    rw [show 2 + 2 * l = 2 * (l + 1) by ring]
    have h : (((l + 1) * (2 * (l + 1)).choose (l + 1) : ℕ) : ℝ) = ((2 * (2 * l + 1) * (2 * l).choose l : ℕ) : ℝ) := by rw [this]
    push_cast at h
    linear_combination h
  have f0 : ((l.factorial : ℕ) : ℝ) ≠ 0 := fac_ne l
  have f1 : (((2 * l).choose l : ℕ) : ℝ) ≠ 0 := by exact_mod_cast (Nat.choose_pos (by omega)).ne'
  have f3 : (((2 + 2 * l + 1).factorial : ℕ) : ℝ) = (2 * l + 3) * ((2 + 2 * l).factorial : ℕ) := by
    rw [Nat.factorial_succ]; push_cast; ring
  have f4 : (((2 + 2 * l).factorial : ℕ) : ℝ) ≠ 0 := fac_ne _
  rw [f3, ← c1] at r2
  set B : ℝ := (((2 * l).choose l : ℕ) : ℝ)
  set D : ℝ := (((2 + 2 * l).choose (l + 1) : ℕ) : ℝ)
  set F : ℝ := ((l.factorial : ℕ) : ℝ)
  set G : ℝ := (((2 + 2 * l).factorial : ℕ) : ℝ)
  have hd : D = 2 * (2 * l + 1) * B / (l + 1) := by rw [eq_div_iff (by positivity)]; exact c2
  rw [hd] at r2
  simp only [Nat.choose_one_right, Nat.cast_ofNat, Nat.factorial_two, Nat.factorial_zero, Nat.cast_one, mul_one, one_mul, one_pow] at r2
  have hl : (0 : ℝ) < 2 * l + 1 := by positivity
  have hl3 : (0 : ℝ) < 2 * l + 3 := by positivity
  have hl1 : (0 : ℝ) < l + 1 := by positivity
  rw [eq_div_iff (by positivity)]
  field_simp at r2
  linear_combination r2

/-- **C119 (dipole transitions).** Of the line strength of every state the fraction (l+1)/(2l+1) goes to the multiplets with l+1, the fraction l/(2l+1) to those with l−1, and nothing to
the others. -/
theorem C119_dipole (C : ElemConsts) (radial : RadKey → ℝ) (me : Method) (a : QN) (n2 : ℤ) (l2 : ℕ) (ha : a.Physical) (R : ℝ)
    (hR : ∀ j, radial (RadKey.make me a.species 1 a.n n2 a.l l2 a.j j) = R) :
    ∃ x : ℤ → ℤ → ℝ, (∀ j m, (a.level n2 l2 j m).Physical → electricMultipole C radial me a (a.level n2 l2 j m) 1 1 = .ok (x j m)) ∧
      multipletSum (2 * l2) a.s.toNat (fun j m => x j m ^ 2) =
        (C.e * R) ^ 2 * (if (l2 : ℤ) = a.l + 1 then ((a.l : ℝ) + 1) / (2 * a.l + 1) else if (l2 : ℤ) = a.l - 1 then (a.l : ℝ) / (2 * a.l + 1) else 0) := by
  obtain ⟨x, hx, hs⟩ := C119_sum_rule C radial me a 1 1 n2 l2 ha R hR
  refine ⟨x, fun j m hb => hx j m hb, ?_⟩
  rw [hs, mul_assoc]
  congr 1
  have hl := ha.1
  obtain ⟨l, hl⟩ := Int.eq_ofNat_of_zero_le hl
  rw [hl]
  simp only [Nat.cast_one, mul_one]
  by_cases c : (l2 : ℤ) = l + 1
  · rw [if_pos c, show 2 * (l2 : ℤ) = 2 * (l : ℤ) + 2 by omega, w3j_dipole_sq l]
    have : (l2 : ℝ) = l + 1 := by exact_mod_cast c
    rw [this]
    push_cast
    field_simp
    ring
  · rw [if_neg c]
    by_cases d : (l2 : ℤ) = l - 1
    · rw [if_pos d]
      rw [w3j_swap_neg, neg_zero, show 2 * (l : ℤ) = 2 * (l2 : ℤ) + 2 by omega, w3j_dipole_sq l2]
      have : (l : ℝ) = l2 + 1 := by
        have : (l : ℤ) = l2 + 1 := by omega
        exact_mod_cast this
      push_cast
      rw [this]
      field_simp
      ring
    · rw [if_neg d]
      have : w3j (2 * (l : ℤ)) 2 (2 * l2) 0 0 0 = 0 := by
        by_cases c2 : (l2 : ℤ) = l
        · exact w3j_zero_of_odd _ _ _ (by omega)
        · exact w3j_invalid (by unfold Valid3; omega)
      rw [this]
      norm_num

/-- Not vacuous: P₃/₂ of rubidium, its own multiplet has six members, and the multiplet with l = 2 ten. -/
example : qnP.Physical ∧ qnP.l = (1 : ℕ) ∧ qnP.s = (1 : ℕ) ∧ (qnP.level 60 1 1 (-1)).Physical ∧ (qnP.level 60 2 5 3).Physical ∧
    multipletSum 2 1 (fun _ _ => 1) = 6 ∧ multipletSum 4 1 (fun _ _ => 1) = 10 ∧ TriN 2 1 3 ∧ TriN 2 1 1 := by
  refine ⟨?_, rfl, rfl, ?_, ?_, ?_, ?_, ?_, ?_⟩
  · unfold QN.Physical qnP; simp
  · unfold QN.Physical QN.level qnP; simp
  · unfold QN.Physical QN.level qnP; simp
  · unfold multipletSum; norm_num [Finset.sum_range_succ]
  · unfold multipletSum; norm_num [Finset.sum_range_succ]
  · unfold TriN; omega
  · unfold TriN; omega

/-- The fractions of the dipole strength of a P state: 2/3 to the D multiplets and 1/3 to the S multiplets. -/
example : ((qnP.l : ℝ) + 1) / (2 * qnP.l + 1) = 2 / 3 ∧ (qnP.l : ℝ) / (2 * qnP.l + 1) = 1 / 3 := by
  unfold qnP; norm_num

end PI
