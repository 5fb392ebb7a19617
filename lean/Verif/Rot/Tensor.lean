import Verif.Rot.Invariant
import Verif.Rot.Props

/-!
# Rotation of spherical tensor operators
-/

namespace PI

open Polynomial

/-- A rotation of spin 1/2: a unitary 2x2 matrix of determinant one. -/
structure M2.SU (g : M2) : Prop where
  d : g.d = (starRingEnd ℂ) g.a
  c : g.c = -(starRingEnd ℂ) g.b
  n : g.a * (starRingEnd ℂ) g.a + g.b * (starRingEnd ℂ) g.b = 1

theorem M2.SU.det {g : M2} (h : g.SU) : g.a * g.d - g.b * g.c = 1 := by
  rw [h.d, h.c]; linear_combination h.n

theorem M2.SU.mul {g h : M2} (hg : g.SU) (hh : h.SU) : (g.mul h).SU := by
  have c1 := hg.n
  have c2 := hh.n
  refine ⟨?_, ?_, ?_⟩
  · unfold M2.mul
    simp only [map_add, map_mul, hg.c, hg.d, hh.c, hh.d, map_neg, Complex.conj_conj]; ring
  · unfold M2.mul
    simp only [map_add, map_mul, hg.c, hg.d, hh.c, hh.d, map_neg, Complex.conj_conj]; ring
  · unfold M2.mul
    simp only [map_add, map_mul, hh.c, hh.d, map_neg, Complex.conj_conj]
    linear_combination (h.a * (starRingEnd ℂ) h.a + h.b * (starRingEnd ℂ) h.b) * c1 + c2

theorem sym_swap_left (X : M2) (n i l : ℕ) (hi : i ≤ n) (hl : l ≤ n) : (X.mul ⟨0, 1, 1, 0⟩).sym n i l = X.sym n (n - i) l := by
  rw [← sym_mul ⟨0, 1, 1, 0⟩ X n i l hl, Finset.sum_eq_single (n - i)]
  · rw [sym_swap n i (n - i) (by omega), if_pos (by omega), one_mul]
  · intro b hb hbi
    have : b ≤ n := by have := Finset.mem_range.1 hb; omega
    rw [sym_swap n i b this, if_neg (by omega), zero_mul]
  · intro h; exact absurd (Finset.mem_range.2 (by omega)) h

/-- Complex conjugation of a rotation matrix. -/
theorem sym_conj_su {g : M2} (h : g.SU) (n i l : ℕ) (hi : i ≤ n) (hl : l ≤ n) :
    (starRingEnd ℂ) (g.sym n i l) = (-1) ^ (i + l) * g.sym n (n - i) (n - l) := by
  rw [sym_conj]
  have e : (⟨(starRingEnd ℂ) g.a, (starRingEnd ℂ) g.b, (starRingEnd ℂ) g.c, (starRingEnd ℂ) g.d⟩ : M2) =
      ((⟨1, 0, 0, -1⟩ : M2).mul ((⟨0, 1, 1, 0⟩ : M2).mul (g.mul ⟨0, 1, 1, 0⟩))).mul ⟨1, 0, 0, -1⟩ := by
    unfold M2.mul
    rw [h.c, h.d]
    simp
  rw [e, sym_diag_left _ _ _ n i l hi hl, sym_diag_right _ _ _ n i l hl, sym_swap_right _ n i l hl, sym_swap_left _ n i (n - l) hi (by omega)]
  rw [one_pow, one_pow, pow_add]; ring

/-- Columns of a rotation matrix are orthonormal. -/
theorem sym_unitary_col {g : M2} (h : g.SU) (n p r : ℕ) (hp : p ≤ n) (hr : r ≤ n) :
    ∑ q ∈ Finset.range (n + 1), (starRingEnd ℂ) (g.sym n q p) * g.sym n q r = if p = r then 1 else 0 := by
  have e : ∀ q ∈ Finset.range (n + 1), (starRingEnd ℂ) (g.sym n q p) * g.sym n q r =
      (⟨(starRingEnd ℂ) g.a, (starRingEnd ℂ) g.c, (starRingEnd ℂ) g.b, (starRingEnd ℂ) g.d⟩ : M2).sym n p q * g.sym n q r := by
    intro q hq
    have hq' : q ≤ n := by have := Finset.mem_range.1 hq; omega
    rw [sym_conj]
    rw [← sym_transpose ⟨(starRingEnd ℂ) g.a, (starRingEnd ℂ) g.b, (starRingEnd ℂ) g.c, (starRingEnd ℂ) g.d⟩ n q p hq' hp]
  rw [Finset.sum_congr rfl e, sym_mul _ _ n p r hr]
  have : g.mul ⟨(starRingEnd ℂ) g.a, (starRingEnd ℂ) g.c, (starRingEnd ℂ) g.b, (starRingEnd ℂ) g.d⟩ = ⟨1, 0, 0, 1⟩ := by
    unfold M2.mul
    have c1 := h.n
    rw [h.c, h.d]
    simp only [map_neg, Complex.conj_conj, M2.mk.injEq]
    refine ⟨c1, by ring, by ring, by linear_combination c1⟩
  rw [this, sym_diag 1 1 n p r hr]
  simp

/-- Rows of a rotation matrix are orthonormal. -/
theorem sym_unitary_row {g : M2} (h : g.SU) (n p r : ℕ) (hp : p ≤ n) (hr : r ≤ n) :
    ∑ q ∈ Finset.range (n + 1), g.sym n p q * (starRingEnd ℂ) (g.sym n r q) = if p = r then 1 else 0 := by
  have e : ∀ q ∈ Finset.range (n + 1), g.sym n p q * (starRingEnd ℂ) (g.sym n r q) =
      g.sym n p q * (⟨(starRingEnd ℂ) g.a, (starRingEnd ℂ) g.c, (starRingEnd ℂ) g.b, (starRingEnd ℂ) g.d⟩ : M2).sym n q r := by
    intro q hq
    have hq' : q ≤ n := by have := Finset.mem_range.1 hq; omega
    rw [sym_conj]
    rw [← sym_transpose ⟨(starRingEnd ℂ) g.a, (starRingEnd ℂ) g.b, (starRingEnd ℂ) g.c, (starRingEnd ℂ) g.d⟩ n r q hr hq']
  rw [Finset.sum_congr rfl e, sym_mul _ _ n p r hr]
  have : (⟨(starRingEnd ℂ) g.a, (starRingEnd ℂ) g.c, (starRingEnd ℂ) g.b, (starRingEnd ℂ) g.d⟩ : M2).mul g = ⟨1, 0, 0, 1⟩ := by
    unfold M2.mul
    have c1 := h.n
    rw [h.c, h.d]
    simp only [map_neg, Complex.conj_conj, M2.mk.injEq]
    refine ⟨by linear_combination c1, by ring, by ring, by linear_combination c1⟩
  rw [this, sym_diag 1 1 n p r hr]
  simp

/-- The angular factor of a tensor operator (Wigner-Eckart theorem) for basis indices. -/
noncomputable def angN (na nk nb ia q ib : ℕ) : ℂ := (-1) ^ ia * w3n na nk nb (na - ia) q ib

theorem w3n_real (n1 n2 n3 l1 l2 l3 : ℕ) : (starRingEnd ℂ) (w3n n1 n2 n3 l1 l2 l3) = w3n n1 n2 n3 l1 l2 l3 := by
  unfold w3n; exact Complex.conj_ofReal _

/-- Rotation of the angular factor: `T A_p T† = Σ_q D_{qp} A_q`. -/
theorem angN_rotate {g : M2} (hg : g.SU) (na nk nb ia ib p : ℕ) (hia : ia ≤ na) (hib : ib ≤ nb) (hp : p ≤ nk) :
    ∑ la ∈ Finset.range (na + 1), ∑ lb ∈ Finset.range (nb + 1), g.sym na ia la * angN na nk nb la p lb * (starRingEnd ℂ) (g.sym nb ib lb) =
      ∑ q ∈ Finset.range (nk + 1), g.sym nk q p * angN na nk nb ia q ib := by
  have key : ∀ q ∈ Finset.range (nk + 1), angN na nk nb ia q ib = ∑ r ∈ Finset.range (nk + 1), (starRingEnd ℂ) (g.sym nk q r) *
      ∑ la ∈ Finset.range (na + 1), ∑ lb ∈ Finset.range (nb + 1), g.sym na ia la * angN na nk nb la r lb * (starRingEnd ℂ) (g.sym nb ib lb) := by
    intro q hq
    have hq' : q ≤ nk := by have := Finset.mem_range.1 hq; omega
    have h := congrArg (starRingEnd ℂ) (w3n_invariant g hg.det na nk nb (na - ia) q ib (by omega) hq' hib)
    simp only [map_sum, map_mul, w3n_real] at h
    unfold angN
    rw [← h, ← Finset.sum_range_reflect, Finset.mul_sum]
    have e : ∀ la ∈ Finset.range (na + 1), (-1 : ℂ) ^ ia * ∑ l2 ∈ Finset.range (nk + 1), ∑ l3 ∈ Finset.range (nb + 1),
        (starRingEnd ℂ) (g.sym na (na - ia) (na + 1 - 1 - la)) * (starRingEnd ℂ) (g.sym nk q l2) * (starRingEnd ℂ) (g.sym nb ib l3) *
          w3n na nk nb (na + 1 - 1 - la) l2 l3 =
        ∑ l2 ∈ Finset.range (nk + 1), ∑ l3 ∈ Finset.range (nb + 1), (starRingEnd ℂ) (g.sym nk q l2) * (g.sym na ia la * ((-1) ^ la *
          w3n na nk nb (na - la) l2 l3) * (starRingEnd ℂ) (g.sym nb ib l3)) := by
      intro la hla
      have hla' : la ≤ na := by have := Finset.mem_range.1 hla; omega
      rw [Nat.add_sub_cancel, sym_conj_su hg na (na - ia) (na - la) (by omega) (by omega), Finset.mul_sum]
      refine Finset.sum_congr rfl fun l2 _ => ?_
      rw [Finset.mul_sum]
      refine Finset.sum_congr rfl fun l3 _ => ?_
      rw [show na - (na - ia) = ia by omega, show na - (na - la) = la by omega]
      have s : (-1 : ℂ) ^ ia * (-1) ^ (na - ia + (na - la)) = (-1) ^ la := by
        rw [← pow_add]
        rw [show ia + (na - ia + (na - la)) = la + 2 * (na - la) by omega, pow_add, pow_mul]
        norm_num
      linear_combination (g.sym na ia la * (starRingEnd ℂ) (g.sym nk q l2) * (starRingEnd ℂ) (g.sym nb ib l3) * w3n na nk nb (na - la) l2 l3) * s
    rw [Finset.sum_congr rfl e, Finset.sum_comm]
    refine Finset.sum_congr rfl fun r _ => ?_
    rw [Finset.mul_sum]
    refine Finset.sum_congr rfl fun la _ => ?_
    rw [Finset.mul_sum]
  symm
  rw [Finset.sum_congr rfl fun q hq => by rw [key q hq, Finset.mul_sum]]
  rw [Finset.sum_comm, Finset.sum_eq_single p]
  · rw [Finset.sum_congr rfl fun q _ => (mul_assoc _ _ _).symm, ← Finset.sum_mul]
    rw [Finset.sum_congr rfl fun q _ => mul_comm (g.sym nk q p) _, sym_unitary_col hg nk p p hp hp]
    simp
  · intro r hr hne
    have hr' : r ≤ nk := by have := Finset.mem_range.1 hr; omega
    rw [Finset.sum_congr rfl fun q _ => (mul_assoc _ _ _).symm, ← Finset.sum_mul]
    rw [Finset.sum_congr rfl fun q _ => mul_comm (g.sym nk q p) _, sym_unitary_col hg nk r p hr' hp]
    simp [hne]
  · intro h; exact absurd (Finset.mem_range.2 (by omega)) h

end PI
