import Verif.Rot.Multiplet
import Verif.Rot.Weyl

/-!
# C120: the centre of gravity of the levels

The sum of the energies is the trace of the Hamiltonian. The operators of the electric and magnetic field and of an ion have no trace on complete sets of Zeeman levels, the electric dipole
and the dipole-dipole and dipole-quadrupole interaction have none on states of definite parity.
-/

namespace PI

open Matrix

section general
variable {P κ n k : Type} [DecidableEq κ] [Fintype n] [DecidableEq n] [Fintype k] [DecidableEq k]

/-- The energies add up to the trace. -/
theorem trace_diagonalizes {A X : Matrix k k ℂ} {e : k → ℝ} (h : Diagonalizes A X e) : ∑ i, (e i : ℂ) = A.trace := by
  have h1 : X * Xᴴ = 1 := mul_eq_one_comm.1 h.1
  have : A = X * (Matrix.diagonal fun i => (e i : ℂ)) * Xᴴ := by
    rw [← h.2, Matrix.mul_assoc, h1, Matrix.mul_one]
  rw [this, Matrix.trace_mul_comm, ← Matrix.mul_assoc, h.1, Matrix.one_mul, Matrix.trace_diagonal]

/-- **C120 (systems).** The sum of the energies after any history: the sum without interaction plus the factors times the traces of the operators on the space of the basis vectors. -/
theorem C120_sum (I : Inter P κ n) (D : Matrix n n ℂ) (s0 s s' : CSys P κ n k) (h0 : s0.Fresh I) (hD : s0.H = s0.Vᴴ * D * s0.V) (hs : Hist I s0 s) (hb : s.build I = .ok s')
    (K : Finset κ) (hn : (I.need s.p).Nodup) (hK : ∀ key ∈ I.need s.p, key ∈ K) (X : Matrix k k ℂ) (e : k → ℝ) (hX : Diagonalizes s'.H X e) :
    ∑ i, (e i : ℂ) = s0.H.trace + ∑ key ∈ K, effCoef I s.p key * (I.op key * (s0.V * s0.Vᴴ)).trace := by
  obtain ⟨o, q, c⟩ := built_compress I D s0 s s' h0 hD hs hb
  rw [trace_diagonalizes hX, c, stateOper_eff I D s.p K hn hK, Matrix.mul_assoc, Matrix.trace_mul_comm, Matrix.mul_assoc, q, Matrix.add_mul, Matrix.trace_add]
  congr 1
  · rw [hD, Matrix.mul_assoc s0.Vᴴ, Matrix.trace_mul_comm s0.Vᴴ, Matrix.mul_assoc]
  · rw [Matrix.sum_mul, Matrix.trace_sum]
    refine Finset.sum_congr rfl fun key _ => ?_
    rw [Matrix.smul_mul, Matrix.trace_smul, smul_eq_mul]

theorem trace_diag_zero (A Q : Matrix n n ℂ) (hA : ∀ i, A i i = 0) (hQ : ∀ i j, i ≠ j → Q i j = 0) : (A * Q).trace = 0 := by
  unfold Matrix.trace
  refine Finset.sum_eq_zero fun i _ => ?_
  rw [Matrix.diag_apply, Matrix.mul_apply]
  refine Finset.sum_eq_zero fun j _ => ?_
  by_cases h : j = i
  · rw [h, hA, zero_mul]
  · rw [hQ j i h, mul_zero]

end general

/-! ## Sums over Zeeman levels -/

variable {N : ℕ}

theorem ang_trace (κ j : ℕ) (h : 1 ≤ κ) : ∑ l ∈ Finset.range (j + 1), angularSpec κ j j ((j : ℤ) - 2 * l) ((j : ℤ) - 2 * l) = 0 := by
  by_cases t : TriN j (2 * κ) j
  · have tj : TriN j j (2 * κ) := by unfold TriN at t ⊢; omega
    have o := ortho_ne j j (2 * κ) 0 κ 0 tj (by unfold TriN; omega) (by omega) le_rfl (by omega)
    have e : ∀ p ∈ Finset.range (j + 1), ∑ r ∈ Finset.range (j + 1), w3i j j (2 * κ) p r κ * w3i j j 0 p r 0 =
        angularSpec κ j j ((j : ℤ) - 2 * p) ((j : ℤ) - 2 * p) * w3i j 0 j j 0 0 := by
      intro p hp
      have hp := Finset.mem_range.1 hp
      rw [Finset.sum_eq_single (j - p)]
      · rw [← w3i_cyc j j 0 p (j - p) 0 (by omega) (by omega) le_rfl, w3i_scalar j p (by omega), ← w3i_cyc j j (2 * κ) p (j - p) κ (by omega) (by omega) (by omega)]
        unfold angularSpec w3i
        rw [show ((j : ℤ) - ((j : ℤ) - 2 * p)) / 2 = (p : ℤ) by omega, sgn_natCast, show -((j : ℤ) - 2 * p) = (j : ℤ) - 2 * ((j - p : ℕ) : ℤ) by omega]
        rw [show ((j : ℤ) - 2 * p - ((j : ℤ) - 2 * p)) = ((2 * κ : ℕ) : ℤ) - 2 * (κ : ℤ) by push_cast; ring]
        push_cast
        ring
      · intro r hr hne
        rw [w3i_m_zero j j 0 p r 0 (by omega), mul_zero]
      · intro hc; exact absurd (Finset.mem_range.2 (by omega)) hc
    rw [Finset.sum_congr rfl e, ← Finset.sum_mul] at o
    exact (mul_eq_zero.1 o).resolve_right (w3i_scalar_ne j)
  · exact Finset.sum_eq_zero fun l _ => angularSpec_not_tri κ j j _ _ t

theorem same_level_iff {a b : QN} : b = { a with m := b.m } ↔ a = { b with m := a.m } := by
  constructor <;> intro h <;> rw [h]

/-- A sum over states with all Zeeman levels vanishes if it vanishes for every level. -/
theorem states_sum_zero (st : Fin N → Option QN) (hst : RotStates st) (hz : AllZeeman st) (G : QN → ℂ)
    (h : ∀ i a, st i = some a → ∑ l ∈ Finset.range (a.j.toNat + 1), G { a with m := a.j - 2 * l } = 0) :
    ∑ i, (match st i with | some a => G a | none => 0) = 0 := by
  have e : ∀ i, (match st i with | some a => G a | none => 0) = ∑ r, (match st i, st r with
      | some a, some b => if b = { a with m := b.m } then G a / ((a.j.toNat : ℂ) + 1) else 0
      | _, _ => 0) := by
    intro i
    obtain ⟨a, ha⟩ := hst.all i
    have s := sum_multiplet st hst hz i a ha (fun _ => G a / ((a.j.toNat : ℂ) + 1))
    rw [Finset.sum_const, Finset.card_range, nsmul_eq_mul] at s
    push_cast at s
    rw [mul_div_cancel₀ _ (Nat.cast_add_one_ne_zero _)] at s
    simp only [ha]
    rw [← s]
    refine Finset.sum_congr rfl fun r _ => ?_
    cases st r <;> rfl
  rw [Finset.sum_congr rfl fun i _ => e i, Finset.sum_comm]
  refine Finset.sum_eq_zero fun r _ => ?_
  obtain ⟨b, hb⟩ := hst.all r
  have s := sum_multiplet st hst hz r b hb (fun a => G a / ((a.j.toNat : ℂ) + 1))
  dsimp only at s
  rw [← Finset.sum_div, h r b hb, zero_div] at s
  refine Eq.trans ?_ s
  refine Finset.sum_congr rfl fun i _ => ?_
  rw [hb]
  cases hi : st i with
  | none => rfl
  | some a =>
    dsimp only
    by_cases c : b = { a with m := b.m }
    · rw [if_pos c, if_pos (same_level_iff.1 c)]
    · rw [if_neg c, if_neg (fun c' => c (same_level_iff.2 c'))]

theorem pairs_sum_zero (st : Fin N → Option (QN × QN)) (hst : RotPairs st) (hz : AllZeemanPairs st) (G : QN × QN → ℂ)
    (h : ∀ i a, st i = some a → ∑ p ∈ Finset.range (a.1.j.toNat + 1) ×ˢ Finset.range (a.2.j.toNat + 1),
      G ({ a.1 with m := a.1.j - 2 * p.1 }, { a.2 with m := a.2.j - 2 * p.2 }) = 0) :
    ∑ i, (match st i with | some a => G a | none => 0) = 0 := by
  have e : ∀ i, (match st i with | some a => G a | none => 0) = ∑ r, (match st i, st r with
      | some a, some b => if b.1 = { a.1 with m := b.1.m } ∧ b.2 = { a.2 with m := b.2.m } then G a / (((a.1.j.toNat : ℂ) + 1) * ((a.2.j.toNat : ℂ) + 1)) else 0
      | _, _ => 0) := by
    intro i
    obtain ⟨a, ha⟩ := hst.all i
    have s := sum_multiplet_pair st hst hz i a ha (fun _ => G a / (((a.1.j.toNat : ℂ) + 1) * ((a.2.j.toNat : ℂ) + 1)))
    rw [Finset.sum_const, Finset.card_product, Finset.card_range, Finset.card_range, nsmul_eq_mul] at s
    push_cast at s
    rw [mul_div_cancel₀ _ (mul_ne_zero (Nat.cast_add_one_ne_zero _) (Nat.cast_add_one_ne_zero _))] at s
    simp only [ha]
    rw [← s]
    refine Finset.sum_congr rfl fun r _ => ?_
    cases st r <;> rfl
  rw [Finset.sum_congr rfl fun i _ => e i, Finset.sum_comm]
  refine Finset.sum_eq_zero fun r _ => ?_
  obtain ⟨b, hb⟩ := hst.all r
  have s := sum_multiplet_pair st hst hz r b hb (fun a => G a / (((a.1.j.toNat : ℂ) + 1) * ((a.2.j.toNat : ℂ) + 1)))
  dsimp only at s
  rw [← Finset.sum_div, h r b hb, zero_div] at s
  refine Eq.trans ?_ s
  refine Finset.sum_congr rfl fun i _ => ?_
  rw [hb]
  cases hi : st i with
  | none => rfl
  | some a =>
    dsimp only
    by_cases c : b.1 = { a.1 with m := b.1.m } ∧ b.2 = { a.2 with m := b.2.m }
    · rw [if_pos c, if_pos ⟨same_level_iff.1 c.1, same_level_iff.1 c.2⟩]
    · rw [if_neg c, if_neg (fun c' => c ⟨same_level_iff.2 c'.1, same_level_iff.2 c'.2⟩)]


/-! ## One atom -/

theorem we_level (st : Fin N → Option QN) (hz : AllZeeman st) (hst : RotStates st) (κ : ℕ) (h1 : 1 ≤ κ) (f ρ : QN → QN → ℝ) (hf : WignerEckart st κ f ρ) (i : Fin N) (a : QN) (ha : st i = some a) :
    ∑ l ∈ Finset.range (a.j.toNat + 1), ((f { a with m := a.j - 2 * l } { a with m := a.j - 2 * l } : ℝ) : ℂ) = 0 := by
  obtain ⟨a0, -, -⟩ := hst.isM i a ha
  have e : ∀ l ∈ Finset.range (a.j.toNat + 1), ((f { a with m := a.j - 2 * l } { a with m := a.j - 2 * l } : ℝ) : ℂ) =
      ((ρ a a * angularSpec κ a.j.toNat a.j.toNat ((a.j.toNat : ℤ) - 2 * l) ((a.j.toNat : ℤ) - 2 * l) : ℝ) : ℂ) := by
    intro l hl
    obtain ⟨k, hk⟩ := hz i a ha _ (isM_level a l a0 hl)
    have h := hf.eq k k _ _ hk hk
    rw [h, hf.indep a a, Int.toNat_of_nonneg a0]
  rw [Finset.sum_congr rfl e, ← Complex.ofReal_sum, ← Finset.mul_sum, ang_trace κ _ h1, mul_zero, Complex.ofReal_zero]

theorem tensor_trace (st : Fin N → Option QN) (hst : RotStates st) (hz : AllZeeman st) (κ : ℕ) (h1 : 1 ≤ κ) (f ρ : QN → QN → ℝ) (hf : WignerEckart st κ f ρ) (q : ℤ) :
    (tensorMat st f q).trace = 0 := by
  have e : (tensorMat st f q).trace = ∑ i, (match st i with | some a => (if 0 = 2 * q then ((f a a : ℝ) : ℂ) else 0) | none => 0) := by
    unfold Matrix.trace
    refine Finset.sum_congr rfl fun i _ => ?_
    rw [Matrix.diag_apply]
    unfold tensorMat
    cases st i with
    | none => rfl
    | some a => dsimp only; rw [sub_self]
  rw [e]
  apply states_sum_zero st hst hz
  intro i a ha
  by_cases hq : 0 = 2 * q
  · simp only [if_pos hq]
    exact we_level st hz hst κ h1 f ρ hf i a ha
  · simp only [if_neg hq]
    exact Finset.sum_const_zero

/-- The operators of the fields and of the ion have no trace on complete Zeeman multiplets. -/
theorem field_trace (C : FieldConsts) (radial : RadKey → ℝ) (me : Method) (st : Fin N → Option QN) (hst : RotStates st) (hz : AllZeeman st) (hg : GoodStates st) :
    (∀ q, (fieldOp C radial me st (.e q)).trace = 0) ∧ (∀ q, (fieldOp C radial me st (.b q)).trace = 0) ∧
    (∀ k q, 1 ≤ k → (fieldOp C radial me st (.d k q)).trace = 0) ∧ (∀ o, 1 ≤ o → (fieldOp C radial me st (.ion o)).trace = 0) := by
  refine ⟨fun q => ?_, fun q => ?_, fun k q hk => ?_, fun o ho => ?_⟩
  · obtain ⟨ρ, h⟩ := dipole_we C radial me st hg
    rw [(C37_operators C radial me st hg q).1]
    exact tensor_trace st hst hz 1 le_rfl _ ρ h q
  · obtain ⟨ρ, h⟩ := magnetic_we C radial me st hg
    rw [(C37_operators C radial me st hg q).2.1]
    exact tensor_trace st hst hz 1 le_rfl _ ρ h q
  · obtain ⟨κ, rfl⟩ := Int.eq_ofNat_of_zero_le (show 0 ≤ k by omega)
    obtain ⟨ρ, h⟩ := dia_we C radial me st hg κ
    rw [(C37_operators C radial me st hg q).2.2.1 _ (by omega)]
    exact tensor_trace st hst hz κ (by omega) _ ρ h q
  · obtain ⟨ρ, h⟩ := ion_we C radial me st hg o
    rw [(C37_operators C radial me st hg 0).2.2.2 o]
    exact tensor_trace st hst hz o ho _ ρ h 0

theorem w3i_scalar_sq (L : ℕ) : w3i L 0 L L 0 0 ^ 2 = 1 / ((L : ℝ) + 1) := by
  have s := sq3_eq L 0 L L (by omega) le_rfl
  unfold sq3 at s
  rw [zero_add, Finset.sum_range_one, Finset.sum_eq_single 0] at s
  · exact s
  · intro l _ hne
    rw [w3i_m_zero L 0 L L 0 l (by omega)]; norm_num
  · intro hc; exact absurd (Finset.mem_range.2 (by omega)) hc

theorem harmonic_zero (l p1 p2 : ℕ) (h1 : p1 ≤ 2 * l) (_ : p2 ≤ 2 * l) :
    harmonicElt 0 l l (2 * l - 2 * p1) (2 * l - 2 * p2) = if p1 = p2 then 1 else 0 := by
  unfold harmonicElt
  by_cases h : p1 = p2
  · rw [if_pos h, ← h]
    have e1 : w3j (2 * (l : ℤ)) (2 * 0) (2 * (l : ℤ)) (-(2 * (l : ℤ) - 2 * p1)) (2 * (l : ℤ) - 2 * p1 - (2 * (l : ℤ) - 2 * p1)) (2 * (l : ℤ) - 2 * p1) = (-1) ^ p1 * w3i (2 * l) 0 (2 * l) (2 * l) 0 0 := by
      rw [← w3i_scalar (2 * l) p1 h1]
      unfold w3i
      congr 1 <;> push_cast <;> omega
    have e2 : w3j (2 * (l : ℤ)) (2 * 0) (2 * (l : ℤ)) 0 0 0 = (-1) ^ l * w3i (2 * l) 0 (2 * l) (2 * l) 0 0 := by
      rw [← w3i_scalar (2 * l) l (by omega)]
      unfold w3i
      congr 1 <;> push_cast <;> omega
    rw [e1, e2, show (l : ℤ) - (2 * (l : ℤ) - 2 * p1) / 2 = (p1 : ℤ) by omega, sgn_natCast, sgn_natCast]
    have s := w3i_scalar_sq (2 * l)
    have a1 : ((-1 : ℝ) ^ p1) * (-1) ^ p1 = 1 := by rw [← pow_add, ← two_mul, pow_mul, neg_one_sq, one_pow]
    have a2 : ((-1 : ℝ) ^ l) * (-1) ^ l = 1 := by rw [← pow_add, ← two_mul, pow_mul, neg_one_sq, one_pow]
    set c := w3i (2 * l) 0 (2 * l) (2 * l) 0 0
    have hs : Real.sqrt ((2 * ((l : ℤ) : ℝ) + 1) * (2 * ((l : ℤ) : ℝ) + 1)) = 2 * l + 1 := by
      rw [Real.sqrt_mul_self (by positivity)]; push_cast; ring
    rw [hs]
    have : (-1 : ℝ) ^ p1 * ((-1) ^ p1 * c) * ((-1) ^ l * (2 * l + 1) * ((-1) ^ l * c)) = (((-1 : ℝ) ^ p1) * (-1) ^ p1) * (((-1 : ℝ) ^ l) * (-1) ^ l) * ((2 * l + 1) * c ^ 2) := by ring
    rw [this, a1, a2, s]
    push_cast
    have : (2 * (l : ℝ) + 1) ≠ 0 := by positivity
    field_simp
  · rw [if_neg h, w3j_invalid, mul_zero, zero_mul]
    intro hv
    unfold Valid3 at hv
    obtain ⟨-, -, -, -, -, -, -, -, -, hv, -⟩ := hv
    rw [abs_le] at hv
    omega

/-- The element of r^k between a state and itself is e times the radial integral. -/
theorem electric_scalar (C : ElemConsts) (radial : RadKey → ℝ) (me : Method) (a : QN) (kr : ℤ) (ha : a.Physical) :
    electricMultipole C radial me a a kr 0 = .ok (C.e * radial (RadKey.make me a.species kr a.n a.n a.l a.l a.j a.j)) := by
  rw [C118_electric C radial me a a kr 0 le_rfl ha ha rfl rfl]
  obtain ⟨a1, a2, a3, a4, a5, a6, a7⟩ := ha
  rw [abs_le] at a3
  have hj := (abs_nonneg a.m).trans a6
  rw [abs_le] at a6
  obtain ⟨l, hl⟩ := Int.eq_ofNat_of_zero_le a1
  obtain ⟨S, hS⟩ := Int.eq_ofNat_of_zero_le a2
  obtain ⟨J, hJ⟩ := Int.eq_ofNat_of_zero_le hj
  obtain ⟨i, hi⟩ : ∃ i : ℕ, a.m = (J : ℤ) - 2 * i := ⟨((a.j - a.m) / 2).toNat, by omega⟩
  have htri : TriN (2 * l) S J := by unfold TriN; omega
  have hiJ : i ≤ J := by omega
  have o := C119_orthonormal (2 * l) S J J i i htri htri hiJ hiJ
  rw [if_pos ⟨rfl, rfl⟩] at o
  have : orbitalOnly a.l a.l a.s a.j a.j a.m a.m (fun μ1 μ2 => harmonicElt 0 a.l a.l μ1 μ2) = 1 := by
    rw [hi, hl, hS, hJ, ← o]
    unfold orbitalOnly
    rw [Int.toNat_natCast, Int.toNat_natCast]
    refine Finset.sum_congr rfl fun p hp => ?_
    have hp := Finset.mem_range.1 hp
    rw [Finset.sum_comm]
    refine Finset.sum_congr rfl fun r _ => ?_
    rw [Finset.sum_eq_single p]
    · dsimp only
      rw [harmonic_zero l p p (by omega) (by omega), if_pos rfl]
      push_cast
      ring
    · intro p2 h2 hne
      have h2 := Finset.mem_range.1 h2
      dsimp only
      rw [harmonic_zero l p p2 (by omega) (by omega), if_neg (Ne.symm hne), mul_zero]
    · intro hc; exact absurd (Finset.mem_range.2 (by omega)) hc
  rw [this, mul_one]


theorem dia_zero_terms (B : Vec3) : diaTerm B 0 0 = ((B.x ^ 2 + B.y ^ 2 + B.z ^ 2 : ℝ) : ℂ) := by
  have h2 : (Real.sqrt 2) ^ 2 = 2 := Real.sq_sqrt (by norm_num)
  have h0 : Real.sqrt 2 ≠ 0 := by positivity
  unfold diaTerm
  rw [if_pos ⟨rfl, rfl⟩]
  unfold sph
  rw [if_neg (by norm_num), if_neg (by norm_num), if_pos rfl, if_pos rfl, if_neg (by norm_num), if_pos rfl]
  apply Complex.ext
  · rw [Complex.ofReal_re]
    simp
    field_simp
    rw [h2]; ring
  · rw [Complex.ofReal_im]
    simp
    field_simp
    ring

/-- The diamagnetic shift of the centre of gravity: e²/(12 m) times the radial integral of r² of the state with itself. -/
noncomputable def diaCentre (C : FieldConsts) (radial : RadKey → ℝ) (me : Method) (a : QN) : ℝ :=
  C.elem.e ^ 2 / (12 * C.mass) * radial (RadKey.make me a.species 2 a.n a.n a.l a.l a.j a.j)

theorem dia_trace (C : FieldConsts) (radial : RadKey → ℝ) (me : Method) (st : Fin N → Option QN) (hst : RotStates st) (hg : GoodStates st) :
    (fieldOp C radial me st (.d 0 0)).trace = ((∑ i, (match st i with | some a => diaCentre C radial me a | none => 0) : ℝ) : ℂ) := by
  rw [(C37_operators C radial me st hg 0).2.2.1 0 le_rfl, Complex.ofReal_sum]
  unfold Matrix.trace
  refine Finset.sum_congr rfl fun i _ => ?_
  obtain ⟨a, ha⟩ := hst.all i
  rw [Matrix.diag_apply]
  unfold tensorMat
  rw [ha]
  dsimp only
  rw [if_pos (by ring), electric_scalar _ _ _ _ _ (hg i a ha).1]
  unfold outVal diaCentre
  congr 1
  dsimp only
  ring

theorem allKeys_mem (o : ℕ) : FKey.d 0 0 ∈ allKeys o := by
  unfold allKeys; simp

theorem allKeys_cases (o : ℕ) (key : FKey) (hk : key ∈ allKeys o) (hne : key ≠ .d 0 0) :
    (∃ q, key = .e q) ∨ (∃ q, key = .b q) ∨ (∃ k q, 1 ≤ k ∧ key = .d k q) ∨ ∃ o, 1 ≤ o ∧ key = .ion o := by
  cases key with
  | e q => exact Or.inl ⟨q, rfl⟩
  | b q => exact Or.inr (Or.inl ⟨q, rfl⟩)
  | ion n =>
    refine Or.inr (Or.inr (Or.inr ⟨n, ?_, rfl⟩))
    unfold allKeys at hk
    simp at hk
    omega
  | d k q =>
    refine Or.inr (Or.inr (Or.inl ⟨k, q, ?_, rfl⟩))
    unfold allKeys at hk
    simp at hk
    simp only [ne_eq, FKey.d.injEq] at hne
    omega

/-- **C120 (one atom).** When the basis contains all Zeeman levels of its states, the energies of a SystemOne in any electric and magnetic field and next to an ion
add up to the sum without fields, plus, with diamagnetism, B² e²/(12 m) times the sum of the radial integrals of r². -/
theorem C120_one_atom {k : ℕ} (C : FieldConsts) (radial : RadKey → ℝ) (me : Method) (st : Fin N → Option QN) (hst : RotStates st) (hz : AllZeeman st) (hg : GoodStates st)
    (D : Matrix (Fin N) (Fin N) ℂ)
    (s0 s s' : CSys FieldParams FKey (Fin N) (Fin k)) (h0 : s0.Fresh (fieldInter C radial me st)) (hD : s0.H = s0.Vᴴ * D * s0.V) (hV : s0.V * s0.Vᴴ = 1)
    (hs : Hist (fieldInter C radial me st) s0 s) (hb : s.build (fieldInter C radial me st) = .ok s')
    (X : Matrix (Fin k) (Fin k) ℂ) (e : Fin k → ℝ) (hX : Diagonalizes s'.H X e) :
    ∑ i, (e i : ℂ) = s0.H.trace +
      if s.p.dia then cut ((s.p.B.x ^ 2 + s.p.B.y ^ 2 + s.p.B.z ^ 2 : ℝ) : ℂ) * ((∑ i, (match st i with | some a => diaCentre C radial me a | none => 0) : ℝ) : ℂ) else 0 := by
  rw [C120_sum _ D s0 s s' h0 hD hs hb (allKeys s.p.order) (addKeys_nodup _) (addKeys_all s.p) X e hX]
  refine congrArg (s0.H.trace + ·) ?_
  obtain ⟨te, tb, td, ti⟩ := field_trace C radial me st hst hz hg
  rw [hV]
  simp only [Matrix.mul_one]
  rw [Finset.sum_eq_single (FKey.d 0 0)]
  · have t : ((fieldInter C radial me st).op (.d 0 0)).trace = _ := dia_trace C radial me st hst hg
    rw [eff_d _ _ _ _ _ 0 0 (by simp), dia_zero_terms, t]
    by_cases h : s.p.dia = true
    · rw [if_pos h, if_pos h]; unfold diaFactor; rw [if_pos rfl, one_mul]
    · rw [if_neg h, if_neg h, zero_mul]
  · intro key hk hne
    show _ * (fieldOp C radial me st key).trace = 0
    have : (fieldOp C radial me st key).trace = 0 := by
      rcases allKeys_cases _ key hk hne with ⟨q, rfl⟩ | ⟨q, rfl⟩ | ⟨k, q, h1, rfl⟩ | ⟨o, h1, rfl⟩
      · exact te q
      · exact tb q
      · exact td k q h1
      · exact ti o h1
    rw [this, mul_zero]
  · intro hc
    exact absurd (allKeys_mem _) hc

theorem trace_support {n : Type} [Fintype n] (A Q : Matrix n n ℂ) (h : ∀ i j, Q j i ≠ 0 → A i j = 0) : (A * Q).trace = 0 := by
  unfold Matrix.trace
  refine Finset.sum_eq_zero fun i _ => ?_
  rw [Matrix.diag_apply, Matrix.mul_apply]
  refine Finset.sum_eq_zero fun j _ => ?_
  by_cases q : Q j i = 0
  · rw [q, mul_zero]
  · rw [h i j q, zero_mul]

/-- The basis vectors do not mix states of different parity: two states that occur in a common basis vector's projector have l of the same parity. -/
def KeepsParity {k : Type} [Fintype k] (st : Fin N → Option QN) (V : Matrix (Fin N) k ℂ) : Prop :=
  ∀ i j a b, st i = some a → st j = some b → (V * Vᴴ) i j ≠ 0 → (a.l + b.l) % 2 = 0

theorem electric_entry (C : FieldConsts) (radial : RadKey → ℝ) (me : Method) (st : Fin N → Option QN) (hg : GoodStates st) (q : ℤ) (i j : Fin N)
    (p : ∀ a b, st i = some a → st j = some b → (a.l + b.l) % 2 = 0) : fieldOp C radial me st (.e q) i j = 0 := by
  rw [(C37_operators C radial me st hg q).1]
  unfold tensorMat
  cases hi : st i with
  | none => rfl
  | some a =>
    cases hj : st j with
    | none => rfl
    | some b =>
      dsimp only
      have p := p a b hi hj
      have : outVal (electricMultipole C.elem radial me a b 1 1) = 0 := by
        by_contra c
        have := multipole_parity C.elem radial me a b 1 1 (hg i a hi).1 (hg j b hj).1 ((hg i a hi).2 j b hj).1 ((hg i a hi).2 j b hj).2 c
        omega
      rw [this]
      split_ifs <;> simp

theorem electric_keys (p : FieldParams) (hB : p.B = ⟨0, 0, 0⟩) (hc : p.charge = 0 ∨ p.dist = none) (key : FKey) (hk : key ∈ addKeys p) : ∃ q, key = .e q := by
  have nb : ∀ q, isBig (sph (⟨0, 0, 0⟩ : Vec3) q) = false := by
    intro q; unfold sph isBig; split_ifs <;> simp [Complex.norm_def, Complex.normSq] <;> norm_num
  have nd : ∀ k q, isBig (diaTerm (⟨0, 0, 0⟩ : Vec3) k q) = false := by
    intro k q; unfold diaTerm sph isBig; split_ifs <;> simp [Complex.norm_def, Complex.normSq] <;> norm_num
  unfold addKeys at hk
  rw [hB] at hk
  cases key with
  | e q => exact ⟨q, rfl⟩
  | b q => rcases hc with hc | hc <;> simp [nb, nd, hc] at hk
  | d k q => rcases hc with hc | hc <;> simp [nb, nd, hc] at hk
  | ion n => rcases hc with hc | hc <;> simp [nb, nd, hc] at hk

/-- **C120 (electric field).** In an electric field alone (no magnetic field, no ion) the energies add up to the sum without field, whichever states the basis contains,
as long as no basis vector mixes states of different parity. -/
theorem C120_electric_field {k : ℕ} (C : FieldConsts) (radial : RadKey → ℝ) (me : Method) (st : Fin N → Option QN) (hg : GoodStates st)
    (D : Matrix (Fin N) (Fin N) ℂ)
    (s0 s s' : CSys FieldParams FKey (Fin N) (Fin k)) (h0 : s0.Fresh (fieldInter C radial me st)) (hD : s0.H = s0.Vᴴ * D * s0.V) (hV : KeepsParity st s0.V)
    (hs : Hist (fieldInter C radial me st) s0 s) (hb : s.build (fieldInter C radial me st) = .ok s')
    (hB : s.p.B = ⟨0, 0, 0⟩) (hc : s.p.charge = 0 ∨ s.p.dist = none)
    (X : Matrix (Fin k) (Fin k) ℂ) (e : Fin k → ℝ) (hX : Diagonalizes s'.H X e) :
    ∑ i, (e i : ℂ) = s0.H.trace := by
  have hn := addKeys_nodup s.p
  rw [C120_sum _ D s0 s s' h0 hD hs hb (allKeys s.p.order) hn (addKeys_all s.p) X e hX, add_eq_left]
  refine Finset.sum_eq_zero fun key _ => ?_
  by_cases hk : key ∈ addKeys s.p
  · obtain ⟨q, rfl⟩ := electric_keys s.p hB hc key hk
    have : (fieldOp C radial me st (.e q) * (s0.V * s0.Vᴴ)).trace = 0 :=
      trace_support _ _ fun i j h => electric_entry C radial me st hg q i j fun a b ha hb => by have := hV j i b a hb ha h; omega
    show _ * (fieldOp C radial me st (.e q) * (s0.V * s0.Vᴴ)).trace = 0
    rw [this, mul_zero]
  · have : effCoef (fieldInter C radial me st) s.p key = 0 := if_neg hk
    rw [this, zero_mul]

/-! ## Two atoms -/

theorem lowerView_at (st : Fin N → Option (QN × QN)) (f : QN × QN → QN × QN → ℂ) (i j : Fin N) (h : ∀ a b, st i = some a → st j = some b → f a b = 0 ∧ f b a = 0) :
    lowerView (pairMat st f) i j = 0 := by
  have z : ∀ r c : Fin N, (∀ a b, st r = some a → st c = some b → f a b = 0) → pairMat st f r c = 0 := by
    intro r c h
    unfold pairMat
    split_ifs
    · rfl
    · cases hr : st r with
      | none => rfl
      | some a =>
        cases hc : st c with
        | none => rfl
        | some b => exact h a b hr hc
  unfold lowerView
  rw [z i j fun a b ha hb => (h a b ha hb).1, z j i fun a b ha hb => (h b a hb ha).2]
  split_ifs <;> simp

/-- The basis vectors of the pair do not mix states of different parity of one of the atoms. -/
def KeepsParities {k : Type} [Fintype k] (st : Fin N → Option (QN × QN)) (V : Matrix (Fin N) k ℂ) : Prop :=
  ∀ i j a b, st i = some a → st j = some b → (V * Vᴴ) i j ≠ 0 → (a.1.l + b.1.l) % 2 = 0 ∧ (a.2.l + b.2.l) % 2 = 0

theorem sel_odd (a b : QN) (k : ℤ) (hk : k % 2 = 1) (h0 : 0 ≤ k) (h : (a.l + b.l) % 2 = 0) : selMultipole a b k = false := by
  apply sel_parity
  rw [Int.tmod_eq_emod_of_nonneg h0, Int.tmod_eq_emod_of_nonneg (abs_nonneg _), hk]
  rcases abs_choice (a.l - b.l) with c | c <;> rw [c] <;> omega

theorem angEntry_parity (C : FieldConsts) (radial : RadKey → ℝ) (me : Method) (key : ℤ) (a b : QN × QN) (h : (a.1.l + b.1.l) % 2 = 0) : angEntry C radial me key a b = 0 := by
  unfold angEntry
  rw [sel_odd a.1 b.1 1 (by norm_num) (by norm_num) h]; simp

theorem ddEntry_parity (C : FieldConsts) (radial : RadKey → ℝ) (me : Method) (i : Fin 3 × Fin 3) (a b : QN × QN) (h : (a.1.l + b.1.l) % 2 = 0) : ddEntry C radial me i a b = 0 := by
  unfold ddEntry
  rw [sel_odd a.1 b.1 1 (by norm_num) (by norm_num) h]; simp

theorem dqEntry_parity (C : FieldConsts) (radial : RadKey → ℝ) (me : Method) (i : Fin 3 × Fin 3 × Fin 3) (a b : QN × QN) (h : (a.1.l + b.1.l) % 2 = 0) : dqEntry C radial me i a b = 0 := by
  unfold dqEntry
  rw [sel_odd a.1 b.1 1 (by norm_num) (by norm_num) h]; simp

theorem qdEntry_parity (C : FieldConsts) (radial : RadKey → ℝ) (me : Method) (i : Fin 3 × Fin 3 × Fin 3) (a b : QN × QN) (h : (a.2.l + b.2.l) % 2 = 0) : qdEntry C radial me i a b = 0 := by
  unfold qdEntry
  rw [sel_odd a.2 b.2 1 (by norm_num) (by norm_num) h]; simp

theorem mulEntry_parity (C : FieldConsts) (radial : RadKey → ℝ) (me : Method) (o : ℕ) (ho : o ≤ 4) (a b : QN × QN) (h1 : (a.1.l + b.1.l) % 2 = 0) (h2 : (a.2.l + b.2.l) % 2 = 0) :
    mulEntry C radial me o a b = 0 := by
  unfold mulEntry
  split_ifs
  · rw [List.sum_eq_zero]
    · simp
    · intro x hx
      obtain ⟨i, hi, rfl⟩ := List.mem_map.1 hx
      have hi := List.mem_range.1 hi
      unfold mulTerm
      dsimp only
      by_cases hp : ((i : ℤ) + 1) % 2 = 1
      · rw [sel_odd a.1 b.1 _ hp (by omega) h1]; simp
      · rw [sel_odd a.2 b.2 ((o : ℤ) - 1 - (i + 1)) (by omega) (by omega) h2]; simp
  · rfl

theorem pair_entry (C : FieldConsts) (radial : RadKey → ℝ) (me : Method) (st : Fin N → Option (QN × QN)) (key : PKey) (h4 : ∀ o, key = .mul o → o ≤ 4) (i j : Fin N)
    (p : ∀ a b, st i = some a → st j = some b → (a.1.l + b.1.l) % 2 = 0 ∧ (a.2.l + b.2.l) % 2 = 0) : pairOper C radial me st key i j = 0 := by
  have par : ∀ a b, st i = some a → st j = some b → (a.1.l + b.1.l) % 2 = 0 ∧ (a.2.l + b.2.l) % 2 = 0 ∧ (b.1.l + a.1.l) % 2 = 0 ∧ (b.2.l + a.2.l) % 2 = 0 := by
    intro a b ha hb
    have := p a b ha hb
    omega
  cases key with
  | ang key => exact lowerView_at st _ i j fun a b ha hb => ⟨angEntry_parity _ _ _ _ _ _ (par a b ha hb).1, angEntry_parity _ _ _ _ _ _ (par a b ha hb).2.2.1⟩
  | dd key => exact lowerView_at st _ i j fun a b ha hb => ⟨ddEntry_parity _ _ _ _ _ _ (par a b ha hb).1, ddEntry_parity _ _ _ _ _ _ (par a b ha hb).2.2.1⟩
  | dq key => exact lowerView_at st _ i j fun a b ha hb => ⟨dqEntry_parity _ _ _ _ _ _ (par a b ha hb).1, dqEntry_parity _ _ _ _ _ _ (par a b ha hb).2.2.1⟩
  | qd key => exact lowerView_at st _ i j fun a b ha hb => ⟨qdEntry_parity _ _ _ _ _ _ (par a b ha hb).2.1, qdEntry_parity _ _ _ _ _ _ (par a b ha hb).2.2.2⟩
  | mul o =>
    exact lowerView_at st _ i j fun a b ha hb => ⟨mulEntry_parity _ _ _ _ (h4 o rfl) _ _ (par a b ha hb).1 (par a b ha hb).2.1, mulEntry_parity _ _ _ _ (h4 o rfl) _ _ (par a b ha hb).2.2.1 (par a b ha hb).2.2.2⟩

theorem pairTerms_order (p : PairParams) (u : PKey × ℝ) (hu : u ∈ pairTerms p) (o : ℕ) (h : u.1 = .mul o) : o ≤ p.order := by
  unfold pairTerms addPair at hu
  by_cases c1 : p.dist = dblMax
  · rw [if_pos c1] at hu; exact absurd hu List.not_mem_nil
  rw [if_neg c1] at hu
  by_cases c2 : p.gt = true
  · rw [if_pos c2] at hu
    simp only [List.mem_append, List.mem_map] at hu
    rcases hu with (⟨t, -, rfl⟩ | ⟨t, -, rfl⟩) | ⟨t, -, rfl⟩ <;> simp at h
  rw [if_neg c2] at hu
  by_cases c3 : p.x ≠ 0
  · rw [if_pos c3] at hu
    obtain ⟨t, -, rfl⟩ := List.mem_map.1 hu
    simp at h
  rw [if_neg c3] at hu
  obtain ⟨t, ht, rfl⟩ := List.mem_map.1 hu
  unfold mulOrders at ht
  obtain ⟨i, hi, rfl⟩ := List.mem_map.1 ht
  have := List.mem_range.1 hi
  simp at h
  omega

/-- **C120 (two atoms).** The energies of a SystemTwo add up to the sum without interaction, for every distance, angle and surface, as long as the multipole expansion is not
taken beyond the dipole-quadrupole order 4 and no basis vector mixes states of different parity of an atom. -/
theorem C120_two_atoms {k : ℕ} (C : FieldConsts) (radial : RadKey → ℝ) (me : Method) (st : Fin N → Option (QN × QN)) (D : Matrix (Fin N) (Fin N) ℂ)
    (s0 s s' : CSys OKPair PKey (Fin N) (Fin k)) (h0 : s0.Fresh (pairInter C radial me st)) (hD : s0.H = s0.Vᴴ * D * s0.V) (hV : KeepsParities st s0.V)
    (hs : Hist (pairInter C radial me st) s0 s) (hb : s.build (pairInter C radial me st) = .ok s') (ho : s.p.1.order ≤ 4)
    (X : Matrix (Fin k) (Fin k) ℂ) (e : Fin k → ℝ) (hX : Diagonalizes s'.H X e) :
    ∑ i, (e i : ℂ) = s0.H.trace := by
  rw [C120_sum _ D s0 s s' h0 hD hs hb ((pairTerms s.p.1).map fun u => u.1).toFinset (pairTerms_nodup _) (fun key hk => List.mem_toFinset.2 (show key ∈ (pairTerms s.p.1).map fun u => u.1 from hk)) X e hX, add_eq_left]
  refine Finset.sum_eq_zero fun key hk => ?_
  have : (pairOper C radial me st key * (s0.V * s0.Vᴴ)).trace = 0 := by
    apply trace_support
    intro i j h
    refine pair_entry C radial me st key (fun o h4 => ?_) i j fun a b ha hb => by have := hV j i b a hb ha h; omega
    obtain ⟨u, hu, hk⟩ := List.mem_map.1 (List.mem_toFinset.1 hk)
    exact (pairTerms_order s.p.1 u hu o (hk.trans h4)).trans ho
  show _ * (pairOper C radial me st key * (s0.V * s0.Vᴴ)).trace = 0
  rw [this, mul_zero]


theorem physical_j0 {a : QN} (h : a.Physical) : 0 ≤ a.j := (abs_nonneg a.m).trans h.2.2.2.2.2.1

theorem elem_level (C : FieldConsts) (radial : RadKey → ℝ) (me : Method) (k : ℕ) (h1 : 1 ≤ k) (a : QN) (ha : a.Physical) :
    ∑ l ∈ Finset.range (a.j.toNat + 1), elem C radial me k { a with m := a.j - 2 * l } { a with m := a.j - 2 * l } = 0 := by
  obtain ⟨ρ, h⟩ := elem_we C radial me k a a ha ha rfl rfl
  have a0 : 0 ≤ a.j := physical_j0 ha
  have e : ∀ l ∈ Finset.range (a.j.toNat + 1), elem C radial me k { a with m := a.j - 2 * l } { a with m := a.j - 2 * l } =
      ρ * angularSpec k a.j.toNat a.j.toNat ((a.j.toNat : ℤ) - 2 * l) ((a.j.toNat : ℤ) - 2 * l) := by
    intro l hl
    rw [h _ _ (isM_level a l a0 hl) (isM_level a l a0 hl), Int.toNat_of_nonneg a0]
  rw [Finset.sum_congr rfl e, ← Finset.mul_sum, ang_trace k _ h1, mul_zero]

theorem mulTerm_diag (C : FieldConsts) (radial : RadKey → ℝ) (me : Method) (o : ℕ) (a : QN × QN) (h1 : a.1.Physical) (h2 : a.2.Physical) (k1 : ℤ) (hk : 0 ≤ k1) (hk' : 0 ≤ o - 1 - k1) :
    mulTerm C radial me o a a k1 = C.ke * sgn ((o : ℤ) - 1 - k1) * Real.sqrt (binom (k1 + (o - 1 - k1)) k1 * binom (k1 + (o - 1 - k1)) (o - 1 - k1)) *
      (elem C radial me k1 a.1 a.1 * elem C radial me (o - 1 - k1) a.2 a.2) := by
  unfold mulTerm
  dsimp only
  have m0 : ∀ x : QN, mDiff x x = 0 := by intro x; unfold mDiff; rw [sub_self]; rfl
  rw [m0, m0, add_zero, sub_zero]
  by_cases s1 : selMultipole a.1 a.1 k1 = true
  · by_cases s2 : selMultipole a.2 a.2 (o - 1 - k1) = true
    · rw [s1, s2, if_pos (by rfl)]; ring
    · rw [if_neg (by simp [s2]), elem_zero C radial me a.2 a.2 h2 h2 rfl rfl _ hk' (by simpa using s2)]; ring
  · rw [if_neg (by simp [s1]), elem_zero C radial me a.1 a.1 h1 h1 rfl rfl _ hk (by simpa using s1)]; ring

/-- The interaction operators have no trace on complete Zeeman multiplets of both atoms, at any order. -/
theorem pair_trace (C : FieldConsts) (radial : RadKey → ℝ) (me : Method) (st : Fin N → Option (QN × QN)) (hst : RotPairs st) (hz : AllZeemanPairs st) (hg : GoodPairs st) (key : PKey) :
    (pairOper C radial me st key).trace = 0 := by
  have z : ∀ f : QN × QN → QN × QN → ℂ, (∀ a, f a a = 0) → (lowerView (pairMat st f)).trace = 0 := by
    intro f h
    unfold Matrix.trace
    refine Finset.sum_eq_zero fun i _ => ?_
    rw [Matrix.diag_apply]
    refine lowerView_at st f i i fun a b ha hb => ?_
    rw [ha] at hb
    cases hb
    exact ⟨h a, h a⟩
  cases key with
  | ang key => exact z _ fun a => angEntry_parity _ _ _ _ _ _ (by omega)
  | dd key => exact z _ fun a => ddEntry_parity _ _ _ _ _ _ (by omega)
  | dq key => exact z _ fun a => dqEntry_parity _ _ _ _ _ _ (by omega)
  | qd key => exact z _ fun a => qdEntry_parity _ _ _ _ _ _ (by omega)
  | mul o =>
    have e : (pairOper C radial me st (.mul o)).trace = ∑ i, (match st i with | some a => (((mulEntry C radial me o a a).re : ℝ) : ℂ) | none => 0) := by
      unfold Matrix.trace
      refine Finset.sum_congr rfl fun i _ => ?_
      rw [Matrix.diag_apply]
      show lowerView (pairMat st (mulEntry C radial me o)) i i = _
      unfold lowerView pairMat
      rw [if_neg (lt_irrefl i), if_pos rfl, if_neg (lt_irrefl i)]
      cases st i with
      | none => simp
      | some a => rfl
    rw [e]
    apply pairs_sum_zero st hst hz
    intro i a ha
    obtain ⟨p1, p2, -⟩ := hg i a ha
    have m0 : ∀ x : QN, mDiff x x = 0 := by intro x; unfold mDiff; rw [sub_self]; rfl
    have f : ∀ x : QN × QN, x.1.Physical → x.2.Physical → (mulEntry C radial me o x x).re = ∑ i ∈ Finset.range (o - 2),
        C.ke * sgn ((o : ℤ) - 1 - ((i : ℤ) + 1)) * Real.sqrt (binom (((i : ℤ) + 1) + (o - 1 - ((i : ℤ) + 1))) ((i : ℤ) + 1) * binom (((i : ℤ) + 1) + (o - 1 - ((i : ℤ) + 1))) (o - 1 - ((i : ℤ) + 1))) *
        (elem C radial me ((i : ℤ) + 1) x.1 x.1 * elem C radial me (o - 1 - ((i : ℤ) + 1)) x.2 x.2) := by
      intro x h1 h2
      unfold mulEntry
      rw [m0, m0, if_pos (by norm_num), Complex.ofReal_re, ← List.sum_toFinset _ List.nodup_range, List.toFinset_range]
      refine Finset.sum_congr rfl fun i hi => ?_
      have hi := Finset.mem_range.1 hi
      exact mulTerm_diag C radial me o x h1 h2 _ (by omega) (by omega)
    rw [← Complex.ofReal_sum, Complex.ofReal_eq_zero]
    refine (Finset.sum_congr rfl fun p hp => f ({ a.1 with m := a.1.j - 2 * p.1 }, { a.2 with m := a.2.j - 2 * p.2 })
      (physical_m p1 (isM_level a.1 p.1 (physical_j0 p1) (Finset.mem_product.1 hp).1)) (physical_m p2 (isM_level a.2 p.2 (physical_j0 p2) (Finset.mem_product.1 hp).2))).trans ?_
    rw [Finset.sum_comm]
    refine Finset.sum_eq_zero fun i hi => ?_
    rw [← Finset.mul_sum, Finset.sum_product]
    dsimp only
    have := elem_level C radial me (i + 1) (by omega) a.1 p1
    push_cast at this
    rw [← Finset.sum_mul_sum, this, zero_mul, mul_zero]

/-- **C120 (two atoms, multiplets).** When the basis contains all combinations of Zeeman levels, the energies of a SystemTwo add up to the sum without interaction for all settings, at any order of the
multipole expansion. -/
theorem C120_two_atoms_multiplets {k : ℕ} (C : FieldConsts) (radial : RadKey → ℝ) (me : Method) (st : Fin N → Option (QN × QN)) (hst : RotPairs st) (hz : AllZeemanPairs st) (hg : GoodPairs st)
    (D : Matrix (Fin N) (Fin N) ℂ)
    (s0 s s' : CSys OKPair PKey (Fin N) (Fin k)) (h0 : s0.Fresh (pairInter C radial me st)) (hD : s0.H = s0.Vᴴ * D * s0.V) (hV : s0.V * s0.Vᴴ = 1)
    (hs : Hist (pairInter C radial me st) s0 s) (hb : s.build (pairInter C radial me st) = .ok s')
    (X : Matrix (Fin k) (Fin k) ℂ) (e : Fin k → ℝ) (hX : Diagonalizes s'.H X e) :
    ∑ i, (e i : ℂ) = s0.H.trace := by
  rw [C120_sum _ D s0 s s' h0 hD hs hb ((pairTerms s.p.1).map fun u => u.1).toFinset (pairTerms_nodup _) (fun key hk => List.mem_toFinset.2 (show key ∈ (pairTerms s.p.1).map fun u => u.1 from hk)) X e hX, add_eq_left]
  refine Finset.sum_eq_zero fun key _ => ?_
  have : ((pairInter C radial me st).op key).trace = 0 := pair_trace C radial me st hst hz hg key
  rw [hV, Matrix.mul_one, this, mul_zero]


/-! ## The hypotheses can be met -/

/-- The two levels of 30 S1/2 in tilted fields, with diamagnetism: their mean is shifted by the diamagnetic term only. -/
example (C : FieldConsts) (radial : RadKey → ℝ) (me : Method) : ∃ (s s' : CSys FieldParams FKey (Fin 2) (Fin 2)) (X : Matrix (Fin 2) (Fin 2) ℂ) (e : Fin 2 → ℝ),
    s.build (fieldInter C radial me exS) = .ok s' ∧ Diagonalizes s'.H X e ∧
      ((e 0 : ℂ) + e 1) = 14 + 9 * ((∑ i, (match exS i with | some a => diaCentre C radial me a | none => 0) : ℝ) : ℂ) := by
  obtain ⟨s0, s, s', h0, hV, hH, hs, hb, hp, X, e, hX, -⟩ := one_atom_run C radial me exS exS_good (fun _ => 7) ⟨⟨1, 3, 2⟩, ⟨2, 1, 2⟩, true, 0, 0, none⟩
  refine ⟨s, s', X, e, hb, hX, ?_⟩
  have := C120_one_atom C radial me exS exS_rot exS_all exS_good (Matrix.diagonal fun _ => ((7 : ℝ) : ℂ)) s0 s s' h0 (by rw [hV, hH]; simp) (by rw [hV]; simp) hs hb X e hX
  rw [Fin.sum_univ_two] at this
  rw [this, hp, if_pos rfl, hH]
  have c : cut (((2 ^ 2 + 1 ^ 2 + 2 ^ 2 : ℝ)) : ℂ) = 9 := by
    unfold cut isBig
    rw [Complex.norm_real, if_pos (by norm_num)]
    norm_num
  dsimp only
  rw [c]
  congr 1
  rw [Matrix.trace_diagonal, Fin.sum_univ_two]
  norm_num

/-- The same states in an electric field alone. -/
example (C : FieldConsts) (radial : RadKey → ℝ) (me : Method) : ∃ (s s' : CSys FieldParams FKey (Fin 2) (Fin 2)) (X : Matrix (Fin 2) (Fin 2) ℂ) (e : Fin 2 → ℝ),
    s.build (fieldInter C radial me exS) = .ok s' ∧ Diagonalizes s'.H X e ∧ ∑ i, (e i : ℂ) = 14 := by
  obtain ⟨s0, s, s', h0, hV, hH, hs, hb, hp, X, e, hX, -⟩ := one_atom_run C radial me exS exS_good (fun _ => 7) ⟨⟨1, 3, 2⟩, ⟨0, 0, 0⟩, false, 0, 0, none⟩
  refine ⟨s, s', X, e, hb, hX, ?_⟩
  rw [C120_electric_field C radial me exS exS_good (Matrix.diagonal fun _ => ((7 : ℝ) : ℂ)) s0 s s' h0 (by rw [hV, hH]; simp) (by
    intro i j a b ha hb h
    rw [hV, Matrix.conjTranspose_one, Matrix.mul_one] at h
    have : i = j := by
      by_contra c
      exact h (Matrix.one_apply_ne c)
    subst this
    rw [ha] at hb
    cases hb
    omega) hs hb (by rw [hp]) (by rw [hp]; exact Or.inl rfl) X e hX, hH, Matrix.trace_diagonal, Fin.sum_univ_two]
  norm_num

/-- The eight pair states of 30 S1/2 and 30 P1/2 at any accepted settings. -/
example (C : FieldConsts) (radial : RadKey → ℝ) (me : Method) (p : OKPair) : ∃ (s s' : CSys OKPair PKey (Fin 8) (Fin 8)) (X : Matrix (Fin 8) (Fin 8) ℂ) (e : Fin 8 → ℝ),
    s.p = p ∧ s.build (pairInter C radial me exSP) = .ok s' ∧ Diagonalizes s'.H X e ∧ ∑ i, (e i : ℂ) = 56 := by
  obtain ⟨s0, s, s', h0, hV, hH, hs, hb, hp, X, e, hX, -⟩ := two_atoms_run C radial me exSP (fun _ => 7) p
  refine ⟨s, s', X, e, hp, hb, hX, ?_⟩
  rw [C120_two_atoms_multiplets C radial me exSP exSP_rot exSP_all exSP_good (Matrix.diagonal fun _ => ((7 : ℝ) : ℂ)) s0 s s' h0 (by rw [hV, hH]; simp) (by rw [hV]; simp) hs hb X e hX, hH,
    Matrix.trace_diagonal, Finset.sum_const, Finset.card_fin]
  norm_num

/-- The condition on the parity holds when the basis vectors are the pair states. -/
example (C : FieldConsts) (radial : RadKey → ℝ) (me : Method) (p : OKPair) (ho : p.1.order ≤ 4) : ∃ (s s' : CSys OKPair PKey (Fin 8) (Fin 8)) (X : Matrix (Fin 8) (Fin 8) ℂ) (e : Fin 8 → ℝ),
    s.p = p ∧ s.build (pairInter C radial me exSP) = .ok s' ∧ Diagonalizes s'.H X e ∧ ∑ i, (e i : ℂ) = 56 := by
  obtain ⟨s0, s, s', h0, hV, hH, hs, hb, hp, X, e, hX, -⟩ := two_atoms_run C radial me exSP (fun _ => 7) p
  refine ⟨s, s', X, e, hp, hb, hX, ?_⟩
  rw [C120_two_atoms C radial me exSP (Matrix.diagonal fun _ => ((7 : ℝ) : ℂ)) s0 s s' h0 (by rw [hV, hH]; simp) (by
    intro i j a b ha hb h
    rw [hV, Matrix.conjTranspose_one, Matrix.mul_one] at h
    have : i = j := by
      by_contra c
      exact h (Matrix.one_apply_ne c)
    subst this
    rw [ha] at hb
    cases hb
    omega) hs hb (by rw [hp]; exact ho) X e hX, hH, Matrix.trace_diagonal, Finset.sum_const, Finset.card_fin]
  norm_num

end PI
