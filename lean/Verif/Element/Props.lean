import Verif.Element.Model

/-! # Properties C16–C21, C63: matrix elements do not depend on lookup order -/

namespace PI

/-! ## Specifications: textbook formulas in the order the caller asks -/

/-- ⟨j₁m₁| T^κ_q |j₂m₂⟩ / ⟨j₁‖T^κ‖j₂⟩ = (−1)^{j₁−m₁} (j₁ κ j₂; −m₁ q m₂) with q = m₁ − m₂
(Wigner–Eckart theorem). -/
noncomputable def angularSpec (kappa j1 j2 m1 m2 : ℤ) : ℝ :=
  sgn ((j1 - m1) / 2) * w3j j1 (2 * kappa) j2 (-m1) (m1 - m2) m2

/-- ⟨(l₁ s)j₁‖T^κ‖(l₂ s)j₂⟩ / ⟨l₁‖T^κ‖l₂⟩ for an operator that commutes with the spin:
(−1)^{l₁+s+j₂+κ} √((2j₁+1)(2j₂+1)) {l₁ j₁ s; j₂ l₂ κ}. -/
noncomputable def commutesSSpec (s kappa l1 l2 j1 j2 : ℤ) : ℝ :=
  sgn ((2 * l1 + s + j2 + 2 * kappa) / 2) * Real.sqrt ((j1 + 1) * (j2 + 1)) *
    w6j (2 * l1) j1 s j2 (2 * l2) (2 * kappa)

/-- The same for an operator that commutes with the orbital momentum; it is diagonal in `l`:
(−1)^{l+s+j₁+κ} √((2j₁+1)(2j₂+1)) {s j₁ l; j₂ s κ}. -/
noncomputable def commutesLSpec (s kappa l1 l2 j1 j2 : ℤ) : ℝ :=
  if l1 = l2 then sgn ((2 * l1 + s + j1 + 2 * kappa) / 2) * Real.sqrt ((j1 + 1) * (j2 + 1)) *
    w6j s j1 (2 * l1) j2 s (2 * kappa)
  else 0

/-- ⟨l₁‖C^κ‖l₂⟩ = (−1)^{l₁} √((2l₁+1)(2l₂+1)) (l₁ κ l₂; 0 0 0). -/
noncomputable def multipoleSpec (kappa l1 l2 : ℤ) : ℝ :=
  sgn l1 * Real.sqrt ((2 * l1 + 1) * (2 * l2 + 1)) * w3j (2 * l1) (2 * kappa) (2 * l2) 0 0 0

theorem tdiv_even {x : ℤ} (h : x % 2 = 0) : x.tdiv 2 = x / 2 := by
  obtain ⟨k, rfl⟩ : ∃ k, x = 2 * k := ⟨x / 2, by omega⟩
  rw [Int.mul_tdiv_cancel_left _ (by norm_num)]; omega

/-! ## C16 -/

theorem angular_sym (kappa j1 j2 m1 m2 : ℤ) (h1 : (j1 + m1) % 2 = 0) (h2 : (j2 + m2) % 2 = 0) :
    angularSpec kappa j1 j2 m1 m2 = sgn ((j1 - m1 + j2 - m2) / 2) * angularSpec kappa j2 j1 m2 m1 := by
  unfold angularSpec
  rw [w3j_swap_neg j1 _ j2, neg_neg, neg_sub, ← mul_assoc, sgn_mul]
  rw [sgn_congr (show ((j1 - m1) / 2 - ((j1 - m1 + j2 - m2) / 2 + (j2 - m2) / 2)) % 2 = 0 by omega)]

/-- **C16.** Whichever order filled the cache — both orders share one key — the stored value times the
key's sign is the 3j formula in the order asked. -/
theorem C16_angular_order (kappa j1 j2 m1 m2 : ℤ) (h1 : (j1 + m1) % 2 = 0) (h2 : (j2 + m2) % 2 = 0) :
    (AngKey.make kappa j1 j2 m1 m2).2 * (AngKey.make kappa j1 j2 m1 m2).1.value
      = angularSpec kappa j1 j2 m1 m2 ∧
    (AngKey.make kappa j1 j2 m1 m2).1 = (AngKey.make kappa j2 j1 m2 m1).1 := by
  constructor
  · unfold AngKey.make
    split_ifs with h
    · simp only [AngKey.value, angularSpec]
      rw [tdiv_even (by omega)]; ring
    · simp only [AngKey.value]
      rw [angular_sym _ _ _ _ _ h1 h2, tdiv_even (by omega), tdiv_even (by omega)]
      rfl
  · unfold AngKey.make
    split_ifs with ha hb hb <;> simp only [AngKey.mk.injEq, Prod.mk.injEq, true_and] <;> omega

/-- A case in which the caller's order is swapped and the value is not zero for trivial reasons:
⟨3/2,1/2|T¹|1/2,−1/2⟩. -/
example : (3 + 1 : ℤ) % 2 = 0 ∧ (1 + (-1) : ℤ) % 2 = 0 ∧ Valid3 3 2 1 (-1) (1 - (-1)) (-1) ∧
    ¬ ((3 : ℤ) < 1 ∨ ((3 : ℤ) = 1 ∧ (1 : ℤ) ≤ -1)) := by decide

/-! ## C17 -/

theorem valueS_eq (s kappa l1 l2 j1 j2 : ℤ) (h1 : (j1 + s) % 2 = 0) (h2 : (j2 + s) % 2 = 0) :
    ComKey.valueS ⟨s, kappa, (l1, l2), (j1, j2)⟩ = commutesSSpec s kappa l1 l2 j1 j2 := by
  unfold ComKey.valueS commutesSSpec
  simp only
  split_ifs with h
  · rw [tdiv_even (by omega)]
  · rw [w6j, if_neg, mul_zero]
    rintro ⟨t1, t2, t3, t4⟩
    apply h
    unfold Tri at *
    refine ⟨?_, by omega, ?_, by omega, ?_, by omega, ?_, by omega⟩ <;>
      simp only [ge_iff_le, abs_le] <;> omega

theorem commutesS_sym (s kappa l1 l2 j1 j2 : ℤ) (h1 : (j1 + s) % 2 = 0) (h2 : (j2 + s) % 2 = 0) :
    commutesSSpec s kappa l1 l2 j1 j2 =
      sgn ((2 * l1 + j1 + 2 * l2 + j2 + 2 * s) / 2) * commutesSSpec s kappa l2 l1 j2 j1 := by
  unfold commutesSSpec
  rw [w6j_swap (2 * l1), mul_comm ((j2 : ℝ) + 1), ← mul_assoc, ← mul_assoc, sgn_mul]
  rw [sgn_congr (show ((2 * l1 + s + j2 + 2 * kappa) / 2 -
    ((2 * l1 + j1 + 2 * l2 + j2 + 2 * s) / 2 + (2 * l2 + s + j1 + 2 * kappa) / 2)) % 2 = 0 by omega)]

theorem valueL_eq (s kappa l j1 j2 : ℤ) (h1 : (j1 + s) % 2 = 0) (h2 : (j2 + s) % 2 = 0) :
    ComKey.valueL ⟨s, kappa, (l, l), (j1, j2)⟩ = commutesLSpec s kappa l l j1 j2 := by
  unfold ComKey.valueL commutesLSpec
  simp only [if_true]
  split_ifs with h
  · rw [tdiv_even (by omega)]
  · rw [w6j, if_neg, mul_zero]
    rintro ⟨t1, t2, t3, t4⟩
    apply h
    unfold Tri at *
    refine ⟨?_, by omega, ?_, by omega, ?_, by omega, ?_, by omega⟩ <;>
      simp only [ge_iff_le, abs_le] <;> omega

theorem commutesL_sym (s kappa l j1 j2 : ℤ) (h1 : (j1 + s) % 2 = 0) (h2 : (j2 + s) % 2 = 0) :
    commutesLSpec s kappa l l j1 j2 =
      sgn ((2 * l + j1 + 2 * l + j2 + 2 * s) / 2) * commutesLSpec s kappa l l j2 j1 := by
  unfold commutesLSpec
  simp only [if_true]
  rw [w6j_swap s, mul_comm ((j2 : ℝ) + 1), ← mul_assoc, ← mul_assoc, sgn_mul]
  rw [sgn_congr (show ((2 * l + s + j1 + 2 * kappa) / 2 -
    ((2 * l + j1 + 2 * l + j2 + 2 * s) / 2 + (2 * l + s + j2 + 2 * kappa) / 2)) % 2 = 0 by omega)]

theorem comKey_shared (s kappa l1 l2 j1 j2 : ℤ) :
    (ComKey.make s kappa l1 l2 j1 j2).1 = (ComKey.make s kappa l2 l1 j2 j1).1 := by
  unfold ComKey.make
  split_ifs with ha hb hb <;> simp only [ComKey.mk.injEq, Prod.mk.injEq, true_and] <;> omega

/-- **C17 (partial).** Spin-commuting elements: for all arguments, the stored value times the key's
sign is the 6j formula in the order asked (this settles the "is this formula always correct?" remark
at MatrixElementCache.cpp:250).  Orbital-commuting elements: the same when l₁ = l₂.  Both orders share
one key.  Missing: l₁ ≠ l₂ in the second case, which fails, see `C17_commutes_l_fails`. -/
theorem C17_commutes_order_partial (s kappa l1 l2 j1 j2 : ℤ)
    (h1 : (j1 + s) % 2 = 0) (h2 : (j2 + s) % 2 = 0) :
    (ComKey.make s kappa l1 l2 j1 j2).2 * (ComKey.make s kappa l1 l2 j1 j2).1.valueS
      = commutesSSpec s kappa l1 l2 j1 j2 ∧
    (l1 = l2 → (ComKey.make s kappa l1 l2 j1 j2).2 * (ComKey.make s kappa l1 l2 j1 j2).1.valueL
      = commutesLSpec s kappa l1 l2 j1 j2) ∧
    (ComKey.make s kappa l1 l2 j1 j2).1 = (ComKey.make s kappa l2 l1 j2 j1).1 := by
  refine ⟨?_, ?_, comKey_shared _ _ _ _ _ _⟩
  · unfold ComKey.make
    split_ifs with h
    · simp only; rw [valueS_eq _ _ _ _ _ _ h1 h2, one_mul]
    · simp only
      rw [valueS_eq _ _ _ _ _ _ h2 h1, commutesS_sym _ _ _ _ _ _ h1 h2, tdiv_even (by omega)]
  · rintro rfl
    unfold ComKey.make
    split_ifs with h
    · simp only; rw [valueL_eq _ _ _ _ _ h1 h2, one_mul]
    · simp only
      rw [valueL_eq _ _ _ _ _ h2 h1, commutesL_sym _ _ _ _ _ h1 h2, tdiv_even (by omega)]

/-- A swapped lookup with all triangle conditions satisfied: ⟨D3/2‖·‖P1/2⟩, s = 1/2, κ = 1. -/
example : (3 + 1 : ℤ) % 2 = 0 ∧ (1 + 1 : ℤ) % 2 = 0 ∧ ¬ ((2 : ℤ) < 1 ∨ ((2 : ℤ) = 1 ∧ (3 : ℤ) ≤ 1)) ∧
    Tri 4 3 1 ∧ Tri 4 2 2 ∧ Tri 1 3 2 ∧ Tri 1 2 1 := by decide

theorem fct_pos (z : ℤ) : 0 < fct z := by unfold fct; positivity

theorem delta2_pos (a b c : ℤ) : 0 < delta2 a b c := by
  unfold delta2
  have := fct_pos ((a + b - c) / 2); have := fct_pos ((a - b + c) / 2)
  have := fct_pos ((-a + b + c) / 2); have := fct_pos ((a + b + c) / 2 + 1)
  positivity

theorem ifct_pos {z : ℤ} (h : 0 ≤ z) : 0 < ifct z := by
  unfold ifct; rw [if_neg (by omega)]; positivity

/-- {½ ½ 0; ½ ½ 1} ≠ 0: its sum has a single term. -/
theorem w6j_witness : w6j 1 1 0 1 1 2 ≠ 0 := by
  unfold w6j
  rw [if_pos (by decide)]
  apply mul_ne_zero
  · have := delta2_pos 1 1 0; have := delta2_pos 1 1 2
    exact (Real.sqrt_pos.mpr (by positivity)).ne'
  · norm_num
    rw [sum6_eq]
    have : Finset.Icc (1 : ℤ) 2 = {1, 2} := by decide
    rw [this, Finset.sum_pair (by norm_num)]
    have z : ifct ((1 : ℤ) - 2) = 0 := by simp [ifct]
    rw [z]
    simp only [mul_zero, zero_mul, zero_add]
    have h1 : 0 < ifct ((2 : ℤ) - 1) := ifct_pos (by norm_num)
    have h2 : 0 < ifct ((2 : ℤ) - 2) := ifct_pos (by norm_num)
    have h3 := fct_pos (2 + 1)
    have h4 : sgn 2 = 1 := by simp [sgn]
    rw [h4]
    positivity

/-- **C17 fails** for the orbital-commuting case with l₁ ≠ l₂: the element between P₁/₂ and S₁/₂ of an
operator that commutes with the orbital momentum is zero, but a non-zero value is stored. -/
theorem C17_commutes_l_fails :
    ∃ s kappa l1 l2 j1 j2 : ℤ, (j1 + s) % 2 = 0 ∧ (j2 + s) % 2 = 0 ∧
      commutesLSpec s kappa l1 l2 j1 j2 = 0 ∧
      (ComKey.make s kappa l1 l2 j1 j2).2 * (ComKey.make s kappa l1 l2 j1 j2).1.valueL ≠ 0 := by
  refine ⟨1, 1, 1, 0, 1, 1, by norm_num, by norm_num, by simp [commutesLSpec], ?_⟩
  unfold ComKey.make
  rw [if_neg (by norm_num)]
  apply mul_ne_zero
  · dsimp only; exact sgn_ne_zero _
  dsimp only
  unfold ComKey.valueL
  rw [if_pos (by norm_num)]
  apply mul_ne_zero
  · exact mul_ne_zero (sgn_ne_zero _) (Real.sqrt_pos.mpr (by norm_num)).ne'
  · exact w6j_witness

/-! ## C18 -/

theorem multipole_sym (kappa l1 l2 : ℤ) :
    multipoleSpec kappa l1 l2 = sgn kappa * multipoleSpec kappa l2 l1 := by
  unfold multipoleSpec
  have hsw := w3j_swap_neg (2 * l1) (2 * kappa) (2 * l2) 0 0 0
  simp only [neg_zero] at hsw
  by_cases hp : (l1 + kappa + l2) % 2 = 0
  · rw [hsw, mul_comm (2 * (l2 : ℝ) + 1), ← mul_assoc, ← mul_assoc, sgn_mul,
      sgn_congr (show (l1 - (kappa + l2)) % 2 = 0 by omega)]
  · have h0 : w3j (2 * l1) (2 * kappa) (2 * l2) 0 0 0 = 0 :=
      w3j_zero_of_odd _ _ _ (by omega)
    rw [h0, ← hsw, h0]; simp

/-- **C18.** For all κ, l₁, l₂ the stored value times the key's sign is
(−1)^{l₁}√((2l₁+1)(2l₂+1)) (l₁ κ l₂; 0 0 0) in the order asked; both orders share one key. -/
theorem C18_multipole_order (kappa l1 l2 : ℤ) :
    (MulKey.make kappa l1 l2).2 * (MulKey.make kappa l1 l2).1.value = multipoleSpec kappa l1 l2 ∧
    (MulKey.make kappa l1 l2).1 = (MulKey.make kappa l2 l1).1 := by
  constructor
  · unfold MulKey.make
    split_ifs with h
    · simp [MulKey.value, multipoleSpec]
    · rw [multipole_sym]; rfl
  · unfold MulKey.make
    split_ifs with ha hb hb <;> simp only [MulKey.mk.injEq, Prod.mk.injEq, true_and] <;> omega

/-- A swapped lookup with valid 3j symbol: l₁ = 2, l₂ = 1, κ = 1. -/
example : Valid3 (2 * 2) (2 * 1) (2 * 1) 0 0 0 ∧ ¬ (2 : ℤ) ≤ 1 := by decide

/-! ## C19 -/

/-- **C19.** Two radial lookups share a cache entry exactly when method, species and κ agree and the
unordered pairs {(n₁,l₁,j₁),(n₂,l₂,j₂)} agree. -/
theorem C19_radial_keys (me me' : Method) (sp sp' : String) (k k' : ℤ)
    (n1 n2 l1 l2 j1 j2 n1' n2' l1' l2' j1' j2' : ℤ) :
    RadKey.make me sp k n1 n2 l1 l2 j1 j2 = RadKey.make me' sp' k' n1' n2' l1' l2' j1' j2' ↔
      me = me' ∧ sp = sp' ∧ k = k' ∧
      (((n1, l1, j1) = (n1', l1', j1') ∧ (n2, l2, j2) = (n2', l2', j2')) ∨
       ((n1, l1, j1) = (n2', l2', j2') ∧ (n2, l2, j2) = (n1', l1', j1'))) := by
  unfold RadKey.make
  split_ifs with ha hb hb <;> simp only [RadKey.mk.injEq, Prod.mk.injEq] <;>
    (constructor <;> rintro ⟨h1, h2, h3, h4⟩ <;> refine ⟨h1, h2, h3, ?_⟩ <;> omega)

example : RadKey.make .numerov "Rb" 1 61 60 0 1 1 3 = RadKey.make .numerov "Rb" 1 60 61 1 0 3 1 ∧
    RadKey.make .numerov "Rb" 1 61 60 0 1 1 3 ≠ RadKey.make .numerov "Rb" 1 61 60 1 0 1 3 := by decide

/-! ## C20 -/

/-- The angular part of ⟨a|Q_{κ,q}|b⟩ for an electric multipole operator, textbook form; zero unless
m_a − m_b = q. -/
noncomputable def multipoleAngular (a b : QN) (kappa q : ℤ) : ℝ :=
  (sgn ((a.j - a.m) / 2) * w3j a.j (2 * kappa) b.j (-a.m) (2 * q) b.m) *
    commutesSSpec a.s kappa a.l b.l a.j b.j * multipoleSpec kappa a.l b.l

/-- The angular parts of ⟨a|L_q|b⟩ and ⟨a|S_q|b⟩, textbook form: both operators are diagonal in l. -/
noncomputable def momentumAngularL (a b : QN) (q : ℤ) : ℝ :=
  if a.l = b.l then (sgn ((a.j - a.m) / 2) * w3j a.j 2 b.j (-a.m) (2 * q) b.m) *
    commutesSSpec a.s 1 a.l b.l a.j b.j else 0

/-- See `momentumAngularL`. -/
noncomputable def momentumAngularS (a b : QN) (q : ℤ) : ℝ :=
  (sgn ((a.j - a.m) / 2) * w3j a.j 2 b.j (-a.m) (2 * q) b.m) *
    commutesLSpec a.s 1 a.l b.l a.j b.j

theorem multipoleSpec_zero (kappa l1 l2 : ℤ)
    (h : ¬ (|l1 - l2| ≤ kappa ∧ kappa.tmod 2 = |l1 - l2|.tmod 2)) (hk : 0 ≤ kappa) :
    multipoleSpec kappa l1 l2 = 0 := by
  unfold multipoleSpec
  by_cases hp : (l1 + kappa + l2) % 2 = 0
  · rw [w3j_invalid, mul_zero]
    intro hv
    unfold Valid3 at hv
    apply h
    refine ⟨by rw [abs_le]; omega, ?_⟩
    rw [Int.tmod_eq_emod_of_nonneg hk, Int.tmod_eq_emod_of_nonneg (abs_nonneg _)]
    rcases abs_choice (l1 - l2) with h | h <;> rw [h] <;> omega
  · rw [w3j_zero_of_odd _ _ _ (by omega), mul_zero]

theorem w3j_m_zero (ja jb kappa ma mb q : ℤ)
    (h : ¬ (|ja - jb| ≤ 2 * kappa ∧ ja + jb ≥ 2 * kappa ∧ ma = mb + 2 * q ∧ |q| ≤ kappa)) :
    w3j ja (2 * kappa) jb (-ma) (2 * q) mb = 0 := by
  apply w3j_invalid
  intro hv
  apply h
  unfold Valid3 at hv
  rw [abs_le]
  have hq : |q| ≤ kappa := by
    have := hv.2.2.2.2.2.2.2.2.2.1
    rw [abs_mul] at this; simp at this; omega
  exact ⟨by omega, by omega, by omega, hq⟩

theorem w3j_noZero (m : ℤ) (q : ℤ) : w3j 3 (2 * 2) 3 (-m) q (-m) = 0 :=
  w3j_zero_of_sym 3 (2 * 2) (-m) q (by norm_num)

theorem selMultipoleQ_sound (a b : QN) (kappa q : ℤ) (hk : 0 ≤ kappa)
    (h : selMultipoleQ a b kappa q = false) : multipoleAngular a b kappa q = 0 := by
  by_contra hne
  unfold multipoleAngular at hne
  have hm : multipoleSpec kappa a.l b.l ≠ 0 := right_ne_zero_of_mul hne
  have hw : w3j a.j (2 * kappa) b.j (-a.m) (2 * q) b.m ≠ 0 :=
    right_ne_zero_of_mul (left_ne_zero_of_mul (left_ne_zero_of_mul hne))
  have h1 := not_imp_comm.mp (fun h => multipoleSpec_zero kappa a.l b.l h hk) hm
  have h2 := not_imp_comm.mp (w3j_m_zero a.j b.j kappa a.m b.m q) hw
  have h3 : ¬ (kappa = 2 ∧ a.j = b.j ∧ b.j = 3 ∧ a.m = -b.m) := by
    rintro ⟨rfl, e1, e2, e3⟩
    apply hw
    rw [e1, e2, show b.m = -a.m by omega]
    exact w3j_noZero _ _
  have : selMultipoleQ a b kappa q = true := by
    simp only [selMultipoleQ, Bool.and_eq_true, decide_eq_true_eq, Bool.not_eq_true',
      Bool.and_eq_false_iff, decide_eq_false_iff_not]
    refine ⟨⟨⟨⟨h1, h2.1, h2.2.1⟩, h2.2.2.1⟩, h2.2.2.2⟩, ?_⟩
    tauto
  rw [this] at h; exact absurd h (by simp)

/-- **C20.** Whenever a selection rule rejects a pair of states, the corresponding angular factor
vanishes, for all states and κ ≥ 0: multipole rule with given q; multipole rule without q (then for
every q); momentum rule with given q and without, for the orbital and the spin operator. -/
theorem C20_selection_rules_sound (a b : QN) (kappa q : ℤ) (hk : 0 ≤ kappa) :
    (selMultipoleQ a b kappa q = false → multipoleAngular a b kappa q = 0) ∧
    (selMultipole a b kappa = false → multipoleAngular a b kappa q = 0) ∧
    (selMomentumQ a b q = false → momentumAngularL a b q = 0 ∧ momentumAngularS a b q = 0) ∧
    (selMomentum a b = false → momentumAngularL a b q = 0 ∧ momentumAngularS a b q = 0) := by
  have mom : ∀ {P : Prop}, (a.l = b.l → w3j a.j 2 b.j (-a.m) (2 * q) b.m ≠ 0 → P) → ¬ P →
      momentumAngularL a b q = 0 ∧ momentumAngularS a b q = 0 := by
    intro P hP hn
    by_cases hl : a.l = b.l
    · have : w3j a.j 2 b.j (-a.m) (2 * q) b.m = 0 := by
        by_contra h; exact hn (hP hl h)
      simp [momentumAngularL, momentumAngularS, this]
    · simp [momentumAngularL, momentumAngularS, hl, commutesLSpec]
  refine ⟨selMultipoleQ_sound a b kappa q hk, ?_, ?_, ?_⟩
  · intro h
    apply selMultipoleQ_sound a b kappa q hk
    by_contra hne
    have ht : selMultipoleQ a b kappa q = true := by simpa using hne
    simp only [selMultipoleQ, Bool.and_eq_true, decide_eq_true_eq] at ht
    have : selMultipole a b kappa = true := by
      simp only [selMultipole, Bool.and_eq_true, decide_eq_true_eq]
      refine ⟨⟨⟨ht.1.1.1.1, ht.1.1.1.2⟩, ?_⟩, ht.2⟩
      have e : a.m - b.m = 2 * q := by have := ht.1.1.2; omega
      rw [e, abs_mul]; simp; exact ht.1.2
    rw [this] at h; exact absurd h (by simp)
  · intro h
    refine mom (P := selMomentumQ a b q = true) ?_ (by simp [h])
    intro hl hw
    have := not_imp_comm.mp (w3j_m_zero a.j b.j 1 a.m b.m q) (by simpa using hw)
    simp only [selMomentumQ, Bool.and_eq_true, decide_eq_true_eq]
    exact ⟨⟨⟨hl, by simpa using this.1⟩, this.2.2.1⟩, this.2.2.2⟩
  · intro h
    refine mom (P := selMomentum a b = true) ?_ (by simp [h])
    intro hl hw
    have := not_imp_comm.mp (w3j_m_zero a.j b.j 1 a.m b.m q) (by simpa using hw)
    simp only [selMomentum, Bool.and_eq_true, decide_eq_true_eq]
    refine ⟨⟨hl, by simpa using this.1⟩, ?_⟩
    have e : a.m - b.m = 2 * q := by have := this.2.2.1; omega
    rw [e, abs_mul]; simp; exact this.2.2.2

/-- 61 S₁/₂ m=1/2 of rubidium. -/
def qnS : QN := ⟨"Rb", 61, 0, 1, 1, 1⟩
/-- 60 P₃/₂ m=3/2 of rubidium. -/
def qnP : QN := ⟨"Rb", 60, 1, 3, 3, 1⟩

/-- The rules are not vacuous: the dipole rule accepts S→P with q = −1 and rejects q = 0. -/
example : selMultipoleQ qnS qnP 1 (-1) = true ∧ selMultipoleQ qnS qnP 1 0 = false ∧
    selMultipole qnS qnP 1 = true ∧ selMultipole qnS qnP 2 = false ∧ selMomentum qnS qnP = false ∧
    qnS.Physical ∧ qnP.Physical := by
  refine ⟨by decide, by decide, by decide, by decide, by decide, ?_, ?_⟩ <;>
    unfold QN.Physical <;> decide

/-! ## C21 -/

theorem electricMultipole_eq (C : ElemConsts) (radial : RadKey → ℝ) (me : Method) (a b : QN) (kr ka : ℤ)
    (ha : a.Physical) (hb : b.Physical) (hs : a.species = b.species) (hss : a.s = b.s) :
    electricMultipole C radial me a b kr ka =
      .ok (C.e * radial (RadKey.make me a.species kr a.n b.n a.l b.l a.j b.j) *
        (angularSpec ka a.j b.j a.m b.m * commutesSSpec a.s ka a.l b.l a.j b.j * multipoleSpec ka a.l b.l)) := by
  unfold electricMultipole
  rw [if_neg (by simp [hs])]
  unfold QN.Physical at ha hb
  have e1 := (C16_angular_order ka a.j b.j a.m b.m (by omega) (by omega)).1
  have e2 := (C17_commutes_order_partial a.s ka a.l b.l a.j b.j (by omega) (by omega)).1
  have e3 := (C18_multipole_order ka a.l b.l).1
  rw [← e1, ← e2, ← e3]
  simp only [Out.ok.injEq]
  ring

/-- **C21.** For all physical states of one species, all κ: the element the library returns has the
textbook angular factor (first clause), and exchanging bra and ket multiplies it by (−1)^{m_a − m_b}:
⟨b|Q_{κ,−q}|a⟩ = (−1)^q ⟨a|Q_{κ,q}|b⟩ with q = m_a − m_b. -/
theorem C21_multipole_hermitian (C : ElemConsts) (radial : RadKey → ℝ) (me : Method) (a b : QN)
    (kr ka : ℤ) (ha : a.Physical) (hb : b.Physical) (hs : a.species = b.species) (hss : a.s = b.s) :
    ∃ x, electricMultipole C radial me a b kr ka = .ok x ∧
      x = C.e * radial (RadKey.make me a.species kr a.n b.n a.l b.l a.j b.j) *
        (angularSpec ka a.j b.j a.m b.m * commutesSSpec a.s ka a.l b.l a.j b.j * multipoleSpec ka a.l b.l) ∧
      electricMultipole C radial me b a kr ka = .ok (sgn ((a.m - b.m) / 2) * x) := by
  refine ⟨_, electricMultipole_eq C radial me a b kr ka ha hb hs hss, rfl, ?_⟩
  rw [electricMultipole_eq C radial me b a kr ka hb ha hs.symm hss.symm]
  have hk : RadKey.make me b.species kr b.n a.n b.l a.l b.j a.j
      = RadKey.make me a.species kr a.n b.n a.l b.l a.j b.j := by
    rw [C19_radial_keys]; simp [hs]
  rw [hk]
  unfold QN.Physical at ha hb
  rw [angular_sym ka b.j a.j b.m a.m (by omega) (by omega),
    commutesS_sym b.s ka b.l a.l b.j a.j (by omega) (by omega), multipole_sym ka b.l a.l, ← hss]
  by_cases hp : (a.l + ka + b.l) % 2 = 0
  · have key : sgn ((b.j - b.m + a.j - a.m) / 2) * sgn ((2 * b.l + b.j + 2 * a.l + a.j + 2 * a.s) / 2) * sgn ka
        = sgn ((a.m - b.m) / 2) := by
      rw [sgn_mul, sgn_mul]; apply sgn_congr; omega
    rw [← key]
    simp only [Out.ok.injEq]
    ring
  · have h0 : multipoleSpec ka a.l b.l = 0 := by
      unfold multipoleSpec
      rw [w3j_zero_of_odd _ _ _ (by omega), mul_zero]
    rw [h0]
    simp

/-! ## C63 -/

/-- (½ 1 ½; −½ 0 ½) ≠ 0: its sum has a single term. -/
theorem w3j_witness : w3j 1 2 1 (-1) 0 1 ≠ 0 := by
  unfold w3j
  rw [if_pos (by decide)]
  apply mul_ne_zero
  · refine mul_ne_zero (sgn_ne_zero _) (Real.sqrt_pos.mpr ?_).ne'
    unfold rad3
    have := fct_pos
    simp only [fct]
    positivity
  · norm_num
    rw [sum3_eq]
    have : Finset.Icc (0 : ℤ) 1 = {0, 1} := by decide
    rw [this, Finset.sum_pair (by norm_num)]
    have z : ifct ((-1 : ℤ) + 0) = 0 := by simp [ifct]
    rw [z]
    simp only [mul_zero, zero_mul, zero_add]
    refine mul_ne_zero (sgn_ne_zero _) (ne_of_gt ?_)
    have h1 : 0 < ifct 1 := ifct_pos (by norm_num)
    have h2 : 0 < ifct ((-1 : ℤ) + 1) := ifct_pos (by norm_num)
    have h3 : 0 < ifct ((1 : ℤ) - 1) := ifct_pos (by norm_num)
    positivity

/-- **C63 fails** for different l: a magnetic dipole operator conserves l, but between S₁/₂ and P₁/₂
`getMagneticDipole` returns a non-zero number whenever the radial overlap is non-zero. -/
theorem C63_magnetic_different_l_fails (C : ElemConsts) (radial : RadKey → ℝ) (me : Method)
    (hC : C.muB ≠ 0 ∧ C.gS ≠ 0) (hr : ∀ k, radial k ≠ 0) :
    ∃ a b : QN, a.Physical ∧ b.Physical ∧ a.species = b.species ∧ a.s = b.s ∧ a.l ≠ b.l ∧
      ∃ x, magneticDipole C radial me a b = .ok x ∧ x ≠ 0 := by
  refine ⟨⟨"Rb", 60, 0, 1, 1, 1⟩, ⟨"Rb", 60, 1, 1, 1, 1⟩, ?_, ?_, rfl, rfl, by decide, _, rfl, ?_⟩
  · unfold QN.Physical; decide
  · unfold QN.Physical; decide
  have hang : (AngKey.make 1 1 1 1 1).2 * (AngKey.make 1 1 1 1 1).1.value ≠ 0 := by
    unfold AngKey.make AngKey.value
    rw [if_pos (by decide)]
    dsimp only
    norm_num
    exact ⟨sgn_ne_zero _, w3j_witness⟩
  have hcom : (ComKey.make 1 1 0 1 1 1).2 * (ComKey.make 1 1 0 1 1 1).1.valueL ≠ 0 := by
    unfold ComKey.make ComKey.valueL
    rw [if_pos (by decide)]
    dsimp only
    rw [if_pos (by decide)]
    refine mul_ne_zero one_ne_zero (mul_ne_zero (mul_ne_zero (sgn_ne_zero _) ?_) w6j_witness)
    exact (Real.sqrt_pos.mpr (by norm_num)).ne'
  simp only [Int.cast_zero, zero_mul, Real.sqrt_zero, mul_zero, zero_add]
  rw [mul_assoc (-C.muB * _), mul_assoc C.gS]
  refine mul_ne_zero (mul_ne_zero (mul_ne_zero (neg_ne_zero.mpr hC.1) (hr _)) hang)
    (mul_ne_zero (mul_ne_zero hC.2 hcom) ?_)
  exact (Real.sqrt_pos.mpr (by norm_num)).ne'

/-- Constants and radial elements meeting the hypotheses exist. -/
example : ∃ (C : ElemConsts) (radial : RadKey → ℝ), (C.muB ≠ 0 ∧ C.gS ≠ 0) ∧ ∀ k, radial k ≠ 0 :=
  ⟨⟨1, 1, 1, 2⟩, fun _ => 1, by norm_num, fun _ => one_ne_zero⟩

/-- **C63 (partial).** Magnetic dipole elements between states of equal l are Hermitian:
exchanging bra and ket multiplies the element by (−1)^{m_a − m_b}, for all physical states. -/
theorem C63_magnetic_hermitian_partial (C : ElemConsts) (radial : RadKey → ℝ) (me : Method) (a b : QN)
    (ha : a.Physical) (hb : b.Physical) (hs : a.species = b.species) (hss : a.s = b.s) (hl : a.l = b.l) :
    ∃ x, magneticDipole C radial me a b = .ok x ∧
      magneticDipole C radial me b a = .ok (sgn ((a.m - b.m) / 2) * x) := by
  unfold magneticDipole
  rw [if_neg (by simp [hs]), if_neg (by simp [hs])]
  refine ⟨_, rfl, ?_⟩
  have hk : RadKey.make me b.species 0 b.n a.n b.l a.l b.j a.j
      = RadKey.make me a.species 0 a.n b.n a.l b.l a.j b.j := by
    rw [C19_radial_keys]; simp [hs]
  unfold QN.Physical at ha hb
  have a1 := (C16_angular_order 1 a.j b.j a.m b.m (by omega) (by omega)).1
  have a2 := (C16_angular_order 1 b.j a.j b.m a.m (by omega) (by omega)).1
  have c1 := C17_commutes_order_partial a.s 1 a.l b.l a.j b.j (by omega) (by omega)
  have c2 := C17_commutes_order_partial b.s 1 b.l a.l b.j a.j (by omega) (by omega)
  have c1l := c1.2.1 hl
  have c2l := c2.2.1 hl.symm
  simp only [hk]
  have e1 : ∀ x y z w : ℝ, -C.muB * x * y * z * w = -C.muB * x * (y * z) * w := by intros; ring
  have e2 : ∀ x y z w : ℝ, C.gL * x * y * z + w = C.gL * (x * y) * z + w := by intros; ring
  have e3 : ∀ x y z w : ℝ, w + C.gS * x * y * z = w + C.gS * (x * y) * z := by intros; ring
  simp only [e1, e2, e3, a1, a2, c1.1, c2.1, c1l, c2l]
  rw [angular_sym 1 b.j a.j b.m a.m (by omega) (by omega),
    commutesS_sym b.s 1 b.l a.l b.j a.j (by omega) (by omega), ← hss, ← hl,
    commutesL_sym a.s 1 a.l b.j a.j (by omega) (by omega)]
  have key : sgn ((b.j - b.m + a.j - a.m) / 2) * sgn ((2 * a.l + b.j + 2 * a.l + a.j + 2 * a.s) / 2)
      = sgn ((a.m - b.m) / 2) := by
    rw [sgn_mul]; apply sgn_congr; omega
  rw [← key]
  simp only [Out.ok.injEq]
  ring

/-- P₃/₂ and P₁/₂ meet the hypotheses. -/
example : qnP.Physical ∧ (⟨"Rb", 60, 1, 1, 1, 1⟩ : QN).Physical ∧ qnP.l = (⟨"Rb", 60, 1, 1, 1, 1⟩ : QN).l := by
  unfold QN.Physical; decide

end PI
