import Verif.Pair.Props

/-!
# C44 and more: the multipole Hamiltonian of two atoms
-/

namespace PI
open Matrix

variable {N : ℕ}

/-! ## C44 the multipole Hamiltonian -/

/-- Specification: the term of rank κ₁, κ₂ of the interaction of two charge distributions at distance R along z, without 1/R^(κ₁+κ₂+1): k (−1)^κ₂ √(C(κ₁+κ₂, κ₁+q) C(κ₁+κ₂, κ₂+q))
Q_{κ₁,q} Q_{κ₂,−q} with q the change of m of the first atom. -/
noncomputable def multipoleTerm (C : FieldConsts) (radial : RadKey → ℝ) (me : Method) (k1 k2 : ℕ) (a b : QN × QN) : ℝ :=
  let q := (a.1.m - b.1.m) / 2
  C.ke * (-1) ^ k2 * Real.sqrt ((k1 + k2).choose (k1 + q).toNat * (k1 + k2).choose (k2 + q).toNat)
    * elem C radial me k1 a.1 b.1 * elem C radial me k2 a.2 b.2

/-- Specification: the operator of an order, the sum over κ₁ + κ₂ = order − 1 with κ₁, κ₂ ≥ 1, between states of equal total m. -/
noncomputable def multipoleSpecPair (C : FieldConsts) (radial : RadKey → ℝ) (me : Method) (order : ℕ) (a b : QN × QN) : ℝ :=
  if a.1.m + a.2.m = b.1.m + b.2.m then ∑ i ∈ Finset.range (order - 2), multipoleTerm C radial me (i + 1) (order - 2 - i) a b else 0

theorem sgn_nat (k : ℕ) : sgn (k : ℤ) = (-1) ^ k := by
  unfold sgn
  split_ifs with h
  · rw [Even.neg_one_pow (by rw [Nat.even_iff]; omega)]
  · rw [Odd.neg_one_pow (by rw [Nat.odd_iff]; omega)]

theorem mulEntry_spec (C : FieldConsts) (radial : RadKey → ℝ) (me : Method) (order : ℕ) (a b : QN × QN) (ok : PairOK a b) :
    mulEntry C radial me order a b = (multipoleSpecPair C radial me order a b : ℂ) := by
  have d1 := mDiff_spec a.1 b.1 ok.a1 ok.b1 ok.s1
  have d2 := mDiff_spec a.2 b.2 ok.a2 ok.b2 ok.s2
  unfold mulEntry multipoleSpecPair
  by_cases hm : a.1.m + a.2.m = b.1.m + b.2.m
  · have hq : mDiff a.1 b.1 + mDiff a.2 b.2 = 0 := by omega
    rw [if_pos hm, if_pos hq]
    congr 1
    rw [← List.sum_toFinset _ (List.nodup_range)]
    rw [List.toFinset_range]
    apply Finset.sum_congr rfl
    intro i hi
    rw [Finset.mem_range] at hi
    unfold mulTerm multipoleTerm
    have hk2 : (order : ℤ) - 1 - ((i : ℤ) + 1) = ((order - 2 - i : ℕ) : ℤ) := by omega
    rw [hk2, mDiff_div a.1 b.1 ok.a1 ok.b1 ok.s1]
    dsimp only
    rw [show (i : ℤ) + 1 = ((i + 1 : ℕ) : ℤ) by push_cast; rfl]
    by_cases s1 : selMultipole a.1 b.1 ((i + 1 : ℕ) : ℤ) = true
    · by_cases s2 : selMultipole a.2 b.2 ((order - 2 - i : ℕ) : ℤ) = true
      · rw [s1, s2, if_pos (by simp), sgn_nat]
        unfold binom
        rw [show mDiff a.2 b.2 = -mDiff a.1 b.1 by omega, sub_neg_eq_add]
        norm_cast
      · have z := elem_zero C radial me a.2 b.2 ok.a2 ok.b2 ok.sp2 ok.s2 _ (Int.natCast_nonneg (order - 2 - i)) (by simpa using s2)
        simp [s2, z]
    · have z := elem_zero C radial me a.1 b.1 ok.a1 ok.b1 ok.sp1 ok.s1 _ (Int.natCast_nonneg (i + 1)) (by simpa using s1)
      simp only [s1, Bool.false_and, Bool.false_eq_true, if_false, z]
      ring
  · have hq : ¬ mDiff a.1 b.1 + mDiff a.2 b.2 = 0 := by omega
    rw [if_neg hm, if_neg hq]; simp

theorem multipoleTerm_symm (C : FieldConsts) (radial : RadKey → ℝ) (me : Method) (k1 k2 : ℕ) (a b : QN × QN) (ok : PairOK a b)
    (hm : a.1.m + a.2.m = b.1.m + b.2.m) : multipoleTerm C radial me k1 k2 b a = multipoleTerm C radial me k1 k2 a b := by
  have d1 := mDiff_spec a.1 b.1 ok.a1 ok.b1 ok.s1
  have d2 := mDiff_spec a.2 b.2 ok.a2 ok.b2 ok.s2
  have hq2 : mDiff a.2 b.2 = -mDiff a.1 b.1 := by omega
  unfold multipoleTerm
  dsimp only
  rw [mDiff_div a.1 b.1 ok.a1 ok.b1 ok.s1, mDiff_div b.1 a.1 ok.b1 ok.a1 ok.s1.symm, mDiff_swap a.1 b.1]
  by_cases h1 : |mDiff a.1 b.1| ≤ (k1 : ℤ)
  · by_cases h2 : |mDiff a.2 b.2| ≤ (k2 : ℤ)
    · rw [elem_swap C radial me a.1 b.1 ok.a1 ok.b1 ok.sp1 ok.s1 k1 (by positivity),
        elem_swap C radial me a.2 b.2 ok.a2 ok.b2 ok.sp2 ok.s2 k2 (by positivity), hq2]
      set q := mDiff a.1 b.1
      rw [hq2, abs_neg] at h2
      rw [abs_le] at h1 h2
      have c1 : (k1 + k2).choose ((k1 : ℤ) + -q).toNat = (k1 + k2).choose ((k2 : ℤ) + q).toNat := by
        rw [← Nat.choose_symm (by omega)]
        congr 1; omega
      have c2 : (k1 + k2).choose ((k2 : ℤ) + -q).toNat = (k1 + k2).choose ((k1 : ℤ) + q).toNat := by
        rw [← Nat.choose_symm (by omega)]
        congr 1; omega
      have hss : sgn q * sgn (-q) = 1 := by
        have : sgn (-q) = sgn q := by unfold sgn; congr 1; simp only [eq_iff_iff]; omega
        rw [this, sgn_self]
      rw [c1, c2, mul_comm (((k1 + k2).choose ((k2 : ℤ) + q).toNat : ℕ) : ℝ)]
      linear_combination (C.ke * (-1) ^ k2 * Real.sqrt ((k1 + k2).choose ((k1 : ℤ) + q).toNat * (k1 + k2).choose ((k2 : ℤ) + q).toNat)
        * elem C radial me k1 a.1 b.1 * elem C radial me k2 a.2 b.2) * hss
    · have z1 := elem_m C radial me a.2 b.2 ok.a2 ok.b2 ok.sp2 ok.s2 k2 (by positivity) h2
      have z2 := elem_m C radial me b.2 a.2 ok.b2 ok.a2 ok.sp2.symm ok.s2.symm k2 (by positivity) (by rw [mDiff_swap a.2 b.2, abs_neg]; exact h2)
      rw [z1, z2]; ring
  · have z1 := elem_m C radial me a.1 b.1 ok.a1 ok.b1 ok.sp1 ok.s1 k1 (by positivity) h1
    have z2 := elem_m C radial me b.1 a.1 ok.b1 ok.a1 ok.sp1.symm ok.s1.symm k1 (by positivity) (by rw [mDiff_swap a.1 b.1, abs_neg]; exact h1)
    rw [z1, z2]; ring

theorem multipoleSpecPair_symm (C : FieldConsts) (radial : RadKey → ℝ) (me : Method) (o : ℕ) (a b : QN × QN) (ok : PairOK a b) :
    multipoleSpecPair C radial me o b a = multipoleSpecPair C radial me o a b := by
  unfold multipoleSpecPair
  by_cases hm : a.1.m + a.2.m = b.1.m + b.2.m
  · rw [if_pos hm, if_pos hm.symm]
    exact Finset.sum_congr rfl fun i _ => multipoleTerm_symm C radial me _ _ a b ok hm
  · rw [if_neg hm, if_neg (fun h => hm h.symm)]

/-- **C44.** For every order and every set of pair states: along z, between any two pair states (in both triangles) the interaction is the multipole sum
Σ_{o=3}^{order} R^{−o} Σ_{κ₁+κ₂=o−1}, and zero unless the total m is equal. -/
theorem C44_multipole_operator (C : FieldConsts) (radial : RadKey → ℝ) (me : Method) (st : Fin N → Option (QN × QN)) (hst : GoodPairs st)
    (p : PairParams) (h : OnAxis p) (r c : Fin N) :
    pairH C radial me st p r c = match st r, st c with
      | some a, some b => ((∑ o ∈ Finset.Icc 3 p.order, 1 / p.dist ^ o * multipoleSpecPair C radial me o a b : ℝ) : ℂ)
      | _, _ => 0 := by
  refine pairH_eq C radial me st hst p _ ?_ ?_ r c
  · intro a b ok
    unfold pairTotal
    rw [pairTerms_axis p h, List.map_map]
    unfold mulOrders
    rw [List.map_map, ← List.sum_toFinset _ List.nodup_range, List.toFinset_range, Complex.ofReal_sum]
    have e : Finset.Icc 3 p.order = Finset.Ico 3 (p.order + 1) := by ext x; simp only [Finset.mem_Icc, Finset.mem_Ico]; omega
    rw [e, Finset.sum_Ico_eq_sum_range, show p.order + 1 - 3 = p.order - 2 by omega]
    refine Finset.sum_congr rfl fun i _ => ?_
    simp only [Function.comp, pairEntry]
    rw [mulEntry_spec C radial me _ a b ok, add_comm i 3]
    push_cast; ring
  · intro a b ok
    rw [Complex.conj_ofReal]
    congr 1
    exact Finset.sum_congr rfl fun o _ => by rw [multipoleSpecPair_symm C radial me o a b ok]

/-- **C44.** For all settings (every branch, with or without surface, orders and angles) and all states, the interaction is Hermitian, and so is any Hermitian operator to which it is added in any basis. -/
theorem C44_hermitian (C : FieldConsts) (radial : RadKey → ℝ) (me : Method) (st : Fin N → Option (QN × QN)) (p : PairParams) :
    (pairH C radial me st p)ᴴ = pairH C radial me st p := by
  unfold pairH
  have : ((pairTerms p).map fun t => (t.2 : ℂ) • pairOper C radial me st t.1).sum.IsHermitian := by
    apply list_sum_herm
    intro A hA
    obtain ⟨t, -, rfl⟩ := List.mem_map.mp hA
    unfold Matrix.IsHermitian
    rw [Matrix.conjTranspose_smul, pairOper_eq, lowerView_herm]
    simp
  exact this

/-- **C44.** Along z only pair states with equal total m are coupled. -/
theorem C44_total_m (C : FieldConsts) (radial : RadKey → ℝ) (me : Method) (st : Fin N → Option (QN × QN)) (hst : GoodPairs st)
    (p : PairParams) (h : OnAxis p) (r c : Fin N) (a b : QN × QN) (hr : st r = some a) (hc : st c = some b)
    (hm : a.1.m + a.2.m ≠ b.1.m + b.2.m) : pairH C radial me st p r c = 0 := by
  rw [C44_multipole_operator C radial me st hst p h r c, hr, hc]
  dsimp only
  rw [Finset.sum_eq_zero]
  · simp
  · intro o _
    unfold multipoleSpecPair
    rw [if_neg hm]; ring

/-- **C44.** Whenever the code evaluates the binomial coefficients, their arguments are in the domain of the library function. -/
theorem C44_binomial_domain (a b : QN × QN) (ok : PairOK a b) (k1 k2 : ℤ) (hq : mDiff a.1 b.1 + mDiff a.2 b.2 = 0)
    (h1 : selMultipole a.1 b.1 k1 = true) (h2 : selMultipole a.2 b.2 k2 = true) :
    0 ≤ k1 + mDiff a.1 b.1 ∧ k1 + mDiff a.1 b.1 ≤ k1 + k2 ∧ 0 ≤ k2 - mDiff a.2 b.2 ∧ k2 - mDiff a.2 b.2 ≤ k1 + k2 := by
  have m1 := selMultipole_m a.1 b.1 ok.a1 ok.b1 ok.s1 k1 h1
  have m2 := selMultipole_m a.2 b.2 ok.a2 ok.b2 ok.s2 k2 h2
  rw [abs_le] at m1 m2
  omega

example (C : FieldConsts) (radial : RadKey → ℝ) (me : Method) (r c : Fin 2) :=
  C44_multipole_operator C radial me stEx stEx_good ⟨0, 0, 5, 5, false, dblMax, 6⟩
    ⟨by have := dblMax_big; intro h; dsimp only at h; linarith, rfl, rfl, rfl, rfl⟩ r c

example : selMultipole qnS qnP 1 = true ∧ selMultipole qnP qnS 1 = true ∧ mDiff qnS qnP + mDiff qnP qnS = 0 := by decide

/-! ## C71 the Green tensor approach agrees with the multipole expansion -/

theorem quad_sqrts : Real.sqrt (5 / 4) / Real.sqrt 30 = 1 / (2 * Real.sqrt 6) ∧ Real.sqrt (2 / 3) * Real.sqrt (5 / 4) / Real.sqrt 30 = 1 / 6 ∧
    Real.sqrt (10 / 3) * Real.sqrt (1 / 4) / Real.sqrt 30 = 1 / 6 ∧ Real.sqrt (8 / 3) * Real.sqrt (5 / 4) / Real.sqrt 30 = 1 / 3 := by
  have inv : ∀ (x y : ℝ), 0 ≤ y → y ^ 2 = x → Real.sqrt x = y := by
    rintro x y hy rfl; exact Real.sqrt_sq hy
  refine ⟨?_, ?_, ?_, ?_⟩
  · rw [← Real.sqrt_div (by norm_num)]
    apply inv
    · positivity
    · rw [div_pow, mul_pow, Real.sq_sqrt (by norm_num)]; norm_num
  · rw [← Real.sqrt_mul (by norm_num), ← Real.sqrt_div (by norm_num)]
    apply inv <;> norm_num
  · rw [← Real.sqrt_mul (by norm_num), ← Real.sqrt_div (by norm_num)]
    apply inv <;> norm_num
  · rw [← Real.sqrt_mul (by norm_num), ← Real.sqrt_div (by norm_num)]
    apply inv <;> norm_num

theorem q2_cases (q : ℤ) (h : |q| ≤ 2) : q = -2 ∨ q = -1 ∨ q = 0 ∨ q = 1 ∨ q = 2 := by
  rw [abs_le] at h; omega

theorem quadEntry_spec (j k : Fin 3) (q : ℤ) (t o : ℝ) (hq : |q| ≤ 2) (ho : q ≠ 0 → o = 0) :
    ((quadEntry j k q t o / Real.sqrt 30 : ℝ) : ℂ) * (if j ≠ k ∧ (j = 1 ∨ k = 1) then Complex.I else 1)
      = (quadCoef j k q * t + (if j = k then (o : ℂ) / 3 else 0)) / 2 := by
  obtain ⟨e1, e2, e3, e4⟩ := quad_sqrts
  have h6 := csqrt6_ne
  have A : ∀ x : ℝ, x * Real.sqrt (5 / 4) / Real.sqrt 30 = x * (1 / (2 * Real.sqrt 6)) := by
    intro x; rw [mul_div_assoc, e1]
  have B : (-Real.sqrt (2 / 3) * t * Real.sqrt (5 / 4) + Real.sqrt (10 / 3) * o * Real.sqrt (1 / 4)) / Real.sqrt 30 = (-t / 3 + o / 3) / 2 := by
    rw [show (-Real.sqrt (2 / 3) * t * Real.sqrt (5 / 4) + Real.sqrt (10 / 3) * o * Real.sqrt (1 / 4)) / Real.sqrt 30
      = -t * (Real.sqrt (2 / 3) * Real.sqrt (5 / 4) / Real.sqrt 30) + o * (Real.sqrt (10 / 3) * Real.sqrt (1 / 4) / Real.sqrt 30) by ring, e2, e3]
    ring
  have D : (Real.sqrt (8 / 3) * t * Real.sqrt (5 / 4) + Real.sqrt (10 / 3) * o * Real.sqrt (1 / 4)) / Real.sqrt 30 = (2 * t / 3 + o / 3) / 2 := by
    rw [show (Real.sqrt (8 / 3) * t * Real.sqrt (5 / 4) + Real.sqrt (10 / 3) * o * Real.sqrt (1 / 4)) / Real.sqrt 30
      = t * (Real.sqrt (8 / 3) * Real.sqrt (5 / 4) / Real.sqrt 30) + o * (Real.sqrt (10 / 3) * Real.sqrt (1 / 4) / Real.sqrt 30) by ring, e4, e3]
    ring
  have A' : ∀ x s : ℝ, x * Real.sqrt (5 / 4) * s / Real.sqrt 30 = x * s * (1 / (2 * Real.sqrt 6)) := by
    intro x s; rw [show x * Real.sqrt (5 / 4) * s = x * s * Real.sqrt (5 / 4) by ring, A]
  rcases q2_cases q hq with rfl | rfl | rfl | rfl | rfl
  · obtain rfl := ho (by norm_num)
    fin_cases j <;> fin_cases k <;>
      simp only [quadEntry, quadCoef, Fin.zero_eta, Fin.mk_one, Fin.reduceFinMk, Fin.reduceEq, and_true, and_false, true_and, false_and, or_false,
        or_true, if_true, if_false, Int.reduceNeg, Int.reduceEq, abs_neg, Nat.abs_ofNat, ne_eq, not_true_eq_false, not_false_eq_true, A, A',
        zero_div, Complex.ofReal_zero, zero_mul, add_zero, OfNat.ofNat_ne_one, or_self, reduceCtorEq] <;> push_cast <;> field_simp <;> ring
  · obtain rfl := ho (by norm_num)
    fin_cases j <;> fin_cases k <;>
      simp only [quadEntry, quadCoef, Fin.zero_eta, Fin.mk_one, Fin.reduceFinMk, Fin.reduceEq, and_true, and_false, true_and, false_and, or_false,
        or_true, if_true, if_false, Int.reduceNeg, Int.reduceEq, abs_neg, abs_one, ne_eq, not_true_eq_false, not_false_eq_true, A, A',
        zero_div, Complex.ofReal_zero, zero_mul, add_zero, OfNat.one_ne_ofNat, or_self, reduceCtorEq] <;> push_cast <;> field_simp <;> ring
  · fin_cases j <;> fin_cases k <;>
      simp only [quadEntry, quadCoef, Fin.zero_eta, Fin.mk_one, Fin.reduceFinMk, Fin.reduceEq, and_true, and_false, true_and, false_and, or_false,
        or_true, if_true, if_false, Int.reduceNeg, Int.reduceEq, abs_zero, OfNat.zero_ne_ofNat, zero_ne_one, ne_eq, not_true_eq_false, not_false_eq_true, A, A', B, D,
        zero_div, Complex.ofReal_zero, zero_mul, add_zero, or_self, reduceCtorEq] <;> push_cast <;> field_simp <;> ring
  · obtain rfl := ho (by norm_num)
    fin_cases j <;> fin_cases k <;>
      simp only [quadEntry, quadCoef, Fin.zero_eta, Fin.mk_one, Fin.reduceFinMk, Fin.reduceEq, and_true, and_false, true_and, false_and, or_false,
        or_true, if_true, if_false, Int.reduceNeg, Int.reduceEq, abs_one, OfNat.one_ne_ofNat, one_ne_zero, ne_eq, not_true_eq_false, not_false_eq_true, A, A',
        zero_div, Complex.ofReal_zero, zero_mul, add_zero, or_self, reduceCtorEq] <;> push_cast <;> field_simp <;> ring
  · obtain rfl := ho (by norm_num)
    fin_cases j <;> fin_cases k <;>
      simp only [quadEntry, quadCoef, Fin.zero_eta, Fin.mk_one, Fin.reduceFinMk, Fin.reduceEq, and_true, and_false, true_and, false_and, or_false,
        or_true, if_true, if_false, Int.reduceNeg, Int.reduceEq, Nat.abs_ofNat, OfNat.ofNat_ne_one, OfNat.ofNat_ne_zero, ne_eq, not_true_eq_false, not_false_eq_true, A, A',
        zero_div, Complex.ofReal_zero, zero_mul, add_zero, or_self, reduceCtorEq] <;> push_cast <;> field_simp <;> ring

/-- No product of a dipole and a quadrupole entry lies in (0, tolerance]. -/
def NoTinyDQ (C : FieldConsts) (radial : RadKey → ℝ) (me : Method) (a b : QN × QN) : Prop :=
  (∀ i j k : Fin 3, ∀ v, vecEntry i (mDiff a.1 b.1) (elem C radial me 1 a.1 b.1) = some v →
    NoTinyTerm (v * quadEntry j k (mDiff a.2 b.2) (elem C radial me 2 a.2 b.2) (elem C radial me 0 a.2 b.2))) ∧
  (∀ i j k : Fin 3, ∀ v, vecEntry k (mDiff a.2 b.2) (elem C radial me 1 a.2 b.2) = some v →
    NoTinyTerm (v * quadEntry i j (mDiff a.1 b.1) (elem C radial me 2 a.1 b.1) (elem C radial me 0 a.1 b.1)))

theorem quad_zero {C : FieldConsts} {radial : RadKey → ℝ} {me : Method} {a b : QN} (h : elem C radial me 2 a b = 0) (j k : Fin 3) :
    cartQuad C radial me a b j k = 0 := by simp [cartQuad, h]

theorem elem0_q {C : FieldConsts} {radial : RadKey → ℝ} {me : Method} {a b : QN} (ha : a.Physical) (hb : b.Physical)
    (hs : a.species = b.species) (hss : a.s = b.s) (h : mDiff a b ≠ 0) : elem C radial me 0 a b = 0 := by
  apply elem_m C radial me a b ha hb hs hss 0 le_rfl
  simpa using h

/-- The common part of the dipole-quadrupole and the quadrupole-dipole entry. -/
theorem dq_core (ke : ℝ) (i j k : Fin 3) (q1 q2 : ℤ) (d t o : ℝ) (h1 : |q1| ≤ 1) (h2 : |q2| ≤ 2) (ho : q2 ≠ 0 → o = 0) (odd : Bool)
    (hodd : odd = decide ((i.val + j.val + k.val) % 2 ≠ 0))
    (ht : ∀ v, vecEntry i q1 d = some v → NoTinyTerm (v * quadEntry j k q2 t o)) :
    (match vecEntry i q1 d with
      | some v =>
        if overTol (v * quadEntry j k q2 t o) then
          let val : ℂ := ((ke * v * quadEntry j k q2 t o / Real.sqrt 30 : ℝ) : ℂ)
          let val := if i = 1 ∧ j ≠ k ∧ (j = 1 ∨ k = 1) then val * -1 else val
          if odd = true then val * Complex.I else val
        else 0
      | none => 0)
    = (ke : ℂ) * (dipCoef i q1 * d) * ((quadCoef j k q2 * t + (if j = k then (o : ℂ) / 3 else 0)) / 2) := by
  rw [← quadEntry_spec j k q2 t o h2 ho, ← vecEntry_spec i q1 d h1]
  cases e : vecEntry i q1 d with
  | none => simp
  | some v =>
    have key : ((ke : ℂ) * ((v : ℂ) * if i = 1 then Complex.I else 1)) *
        (((quadEntry j k q2 t o / Real.sqrt 30 : ℝ) : ℂ) * if j ≠ k ∧ (j = 1 ∨ k = 1) then Complex.I else 1)
        = (let val : ℂ := ((ke * v * quadEntry j k q2 t o / Real.sqrt 30 : ℝ) : ℂ)
          let val := if i = 1 ∧ j ≠ k ∧ (j = 1 ∨ k = 1) then val * -1 else val
          if odd = true then val * Complex.I else val) := by
      subst hodd
      generalize quadEntry j k q2 t o = m
      have hI : Complex.I * Complex.I = -1 := Complex.I_mul_I
      fin_cases i <;> fin_cases j <;> fin_cases k <;>
        simp only [Fin.zero_eta, Fin.mk_one, Fin.reduceFinMk, Fin.reduceEq, if_true, if_false, and_true, and_false, true_and, false_and, or_false,
          or_true, ne_eq, not_true_eq_false, not_false_eq_true, Fin.val_zero, Fin.val_one, Fin.val_two, decide_eq_true_eq, decide_true, decide_false, Fin.isValue,
          zero_add, add_zero, Nat.reduceAdd, Nat.reduceMod, one_ne_zero, reduceCtorEq, mul_one, or_self, zero_ne_one, Nat.zero_mod, Bool.false_eq_true] <;>
        push_cast <;> (first | ring1 | linear_combination ((ke : ℂ) * v * (m / Real.sqrt 30)) * hI)
    rw [Option.getD_some, key]
    rcases ht v e with h0 | h0
    · have hz : ke * v * quadEntry j k q2 t o / Real.sqrt 30 = 0 := by rw [mul_assoc ke, h0]; simp
      have hf : overTol (v * quadEntry j k q2 t o) = false := by rw [h0]; simp [overTol]; norm_num
      dsimp only
      rw [hf, hz]; simp
    · dsimp only
      rw [h0]; simp

theorem key3_odd (i j k : Fin 3) : decide (key3 (i, j, k) % 2 ≠ 0) = decide ((i.val + j.val + k.val) % 2 ≠ 0) := by
  revert i j k; decide

theorem dqEntry_spec (C : FieldConsts) (radial : RadKey → ℝ) (me : Method) (i : Fin 3 × Fin 3 × Fin 3) (a b : QN × QN) (ok : PairOK a b)
    (ht : NoTinyDQ C radial me a b) :
    dqEntry C radial me i a b = (C.ke : ℂ) * cartDip C radial me a.1 b.1 i.1 *
      ((cartQuad C radial me a.2 b.2 i.2.1 i.2.2 + (if i.2.1 = i.2.2 then (elem C radial me 0 a.2 b.2 : ℂ) / 3 else 0)) / 2) := by
  obtain ⟨i, j, k⟩ := i
  dsimp only
  by_cases s1 : selMultipole a.1 b.1 1 = true
  · by_cases s2 : (selMultipole a.2 b.2 2 || selMultipole a.2 b.2 0) = true
    · have m1 := selMultipole_m a.1 b.1 ok.a1 ok.b1 ok.s1 1 s1
      have m2 : |mDiff a.2 b.2| ≤ 2 := by
        rw [Bool.or_eq_true] at s2
        rcases s2 with s2 | s2
        · exact selMultipole_m a.2 b.2 ok.a2 ok.b2 ok.s2 2 s2
        · exact (selMultipole_m a.2 b.2 ok.a2 ok.b2 ok.s2 0 s2).trans (by norm_num)
      have := dq_core C.ke i j k _ _ (elem C radial me 1 a.1 b.1) (elem C radial me 2 a.2 b.2) (elem C radial me 0 a.2 b.2) m1 m2
        (fun hq => elem0_q ok.a2 ok.b2 ok.sp2 ok.s2 hq) (decide (key3 (i, j, k) % 2 ≠ 0)) (key3_odd i j k) (fun v hv => ht.1 i j k v hv)
      unfold cartDip cartQuad
      rw [mDiff_div a.1 b.1 ok.a1 ok.b1 ok.s1, mDiff_div a.2 b.2 ok.a2 ok.b2 ok.s2, ← this]
      unfold dqEntry
      rw [s1, if_pos (by simpa using s2)]
      dsimp only
      cases vecEntry i (mDiff a.1 b.1) (elem C radial me 1 a.1 b.1) with
      | none => rfl
      | some v => simp only [decide_eq_true_eq]
    · rw [Bool.or_eq_true, not_or] at s2
      have z2 := elem_zero C radial me a.2 b.2 ok.a2 ok.b2 ok.sp2 ok.s2 2 (by norm_num) (by simpa using s2.1)
      have z0 := elem_zero C radial me a.2 b.2 ok.a2 ok.b2 ok.sp2 ok.s2 0 (by norm_num) (by simpa using s2.2)
      unfold dqEntry
      rw [if_neg (by simp [s2.1, s2.2]), quad_zero z2, z0]; simp
  · have z := elem_zero C radial me a.1 b.1 ok.a1 ok.b1 ok.sp1 ok.s1 1 (by norm_num) (by simpa using s1)
    unfold dqEntry
    rw [if_neg (by simp [s1]), dip_zero z]; simp

theorem qdEntry_spec (C : FieldConsts) (radial : RadKey → ℝ) (me : Method) (i : Fin 3 × Fin 3 × Fin 3) (a b : QN × QN) (ok : PairOK a b)
    (ht : NoTinyDQ C radial me a b) :
    qdEntry C radial me i a b = (C.ke : ℂ) * cartDip C radial me a.2 b.2 i.2.2 *
      ((cartQuad C radial me a.1 b.1 i.1 i.2.1 + (if i.1 = i.2.1 then (elem C radial me 0 a.1 b.1 : ℂ) / 3 else 0)) / 2) := by
  obtain ⟨i, j, k⟩ := i
  dsimp only
  by_cases s1 : selMultipole a.2 b.2 1 = true
  · by_cases s2 : (selMultipole a.1 b.1 2 || selMultipole a.1 b.1 0) = true
    · have m1 := selMultipole_m a.2 b.2 ok.a2 ok.b2 ok.s2 1 s1
      have m2 : |mDiff a.1 b.1| ≤ 2 := by
        rw [Bool.or_eq_true] at s2
        rcases s2 with s2 | s2
        · exact selMultipole_m a.1 b.1 ok.a1 ok.b1 ok.s1 2 s2
        · exact (selMultipole_m a.1 b.1 ok.a1 ok.b1 ok.s1 0 s2).trans (by norm_num)
      have := dq_core C.ke k i j _ _ (elem C radial me 1 a.2 b.2) (elem C radial me 2 a.1 b.1) (elem C radial me 0 a.1 b.1) m1 m2
        (fun hq => elem0_q ok.a1 ok.b1 ok.sp1 ok.s1 hq) (decide (key3 (i, j, k) % 2 ≠ 0))
        (by rw [key3_odd, show i.val + j.val + k.val = k.val + i.val + j.val by ring]) (fun v hv => ht.2 i j k v hv)
      unfold cartDip cartQuad
      rw [mDiff_div a.1 b.1 ok.a1 ok.b1 ok.s1, mDiff_div a.2 b.2 ok.a2 ok.b2 ok.s2, ← this]
      unfold qdEntry
      rw [s1, if_pos (by simpa using s2)]
      dsimp only
      cases vecEntry k (mDiff a.2 b.2) (elem C radial me 1 a.2 b.2) with
      | none => rfl
      | some v => simp only [decide_eq_true_eq]
    · rw [Bool.or_eq_true, not_or] at s2
      have z2 := elem_zero C radial me a.1 b.1 ok.a1 ok.b1 ok.sp1 ok.s1 2 (by norm_num) (by simpa using s2.1)
      have z0 := elem_zero C radial me a.1 b.1 ok.a1 ok.b1 ok.sp1 ok.s1 0 (by norm_num) (by simpa using s2.2)
      unfold qdEntry
      rw [if_neg (by simp [s2.1, s2.2]), quad_zero z2, z0]; simp
  · have z := elem_zero C radial me a.2 b.2 ok.a2 ok.b2 ok.sp2 ok.s2 1 (by norm_num) (by simpa using s1)
    unfold qdEntry
    rw [if_neg (by simp [s1]), dip_zero z]; simp

theorem dqTerms_total (C : FieldConsts) (radial : RadKey → ℝ) (me : Method) (G : Fin 3 → Fin 3 → Fin 3 → ℝ) (hG : ∀ i j k, NoTinyTerm (G i j k))
    (a b : QN × QN) (ok : PairOK a b) (ht : NoTinyDQ C radial me a b) :
    (((dqTerms G).map fun t => (PKey.dq t.1, t.2)).map fun t => (t.2 : ℂ) * pairEntry C radial me t.1 a b).sum
      = (C.ke : ℂ) / 2 * ∑ i, ∑ j, ∑ k, (G i j k : ℂ) * cartDip C radial me a.1 b.1 i *
        (cartQuad C radial me a.2 b.2 j k + (if j = k then (elem C radial me 0 a.2 b.2 : ℂ) / 3 else 0)) := by
  unfold dqTerms
  rw [List.map_map, List.map_map]
  have e : (((fun t : PKey × ℝ => (t.2 : ℂ) * pairEntry C radial me t.1 a b) ∘ fun t : ℕ × ℝ => (PKey.dq t.1, t.2)) ∘
      fun i : Fin 3 × Fin 3 × Fin 3 => (key3 i, G i.1 i.2.1 i.2.2)) = fun i => (G i.1 i.2.1 i.2.2 : ℂ) * dqEntry C radial me i a b := by
    funext i; simp only [Function.comp, pairEntry, unkey3_key3]
  rw [e, filterTol_sum idx3 (fun i => G i.1 i.2.1 i.2.2) _ (fun i _ => hG i.1 i.2.1 i.2.2)]
  simp only [dqEntry_spec C radial me _ a b ok ht]
  rw [idx3_sum fun i j k => (G i j k : ℂ) * ((C.ke : ℂ) * cartDip C radial me a.1 b.1 i *
      ((cartQuad C radial me a.2 b.2 j k + (if j = k then (elem C radial me 0 a.2 b.2 : ℂ) / 3 else 0)) / 2))]
  simp only [Finset.mul_sum]
  refine Finset.sum_congr rfl fun i _ => Finset.sum_congr rfl fun j _ => Finset.sum_congr rfl fun k _ => by ring

theorem qdTerms_total (C : FieldConsts) (radial : RadKey → ℝ) (me : Method) (G : Fin 3 → Fin 3 → Fin 3 → ℝ) (hG : ∀ i j k, NoTinyTerm (G i j k))
    (a b : QN × QN) (ok : PairOK a b) (ht : NoTinyDQ C radial me a b) :
    (((dqTerms G).map fun t => (PKey.qd t.1, t.2)).map fun t => (t.2 : ℂ) * pairEntry C radial me t.1 a b).sum
      = (C.ke : ℂ) / 2 * ∑ i, ∑ j, ∑ k, (G i j k : ℂ) * cartDip C radial me a.2 b.2 k *
        (cartQuad C radial me a.1 b.1 i j + (if i = j then (elem C radial me 0 a.1 b.1 : ℂ) / 3 else 0)) := by
  unfold dqTerms
  rw [List.map_map, List.map_map]
  have e : (((fun t : PKey × ℝ => (t.2 : ℂ) * pairEntry C radial me t.1 a b) ∘ fun t : ℕ × ℝ => (PKey.qd t.1, t.2)) ∘
      fun i : Fin 3 × Fin 3 × Fin 3 => (key3 i, G i.1 i.2.1 i.2.2)) = fun i => (G i.1 i.2.1 i.2.2 : ℂ) * qdEntry C radial me i a b := by
    funext i; simp only [Function.comp, pairEntry, unkey3_key3]
  rw [e, filterTol_sum idx3 (fun i => G i.1 i.2.1 i.2.2) _ (fun i _ => hG i.1 i.2.1 i.2.2)]
  simp only [qdEntry_spec C radial me _ a b ok ht]
  rw [idx3_sum fun i j k => (G i j k : ℂ) * ((C.ke : ℂ) * cartDip C radial me a.2 b.2 k *
      ((cartQuad C radial me a.1 b.1 i j + (if i = j then (elem C radial me 0 a.1 b.1 : ℂ) / 3 else 0)) / 2))]
  simp only [Finset.mul_sum]
  refine Finset.sum_congr rfl fun i _ => Finset.sum_congr rfl fun j _ => Finset.sum_congr rfl fun k _ => by ring

/-- Specification: the third derivatives ∂_i ∂_j ∂_k of 1/|r| at r = (x, y, z). -/
noncomputable def thirdDeriv (x y z : ℝ) (i j k : Fin 3) : ℝ :=
  let d : V3 := ![x, y, z]
  let R := Real.sqrt (x ^ 2 + y ^ 2 + z ^ 2)
  3 * (eye i j * d k + eye i k * d j + eye j k * d i) / R ^ 5 - 15 * d i * d j * d k / R ^ 7

/-- Specification: the dipole-quadrupole energy −½ k d₁ᵢ Q₂ⱼₖ ∂ᵢ∂ⱼ∂ₖ(1/r) + ½ k Q₁ᵢⱼ d₂ₖ ∂ᵢ∂ⱼ∂ₖ(1/r). -/
noncomputable def dipoleQuadrupole (k x y z : ℝ) (D1 D2 : Fin 3 → ℂ) (Q1 Q2 : Fin 3 → Fin 3 → ℂ) : ℂ :=
  (k : ℂ) / 2 * ∑ i, ∑ j, ∑ l, (thirdDeriv x y z i j l : ℂ) * (Q1 i j * D2 l - D1 i * Q2 j l)

theorem dq_vacuum_third (x y z : ℝ) (i j k : Fin 3) : dqVacuum x y z i j k = -thirdDeriv x y z i j k ∧ qdVacuum x y z i j k = thirdDeriv x y z i j k := by
  unfold dqVacuum qdVacuum thirdDeriv
  simp only [norm3_eq]
  constructor <;> ring

theorem thirdDeriv_traceless (x y z : ℝ) (h : x ≠ 0 ∨ y ≠ 0 ∨ z ≠ 0) (i : Fin 3) :
    thirdDeriv x y z i 0 0 + thirdDeriv x y z i 1 1 + thirdDeriv x y z i 2 2 = 0 ∧
    thirdDeriv x y z 0 0 i + thirdDeriv x y z 1 1 i + thirdDeriv x y z 2 2 i = 0 := by
  have hp : 0 < x ^ 2 + y ^ 2 + z ^ 2 := by rcases h with h | h | h <;> positivity
  have hR : Real.sqrt (x ^ 2 + y ^ 2 + z ^ 2) ≠ 0 := (Real.sqrt_pos.mpr hp).ne'
  have hs : Real.sqrt (x ^ 2 + y ^ 2 + z ^ 2) ^ 2 = x ^ 2 + y ^ 2 + z ^ 2 := Real.sq_sqrt hp.le
  unfold thirdDeriv
  dsimp only
  set R := Real.sqrt (x ^ 2 + y ^ 2 + z ^ 2)
  constructor <;> fin_cases i <;>
    simp only [eye, Fin.zero_eta, Fin.mk_one, Fin.reduceFinMk, Fin.reduceEq, if_true, if_false, Matrix.cons_val_zero, Matrix.cons_val_one, Matrix.cons_val] <;>
    field_simp <;> (try rw [hs]) <;> ring

theorem green4_total (C : FieldConsts) (radial : RadKey → ℝ) (me : Method) (p : PairParams) (h : GreenVac p) (h4 : p.order = 4)
    (hr : p.x ≠ 0 ∨ p.y ≠ 0 ∨ p.z ≠ 0) (ht : ∀ i j, NoTinyTerm (ddVacuum p.x p.y p.z i j))
    (ht3 : ∀ i j k, NoTinyTerm (thirdDeriv p.x p.y p.z i j k)) (a b : QN × QN) (ok : PairOK a b) (hq : NoTinyDQ C radial me a b) :
    pairTotal C radial me p a b = ddPairSpec C radial me p a b + dipoleQuadrupole C.ke p.x p.y p.z (cartDip C radial me a.1 b.1) (cartDip C radial me a.2 b.2)
      (cartQuad C radial me a.1 b.1) (cartQuad C radial me a.2 b.2) := by
  have n1 : ∀ i j k, NoTinyTerm (dqVacuum p.x p.y p.z i j k) := by
    intro i j k
    rw [(dq_vacuum_third p.x p.y p.z i j k).1]
    have := ht3 i j k
    unfold NoTinyTerm overTol at *
    simpa using this
  have n2 : ∀ i j k, NoTinyTerm (qdVacuum p.x p.y p.z i j k) := by
    intro i j k
    rw [(dq_vacuum_third p.x p.y p.z i j k).2]
    exact ht3 i j k
  unfold pairTotal
  rw [pairTerms_green p h, if_pos (by omega), if_pos (by omega), if_pos (by omega), List.map_append, List.map_append, List.sum_append, List.sum_append,
    ddTerms_total C radial me _ ht a b ok, dd_vacuum_total _ _ _ _ hr, dqTerms_total C radial me _ n1 a b ok hq, qdTerms_total C radial me _ n2 a b ok hq,
    add_assoc]
  congr 1
  unfold dipoleQuadrupole
  simp only [(dq_vacuum_third p.x p.y p.z _ _ _).1, (dq_vacuum_third p.x p.y p.z _ _ _).2]
  have t1 := fun i => congrArg (fun r : ℝ => (r : ℂ)) (thirdDeriv_traceless p.x p.y p.z hr i).1
  have t2 := fun i => congrArg (fun r : ℝ => (r : ℂ)) (thirdDeriv_traceless p.x p.y p.z hr i).2
  simp only [Complex.ofReal_add, Complex.ofReal_zero] at t1 t2
  generalize cartDip C radial me a.1 b.1 = D1
  generalize cartDip C radial me a.2 b.2 = D2
  generalize cartQuad C radial me a.1 b.1 = Q1
  generalize cartQuad C radial me a.2 b.2 = Q2
  generalize (elem C radial me 0 a.1 b.1 : ℂ) = o1
  generalize (elem C radial me 0 a.2 b.2 : ℂ) = o2
  generalize thirdDeriv p.x p.y p.z = T at t1 t2 ⊢
  simp only [Fin.sum_univ_three, Fin.reduceEq, if_true, if_false, Complex.ofReal_neg]
  linear_combination (-(C.ke : ℂ) / 6 * o2 * D1 0) * t1 0 + (-(C.ke : ℂ) / 6 * o2 * D1 1) * t1 1 + (-(C.ke : ℂ) / 6 * o2 * D1 2) * t1 2
    + ((C.ke : ℂ) / 6 * o1 * D2 0) * t2 0 + ((C.ke : ℂ) / 6 * o1 * D2 1) * t2 1 + ((C.ke : ℂ) / 6 * o1 * D2 2) * t2 2

theorem dipoleQuadrupole_conj (k x y z : ℝ) (D1 D2 : Fin 3 → ℂ) (Q1 Q2 : Fin 3 → Fin 3 → ℂ) :
    dipoleQuadrupole k x y z (fun i => (starRingEnd ℂ) (D1 i)) (fun i => (starRingEnd ℂ) (D2 i)) (fun i j => (starRingEnd ℂ) (Q1 i j))
      (fun i j => (starRingEnd ℂ) (Q2 i j)) = (starRingEnd ℂ) (dipoleQuadrupole k x y z D1 D2 Q1 Q2) := by
  unfold dipoleQuadrupole
  simp only [map_mul, map_sum, map_sub, map_div₀, Complex.conj_ofReal, Complex.conj_ofNat]

/-- **C71.** The Green tensor approach with order 4 in vacuum, for every distance vector and all pair states (both triangles): the dipole-dipole plus the dipole-quadrupole energy
of two charge distributions.  In particular the rank-0 elements, for which the code uses the overlap instead of ⟨r²⟩, cancel. -/
theorem C71_green_order4 (C : FieldConsts) (radial : RadKey → ℝ) (me : Method) (st : Fin N → Option (QN × QN)) (hst : GoodPairs st)
    (p : PairParams) (h : GreenVac p) (h4 : p.order = 4) (hr : p.x ≠ 0 ∨ p.y ≠ 0 ∨ p.z ≠ 0) (ht : ∀ i j, NoTinyTerm (ddVacuum p.x p.y p.z i j))
    (ht3 : ∀ i j k, NoTinyTerm (thirdDeriv p.x p.y p.z i j k))
    (hq : ∀ a b, InSt st a → InSt st b → NoTinyDQ C radial me a b) (r c : Fin N) :
    pairH C radial me st p r c = match st r, st c with
      | some a, some b => dipoleDipole C.ke p.x p.y p.z (cartDip C radial me a.1 b.1) (cartDip C radial me a.2 b.2) +
          dipoleQuadrupole C.ke p.x p.y p.z (cartDip C radial me a.1 b.1) (cartDip C radial me a.2 b.2) (cartQuad C radial me a.1 b.1) (cartQuad C radial me a.2 b.2)
      | _, _ => 0 := by
  refine pairH_eq_in C radial me st hst p _ (fun a b ia ib ok => green4_total C radial me p h h4 hr ht ht3 a b ok (hq a b ia ib)) ?_ r c
  intro a b ok
  have h1 := ddPairSpec_herm C radial me p a b ok
  unfold ddPairSpec at h1 ⊢
  rw [h1, map_add]
  congr 1
  rw [← dipoleQuadrupole_conj]
  congr 1
  · funext i; exact cartDip_herm C radial me a.1 b.1 ok.a1 ok.b1 ok.sp1 ok.s1 i
  · funext i; exact cartDip_herm C radial me a.2 b.2 ok.a2 ok.b2 ok.sp2 ok.s2 i
  · funext i j; exact cartQuad_herm C radial me a.1 b.1 ok.a1 ok.b1 ok.sp1 ok.s1 i j
  · funext i j; exact cartQuad_herm C radial me a.2 b.2 ok.a2 ok.b2 ok.sp2 ok.s2 i j

/-! The comparison with the multipole operators along z. -/

theorem csqrt6_split : ((Real.sqrt 6 : ℝ) : ℂ) = (Real.sqrt 2 : ℝ) * (Real.sqrt 3 : ℝ) := by
  rw [← Complex.ofReal_mul, ← Real.sqrt_mul (by norm_num)]; norm_num

theorem csqrt3_ne : ((Real.sqrt 3 : ℝ) : ℂ) ≠ 0 := by
  have : Real.sqrt 3 ≠ 0 := (Real.sqrt_pos.mpr (by norm_num)).ne'
  exact_mod_cast this

theorem csqrt3_sq : ((Real.sqrt 3 : ℝ) : ℂ) ^ 2 = 3 := by
  rw [← Complex.ofReal_pow, Real.sq_sqrt (by norm_num)]; norm_num

theorem third_axis (z : ℝ) (hz : z ≠ 0) (i j k : Fin 3) :
    thirdDeriv 0 0 z i j k = z / |z| ^ 5 * (3 * (eye i j * eye k 2 + eye i k * eye j 2 + eye j k * eye i 2) - 15 * eye i 2 * eye j 2 * eye k 2) := by
  unfold thirdDeriv
  have e : Real.sqrt (0 ^ 2 + 0 ^ 2 + z ^ 2) = |z| := by rw [← Real.sqrt_sq_eq_abs]; congr 1; ring
  have ha : |z| ≠ 0 := abs_ne_zero.mpr hz
  have hs : |z| ^ 2 = z ^ 2 := sq_abs z
  dsimp only
  rw [e]
  fin_cases i <;> fin_cases j <;> fin_cases k <;>
    simp only [eye, Fin.zero_eta, Fin.mk_one, Fin.reduceFinMk, Fin.reduceEq, if_true, if_false, Matrix.cons_val_zero, Matrix.cons_val_one, Matrix.cons_val] <;>
    field_simp <;> (try rw [hs]) <;> (try ring)

theorem dq_axis (z : ℝ) (hz : z ≠ 0) (q1 q2 : ℤ) (h1 : |q1| ≤ 1) (h2 : |q2| ≤ 2) :
    ∑ i, ∑ j, ∑ l, (thirdDeriv 0 0 z i j l : ℂ) * (dipCoef i q1 * quadCoef j l q2)
      = if q1 + q2 = 0 then -2 * ((z / |z| ^ 5 : ℝ) : ℂ) * (if q1 = 0 then 3 else (Real.sqrt 3 : ℝ)) else 0 := by
  simp only [third_axis z hz]
  generalize z / |z| ^ 5 = w
  have a1 := csqrt2_ne
  have a2 := csqrt2_sq
  have a3 := csqrt3_ne
  have a4 := csqrt3_sq
  have hI := Complex.I_sq
  rcases q_cases q1 h1 with rfl | rfl | rfl <;> rcases q2_cases q2 h2 with rfl | rfl | rfl | rfl | rfl <;>
    simp [Fin.sum_univ_three, eye, dipCoef, quadCoef, csqrt6_split] <;> (try field_simp) <;> (try simp only [a2, a4, hI]) <;> (try ring_nf) <;> (try simp only [a2, a4, hI]) <;> (try ring)

theorem qd_axis (z : ℝ) (hz : z ≠ 0) (q1 q2 : ℤ) (h1 : |q1| ≤ 2) (h2 : |q2| ≤ 1) :
    ∑ i, ∑ j, ∑ l, (thirdDeriv 0 0 z i j l : ℂ) * (quadCoef i j q1 * dipCoef l q2)
      = if q1 + q2 = 0 then -2 * ((z / |z| ^ 5 : ℝ) : ℂ) * (if q1 = 0 then 3 else (Real.sqrt 3 : ℝ)) else 0 := by
  simp only [third_axis z hz]
  generalize z / |z| ^ 5 = w
  have a1 := csqrt2_ne
  have a2 := csqrt2_sq
  have a3 := csqrt3_ne
  have a4 := csqrt3_sq
  have hI := Complex.I_sq
  rcases q2_cases q1 h1 with rfl | rfl | rfl | rfl | rfl <;> rcases q_cases q2 h2 with rfl | rfl | rfl <;>
    simp [Fin.sum_univ_three, eye, dipCoef, quadCoef, csqrt6_split] <;> (try field_simp) <;> (try simp only [a2, a4, hI]) <;> (try ring_nf) <;> (try simp only [a2, a4, hI]) <;> (try ring)


theorem choose3 (q : ℤ) (h : |q| ≤ 1) :
    Real.sqrt (((3 : ℕ).choose (1 + q).toNat : ℝ) * ((3 : ℕ).choose (2 + q).toNat : ℝ)) = if q = 0 then 3 else Real.sqrt 3 := by
  rcases q_cases q h with rfl | rfl | rfl
  · rw [show (1 + (-1) : ℤ).toNat = 0 from rfl, show (2 + (-1) : ℤ).toNat = 1 from rfl]; norm_num
  · rw [show (1 + 0 : ℤ).toNat = 1 from rfl, show (2 + 0 : ℤ).toNat = 2 from rfl, show Nat.choose 3 2 = 3 from rfl, show Nat.choose 3 1 = 3 from rfl, if_pos rfl]
    rw [show (((3 : ℕ) : ℝ) * ((3 : ℕ) : ℝ) : ℝ) = 3 ^ 2 by norm_num]; exact Real.sqrt_sq (by norm_num)
  · rw [show (1 + 1 : ℤ).toNat = 2 from rfl, show (2 + 1 : ℤ).toNat = 3 from rfl, show Nat.choose 3 2 = 3 from rfl, show Nat.choose 3 3 = 1 from rfl]; norm_num

/-- Along z the dipole-quadrupole energy is the multipole term of order 4 with the sign of z. -/
theorem dipoleQuadrupole_axis (C : FieldConsts) (radial : RadKey → ℝ) (me : Method) (z : ℝ) (hz : z ≠ 0) (a b : QN × QN) (ok : PairOK a b) :
    dipoleQuadrupole C.ke 0 0 z (cartDip C radial me a.1 b.1) (cartDip C radial me a.2 b.2) (cartQuad C radial me a.1 b.1) (cartQuad C radial me a.2 b.2)
      = ((z / |z| ^ 5 * multipoleSpecPair C radial me 4 a b : ℝ) : ℂ) := by
  have d1 := mDiff_div a.1 b.1 ok.a1 ok.b1 ok.s1
  have d2 := mDiff_div a.2 b.2 ok.a2 ok.b2 ok.s2
  have p1 := mDiff_spec a.1 b.1 ok.a1 ok.b1 ok.s1
  have p2 := mDiff_spec a.2 b.2 ok.a2 ok.b2 ok.s2
  have hM : a.1.m + a.2.m = b.1.m + b.2.m ↔ mDiff a.1 b.1 + mDiff a.2 b.2 = 0 := by omega
  unfold dipoleQuadrupole multipoleSpecPair multipoleTerm
  simp only [hM, show 4 - 2 = 2 from rfl, Finset.sum_range_succ, Finset.sum_range_zero, zero_add, Nat.reduceAdd, Nat.reduceSub, Nat.cast_one, Nat.cast_ofNat,
    cartDip, cartQuad, d1, d2]
  have z1 : ∀ k : ℤ, 0 ≤ k → ¬ |mDiff a.1 b.1| ≤ k → elem C radial me k a.1 b.1 = 0 := fun k hk h =>
    elem_zero C radial me a.1 b.1 ok.a1 ok.b1 ok.sp1 ok.s1 k hk (by
      by_contra hc; exact h (selMultipole_m a.1 b.1 ok.a1 ok.b1 ok.s1 k (by simpa using hc)))
  have z2 : ∀ k : ℤ, 0 ≤ k → ¬ |mDiff a.2 b.2| ≤ k → elem C radial me k a.2 b.2 = 0 := fun k hk h =>
    elem_zero C radial me a.2 b.2 ok.a2 ok.b2 ok.sp2 ok.s2 k hk (by
      by_contra hc; exact h (selMultipole_m a.2 b.2 ok.a2 ok.b2 ok.s2 k (by simpa using hc)))
  generalize mDiff a.1 b.1 = q1 at *
  generalize mDiff a.2 b.2 = q2 at *
  have A : ∑ i, ∑ j, ∑ l, (thirdDeriv 0 0 z i j l : ℂ) * (quadCoef i j q1 * (elem C radial me 2 a.1 b.1 : ℂ) * (dipCoef l q2 * (elem C radial me 1 a.2 b.2 : ℂ)))
      = if q1 + q2 = 0 then -2 * ((z / |z| ^ 5 : ℝ) : ℂ) * (if q1 = 0 then 3 else (Real.sqrt 3 : ℝ)) * elem C radial me 2 a.1 b.1 * elem C radial me 1 a.2 b.2 else 0 := by
    by_cases g1 : |q1| ≤ 2
    · by_cases g2 : |q2| ≤ 1
      · have := qd_axis z hz q1 q2 g1 g2
        calc _ = (∑ i, ∑ j, ∑ l, (thirdDeriv 0 0 z i j l : ℂ) * (quadCoef i j q1 * dipCoef l q2)) * (elem C radial me 2 a.1 b.1 * elem C radial me 1 a.2 b.2) := by
              simp only [Finset.sum_mul]
              exact Finset.sum_congr rfl fun i _ => Finset.sum_congr rfl fun j _ => Finset.sum_congr rfl fun l _ => by ring
          _ = _ := by rw [this]; split_ifs <;> ring
      · rw [z2 1 (by norm_num) g2]; simp
    · rw [z1 2 (by norm_num) g1]; simp
  have B : ∑ i, ∑ j, ∑ l, (thirdDeriv 0 0 z i j l : ℂ) * (dipCoef i q1 * (elem C radial me 1 a.1 b.1 : ℂ) * (quadCoef j l q2 * (elem C radial me 2 a.2 b.2 : ℂ)))
      = if q1 + q2 = 0 then -2 * ((z / |z| ^ 5 : ℝ) : ℂ) * (if q1 = 0 then 3 else (Real.sqrt 3 : ℝ)) * elem C radial me 1 a.1 b.1 * elem C radial me 2 a.2 b.2 else 0 := by
    by_cases g1 : |q1| ≤ 1
    · by_cases g2 : |q2| ≤ 2
      · have := dq_axis z hz q1 q2 g1 g2
        calc _ = (∑ i, ∑ j, ∑ l, (thirdDeriv 0 0 z i j l : ℂ) * (dipCoef i q1 * quadCoef j l q2)) * (elem C radial me 1 a.1 b.1 * elem C radial me 2 a.2 b.2) := by
              simp only [Finset.sum_mul]
              exact Finset.sum_congr rfl fun i _ => Finset.sum_congr rfl fun j _ => Finset.sum_congr rfl fun l _ => by ring
          _ = _ := by rw [this]; split_ifs <;> ring
      · rw [z2 2 (by norm_num) g2]; simp
    · rw [z1 1 (by norm_num) g1]; simp
  simp only [mul_sub, Finset.sum_sub_distrib]
  rw [A, B]
  by_cases hq : q1 + q2 = 0
  · rw [if_pos hq, if_pos hq, if_pos hq]
    by_cases g1 : |q1| ≤ 1
    · rw [show ((2 : ℤ) + q1).toNat = (2 + q1).toNat from rfl]
      have c1 := choose3 q1 g1
      have c2 : Real.sqrt (((3 : ℕ).choose (2 + q1).toNat : ℝ) * ((3 : ℕ).choose (1 + q1).toNat : ℝ)) = if q1 = 0 then 3 else Real.sqrt 3 := by
        rw [mul_comm]; exact c1
      simp only [c1, c2]
      split_ifs <;> push_cast <;> ring
    · have e1 := z1 1 (by norm_num) g1
      have e2 := z2 1 (by norm_num) (by rw [show q2 = -q1 by omega, abs_neg]; exact g1)
      rw [e1, e2]; simp
  · rw [if_neg hq, if_neg hq, if_neg hq]; simp

/-- **C71 (partial).** For atoms along z, with z > 0, the Green tensor approach with order 4 adds the same interaction as the multipole operators of order 3 and 4. -/
theorem C71_agree_partial (C : FieldConsts) (radial : RadKey → ℝ) (me : Method) (st : Fin N → Option (QN × QN)) (hst : GoodPairs st)
    (z surf : ℝ) (hs : surf = dblMax) (hz : 0 < z) (hd : z ≠ dblMax) (ht : ∀ i j, NoTinyTerm (ddVacuum 0 0 z i j))
    (ht3 : ∀ i j k, NoTinyTerm (thirdDeriv 0 0 z i j k)) (hq : ∀ a b, InSt st a → InSt st b → NoTinyDQ C radial me a b) :
    pairH C radial me st ⟨0, 0, z, z, true, surf, 4⟩ = pairH C radial me st ⟨0, 0, z, z, false, surf, 4⟩ := by
  ext r c
  have g : GreenVac ⟨0, 0, z, z, true, surf, 4⟩ := ⟨hd, rfl, hs, by norm_num⟩
  have ax : OnAxis ⟨0, 0, z, z, false, surf, 4⟩ := ⟨hd, rfl, rfl, hs, rfl⟩
  have ax3 : OnAxis ⟨0, 0, z, z, false, surf, 3⟩ := ⟨hd, rfl, rfl, hs, rfl⟩
  have r1 := C71_green_order4 C radial me st hst _ g rfl (Or.inr (Or.inr hz.ne')) ht ht3 hq r c
  have r2 := C44_multipole_operator C radial me st hst _ ax r c
  have r3 := C44_multipole_operator C radial me st hst _ ax3 r c
  have r4 := C43_axis C radial me st hst _ ax3 rfl hz.ne' (by simp [Real.sqrt_sq hz.le]) r c
  rw [r1, r2]
  rw [r3] at r4
  rcases hr : st r with _ | a
  · rfl
  rcases hc : st c with _ | b
  · rfl
  have ok := hst.ok hr hc
  rw [hr, hc] at r4
  dsimp only at r4 ⊢
  rw [← r4, dipoleQuadrupole_axis C radial me z hz.ne' a b ok, abs_of_pos hz, ← Complex.ofReal_add]
  congr 1
  rw [show Finset.Icc 3 4 = {3, 4} by decide, show Finset.Icc 3 3 = {3} by decide, Finset.sum_singleton, Finset.sum_pair (by norm_num)]
  congr 1
  have : z ≠ 0 := hz.ne'
  congr 1
  field_simp


/-! The sign for z < 0. -/

theorem w3j_0kk (k : ℤ) (hk : 0 ≤ k) : w3j 0 (2 * k) (2 * k) 0 0 0 ≠ 0 := by
  unfold w3j
  rw [if_pos (by unfold Valid3; simp; omega)]
  apply mul_ne_zero
  · refine mul_ne_zero (sgn_ne_zero _) (Real.sqrt_pos.mpr ?_).ne'
    unfold rad3
    have := fct_pos
    simp only [fct]
    positivity
  · rw [sum3_eq]
    have e : ((0 + 2 * k - 2 * k) / 2 : ℤ) = 0 := by omega
    rw [e, Finset.Icc_self, Finset.sum_singleton]
    refine mul_ne_zero (sgn_ne_zero _) (ne_of_gt ?_)
    have h1 : ∀ n : ℤ, 0 ≤ n → 0 < ifct n := fun n => ifct_pos
    have := h1 0 le_rfl
    have := h1 ((2 * k - 2 * k + 0) / 2 + 0) (by omega)
    have := h1 ((2 * k - 0 - 0) / 2 + 0) (by omega)
    have := h1 (0 - 0) (by omega)
    have := h1 ((0 - 0) / 2 - 0) (by omega)
    have := h1 ((2 * k + 0) / 2 - 0) (by omega)
    positivity

theorem w6j_000 (k : ℤ) (hk : 0 ≤ k) : w6j 0 0 0 (2 * k) (2 * k) (2 * k) ≠ 0 := by
  unfold w6j
  rw [if_pos (by unfold Tri; omega)]
  apply mul_ne_zero
  · have := delta2_pos 0 0 0; have := delta2_pos 0 (2 * k) (2 * k); have := delta2_pos (2 * k) 0 (2 * k); have := delta2_pos (2 * k) (2 * k) 0
    exact (Real.sqrt_pos.mpr (by positivity)).ne'
  · rw [sum6_eq, Finset.sum_eq_single (2 * k)]
    · refine mul_ne_zero (mul_ne_zero (sgn_ne_zero _) (fct_pos _).ne') (ne_of_gt ?_)
      have h1 : ∀ n : ℤ, 0 ≤ n → 0 < ifct n := fun n => ifct_pos
      have := h1 (2 * k - (0 + 0 + 0) / 2) (by omega)
      have := h1 (2 * k - (0 + 2 * k + 2 * k) / 2) (by omega)
      have := h1 (2 * k - (2 * k + 0 + 2 * k) / 2) (by omega)
      have := h1 (2 * k - (2 * k + 2 * k + 0) / 2) (by omega)
      have := h1 ((0 + 0 + 2 * k + 2 * k) / 2 - 2 * k) (by omega)
      have := h1 ((0 + 0 + 2 * k + 2 * k) / 2 - 2 * k) (by omega)
      have := h1 ((0 + 0 + 2 * k + 2 * k) / 2 - 2 * k) (by omega)
      positivity
    · intro t ht hne
      rw [Finset.mem_Icc] at ht
      have : ifct (t - (0 + 2 * k + 2 * k) / 2) = 0 := by unfold ifct; rw [if_pos (by omega)]
      rw [this]; simp
    · intro h; exact absurd (Finset.mem_Icc.mpr (by omega)) h

/-- Singlet states with l = k, m = 0. -/
def singlet (k : ℤ) : QN := ⟨"Sr1", 60, k, 2 * k, 0, 0⟩

theorem singlet_physical (k : ℤ) (hk : 0 ≤ k) : (singlet k).Physical := by
  unfold QN.Physical singlet
  dsimp only
  rw [abs_of_nonneg (by omega)]
  simp
  omega

theorem elem_singlet_ne (C : FieldConsts) (radial : RadKey → ℝ) (me : Method) (hC : C.elem.e ≠ 0) (hr : ∀ k, radial k ≠ 0) (k : ℤ) (hk : 0 ≤ k) :
    elem C radial me k (singlet 0) (singlet k) ≠ 0 := by
  unfold elem electricMultipole singlet
  rw [if_neg (by simp)]
  unfold outVal
  dsimp only
  have A : (AngKey.make k (2 * 0) (2 * k) 0 0).2 * (AngKey.make k (2 * 0) (2 * k) 0 0).1.value ≠ 0 := by
    unfold AngKey.make AngKey.value
    rw [if_pos (by omega)]
    dsimp only
    refine mul_ne_zero one_ne_zero (mul_ne_zero (sgn_ne_zero _) ?_)
    simpa using w3j_0kk k hk
  have B : (ComKey.make 0 k 0 k (2 * 0) (2 * k)).2 * (ComKey.make 0 k 0 k (2 * 0) (2 * k)).1.valueS ≠ 0 := by
    unfold ComKey.make ComKey.valueS
    rw [if_pos (by omega)]
    dsimp only
    rw [if_pos (by refine ⟨?_, ?_, ?_, ?_, ?_, ?_, ?_, ?_⟩ <;> norm_num <;> (try (rw [abs_of_nonneg (by omega)])) <;> (try omega))]
    refine mul_ne_zero one_ne_zero (mul_ne_zero (mul_ne_zero (sgn_ne_zero _) ?_) ?_)
    · have : (0 : ℝ) ≤ k := by exact_mod_cast hk
      exact (Real.sqrt_pos.mpr (by push_cast; positivity)).ne'
    · simpa using w6j_000 k hk
  have D : (MulKey.make k 0 k).2 * (MulKey.make k 0 k).1.value ≠ 0 := by
    unfold MulKey.make MulKey.value
    rw [if_pos hk]
    dsimp only
    refine mul_ne_zero one_ne_zero (mul_ne_zero (mul_ne_zero (sgn_ne_zero _) ?_) ?_)
    · have : (0 : ℝ) ≤ k := by exact_mod_cast hk
      exact (Real.sqrt_pos.mpr (by push_cast; positivity)).ne'
    · simpa using w3j_0kk k hk
  have E : C.elem.e * radial (RadKey.make me "Sr1" k 60 60 0 k (2 * 0) (2 * k)) ≠ 0 := mul_ne_zero hC (hr _)
  have := mul_ne_zero (mul_ne_zero (mul_ne_zero E A) B) D
  intro h
  apply this
  rw [← h]
  ring

/-- Two pair states: SS and PD, with singlet states. -/
def stSPD : Fin 2 → Option (QN × QN) := ![some (singlet 0, singlet 0), some (singlet 1, singlet 2)]

theorem stSPD_good : GoodPairs stSPD := by
  intro i a ha
  have h0 := singlet_physical 0 le_rfl
  have h1 := singlet_physical 1 (by norm_num)
  have h2 := singlet_physical 2 (by norm_num)
  fin_cases i <;> simp [stSPD] at ha <;> subst ha
  all_goals
    refine ⟨by assumption, by assumption, ?_⟩
    intro j b hb
    fin_cases j <;> simp [stSPD] at hb <;> subst hb <;> refine ⟨rfl, rfl, rfl, rfl⟩

/-- **C71 fails** for atoms along −z: `setDistanceVector({0, 0, −5})` with order 4 adds the interaction of the order 4 with the wrong sign.  Between the singlet pair states SS and PD the
dipole-quadrupole energy is not zero, and the multipole operators give its negative. -/
theorem C71_negative_z_fails (C : FieldConsts) (radial : RadKey → ℝ) (me : Method) (hC : C.elem.e ≠ 0 ∧ C.ke ≠ 0) (hr : ∀ k, radial k ≠ 0) :
    let p := (PairParams.fresh.setOrder 4).setVector ![0, 0, -5]
    let E := dipoleQuadrupole C.ke p.x p.y p.z (cartDip C radial me (singlet 0) (singlet 1)) (cartDip C radial me (singlet 0) (singlet 2))
      (cartQuad C radial me (singlet 0) (singlet 1)) (cartQuad C radial me (singlet 0) (singlet 2))
    let D := dipoleDipole C.ke p.x p.y p.z (cartDip C radial me (singlet 0) (singlet 1)) (cartDip C radial me (singlet 0) (singlet 2))
    (initPair p ⟨[], [], [], [], fun _ => false⟩).1 = .ok () ∧ pairH C radial me stSPD p 0 1 = D - E ∧ E ≠ 0 := by
  have hp : (PairParams.fresh.setOrder 4).setVector ![0, 0, -5] = ⟨0, 0, -5, 5, false, dblMax, 4⟩ := by
    unfold PairParams.setVector PairParams.setOrder PairParams.fresh
    simp
  rw [hp]
  dsimp only
  have hd : (5 : ℝ) ≠ dblMax := by have := dblMax_big; intro h; linarith
  have ax : OnAxis ⟨0, 0, -5, 5, false, dblMax, 4⟩ := ⟨hd, rfl, rfl, rfl, rfl⟩
  have ax3 : OnAxis ⟨0, 0, -5, 5, false, dblMax, 3⟩ := ⟨hd, rfl, rfl, rfl, rfl⟩
  have ok : PairOK (singlet 0, singlet 0) (singlet 1, singlet 2) := stSPD_good.ok (r := 0) (c := 1) rfl rfl
  have hq := dipoleQuadrupole_axis C radial me (-5) (by norm_num) _ _ ok
  refine ⟨?_, ?_, ?_⟩
  · unfold initPair
    rw [if_neg hd, if_neg, if_neg (by simp)]
    rintro (h | h | h | h) <;> simp at h
  · have r2 := C44_multipole_operator C radial me stSPD stSPD_good _ ax 0 1
    have r3 := C44_multipole_operator C radial me stSPD stSPD_good _ ax3 0 1
    have r4 := C43_axis C radial me stSPD stSPD_good _ ax3 rfl (by norm_num) (by norm_num; rw [sqrt25]) 0 1
    rw [r3] at r4
    have e0 : stSPD 0 = some (singlet 0, singlet 0) := rfl
    have e1 : stSPD 1 = some (singlet 1, singlet 2) := rfl
    rw [e0, e1] at r2 r4
    dsimp only at r2 r4 hq
    rw [r2, ← r4, hq, ← Complex.ofReal_sub]
    congr 1
    rw [show Finset.Icc 3 4 = {3, 4} by decide, show Finset.Icc 3 3 = {3} by decide, Finset.sum_singleton, Finset.sum_pair (by norm_num)]
    norm_num
  · dsimp only at hq
    rw [hq]
    unfold multipoleSpecPair
    rw [if_pos (by rfl)]
    simp only [show 4 - 2 = 2 from rfl, Finset.sum_range_succ, Finset.sum_range_zero, zero_add, Nat.reduceAdd, Nat.reduceSub, multipoleTerm]
    have z : elem C radial me (2 : ℕ) (singlet 0) (singlet 1) = 0 := by
      refine elem_zero C radial me _ _ ok.a1 ok.b1 rfl rfl 2 (by norm_num) ?_
      decide
    rw [z]
    have n1 := elem_singlet_ne C radial me hC.1 hr 1 (by norm_num)
    have n2 := elem_singlet_ne C radial me hC.1 hr 2 (by norm_num)
    simp only [mul_zero, zero_mul, add_zero]
    have c1 := choose3 0 (by norm_num)
    rw [show ((singlet 0).m - (singlet 1).m) / 2 = 0 from rfl]
    have hne : Real.sqrt (((1 + 2 : ℕ).choose (1 + (0 : ℤ)).toNat : ℝ) * ((1 + 2 : ℕ).choose (2 + (0 : ℤ)).toNat : ℝ)) ≠ 0 := by
      rw [c1]; norm_num
    intro h
    rw [Complex.ofReal_eq_zero] at h
    have a1 : (-5 / |(-5 : ℝ)| ^ 5) ≠ 0 := by norm_num
    have a2 : C.ke * (-1) ^ 2 ≠ 0 := mul_ne_zero hC.2 (by norm_num)
    exact mul_ne_zero a1 (mul_ne_zero (mul_ne_zero (mul_ne_zero a2 hne) n1) n2) h


/-! Non-vacuity: constants and radial elements for which the elements between SS and PD are 1. -/

/-- Constants with unit charge and unit Coulomb constant. -/
noncomputable def unitConsts (F : FieldConsts) : FieldConsts := { F with elem := { F.elem with e := 1 }, ke := 1 }

theorem elem_radial (C : FieldConsts) (f : ℤ → ℝ) (me : Method) (k : ℤ) (a b : QN) :
    elem C (fun key => f key.kappa) me k a b = f k * elem C (fun _ => 1) me k a b := by
  unfold elem electricMultipole
  split_ifs with h
  · simp [outVal]
  · unfold outVal RadKey.make
    dsimp only
    split_ifs <;> ring

/-- Radial elements that make the dipole element S-P and the quadrupole element S-D equal to 1. -/
noncomputable def unitRadial (C : FieldConsts) (me : Method) (key : RadKey) : ℝ :=
  if key.kappa = 1 then 1 / elem C (fun _ => 1) me 1 (singlet 0) (singlet 1)
  else if key.kappa = 2 then 1 / elem C (fun _ => 1) me 2 (singlet 0) (singlet 2) else 1

theorem unit_elems (F : FieldConsts) (me : Method) :
    elem (unitConsts F) (unitRadial (unitConsts F) me) me 1 (singlet 0) (singlet 1) = 1 ∧
    elem (unitConsts F) (unitRadial (unitConsts F) me) me 2 (singlet 0) (singlet 2) = 1 := by
  have n1 := elem_singlet_ne (unitConsts F) (fun _ => 1) me (by simp [unitConsts]) (by simp) 1 (by norm_num)
  have n2 := elem_singlet_ne (unitConsts F) (fun _ => 1) me (by simp [unitConsts]) (by simp) 2 (by norm_num)
  have e := elem_radial (unitConsts F) (fun k => if k = 1 then 1 / elem (unitConsts F) (fun _ => 1) me 1 (singlet 0) (singlet 1)
    else if k = 2 then 1 / elem (unitConsts F) (fun _ => 1) me 2 (singlet 0) (singlet 2) else 1) me
  have e1 := e 1 (singlet 0) (singlet 1)
  have e2 := e 2 (singlet 0) (singlet 2)
  unfold unitRadial
  rw [e1, e2]
  constructor
  · rw [if_pos rfl, one_div, inv_mul_cancel₀ n1]
  · rw [if_neg (by norm_num), if_pos rfl, one_div, inv_mul_cancel₀ n2]

theorem vecEntry_zero (i : Fin 3) (v : ℝ) (hv : vecEntry i 0 0 = some v) : v = 0 := by
  fin_cases i <;> simp [vecEntry] at hv
  exact hv.symm

theorem vec_quad_big (i j k : Fin 3) (v : ℝ) (hv : vecEntry i 0 1 = some v) : NoTinyTerm (v * quadEntry j k 0 1 0) := by
  have hv1 : v = 1 := by
    fin_cases i <;> simp [vecEntry] at hv
    exact hv.symm
  subst hv1
  have b1 : (1 / 2 : ℝ) ≤ Real.sqrt (2 / 3) := by rw [Real.le_sqrt (by norm_num) (by norm_num)]; norm_num
  have b2 : (1 / 2 : ℝ) ≤ Real.sqrt (5 / 4) := by rw [Real.le_sqrt (by norm_num) (by norm_num)]; norm_num
  have b3 : (1 / 2 : ℝ) ≤ Real.sqrt (8 / 3) := by rw [Real.le_sqrt (by norm_num) (by norm_num)]; norm_num
  have p1 : (1 / 4 : ℝ) ≤ Real.sqrt (2 / 3) * Real.sqrt (5 / 4) := by nlinarith
  have p2 : (1 / 4 : ℝ) ≤ Real.sqrt (8 / 3) * Real.sqrt (5 / 4) := by nlinarith
  unfold NoTinyTerm overTol
  rw [decide_eq_true_eq, gt_iff_lt, lt_abs, one_mul]
  have t : (1e-16 : ℝ) < 1 / 4 := by norm_num
  have c1 : (1e-16 : ℝ) < -(-Real.sqrt (2 / 3) * 1 * Real.sqrt (5 / 4) + Real.sqrt (10 / 3) * 0 * Real.sqrt (1 / 4)) := by
    have : -(-Real.sqrt (2 / 3) * 1 * Real.sqrt (5 / 4) + Real.sqrt (10 / 3) * 0 * Real.sqrt (1 / 4)) = Real.sqrt (2 / 3) * Real.sqrt (5 / 4) := by ring
    rw [this]; linarith
  have c2 : (1e-16 : ℝ) < Real.sqrt (8 / 3) * 1 * Real.sqrt (5 / 4) + Real.sqrt (10 / 3) * 0 * Real.sqrt (1 / 4) := by
    have : Real.sqrt (8 / 3) * 1 * Real.sqrt (5 / 4) + Real.sqrt (10 / 3) * 0 * Real.sqrt (1 / 4) = Real.sqrt (8 / 3) * Real.sqrt (5 / 4) := by ring
    rw [this]; linarith
  fin_cases j <;> fin_cases k <;> simp only [quadEntry, Fin.zero_eta, Fin.mk_one, Fin.reduceFinMk, Fin.reduceEq, and_true, and_false, and_self, if_true, if_false,
    abs_zero, OfNat.zero_ne_ofNat, zero_ne_one] <;> first
    | exact Or.inl trivial | exact Or.inl rfl
    | exact Or.inr (Or.inr c1)
    | exact Or.inr (Or.inl c2)

theorem unit_noTiny (F : FieldConsts) (me : Method) (a b : QN × QN) (ha : InSt stSPD a) (hb : InSt stSPD b) :
    NoTinyDQ (unitConsts F) (unitRadial (unitConsts F) me) me a b := by
  obtain ⟨u1, u2⟩ := unit_elems F me
  set C := unitConsts F
  set ra := unitRadial C me
  have ph0 := singlet_physical 0 le_rfl
  have ph1 := singlet_physical 1 (by norm_num)
  have ph2 := singlet_physical 2 (by norm_num)
  have v1 : elem C ra me 1 (singlet 1) (singlet 0) = 1 := by rw [elem_swap C ra me _ _ ph0 ph1 rfl rfl 1 (by norm_num), u1]; simp [sgn, mDiff, singlet]
  have v2 : elem C ra me 2 (singlet 2) (singlet 0) = 1 := by rw [elem_swap C ra me _ _ ph0 ph2 rfl rfl 2 (by norm_num), u2]; simp [sgn, mDiff, singlet]
  have z : ∀ (k l m : ℤ), 0 ≤ k → 0 ≤ l → 0 ≤ m → selMultipole (singlet l) (singlet m) k = false → elem C ra me k (singlet l) (singlet m) = 0 :=
    fun k l m hk hl hm h => elem_zero C ra me _ _ (singlet_physical l hl) (singlet_physical m hm) rfl rfl k hk h
  have q0 : ∀ l m : ℤ, mDiff (singlet l) (singlet m) = 0 := fun l m => rfl
  obtain ⟨i, hi⟩ := ha
  obtain ⟨k, hk⟩ := hb
  unfold NoTinyDQ
  fin_cases i <;> fin_cases k <;> simp [stSPD] at hi hk <;> subst hi <;> subst hk <;> dsimp only <;> simp only [q0]
  · rw [z 1 0 0 (by norm_num) (by norm_num) (by norm_num) (by decide)]
    exact ⟨fun i j k v hv => by left; rw [vecEntry_zero i v hv]; simp, fun i j k v hv => by left; rw [vecEntry_zero k v hv]; simp⟩
  · rw [u1, u2, z 1 0 2 (by norm_num) (by norm_num) (by norm_num) (by decide), z 0 0 2 (by norm_num) (by norm_num) (by norm_num) (by decide)]
    exact ⟨fun i j k v hv => vec_quad_big i j k v hv, fun i j k v hv => by left; rw [vecEntry_zero k v hv]; simp⟩
  · rw [v1, v2, z 1 2 0 (by norm_num) (by norm_num) (by norm_num) (by decide), z 0 2 0 (by norm_num) (by norm_num) (by norm_num) (by decide)]
    exact ⟨fun i j k v hv => vec_quad_big i j k v hv, fun i j k v hv => by left; rw [vecEntry_zero k v hv]; simp⟩
  · rw [z 1 1 1 (by norm_num) (by norm_num) (by norm_num) (by decide), z 1 2 2 (by norm_num) (by norm_num) (by norm_num) (by decide)]
    exact ⟨fun i j k v hv => by left; rw [vecEntry_zero i v hv]; simp, fun i j k v hv => by left; rw [vecEntry_zero k v hv]; simp⟩

theorem noTiny_005 (i j : Fin 3) : NoTinyTerm (ddVacuum 0 0 5 i j) := by
  have e : norm3 ![0, 0, 5] = 5 := by rw [norm3_eq, show (0 ^ 2 + 0 ^ 2 + 5 ^ 2 : ℝ) = 25 by norm_num, sqrt25]
  unfold NoTinyTerm overTol
  rw [decide_eq_true_eq, gt_iff_lt, lt_abs]
  unfold ddVacuum
  dsimp only
  rw [e]
  fin_cases i <;> fin_cases j <;> norm_num [eye]

theorem noTiny3_005 (i j k : Fin 3) : NoTinyTerm (thirdDeriv 0 0 5 i j k) := by
  rw [third_axis 5 (by norm_num), abs_of_pos (by norm_num)]
  unfold NoTinyTerm overTol
  rw [decide_eq_true_eq, gt_iff_lt, lt_abs]
  fin_cases i <;> fin_cases j <;> fin_cases k <;> simp only [eye, Fin.zero_eta, Fin.mk_one, Fin.reduceFinMk, Fin.reduceEq, if_true, if_false] <;> norm_num

example (F : FieldConsts) (me : Method) :=
  C71_agree_partial (unitConsts F) (unitRadial (unitConsts F) me) me stSPD stSPD_good 5 dblMax rfl (by norm_num)
    (by have := dblMax_big; intro h; linarith) noTiny_005 noTiny3_005 (unit_noTiny F me)

example (F : FieldConsts) (me : Method) (r c : Fin 2) :=
  C71_green_order4 (unitConsts F) (unitRadial (unitConsts F) me) me stSPD stSPD_good ⟨0, 0, 5, 5, true, dblMax, 4⟩
    ⟨by have := dblMax_big; intro h; dsimp only at h; linarith, rfl, rfl, by norm_num⟩ rfl (by norm_num) noTiny_005 noTiny3_005 (unit_noTiny F me) r c

end PI
