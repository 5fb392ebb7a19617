import Verif.Pert.Props

/-!
# C49, C50: the matrices of PerturbativeInteraction
-/

namespace PI

/-! ## Specification -/

/-- The selection rules and the symmetry of dipole matrix elements: d(x, y) = (-1)^(m_x - m_y) d(y, x), as for
the Wigner-Eckart theorem with real reduced matrix elements. -/
def DipoleHermitian (d : QA → QA → ℝ) : Prop := ∀ x y : QA, (x.m - y.m) % 2 = 0 → d x y = (-1) ^ ((x.m - y.m) / 2).natAbs * d y x

/-! ## Symmetric matrices -/

theorem upperView_symm (n : ℕ) (first : ℕ → ℕ) (val : ℕ → ℕ → ℝ) (i j : ℕ) : upperView n first val i j = upperView n first val j i := by
  unfold upperView
  dsimp only
  by_cases h1 : i ≤ j <;> by_cases h2 : j ≤ i
  · have : i = j := by omega
    subst this; rfl
  · rw [if_pos h1, if_neg h2]
  · rw [if_neg h1, if_pos h2]
  · omega

/-- **C50**: for every list of states the C3, C6 and energy matrices are symmetric, C3 has a vanishing diagonal, the energy
matrix is diagonal with the pair energies on its diagonal. -/
theorem C50_symmetric (V : PertEnv) (θ : ℝ) (δ : ℚ) (states : List (QA × QA)) (x0 : QA × QA) :
    (∀ i j, getC3M V θ states x0 i j = getC3M V θ states x0 j i) ∧
    (∀ i j, getC6M V θ δ states x0 i j = getC6M V θ δ states x0 j i) ∧
    (∀ i, getC3M V θ states x0 i i = 0) ∧
    (∀ i j, i ≠ j → getEnergyM V states x0 i j = 0) ∧
    (∀ (i : ℕ) (h : i < states.length), getEnergyM V states x0 i i = V.E states[i].1 + V.E states[i].2) := by
  refine ⟨upperView_symm _ _ _, upperView_symm _ _ _, ?_, ?_, ?_⟩
  · intro i
    unfold getC3M upperView
    dsimp only
    rw [if_pos (le_refl i), if_neg (by omega)]
  · intro i j h
    unfold getEnergyM
    rw [if_neg (fun h' => h h'.1)]
  · intro i h
    unfold getEnergyM
    rw [if_pos ⟨rfl, h⟩]
    simp [List.getD_eq_getElem?_getD, List.getElem?_eq_getElem h]

theorem tdiv_two_even {a : ℤ} (h : a % 2 = 0) : a.tdiv 2 = a / 2 := Int.tdiv_eq_ediv_of_dvd (Int.dvd_of_emod_eq_zero h)

/-- The element of C3 does not depend on which of the two states is called row. -/
theorem c3Elem_swap (V : PertEnv) (θ : ℝ) (r c : QA × QA) (hd : DipoleHermitian V.d) (h1 : (r.1.m - c.1.m) % 2 = 0)
    (h2 : (r.2.m - c.2.m) % 2 = 0) : c3Elem V θ r c = c3Elem V θ c r := by
  have h1' : (c.1.m - r.1.m) % 2 = 0 := by omega
  have h2' : (c.2.m - r.2.m) % 2 = 0 := by omega
  unfold c3Elem
  dsimp only
  rw [tdiv_two_even h1, tdiv_two_even h2, tdiv_two_even h1', tdiv_two_even h2']
  have e1 : (c.1.m - r.1.m) / 2 = -((r.1.m - c.1.m) / 2) := by omega
  have e2 : (c.2.m - r.2.m) / 2 = -((r.2.m - c.2.m) / 2) := by omega
  rw [e1, e2, abs_neg, abs_neg]
  have d1 := hd r.1 c.1 h1
  have d2 := hd r.2 c.2 h2
  generalize (r.1.m - c.1.m) / 2 = q0 at *
  generalize (r.2.m - c.2.m) / 2 = q1 at *
  have e3 : -q0 + -q1 ≠ 0 ↔ q0 + q1 ≠ 0 := by omega
  by_cases a1 : (qLoop (decide (θ ≠ 0))).length = 3 ∧ q0 + q1 ≠ 0
  · rw [if_pos a1, if_pos (show _ ∧ _ from ⟨a1.1, e3.2 a1.2⟩)]
  have a1' : ¬ ((qLoop (decide (θ ≠ 0))).length = 3 ∧ -q0 + -q1 ≠ 0) := fun h => a1 ⟨h.1, e3.1 h.2⟩
  rw [if_neg a1, if_neg a1']
  by_cases a2 : 1 < |q0| ∨ 1 < |q1|
  · rw [if_pos a2, if_pos a2]
  rw [if_neg a2, if_neg a2]
  have b1 : |q0| ≤ 1 := not_lt.1 fun h => a2 (Or.inl h)
  have b2 : |q1| ≤ 1 := not_lt.1 fun h => a2 (Or.inr h)
  have := angleVal_neg θ (q0, q1) b1 b2
  dsimp only at this
  rw [this, d1, d2]
  have hs : ((-1 : ℝ)) ^ q0.natAbs * (-1) ^ q1.natAbs = (-1) ^ (q0 + q1).natAbs := by
    have k1 : q0 = -1 ∨ q0 = 0 ∨ q0 = 1 := by rw [abs_le] at b1; omega
    have k2 : q1 = -1 ∨ q1 = 0 ∨ q1 = 1 := by rw [abs_le] at b2; omega
    rcases k1 with rfl | rfl | rfl <;> rcases k2 with rfl | rfl | rfl <;> norm_num
  linear_combination V.k * angleVal θ (q0, q1) * V.d c.1 r.1 * V.d c.2 r.2 * hs

/-- **C50** (C3): with dipole matrix elements of a Hermitian operator the off-diagonal element (i, j), in both triangles, is the
interaction element between state i and state j, although only the upper triangle is computed. -/
theorem C50_c3_both_triangles (V : PertEnv) (θ : ℝ) (states : List (QA × QA)) (x0 : QA × QA) (hd : DipoleHermitian V.d)
    (hm : ∀ r ∈ states, ∀ c ∈ states, (r.1.m - c.1.m) % 2 = 0 ∧ (r.2.m - c.2.m) % 2 = 0)
    (i j : ℕ) (hi : i < states.length) (hj : j < states.length) (hij : i ≠ j) :
    getC3M V θ states x0 i j = c3Elem V θ states[i] states[j] := by
  have gi : states.getD i x0 = states[i] := by simp [List.getD_eq_getElem?_getD, List.getElem?_eq_getElem hi]
  have gj : states.getD j x0 = states[j] := by simp [List.getD_eq_getElem?_getD, List.getElem?_eq_getElem hj]
  unfold getC3M upperView
  dsimp only
  by_cases h : i ≤ j
  · rw [if_pos h, if_pos ⟨hi, by omega, hj⟩, gi, gj]
  · rw [if_neg h, if_pos ⟨hj, by omega, hi⟩, gi, gj]
    obtain ⟨a, b⟩ := hm states[j] (List.getElem_mem hj) states[i] (List.getElem_mem hi)
    exact c3Elem_swap V θ _ _ hd a b

/-- **C50** (C6): the element (i, j) of the matrix, in both triangles, is the sum for the state with the smaller and the state with the larger
index, computed with the whole list as model space. -/
theorem C50_c6_elements (V : PertEnv) (θ : ℝ) (δ : ℚ) (states : List (QA × QA)) (x0 : QA × QA) (i j : ℕ) (hij : i ≤ j)
    (hj : j < states.length) :
    getC6M V θ δ states x0 i j = c6Elem V θ δ states (states[i]'(by omega)) states[j] ∧
    getC6M V θ δ states x0 j i = c6Elem V θ δ states (states[i]'(by omega)) states[j] := by
  have hi : i < states.length := by omega
  have gi : states.getD i x0 = states[i] := by simp [List.getD_eq_getElem?_getD, List.getElem?_eq_getElem hi]
  have gj : states.getD j x0 = states[j] := by simp [List.getD_eq_getElem?_getD, List.getElem?_eq_getElem hj]
  have h1 : getC6M V θ δ states x0 i j = c6Elem V θ δ states states[i] states[j] := by
    unfold getC6M upperView
    dsimp only
    rw [if_pos hij, if_pos ⟨hi, hij, hj⟩, gi, gj]
  exact ⟨h1, by rw [← h1]; exact upperView_symm _ _ _ _ _⟩

/-- **C75**: getC3 and the matrix getC6 only read initialised angular factors. -/
theorem C75_c3_initialised (θ : ℝ) (q : ℤ × ℤ) (h1 : ¬ ((qLoop (decide (θ ≠ 0))).length = 3 ∧ q.1 + q.2 ≠ 0))
    (h2 : ¬ (1 < |q.1| ∨ 1 < |q.2|)) : ∃ x, angleTerm θ q = some x := by
  apply C75_initialised
  rw [mem_qLoop]
  push Not at h2
  refine ⟨h2.1, h2.2, ?_⟩
  by_cases h : θ = 0
  · right
    subst h
    by_contra h3
    exact h1 ⟨by simp [qLoop], h3⟩
  · left; simp [h]

/-- A dipole operator with one nonzero transition. -/
noncomputable def exDip : QA → QA → ℝ := fun x y =>
  if (x = qS ∧ y = ⟨"Rb", 60, 1, 1, 1, 1⟩) ∨ (y = qS ∧ x = ⟨"Rb", 60, 1, 1, 1, 1⟩) then 1 else 0

theorem exDip_hermitian : DipoleHermitian exDip := by
  intro x y _
  unfold exDip
  by_cases h : (x = qS ∧ y = ⟨"Rb", 60, 1, 1, 1, 1⟩) ∨ (y = qS ∧ x = ⟨"Rb", 60, 1, 1, 1, 1⟩)
  · rw [if_pos h, if_pos h.symm]
    rcases h with ⟨rfl, rfl⟩ | ⟨rfl, rfl⟩ <;> simp [qS]
  · rw [if_neg h, if_neg (fun h' => h h'.symm), mul_zero]

example (E : QA → ℝ) (x0 : QA × QA) :
    getC3M ⟨E, exDip, 1⟩ 0 [(qS, (⟨"Rb", 60, 1, 1, 1, 1⟩ : QA)), ((⟨"Rb", 60, 1, 1, 1, 1⟩ : QA), qS)] x0 1 0 = -2 := by
  rw [C50_c3_both_triangles _ _ _ _ exDip_hermitian (by decide) 1 0 (by decide) (by decide) (by decide)]
  simp [c3Elem, qS, qLoop, angleVal, angleTerm, exDip]

/-! ## The C6 matrix -/

/-- The diagonal of the matrix version visits the same states as the scalar version. -/
theorem lLoopM_self (l n : ℤ) : (lLoopM l l n).Perm (lLoop l n) := by
  unfold lLoopM lLoop
  rw [if_pos rfl]
  exact List.perm_append_comm

theorem jLoopM_self {l s j : ℤ} (hs : s = 0 ∨ s = 1) (hl : 0 ≤ l) : (jLoopM l s j j).Perm (jLoop l s j) := by
  have e : jLoopM l s j j = jEnds l s j := by
    unfold jLoopM jEnds
    simp only [and_self]
  rw [e, List.perm_ext_iff_of_nodup (nodup_jEnds l s j) (nodup_jLoop l s j)]
  intro x
  rw [mem_jLoop_small hs hl]

theorem virtQM_self (t : Bool) (a b : QA) (n0 n1 l0 l1 j0 j1 : ℤ) (q : ℤ × ℤ) (hq : q ∈ qLoop t) (hl : l0 ≠ a.l) :
    virtQM t [(a, b)] (a, b) (a, b) n0 n1 l0 l1 j0 j1 q = (virtQ a b n0 n1 l0 l1 j0 j1 q).map fun v => (v.1, (-v.2.1, -v.2.2), v.2) := by
  rw [mem_qLoop] at hq
  unfold virtQM virtQ
  dsimp only
  by_cases h1 : j0 < |a.m + 2 * q.1|
  · rw [if_pos h1, if_pos h1]; rfl
  by_cases h2 : j1 < |b.m + 2 * q.2|
  · rw [if_neg h1, if_neg h1, if_pos h2, if_pos h2]; rfl
  rw [if_neg h1, if_neg h1, if_neg h2, if_neg h2]
  have e1 : (a.m - (a.m + 2 * q.1)).tdiv 2 = -q.1 := by rw [tdiv_two_even (by omega)]; omega
  have e2 : (b.m - (b.m + 2 * q.2)).tdiv 2 = -q.2 := by rw [tdiv_two_even (by omega)]; omega
  rw [e1, e2, abs_neg, abs_neg, if_neg (by rintro (h | h); exacts [absurd hq.1 (not_le.2 h), absurd hq.2.1 (not_le.2 h)]), if_neg, if_neg]
  · rfl
  · rw [List.mem_singleton]
    intro h
    rw [Prod.mk.injEq] at h
    exact hl (by rw [← h.1])
  · rintro ⟨h3, h4⟩
    rcases hq.2.2 with h | h
    · rw [h] at h3; simp [qLoop] at h3
    · omega

theorem virtualsM_self (t : Bool) (δ : ℚ) (a b : QA) (ha : ValidQ a) (hb : ValidQ b) (sa : a.s = 0 ∨ a.s = 1) (sb : b.s = 0 ∨ b.s = 1) :
    (virtualsM t δ [(a, b)] (a, b) (a, b)).Perm ((virtuals t δ a b).map fun v => (v.1, (-v.2.1, -v.2.2), v.2)) := by
  unfold virtualsM virtuals
  rw [if_neg (by simp), if_neg (by simp)]
  simp only [List.map_flatMap, min_self, max_self]
  refine List.Perm.flatMap_left _ fun n0 _ => List.Perm.flatMap_left _ fun n1 _ => ?_
  refine List.Perm.flatMap (lLoopM_self _ _) fun l0 h0 => List.Perm.flatMap (lLoopM_self _ _) fun l1 h1 => ?_
  have h0' := (lLoopM_self _ _).mem_iff.1 h0
  have h1' := (lLoopM_self _ _).mem_iff.1 h1
  rw [mem_lLoop] at h0' h1'
  have := ha.l0
  have := hb.l0
  refine List.Perm.flatMap (jLoopM_self sa (by omega)) fun j0 _ => List.Perm.flatMap (jLoopM_self sb (by omega)) fun j1 _ => ?_
  rw [List.map_filterMap]
  refine List.Perm.of_eq (List.filterMap_congr fun q hq => ?_)
  exact virtQM_self t a b n0 n1 l0 l1 j0 j1 q hq (by omega)

/-- **C49** (diagonal, spins 0 and 1/2): for a single state the matrix version gives the number of the scalar version. -/
theorem C49_diagonal_partial (V : PertEnv) (θ : ℝ) (δ : ℚ) (a b : QA) (x0 : QA × QA) (ha : ValidQ a) (hb : ValidQ b)
    (sa : a.s = 0 ∨ a.s = 1) (sb : b.s = 0 ∨ b.s = 1) (hd : DipoleHermitian V.d) :
    getC6M V θ δ [(a, b)] x0 0 0 = getC6 V θ δ a b := by
  unfold getC6M upperView
  dsimp only
  rw [if_pos (le_refl 0), if_pos (by simp)]
  show c6Elem V θ δ [(a, b)] (a, b) (a, b) = getC6 V θ δ a b
  unfold c6Elem getC6
  rw [((virtualsM_self (decide (θ ≠ 0)) δ a b ha hb sa sb).map _).sum_eq, List.map_map]
  refine congrArg List.sum (List.map_congr_left fun v hv => ?_)
  rw [mem_virtuals] at hv
  obtain ⟨_, _, hq, m1, m2, _⟩ := hv
  rw [mem_qLoop] at hq
  simp only [Function.comp]
  have d1 := hd a v.1.1 (by omega)
  have d2 := hd b v.1.2 (by omega)
  have e1 : (a.m - v.1.1.m) / 2 = -v.2.1 := by omega
  have e2 : (b.m - v.1.2.m) / 2 = -v.2.2 := by omega
  rw [e1, Int.natAbs_neg] at d1
  rw [e2, Int.natAbs_neg] at d2
  rw [d1, d2, angleVal_neg θ v.2 hq.1 hq.2.1]
  have hs : ((-1 : ℝ)) ^ (v.2.1 + v.2.2).natAbs * ((-1) ^ v.2.1.natAbs * (-1) ^ v.2.2.natAbs) = 1 := by
    obtain ⟨b1, b2, _⟩ := hq
    generalize v.2.1 = q0 at *
    generalize v.2.2 = q1 at *
    have k1 : q0 = -1 ∨ q0 = 0 ∨ q0 = 1 := by rw [abs_le] at b1; omega
    have k2 : q1 = -1 ∨ q1 = 0 ∨ q1 = 1 := by rw [abs_le] at b2; omega
    rcases k1 with rfl | rfl | rfl <;> rcases k2 with rfl | rfl | rfl <;> norm_num
  generalize V.E a + V.E b - (V.E v.1.1 + V.E v.1.2) = e
  generalize angleVal θ v.2 = t at *
  generalize V.d v.1.1 a = x at *
  generalize V.d v.1.2 b = y at *
  have half : (0.5 : ℝ) * (1 / e + 1 / e) = 1 / e := by ring
  rw [mul_assoc _ (0.5 : ℝ), half]
  linear_combination (V.k ^ 2 * t ^ 2 * x ^ 2 * y ^ 2 * (1 / e)) * hs

example (E : QA → ℝ) (θ : ℝ) (x0 : QA × QA) : getC6M ⟨E, exDip, 1⟩ θ 3 [(qS, qS)] x0 0 0 = getC6 ⟨E, exDip, 1⟩ θ 3 qS qS :=
  C49_diagonal_partial _ θ 3 qS qS x0 qS_valid qS_valid (Or.inr rfl) (Or.inr rfl) exDip_hermitian

theorem mem_jLoopM {l s jr jc x : ℤ} : x ∈ jLoopM l s jr jc ↔ (x = |2 * l - s| ∨ x = 2 * l + s) ∧ |x - jc| < 4 ∧ |x - jr| < 4 := by
  unfold jLoopM
  dsimp only
  have hb : x ∈ (if |(|2 * l - s|) - jc| < 4 ∧ |(|2 * l - s|) - jr| < 4 then [|2 * l - s|] else []) ↔
      x = |2 * l - s| ∧ |x - jc| < 4 ∧ |x - jr| < 4 := by
    split
    · rename_i h; rw [List.mem_singleton]
      exact ⟨fun e => ⟨e, e ▸ h⟩, fun e => e.1⟩
    · rename_i h
      simp only [List.not_mem_nil, false_iff]
      rintro ⟨rfl, h2⟩; exact h h2
  split
  · rename_i h
    rw [mem_setIns, hb]
    constructor
    · rintro (rfl | h1)
      · exact ⟨Or.inr rfl, h⟩
      · exact ⟨Or.inl h1.1, h1.2⟩
    · rintro ⟨h1 | h1, h2⟩
      · exact Or.inr ⟨h1, h2⟩
      · exact Or.inl h1
  · rename_i h
    rw [hb]
    constructor
    · rintro h1; exact ⟨Or.inl h1.1, h1.2⟩
    · rintro ⟨h1 | h1, h2⟩
      · exact ⟨h1, h2⟩
      · rw [h1] at h2; exact absurd h2 h

/-- **C49** (equal orbital quantum numbers, spins 0 and 1/2): every possible pair state outside the model space that is
dipole-allowed from both states, for both atoms, with principal quantum numbers within `deltaN` of those of the two states (and
conserved total m without tilt), is visited by the sum of the matrix element. -/
theorem C49_complete_partial (tilted : Bool) (δ : ℚ) (states : List (QA × QA)) (r c v : QA × QA)
    (hr1 : ValidQ r.1) (hr2 : ValidQ r.2) (hc1 : ValidQ c.1) (hc2 : ValidQ c.2) (hv1 : ValidQ v.1) (hv2 : ValidQ v.2)
    (s1 : c.1.s = 0 ∨ c.1.s = 1) (s2 : c.2.s = 0 ∨ c.2.s = 1)
    (l1 : r.1.l = c.1.l) (l2 : r.2.l = c.2.l)
    (dr1 : DipoleStep r.1 v.1) (dr2 : DipoleStep r.2 v.2) (dc1 : DipoleStep c.1 v.1) (dc2 : DipoleStep c.2 v.2)
    (n1 : (min r.1.n c.1.n : ℚ) - δ ≤ v.1.n ∧ (v.1.n : ℚ) ≤ (max r.1.n c.1.n : ℚ) + δ)
    (n2 : (min r.2.n c.2.n : ℚ) - δ ≤ v.2.n ∧ (v.2.n : ℚ) ≤ (max r.2.n c.2.n : ℚ) + δ)
    (ht : tilted = true ∨ ((v.1.m - c.1.m) + (v.2.m - c.2.m) = 0 ∧ (v.1.m - r.1.m) + (v.2.m - r.2.m) = 0))
    (hout : v ∉ states) :
    v ∈ (virtualsM tilted δ states r c).map (·.1) := by
  have par : ∀ {a v : QA}, ValidQ a → ValidQ v → DipoleStep a v → (v.m - a.m) % 2 = 0 ∧ |(v.m - a.m) / 2| ≤ 1 := by
    intro a v ha hv hd
    have q1 := ha.jpar
    have q2 := hv.jpar
    have q3 := ha.mpar
    have q4 := hv.mpar
    have q5 := hd.s
    have q6 := hd.m
    rw [abs_le] at q6 ⊢
    omega
  have lmem : ∀ {r c v : QA}, ValidQ v → r.l = c.l → DipoleStep c v → v.l ∈ lLoopM r.l c.l v.n := by
    intro r c v hv hl hd
    unfold lLoopM
    rw [if_pos hl, List.mem_append]
    have := hv.l0
    have := hv.ln
    rcases hd.l with h | h
    · left; rw [if_pos (by omega)]; simp [h]
    · right; rw [if_pos (by omega)]; simp [h]
  have jmem : ∀ {r c v : QA}, ValidQ r → ValidQ v → ValidQ c → DipoleStep r v → DipoleStep c v → (c.s = 0 ∨ c.s = 1) → v.j ∈ jLoopM v.l c.s r.j c.j := by
    intro r c v hr hv hc dr dc hs
    rw [mem_jLoopM]
    have h1 := hv.jlo
    have h2 := hv.jhi
    have h3 := dr.j
    have h4 := dc.j
    have h5 := hv.jpar
    have := hv.l0
    rw [dc.s] at h1 h2 h5
    refine ⟨?_, ?_, ?_⟩
    · rcases hs with e | e
      · rw [e] at h1 h2 ⊢
        right; rcases abs_cases (2 * v.l - 0) with h4 | h4 <;> omega
      · rw [e] at h1 h2 h5 ⊢
        rcases abs_cases (2 * v.l - 1) with h4 | h4 <;> omega
    · rw [abs_le] at h4; rw [abs_lt]; omega
    · rw [abs_le] at h3; rw [abs_lt]; omega
  obtain ⟨pc1, qc1⟩ := par hc1 hv1 dc1
  obtain ⟨pc2, qc2⟩ := par hc2 hv2 dc2
  obtain ⟨pr1, qr1⟩ := par hr1 hv1 dr1
  obtain ⟨pr2, qr2⟩ := par hr2 hv2 dr2
  have es1 : r.1.s = c.1.s := by rw [← dr1.s, dc1.s]
  have es2 : r.2.s = c.2.s := by rw [← dr2.s, dc2.s]
  have ep1 : r.1.sp = c.1.sp := by rw [← dr1.sp, dc1.sp]
  have ep2 : r.2.sp = c.2.sp := by rw [← dr2.sp, dc2.sp]
  rw [List.mem_map]
  have vq : (v.1.m - c.1.m) / 2 * 2 = v.1.m - c.1.m ∧ (v.2.m - c.2.m) / 2 * 2 = v.2.m - c.2.m := by omega
  refine ⟨(v, ((r.1.m - v.1.m) / 2, (r.2.m - v.2.m) / 2), ((v.1.m - c.1.m) / 2, (v.2.m - c.2.m) / 2)), ?_, rfl⟩
  unfold virtualsM
  rw [if_neg (by simp [es1, es2]), if_neg (by simp [ep1, ep2])]
  simp only [List.mem_flatMap, List.mem_filterMap]
  refine ⟨v.1.n, mem_nLoop_of (by push_cast; exact n1.1) (by push_cast; exact n1.2), v.2.n, mem_nLoop_of (by push_cast; exact n2.1) (by push_cast; exact n2.2), v.1.l, lmem hv1 l1 dc1, v.2.l, lmem hv2 l2 dc2,
    v.1.j, jmem hr1 hv1 hc1 dr1 dc1 s1, v.2.j, jmem hr2 hv2 hc2 dr2 dc2 s2, ((v.1.m - c.1.m) / 2, (v.2.m - c.2.m) / 2), ?_, ?_⟩
  · rw [mem_qLoop]
    refine ⟨qc1, qc2, ht.imp_right fun h => ?_⟩
    dsimp only; omega
  · unfold virtQM
    dsimp only
    have m1 : c.1.m + 2 * ((v.1.m - c.1.m) / 2) = v.1.m := by omega
    have m2 : c.2.m + 2 * ((v.2.m - c.2.m) / 2) = v.2.m := by omega
    rw [m1, m2, if_neg (not_lt.2 hv1.mj), if_neg (not_lt.2 hv2.mj), tdiv_two_even (by omega), tdiv_two_even (by omega), if_neg, if_neg]
    · have ev : ((⟨c.1.sp, v.1.n, v.1.l, c.1.s, v.1.j, v.1.m⟩, ⟨c.2.sp, v.2.n, v.2.l, c.2.s, v.2.j, v.2.m⟩) : QA × QA) = v := by
        refine Prod.ext ?_ ?_
        · rw [← dc1.sp, ← dc1.s]
        · rw [← dc2.sp, ← dc2.s]
      rw [ev, if_neg hout]
    · rintro ⟨h3, h4⟩
      rcases ht with h | h
      · rw [h] at h3; simp [qLoop] at h3
      · omega
    · rw [abs_le] at qr1 qr2
      rintro (h | h)
      · exact absurd (show |(r.1.m - v.1.m) / 2| ≤ 1 by rw [abs_le]; omega) (not_le.2 h)
      · exact absurd (show |(r.2.m - v.2.m) / 2| ≤ 1 by rw [abs_le]; omega) (not_le.2 h)

example : ((⟨"Rb", 61, 1, 1, 1, 1⟩, ⟨"Rb", 59, 1, 1, 3, 1⟩) : QA × QA) ∈ (virtualsM true 2 [(qS, qS)] (qS, qS) (qS, ⟨"Rb", 60, 0, 1, 1, -1⟩)).map (·.1) :=
  C49_complete_partial true 2 _ _ _ _ qS_valid qS_valid qS_valid (by constructor <;> decide) (by constructor <;> decide)
    (by constructor <;> decide) (Or.inr rfl) (Or.inr rfl) rfl rfl (by constructor <;> decide) (by constructor <;> decide)
    (by constructor <;> decide) (by constructor <;> decide) (by norm_num [qS]) (by norm_num [qS]) (Or.inl rfl) (by decide)

/-- States whose orbital quantum numbers differ by two (S and D) are coupled through P states, but the code visits the states
with one more than the larger quantum number instead: every virtual state it visits has l = 3 and is not dipole-coupled to the S
state, and the P state is missed. -/
theorem C49_delta_l_two_fails :
    ∃ r c v : QA, ValidQ r ∧ ValidQ c ∧ ValidQ v ∧ DipoleStep r v ∧ DipoleStep c v ∧
      (v, v) ∉ (virtualsM true ((5 : ℕ) : ℚ) [(r, r), (c, c)] (r, r) (c, c)).map (·.1) ∧
      ∀ w ∈ (virtualsM true ((5 : ℕ) : ℚ) [(r, r), (c, c)] (r, r) (c, c)).map (·.1), ¬ DipoleStep r w.1 := by
  have key : ∀ w ∈ (virtualsM true ((5 : ℕ) : ℚ) [(qS, qS), (⟨"Rb", 60, 2, 1, 3, 1⟩, ⟨"Rb", 60, 2, 1, 3, 1⟩)] (qS, qS)
      (⟨"Rb", 60, 2, 1, 3, 1⟩, ⟨"Rb", 60, 2, 1, 3, 1⟩)).map (·.1), w.1.l = 3 := by
    intro w hw
    rw [List.mem_map] at hw
    obtain ⟨x, hx, rfl⟩ := hw
    unfold virtualsM at hx
    rw [if_neg (by decide), if_neg (by decide)] at hx
    simp only [List.mem_flatMap, List.mem_filterMap] at hx
    obtain ⟨n0, h0, n1, h1, l0, hl, _, _, _, _, _, _, q, _, h⟩ := hx
    have hl3 : l0 = 3 := by
      unfold lLoopM qS at hl
      simp only at hl
      rw [mem_nLoop_nat] at h0
      unfold qS at h0
      simp only at h0
      rw [if_neg (by decide), if_pos ⟨by decide, by omega⟩] at hl
      simpa using hl
    unfold virtQM at h
    simp only [hl3] at h
    split_ifs at h
    simp only [Option.some.injEq] at h
    rw [← h]
  refine ⟨qS, ⟨"Rb", 60, 2, 1, 3, 1⟩, ⟨"Rb", 60, 1, 1, 1, 1⟩, qS_valid, by constructor <;> decide, by constructor <;> decide,
    by constructor <;> decide, by constructor <;> decide, ?_, ?_⟩
  · intro h; exact absurd (key _ h) (by decide)
  · intro w hw hd
    have h1 := key w hw
    have h2 := hd.l
    unfold qS at h2
    simp only at h2
    omega

/-- Triplet states: the matrix version never visits the middle value of j; on the diagonal of 3P2 it misses 3D2, which the
scalar version visits. -/
theorem C49_triplet_fails :
    ∃ a v : QA, ValidQ a ∧ ValidQ v ∧ DipoleStep a v ∧
      (v, v) ∈ (virtuals true ((1 : ℕ) : ℚ) a a).map (·.1) ∧
      (v, v) ∉ (virtualsM true ((1 : ℕ) : ℚ) [(a, a)] (a, a) (a, a)).map (·.1) := by
  refine ⟨⟨"Sr3", 60, 1, 2, 4, 2⟩, ⟨"Sr3", 60, 2, 2, 4, 2⟩, by constructor <;> decide, by constructor <;> decide, by constructor <;> decide, ?_, ?_⟩
  · rw [List.mem_map]
    refine ⟨((⟨"Sr3", 60, 2, 2, 4, 2⟩, ⟨"Sr3", 60, 2, 2, 4, 2⟩), (0, 0)), ?_, rfl⟩
    rw [mem_virtuals]
    have hn : (60 : ℤ) ∈ nLoop 60 60 ((1 : ℕ) : ℚ) := by rw [mem_nLoop_nat]; decide
    exact ⟨⟨rfl, rfl, hn, by decide, by decide⟩, ⟨rfl, rfl, hn, by decide, by decide⟩, by decide, by decide, by decide, by decide, by decide⟩
  · intro h
    rw [List.mem_map] at h
    obtain ⟨x, hx, e⟩ := h
    unfold virtualsM at hx
    rw [if_neg (by decide), if_neg (by decide)] at hx
    simp only [List.mem_flatMap, List.mem_filterMap] at hx
    obtain ⟨n0, h0, n1, h1, l0, hl, l1, _, j0, hj, j1, _, q, _, hq⟩ := hx
    have : x.1.1.l = l0 ∧ x.1.1.j = j0 := by
      unfold virtQM at hq
      dsimp only at hq
      split_ifs at hq
      simp only [Option.some.injEq] at hq
      rw [← hq]; exact ⟨rfl, rfl⟩
    rw [e] at this
    obtain ⟨a1, a2⟩ := this
    dsimp only at a1 a2
    subst a1 a2
    exact absurd hj (by decide)

/-! ## Exchange of the atoms -/

theorem angleVal_swap (θ : ℝ) (q : ℤ × ℤ) (h1 : |q.1| ≤ 1) (h2 : |q.2| ≤ 1) : angleVal θ (q.2, q.1) = angleVal θ q := by
  obtain ⟨a, b⟩ := q
  dsimp only at h1 h2 ⊢
  have k1 : a = -1 ∨ a = 0 ∨ a = 1 := by rw [abs_le] at h1; omega
  have k2 : b = -1 ∨ b = 0 ∨ b = 1 := by rw [abs_le] at h2; omega
  by_cases h : θ = 0
  · subst h
    rcases k1 with rfl | rfl | rfl <;> rcases k2 with rfl | rfl | rfl <;> simp [angleVal, angleTerm]
  · rcases k1 with rfl | rfl | rfl <;> rcases k2 with rfl | rfl | rfl <;> simp [angleVal, angleTerm, h]

/-- The virtual states of the exchanged pair are the exchanged virtual states. -/
theorem virtuals_swap (t : Bool) (δ : ℚ) (a b : QA) :
    (virtuals t δ b a).Perm ((virtuals t δ a b).map fun v => ((v.1.2, v.1.1), (v.2.2, v.2.1))) := by
  have inj : Function.Injective fun v : Virt => (((v.1.2, v.1.1), (v.2.2, v.2.1)) : Virt) := by
    rintro ⟨⟨a, b⟩, c, d⟩ ⟨⟨a', b'⟩, c', d'⟩ h
    simp only [Prod.mk.injEq] at h
    obtain ⟨⟨rfl, rfl⟩, rfl, rfl⟩ := h
    rfl
  rw [List.perm_ext_iff_of_nodup (List.Nodup.of_map _ (nodup_virtuals t δ b a)) ((List.Nodup.of_map _ (nodup_virtuals t δ a b)).map inj)]
  intro v
  rw [List.mem_map]
  constructor
  · intro h
    refine ⟨((v.1.2, v.1.1), (v.2.2, v.2.1)), ?_, rfl⟩
    rw [mem_virtuals] at h ⊢
    rw [mem_qLoop] at h ⊢
    dsimp only
    obtain ⟨h1, h2, ⟨h3, h4, h5⟩, h6, h7, h8, h9⟩ := h
    exact ⟨h2, h1, ⟨h4, h3, h5.imp_right fun h => by omega⟩, h7, h6, h9, h8⟩
  · rintro ⟨x, hx, rfl⟩
    rw [mem_virtuals] at hx ⊢
    rw [mem_qLoop] at hx ⊢
    dsimp only
    obtain ⟨h1, h2, ⟨h3, h4, h5⟩, h6, h7, h8, h9⟩ := hx
    exact ⟨h2, h1, ⟨h4, h3, h5.imp_right fun h => by omega⟩, h7, h6, h9, h8⟩

/-- **C76**: C6 does not depend on the order of the atoms, for all states, angles and `deltaN`. -/
theorem C76_exchange (V : PertEnv) (θ : ℝ) (δ : ℚ) (a b : QA) : getC6 V θ δ b a = getC6 V θ δ a b := by
  unfold getC6
  rw [((virtuals_swap (decide (θ ≠ 0)) δ a b).map _).sum_eq, List.map_map]
  refine congrArg List.sum (List.map_congr_left fun v hv => ?_)
  rw [mem_virtuals, mem_qLoop] at hv
  simp only [Function.comp]
  rw [angleVal_swap θ v.2 hv.2.2.1.1 hv.2.2.1.2.1, add_comm (V.E b), add_comm (V.E v.1.2)]
  congr 1
  ring

/-- **C76**: C6 of the mirror state (all magnetic quantum numbers reversed) is the same, if the energies do not depend on m and
reversing all m changes dipole elements at most by a sign. -/
theorem C76_mirror (V : PertEnv) (θ : ℝ) (δ : ℚ) (a b : QA)
    (hE : ∀ x : QA, V.E { x with m := -x.m } = V.E x)
    (hd : ∀ x y : QA, V.d { x with m := -x.m } { y with m := -y.m } ^ 2 = V.d x y ^ 2) :
    getC6 V θ δ { a with m := -a.m } { b with m := -b.m } = getC6 V θ δ a b := by
  have inj : Function.Injective fun v : Virt => ((({ v.1.1 with m := -v.1.1.m }, { v.1.2 with m := -v.1.2.m }), (-v.2.1, -v.2.2)) : Virt) := by
    rintro ⟨⟨⟨_, _, _, _, _, _⟩, ⟨_, _, _, _, _, _⟩⟩, c, d⟩ ⟨⟨⟨_, _, _, _, _, _⟩, ⟨_, _, _, _, _, _⟩⟩, c', d'⟩ h
    simp only [Prod.mk.injEq, QA.mk.injEq, neg_inj] at h
    obtain ⟨⟨⟨rfl, rfl, rfl, rfl, rfl, rfl⟩, rfl, rfl, rfl, rfl, rfl, rfl⟩, rfl, rfl⟩ := h
    rfl
  have perm : ∀ t, (virtuals t δ { a with m := -a.m } { b with m := -b.m }).Perm
      ((virtuals t δ a b).map fun v => (({ v.1.1 with m := -v.1.1.m }, { v.1.2 with m := -v.1.2.m }), (-v.2.1, -v.2.2))) := by
    intro t
    rw [List.perm_ext_iff_of_nodup (List.Nodup.of_map _ (nodup_virtuals t δ _ _)) ((List.Nodup.of_map _ (nodup_virtuals t δ a b)).map inj)]
    intro v
    rw [List.mem_map]
    constructor
    · intro h
      refine ⟨(({ v.1.1 with m := -v.1.1.m }, { v.1.2 with m := -v.1.2.m }), (-v.2.1, -v.2.2)), ?_, by simp⟩
      rw [mem_virtuals, mem_qLoop] at h ⊢
      obtain ⟨h1, h2, ⟨h3, h4, h5⟩, h6, h7, h8, h9⟩ := h
      dsimp only at *
      refine ⟨h1, h2, ⟨by rw [abs_neg]; exact h3, by rw [abs_neg]; exact h4, h5.imp_right fun h => by omega⟩, by omega, by omega,
        by rw [abs_neg]; exact h8, by rw [abs_neg]; exact h9⟩
    · rintro ⟨x, hx, rfl⟩
      rw [mem_virtuals, mem_qLoop] at hx ⊢
      obtain ⟨h1, h2, ⟨h3, h4, h5⟩, h6, h7, h8, h9⟩ := hx
      dsimp only at *
      refine ⟨h1, h2, ⟨by rw [abs_neg]; exact h3, by rw [abs_neg]; exact h4, h5.imp_right fun h => by omega⟩, by omega, by omega,
        by rw [abs_neg]; exact h8, by rw [abs_neg]; exact h9⟩
  unfold getC6
  rw [((perm (decide (θ ≠ 0))).map _).sum_eq, List.map_map]
  refine congrArg List.sum (List.map_congr_left fun v hv => ?_)
  rw [mem_virtuals, mem_qLoop] at hv
  simp only [Function.comp]
  rw [hE, hE, hE, hE, angleVal_neg θ v.2 hv.2.2.1.1 hv.2.2.1.2.1]
  have h2 : (((-1 : ℝ)) ^ (v.2.1 + v.2.2).natAbs) ^ 2 = 1 := by rw [← pow_mul, mul_comm, pow_mul]; norm_num
  congr 1
  rw [mul_pow, mul_pow, mul_pow, mul_pow, hd, hd, h2]
  ring

example (V : PertEnv) : getC6 V 1 (5 / 2) qP qS = getC6 V 1 (5 / 2) qS qP := C76_exchange V 1 _ qS qP

example : ∃ V : PertEnv, V.d qS ⟨"Rb", 60, 1, 1, 1, 1⟩ ≠ 0 ∧ (∀ x : QA, V.E { x with m := -x.m } = V.E x) ∧
    (∀ x y : QA, V.d { x with m := -x.m } { y with m := -y.m } ^ 2 = V.d x y ^ 2) :=
  ⟨⟨fun x => x.n, fun x y => if |x.l - y.l| = 1 ∧ |x.m - y.m| ≤ 2 then 1 else 0, 1⟩, by norm_num [qS], fun _ => rfl, fun x y => by
    dsimp only
    rw [show -x.m - -y.m = -(x.m - y.m) by ring, abs_neg]⟩

end PI
