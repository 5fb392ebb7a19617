import Verif.Rot.Spread
import Verif.Pert.Matrix

/-!
# C122: the C6 coefficient is the van der Waals shift of the pair level

Second order: at large distance (weak field) every level follows the eigenvalues of the effective operator of second order, and for a pair state without degenerate partners the number that
`getC6` returns.
-/

namespace PI

open Matrix

section general
variable {k : Type} [Fintype k] [DecidableEq k]

/-! ## Specification -/

/-- The effective operator of second order of the level `E0`: the sum over the states of other energies of W|d⟩⟨d|W/(E0 - E_d). -/
noncomputable def secondOrder (en : k → ℝ) (E0 : ℝ) (W : Matrix k k ℂ) : Matrix k k ℂ :=
  fun a b => ∑ d, if en d = E0 then 0 else W a d * W d b / ((E0 - en d : ℝ) : ℂ)

/-- The second-order shift of a single state: the sum over the states d of other energies of |⟨d|W|i⟩|²/(E0 - E_d). -/
noncomputable def secondShift (en : k → ℝ) (E0 : ℝ) (W : Matrix k k ℂ) (i : k) : ℝ := ∑ d, if en d = E0 then 0 else ‖W d i‖ ^ 2 / (E0 - en d)

/-! ## Proof -/

omit [DecidableEq k] in
theorem secondOrder_diag (en : k → ℝ) (E0 : ℝ) (W : Matrix k k ℂ) (hW : W.IsHermitian) (i : k) : secondOrder en E0 W i i = (secondShift en E0 W i : ℝ) := by
  unfold secondOrder secondShift
  rw [Complex.ofReal_sum]
  refine Finset.sum_congr rfl fun d _ => ?_
  by_cases h : en d = E0
  · rw [if_pos h, if_pos h, Complex.ofReal_zero]
  · rw [if_neg h, if_neg h, ← hW.apply i d, Complex.star_def, Complex.conj_mul']
    push_cast
    rfl

/-- A state that nearly solves the eigenvalue equation: an eigenvalue is as near as the residual is small. -/
theorem residual_level {A Y : Matrix k k ℂ} {e : k → ℝ} (h : Diagonalizes A Y e) (v : k → ℂ) (lam ρ : ℝ) (hρ : 0 ≤ ρ) (hv : 0 < sqNorm v)
    (hr : sqNorm (A *ᵥ v - (lam : ℂ) • v) ≤ ρ ^ 2 * sqNorm v) : ∃ i, |e i - lam| ≤ ρ := by
  by_contra hc
  push Not at hc
  have h1 : Y * Yᴴ = 1 := mul_eq_one_comm.1 h.1
  have hYY : (Yᴴ)ᴴ * Yᴴ = 1 := by rw [Matrix.conjTranspose_conjTranspose, h1]
  set y := Yᴴ *ᵥ v with hy
  have ey : sqNorm y = sqNorm v := sqNorm_isometry Yᴴ hYY v
  have er : A *ᵥ v - (lam : ℂ) • v = Y *ᵥ fun i => ((e i - lam : ℝ) : ℂ) * y i := by
    have v1 : v = Y *ᵥ y := by rw [hy, mulVec_mulVec, h1, one_mulVec]
    rw [v1, mulVec_mulVec, h.2, ← mulVec_mulVec, ← mulVec_smul, ← mulVec_sub]
    congr 1
    funext i
    rw [Pi.sub_apply, mulVec_diagonal, Pi.smul_apply, smul_eq_mul]
    push_cast
    ring
  rw [er, sqNorm_isometry Y h.1, ← ey, sqNorm_eq, sqNorm_eq, Finset.mul_sum] at hr
  rw [← ey, sqNorm_eq] at hv
  have : ∑ i, ρ ^ 2 * ‖y i‖ ^ 2 < ∑ i, ‖((e i - lam : ℝ) : ℂ) * y i‖ ^ 2 := by
    have sq : ∀ i, ρ ^ 2 < (e i - lam) ^ 2 := fun i => by
      rw [← sq_abs (e i - lam)]
      exact pow_lt_pow_left₀ (hc i) hρ (by norm_num)
    have ex : ∀ i, ‖((e i - lam : ℝ) : ℂ) * y i‖ ^ 2 = (e i - lam) ^ 2 * ‖y i‖ ^ 2 := fun i => by
      rw [norm_mul, mul_pow, Complex.norm_real, Real.norm_eq_abs, sq_abs]
    refine Finset.sum_lt_sum (fun i _ => ?_) ?_
    · rw [ex]
      exact mul_le_mul_of_nonneg_right (sq i).le (by positivity)
    · by_contra hz
      push Not at hz
      have : ∀ i, ‖y i‖ ^ 2 = 0 := by
        intro i
        have := hz i (Finset.mem_univ i)
        rw [ex] at this
        have p := sq i
        have q : 0 ≤ ‖y i‖ ^ 2 := by positivity
        nlinarith
      rw [Finset.sum_congr rfl fun i _ => this i, Finset.sum_const_zero] at hv
      exact lt_irrefl _ hv
  linarith

/-- Second-order perturbation theory with a bound of the rest: for an eigenvector w of the effective operator within the level E0 that W does not shift in first order. -/
theorem second_order (en : k → ℝ) (W : Matrix k k ℂ) (E0 μ : ℝ) (w : k → ℂ) (hw0 : sqNorm w = 1) (hw : ∀ c, en c ≠ E0 → w c = 0)
    (h1 : ∀ c, en c = E0 → (W *ᵥ w) c = 0) (h2 : ∀ c, en c = E0 → (secondOrder en E0 W *ᵥ w) c = μ * w c) :
    ∃ K : ℝ, 0 ≤ K ∧ ∀ x : ℝ, |x| ≤ 1 → ∀ (Y : Matrix k k ℂ) (e : k → ℝ), Diagonalizes ((Matrix.diagonal fun c => (en c : ℂ)) + (x : ℂ) • W) Y e →
      ∃ i, |e i - (E0 + x ^ 2 * μ)| ≤ K * |x| ^ 3 := by
  set v1 : k → ℂ := fun c => if en c = E0 then 0 else (W *ᵥ w) c / ((E0 - en c : ℝ) : ℂ) with hv1
  set v2 : k → ℂ := fun c => if en c = E0 then 0 else (W *ᵥ v1) c / ((E0 - en c : ℝ) : ℂ) with hv2
  set K := Real.sqrt (∑ c, (‖(W *ᵥ v2) c - μ * v1 c‖ + ‖(μ : ℂ) * v2 c‖) ^ 2) with hK
  refine ⟨K, Real.sqrt_nonneg _, fun x hx Y e hY => ?_⟩
  have h2' : ∀ c, en c = E0 → (W *ᵥ v1) c = μ * w c := by
    intro c hc
    rw [← h2 c hc]
    simp only [mulVec, dotProduct, secondOrder, hv1, Finset.sum_mul]
    rw [Finset.sum_comm]
    refine Finset.sum_congr rfl fun d _ => ?_
    by_cases hd : en d = E0
    · simp [hd]
    · simp only [if_neg hd]
      rw [Finset.sum_div, Finset.mul_sum]
      exact Finset.sum_congr rfl fun b _ => by ring
  set v : k → ℂ := w + (x : ℂ) • v1 + (x ^ 2 : ℂ) • v2 with hv
  have hvS : ∀ c, en c = E0 → v c = w c := by
    intro c hc
    simp [hv, hv1, hv2, hc]
  have hn : 1 ≤ sqNorm v := by
    rw [← hw0, sqNorm_eq, sqNorm_eq]
    refine Finset.sum_le_sum fun c _ => ?_
    by_cases hc : en c = E0
    · rw [hvS c hc]
    · rw [hw c hc, norm_zero, zero_pow two_ne_zero]; positivity
  have res : ∀ c, (((Matrix.diagonal fun c => (en c : ℂ)) + (x : ℂ) • W) *ᵥ v - ((E0 + x ^ 2 * μ : ℝ) : ℂ) • v) c
      = (x : ℂ) ^ 3 * ((W *ᵥ v2) c - μ * v1 c) - (x : ℂ) ^ 4 * (μ * v2 c) := by
    intro c
    have lin : (W *ᵥ v) c = (W *ᵥ w) c + x * (W *ᵥ v1) c + x ^ 2 * (W *ᵥ v2) c := by
      rw [hv, mulVec_add, mulVec_add, mulVec_smul, mulVec_smul]
      rfl
    have vc : v c = w c + x * v1 c + x ^ 2 * v2 c := rfl
    rw [Pi.sub_apply, add_mulVec, Pi.add_apply, mulVec_diagonal, smul_mulVec, Pi.smul_apply, Pi.smul_apply, smul_eq_mul, smul_eq_mul, lin, vc]
    by_cases hc : en c = E0
    · have a1 : v1 c = 0 := by simp [hv1, hc]
      have a2 : v2 c = 0 := by simp [hv2, hc]
      rw [a1, a2, h1 c hc, h2' c hc, hc]
      push_cast
      ring
    · have ne : ((E0 - en c : ℝ) : ℂ) ≠ 0 := by
        rw [Complex.ofReal_ne_zero]
        exact sub_ne_zero.2 (Ne.symm hc)
      have a1 : (W *ᵥ w) c = v1 c * ((E0 - en c : ℝ) : ℂ) := by simp only [hv1, if_neg hc]; rw [div_mul_cancel₀ _ ne]
      have a2 : (W *ᵥ v1) c = v2 c * ((E0 - en c : ℝ) : ℂ) := by
        rw [hv2]; simp only [if_neg hc]; rw [div_mul_cancel₀ _ ne]
      rw [a1, a2, hw c hc]
      push_cast
      ring
  refine residual_level hY v (E0 + x ^ 2 * μ) (K * |x| ^ 3) (by positivity) (by linarith) ?_
  have bound : sqNorm (((Matrix.diagonal fun c => (en c : ℂ)) + (x : ℂ) • W) *ᵥ v - ((E0 + x ^ 2 * μ : ℝ) : ℂ) • v) ≤ (K * |x| ^ 3) ^ 2 := by
    rw [sqNorm_eq, mul_pow, hK, Real.sq_sqrt (by positivity), Finset.sum_mul]
    refine Finset.sum_le_sum fun c _ => ?_
    rw [res c, ← mul_pow]
    refine pow_le_pow_left₀ (norm_nonneg _) ?_ 2
    refine (norm_sub_le _ _).trans ?_
    rw [norm_mul, norm_mul, norm_pow, norm_pow, Complex.norm_real, Real.norm_eq_abs]
    have : |x| ^ 4 ≤ |x| ^ 3 := pow_le_pow_of_le_one (abs_nonneg x) hx (by norm_num)
    nlinarith [norm_nonneg ((μ : ℂ) * v2 c)]
  exact bound.trans (le_mul_of_one_le_right (by positivity) hn)

/-- There is a gap between a level and the other energies. -/
theorem level_gap (en : k → ℝ) (E0 : ℝ) : ∃ g : ℝ, 0 < g ∧ ∀ c, en c ≠ E0 → g ≤ |en c - E0| := by
  have : ∀ s : Finset k, ∃ g : ℝ, 0 < g ∧ ∀ c ∈ s, en c ≠ E0 → g ≤ |en c - E0| := by
    intro s
    induction s using Finset.induction_on with
    | empty => exact ⟨1, one_pos, by simp⟩
    | insert a s ha ih =>
      obtain ⟨g, g0, hg⟩ := ih
      by_cases h : en a = E0
      · refine ⟨g, g0, fun c hc hne => ?_⟩
        rcases Finset.mem_insert.1 hc with rfl | hc
        · exact absurd h hne
        · exact hg c hc hne
      · refine ⟨min g |en a - E0|, lt_min g0 (abs_pos.2 (sub_ne_zero.2 h)), fun c hc hne => ?_⟩
        rcases Finset.mem_insert.1 hc with rfl | hc
        · exact min_le_right _ _
        · exact (min_le_left _ _).trans (hg c hc hne)
  obtain ⟨g, g0, h⟩ := this Finset.univ
  exact ⟨g, g0, fun c => h c (Finset.mem_univ c)⟩

/-- The energies move at most by the size of the perturbation. -/
theorem levels_near (en : k → ℝ) (W : Matrix k k ℂ) (b : ℝ) (hb : BoundedBy W b) (x : ℝ) (Y : Matrix k k ℂ) (e : k → ℝ)
    (hY : Diagonalizes ((Matrix.diagonal fun c => (en c : ℂ)) + (x : ℂ) • W) Y e) (E : ℝ) :
    levelsUpTo e E ≤ levelsUpTo en (E + |x| * b) ∧ levelsUpTo en E ≤ levelsUpTo e (E + |x| * b) := by
  have hD : Diagonalizes (Matrix.diagonal fun c => (en c : ℂ)) 1 en := ⟨by simp, by simp⟩
  have hx : BoundedBy ((x : ℂ) • W) (|x| * b) := by
    have := bounded_smul hb (x : ℂ)
    rwa [Complex.norm_real, Real.norm_eq_abs] at this
  have key : ∀ y, |expect ((Matrix.diagonal fun c => (en c : ℂ)) + (x : ℂ) • W) y - expect (Matrix.diagonal fun c => (en c : ℂ)) y| ≤ |x| * b * sqNorm y := by
    intro y
    unfold expect
    rw [add_mulVec, dotProduct_add, Complex.add_re, add_sub_cancel_left]
    exact (Complex.abs_re_le_norm _).trans (hx y)
  constructor
  · refine levels_compare hD hY 1 (by simp) (|x| * b) (fun y => ?_) E
    rw [one_mulVec]
    linarith [(abs_le.1 (key y)).1]
  · refine levels_compare hY hD 1 (by simp) (|x| * b) (fun y => ?_) E
    rw [one_mulVec]
    linarith [(abs_le.1 (key y)).2]

end general

/-- Without degeneracy it is the level of the same number that follows the second-order energy. -/
theorem second_order_sorted {k : ℕ} (en : Fin k → ℝ) (W : Matrix (Fin k) (Fin k) ℂ) (i0 : Fin k) (hd : ∀ c, c ≠ i0 → en c ≠ en i0) (h1 : W i0 i0 = 0) (μ : ℝ)
    (hμ : secondOrder en (en i0) W i0 i0 = μ) :
    ∃ K x0 : ℝ, 0 ≤ K ∧ 0 < x0 ∧ ∀ x : ℝ, |x| ≤ x0 → ∀ (Y : Matrix (Fin k) (Fin k) ℂ) (e : Fin k → ℝ),
      Diagonalizes ((Matrix.diagonal fun c => (en c : ℂ)) + (x : ℂ) • W) Y e → Monotone e →
        ∀ i : Fin k, i.val = (Finset.univ.filter fun c => en c < en i0).card → |e i - (en i0 + x ^ 2 * μ)| ≤ K * |x| ^ 3 := by
  set E0 := en i0 with hE0
  have only : ∀ c, en c = E0 → c = i0 := fun c hc => by
    by_contra h
    exact hd c h hc
  have col : ∀ (A : Matrix (Fin k) (Fin k) ℂ) c, (A *ᵥ Pi.single i0 1) c = A c i0 := fun A c => by simp
  obtain ⟨K, hK, H⟩ := second_order en W E0 μ (Pi.single i0 1) (by
      rw [sqNorm_eq, Finset.sum_eq_single i0]
      · simp
      · intro c _ hc; simp [hc]
      · simp) (by
      intro c hc
      have : c ≠ i0 := by rintro rfl; exact hc rfl
      simp [this]) (by
      intro c hc
      rw [col, only c hc, h1]) (by
      intro c hc
      rw [col, only c hc, hμ]
      simp)
  obtain ⟨g, g0, hg⟩ := level_gap en E0
  set b := ∑ i, ∑ j, ‖W i j‖ with hb
  have b0 : 0 ≤ b := by positivity
  have m0 := abs_nonneg μ
  set M := K + |μ| + b + 1 with hM
  have M0 : 0 < M := by positivity
  refine ⟨K, min 1 (g / (4 * M)), hK, lt_min one_pos (by positivity), fun x hx Y e hY he i hi => ?_⟩
  have x1 : |x| ≤ 1 := hx.trans (min_le_left _ _)
  have x2 : M * |x| ≤ g / 4 := by
    have := mul_le_mul_of_nonneg_left (hx.trans (min_le_right _ _)) M0.le
    refine this.trans (le_of_eq ?_)
    field_simp
  have xn := abs_nonneg x
  obtain ⟨j, hj⟩ := H x x1 Y e hY
  have near : |e j - E0| ≤ g / 4 := by
    have t : |x ^ 2 * μ| ≤ |μ| * |x| := by
      rw [abs_mul, abs_pow, mul_comm]
      exact mul_le_mul_of_nonneg_left (by nlinarith) m0
    have t2 : K * |x| ^ 3 ≤ K * |x| := by
      have : |x| ^ 3 ≤ |x| := by
        calc |x| ^ 3 ≤ |x| ^ 1 := pow_le_pow_of_le_one xn x1 (by norm_num)
          _ = |x| := pow_one _
      exact mul_le_mul_of_nonneg_left this hK
    have t3 : e j - E0 = (e j - (E0 + x ^ 2 * μ)) + x ^ 2 * μ := by ring
    rw [t3]
    refine (abs_add_le _ _).trans ?_
    have : K * |x| + |μ| * |x| ≤ M * |x| := by
      rw [← add_mul]
      exact mul_le_mul_of_nonneg_right (by rw [hM]; linarith) xn
    linarith
  have xb : |x| * b ≤ g / 4 := by
    have : b * |x| ≤ M * |x| := mul_le_mul_of_nonneg_right (by rw [hM]; linarith) xn
    linarith
  rw [abs_le] at near
  have ji : j = i := by
    apply le_antisymm
    · rw [Fin.le_def]
      have a := (levels_near en W b (bounded_entries W) x Y e hY (E0 + g / 4)).1
      have l : j.val + 1 ≤ levelsUpTo e (E0 + g / 4) := by
        unfold levelsUpTo
        have : Finset.Iic j ⊆ Finset.univ.filter fun c => e c ≤ E0 + g / 4 := fun c hc =>
          Finset.mem_filter.2 ⟨Finset.mem_univ _, (he (Finset.mem_Iic.1 hc)).trans (by linarith)⟩
        have := Finset.card_le_card this
        rwa [Fin.card_Iic] at this
      have u : levelsUpTo en (E0 + g / 4 + |x| * b) ≤ i.val + 1 := by
        unfold levelsUpTo
        rw [hi]
        have : (Finset.univ.filter fun c => en c ≤ E0 + g / 4 + |x| * b) ⊆ insert i0 (Finset.univ.filter fun c => en c < E0) := by
          intro c hc
          rw [Finset.mem_filter] at hc
          rw [Finset.mem_insert, Finset.mem_filter]
          by_cases h : en c = E0
          · exact Or.inl (only c h)
          · refine Or.inr ⟨Finset.mem_univ _, ?_⟩
            have := hg c h
            rcases abs_cases (en c - E0) with h3 | h3 <;> linarith [hc.2]
        exact (Finset.card_le_card this).trans (Finset.card_insert_le _ _)
      omega
    · rw [Fin.le_def]
      by_contra hlt
      push Not at hlt
      have a := (levels_near en W b (bounded_entries W) x Y e hY (E0 - g)).2
      have l : i.val ≤ levelsUpTo en (E0 - g) := by
        unfold levelsUpTo
        rw [hi]
        refine Finset.card_le_card fun c hc => ?_
        rw [Finset.mem_filter] at hc ⊢
        refine ⟨Finset.mem_univ _, ?_⟩
        have := hg c hc.2.ne
        rcases abs_cases (en c - E0) with h3 | h3 <;> linarith [hc.2]
      have u : levelsUpTo e (E0 - g + |x| * b) ≤ j.val := by
        unfold levelsUpTo
        have : (Finset.univ.filter fun c => e c ≤ E0 - g + |x| * b) ⊆ Finset.Iio j := by
          intro c hc
          rw [Finset.mem_filter] at hc
          rw [Finset.mem_Iio]
          by_contra h
          have := he (not_lt.1 h)
          linarith [hc.2]
        have := Finset.card_le_card this
        rwa [Fin.card_Iio] at this
      omega
  rw [← ji]
  exact hj


/-! ## Two atoms -/

variable {N : ℕ}

section pair
variable {k : Type} [Fintype k] [DecidableEq k]

omit [Fintype k] in
/-- The Hamiltonian without interaction is diagonal with real entries. -/
theorem diagonal_real {A : Matrix k k ℂ} (hd : ∀ c d, c ≠ d → A c d = 0) (hr : ∀ c, (A c c).im = 0) : A = Matrix.diagonal fun c => (((A c c).re : ℝ) : ℂ) := by
  ext c d
  by_cases h : c = d
  · subst h
    rw [Matrix.diagonal_apply_eq]
    exact Complex.ext rfl (hr c)
  · rw [Matrix.diagonal_apply_ne _ h, hd c d h]

/-- On the z axis with order 3 the energies are those of the unperturbed Hamiltonian plus the multipole operator divided by the third power of the distance. -/
theorem axis_diagonalizes (C : FieldConsts) (radial : RadKey → ℝ) (me : Method) (st : Fin N → Option (QN × QN)) (D : Matrix (Fin N) (Fin N) ℂ)
    (s0 s s' : CSys OKPair PKey (Fin N) k) (h0 : s0.Fresh (pairInter C radial me st)) (hD : s0.H = s0.Vᴴ * D * s0.V)
    (hd : ∀ c d, c ≠ d → s0.H c d = 0) (hr : ∀ c, (s0.H c c).im = 0)
    (hs : Hist (pairInter C radial me st) s0 s) (hb : s.build (pairInter C radial me st) = .ok s') (ha : OnAxis s.p.1) (ho : s.p.1.order = 3)
    (X : Matrix k k ℂ) (e : k → ℝ) (hX : Diagonalizes s'.H X e) :
    ∃ Y, Diagonalizes ((Matrix.diagonal fun c => (((s0.H c c).re : ℝ) : ℂ)) + ((1 / s.p.1.dist ^ 3 : ℝ) : ℂ) • (s0.Vᴴ * pairOper C radial me st (.mul 3) * s0.V)) Y e := by
  obtain ⟨Y, hY⟩ := diagonalizes_start _ D s0 s s' h0 hD hs hb X e hX
  refine ⟨Y, ?_⟩
  rw [start_oper _ D s0 hD] at hY
  have k1 : pairTerms s.p.1 = [(.mul 3, 1 / s.p.1.dist ^ 3)] := by
    rw [pairTerms_axis _ ha, ho]; rfl
  have : (((pairInter C radial me st).need s.p).map fun key => (pairInter C radial me st).coef s.p key • (s0.Vᴴ * (pairInter C radial me st).op key * s0.V)).sum
      = ((1 / s.p.1.dist ^ 3 : ℝ) : ℂ) • (s0.Vᴴ * pairOper C radial me st (.mul 3) * s0.V) := by
    show (((pairTerms s.p.1).map (·.1)).map fun key => ((((pairTerms s.p.1).lookup key).getD 0 : ℝ) : ℂ) • (s0.Vᴴ * pairOper C radial me st key * s0.V)).sum = _
    rw [k1]
    simp only [List.map_cons, List.map_nil, List.sum_cons, List.sum_nil, add_zero, List.lookup_cons, beq_self_eq_true, Option.getD_some]
  rw [this, diagonal_real hd hr] at hY
  simpa only [Matrix.diagonal_apply_eq, Complex.ofReal_re] using hY

theorem far_factor {R : ℝ} (h : 1 ≤ |R|) : |1 / R ^ 3| ≤ 1 ∧ (1 / R ^ 3) ^ 2 = 1 / R ^ 6 ∧ |1 / R ^ 3| ^ 3 = 1 / |R| ^ 9 := by
  refine ⟨?_, ?_, ?_⟩
  · rw [abs_div, abs_one, abs_pow]
    exact div_le_one_of_le₀ (one_le_pow₀ h) (by positivity)
  · rw [div_pow, one_pow, ← pow_mul]
  · rw [abs_div, abs_one, abs_pow, div_pow, one_pow, ← pow_mul]

theorem far_distance {x0 R : ℝ} (hx0 : 0 < x0) (hR : max 1 (1 / x0) ≤ |R|) : |1 / R ^ 3| ≤ x0 ∧ (1 / R ^ 3) ^ 2 = 1 / R ^ 6 ∧ |1 / R ^ 3| ^ 3 = 1 / |R| ^ 9 := by
  have r1 : 1 ≤ |R| := (le_max_left _ _).trans hR
  have r2 : 1 / x0 ≤ |R| := (le_max_right _ _).trans hR
  refine ⟨?_, (far_factor r1).2⟩
  rw [abs_div, abs_one, abs_pow]
  have p : |R| ≤ |R| ^ 3 := by
    calc |R| = |R| ^ 1 := (pow_one _).symm
      _ ≤ |R| ^ 3 := pow_le_pow_right₀ r1 (by norm_num)
  rw [div_le_iff₀ (by positivity)]
  rw [div_le_iff₀ hx0] at r2
  nlinarith

/-- **C122 (degenerate levels).** For every level E0 of the pair without interaction and every eigenvector w of the effective operator of second order within it, with eigenvalue μ: at every distance of at
least 1 along z, after any history, there is an energy E0 + μ/R⁶ up to K/R⁹; the constant K does not depend on the distance or the history. -/
theorem C122_two_atoms (C : FieldConsts) (radial : RadKey → ℝ) (me : Method) (st : Fin N → Option (QN × QN)) (D : Matrix (Fin N) (Fin N) ℂ)
    (s0 : CSys OKPair PKey (Fin N) k) (h0 : s0.Fresh (pairInter C radial me st)) (hD : s0.H = s0.Vᴴ * D * s0.V)
    (hd : ∀ c d, c ≠ d → s0.H c d = 0) (hr : ∀ c, (s0.H c c).im = 0)
    (E0 μ : ℝ) (w : k → ℂ) (hw0 : sqNorm w = 1) (hw : ∀ c, (s0.H c c).re ≠ E0 → w c = 0)
    (h1 : ∀ c, (s0.H c c).re = E0 → ((s0.Vᴴ * pairOper C radial me st (.mul 3) * s0.V) *ᵥ w) c = 0)
    (h2 : ∀ c, (s0.H c c).re = E0 → (secondOrder (fun c => (s0.H c c).re) E0 (s0.Vᴴ * pairOper C radial me st (.mul 3) * s0.V) *ᵥ w) c = μ * w c) :
    ∃ K : ℝ, 0 ≤ K ∧ ∀ s s' : CSys OKPair PKey (Fin N) k, Hist (pairInter C radial me st) s0 s → s.build (pairInter C radial me st) = .ok s' →
      OnAxis s.p.1 → s.p.1.order = 3 → 1 ≤ |s.p.1.dist| → ∀ X e, Diagonalizes s'.H X e →
        ∃ i, |e i - (E0 + μ / s.p.1.dist ^ 6)| ≤ K / |s.p.1.dist| ^ 9 := by
  obtain ⟨K, hK, H⟩ := second_order (fun c => (s0.H c c).re) (s0.Vᴴ * pairOper C radial me st (.mul 3) * s0.V) E0 μ w hw0 hw h1 h2
  refine ⟨K, hK, fun s s' hs hb ha ho hR X e hX => ?_⟩
  obtain ⟨Y, hY⟩ := axis_diagonalizes C radial me st D s0 s s' h0 hD hd hr hs hb ha ho X e hX
  obtain ⟨f1, f2, f3⟩ := far_factor hR
  obtain ⟨i, hi⟩ := H _ f1 Y e hY
  refine ⟨i, ?_⟩
  rw [f2, f3, one_div_mul_eq_div, mul_one_div] at hi
  exact hi

/-- **C122 (levels without degeneracy).** A pair level without degenerate partners and without first-order shift: beyond some distance R0 the energy of the same number in the sorted list is
E0 + μ/R⁶ up to K/R⁹, where μ is the sum over the other states d of |⟨d|W|i⟩|²/(E0 - E_d); R0 and K do not depend on the distance or the history. -/
theorem C122_sorted {k : ℕ} (C : FieldConsts) (radial : RadKey → ℝ) (me : Method) (st : Fin N → Option (QN × QN)) (D : Matrix (Fin N) (Fin N) ℂ)
    (s0 : CSys OKPair PKey (Fin N) (Fin k)) (h0 : s0.Fresh (pairInter C radial me st)) (hD : s0.H = s0.Vᴴ * D * s0.V)
    (hd : ∀ c d, c ≠ d → s0.H c d = 0) (hr : ∀ c, (s0.H c c).im = 0)
    (i0 : Fin k) (hn : ∀ c, c ≠ i0 → (s0.H c c).re ≠ (s0.H i0 i0).re) (h1 : (s0.Vᴴ * pairOper C radial me st (.mul 3) * s0.V) i0 i0 = 0) :
    ∃ K R0 : ℝ, 0 ≤ K ∧ ∀ s s' : CSys OKPair PKey (Fin N) (Fin k), Hist (pairInter C radial me st) s0 s → s.build (pairInter C radial me st) = .ok s' →
      OnAxis s.p.1 → s.p.1.order = 3 → R0 ≤ |s.p.1.dist| → ∀ X e, Diagonalizes s'.H X e → Monotone e →
        ∀ i : Fin k, i.val = (Finset.univ.filter fun c => (s0.H c c).re < (s0.H i0 i0).re).card →
          |e i - ((s0.H i0 i0).re + secondShift (fun c => (s0.H c c).re) (s0.H i0 i0).re (s0.Vᴴ * pairOper C radial me st (.mul 3) * s0.V) i0 / s.p.1.dist ^ 6)| ≤ K / |s.p.1.dist| ^ 9 := by
  obtain ⟨K, x0, hK, hx0, H⟩ := second_order_sorted (fun c => (s0.H c c).re) (s0.Vᴴ * pairOper C radial me st (.mul 3) * s0.V) i0 hn h1 _
    (secondOrder_diag _ _ _ (Matrix.isHermitian_conjTranspose_mul_mul _ (lowerView_herm _)) i0)
  refine ⟨K, max 1 (1 / x0), hK, fun s s' hs hb ha ho hR X e hX he i hi => ?_⟩
  obtain ⟨Y, hY⟩ := axis_diagonalizes C radial me st D s0 s s' h0 hD hd hr hs hb ha ho X e hX
  obtain ⟨f1, f2, f3⟩ := far_distance hx0 hR
  have := H _ f1 Y e hY he i hi
  rw [f2, f3, one_div_mul_eq_div, mul_one_div] at this
  exact this

end pair

/-! ## The number that getC6 returns -/

/-- A one-atom state of a system as an argument of the perturbative calculation. -/
def QN.qa (a : QN) : QA := ⟨a.species, a.n, a.l, a.s, a.j, a.m⟩

/-- The reverse. -/
def QA.qn (a : QA) : QN := ⟨a.sp, a.n, a.l, a.j, a.m, a.s⟩

/-- The perturbative calculation with the matrix elements of the cache, the energies `E` of the one-atom states and the Coulomb constant. -/
noncomputable def cachePert (C : FieldConsts) (radial : RadKey → ℝ) (me : Method) (E : QN → ℝ) : PertEnv :=
  ⟨fun x => E x.qn, fun x y => elem C radial me 1 x.qn y.qn, C.ke⟩

/-- The entry of the multipole operator of order 3 is the product that getC6 squares. -/
theorem mulEntry_angle (C : FieldConsts) (radial : RadKey → ℝ) (me : Method) (a b : QN × QN) (ok : PairOK a b) :
    mulEntry C radial me 3 a b = if mDiff a.1 b.1 + mDiff a.2 b.2 = 0 then
      ((C.ke * angleVal 0 (mDiff a.1 b.1, mDiff a.2 b.2) * elem C radial me 1 a.1 b.1 * elem C radial me 1 a.2 b.2 : ℝ) : ℂ) else 0 := by
  unfold mulEntry
  simp only [show 3 - 2 = 1 from rfl, List.range_one, List.map_cons, List.map_nil, List.sum_cons, List.sum_nil, add_zero, mulTerm,
    Nat.cast_zero, zero_add]
  norm_num only
  by_cases s1 : selMultipole a.1 b.1 1 = true
  · by_cases s2 : selMultipole a.2 b.2 1 = true
    · have m1 := selMultipole_m a.1 b.1 ok.a1 ok.b1 ok.s1 1 s1
      have m2 := selMultipole_m a.2 b.2 ok.a2 ok.b2 ok.s2 1 s2
      rw [s1, s2]
      have s4 : Real.sqrt (2 * 2) = 2 := by rw [show (2 * 2 : ℝ) = 2 ^ 2 by norm_num]; exact Real.sqrt_sq (by norm_num)
      rcases q_cases _ m1 with e1 | e1 | e1 <;> rcases q_cases _ m2 with e2 | e2 | e2 <;> rw [e1, e2] <;>
        simp [binom, sgn, s4, angleVal, angleTerm]
    · have z := elem_zero C radial me a.2 b.2 ok.a2 ok.b2 ok.sp2 ok.s2 1 (by norm_num) (by simpa using s2)
      simp [s2, z]
  · have z := elem_zero C radial me a.1 b.1 ok.a1 ok.b1 ok.sp1 ok.s1 1 (by norm_num) (by simpa using s1)
    simp [s1, z]

theorem mulEntry_herm (C : FieldConsts) (radial : RadKey → ℝ) (me : Method) (a b : QN × QN) (ok : PairOK a b) :
    mulEntry C radial me 3 b a = (starRingEnd ℂ) (mulEntry C radial me 3 a b) := by
  rw [mulEntry_order3 C radial me a b ok, mulEntry_order3 C radial me b a ok.symm]
  simp only [map_mul, map_add, map_sub, Complex.conj_ofReal, map_ofNat, cartDip_herm C radial me a.1 b.1 ok.a1 ok.b1 ok.sp1 ok.s1,
    cartDip_herm C radial me a.2 b.2 ok.a2 ok.b2 ok.sp2 ok.s2]

/-- The multipole operator of order 3 between two pair states of a system. -/
theorem mul3_entry (C : FieldConsts) (radial : RadKey → ℝ) (me : Method) (st : Fin N → Option (QN × QN)) (hst : GoodPairs st) (r c : Fin N) :
    pairOper C radial me st (.mul 3) r c = match st r, st c with
      | some a, some b => mulEntry C radial me 3 a b
      | _, _ => 0 :=
  lowerView_full st hst (mulEntry C radial me 3) (fun a b _ _ ok => mulEntry_herm C radial me a b ok) r c

/-- The basis of the pair system has what the sum of getC6 for (a, b) needs: every possible pair state within D of the principal quantum numbers to which both atoms have nonzero dipole elements
(and with the same total momentum along z) is in it, no state twice, and no state outside of the range D of the principal quantum numbers. -/
structure C6Basis (C : FieldConsts) (radial : RadKey → ℝ) (me : Method) (st : Fin N → Option (QN × QN)) (D : ℕ) (a b : QN) : Prop where
  once : ∀ i j v, st i = some v → st j = some v → i = j
  bound : ∀ i v, st i = some v → v.1.l < v.1.n ∧ v.2.l < v.2.n
  range : ∀ i v, st i = some v → |v.1.n - a.n| ≤ (D : ℤ) ∧ |v.2.n - b.n| ≤ (D : ℤ)
  complete : ∀ v w : QN, ValidQ v.qa → ValidQ w.qa → DipoleStep a.qa v.qa → DipoleStep b.qa w.qa → |v.n - a.n| ≤ (D : ℤ) → |w.n - b.n| ≤ (D : ℤ) → v.m + w.m = a.m + b.m →
    elem C radial me 1 v a ≠ 0 → elem C radial me 1 w b ≠ 0 → ∃ i, st i = some (v, w)

theorem valid_qa {a : QN} (h : a.Physical) (hn : a.l < a.n) : ValidQ a.qa := by
  obtain ⟨h1, h2, h3, h4, h5, h6, h7⟩ := h
  refine ⟨h1, hn, h2, h3, h4, ?_, h6, ?_⟩
  · show (a.j - a.s) % 2 = 0
    omega
  · show (a.m - a.j) % 2 = 0
    omega

theorem physical_qn {a : QA} (h : ValidQ a) : a.qn.Physical := by
  have h5 := h.jpar
  have h7 := h.mpar
  refine ⟨h.l0, h.s0, h.jlo, h.jhi, ?_, h.mj, ?_⟩
  · show (a.j + a.s) % 2 = 0
    omega
  · show (a.j + a.m) % 2 = 0
    omega

/-- Nonzero dipole elements obey the selection rules. -/
theorem dipole_step (C : FieldConsts) (radial : RadKey → ℝ) (me : Method) {a v : QN} (ha : a.Physical) (hv : v.Physical) (hs : v.species = a.species) (hss : v.s = a.s)
    (h : elem C radial me 1 v a ≠ 0) : DipoleStep a.qa v.qa := by
  have hsel : selMultipole v a 1 = true := by
    by_contra hc
    exact h (elem_zero C radial me v a hv ha hs hss 1 (by norm_num) (by simpa using hc))
  simp only [selMultipole, Bool.and_eq_true, decide_eq_true_eq] at hsel
  obtain ⟨⟨⟨⟨l1, l2⟩, j1, -⟩, m1⟩, -⟩ := hsel
  refine ⟨hs, hss, ?_, j1, m1⟩
  show v.l = a.l + 1 ∨ v.l = a.l - 1
  rw [abs_le] at l1
  have : v.l ≠ a.l := by
    intro e
    rw [e, sub_self, abs_zero] at l2
    exact absurd l2 (by decide)
  omega

/-- What the loops of getC6 add for a virtual pair state. -/
noncomputable def c6Term (V : PertEnv) (a b : QA) (z : QA × QA) : ℝ :=
  (V.k * angleVal 0 ((z.1.m - a.m) / 2, (z.2.m - b.m) / 2) * V.d z.1 a * V.d z.2 b) ^ 2 / ((V.E a + V.E b) - (V.E z.1 + V.E z.2))

theorem getC6_terms (V : PertEnv) (D : ℕ) (a b : QA) (ha : ValidQ a) (hb : ValidQ b) (sa : a.s = 0 ∨ a.s = 1) (sb : b.s = 0 ∨ b.s = 1) (hDa : (D : ℤ) ≤ a.n - a.l) (hDb : (D : ℤ) ≤ b.n - b.l) :
    getC6 V 0 (D : ℚ) a b = ∑ z ∈ ((virtuals false (D : ℚ) a b).map (·.1)).toFinset, c6Term V a b z := by
  obtain ⟨hnd, -⟩ := C48_virtual_states_partial false D a b ha hb sa sb hDa hDb
  rw [List.sum_toFinset _ hnd, List.map_map]
  unfold getC6
  have : decide ((0 : ℝ) ≠ 0) = false := by simp
  rw [this]
  refine congrArg List.sum (List.map_congr_left fun v hv => ?_)
  rw [mem_virtuals] at hv
  obtain ⟨-, -, -, m1, m2, -⟩ := hv
  have e1 : (v.1.1.m - a.m) / 2 = v.2.1 := by omega
  have e2 : (v.1.2.m - b.m) / 2 = v.2.2 := by omega
  simp only [Function.comp, c6Term, e1, e2]

/-- **C122 (the sums agree).** For a basis that has what the sum needs, the second-order sum with the operator of SystemTwo is the number that `getC6` returns. -/
theorem C122_sum (C : FieldConsts) (radial : RadKey → ℝ) (me : Method) (st : Fin N → Option (QN × QN)) (hst : GoodPairs st) (E : QN → ℝ) (en : Fin N → ℝ)
    (hE : ∀ i v, st i = some v → en i = E v.1 + E v.2) (i0 : Fin N) (a b : QN) (hi : st i0 = some (a, b)) (sa : a.s = 0 ∨ a.s = 1) (sb : b.s = 0 ∨ b.s = 1)
    (D : ℕ) (hDa : (D : ℤ) ≤ a.n - a.l) (hDb : (D : ℤ) ≤ b.n - b.l) (hB : C6Basis C radial me st D a b) :
    secondOrder en (en i0) (pairOper C radial me st (.mul 3)) i0 i0 = (getC6 (cachePert C radial me E) 0 (D : ℚ) a.qa b.qa : ℝ) := by
  obtain ⟨pa, pb, -⟩ := hst i0 _ hi
  obtain ⟨na, nb⟩ := hB.bound i0 _ hi
  have va := valid_qa pa na
  have vb := valid_qa pb nb
  obtain ⟨-, hmem⟩ := C48_virtual_states_partial false D a.qa b.qa va vb sa sb hDa hDb
  rw [getC6_terms _ D a.qa b.qa va vb sa sb hDa hDb]
  set T := ((virtuals false (D : ℚ) a.qa b.qa).map (·.1)).toFinset with hT
  have memT : ∀ z : QA × QA, z ∈ T ↔ _ := fun z => (List.mem_toFinset).trans (hmem z.1 z.2)
  -- one term of the sum over the basis
  have term : ∀ i v, st i = some v → (if en i = en i0 then (0 : ℂ) else
      pairOper C radial me st (.mul 3) i0 i * pairOper C radial me st (.mul 3) i i0 / ((en i0 - en i : ℝ) : ℂ))
      = ((if v.1.m + v.2.m = a.m + b.m then c6Term (cachePert C radial me E) a.qa b.qa (v.1.qa, v.2.qa) else 0 : ℝ) : ℂ) := by
    intro i v hv
    have ok : PairOK v (a, b) := hst.ok hv hi
    have w1 : pairOper C radial me st (.mul 3) i i0 = mulEntry C radial me 3 v (a, b) := by rw [mul3_entry C radial me st hst, hv, hi]
    have w2 : pairOper C radial me st (.mul 3) i0 i = (starRingEnd ℂ) (mulEntry C radial me 3 v (a, b)) := by
      rw [mul3_entry C radial me st hst, hv, hi]
      exact mulEntry_herm C radial me v (a, b) ok
    have ms1 := mDiff_spec v.1 a ok.a1 ok.b1 ok.s1
    have ms2 := mDiff_spec v.2 b ok.a2 ok.b2 ok.s2
    rw [w1, w2, mulEntry_angle C radial me v (a, b) ok]
    dsimp only
    by_cases hm : v.1.m + v.2.m = a.m + b.m
    · have sm : mDiff v.1 a + mDiff v.2 b = 0 := by omega
      rw [if_pos hm, if_pos sm]
      have d1 : (v.1.m - a.m) / 2 = mDiff v.1 a := mDiff_div v.1 a ok.a1 ok.b1 ok.s1
      have d2 : (v.2.m - b.m) / 2 = mDiff v.2 b := mDiff_div v.2 b ok.a2 ok.b2 ok.s2
      have ct : c6Term (cachePert C radial me E) a.qa b.qa (v.1.qa, v.2.qa) =
          (C.ke * angleVal 0 (mDiff v.1 a, mDiff v.2 b) * elem C radial me 1 v.1 a * elem C radial me 1 v.2 b) ^ 2 / ((E a + E b) - (E v.1 + E v.2)) := by
        unfold c6Term
        show (C.ke * angleVal 0 ((v.1.m - a.m) / 2, (v.2.m - b.m) / 2) * elem C radial me 1 v.1 a * elem C radial me 1 v.2 b) ^ 2 / ((E a + E b) - (E v.1 + E v.2)) = _
        rw [d1, d2]
      rw [ct, Complex.conj_ofReal, hE i v hv, hE i0 _ hi]
      by_cases he : E v.1 + E v.2 = E a + E b
      · rw [if_pos he, he, sub_self, div_zero, Complex.ofReal_zero]
      · rw [if_neg he]
        push_cast
        ring
    · have sm : ¬ mDiff v.1 a + mDiff v.2 b = 0 := by omega
      rw [if_neg hm, if_neg sm]
      simp
  -- the sum over the basis and the sum over the virtual states
  unfold secondOrder
  rw [Complex.ofReal_sum]
  have nz : ∀ i, (if en i = en i0 then (0 : ℂ) else pairOper C radial me st (.mul 3) i0 i * pairOper C radial me st (.mul 3) i i0 / ((en i0 - en i : ℝ) : ℂ)) ≠ 0 →
      ∃ v, st i = some v ∧ v.1.m + v.2.m = a.m + b.m ∧ c6Term (cachePert C radial me E) a.qa b.qa (v.1.qa, v.2.qa) ≠ 0 := by
    intro i h
    cases hv : st i with
    | none =>
      exfalso
      apply h
      rw [mul3_entry C radial me st hst i i0, hv]
      simp
    | some v =>
      rw [term i v hv, Complex.ofReal_ne_zero] at h
      by_cases hm : v.1.m + v.2.m = a.m + b.m
      · rw [if_pos hm] at h
        exact ⟨v, rfl, hm, h⟩
      · rw [if_neg hm] at h
        exact absurd rfl h
  have dip : ∀ z : QA × QA, c6Term (cachePert C radial me E) a.qa b.qa z ≠ 0 → elem C radial me 1 z.1.qn a ≠ 0 ∧ elem C radial me 1 z.2.qn b ≠ 0 := by
    intro z h
    constructor
    · intro h0
      apply h
      unfold c6Term
      rw [show (cachePert C radial me E).d z.1 a.qa = 0 from h0]
      simp
    · intro h0
      apply h
      unfold c6Term
      rw [show (cachePert C radial me E).d z.2 b.qa = 0 from h0]
      simp
  refine Finset.sum_bij_ne_zero (fun i _ h => ((nz i h).choose.1.qa, (nz i h).choose.2.qa)) ?_ ?_ ?_ ?_
  · intro i _ h
    obtain ⟨hv, hm, hc⟩ := (nz i h).choose_spec
    generalize (nz i h).choose = v at hv hm hc
    obtain ⟨d1, d2⟩ := dip _ hc
    have ok : PairOK v (a, b) := hst.ok hv hi
    obtain ⟨b1, b2⟩ := hB.bound i v hv
    obtain ⟨r1, r2⟩ := hB.range i v hv
    refine (memT _).2 ⟨valid_qa ok.a1 b1, valid_qa ok.a2 b2, dipole_step C radial me ok.b1 ok.a1 ok.sp1 ok.s1 d1, dipole_step C radial me ok.b2 ok.a2 ok.sp2 ok.s2 d2, r1, r2, Or.inr ?_⟩
    show (v.1.m - a.m) + (v.2.m - b.m) = 0
    omega
  · intro i _ h j _ h' heq
    obtain ⟨hv, -, -⟩ := (nz i h).choose_spec
    obtain ⟨hv', -, -⟩ := (nz j h').choose_spec
    have : (nz i h).choose = (nz j h').choose := by
      generalize (nz i h).choose = v at heq hv
      generalize (nz j h').choose = v' at heq hv'
      rw [Prod.mk.injEq] at heq
      exact Prod.ext (congrArg QA.qn heq.1) (congrArg QA.qn heq.2)
    rw [this] at hv
    exact hB.once i j _ hv hv'
  · intro z hz h
    rw [Complex.ofReal_ne_zero] at h
    obtain ⟨d1, d2⟩ := dip z h
    obtain ⟨v1, v2, t1, t2, r1, r2, hm⟩ := (memT z).1 hz
    have hm' : (z.1.m - a.m) + (z.2.m - b.m) = 0 := by
      rcases hm with hm | hm
      · exact absurd hm (by simp)
      · exact hm
    obtain ⟨i, hv⟩ := hB.complete z.1.qn z.2.qn v1 v2 t1 t2 r1 r2 (by show z.1.m + z.2.m = a.m + b.m; omega) d1 d2
    have t := term i _ hv
    rw [if_pos (show z.1.qn.m + z.2.qn.m = a.m + b.m by show z.1.m + z.2.m = a.m + b.m; omega)] at t
    have h' : (if en i = en i0 then (0 : ℂ) else pairOper C radial me st (.mul 3) i0 i * pairOper C radial me st (.mul 3) i i0 / ((en i0 - en i : ℝ) : ℂ)) ≠ 0 := by
      rw [t, Complex.ofReal_ne_zero]
      exact h
    refine ⟨i, Finset.mem_univ i, h', ?_⟩
    have c1 : some (z.1.qn, z.2.qn) = some (nz i h').choose := hv.symm.trans (nz i h').choose_spec.1
    rw [← Option.some.inj c1]
    rfl
  · intro i _ h
    obtain ⟨hv, hm, -⟩ := (nz i h).choose_spec
    rw [term i _ hv, if_pos hm]

/-- **C122.** The C6 coefficient is the van der Waals shift: for a pair state (a, b) without degenerate partners in a basis that has the states the sum needs, the energy of the same number in the sorted list
is E(a) + E(b) + C6/R⁶ up to K/R⁹ at all distances above some R0, with the number C6 that `getC6` returns for θ = 0; R0 and K do not depend on the distance or the history of the system. -/
theorem C122_c6 (C : FieldConsts) (radial : RadKey → ℝ) (me : Method) (st : Fin N → Option (QN × QN)) (hst : GoodPairs st) (E : QN → ℝ) (en : Fin N → ℝ)
    (hE : ∀ i v, st i = some v → en i = E v.1 + E v.2) (i0 : Fin N) (a b : QN) (hi : st i0 = some (a, b)) (sa : a.s = 0 ∨ a.s = 1) (sb : b.s = 0 ∨ b.s = 1)
    (D : ℕ) (hDa : (D : ℤ) ≤ a.n - a.l) (hDb : (D : ℤ) ≤ b.n - b.l) (hB : C6Basis C radial me st D a b) (hn : ∀ c, c ≠ i0 → en c ≠ en i0) :
    ∃ K R0 : ℝ, 0 ≤ K ∧ ∀ s0 s s' : CSys OKPair PKey (Fin N) (Fin N), s0.Fresh (pairInter C radial me st) → s0.V = 1 → s0.H = (Matrix.diagonal fun c => (en c : ℂ)) →
      Hist (pairInter C radial me st) s0 s → s.build (pairInter C radial me st) = .ok s' →
      OnAxis s.p.1 → s.p.1.order = 3 → R0 ≤ |s.p.1.dist| → ∀ X e, Diagonalizes s'.H X e → Monotone e →
        ∀ i : Fin N, i.val = (Finset.univ.filter fun c => en c < en i0).card →
          |e i - (E a + E b + getC6 (cachePert C radial me E) 0 (D : ℚ) a.qa b.qa / s.p.1.dist ^ 6)| ≤ K / |s.p.1.dist| ^ 9 := by
  have ok : PairOK (a, b) (a, b) := hst.ok hi hi
  have z : pairOper C radial me st (.mul 3) i0 i0 = 0 := by
    rw [mul3_entry C radial me st hst, hi]
    have z : elem C radial me 1 a a = 0 := elem_zero C radial me a a ok.a1 ok.a1 rfl rfl 1 (by norm_num) (by simp [selMultipole])
    show mulEntry C radial me 3 (a, b) (a, b) = 0
    rw [mulEntry_angle C radial me (a, b) (a, b) ok]
    simp [z]
  obtain ⟨K, x0, hK, hx0, H⟩ := second_order_sorted en (pairOper C radial me st (.mul 3)) i0 hn z _ (C122_sum C radial me st hst E en hE i0 a b hi sa sb D hDa hDb hB)
  refine ⟨K, max 1 (1 / x0), hK, fun s0 s s' h0 hV hH hs hb ha ho hR X e hX he i hi' => ?_⟩
  have hc : ∀ c, (s0.H c c).re = en c := fun c => by rw [hH, Matrix.diagonal_apply_eq, Complex.ofReal_re]
  obtain ⟨Y, hY⟩ := axis_diagonalizes C radial me st s0.H s0 s s' h0 (by rw [hV, Matrix.conjTranspose_one, Matrix.one_mul, Matrix.mul_one])
    (fun c d h => by rw [hH, Matrix.diagonal_apply_ne _ h]) (fun c => by rw [hH, Matrix.diagonal_apply_eq, Complex.ofReal_im]) hs hb ha ho X e hX
  simp only [hc] at hY
  rw [hV, Matrix.conjTranspose_one, Matrix.one_mul, Matrix.mul_one] at hY
  obtain ⟨f1, f2, f3⟩ := far_distance hx0 hR
  have := H _ f1 Y e hY he i hi'
  rw [f2, f3, one_div_mul_eq_div, mul_one_div, hE i0 _ hi] at this
  exact this

/-! ## The hypotheses can be met -/

/-- 60 S1/2 and 60 P1/2 with m = 1/2. -/
def vS : QN := ⟨"Rb", 60, 0, 1, 1, 1⟩
/-- 60 P1/2 with m = 1/2. -/
def vP : QN := ⟨"Rb", 60, 1, 1, 1, 1⟩
/-- The pair states SS and PP with total momentum 1. -/
def vPairs : Fin 2 → Option (QN × QN) := ![some (vS, vS), some (vP, vP)]
/-- Radial elements that couple states with j = 1/2 only. -/
def vRad : RadKey → ℝ := fun k => if k.j = (1, 1) then 1 else 0

theorem vPairs_cases {i : Fin 2} {v : QN × QN} (h : vPairs i = some v) : (i = 0 ∧ v = (vS, vS)) ∨ (i = 1 ∧ v = (vP, vP)) := by
  fin_cases i
  · exact Or.inl ⟨rfl, (Option.some.inj h).symm⟩
  · exact Or.inr ⟨rfl, (Option.some.inj h).symm⟩

theorem vPairs_good : GoodPairs vPairs := by
  have ps : vS.Physical := by unfold QN.Physical vS; decide
  have pp : vP.Physical := by unfold QN.Physical vP; decide
  intro i a ha
  rcases vPairs_cases ha with ⟨-, rfl⟩ | ⟨-, rfl⟩
  · refine ⟨ps, ps, fun j b hb => ?_⟩
    rcases vPairs_cases hb with ⟨-, rfl⟩ | ⟨-, rfl⟩ <;> decide
  · refine ⟨pp, pp, fun j b hb => ?_⟩
    rcases vPairs_cases hb with ⟨-, rfl⟩ | ⟨-, rfl⟩ <;> decide

theorem vRad_elem (C : FieldConsts) (me : Method) (v : QN) (h : elem C vRad me 1 v vS ≠ 0) : v.j = 1 := by
  by_contra hj
  apply h
  unfold elem electricMultipole
  split_ifs with hs
  · rfl
  · have : vRad (RadKey.make me v.species 1 v.n vS.n v.l vS.l v.j vS.j) = 0 := by
      unfold vRad
      refine if_neg fun hc => hj ?_
      unfold RadKey.make at hc
      have e : vS.j = 1 := rfl
      rw [e] at hc
      split_ifs at hc <;> simp_all
    simp only [this]
    simp [outVal]

theorem vBasis (C : FieldConsts) (me : Method) : C6Basis C vRad me vPairs 0 vS vS := by
  constructor
  · intro i j v hi hj
    rcases vPairs_cases hi with ⟨rfl, rfl⟩ | ⟨rfl, rfl⟩ <;> rcases vPairs_cases hj with ⟨rfl, h⟩ | ⟨rfl, h⟩ <;> first | rfl | (exact absurd h (by decide))
  · intro i v hi
    rcases vPairs_cases hi with ⟨-, rfl⟩ | ⟨-, rfl⟩ <;> decide
  · intro i v hi
    rcases vPairs_cases hi with ⟨-, rfl⟩ | ⟨-, rfl⟩ <;> decide
  · intro v w hv hw sv sw nv nw hm dv dw
    have one : ∀ v : QN, ValidQ v.qa → DipoleStep vS.qa v.qa → |v.n - vS.n| ≤ ((0 : ℕ) : ℤ) → elem C vRad me 1 v vS ≠ 0 →
        v.species = "Rb" ∧ v.n = 60 ∧ v.l = 1 ∧ v.j = 1 ∧ v.s = 1 ∧ v.m ≤ 1 := by
      intro v hv sv hn hd
      have hj := vRad_elem C me v hd
      have l0 : 0 ≤ v.l := hv.l0
      have l1 : v.l = 0 + 1 ∨ v.l = 0 - 1 := sv.l
      have m1 : |v.m| ≤ v.j := hv.mj
      have n1 : |v.n - 60| ≤ 0 := hn
      rw [abs_le] at m1 n1
      exact ⟨sv.sp, by omega, by omega, hj, sv.s, by omega⟩
    obtain ⟨a1, a2, a3, a4, a5, a6⟩ := one v hv sv nv dv
    obtain ⟨b1, b2, b3, b4, b5, b6⟩ := one w hw sw nw dw
    have hm' : v.m + w.m = 1 + 1 := hm
    have ev : v = vP := by
      obtain ⟨x1, x2, x3, x4, x5, x6⟩ := v
      simp only at a1 a2 a3 a4 a5 a6 hm'
      unfold vP
      rw [QN.mk.injEq]
      exact ⟨a1, a2, a3, a4, by omega, a5⟩
    have ew : w = vP := by
      obtain ⟨x1, x2, x3, x4, x5, x6⟩ := w
      simp only at b1 b2 b3 b4 b5 b6 hm'
      unfold vP
      rw [QN.mk.injEq]
      exact ⟨b1, b2, b3, b4, by omega, b5⟩
    exact ⟨1, by rw [ev, ew]; rfl⟩

/-- The van der Waals shift of 60 S1/2, 60 S1/2 by 60 P1/2, 60 P1/2 (energies 0 and 14): beyond R0 the lower energy follows C6/R⁶. -/
example (C : FieldConsts) (me : Method) : ∃ K R0 : ℝ, 0 ≤ K ∧ ∀ p : OKPair, OnAxis p.1 → p.1.order = 3 → R0 ≤ |p.1.dist| →
    ∃ (s s' : CSys OKPair PKey (Fin 2) (Fin 2)) (X : Matrix (Fin 2) (Fin 2) ℂ) (e : Fin 2 → ℝ), s.p = p ∧ s.build (pairInter C vRad me vPairs) = .ok s' ∧ Diagonalizes s'.H X e ∧
      |e 0 - getC6 (cachePert C vRad me fun x => 7 * x.l) 0 ((0 : ℕ) : ℚ) vS.qa vS.qa / p.1.dist ^ 6| ≤ K / |p.1.dist| ^ 9 := by
  obtain ⟨K, R0, hK, H⟩ := C122_c6 C vRad me vPairs vPairs_good (fun x => 7 * x.l) ![0, 14] (by
      intro i v hv
      rcases vPairs_cases hv with ⟨rfl, rfl⟩ | ⟨rfl, rfl⟩ <;> norm_num [vS, vP]) 0 vS vS rfl (Or.inr rfl) (Or.inr rfl) 0 (by decide) (by decide) (vBasis C me) (by
      intro c hc
      fin_cases c
      · exact absurd rfl hc
      · norm_num)
  refine ⟨K, R0, hK, fun p ha ho hR => ?_⟩
  obtain ⟨s0, s, s', h0, hV, hH, hs, hb, hp, X, e, hX, he⟩ := two_atoms_run C vRad me vPairs ![0, 14] p
  refine ⟨s, s', X, e, hp, hb, hX, ?_⟩
  have := H s0 s s' h0 hV hH hs hb (by rw [hp]; exact ha) (by rw [hp]; exact ho) (by rw [hp]; exact hR) X e hX he 0 (by
    rw [Finset.filter_false_of_mem, Finset.card_empty]
    · rfl
    · intro c _
      fin_cases c <;> norm_num)
  rw [hp] at this
  simpa [vS] using this

/-- The hypotheses of `C122_two_atoms` (with the state SS as w) and of `C122_sorted` are met by these pair states. -/
example (C : FieldConsts) (me : Method) (p : OKPair) (ha : OnAxis p.1) (ho : p.1.order = 3) (hR : 1 ≤ |p.1.dist|) :
    ∃ (s s' : CSys OKPair PKey (Fin 2) (Fin 2)) (X : Matrix (Fin 2) (Fin 2) ℂ) (e : Fin 2 → ℝ) (K : ℝ), s.p = p ∧ s.build (pairInter C vRad me vPairs) = .ok s' ∧ Diagonalizes s'.H X e ∧
      ∃ i, |e i - (0 + getC6 (cachePert C vRad me fun x => 7 * x.l) 0 ((0 : ℕ) : ℚ) vS.qa vS.qa / p.1.dist ^ 6)| ≤ K / |p.1.dist| ^ 9 := by
  obtain ⟨s0, s, s', h0, hV, hH, hs, hb, hp, X, e, hX, he⟩ := two_atoms_run C vRad me vPairs ![0, 14] p
  have hc : (fun c => (s0.H c c).re) = ![0, 14] := by funext c; rw [hH, Matrix.diagonal_apply_eq, Complex.ofReal_re]
  have hW : s0.Vᴴ * pairOper C vRad me vPairs (.mul 3) * s0.V = pairOper C vRad me vPairs (.mul 3) := by rw [hV, Matrix.conjTranspose_one, Matrix.one_mul, Matrix.mul_one]
  have only : ∀ c : Fin 2, (s0.H c c).re = 0 → c = 0 := by
    intro c h
    rw [congrFun hc c] at h
    fin_cases c
    · rfl
    · norm_num at h
  have ok : PairOK (vS, vS) (vS, vS) := vPairs_good.ok (r := 0) (c := 0) rfl rfl
  have sum := C122_sum C vRad me vPairs vPairs_good (fun x => 7 * x.l) ![0, 14] (by
      intro i v hv
      rcases vPairs_cases hv with ⟨rfl, rfl⟩ | ⟨rfl, rfl⟩ <;> norm_num [vS, vP]) 0 vS vS rfl (Or.inr rfl) (Or.inr rfl) 0 (by decide) (by decide) (vBasis C me)
  obtain ⟨K, hK, H⟩ := C122_two_atoms C vRad me vPairs s0.H s0 h0 (by rw [hV, Matrix.conjTranspose_one, Matrix.one_mul, Matrix.mul_one])
    (fun c d h => by rw [hH, Matrix.diagonal_apply_ne _ h]) (fun c => by rw [hH, Matrix.diagonal_apply_eq, Complex.ofReal_im]) 0
    (getC6 (cachePert C vRad me fun x => 7 * x.l) 0 ((0 : ℕ) : ℚ) vS.qa vS.qa) (Pi.single 0 1) (by rw [sqNorm_eq]; simp)
    (by
      intro c h
      have : c ≠ 0 := by rintro rfl; exact h (by rw [congrFun hc 0]; rfl)
      simp [this])
    (by
      intro c h
      rw [only c h, hW, mulVec_single_one]
      show pairOper C vRad me vPairs (.mul 3) 0 0 = 0
      rw [mul3_entry C vRad me vPairs vPairs_good]
      have z : elem C vRad me 1 vS vS = 0 := elem_zero C vRad me vS vS ok.a1 ok.a1 rfl rfl 1 (by norm_num) (by simp [selMultipole])
      show mulEntry C vRad me 3 (vS, vS) (vS, vS) = 0
      rw [mulEntry_angle C vRad me (vS, vS) (vS, vS) ok]
      simp [z])
    (by
      intro c h
      rw [only c h, hW, hc, mulVec_single_one, Pi.single_eq_same, mul_one]
      exact sum)
  refine ⟨s, s', X, e, K, hp, hb, hX, ?_⟩
  have := H s s' hs hb (by rw [hp]; exact ha) (by rw [hp]; exact ho) (by rw [hp]; exact hR) X e hX
  rw [hp] at this
  exact this

/-! ## One atom in a weak field: the quadratic Stark shift -/

section stark

theorem stark_diagonalizes {k : Type} [Fintype k] [DecidableEq k] (C : FieldConsts) (radial : RadKey → ℝ) (me : Method) (st : Fin N → Option QN) (D : Matrix (Fin N) (Fin N) ℂ)
    (s0 s s' : CSys FieldParams FKey (Fin N) k) (h0 : s0.Fresh (fieldInter C radial me st)) (hD : s0.H = s0.Vᴴ * D * s0.V)
    (hd : ∀ c d, c ≠ d → s0.H c d = 0) (hr : ∀ c, (s0.H c c).im = 0) (hs : Hist (fieldInter C radial me st) s0 s) (hb : s.build (fieldInter C radial me st) = .ok s')
    (f : ℝ) (hf : 1e-24 < |f|) (hE : s.p.E = ⟨0, 0, f⟩) (hB : s.p.B = ⟨0, 0, 0⟩) (hc : s.p.charge = 0 ∨ s.p.dist = none)
    (X : Matrix k k ℂ) (e : k → ℝ) (hX : Diagonalizes s'.H X e) :
    ∃ Y, Diagonalizes ((Matrix.diagonal fun c => (((s0.H c c).re : ℝ) : ℂ)) + ((-f : ℝ) : ℂ) • (s0.Vᴴ * fieldOp C radial me st (.e 0) * s0.V)) Y e := by
  obtain ⟨Y, hY⟩ := diagonalizes_start _ D s0 s s' h0 hD hs hb X e hX
  refine ⟨Y, ?_⟩
  rw [start_oper _ D s0 hD] at hY
  have k1 := keys_along_z s.p f hf hE hB hc
  have c1 : addCoef s.p (.e 0) = ((-f : ℝ) : ℂ) := by
    show (if (0 : ℤ) = 0 then -sph s.p.E 0 else if (0 : ℤ) = 1 then sph s.p.E (-1) else sph s.p.E 1) = _
    rw [if_pos rfl, hE, (sph_along_z f).1]
    push_cast; rfl
  have : (((fieldInter C radial me st).need s.p).map fun key => (fieldInter C radial me st).coef s.p key • (s0.Vᴴ * (fieldInter C radial me st).op key * s0.V)).sum
      = ((-f : ℝ) : ℂ) • (s0.Vᴴ * fieldOp C radial me st (.e 0) * s0.V) := by
    show ((addKeys s.p).map fun key => addCoef s.p key • (s0.Vᴴ * fieldOp C radial me st key * s0.V)).sum = _
    rw [k1, List.map_cons, List.map_nil, List.sum_cons, List.sum_nil, add_zero, c1]
  rw [this, diagonal_real hd hr] at hY
  simpa only [Matrix.diagonal_apply_eq, Complex.ofReal_re] using hY

/-- **C122 (quadratic Stark shift).** For a level of one atom without degenerate partners (basis vectors of definite parity, so that there is no shift of first order): in all electric fields along z that are
weak enough (and above the threshold of 1e-24) the energy of the same number in the sorted list is E0 + μ f² up to K |f|³, where μ is the sum over the other states d of |⟨d|W|i⟩|²/(E0 - E_d) with the dipole operator W; K and f0 do not depend on
the field or the history. -/
theorem C122_stark {k : ℕ} (C : FieldConsts) (radial : RadKey → ℝ) (me : Method) (st : Fin N → Option QN) (hg : GoodStates st) (D : Matrix (Fin N) (Fin N) ℂ)
    (s0 : CSys FieldParams FKey (Fin N) (Fin k)) (h0 : s0.Fresh (fieldInter C radial me st)) (hD : s0.H = s0.Vᴴ * D * s0.V) (hV : DefiniteParity st s0.V)
    (hd : ∀ c d, c ≠ d → s0.H c d = 0) (hr : ∀ c, (s0.H c c).im = 0) (i0 : Fin k) (hn : ∀ c, c ≠ i0 → (s0.H c c).re ≠ (s0.H i0 i0).re) :
    ∃ K f0 : ℝ, 0 ≤ K ∧ 0 < f0 ∧ ∀ s s' : CSys FieldParams FKey (Fin N) (Fin k), Hist (fieldInter C radial me st) s0 s → s.build (fieldInter C radial me st) = .ok s' →
      ∀ f : ℝ, 1e-24 < |f| → |f| ≤ f0 → s.p.E = ⟨0, 0, f⟩ → s.p.B = ⟨0, 0, 0⟩ → (s.p.charge = 0 ∨ s.p.dist = none) → ∀ X e, Diagonalizes s'.H X e → Monotone e →
        ∀ i : Fin k, i.val = (Finset.univ.filter fun c => (s0.H c c).re < (s0.H i0 i0).re).card → |e i - ((s0.H i0 i0).re + f ^ 2 * secondShift (fun c => (s0.H c c).re) (s0.H i0 i0).re (s0.Vᴴ * fieldOp C radial me st (.e 0) * s0.V) i0)| ≤ K * |f| ^ 3 := by
  have h1 : (s0.Vᴴ * fieldOp C radial me st (.e 0) * s0.V) i0 i0 = 0 :=
    column_zero _ _ i0 fun i j hi hj => electric_entry C radial me st hg 0 i j fun a b ha hb => hV i0 i j a b ha hb hi hj
  obtain ⟨K, x0, hK, hx0, H⟩ := second_order_sorted (fun c => (s0.H c c).re) (s0.Vᴴ * fieldOp C radial me st (.e 0) * s0.V) i0 hn h1 _
    (secondOrder_diag _ _ _ (Matrix.isHermitian_conjTranspose_mul_mul _ (compOp_zero_herm _)) i0)
  refine ⟨K, x0, hK, hx0, fun s s' hs hb f hf hf0 hE hB hc X e hX he i hi => ?_⟩
  obtain ⟨Y, hY⟩ := stark_diagonalizes C radial me st D s0 s s' h0 hD hd hr hs hb f hf hE hB hc X e hX
  have := H (-f) (by rw [abs_neg]; exact hf0) Y e hY he i hi
  rwa [abs_neg, neg_sq] at this

end stark

/-- 60 S1/2 and 60 P1/2 with m = 1/2. -/
def vOne : Fin 2 → Option QN := ![some vS, some vP]

theorem vOne_good : GoodStates vOne := by
  have c : ∀ i a, vOne i = some a → a = vS ∨ a = vP := by
    intro i a h
    fin_cases i
    · exact Or.inl (Option.some.inj h).symm
    · exact Or.inr (Option.some.inj h).symm
  have ps : vS.Physical := by unfold QN.Physical vS; decide
  have pp : vP.Physical := by unfold QN.Physical vP; decide
  intro i a ha
  rcases c i a ha with rfl | rfl
  · refine ⟨ps, fun j b hb => ?_⟩
    rcases c j b hb with rfl | rfl <;> decide
  · refine ⟨pp, fun j b hb => ?_⟩
    rcases c j b hb with rfl | rfl <;> decide

/-- Two levels with energies 0 and 14 of one atom: the lower one is shifted quadratically in weak fields.  (The constants are those of one fresh system; its settings are then changed.) -/
example (C : FieldConsts) (radial : RadKey → ℝ) (me : Method) : ∃ (s0 : CSys FieldParams FKey (Fin 2) (Fin 2)) (K f0 : ℝ), s0.Fresh (fieldInter C radial me vOne) ∧ 0 ≤ K ∧ 0 < f0 ∧
    ∀ s s' : CSys FieldParams FKey (Fin 2) (Fin 2), Hist (fieldInter C radial me vOne) s0 s → s.build (fieldInter C radial me vOne) = .ok s' → ∀ f : ℝ, 1e-24 < |f| → |f| ≤ f0 → s.p.E = ⟨0, 0, f⟩ →
      s.p.B = ⟨0, 0, 0⟩ → s.p.charge = 0 → ∀ X e, Diagonalizes s'.H X e → Monotone e →
        |e 0 - (0 + f ^ 2 * secondShift ![0, 14] 0 (fieldOp C radial me vOne (.e 0)) 0)| ≤ K * |f| ^ 3 := by
  obtain ⟨s0, -, -, h0, hV, hH, -⟩ := one_atom_run C radial me vOne vOne_good ![0, 14] ⟨⟨0, 0, 0⟩, ⟨0, 0, 0⟩, false, 0, 0, none⟩
  have hc : ∀ c, (s0.H c c).re = (![0, 14] : Fin 2 → ℝ) c := fun c => by rw [hH, Matrix.diagonal_apply_eq, Complex.ofReal_re]
  obtain ⟨K, f0, hK, hf0, H⟩ := C122_stark C radial me vOne vOne_good s0.H s0 h0 (by rw [hV, Matrix.conjTranspose_one, Matrix.one_mul, Matrix.mul_one]) (by rw [hV]; exact states_definite _)
    (fun c d h => by rw [hH, Matrix.diagonal_apply_ne _ h]) (fun c => by rw [hH, Matrix.diagonal_apply_eq, Complex.ofReal_im]) 0 (by
      intro c hc'
      rw [hc, hc]
      fin_cases c
      · exact absurd rfl hc'
      · norm_num)
  refine ⟨s0, K, f0, h0, hK, hf0, fun s s' hs hb f hf hff hE hB hq X e hX he => ?_⟩
  have := H s s' hs hb f hf hff hE hB (Or.inl hq) X e hX he 0 (by
    rw [Finset.filter_false_of_mem, Finset.card_empty]
    · rfl
    · intro c _
      rw [hc, hc]
      fin_cases c <;> norm_num)
  rw [hV, Matrix.conjTranspose_one, Matrix.one_mul, Matrix.mul_one, show (fun c => (s0.H c c).re) = ![0, 14] from funext hc, hc] at this
  exact this

end PI
