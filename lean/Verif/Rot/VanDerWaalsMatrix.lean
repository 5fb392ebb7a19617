import Mathlib.Combinatorics.Hall.Basic
import Verif.Rot.VanDerWaals
/-!
# C123: the eigenvalues of the C6 matrix are the van der Waals shifts of a degenerate level

The levels that emerge from a degenerate level, with their multiplicities, follow the eigenvalues of the matrix that `getC6` returns for the states of the level.
-/

namespace PI

open Matrix

section general
variable {k : Type} [Fintype k] [DecidableEq k]

/-- The state corrected to second order nearly solves the eigenvalue equation; within the level it is not changed. -/
theorem second_order_vector (en : k → ℝ) (W : Matrix k k ℂ) (E0 μ : ℝ) (w : k → ℂ) (hw : ∀ c, en c ≠ E0 → w c = 0)
    (h1 : ∀ c, en c = E0 → (W *ᵥ w) c = 0) (h2 : ∀ c, en c = E0 → (secondOrder en E0 W *ᵥ w) c = μ * w c) :
    ∃ K : ℝ, 0 ≤ K ∧ ∀ x : ℝ, |x| ≤ 1 → ∃ v : k → ℂ, (∀ c, en c = E0 → v c = w c) ∧
      sqNorm (((Matrix.diagonal fun c => (en c : ℂ)) + (x : ℂ) • W) *ᵥ v - ((E0 + x ^ 2 * μ : ℝ) : ℂ) • v) ≤ (K * |x| ^ 3) ^ 2 := by
  set v1 : k → ℂ := fun c => if en c = E0 then 0 else (W *ᵥ w) c / ((E0 - en c : ℝ) : ℂ) with hv1
  set v2 : k → ℂ := fun c => if en c = E0 then 0 else (W *ᵥ v1) c / ((E0 - en c : ℝ) : ℂ) with hv2
  set K := Real.sqrt (∑ c, (‖(W *ᵥ v2) c - μ * v1 c‖ + ‖(μ : ℂ) * v2 c‖) ^ 2) with hK
  refine ⟨K, Real.sqrt_nonneg _, fun x hx => ?_⟩
  have h2' : ∀ c, en c = E0 → (W *ᵥ v1) c = μ * w c := by
    intro c hc
    rw [← h2 c hc]
    simp only [mulVec, dotProduct, secondOrder, hv1, Finset.sum_mul]
    rw [Finset.sum_comm]
    refine Finset.sum_congr rfl fun d _ => ?_
    by_cases hd : en d = E0
    · simp [hd]
    · simp only [if_neg hd]
      rw [Finset.sum_div, Finset.mul_sum]
      exact Finset.sum_congr rfl fun b _ => by ring
  set v : k → ℂ := w + (x : ℂ) • v1 + (x ^ 2 : ℂ) • v2 with hv
  have hvS : ∀ c, en c = E0 → v c = w c := by
    intro c hc
    simp [hv, hv1, hv2, hc]
  have res : ∀ c, (((Matrix.diagonal fun c => (en c : ℂ)) + (x : ℂ) • W) *ᵥ v - ((E0 + x ^ 2 * μ : ℝ) : ℂ) • v) c
      = (x : ℂ) ^ 3 * ((W *ᵥ v2) c - μ * v1 c) - (x : ℂ) ^ 4 * (μ * v2 c) := by
    intro c
    have lin : (W *ᵥ v) c = (W *ᵥ w) c + x * (W *ᵥ v1) c + x ^ 2 * (W *ᵥ v2) c := by
      rw [hv, mulVec_add, mulVec_add, mulVec_smul, mulVec_smul]
      rfl
    have vc : v c = w c + x * v1 c + x ^ 2 * v2 c := rfl
    rw [Pi.sub_apply, add_mulVec, Pi.add_apply, mulVec_diagonal, smul_mulVec, Pi.smul_apply, Pi.smul_apply, smul_eq_mul, smul_eq_mul, lin, vc]
    by_cases hc : en c = E0
    · have a1 : v1 c = 0 := by simp [hv1, hc]
      have a2 : v2 c = 0 := by simp [hv2, hc]
      rw [a1, a2, h1 c hc, h2' c hc, hc]
      push_cast
      ring
    · have ne : ((E0 - en c : ℝ) : ℂ) ≠ 0 := by
        rw [Complex.ofReal_ne_zero]
        exact sub_ne_zero.2 (Ne.symm hc)
      have a1 : (W *ᵥ w) c = v1 c * ((E0 - en c : ℝ) : ℂ) := by simp only [hv1, if_neg hc]; rw [div_mul_cancel₀ _ ne]
      have a2 : (W *ᵥ v1) c = v2 c * ((E0 - en c : ℝ) : ℂ) := by
        rw [hv2]; simp only [if_neg hc]; rw [div_mul_cancel₀ _ ne]
      rw [a1, a2, hw c hc]
      push_cast
      ring
  refine ⟨v, hvS, ?_⟩
  rw [sqNorm_eq, mul_pow, hK, Real.sq_sqrt (by positivity), Finset.sum_mul]
  refine Finset.sum_le_sum fun c _ => ?_
  rw [res c, ← mul_pow]
  refine pow_le_pow_left₀ (norm_nonneg _) ?_ 2
  refine (norm_sub_le _ _).trans ?_
  rw [norm_mul, norm_mul, norm_pow, norm_pow, Complex.norm_real, Real.norm_eq_abs]
  have : |x| ^ 4 ≤ |x| ^ 3 := pow_le_pow_of_le_one (abs_nonneg x) hx (by norm_num)
  nlinarith [norm_nonneg ((μ : ℂ) * v2 c)]

/-- States that nearly solve the eigenvalue equation and are independent: there are as many different eigenvalues (with multiplicities) as states, each near the number of its state. -/
theorem residual_levels {ι : Type} [Fintype ι] [DecidableEq ι] {A Y : Matrix k k ℂ} {e : k → ℝ} (h : Diagonalizes A Y e) (v : ι → k → ℂ) (lam : ι → ℝ) (ρ ρ' : ℝ)
    (hv : ∀ c : ι → ℂ, sqNorm c ≤ sqNorm (∑ j, c j • v j)) (hr : ∀ j, sqNorm (A *ᵥ v j - (lam j : ℂ) • v j) ≤ ρ ^ 2) (h0 : 0 < ρ') (hρ : Fintype.card ι * ρ ^ 2 < ρ' ^ 2) :
    ∃ f : ι → k, Function.Injective f ∧ ∀ j, |e (f j) - lam j| ≤ ρ' := by
  classical
  have h1 : Y * Yᴴ = 1 := mul_eq_one_comm.1 h.1
  have hYY : (Yᴴ)ᴴ * Yᴴ = 1 := by rw [Matrix.conjTranspose_conjTranspose, h1]
  -- the eigenvectors' components
  have er : ∀ j, ∑ i, (e i - lam j) ^ 2 * ‖(Yᴴ *ᵥ v j) i‖ ^ 2 ≤ ρ ^ 2 := by
    intro j
    refine le_trans (le_of_eq ?_) (hr j)
    have e1 : A *ᵥ v j - (lam j : ℂ) • v j = Y *ᵥ fun i => ((e i - lam j : ℝ) : ℂ) * (Yᴴ *ᵥ v j) i := by
      have v1 : v j = Y *ᵥ (Yᴴ *ᵥ v j) := by rw [mulVec_mulVec, h1, one_mulVec]
      conv_lhs => rw [v1]
      rw [mulVec_mulVec, h.2, ← mulVec_mulVec, ← mulVec_smul, ← mulVec_sub]
      congr 1
      funext i
      rw [Pi.sub_apply, mulVec_diagonal, Pi.smul_apply, smul_eq_mul]
      push_cast
      ring
    rw [e1, sqNorm_isometry Y h.1, sqNorm_eq]
    refine Finset.sum_congr rfl fun i _ => ?_
    rw [norm_mul, mul_pow, Complex.norm_real, Real.norm_eq_abs, sq_abs]
  obtain ⟨f, hf, hn⟩ := (Finset.all_card_le_biUnion_card_iff_exists_injective (fun j : ι => Finset.univ.filter fun i : k => |e i - lam j| ≤ ρ')).1 (by
    intro J
    by_contra hlt
    push Not at hlt
    set F := J.biUnion (fun j : ι => Finset.univ.filter fun i : k => |e i - lam j| ≤ ρ') with hF
    -- a combination of the states without components in F
    let M : Matrix F J ℂ := fun i j => (Yᴴ *ᵥ v j) i
    have hdim : Module.finrank ℂ (F → ℂ) < Module.finrank ℂ (J → ℂ) := by
      rw [Module.finrank_fintype_fun_eq_card, Module.finrank_fintype_fun_eq_card, Fintype.card_coe, Fintype.card_coe]
      exact hlt
    obtain ⟨c', hc', hc0⟩ := (Submodule.ne_bot_iff _).1 (LinearMap.ker_ne_bot_of_finrank_lt (f := M.mulVecLin) hdim)
    let c : ι → ℂ := fun j => if hj : j ∈ J then c' ⟨j, hj⟩ else 0
    have cJ : ∀ j, j ∉ J → c j = 0 := fun j hj => dif_neg hj
    have comp : ∀ i, (Yᴴ *ᵥ ∑ j, c j • v j) i = ∑ j ∈ J, c j * (Yᴴ *ᵥ v j) i := by
      intro i
      rw [mulVec_sum, Finset.sum_apply]
      rw [← Finset.sum_subset (Finset.subset_univ J) (fun j _ hj => by rw [cJ j hj, zero_smul, mulVec_zero]; rfl)]
      refine Finset.sum_congr rfl fun j _ => ?_
      rw [mulVec_smul, Pi.smul_apply, smul_eq_mul]
    have inF : ∀ i ∈ F, (Yᴴ *ᵥ ∑ j, c j • v j) i = 0 := by
      intro i hi
      rw [comp, ← Finset.sum_coe_sort]
      have := congrFun (LinearMap.mem_ker.1 hc') ⟨i, hi⟩
      rw [Matrix.mulVecLin_apply] at this
      simp only [mulVec, dotProduct, M] at this
      rw [Pi.zero_apply] at this
      rw [← this]
      refine Finset.sum_congr rfl fun j _ => ?_
      rw [show c j = c' j from dif_pos j.2, mul_comm]
      rfl
    have outF : ∀ i, i ∉ F → ∀ j ∈ J, ρ' < |e i - lam j| := by
      intro i hi j hj
      by_contra hc
      push Not at hc
      exact hi (Finset.mem_biUnion.2 ⟨j, hj, Finset.mem_filter.2 ⟨Finset.mem_univ i, hc⟩⟩)
    have cpos : 0 < sqNorm c := by
      rw [sqNorm_eq]
      obtain ⟨j, hj⟩ := Function.ne_iff.1 hc0
      refine Finset.sum_pos' (fun i _ => by positivity) ⟨j, Finset.mem_univ _, ?_⟩
      rw [show c j = c' j from dif_pos j.2]
      have : c' j ≠ 0 := hj
      positivity
    have up : sqNorm (∑ j, c j • v j) ≤ sqNorm c * ∑ j ∈ J, ∑ i ∈ Finset.univ.filter (· ∉ F), ‖(Yᴴ *ᵥ v j) i‖ ^ 2 := by
      rw [← sqNorm_isometry Yᴴ hYY, sqNorm_eq, ← Finset.sum_filter_add_sum_filter_not Finset.univ (· ∈ F), Finset.sum_eq_zero (s := Finset.univ.filter (· ∈ F)), zero_add, Finset.sum_comm, Finset.mul_sum]
      · refine Finset.sum_le_sum fun i _ => ?_
        rw [comp]
        have cs : ‖∑ j ∈ J, c j * (Yᴴ *ᵥ v j) i‖ ^ 2 ≤ (∑ j ∈ J, ‖c j‖ ^ 2) * ∑ j ∈ J, ‖(Yᴴ *ᵥ v j) i‖ ^ 2 := by
          refine le_trans ?_ (Finset.sum_mul_sq_le_sq_mul_sq J (fun j => ‖c j‖) fun j => ‖(Yᴴ *ᵥ v j) i‖)
          refine pow_le_pow_left₀ (norm_nonneg _) ?_ 2
          refine (norm_sum_le _ _).trans (le_of_eq ?_)
          exact Finset.sum_congr rfl fun j _ => norm_mul _ _
        refine cs.trans (mul_le_mul_of_nonneg_right ?_ (Finset.sum_nonneg fun j _ => by positivity))
        rw [sqNorm_eq]
        exact Finset.sum_le_sum_of_subset_of_nonneg (Finset.subset_univ J) fun j _ _ => by positivity
      · intro i hi
        rw [inF i (Finset.mem_filter.1 hi).2, norm_zero, zero_pow two_ne_zero]
    have small : ∀ j ∈ J, ρ' ^ 2 * ∑ i ∈ Finset.univ.filter (· ∉ F), ‖(Yᴴ *ᵥ v j) i‖ ^ 2 ≤ ρ ^ 2 := by
      intro j hj
      refine le_trans ?_ (er j)
      rw [Finset.mul_sum]
      refine le_trans (Finset.sum_le_sum (g := fun i => (e i - lam j) ^ 2 * ‖(Yᴴ *ᵥ v j) i‖ ^ 2) fun i hi => ?_) (Finset.sum_le_sum_of_subset_of_nonneg (Finset.subset_univ _) fun i _ _ => by positivity)
      refine mul_le_mul_of_nonneg_right ?_ (by positivity)
      rw [← sq_abs (e i - lam j)]
      exact pow_le_pow_left₀ h0.le (outF i (Finset.mem_filter.1 hi).2 j hj).le 2
    have tot : ρ' ^ 2 * ∑ j ∈ J, ∑ i ∈ Finset.univ.filter (· ∉ F), ‖(Yᴴ *ᵥ v j) i‖ ^ 2 ≤ Fintype.card ι * ρ ^ 2 := by
      rw [Finset.mul_sum]
      refine (Finset.sum_le_sum small).trans ?_
      rw [Finset.sum_const, nsmul_eq_mul]
      exact mul_le_mul_of_nonneg_right (by exact_mod_cast Finset.card_le_univ J) (by positivity)
    have := (hv c).trans up
    have p2 : 0 < ρ' ^ 2 := by positivity
    set S := ∑ j ∈ J, ∑ i ∈ Finset.univ.filter (· ∉ F), ‖(Yᴴ *ᵥ v j) i‖ ^ 2 with hS
    have one : 1 ≤ S := by
      by_contra hc
      push Not at hc
      nlinarith
    nlinarith)
  exact ⟨f, hf, fun j => (Finset.mem_filter.1 (hn j)).2⟩

/-- Second-order perturbation theory for a degenerate level with a bound of the rest: for an orthonormal family of eigenvectors of the effective operator within the level, as many levels follow the
second-order energies, with their multiplicities. -/
theorem second_order_levels {ι : Type} [Fintype ι] [DecidableEq ι] (en : k → ℝ) (W : Matrix k k ℂ) (E0 : ℝ) (μ : ι → ℝ) (w : ι → k → ℂ) (hwo : ∀ i j, star (w i) ⬝ᵥ w j = if i = j then 1 else 0)
    (hw : ∀ j c, en c ≠ E0 → w j c = 0)
    (h1 : ∀ j c, en c = E0 → (W *ᵥ w j) c = 0) (h2 : ∀ j c, en c = E0 → (secondOrder en E0 W *ᵥ w j) c = μ j * w j c) :
    ∃ K : ℝ, 0 ≤ K ∧ ∀ x : ℝ, x ≠ 0 → |x| ≤ 1 → ∀ (Y : Matrix k k ℂ) (e : k → ℝ), Diagonalizes ((Matrix.diagonal fun c => (en c : ℂ)) + (x : ℂ) • W) Y e →
      ∃ f : ι → k, Function.Injective f ∧ ∀ j, |e (f j) - (E0 + x ^ 2 * μ j)| ≤ K * |x| ^ 3 := by
  choose K' hK' H using fun j => second_order_vector en W E0 (μ j) (w j) (hw j) (h1 j) (h2 j)
  set K0 := ∑ j, K' j with hK0
  have K0n : 0 ≤ K0 := Finset.sum_nonneg fun j _ => hK' j
  set m : ℝ := (Fintype.card ι : ℝ) with hm
  have mn : 0 ≤ m := Nat.cast_nonneg _
  have m2 : m ≤ m ^ 2 := by
    have : (Fintype.card ι) ≤ (Fintype.card ι) ^ 2 := Nat.le_self_pow (by norm_num) _
    rw [hm]
    exact_mod_cast this
  refine ⟨m * K0 + 1, by positivity, fun x hx0 hx Y e hY => ?_⟩
  choose v hvS hvr using fun j => H j x hx
  have xp : 0 < |x| ^ 3 := by positivity
  refine residual_levels hY v (fun j => E0 + x ^ 2 * μ j) (K0 * |x| ^ 3) _ ?_ ?_ (by positivity) ?_
  · intro c
    have cw : sqNorm c = sqNorm (∑ j, c j • w j) := by
      unfold sqNorm
      congr 1
      rw [star_sum, sum_dotProduct]
      simp only [dotProduct_sum, star_smul, smul_dotProduct, dotProduct_smul, hwo, smul_eq_mul]
      simp [dotProduct]
      exact Finset.sum_congr rfl fun _ _ => mul_comm _ _
    rw [cw, sqNorm_eq, sqNorm_eq]
    refine Finset.sum_le_sum fun d _ => ?_
    rw [Finset.sum_apply, Finset.sum_apply]
    by_cases hd : en d = E0
    · refine le_of_eq ?_
      congr 2
      refine Finset.sum_congr rfl fun j _ => ?_
      rw [Pi.smul_apply, Pi.smul_apply, hvS j d hd]
    · rw [Finset.sum_eq_zero fun j _ => by rw [Pi.smul_apply, hw j d hd, smul_zero], norm_zero, zero_pow two_ne_zero]
      positivity
  · intro j
    refine (hvr j).trans (pow_le_pow_left₀ (by have := hK' j; positivity) ?_ 2)
    exact mul_le_mul_of_nonneg_right (Finset.single_le_sum (f := K') (fun j _ => hK' j) (Finset.mem_univ j)) xp.le
  · show m * (K0 * |x| ^ 3) ^ 2 < ((m * K0 + 1) * |x| ^ 3) ^ 2
    rw [mul_pow, mul_pow, ← mul_assoc]
    refine mul_lt_mul_of_pos_right ?_ (by positivity)
    nlinarith [mul_nonneg mn K0n, mul_le_mul_of_nonneg_right m2 (sq_nonneg K0)]

end general


/-- The energies of the numbers of the level in the sorted list follow the sorted second-order energies. -/
theorem second_order_levels_sorted {k m : ℕ} (en : Fin k → ℝ) (W : Matrix (Fin k) (Fin k) ℂ) (E0 : ℝ) (hm : m = (Finset.univ.filter fun c => en c = E0).card) (μ : Fin m → ℝ) (hμ : Monotone μ)
    (w : Fin m → Fin k → ℂ) (hwo : ∀ i j, star (w i) ⬝ᵥ w j = if i = j then 1 else 0) (hw : ∀ j c, en c ≠ E0 → w j c = 0)
    (h1 : ∀ j c, en c = E0 → (W *ᵥ w j) c = 0) (h2 : ∀ j c, en c = E0 → (secondOrder en E0 W *ᵥ w j) c = μ j * w j c) :
    ∃ K x0 : ℝ, 0 ≤ K ∧ 0 < x0 ∧ ∀ x : ℝ, x ≠ 0 → |x| ≤ x0 → ∀ (Y : Matrix (Fin k) (Fin k) ℂ) (e : Fin k → ℝ),
      Diagonalizes ((Matrix.diagonal fun c => (en c : ℂ)) + (x : ℂ) • W) Y e → Monotone e →
        ∀ (j : Fin m) (i : Fin k), i.val = (Finset.univ.filter fun c => en c < E0).card + j.val → |e i - (E0 + x ^ 2 * μ j)| ≤ K * |x| ^ 3 := by
  obtain ⟨K, hK, H⟩ := second_order_levels en W E0 μ w hwo hw h1 h2
  obtain ⟨g, g0, hg⟩ := level_gap en E0
  set b := ∑ i, ∑ j, ‖W i j‖ with hb
  have b0 : 0 ≤ b := by positivity
  set m0 := ∑ j, |μ j| with hm0
  have m0n : 0 ≤ m0 := by positivity
  set M := K + m0 + b + 1 with hM
  have M0 : 0 < M := by positivity
  set p := (Finset.univ.filter fun c => en c < E0).card with hp
  refine ⟨K, min 1 (g / (4 * M)), hK, lt_min one_pos (by positivity), fun x hx0 hx Y e hY he j i hi => ?_⟩
  have x1 : |x| ≤ 1 := hx.trans (min_le_left _ _)
  have x2 : M * |x| ≤ g / 4 := by
    have := mul_le_mul_of_nonneg_left (hx.trans (min_le_right _ _)) M0.le
    refine this.trans (le_of_eq ?_)
    field_simp
  have xn := abs_nonneg x
  obtain ⟨f, hf, hn⟩ := H x hx0 x1 Y e hY
  have near : ∀ l, |e (f l) - E0| ≤ g / 4 := by
    intro l
    have ml : |μ l| ≤ m0 := Finset.single_le_sum (f := fun j => |μ j|) (fun j _ => abs_nonneg _) (Finset.mem_univ l)
    have t : |x ^ 2 * μ l| ≤ m0 * |x| := by
      rw [abs_mul, abs_pow, mul_comm]
      exact mul_le_mul ml (by nlinarith) (by positivity) m0n
    have t2 : K * |x| ^ 3 ≤ K * |x| := by
      have : |x| ^ 3 ≤ |x| := by
        calc |x| ^ 3 ≤ |x| ^ 1 := pow_le_pow_of_le_one xn x1 (by norm_num)
          _ = |x| := pow_one _
      exact mul_le_mul_of_nonneg_left this hK
    have t3 : e (f l) - E0 = (e (f l) - (E0 + x ^ 2 * μ l)) + x ^ 2 * μ l := by ring
    rw [t3]
    refine (abs_add_le _ _).trans ?_
    have : K * |x| + m0 * |x| ≤ M * |x| := by
      rw [← add_mul]
      exact mul_le_mul_of_nonneg_right (by rw [hM]; linarith) xn
    have := hn l
    linarith
  have xb : |x| * b ≤ g / 4 := by
    have : b * |x| ≤ M * |x| := mul_le_mul_of_nonneg_right (by rw [hM]; linarith) xn
    linarith
  have up : ∀ l, (f l).val < p + m := by
    intro l
    have nl := abs_le.1 (near l)
    have a := (levels_near en W b (bounded_entries W) x Y e hY (E0 + g / 4)).1
    have q : (f l).val + 1 ≤ levelsUpTo e (E0 + g / 4) := by
      unfold levelsUpTo
      have : Finset.Iic (f l) ⊆ Finset.univ.filter fun c => e c ≤ E0 + g / 4 := fun c hc =>
        Finset.mem_filter.2 ⟨Finset.mem_univ _, (he (Finset.mem_Iic.1 hc)).trans (by linarith)⟩
      have := Finset.card_le_card this
      rwa [Fin.card_Iic] at this
    have u : levelsUpTo en (E0 + g / 4 + |x| * b) ≤ p + m := by
      unfold levelsUpTo
      have : (Finset.univ.filter fun c => en c ≤ E0 + g / 4 + |x| * b) ⊆ (Finset.univ.filter fun c => en c < E0) ∪ (Finset.univ.filter fun c => en c = E0) := by
        intro c hc
        rw [Finset.mem_filter] at hc
        rw [Finset.mem_union, Finset.mem_filter, Finset.mem_filter]
        by_cases h : en c = E0
        · exact Or.inr ⟨Finset.mem_univ _, h⟩
        · refine Or.inl ⟨Finset.mem_univ _, ?_⟩
          have := hg c h
          rcases abs_cases (en c - E0) with h3 | h3 <;> linarith [hc.2]
      have := (Finset.card_le_card this).trans (Finset.card_union_le _ _)
      rwa [← hm, ← hp] at this
    omega
  have lo : ∀ l, p ≤ (f l).val := by
    intro l
    have nl := abs_le.1 (near l)
    have a := (levels_near en W b (bounded_entries W) x Y e hY (E0 - g)).2
    have q : p ≤ levelsUpTo en (E0 - g) := by
      unfold levelsUpTo
      refine Finset.card_le_card fun c hc => ?_
      rw [Finset.mem_filter] at hc ⊢
      refine ⟨Finset.mem_univ _, ?_⟩
      have := hg c hc.2.ne
      rcases abs_cases (en c - E0) with h3 | h3 <;> linarith [hc.2]
    have u : levelsUpTo e (E0 - g + |x| * b) ≤ (f l).val := by
      unfold levelsUpTo
      have : (Finset.univ.filter fun c => e c ≤ E0 - g + |x| * b) ⊆ Finset.Iio (f l) := by
        intro c hc
        rw [Finset.mem_filter] at hc
        rw [Finset.mem_Iio]
        by_contra h
        have := he (not_lt.1 h)
        linarith [hc.2]
      have := Finset.card_le_card this
      rwa [Fin.card_Iio] at this
    omega
  have x2n : 0 ≤ x ^ 2 := sq_nonneg x
  obtain ⟨l1, hl1, hf1⟩ : ∃ l, l ≤ j ∧ i ≤ f l := by
    by_contra hc
    push Not at hc
    have s : (Finset.Iic j).image (fun l => (f l).val) ⊆ Finset.Ico p i.val := by
      intro y hy
      obtain ⟨l, hl, rfl⟩ := Finset.mem_image.1 hy
      exact Finset.mem_Ico.2 ⟨lo l, Fin.lt_def.1 (hc l (Finset.mem_Iic.1 hl))⟩
    have := Finset.card_le_card s
    rw [Finset.card_image_of_injective _ (show Function.Injective (fun l => (f l).val) from Fin.val_injective.comp hf), Fin.card_Iic, Nat.card_Ico] at this
    omega
  obtain ⟨l2, hl2, hf2⟩ : ∃ l, j ≤ l ∧ f l ≤ i := by
    by_contra hc
    push Not at hc
    have s : (Finset.Ici j).image (fun l => (f l).val) ⊆ Finset.Ioo i.val (p + m) := by
      intro y hy
      obtain ⟨l, hl, rfl⟩ := Finset.mem_image.1 hy
      exact Finset.mem_Ioo.2 ⟨Fin.lt_def.1 (hc l (Finset.mem_Ici.1 hl)), up l⟩
    have := Finset.card_le_card s
    rw [Finset.card_image_of_injective _ (show Function.Injective (fun l => (f l).val) from Fin.val_injective.comp hf), Fin.card_Ici, Nat.card_Ioo] at this
    have := j.isLt
    omega
  have a1 := abs_le.1 (hn l1)
  have a2 := abs_le.1 (hn l2)
  have b1 := mul_le_mul_of_nonneg_left (hμ hl1) x2n
  have b2 := mul_le_mul_of_nonneg_left (hμ hl2) x2n
  have c1 := he hf1
  have c2 := he hf2
  rw [abs_le]
  constructor <;> linarith

/-! ## The virtual states of the matrix version -/

/-- The states of a level with the same species, spin, n and l for each atom (the quantum numbers j and m may differ). -/
structure SameShell (a b : QA) : Prop where
  sp : a.sp = b.sp
  n : a.n = b.n
  l : a.l = b.l
  s : a.s = b.s

theorem virtQM_some {t : Bool} {S : List (QA × QA)} {r c : QA × QA} {n0 n1 l0 l1 j0 j1 : ℤ} {q : ℤ × ℤ} {v : VirtM} (h : virtQM t S r c n0 n1 l0 l1 j0 j1 q = some v) :
    virtQ c.1 c.2 n0 n1 l0 l1 j0 j1 q = some (v.1, v.2.2) ∧ v.2.2 = q ∧ v.1 = (⟨c.1.sp, n0, l0, c.1.s, j0, c.1.m + 2 * q.1⟩, ⟨c.2.sp, n1, l1, c.2.s, j1, c.2.m + 2 * q.2⟩) ∧
      v.2.1 = ((r.1.m - v.1.1.m).tdiv 2, (r.2.m - v.1.2.m).tdiv 2) ∧ |v.2.1.1| ≤ 1 ∧ |v.2.1.2| ≤ 1 ∧ (t = false → v.2.1.1 + v.2.1.2 = 0) ∧ v.1 ∉ S := by
  unfold virtQM at h
  dsimp only at h
  unfold virtQ
  split_ifs at h with h1 h2 h3 h4 h5
  simp only [Option.some.injEq] at h
  subst h
  rw [if_neg h1, if_neg h2]
  push Not at h3
  refine ⟨rfl, rfl, rfl, rfl, h3.1, h3.2, fun ht => ?_, h5⟩
  by_contra hz
  exact h4 ⟨by rw [ht]; rfl, hz⟩

theorem nodup_lLoopM (lr lc n : ℤ) : (lLoopM lr lc n).Nodup := by
  unfold lLoopM
  split_ifs <;> simp
  omega

theorem nodup_jLoopM (l s jr jc : ℤ) : (jLoopM l s jr jc).Nodup := by
  unfold jLoopM
  dsimp only
  have hb : (if |(|2 * l - s|) - jc| < 4 ∧ |(|2 * l - s|) - jr| < 4 then [|2 * l - s|] else []).Nodup := by split <;> simp
  split
  · exact nodup_setIns hb
  · exact hb

theorem mem_virtualsM {t : Bool} {δ : ℚ} {S : List (QA × QA)} {r c : QA × QA} {v : VirtM} (h : v ∈ virtualsM t δ S r c) :
    ∃ n0 n1 l0 l1 j0 j1 q, n0 ∈ nLoop (min r.1.n c.1.n) (max r.1.n c.1.n) δ ∧ n1 ∈ nLoop (min r.2.n c.2.n) (max r.2.n c.2.n) δ ∧ l0 ∈ lLoopM r.1.l c.1.l n0 ∧ l1 ∈ lLoopM r.2.l c.2.l n1 ∧
      j0 ∈ jLoopM l0 c.1.s r.1.j c.1.j ∧ j1 ∈ jLoopM l1 c.2.s r.2.j c.2.j ∧ q ∈ qLoop t ∧ virtQM t S r c n0 n1 l0 l1 j0 j1 q = some v := by
  unfold virtualsM at h
  split_ifs at h
  · simp at h
  · simp at h
  · simp only [List.mem_flatMap, List.mem_filterMap] at h
    obtain ⟨n0, a1, n1, a2, l0, a3, l1, a4, j0, a5, j1, a6, q, a7, a8⟩ := h
    exact ⟨n0, n1, l0, l1, j0, j1, q, a1, a2, a3, a4, a5, a6, a7, a8⟩

theorem nodup_virtualsM (t : Bool) (δ : ℚ) (S : List (QA × QA)) (r c : QA × QA) : ((virtualsM t δ S r c).map (·.1)).Nodup := by
  have h : (virtualsM t δ S r c).Nodup := by
    unfold virtualsM
    split_ifs
    · exact List.nodup_nil
    · exact List.nodup_nil
    refine nodup_flatMap_key _ _ (fun v => v.1.1.n) (nodup_nLoop _ _ _) ?_ ?_
    swap
    · intro n0 _ x hx
      simp only [List.mem_flatMap, List.mem_filterMap] at hx
      obtain ⟨n1, h2, l0, h3, l1, h4, j0, h5, j1, h6, q, h7, h8⟩ := hx
      rw [(virtQM_some h8).2.2.1]
    intro n0 _
    refine nodup_flatMap_key _ _ (fun v => v.1.2.n) (nodup_nLoop _ _ _) ?_ ?_
    swap
    · intro n1 _ x hx
      simp only [List.mem_flatMap, List.mem_filterMap] at hx
      obtain ⟨l0, h3, l1, h4, j0, h5, j1, h6, q, h7, h8⟩ := hx
      rw [(virtQM_some h8).2.2.1]
    intro n1 _
    refine nodup_flatMap_key _ _ (fun v => v.1.1.l) (nodup_lLoopM _ _ _) ?_ ?_
    swap
    · intro l0 _ x hx
      simp only [List.mem_flatMap, List.mem_filterMap] at hx
      obtain ⟨l1, h4, j0, h5, j1, h6, q, h7, h8⟩ := hx
      rw [(virtQM_some h8).2.2.1]
    intro l0 _
    refine nodup_flatMap_key _ _ (fun v => v.1.2.l) (nodup_lLoopM _ _ _) ?_ ?_
    swap
    · intro l1 _ x hx
      simp only [List.mem_flatMap, List.mem_filterMap] at hx
      obtain ⟨j0, h5, j1, h6, q, h7, h8⟩ := hx
      rw [(virtQM_some h8).2.2.1]
    intro l1 _
    refine nodup_flatMap_key _ _ (fun v => v.1.1.j) (nodup_jLoopM _ _ _ _) ?_ ?_
    swap
    · intro j0 _ x hx
      simp only [List.mem_flatMap, List.mem_filterMap] at hx
      obtain ⟨j1, h6, q, h7, h8⟩ := hx
      rw [(virtQM_some h8).2.2.1]
    intro j0 _
    refine nodup_flatMap_key _ _ (fun v => v.1.2.j) (nodup_jLoopM _ _ _ _) ?_ ?_
    swap
    · intro j1 _ x hx
      simp only [List.mem_filterMap] at hx
      obtain ⟨q, h7, h8⟩ := hx
      rw [(virtQM_some h8).2.2.1]
    intro j1 _
    refine nodup_filterMap_key _ _ (fun v => v.2.2) (nodup_qLoop t) ?_
    intro q x hx
    exact (virtQM_some hx).2.1
  refine List.Nodup.map_on ?_ h
  intro x hx y hy hxy
  obtain ⟨_, _, _, _, _, _, q, _, _, _, _, _, _, _, hx⟩ := mem_virtualsM hx
  obtain ⟨_, _, _, _, _, _, q', _, _, _, _, _, _, _, hy⟩ := mem_virtualsM hy
  obtain ⟨-, x1, x2, x3, -⟩ := virtQM_some hx
  obtain ⟨-, y1, y2, y3, -⟩ := virtQM_some hy
  refine Prod.ext hxy (Prod.ext ?_ ?_)
  · rw [x3, y3, hxy]
  · rw [x1, y1]
    have e1 := congrArg (fun v => v.1.m) (x2.symm.trans (hxy.trans y2))
    have e2 := congrArg (fun v => v.2.m) (x2.symm.trans (hxy.trans y2))
    dsimp only at e1 e2
    exact Prod.ext (by omega) (by omega)

/-- The virtual states of a matrix element within a shell are those that are dipole-allowed from both states, within the range of n. -/
theorem virtualsM_iff (t : Bool) (D : ℕ) (S : List (QA × QA)) (r c : QA × QA) (hr1 : ValidQ r.1) (hr2 : ValidQ r.2) (hc1 : ValidQ c.1) (hc2 : ValidQ c.2)
    (s1 : c.1.s = 0 ∨ c.1.s = 1) (s2 : c.2.s = 0 ∨ c.2.s = 1) (e1 : SameShell r.1 c.1) (e2 : SameShell r.2 c.2) (hD1 : (D : ℤ) ≤ c.1.n - c.1.l) (hD2 : (D : ℤ) ≤ c.2.n - c.2.l)
    (hm1 : (r.1.m - c.1.m) % 2 = 0) (hm2 : (r.2.m - c.2.m) % 2 = 0) (z : QA × QA) :
    z ∈ (virtualsM t (D : ℚ) S r c).map (·.1) ↔ z ∉ S ∧ (ValidQ z.1 ∧ ValidQ z.2) ∧ (DipoleStep c.1 z.1 ∧ DipoleStep c.2 z.2) ∧ (DipoleStep r.1 z.1 ∧ DipoleStep r.2 z.2) ∧
      (|z.1.n - c.1.n| ≤ (D : ℤ) ∧ |z.2.n - c.2.n| ≤ (D : ℤ)) ∧ (t = true ∨ ((z.1.m - c.1.m) + (z.2.m - c.2.m) = 0 ∧ (z.1.m - r.1.m) + (z.2.m - r.2.m) = 0)) := by
  constructor
  · intro h
    obtain ⟨v, hv, rfl⟩ := List.mem_map.1 h
    obtain ⟨n0, n1, l0, l1, j0, j1, q, a1, a2, a3, a4, a5, a6, a7, a8⟩ := mem_virtualsM hv
    obtain ⟨b1, b2, b3, b4, b5, b6, b7, b8⟩ := virtQM_some a8
    -- the scalar version visits it from c
    have hz : v.1 ∈ (virtuals t (D : ℚ) c.1 c.2).map (·.1) := by
      refine List.mem_map.2 ⟨(v.1, v.2.2), ?_, rfl⟩
      unfold virtuals
      simp only [List.mem_flatMap, List.mem_filterMap]
      rw [e1.n, min_self, max_self] at a1
      rw [e2.n, min_self, max_self] at a2
      rw [e1.l] at a3
      rw [e2.l] at a4
      have l3 := (lLoopM_self _ _).mem_iff.1 a3
      have l4 := (lLoopM_self _ _).mem_iff.1 a4
      have p0 : 0 ≤ l0 := by
        have := hc1.l0
        rcases mem_lLoop.1 l3 with h | h <;> omega
      have p1 : 0 ≤ l1 := by
        have := hc2.l0
        rcases mem_lLoop.1 l4 with h | h <;> omega
      have j5 := mem_jLoopM.1 a5
      have j6 := mem_jLoopM.1 a6
      exact ⟨n0, a1, n1, a2, l0, l3, l1, l4, j0, (jLoopM_self s1 p0).mem_iff.1 (mem_jLoopM.2 ⟨j5.1, j5.2.1, j5.2.1⟩), j1, (jLoopM_self s2 p1).mem_iff.1 (mem_jLoopM.2 ⟨j6.1, j6.2.1, j6.2.1⟩), q, a7, b1⟩
    obtain ⟨v1, v2, t1, t2, r1, r2, hm⟩ := ((C48_virtual_states_partial t D c.1 c.2 hc1 hc2 s1 s2 hD1 hD2).2 v.1.1 v.1.2).1 hz
    have k1 : v.1.1.j = j0 ∧ v.1.2.j = j1 := by rw [b3]; exact ⟨rfl, rfl⟩
    have j5 := (mem_jLoopM.1 a5).2.2
    have j6 := (mem_jLoopM.1 a6).2.2
    rw [← k1.1] at j5
    rw [← k1.2] at j6
    have par : ∀ {a c v : QA}, ValidQ a → ValidQ v → ValidQ c → SameShell a c → DipoleStep c v → (a.m - c.m) % 2 = 0 → |v.j - a.j| < 4 → |(a.m - v.m).tdiv 2| ≤ 1 → DipoleStep a v ∧ (a.m - v.m).tdiv 2 * 2 = a.m - v.m := by
      intro a c v ha hv hc he hd hm hj ht
      have q1 := ha.jpar
      have q2 := hv.jpar
      have q3 := ha.mpar
      have q4 := hv.mpar
      have q5 := hd.s
      have q6 := hd.m
      have q7 := he.s
      rw [tdiv_two_even (by omega)] at ht ⊢
      rw [abs_le] at ht
      rw [abs_lt] at hj
      refine ⟨⟨by rw [hd.sp, he.sp], by rw [hd.s, he.s], by rw [he.l]; exact hd.l, ?_, ?_⟩, by omega⟩
      · rw [abs_le]; omega
      · rw [abs_le]; omega
    rw [b4] at b5 b6
    dsimp only at b5 b6
    obtain ⟨u1, w1⟩ := par hr1 v1 hc1 e1 t1 hm1 j5 b5
    obtain ⟨u2, w2⟩ := par hr2 v2 hc2 e2 t2 hm2 j6 b6
    refine ⟨b8, ⟨v1, v2⟩, ⟨t1, t2⟩, ⟨u1, u2⟩, ⟨r1, r2⟩, ?_⟩
    cases t with
    | true => exact Or.inl rfl
    | false =>
      refine Or.inr ⟨hm.resolve_left (by simp), ?_⟩
      have := b7 rfl
      rw [b4] at this
      dsimp only at this
      omega
  · rintro ⟨h1, ⟨v1, v2⟩, ⟨t1, t2⟩, ⟨u1, u2⟩, ⟨r1, r2⟩, hm⟩
    refine C49_complete_partial t (D : ℚ) S r c z hr1 hr2 hc1 hc2 v1 v2 s1 s2 e1.l e2.l u1 u2 t1 t2 ?_ ?_ hm h1
    · rw [abs_le] at r1
      rw [e1.n, min_self, max_self]
      constructor
      · have : (c.1.n : ℤ) - D ≤ z.1.n := by omega
        exact_mod_cast this
      · have : z.1.n ≤ (c.1.n : ℤ) + D := by omega
        exact_mod_cast this
    · rw [abs_le] at r2
      rw [e2.n, min_self, max_self]
      constructor
      · have : (c.2.n : ℤ) - D ≤ z.2.n := by omega
        exact_mod_cast this
      · have : z.2.n ≤ (c.2.n : ℤ) + D := by omega
        exact_mod_cast this

/-! ## The elements of the C6 matrix -/

variable {N : ℕ}

theorem dipole_symm {a b : QA} (h : DipoleStep a b) : DipoleStep b a := by
  obtain ⟨h1, h2, h3, h4, h5⟩ := h
  rw [abs_le] at h4 h5
  exact ⟨h1.symm, h2.symm, by omega, by rw [abs_le]; omega, by rw [abs_le]; omega⟩

/-- What the loops add to a matrix element for a virtual pair state. -/
noncomputable def c6TermM (V : PertEnv) (r c z : QA × QA) : ℝ :=
  V.k * angleVal 0 ((r.1.m - z.1.m) / 2, (r.2.m - z.2.m) / 2) * V.d r.1 z.1 * V.d r.2 z.2 * V.k * angleVal 0 ((z.1.m - c.1.m) / 2, (z.2.m - c.2.m) / 2) * V.d z.1 c.1 * V.d z.2 c.2 * 0.5 *
    (1 / ((V.E r.1 + V.E r.2) - (V.E z.1 + V.E z.2)) + 1 / ((V.E c.1 + V.E c.2) - (V.E z.1 + V.E z.2)))

theorem c6Elem_terms (V : PertEnv) (δ : ℚ) (S : List (QA × QA)) (r c : QA × QA) (hm1 : (r.1.m - c.1.m) % 2 = 0) (hm2 : (r.2.m - c.2.m) % 2 = 0) :
    c6Elem V 0 δ S r c = ∑ z ∈ ((virtualsM false δ S r c).map (·.1)).toFinset, c6TermM V r c z := by
  rw [List.sum_toFinset _ (nodup_virtualsM _ _ _ _ _), List.map_map]
  unfold c6Elem
  rw [show decide ((0 : ℝ) ≠ 0) = false by simp]
  refine congrArg List.sum (List.map_congr_left fun v hv => ?_)
  obtain ⟨n0, n1, l0, l1, j0, j1, q, -, -, -, -, -, -, -, a8⟩ := mem_virtualsM hv
  obtain ⟨-, b2, b3, b4, -⟩ := virtQM_some a8
  have m1 : v.1.1.m = c.1.m + 2 * q.1 := by rw [b3]
  have m2 : v.1.2.m = c.2.m + 2 * q.2 := by rw [b3]
  simp only [Function.comp, c6TermM]
  rw [b4, b2, tdiv_two_even (by omega), tdiv_two_even (by omega), show ((v.1.1.m - c.1.m) / 2, (v.1.2.m - c.2.m) / 2) = q from Prod.ext (by dsimp only; omega) (by dsimp only; omega)]

/-- The states `S` are the states of the level `E0` of the pair system, at the places `lev`, and belong to the same shell of each atom. -/
structure C6Level (st : Fin N → Option (QN × QN)) (en : Fin N → ℝ) (E0 : ℝ) (S : List (QA × QA)) (lev : Fin S.length → Fin N) : Prop where
  entry : ∀ i, st (lev i) = some ((S.get i).1.qn, (S.get i).2.qn)
  inj : Function.Injective lev
  all : ∀ c, en c = E0 ↔ ∃ i, lev i = c
  shell : ∀ i j, SameShell (S.get i).1 (S.get j).1 ∧ SameShell (S.get i).2 (S.get j).2

theorem secondOrder_herm {k : Type} [Fintype k] (en : k → ℝ) (E0 : ℝ) (W : Matrix k k ℂ) (hW : W.IsHermitian) (a b : k) : secondOrder en E0 W a b = (starRingEnd ℂ) (secondOrder en E0 W b a) := by
  unfold secondOrder
  rw [map_sum]
  refine Finset.sum_congr rfl fun d _ => ?_
  by_cases h : en d = E0
  · rw [if_pos h, if_pos h, map_zero]
  · rw [if_neg h, if_neg h, map_div₀, map_mul, Complex.conj_ofReal, show (starRingEnd ℂ) (W b d) = W d b from hW.apply d b, show (starRingEnd ℂ) (W d a) = W a d from hW.apply a d, mul_comm]

/-- **C123 (the sums agree).** Between two states of the level the second-order sum with the operator of SystemTwo is the sum of `getC6` for the matrix element. -/
theorem C123_elem (C : FieldConsts) (radial : RadKey → ℝ) (me : Method) (st : Fin N → Option (QN × QN)) (hst : GoodPairs st) (E : QN → ℝ) (en : Fin N → ℝ)
    (hE : ∀ i v, st i = some v → en i = E v.1 + E v.2) (E0 : ℝ) (S : List (QA × QA)) (lev : Fin S.length → Fin N) (hL : C6Level st en E0 S lev)
    (hs : ∀ i, ((S.get i).1.s = 0 ∨ (S.get i).1.s = 1) ∧ ((S.get i).2.s = 0 ∨ (S.get i).2.s = 1)) (D : ℕ) (hD : ∀ i, (D : ℤ) ≤ (S.get i).1.n - (S.get i).1.l ∧ (D : ℤ) ≤ (S.get i).2.n - (S.get i).2.l)
    (hB : ∀ i, C6Basis C radial me st D (S.get i).1.qn (S.get i).2.qn) (i j : Fin S.length) :
    secondOrder en E0 (pairOper C radial me st (.mul 3)) (lev i) (lev j) = (c6Elem (cachePert C radial me E) 0 (D : ℚ) S (S.get i) (S.get j) : ℝ) := by
  have hi := hL.entry i
  have hj := hL.entry j
  have ei : en (lev i) = E0 := (hL.all _).2 ⟨i, rfl⟩
  have ej : en (lev j) = E0 := (hL.all _).2 ⟨j, rfl⟩
  obtain ⟨sh1, sh2⟩ := hL.shell i j
  obtain ⟨s1, s2⟩ := hs j
  obtain ⟨hD1, hD2⟩ := hD j
  have Ei := hE _ _ hi
  have Ej := hE _ _ hj
  have hS : ∀ z, z ∈ S ↔ ∃ l, S.get l = z := fun z => List.mem_iff_get
  have hBj := hB j
  generalize hr : S.get i = r at *
  generalize hc : S.get j = c at *
  obtain ⟨pr1, pr2, -⟩ := hst _ _ hi
  obtain ⟨pc1, pc2, -⟩ := hst _ _ hj
  obtain ⟨nr1, nr2⟩ := hBj.bound _ _ hi
  obtain ⟨nc1, nc2⟩ := hBj.bound _ _ hj
  have vr1 : ValidQ r.1 := valid_qa pr1 nr1
  have vr2 : ValidQ r.2 := valid_qa pr2 nr2
  have vc1 : ValidQ c.1 := valid_qa pc1 nc1
  have vc2 : ValidQ c.2 := valid_qa pc2 nc2
  have okrc : PairOK (r.1.qn, r.2.qn) (c.1.qn, c.2.qn) := hst.ok hi hj
  have par : ∀ {a b : QA}, ValidQ a → ValidQ b → a.s = b.s → (a.m - b.m) % 2 = 0 := by
    intro a b ha hb h
    have q1 := ha.jpar
    have q2 := hb.jpar
    have q3 := ha.mpar
    have q4 := hb.mpar
    omega
  have hm1 := par vr1 vc1 sh1.s
  have hm2 := par vr2 vc2 sh2.s
  have hmem := virtualsM_iff false D S r c vr1 vr2 vc1 vc2 s1 s2 sh1 sh2 hD1 hD2 hm1 hm2
  rw [c6Elem_terms _ _ _ _ _ hm1 hm2]
  set T := ((virtualsM false (D : ℚ) S r c).map (·.1)).toFinset with hT
  have memT : ∀ z : QA × QA, z ∈ T ↔ _ := fun z => (List.mem_toFinset).trans (hmem z)
  -- one term of the sum over the basis
  have term : ∀ d v, st d = some v → (if en d = E0 then (0 : ℂ) else
      pairOper C radial me st (.mul 3) (lev i) d * pairOper C radial me st (.mul 3) d (lev j) / ((E0 - en d : ℝ) : ℂ))
      = ((if en d ≠ E0 ∧ v.1.m + v.2.m = c.1.m + c.2.m ∧ v.1.m + v.2.m = r.1.m + r.2.m then c6TermM (cachePert C radial me E) r c (v.1.qa, v.2.qa) else 0 : ℝ) : ℂ) := by
    intro d v hv
    have okc : PairOK v (c.1.qn, c.2.qn) := hst.ok hv hj
    have okr : PairOK (r.1.qn, r.2.qn) v := hst.ok hi hv
    by_cases he : en d = E0
    · rw [if_pos he, if_neg (fun h => h.1 he), Complex.ofReal_zero]
    rw [if_neg he]
    have w1 : pairOper C radial me st (.mul 3) d (lev j) = mulEntry C radial me 3 v (c.1.qn, c.2.qn) := by rw [mul3_entry C radial me st hst, hv, hj]
    have w2 : pairOper C radial me st (.mul 3) (lev i) d = mulEntry C radial me 3 (r.1.qn, r.2.qn) v := by rw [mul3_entry C radial me st hst, hv, hi]
    have ms1 := mDiff_spec v.1 c.1.qn okc.a1 okc.b1 okc.s1
    have ms2 := mDiff_spec v.2 c.2.qn okc.a2 okc.b2 okc.s2
    have mt1 := mDiff_spec r.1.qn v.1 okr.a1 okr.b1 okr.s1
    have mt2 := mDiff_spec r.2.qn v.2 okr.a2 okr.b2 okr.s2
    rw [show c.1.qn.m = c.1.m from rfl] at ms1
    rw [show c.2.qn.m = c.2.m from rfl] at ms2
    rw [show r.1.qn.m = r.1.m from rfl] at mt1
    rw [show r.2.qn.m = r.2.m from rfl] at mt2
    rw [w1, w2, mulEntry_angle C radial me v _ okc, mulEntry_angle C radial me _ v okr]
    dsimp only
    by_cases hmc : v.1.m + v.2.m = c.1.m + c.2.m
    · by_cases hmr : v.1.m + v.2.m = r.1.m + r.2.m
      · have smc : mDiff v.1 c.1.qn + mDiff v.2 c.2.qn = 0 := by omega
        have smr : mDiff r.1.qn v.1 + mDiff r.2.qn v.2 = 0 := by omega
        rw [if_pos smc, if_pos smr, if_pos ⟨he, hmc, hmr⟩]
        have d1 : (v.1.m - c.1.m) / 2 = mDiff v.1 c.1.qn := mDiff_div v.1 c.1.qn okc.a1 okc.b1 okc.s1
        have d2 : (v.2.m - c.2.m) / 2 = mDiff v.2 c.2.qn := mDiff_div v.2 c.2.qn okc.a2 okc.b2 okc.s2
        have d3 : (r.1.m - v.1.m) / 2 = mDiff r.1.qn v.1 := mDiff_div r.1.qn v.1 okr.a1 okr.b1 okr.s1
        have d4 : (r.2.m - v.2.m) / 2 = mDiff r.2.qn v.2 := mDiff_div r.2.qn v.2 okr.a2 okr.b2 okr.s2
        have ct : c6TermM (cachePert C radial me E) r c (v.1.qa, v.2.qa) =
            C.ke * angleVal 0 (mDiff r.1.qn v.1, mDiff r.2.qn v.2) * elem C radial me 1 r.1.qn v.1 * elem C radial me 1 r.2.qn v.2 * C.ke * angleVal 0 (mDiff v.1 c.1.qn, mDiff v.2 c.2.qn) *
              elem C radial me 1 v.1 c.1.qn * elem C radial me 1 v.2 c.2.qn * 0.5 * (1 / ((E r.1.qn + E r.2.qn) - (E v.1 + E v.2)) + 1 / ((E c.1.qn + E c.2.qn) - (E v.1 + E v.2))) := by
          unfold c6TermM
          show C.ke * angleVal 0 ((r.1.m - v.1.m) / 2, (r.2.m - v.2.m) / 2) * elem C radial me 1 r.1.qn v.1 * elem C radial me 1 r.2.qn v.2 * C.ke * angleVal 0 ((v.1.m - c.1.m) / 2, (v.2.m - c.2.m) / 2) *
              elem C radial me 1 v.1 c.1.qn * elem C radial me 1 v.2 c.2.qn * 0.5 * (1 / ((E r.1.qn + E r.2.qn) - (E v.1 + E v.2)) + 1 / ((E c.1.qn + E c.2.qn) - (E v.1 + E v.2))) = _
          rw [d1, d2, d3, d4]
        rw [ct, show E r.1.qn + E r.2.qn = E0 from Ei.symm.trans ei, show E c.1.qn + E c.2.qn = E0 from Ej.symm.trans ej, hE d v hv]
        push_cast
        ring
      · have smr : ¬ mDiff r.1.qn v.1 + mDiff r.2.qn v.2 = 0 := by omega
        have no : ¬ (en d ≠ E0 ∧ v.1.m + v.2.m = c.1.m + c.2.m ∧ v.1.m + v.2.m = r.1.m + r.2.m) := fun h => hmr h.2.2
        rw [if_neg smr, if_neg no]
        simp
    · have smc : ¬ mDiff v.1 c.1.qn + mDiff v.2 c.2.qn = 0 := by omega
      have no : ¬ (en d ≠ E0 ∧ v.1.m + v.2.m = c.1.m + c.2.m ∧ v.1.m + v.2.m = r.1.m + r.2.m) := fun h => hmc h.2.1
      rw [if_neg smc, if_neg no]
      simp
  unfold secondOrder
  rw [Complex.ofReal_sum]
  have nz : ∀ d, (if en d = E0 then (0 : ℂ) else pairOper C radial me st (.mul 3) (lev i) d * pairOper C radial me st (.mul 3) d (lev j) / ((E0 - en d : ℝ) : ℂ)) ≠ 0 →
      ∃ v, st d = some v ∧ (en d ≠ E0 ∧ v.1.m + v.2.m = c.1.m + c.2.m ∧ v.1.m + v.2.m = r.1.m + r.2.m) ∧ c6TermM (cachePert C radial me E) r c (v.1.qa, v.2.qa) ≠ 0 := by
    intro d h
    cases hv : st d with
    | none =>
      exfalso
      apply h
      rw [mul3_entry C radial me st hst d (lev j), hv]
      simp
    | some v =>
      rw [term d v hv, Complex.ofReal_ne_zero] at h
      by_cases hm : en d ≠ E0 ∧ v.1.m + v.2.m = c.1.m + c.2.m ∧ v.1.m + v.2.m = r.1.m + r.2.m
      · rw [if_pos hm] at h
        exact ⟨v, rfl, hm, h⟩
      · rw [if_neg hm] at h
        exact absurd rfl h
  have dip : ∀ z : QA × QA, c6TermM (cachePert C radial me E) r c z ≠ 0 → (elem C radial me 1 z.1.qn c.1.qn ≠ 0 ∧ elem C radial me 1 z.2.qn c.2.qn ≠ 0) ∧
      (elem C radial me 1 r.1.qn z.1.qn ≠ 0 ∧ elem C radial me 1 r.2.qn z.2.qn ≠ 0) := by
    intro z h
    refine ⟨⟨?_, ?_⟩, ?_, ?_⟩
    · intro h0
      apply h
      unfold c6TermM
      rw [show (cachePert C radial me E).d z.1 c.1 = 0 from h0]
      simp
    · intro h0
      apply h
      unfold c6TermM
      rw [show (cachePert C radial me E).d z.2 c.2 = 0 from h0]
      simp
    · intro h0
      apply h
      unfold c6TermM
      rw [show (cachePert C radial me E).d r.1 z.1 = 0 from h0]
      simp
    · intro h0
      apply h
      unfold c6TermM
      rw [show (cachePert C radial me E).d r.2 z.2 = 0 from h0]
      simp
  refine Finset.sum_bij_ne_zero (fun d _ h => ((nz d h).choose.1.qa, (nz d h).choose.2.qa)) ?_ ?_ ?_ ?_
  · intro d _ h
    obtain ⟨hv, ⟨he, hmc, hmr⟩, hz⟩ := (nz d h).choose_spec
    generalize (nz d h).choose = v at hv hmc hmr hz
    obtain ⟨⟨d1, d2⟩, d3, d4⟩ := dip _ hz
    have okc : PairOK v (c.1.qn, c.2.qn) := hst.ok hv hj
    have okr : PairOK (r.1.qn, r.2.qn) v := hst.ok hi hv
    obtain ⟨b1, b2⟩ := hBj.bound d v hv
    obtain ⟨r1, r2⟩ := hBj.range d v hv
    refine (memT _).2 ⟨?_, ⟨valid_qa okc.a1 b1, valid_qa okc.a2 b2⟩, ⟨dipole_step C radial me okc.b1 okc.a1 okc.sp1 okc.s1 d1, dipole_step C radial me okc.b2 okc.a2 okc.sp2 okc.s2 d2⟩,
      ⟨dipole_symm (dipole_step C radial me okr.b1 okr.a1 okr.sp1 okr.s1 d3), dipole_symm (dipole_step C radial me okr.b2 okr.a2 okr.sp2 okr.s2 d4)⟩, ⟨r1, r2⟩, Or.inr ⟨?_, ?_⟩⟩
    · intro hin
      obtain ⟨l, hl⟩ := (hS _).1 hin
      have el := hL.entry l
      rw [hl] at el
      have : lev l = d := hBj.once _ _ _ el hv
      exact he ((hL.all d).2 ⟨l, this⟩)
    · show (v.1.m - c.1.m) + (v.2.m - c.2.m) = 0
      omega
    · show (v.1.m - r.1.m) + (v.2.m - r.2.m) = 0
      omega
  · intro d _ h d' _ h' heq
    obtain ⟨hv, -, -⟩ := (nz d h).choose_spec
    obtain ⟨hv', -, -⟩ := (nz d' h').choose_spec
    have : (nz d h).choose = (nz d' h').choose := by
      generalize (nz d h).choose = v at heq hv
      generalize (nz d' h').choose = v' at heq hv'
      rw [Prod.mk.injEq] at heq
      exact Prod.ext (congrArg QA.qn heq.1) (congrArg QA.qn heq.2)
    rw [this] at hv
    exact hBj.once d d' _ hv hv'
  · intro z hz h
    rw [Complex.ofReal_ne_zero] at h
    obtain ⟨⟨d1, d2⟩, -, -⟩ := dip z h
    obtain ⟨zS, ⟨v1, v2⟩, ⟨t1, t2⟩, -, ⟨r1, r2⟩, hm⟩ := (memT z).1 hz
    have hm' := hm.resolve_left (by simp)
    obtain ⟨d, hv⟩ := hBj.complete z.1.qn z.2.qn v1 v2 t1 t2 r1 r2 (by show z.1.m + z.2.m = c.1.m + c.2.m; omega) d1 d2
    have he : en d ≠ E0 := by
      intro he
      obtain ⟨l, hl⟩ := (hL.all d).1 he
      have el := hL.entry l
      rw [hl, hv] at el
      have ez := Option.some.inj el
      rw [Prod.mk.injEq] at ez
      have : z = S.get l := Prod.ext (congrArg QN.qa ez.1) (congrArg QN.qa ez.2)
      exact zS ((hS z).2 ⟨l, this.symm⟩)
    have t := term d _ hv
    rw [if_pos (show en d ≠ E0 ∧ z.1.qn.m + z.2.qn.m = c.1.m + c.2.m ∧ z.1.qn.m + z.2.qn.m = r.1.m + r.2.m from
      ⟨he, by show z.1.m + z.2.m = c.1.m + c.2.m; omega, by show z.1.m + z.2.m = r.1.m + r.2.m; omega⟩)] at t
    have h' : (if en d = E0 then (0 : ℂ) else pairOper C radial me st (.mul 3) (lev i) d * pairOper C radial me st (.mul 3) d (lev j) / ((E0 - en d : ℝ) : ℂ)) ≠ 0 := by
      rw [t, Complex.ofReal_ne_zero]
      exact h
    refine ⟨d, Finset.mem_univ d, h', ?_⟩
    have c1 : some (z.1.qn, z.2.qn) = some (nz d h').choose := hv.symm.trans (nz d h').choose_spec.1
    rw [← Option.some.inj c1]
    rfl
  · intro d _ h
    obtain ⟨hv, hm, -⟩ := (nz d h).choose_spec
    rw [term d _ hv, if_pos hm]

/-- **C123 (the matrix).** The matrix that `getC6` returns for the states of the level is the effective operator of second order within the level. -/
theorem C123_matrix (C : FieldConsts) (radial : RadKey → ℝ) (me : Method) (st : Fin N → Option (QN × QN)) (hst : GoodPairs st) (E : QN → ℝ) (en : Fin N → ℝ)
    (hE : ∀ i v, st i = some v → en i = E v.1 + E v.2) (E0 : ℝ) (S : List (QA × QA)) (x0 : QA × QA) (lev : Fin S.length → Fin N) (hL : C6Level st en E0 S lev)
    (hs : ∀ i, ((S.get i).1.s = 0 ∨ (S.get i).1.s = 1) ∧ ((S.get i).2.s = 0 ∨ (S.get i).2.s = 1)) (D : ℕ) (hD : ∀ i, (D : ℤ) ≤ (S.get i).1.n - (S.get i).1.l ∧ (D : ℤ) ≤ (S.get i).2.n - (S.get i).2.l)
    (hB : ∀ i, C6Basis C radial me st D (S.get i).1.qn (S.get i).2.qn) (i j : Fin S.length) :
    secondOrder en E0 (pairOper C radial me st (.mul 3)) (lev i) (lev j) = (getC6M (cachePert C radial me E) 0 (D : ℚ) S x0 i j : ℝ) := by
  have el := C123_elem C radial me st hst E en hE E0 S lev hL hs D hD hB
  have g : ∀ l : Fin S.length, S.getD l.val x0 = S.get l := fun l => by simp
  unfold getC6M upperView
  dsimp only
  by_cases h : i.val ≤ j.val
  · rw [if_pos h, if_pos ⟨i.isLt, h, j.isLt⟩, g, g]
    exact el i j
  · rw [if_neg h, if_pos ⟨j.isLt, by omega, i.isLt⟩, g, g, secondOrder_herm en E0 (pairOper C radial me st (.mul 3)) (lowerView_herm _) (lev i) (lev j), el j i, Complex.conj_ofReal]

/-- **C123.** The eigenvalues of the C6 matrix are the van der Waals shifts: for a level of pair states of the same shell (any m and j) that contains all pair states of its energy, the energies of the
numbers of the level in the sorted list are E0 + (the sorted eigenvalues of the matrix that `getC6` returns for θ = 0)/R⁶ up to K/R⁹ at all distances above some R0, each with its multiplicity; R0 and K do
not depend on the distance or the history of the system. -/
theorem C123_c6_matrix (C : FieldConsts) (radial : RadKey → ℝ) (me : Method) (st : Fin N → Option (QN × QN)) (hst : GoodPairs st) (E : QN → ℝ) (en : Fin N → ℝ)
    (hE : ∀ i v, st i = some v → en i = E v.1 + E v.2) (E0 : ℝ) (S : List (QA × QA)) (x0 : QA × QA) (lev : Fin S.length → Fin N) (hL : C6Level st en E0 S lev)
    (hs : ∀ i, ((S.get i).1.s = 0 ∨ (S.get i).1.s = 1) ∧ ((S.get i).2.s = 0 ∨ (S.get i).2.s = 1)) (D : ℕ) (hD : ∀ i, (D : ℤ) ≤ (S.get i).1.n - (S.get i).1.l ∧ (D : ℤ) ≤ (S.get i).2.n - (S.get i).2.l)
    (hB : ∀ i, C6Basis C radial me st D (S.get i).1.qn (S.get i).2.qn)
    (U : Matrix (Fin S.length) (Fin S.length) ℂ) (c6 : Fin S.length → ℝ) (hU : Diagonalizes (Matrix.of fun i j : Fin S.length => (getC6M (cachePert C radial me E) 0 (D : ℚ) S x0 i j : ℂ)) U c6) (hc6 : Monotone c6) :
    ∃ K R0 : ℝ, 0 ≤ K ∧ ∀ s0 s s' : CSys OKPair PKey (Fin N) (Fin N), s0.Fresh (pairInter C radial me st) → s0.V = 1 → s0.H = (Matrix.diagonal fun c => (en c : ℂ)) →
      Hist (pairInter C radial me st) s0 s → s.build (pairInter C radial me st) = .ok s' →
      OnAxis s.p.1 → s.p.1.order = 3 → R0 ≤ |s.p.1.dist| → ∀ X e, Diagonalizes s'.H X e → Monotone e →
        ∀ (j : Fin S.length) (i : Fin N), i.val = (Finset.univ.filter fun c => en c < E0).card + j.val →
          |e i - (E0 + c6 j / s.p.1.dist ^ 6)| ≤ K / |s.p.1.dist| ^ 9 := by
  set W := pairOper C radial me st (.mul 3) with hW
  let w : Fin S.length → Fin N → ℂ := fun j c => ∑ l, if lev l = c then U l j else 0
  have w1 : ∀ j l, w j (lev l) = U l j := by
    intro j l
    show (∑ l', if lev l' = lev l then U l' j else 0) = U l j
    rw [Finset.sum_eq_single l, if_pos rfl]
    · intro l' _ h
      rw [if_neg fun hl => h (hL.inj hl)]
    · intro h; exact absurd (Finset.mem_univ l) h
  have w2 : ∀ j c, c ∉ Set.range lev → w j c = 0 := by
    intro j c hc
    refine Finset.sum_eq_zero fun l _ => if_neg fun hl => hc ⟨l, hl⟩
  have lvl : ∀ l, en (lev l) = E0 := fun l => (hL.all _).2 ⟨l, rfl⟩
  -- no shift of first order within the shell
  have z : ∀ i j, W (lev i) (lev j) = 0 := by
    intro i j
    have ok : PairOK ((S.get i).1.qn, (S.get i).2.qn) ((S.get j).1.qn, (S.get j).2.qn) := hst.ok (hL.entry i) (hL.entry j)
    have hl := (hL.shell i j).1.l
    have z1 : elem C radial me 1 (S.get i).1.qn (S.get j).1.qn = 0 := elem_zero C radial me _ _ ok.a1 ok.b1 ok.sp1 ok.s1 1 (by norm_num) (by
      have : (S.get i).1.qn.l = (S.get j).1.qn.l := hl
      unfold selMultipole
      rw [this, sub_self]
      simp)
    rw [hW, mul3_entry C radial me st hst, hL.entry i, hL.entry j]
    show mulEntry C radial me 3 _ _ = 0
    rw [mulEntry_angle C radial me _ _ ok, z1]
    simp
  have sum1 : ∀ (F : Fin N → ℂ), (∀ c, c ∉ Set.range lev → F c = 0) → ∑ c, F c = ∑ l, F (lev l) := fun F hF =>
    (Fintype.sum_of_injective lev hL.inj (fun l => F (lev l)) F hF fun _ => rfl).symm
  obtain ⟨K, y0, hK, hy0, H⟩ := second_order_levels_sorted en W E0 (by
      have : (Finset.univ.filter fun c => en c = E0) = Finset.univ.image lev := by
        ext c
        rw [Finset.mem_filter, Finset.mem_image]
        exact ⟨fun h => let ⟨l, hl⟩ := (hL.all c).1 h.2; ⟨l, Finset.mem_univ _, hl⟩, fun ⟨l, _, hl⟩ => ⟨Finset.mem_univ _, (hL.all c).2 ⟨l, hl⟩⟩⟩
      rw [this, Finset.card_image_of_injective _ hL.inj, Finset.card_univ, Fintype.card_fin]) c6 hc6 w (by
      intro i j
      show ∑ c, star (w i) c * w j c = _
      rw [sum1 _ fun c hc => by rw [w2 j c hc, mul_zero]]
      simp only [Pi.star_apply, w1]
      have := congrFun (congrFun hU.1 i) j
      rw [Matrix.mul_apply, Matrix.one_apply] at this
      exact this) (by
      intro j c hc
      refine w2 j c fun ⟨l, hl⟩ => hc ?_
      rw [← hl, lvl]) (by
      intro j c hc
      obtain ⟨i, rfl⟩ := (hL.all c).1 hc
      show ∑ d, W (lev i) d * w j d = 0
      rw [sum1 _ fun c hc => by rw [w2 j c hc, mul_zero]]
      exact Finset.sum_eq_zero fun l _ => by rw [z, zero_mul]) (by
      intro j c hc
      obtain ⟨i, rfl⟩ := (hL.all c).1 hc
      show ∑ d, secondOrder en E0 W (lev i) d * w j d = _
      rw [sum1 _ fun c hc => by rw [w2 j c hc, mul_zero]]
      simp only [w1, hW, C123_matrix C radial me st hst E en hE E0 S x0 lev hL hs D hD hB]
      have := congrFun (congrFun hU.2 i) j
      rw [Matrix.mul_diagonal, Matrix.mul_apply, mul_comm] at this
      exact this)
  refine ⟨K, max 1 (1 / y0), hK, fun s0 s s' h0 hV hH hs hb ha ho hR X e hX he j i hi => ?_⟩
  have hc : ∀ c, (s0.H c c).re = en c := fun c => by rw [hH, Matrix.diagonal_apply_eq, Complex.ofReal_re]
  obtain ⟨Y, hY⟩ := axis_diagonalizes C radial me st s0.H s0 s s' h0 (by rw [hV, Matrix.conjTranspose_one, Matrix.one_mul, Matrix.mul_one])
    (fun c d h => by rw [hH, Matrix.diagonal_apply_ne _ h]) (fun c => by rw [hH, Matrix.diagonal_apply_eq, Complex.ofReal_im]) hs hb ha ho X e hX
  simp only [hc] at hY
  rw [hV, Matrix.conjTranspose_one, Matrix.one_mul, Matrix.mul_one] at hY
  obtain ⟨f1, f2, f3⟩ := far_distance hy0 hR
  have rne : s.p.1.dist ≠ 0 := by
    have : 0 < |s.p.1.dist| := lt_of_lt_of_le one_pos ((le_max_left _ _).trans hR)
    exact abs_pos.1 this
  have := H _ (by positivity) f1 Y e hY he j i hi
  rw [f2, f3, one_div_mul_eq_div, mul_one_div] at this
  exact this

/-! ## The hypotheses can be met: two degenerate pair states -/

/-- 60 S1/2 of any m. -/
def gS (m : ℤ) : QN := ⟨"Rb", 60, 0, 1, m, 1⟩
/-- 60 P1/2 of any m. -/
def gP (m : ℤ) : QN := ⟨"Rb", 60, 1, 1, m, 1⟩
/-- The pair states of SS and PP with total momentum 0. -/
def gPairs : Fin 4 → Option (QN × QN) := ![some (gS 1, gS (-1)), some (gS (-1), gS 1), some (gP 1, gP (-1)), some (gP (-1), gP 1)]
/-- The level SS. -/
def gLevel : List (QA × QA) := [((gS 1).qa, (gS (-1)).qa), ((gS (-1)).qa, (gS 1).qa)]
/-- The places of its states. -/
def gPlace : Fin gLevel.length → Fin 4 := ![0, 1]

theorem gPairs_cases {i : Fin 4} {v : QN × QN} (h : gPairs i = some v) : (i = 0 ∧ v = (gS 1, gS (-1))) ∨ (i = 1 ∧ v = (gS (-1), gS 1)) ∨ (i = 2 ∧ v = (gP 1, gP (-1))) ∨ (i = 3 ∧ v = (gP (-1), gP 1)) := by
  fin_cases i
  · exact Or.inl ⟨rfl, (Option.some.inj h).symm⟩
  · exact Or.inr (Or.inl ⟨rfl, (Option.some.inj h).symm⟩)
  · exact Or.inr (Or.inr (Or.inl ⟨rfl, (Option.some.inj h).symm⟩))
  · exact Or.inr (Or.inr (Or.inr ⟨rfl, (Option.some.inj h).symm⟩))

theorem gPairs_good : GoodPairs gPairs := by
  have s1 : (gS 1).Physical := by unfold QN.Physical gS; decide
  have s2 : (gS (-1)).Physical := by unfold QN.Physical gS; decide
  have p1 : (gP 1).Physical := by unfold QN.Physical gP; decide
  have p2 : (gP (-1)).Physical := by unfold QN.Physical gP; decide
  intro i a ha
  rcases gPairs_cases ha with ⟨-, rfl⟩ | ⟨-, rfl⟩ | ⟨-, rfl⟩ | ⟨-, rfl⟩
  · refine ⟨s1, s2, fun j b hb => ?_⟩
    rcases gPairs_cases hb with ⟨-, rfl⟩ | ⟨-, rfl⟩ | ⟨-, rfl⟩ | ⟨-, rfl⟩ <;> decide
  · refine ⟨s2, s1, fun j b hb => ?_⟩
    rcases gPairs_cases hb with ⟨-, rfl⟩ | ⟨-, rfl⟩ | ⟨-, rfl⟩ | ⟨-, rfl⟩ <;> decide
  · refine ⟨p1, p2, fun j b hb => ?_⟩
    rcases gPairs_cases hb with ⟨-, rfl⟩ | ⟨-, rfl⟩ | ⟨-, rfl⟩ | ⟨-, rfl⟩ <;> decide
  · refine ⟨p2, p1, fun j b hb => ?_⟩
    rcases gPairs_cases hb with ⟨-, rfl⟩ | ⟨-, rfl⟩ | ⟨-, rfl⟩ | ⟨-, rfl⟩ <;> decide

theorem gRad_elem (C : FieldConsts) (me : Method) (v : QN) (m : ℤ) (h : elem C vRad me 1 v (gS m) ≠ 0) : v.j = 1 := by
  by_contra hj
  apply h
  unfold elem electricMultipole
  split_ifs with hs
  · rfl
  · have : vRad (RadKey.make me v.species 1 v.n (gS m).n v.l (gS m).l v.j (gS m).j) = 0 := by
      unfold vRad
      refine if_neg fun hc => hj ?_
      unfold RadKey.make at hc
      have e : (gS m).j = 1 := rfl
      rw [e] at hc
      split_ifs at hc <;> simp_all
    simp only [this]
    simp [outVal]

theorem gBasis (C : FieldConsts) (me : Method) (m : ℤ) (hm : m = 1 ∨ m = -1) : C6Basis C vRad me gPairs 0 (gS m) (gS (-m)) := by
  constructor
  · intro i j v hi hj
    rcases gPairs_cases hi with ⟨rfl, rfl⟩ | ⟨rfl, rfl⟩ | ⟨rfl, rfl⟩ | ⟨rfl, rfl⟩ <;> rcases gPairs_cases hj with ⟨rfl, h⟩ | ⟨rfl, h⟩ | ⟨rfl, h⟩ | ⟨rfl, h⟩ <;> first | rfl | (exact absurd h (by decide))
  · intro i v hi
    rcases gPairs_cases hi with ⟨-, rfl⟩ | ⟨-, rfl⟩ | ⟨-, rfl⟩ | ⟨-, rfl⟩ <;> decide
  · intro i v hi
    rcases hm with rfl | rfl <;> rcases gPairs_cases hi with ⟨-, rfl⟩ | ⟨-, rfl⟩ | ⟨-, rfl⟩ | ⟨-, rfl⟩ <;> decide
  · intro v w hv hw sv sw nv nw hm dv dw
    have one : ∀ (v : QN) (m : ℤ), ValidQ v.qa → DipoleStep (gS m).qa v.qa → |v.n - (gS m).n| ≤ ((0 : ℕ) : ℤ) → elem C vRad me 1 v (gS m) ≠ 0 → v = gP 1 ∨ v = gP (-1) := by
      intro v m hv sv hn hd
      have hj := gRad_elem C me v m hd
      have l0 : 0 ≤ v.l := hv.l0
      have l1 : v.l = 0 + 1 ∨ v.l = 0 - 1 := sv.l
      have m1 : |v.m| ≤ v.j := hv.mj
      have m2 : (v.m - v.j) % 2 = 0 := hv.mpar
      have n1 : |v.n - 60| ≤ 0 := hn
      rw [abs_le] at m1 n1
      have c : v.m = 1 ∨ v.m = -1 := by omega
      have x1 : v.species = "Rb" := sv.sp
      have x2 : v.s = 1 := sv.s
      obtain ⟨y1, y2, y3, y4, y5, y6⟩ := v
      simp only at hj l0 l1 m1 m2 n1 c x1 x2
      unfold gP
      rcases c with c | c
      · left; rw [QN.mk.injEq]; exact ⟨x1, by omega, by omega, hj, c, x2⟩
      · right; rw [QN.mk.injEq]; exact ⟨x1, by omega, by omega, hj, c, x2⟩
    have hm' : v.m + w.m = m + -m := hm
    rcases one v m hv sv nv dv with rfl | rfl <;> rcases one w (-m) hw sw nw dw with rfl | rfl
    · exfalso; have : (1 : ℤ) + 1 = m + -m := hm'; omega
    · exact ⟨2, rfl⟩
    · exact ⟨3, rfl⟩
    · exfalso; have : (-1 : ℤ) + -1 = m + -m := hm'; omega

theorem gLevel_ok : C6Level gPairs ![0, 0, 14, 14] 0 gLevel gPlace := by
  constructor
  · intro i
    fin_cases i <;> rfl
  · intro i j h
    fin_cases i <;> fin_cases j <;> first | rfl | exact absurd h (by decide)
  · intro c
    fin_cases c
    · exact ⟨fun _ => ⟨(0 : Fin 2), rfl⟩, fun _ => rfl⟩
    · exact ⟨fun _ => ⟨(1 : Fin 2), rfl⟩, fun _ => rfl⟩
    · refine ⟨fun h => absurd h (by norm_num), fun ⟨i, hi⟩ => ?_⟩
      fin_cases i <;> exact absurd hi (by decide)
    · refine ⟨fun h => absurd h (by norm_num), fun ⟨i, hi⟩ => ?_⟩
      fin_cases i <;> exact absurd hi (by decide)
  · intro i j
    fin_cases i <;> fin_cases j <;> exact ⟨by constructor <;> rfl, by constructor <;> rfl⟩

/-- The two lowest energies of the four pair states follow the eigenvalues of the 2 × 2 matrix that `getC6` returns for the two states SS. -/
example (C : FieldConsts) (me : Method) (x0 : QA × QA) : ∃ (U : Matrix (Fin 2) (Fin 2) ℂ) (c6 : Fin 2 → ℝ),
    Diagonalizes (Matrix.of fun i j : Fin 2 => (getC6M (cachePert C vRad me fun x => 7 * x.l) 0 ((0 : ℕ) : ℚ) gLevel x0 i j : ℂ)) U c6 ∧ Monotone c6 ∧
    ∃ K R0 : ℝ, 0 ≤ K ∧ ∀ p : OKPair, OnAxis p.1 → p.1.order = 3 → R0 ≤ |p.1.dist| →
    ∃ (s s' : CSys OKPair PKey (Fin 4) (Fin 4)) (X : Matrix (Fin 4) (Fin 4) ℂ) (e : Fin 4 → ℝ), s.p = p ∧ s.build (pairInter C vRad me gPairs) = .ok s' ∧ Diagonalizes s'.H X e ∧ Monotone e ∧
      |e 0 - c6 0 / p.1.dist ^ 6| ≤ K / |p.1.dist| ^ 9 ∧ |e 1 - c6 1 / p.1.dist ^ 6| ≤ K / |p.1.dist| ^ 9 := by
  have hH : (Matrix.of fun i j : Fin 2 => (getC6M (cachePert C vRad me fun x => 7 * x.l) 0 ((0 : ℕ) : ℚ) gLevel x0 i j : ℂ)).IsHermitian := by
    ext i j
    rw [Matrix.conjTranspose_apply, Matrix.of_apply, Matrix.of_apply, Complex.star_def, Complex.conj_ofReal, (C50_symmetric _ 0 _ gLevel x0).2.1]
  obtain ⟨U, c6, hU, hc6⟩ := diagonalizes_sorted _ hH
  refine ⟨U, c6, hU, hc6, ?_⟩
  obtain ⟨K, R0, hK, H⟩ := C123_c6_matrix C vRad me gPairs gPairs_good (fun x => 7 * x.l) ![0, 0, 14, 14] (by
      intro i v hv
      rcases gPairs_cases hv with ⟨rfl, rfl⟩ | ⟨rfl, rfl⟩ | ⟨rfl, rfl⟩ | ⟨rfl, rfl⟩ <;> first | (norm_num [gS, gP]; done) | (show (14 : ℝ) = _; norm_num [gP])) 0 gLevel x0 gPlace gLevel_ok (by
      intro i
      fin_cases i <;> exact ⟨Or.inr rfl, Or.inr rfl⟩) 0 (by
      intro i
      fin_cases i <;> exact ⟨by decide, by decide⟩) (by
      intro i
      fin_cases i
      · exact gBasis C me 1 (Or.inl rfl)
      · exact gBasis C me (-1) (Or.inr rfl)) U c6 hU hc6
  refine ⟨K, R0, hK, fun p ha ho hR => ?_⟩
  obtain ⟨s0, s, s', h0, hV, hH, hs, hb, hp, X, e, hX, he⟩ := two_atoms_run C vRad me gPairs ![0, 0, 14, 14] p
  have := H s0 s s' h0 hV hH hs hb (by rw [hp]; exact ha) (by rw [hp]; exact ho) (by rw [hp]; exact hR) X e hX he
  have z : (Finset.univ.filter fun c : Fin 4 => (![0, 0, 14, 14] : Fin 4 → ℝ) c < 0).card = 0 := by
    rw [Finset.filter_false_of_mem, Finset.card_empty]
    intro c _
    fin_cases c <;> norm_num
  have a0 := this (0 : Fin 2) 0 (by rw [z]; rfl)
  have a1 := this (1 : Fin 2) 1 (by rw [z]; rfl)
  rw [hp, zero_add] at a0 a1
  exact ⟨s, s', X, e, hp, hb, hX, he, a0, a1⟩

end PI
