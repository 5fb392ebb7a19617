import Verif.Rot.VanDerWaalsTilt

/-!
# C125: the eigenvalues of the C3 matrix are the resonant dipole-dipole shifts
-/

namespace PI
open Matrix

section general
variable {k : Type} [Fintype k] [DecidableEq k]

/-- The state corrected to first order nearly solves the eigenvalue equation; within the level it is not changed. The bound of the rest depends only on a bound of the elements. -/
theorem first_order_vector (en : k → ℝ) (E0 b : ℝ) (hb : 0 ≤ b) : ∃ K : ℝ, 0 ≤ K ∧ ∀ (W : Matrix k k ℂ) (μ : ℝ) (w : k → ℂ), (∀ c d, ‖W c d‖ ≤ b) → |μ| ≤ b → (∀ c, ‖w c‖ ≤ 1) →
    (∀ c, en c ≠ E0 → w c = 0) → (∀ c, en c = E0 → (W *ᵥ w) c = μ * w c) →
    ∀ x : ℝ, |x| ≤ 1 → ∃ v : k → ℂ, (∀ c, en c = E0 → v c = w c) ∧
      sqNorm (((Matrix.diagonal fun c => (en c : ℂ)) + (x : ℂ) • W) *ᵥ v - ((E0 + x * μ : ℝ) : ℂ) • v) ≤ (K * |x| ^ 2) ^ 2 := by
  set n : ℝ := (Fintype.card k : ℝ) with hn
  have nn : 0 ≤ n := Nat.cast_nonneg _
  set G := ∑ c, n * b / |E0 - en c| with hG
  have G0 : 0 ≤ G := by positivity
  set B := n * (b * G) + b * G with hB
  have B0 : 0 ≤ B := by positivity
  refine ⟨Real.sqrt n * B, by positivity, fun W μ w hW hμ hw1 hw h1 x hx => ?_⟩
  have mul_le : ∀ (u : k → ℂ) (t : ℝ), 0 ≤ t → (∀ c, ‖u c‖ ≤ t) → ∀ c, ‖(W *ᵥ u) c‖ ≤ n * (b * t) := by
    intro u t ht hu c
    refine (norm_sum_le _ _).trans ?_
    have : ∀ d ∈ (Finset.univ : Finset k), ‖W c d * u d‖ ≤ b * t := fun d _ => by
      rw [norm_mul]
      exact mul_le_mul (hW c d) (hu d) (norm_nonneg _) hb
    refine (Finset.sum_le_card_nsmul _ _ _ this).trans (le_of_eq ?_)
    rw [nsmul_eq_mul, Finset.card_univ]
  set v1 : k → ℂ := fun c => if en c = E0 then 0 else (W *ᵥ w) c / ((E0 - en c : ℝ) : ℂ) with hv1
  have v1G : ∀ c, ‖v1 c‖ ≤ G := by
    intro c
    rw [hv1]
    dsimp only
    split_ifs with hc
    · rw [norm_zero]; exact G0
    · rw [norm_div, Complex.norm_real, Real.norm_eq_abs]
      refine le_trans ?_ (Finset.single_le_sum (f := fun c => n * b / |E0 - en c|) (fun c _ => by positivity) (Finset.mem_univ c))
      refine div_le_div_of_nonneg_right ?_ (abs_nonneg _)
      have := mul_le w 1 zero_le_one hw1 c
      rwa [mul_one] at this
  have vB : ∀ c, ‖(W *ᵥ v1) c - μ * v1 c‖ ≤ B := by
    intro c
    refine (norm_sub_le _ _).trans (add_le_add (mul_le v1 G G0 v1G c) ?_)
    rw [norm_mul, Complex.norm_real, Real.norm_eq_abs]
    exact mul_le_mul hμ (v1G c) (norm_nonneg _) hb
  set v : k → ℂ := w + (x : ℂ) • v1 with hv
  have hvS : ∀ c, en c = E0 → v c = w c := by
    intro c hc
    simp [hv, hv1, hc]
  have res : ∀ c, (((Matrix.diagonal fun c => (en c : ℂ)) + (x : ℂ) • W) *ᵥ v - ((E0 + x * μ : ℝ) : ℂ) • v) c = (x : ℂ) ^ 2 * ((W *ᵥ v1) c - μ * v1 c) := by
    intro c
    have lin : (W *ᵥ v) c = (W *ᵥ w) c + x * (W *ᵥ v1) c := by
      rw [hv, mulVec_add, mulVec_smul]
      rfl
    have vc : v c = w c + x * v1 c := rfl
    rw [Pi.sub_apply, add_mulVec, Pi.add_apply, mulVec_diagonal, smul_mulVec, Pi.smul_apply, Pi.smul_apply, smul_eq_mul, smul_eq_mul, lin, vc]
    by_cases hc : en c = E0
    · have a1 : v1 c = 0 := by simp [hv1, hc]
      rw [a1, h1 c hc, hc]
      push_cast
      ring
    · have ne : ((E0 - en c : ℝ) : ℂ) ≠ 0 := by
        rw [Complex.ofReal_ne_zero]
        exact sub_ne_zero.2 (Ne.symm hc)
      have a1 : (W *ᵥ w) c = v1 c * ((E0 - en c : ℝ) : ℂ) := by simp only [hv1, if_neg hc]; rw [div_mul_cancel₀ _ ne]
      rw [a1, hw c hc]
      push_cast
      ring
  refine ⟨v, hvS, ?_⟩
  rw [sqNorm_eq]
  have each : ∀ c ∈ (Finset.univ : Finset k), ‖(((Matrix.diagonal fun c => (en c : ℂ)) + (x : ℂ) • W) *ᵥ v - ((E0 + x * μ : ℝ) : ℂ) • v) c‖ ^ 2 ≤ (B * |x| ^ 2) ^ 2 := by
    intro c _
    refine pow_le_pow_left₀ (norm_nonneg _) ?_ 2
    rw [res c, norm_mul, norm_pow, Complex.norm_real, Real.norm_eq_abs, mul_comm]
    exact mul_le_mul_of_nonneg_right (vB c) (by positivity)
  refine (Finset.sum_le_card_nsmul _ _ _ each).trans (le_of_eq ?_)
  rw [nsmul_eq_mul, Finset.card_univ, ← hn, mul_assoc, mul_pow (Real.sqrt n), Real.sq_sqrt nn]

/-- First-order perturbation theory for a degenerate level with a bound of the rest: for an orthonormal family of eigenvectors of the interaction within the level, as many levels follow the
first-order energies, with their multiplicities. -/
theorem first_order_levels {ι : Type} [Fintype ι] [DecidableEq ι] (en : k → ℝ) (E0 b : ℝ) (hb : 0 ≤ b) :
    ∃ K : ℝ, 0 ≤ K ∧ ∀ (W : Matrix k k ℂ) (μ : ι → ℝ) (w : ι → k → ℂ), (∀ c d, ‖W c d‖ ≤ b) → (∀ j, |μ j| ≤ b) → (∀ i j, star (w i) ⬝ᵥ w j = if i = j then 1 else 0) →
      (∀ j c, en c ≠ E0 → w j c = 0) → (∀ j c, en c = E0 → (W *ᵥ w j) c = μ j * w j c) →
      ∀ x : ℝ, x ≠ 0 → |x| ≤ 1 → ∀ (Y : Matrix k k ℂ) (e : k → ℝ), Diagonalizes ((Matrix.diagonal fun c => (en c : ℂ)) + (x : ℂ) • W) Y e →
      ∃ f : ι → k, Function.Injective f ∧ ∀ j, |e (f j) - (E0 + x * μ j)| ≤ K * |x| ^ 2 := by
  obtain ⟨K0, K0n, H⟩ := first_order_vector en E0 b hb
  set m : ℝ := (Fintype.card ι : ℝ) with hm
  have mn : 0 ≤ m := Nat.cast_nonneg _
  have m2 : m ≤ m ^ 2 := by
    have : (Fintype.card ι) ≤ (Fintype.card ι) ^ 2 := Nat.le_self_pow (by norm_num) _
    rw [hm]
    exact_mod_cast this
  refine ⟨m * K0 + 1, by positivity, fun W μ w hW hμ hwo hw h1 x hx0 hx Y e hY => ?_⟩
  have w1 : ∀ j c, ‖w j c‖ ≤ 1 := by
    intro j c
    have h : sqNorm (w j) = 1 := by
      unfold sqNorm
      rw [hwo j j, if_pos rfl, Complex.one_re]
    rw [sqNorm_eq] at h
    have := Finset.single_le_sum (f := fun c => ‖w j c‖ ^ 2) (fun c _ => by positivity) (Finset.mem_univ c)
    rw [h] at this
    exact (sq_le_one_iff₀ (norm_nonneg _)).1 this
  choose v hvS hvr using fun j => H W (μ j) (w j) hW (hμ j) (w1 j) (hw j) (h1 j) x hx
  have xp : 0 < |x| ^ 2 := by positivity
  refine residual_levels hY v (fun j => E0 + x * μ j) (K0 * |x| ^ 2) _ ?_ ?_ (by positivity) ?_
  · intro c
    have cw : sqNorm c = sqNorm (∑ j, c j • w j) := by
      unfold sqNorm
      congr 1
      rw [star_sum, sum_dotProduct]
      simp only [dotProduct_sum, star_smul, smul_dotProduct, dotProduct_smul, hwo, smul_eq_mul]
      simp [dotProduct]
      exact Finset.sum_congr rfl fun _ _ => mul_comm _ _
    rw [cw, sqNorm_eq, sqNorm_eq]
    refine Finset.sum_le_sum fun d _ => ?_
    rw [Finset.sum_apply, Finset.sum_apply]
    by_cases hd : en d = E0
    · refine le_of_eq ?_
      congr 2
      refine Finset.sum_congr rfl fun j _ => ?_
      rw [Pi.smul_apply, Pi.smul_apply, hvS j d hd]
    · rw [Finset.sum_eq_zero fun j _ => by rw [Pi.smul_apply, hw j d hd, smul_zero], norm_zero, zero_pow two_ne_zero]
      positivity
  · exact hvr
  · show m * (K0 * |x| ^ 2) ^ 2 < ((m * K0 + 1) * |x| ^ 2) ^ 2
    rw [mul_pow, mul_pow, ← mul_assoc]
    refine mul_lt_mul_of_pos_right ?_ (by positivity)
    nlinarith [mul_nonneg mn K0n, mul_le_mul_of_nonneg_right m2 (sq_nonneg K0)]

end general


/-- The energies of the numbers of the level in the sorted list follow the sorted first-order energies. -/
theorem first_order_levels_sorted {k m : ℕ} (en : Fin k → ℝ) (E0 : ℝ) (hm : m = (Finset.univ.filter fun c => en c = E0).card) (b : ℝ) (hb : 0 ≤ b) :
    ∃ K x0 : ℝ, 0 ≤ K ∧ 0 < x0 ∧ ∀ (W : Matrix (Fin k) (Fin k) ℂ) (μ : Fin m → ℝ) (w : Fin m → Fin k → ℂ), (∀ c d, ‖W c d‖ ≤ b) → (∀ j, |μ j| ≤ b) → Monotone μ →
      (∀ i j, star (w i) ⬝ᵥ w j = if i = j then 1 else 0) → (∀ j c, en c ≠ E0 → w j c = 0) → (∀ j c, en c = E0 → (W *ᵥ w j) c = μ j * w j c) →
      ∀ x : ℝ, 0 < x → |x| ≤ x0 → ∀ (Y : Matrix (Fin k) (Fin k) ℂ) (e : Fin k → ℝ),
      Diagonalizes ((Matrix.diagonal fun c => (en c : ℂ)) + (x : ℂ) • W) Y e → Monotone e →
        ∀ (j : Fin m) (i : Fin k), i.val = (Finset.univ.filter fun c => en c < E0).card + j.val → |e i - (E0 + x * μ j)| ≤ K * |x| ^ 2 := by
  obtain ⟨K, hK, H⟩ := first_order_levels (ι := Fin m) en E0 b hb
  obtain ⟨g, g0, hg⟩ := level_gap en E0
  set B : ℝ := k * (k * b) with hB
  have B0 : 0 ≤ B := by positivity
  set M := K + b + B + 1 with hM
  have M0 : 0 < M := by positivity
  set p := (Finset.univ.filter fun c => en c < E0).card with hp
  refine ⟨K, min 1 (g / (4 * M)), hK, lt_min one_pos (by positivity), fun W μ w hW hμb hμ hwo hw h1 x hx0 hx Y e hY he j i hi => ?_⟩
  have bdB : BoundedBy W B := by
    intro y
    refine (bounded_entries W y).trans (mul_le_mul_of_nonneg_right ?_ (by rw [sqNorm_eq]; positivity))
    refine (Finset.sum_le_card_nsmul _ _ (k * b) fun c _ => ?_).trans (le_of_eq ?_)
    · refine (Finset.sum_le_card_nsmul _ _ b fun d _ => hW c d).trans (le_of_eq ?_)
      rw [nsmul_eq_mul, Finset.card_univ, Fintype.card_fin]
    · rw [nsmul_eq_mul, Finset.card_univ, Fintype.card_fin]
  have x1 : |x| ≤ 1 := hx.trans (min_le_left _ _)
  have x2 : M * |x| ≤ g / 4 := by
    have := mul_le_mul_of_nonneg_left (hx.trans (min_le_right _ _)) M0.le
    refine this.trans (le_of_eq ?_)
    field_simp
  have xn := abs_nonneg x
  obtain ⟨f, hf, hn⟩ := H W μ w hW hμb hwo hw h1 x hx0.ne' x1 Y e hY
  have near : ∀ l, |e (f l) - E0| ≤ g / 4 := by
    intro l
    have ml : |μ l| ≤ b := hμb l
    have t : |x * μ l| ≤ b * |x| := by
      rw [abs_mul, mul_comm]
      exact mul_le_mul_of_nonneg_right ml xn
    have t2 : K * |x| ^ 2 ≤ K * |x| := by
      have : |x| ^ 2 ≤ |x| := by
        calc |x| ^ 2 ≤ |x| ^ 1 := pow_le_pow_of_le_one xn x1 (by norm_num)
          _ = |x| := pow_one _
      exact mul_le_mul_of_nonneg_left this hK
    have t3 : e (f l) - E0 = (e (f l) - (E0 + x * μ l)) + x * μ l := by ring
    rw [t3]
    refine (abs_add_le _ _).trans ?_
    have : K * |x| + b * |x| ≤ M * |x| := by
      rw [← add_mul]
      exact mul_le_mul_of_nonneg_right (by rw [hM]; linarith) xn
    have := hn l
    linarith
  have xb : |x| * B ≤ g / 4 := by
    have : B * |x| ≤ M * |x| := mul_le_mul_of_nonneg_right (by rw [hM]; linarith) xn
    linarith
  have up : ∀ l, (f l).val < p + m := by
    intro l
    have nl := abs_le.1 (near l)
    have a := (levels_near en W B bdB x Y e hY (E0 + g / 4)).1
    have q : (f l).val + 1 ≤ levelsUpTo e (E0 + g / 4) := by
      unfold levelsUpTo
      have : Finset.Iic (f l) ⊆ Finset.univ.filter fun c => e c ≤ E0 + g / 4 := fun c hc =>
        Finset.mem_filter.2 ⟨Finset.mem_univ _, (he (Finset.mem_Iic.1 hc)).trans (by linarith)⟩
      have := Finset.card_le_card this
      rwa [Fin.card_Iic] at this
    have u : levelsUpTo en (E0 + g / 4 + |x| * B) ≤ p + m := by
      unfold levelsUpTo
      have : (Finset.univ.filter fun c => en c ≤ E0 + g / 4 + |x| * B) ⊆ (Finset.univ.filter fun c => en c < E0) ∪ (Finset.univ.filter fun c => en c = E0) := by
        intro c hc
        rw [Finset.mem_filter] at hc
        rw [Finset.mem_union, Finset.mem_filter, Finset.mem_filter]
        by_cases h : en c = E0
        · exact Or.inr ⟨Finset.mem_univ _, h⟩
        · refine Or.inl ⟨Finset.mem_univ _, ?_⟩
          have := hg c h
          rcases abs_cases (en c - E0) with h3 | h3 <;> linarith [hc.2]
      have := (Finset.card_le_card this).trans (Finset.card_union_le _ _)
      rwa [← hm, ← hp] at this
    omega
  have lo : ∀ l, p ≤ (f l).val := by
    intro l
    have nl := abs_le.1 (near l)
    have a := (levels_near en W B bdB x Y e hY (E0 - g)).2
    have q : p ≤ levelsUpTo en (E0 - g) := by
      unfold levelsUpTo
      refine Finset.card_le_card fun c hc => ?_
      rw [Finset.mem_filter] at hc ⊢
      refine ⟨Finset.mem_univ _, ?_⟩
      have := hg c hc.2.ne
      rcases abs_cases (en c - E0) with h3 | h3 <;> linarith [hc.2]
    have u : levelsUpTo e (E0 - g + |x| * B) ≤ (f l).val := by
      unfold levelsUpTo
      have : (Finset.univ.filter fun c => e c ≤ E0 - g + |x| * B) ⊆ Finset.Iio (f l) := by
        intro c hc
        rw [Finset.mem_filter] at hc
        rw [Finset.mem_Iio]
        by_contra h
        have := he (not_lt.1 h)
        linarith [hc.2]
      have := Finset.card_le_card this
      rwa [Fin.card_Iio] at this
    omega
  have x2n : 0 ≤ x := hx0.le
  obtain ⟨l1, hl1, hf1⟩ : ∃ l, l ≤ j ∧ i ≤ f l := by
    by_contra hc
    push Not at hc
    have s : (Finset.Iic j).image (fun l => (f l).val) ⊆ Finset.Ico p i.val := by
      intro y hy
      obtain ⟨l, hl, rfl⟩ := Finset.mem_image.1 hy
      exact Finset.mem_Ico.2 ⟨lo l, Fin.lt_def.1 (hc l (Finset.mem_Iic.1 hl))⟩
    have := Finset.card_le_card s
    rw [Finset.card_image_of_injective _ (show Function.Injective (fun l => (f l).val) from Fin.val_injective.comp hf), Fin.card_Iic, Nat.card_Ico] at this
    omega
  obtain ⟨l2, hl2, hf2⟩ : ∃ l, j ≤ l ∧ f l ≤ i := by
    by_contra hc
    push Not at hc
    have s : (Finset.Ici j).image (fun l => (f l).val) ⊆ Finset.Ioo i.val (p + m) := by
      intro y hy
      obtain ⟨l, hl, rfl⟩ := Finset.mem_image.1 hy
      exact Finset.mem_Ioo.2 ⟨Fin.lt_def.1 (hc l (Finset.mem_Ici.1 hl)), up l⟩
    have := Finset.card_le_card s
    rw [Finset.card_image_of_injective _ (show Function.Injective (fun l => (f l).val) from Fin.val_injective.comp hf), Fin.card_Ici, Nat.card_Ioo] at this
    have := j.isLt
    omega
  have a1 := abs_le.1 (hn l1)
  have a2 := abs_le.1 (hn l2)
  have b1 := mul_le_mul_of_nonneg_left (hμ hl1) x2n
  have b2 := mul_le_mul_of_nonneg_left (hμ hl2) x2n
  have c1 := he hf1
  have c2 := he hf2
  rw [abs_le]
  constructor <;> linarith


variable {N : ℕ}

/-! ## The operator -/

/-- The dipole-dipole interaction that SystemTwo adds at unit distance for the angle θ between the distance vector and the quantization axis. -/
noncomputable def dipoleOper (C : FieldConsts) (radial : RadKey → ℝ) (me : Method) (st : Fin N → Option (QN × QN)) (θ : ℝ) : Matrix (Fin N) (Fin N) ℂ :=
  if θ = 0 then pairOper C radial me st (.mul 3) else tiltOper C radial me st θ

/-- The distance vector of the settings has the angle θ to the quantization axis and positive length, and the dipole-dipole interaction alone is switched on. -/
def DipoleAt (θ : ℝ) (p : PairParams) : Prop :=
  (θ = 0 ∧ OnAxis p ∧ p.order = 3 ∧ 0 < p.dist) ∨ (θ ≠ 0 ∧ Tilted p ∧ AtAngle θ p)

theorem DipoleAt.pos {θ : ℝ} {p : PairParams} (h : DipoleAt θ p) : 0 < p.dist := by
  rcases h with ⟨-, -, -, h⟩ | ⟨-, -, h⟩
  · exact h
  · exact h.pos

theorem dipoleOper_herm (C : FieldConsts) (radial : RadKey → ℝ) (me : Method) (st : Fin N → Option (QN × QN)) (θ : ℝ) : (dipoleOper C radial me st θ).IsHermitian := by
  unfold dipoleOper
  split_ifs
  · exact lowerView_herm _
  · exact tiltOper_herm C radial me st θ

/-- The entries are the elements of the C3 matrix. -/
theorem dipoleOper_entry (C : FieldConsts) (radial : RadKey → ℝ) (me : Method) (st : Fin N → Option (QN × QN)) (hst : GoodPairs st) {θ : ℝ} (hθ : θ = 0 ∨ OKAngle θ) (E : QN → ℝ) (r c : Fin N)
    (a b : QN × QN) (hr : st r = some a) (hc : st c = some b) :
    dipoleOper C radial me st θ r c = (c3Elem (cachePert C radial me E) θ (a.1.qa, a.2.qa) (b.1.qa, b.2.qa) : ℝ) := by
  have ok : PairOK a b := hst.ok hr hc
  have full : dipoleOper C radial me st θ r c = if θ = 0 ∧ mDiff a.1 b.1 + mDiff a.2 b.2 ≠ 0 then 0 else
      ((C.ke * angleVal θ (mDiff a.1 b.1, mDiff a.2 b.2) * elem C radial me 1 a.1 b.1 * elem C radial me 1 a.2 b.2 : ℝ) : ℂ) := by
    unfold dipoleOper
    by_cases h : θ = 0
    · subst h
      rw [if_pos rfl, mul3_entry C radial me st hst, hr, hc]
      dsimp only
      rw [mulEntry_angle C radial me a b ok]
      by_cases h' : mDiff a.1 b.1 + mDiff a.2 b.2 = 0
      · rw [if_pos h', if_neg fun hh => hh.2 h']
      · rw [if_neg h', if_pos ⟨rfl, h'⟩]
    · rw [if_neg h, if_neg fun hh => h hh.1, tilt_entry C radial me st hst (hθ.resolve_left h), hr, hc]
  rw [full]
  unfold c3Elem
  have q0 : ((a.1.qa, a.2.qa).1.m - (b.1.qa, b.2.qa).1.m).tdiv 2 = mDiff a.1 b.1 := rfl
  have q1 : ((a.1.qa, a.2.qa).2.m - (b.1.qa, b.2.qa).2.m).tdiv 2 = mDiff a.2 b.2 := rfl
  have e1 : (cachePert C radial me E).d (a.1.qa, a.2.qa).1 (b.1.qa, b.2.qa).1 = elem C radial me 1 a.1 b.1 := rfl
  have e2 : (cachePert C radial me E).d (a.1.qa, a.2.qa).2 (b.1.qa, b.2.qa).2 = elem C radial me 1 a.2 b.2 := rfl
  have ek : (cachePert C radial me E).k = C.ke := rfl
  dsimp only at q0 q1 e1 e2 ⊢
  rw [q0, q1, e1, e2, ek]
  have len : (qLoop (decide (θ ≠ 0))).length = 3 ↔ θ = 0 := by
    by_cases h : θ = 0 <;> simp [qLoop, h]
  by_cases h : θ = 0 ∧ mDiff a.1 b.1 + mDiff a.2 b.2 ≠ 0
  · rw [if_pos h, if_pos ⟨len.2 h.1, h.2⟩, Complex.ofReal_zero]
  · rw [if_neg h, if_neg fun hh => h ⟨len.1 hh.1, hh.2⟩]
    by_cases h2 : 1 < |mDiff a.1 b.1| ∨ 1 < |mDiff a.2 b.2|
    · rw [if_pos h2]
      rcases h2 with h2 | h2
      · have z := elem_zero C radial me a.1 b.1 ok.a1 ok.b1 ok.sp1 ok.s1 1 (by norm_num) (by
          by_contra hc
          exact absurd (selMultipole_m a.1 b.1 ok.a1 ok.b1 ok.s1 1 (by simpa using hc)) (not_le.2 h2))
        rw [z]; simp
      · have z := elem_zero C radial me a.2 b.2 ok.a2 ok.b2 ok.sp2 ok.s2 1 (by norm_num) (by
          by_contra hc
          exact absurd (selMultipole_m a.2 b.2 ok.a2 ok.b2 ok.s2 1 (by simpa using hc)) (not_le.2 h2))
        rw [z]; simp
    · rw [if_neg h2]

/-- **C125 (the matrix).** For states S of the pair system at the places `lev` the matrix that `getC3` returns is the dipole-dipole interaction between them. -/
theorem C125_matrix (C : FieldConsts) (radial : RadKey → ℝ) (me : Method) (st : Fin N → Option (QN × QN)) (hst : GoodPairs st) {θ : ℝ} (hθ : θ = 0 ∨ OKAngle θ) (E : QN → ℝ)
    (S : List (QA × QA)) (x0 : QA × QA) (lev : Fin S.length → Fin N) (hL : ∀ i, st (lev i) = some ((S.get i).1.qn, (S.get i).2.qn)) (i j : Fin S.length) :
    dipoleOper C radial me st θ (lev i) (lev j) = (getC3M (cachePert C radial me E) θ S x0 i j : ℝ) := by
  have el : ∀ i j, dipoleOper C radial me st θ (lev i) (lev j) = (c3Elem (cachePert C radial me E) θ (S.get i) (S.get j) : ℝ) :=
    fun i j => dipoleOper_entry C radial me st hst hθ E _ _ _ _ (hL i) (hL j)
  have g : ∀ l : Fin S.length, S.getD l.val x0 = S.get l := fun l => by simp
  unfold getC3M upperView
  dsimp only
  rcases lt_trichotomy i.val j.val with h | h | h
  · rw [if_pos h.le, if_pos ⟨i.isLt, h, j.isLt⟩, g, g]
    exact el i j
  · obtain rfl := Fin.ext h
    rw [if_pos le_rfl, if_neg (by omega), el]
    have ok := hst.ok (hL i) (hL i)
    have z : elem C radial me 1 (S.get i).1.qn (S.get i).1.qn = 0 := elem_zero C radial me _ _ ok.a1 ok.a1 rfl rfl 1 (by norm_num) (by simp [selMultipole])
    have z' : (cachePert C radial me E).d (S.get i).1 (S.get i).1 = 0 := z
    unfold c3Elem
    dsimp only
    rw [z']
    simp
  · rw [if_neg (by omega), if_pos ⟨j.isLt, h, i.isLt⟩, g, g, ← (dipoleOper_herm C radial me st θ).apply, el j i, Complex.star_def, Complex.conj_ofReal]

/-- At the angle θ the energies are those of the unperturbed Hamiltonian plus the dipole-dipole operator divided by the third power of the distance. -/
theorem dipole_diagonalizes (C : FieldConsts) (radial : RadKey → ℝ) (me : Method) (st : Fin N → Option (QN × QN)) (en : Fin N → ℝ) {θ : ℝ} (hθ : θ = 0 ∨ OKAngle θ)
    (s0 s s' : CSys OKPair PKey (Fin N) (Fin N)) (h0 : s0.Fresh (pairInter C radial me st)) (hV : s0.V = 1) (hH : s0.H = (Matrix.diagonal fun c => (en c : ℂ)))
    (hs : Hist (pairInter C radial me st) s0 s) (hb : s.build (pairInter C radial me st) = .ok s') (ha : DipoleAt θ s.p.1)
    (X : Matrix (Fin N) (Fin N) ℂ) (e : Fin N → ℝ) (hX : Diagonalizes s'.H X e) :
    ∃ Y, Diagonalizes ((Matrix.diagonal fun c => (en c : ℂ)) + ((1 / s.p.1.dist ^ 3 : ℝ) : ℂ) • dipoleOper C radial me st θ) Y e := by
  unfold dipoleOper
  rcases ha with ⟨h, ha, ho, -⟩ | ⟨h, ht, ha⟩
  · rw [if_pos h]
    have hc : ∀ c, (s0.H c c).re = en c := fun c => by rw [hH, Matrix.diagonal_apply_eq, Complex.ofReal_re]
    obtain ⟨Y, hY⟩ := axis_diagonalizes C radial me st s0.H s0 s s' h0 (by rw [hV, Matrix.conjTranspose_one, Matrix.one_mul, Matrix.mul_one])
      (fun c d h => by rw [hH, Matrix.diagonal_apply_ne _ h]) (fun c => by rw [hH, Matrix.diagonal_apply_eq, Complex.ofReal_im]) hs hb ha ho X e hX
    simp only [hc] at hY
    rw [hV, Matrix.conjTranspose_one, Matrix.one_mul, Matrix.mul_one] at hY
    exact ⟨Y, hY⟩
  · rw [if_neg h]
    exact tilt_diagonalizes C radial me st en (hθ.resolve_left h) s0 s s' h0 hV hH hs hb ht ha X e hX

/-- **C125 (exact).** In a pair system whose basis consists of the states S, the energies at any distance and after any history are the eigenvalues of `getEnergy` + `getC3`/R³. -/
theorem C125_model_space (C : FieldConsts) (radial : RadKey → ℝ) (me : Method) (S : List (QA × QA)) (x0 : QA × QA) (hst : GoodPairs fun i => some ((S.get i).1.qn, (S.get i).2.qn)) {θ : ℝ} (hθ : θ = 0 ∨ OKAngle θ)
    (E : QN → ℝ) (s0 s s' : CSys OKPair PKey (Fin S.length) (Fin S.length))
    (h0 : s0.Fresh (pairInter C radial me fun i => some ((S.get i).1.qn, (S.get i).2.qn))) (hV : s0.V = 1) (hH : s0.H = (Matrix.diagonal fun i => ((E (S.get i).1.qn + E (S.get i).2.qn : ℝ) : ℂ)))
    (hs : Hist (pairInter C radial me fun i => some ((S.get i).1.qn, (S.get i).2.qn)) s0 s) (hb : s.build (pairInter C radial me fun i => some ((S.get i).1.qn, (S.get i).2.qn)) = .ok s') (ha : DipoleAt θ s.p.1)
    (X : Matrix (Fin S.length) (Fin S.length) ℂ) (e : Fin S.length → ℝ) (hX : Diagonalizes s'.H X e) :
    ∃ Y, Diagonalizes (Matrix.of fun i j : Fin S.length =>
      ((getEnergyM (cachePert C radial me E) S x0 i j + getC3M (cachePert C radial me E) θ S x0 i j / s.p.1.dist ^ 3 : ℝ) : ℂ)) Y e := by
  obtain ⟨Y, hY⟩ := dipole_diagonalizes C radial me _ (fun i => E (S.get i).1.qn + E (S.get i).2.qn) hθ s0 s s' h0 hV hH hs hb ha X e hX
  refine ⟨Y, ?_⟩
  have : (Matrix.of fun i j : Fin S.length => ((getEnergyM (cachePert C radial me E) S x0 i j + getC3M (cachePert C radial me E) θ S x0 i j / s.p.1.dist ^ 3 : ℝ) : ℂ))
      = (Matrix.diagonal fun i => ((E (S.get i).1.qn + E (S.get i).2.qn : ℝ) : ℂ)) + ((1 / s.p.1.dist ^ 3 : ℝ) : ℂ) • dipoleOper C radial me (fun i => some ((S.get i).1.qn, (S.get i).2.qn)) θ := by
    ext i j
    have m := C125_matrix C radial me (fun i => some ((S.get i).1.qn, (S.get i).2.qn)) hst hθ E S x0 id (fun _ => rfl) i j
    simp only [id] at m
    rw [Matrix.of_apply, Matrix.add_apply, Matrix.smul_apply, m, smul_eq_mul]
    have ge : getEnergyM (cachePert C radial me E) S x0 i j = if i = j then E (S.get i).1.qn + E (S.get i).2.qn else 0 := by
      unfold getEnergyM
      by_cases h : i = j
      · subst h
        rw [if_pos ⟨rfl, i.isLt⟩, if_pos rfl, show S.getD i.val x0 = S.get i by simp]
        rfl
      · rw [if_neg fun hh => h (Fin.ext hh.1), if_neg h]
    rw [ge]
    by_cases h : i = j
    · subst h
      rw [if_pos rfl, Matrix.diagonal_apply_eq]
      push_cast
      ring
    · rw [if_neg h, Matrix.diagonal_apply_ne _ h]
      push_cast
      ring
  rw [this]
  exact hY

/-- The states `S` are the states of the level `E0` of the pair system, at the places `lev`. -/
structure C3Level (st : Fin N → Option (QN × QN)) (en : Fin N → ℝ) (E0 : ℝ) (S : List (QA × QA)) (lev : Fin S.length → Fin N) : Prop where
  entry : ∀ i, st (lev i) = some ((S.get i).1.qn, (S.get i).2.qn)
  inj : Function.Injective lev
  all : ∀ c, en c = E0 ↔ ∃ i, lev i = c

/-- The angle factors are bounded. -/
theorem angleVal_bound (θ : ℝ) (q : ℤ × ℤ) : |angleVal θ q| ≤ 3 := by
  have c := Real.sin_sq_add_cos_sq θ
  have s2 := sq_nonneg (Real.sin θ)
  have c2 := sq_nonneg (Real.cos θ)
  have r2 : (1 : ℝ) ≤ Real.sqrt 2 := by rw [Real.one_le_sqrt]; norm_num
  have sc : |Real.sin θ * Real.cos θ| ≤ 1 := by
    rw [abs_le]
    constructor <;> nlinarith [sq_nonneg (Real.sin θ - Real.cos θ), sq_nonneg (Real.sin θ + Real.cos θ)]
  have q3 : |3 / Real.sqrt 2| ≤ 3 := by
    rw [abs_of_nonneg (by positivity)]
    exact div_le_self (by norm_num) r2
  have q4 : |-3 / Real.sqrt 2| ≤ 3 := by rw [neg_div, abs_neg]; exact q3
  have pr : ∀ t : ℝ, |t| ≤ 3 → |t * Real.sin θ * Real.cos θ| ≤ 3 := by
    intro t ht
    rw [mul_assoc, abs_mul]
    nlinarith [abs_nonneg t, abs_nonneg (Real.sin θ * Real.cos θ)]
  unfold angleVal angleTerm
  split_ifs <;> simp only [Option.getD_some, Option.getD_none] <;> first
    | exact pr _ q3
    | exact pr _ q4
    | (rw [abs_le]; constructor <;> norm_num <;> nlinarith)

/-- The entries of the dipole-dipole interaction at unit distance have a bound that does not depend on the angle. -/
theorem dipoleOper_bound (C : FieldConsts) (radial : RadKey → ℝ) (me : Method) (st : Fin N → Option (QN × QN)) (hst : GoodPairs st) :
    ∃ b : ℝ, 0 ≤ b ∧ ∀ θ, θ = 0 ∨ OKAngle θ → ∀ r c, ‖dipoleOper C radial me st θ r c‖ ≤ b := by
  let B : Fin N → Fin N → ℝ := fun r c => match st r, st c with
    | some a, some b => 3 * (|C.ke| * |elem C radial me 1 a.1 b.1| * |elem C radial me 1 a.2 b.2|)
    | _, _ => 0
  have B0 : ∀ r c, 0 ≤ B r c := by
    intro r c
    show 0 ≤ (match st r, st c with
      | some a, some b => 3 * (|C.ke| * |elem C radial me 1 a.1 b.1| * |elem C radial me 1 a.2 b.2|)
      | _, _ => 0)
    cases st r <;> cases st c <;> simp only [le_refl]
    positivity
  refine ⟨∑ r, ∑ c, B r c, Finset.sum_nonneg fun r _ => Finset.sum_nonneg fun c _ => B0 r c, fun θ hθ r c => ?_⟩
  have e1 := Finset.single_le_sum (f := fun c => B r c) (fun c _ => B0 r c) (Finset.mem_univ c)
  have e2 := Finset.single_le_sum (f := fun r => ∑ c, B r c) (fun r _ => Finset.sum_nonneg fun c _ => B0 r c) (Finset.mem_univ r)
  refine le_trans ?_ (e1.trans e2)
  show _ ≤ (match st r, st c with
      | some a, some b => 3 * (|C.ke| * |elem C radial me 1 a.1 b.1| * |elem C radial me 1 a.2 b.2|)
      | _, _ => 0)
  have zero : (st r = none ∨ st c = none) → dipoleOper C radial me st θ r c = 0 := by
    intro h
    unfold dipoleOper
    by_cases h0 : θ = 0
    · rw [if_pos h0, mul3_entry C radial me st hst]
      rcases h with h | h
      · rw [h]
      · rw [h]; cases st r <;> rfl
    · rw [if_neg h0, tilt_entry C radial me st hst (hθ.resolve_left h0)]
      rcases h with h | h
      · rw [h]
      · rw [h]; cases st r <;> rfl
  cases hr : st r with
  | none => rw [zero (Or.inl hr)]; simp
  | some a =>
    cases hc : st c with
    | none => rw [zero (Or.inr hc)]; simp
    | some b =>
      rw [dipoleOper_entry C radial me st hst hθ (fun _ => 0) r c a b hr hc, Complex.norm_real, Real.norm_eq_abs]
      have t : |C.ke * angleVal θ (((a.1.qa, a.2.qa).1.m - (b.1.qa, b.2.qa).1.m).tdiv 2, ((a.1.qa, a.2.qa).2.m - (b.1.qa, b.2.qa).2.m).tdiv 2) * elem C radial me 1 a.1 b.1 * elem C radial me 1 a.2 b.2|
          ≤ 3 * (|C.ke| * |elem C radial me 1 a.1 b.1| * |elem C radial me 1 a.2 b.2|) := by
        rw [abs_mul, abs_mul, abs_mul]
        have p : 0 ≤ |C.ke| * |elem C radial me 1 a.1 b.1| * |elem C radial me 1 a.2 b.2| := by positivity
        refine le_trans (le_of_eq ?_) (mul_le_mul_of_nonneg_right (angleVal_bound θ (((a.1.qa, a.2.qa).1.m - (b.1.qa, b.2.qa).1.m).tdiv 2, ((a.1.qa, a.2.qa).2.m - (b.1.qa, b.2.qa).2.m).tdiv 2)) p)
        ring
      unfold c3Elem
      dsimp only at t ⊢
      split_ifs
      · rw [abs_zero]; positivity
      · rw [abs_zero]; positivity
      · exact t

/-- The eigenvalues of a matrix are bounded by its entries. -/
theorem eigen_bound {n : ℕ} (M U : Matrix (Fin n) (Fin n) ℂ) (d : Fin n → ℝ) (h : Diagonalizes M U d) (j : Fin n) : |d j| ≤ ∑ i, ∑ k, ‖M i k‖ := by
  have col : M *ᵥ (fun i => U i j) = fun i => (d j : ℂ) * U i j := by
    funext i
    have := congrFun (congrFun h.2 i) j
    rw [Matrix.mul_diagonal, Matrix.mul_apply, mul_comm] at this
    exact this
  have one : (star fun i => U i j) ⬝ᵥ (fun i => U i j) = 1 := by
    have := congrFun (congrFun h.1 j) j
    rw [Matrix.mul_apply, Matrix.one_apply_eq] at this
    exact this
  have := bounded_entries M fun i => U i j
  have sm : (fun i => (d j : ℂ) * U i j) = (d j : ℂ) • fun i => U i j := rfl
  unfold sqNorm at this
  rw [col, sm, dotProduct_smul, one, smul_eq_mul, mul_one, Complex.norm_real, Real.norm_eq_abs, Complex.one_re, mul_one] at this
  exact this

/-- **C125.** The eigenvalues of the C3 matrix are the resonant dipole-dipole shifts: for a level of the pair system (any states of one energy) and any angle between the distance vector and the quantization
axis, the energies of the numbers of the level in the sorted list are E0 + (the sorted eigenvalues of the matrix that `getC3` returns)/R³ up to K/R⁶ at all distances above some R0, each with its multiplicity;
R0 and K do not depend on the distance, the angle or the history of the system. -/
theorem C125_c3_matrix (C : FieldConsts) (radial : RadKey → ℝ) (me : Method) (st : Fin N → Option (QN × QN)) (hst : GoodPairs st) (E : QN → ℝ) (en : Fin N → ℝ)
    (E0 : ℝ) (S : List (QA × QA)) (x0 : QA × QA) (lev : Fin S.length → Fin N) (hL : C3Level st en E0 S lev) :
    ∃ K R0 : ℝ, 0 ≤ K ∧ ∀ θ : ℝ, θ = 0 ∨ OKAngle θ → ∀ (U : Matrix (Fin S.length) (Fin S.length) ℂ) (c3 : Fin S.length → ℝ),
      Diagonalizes (Matrix.of fun i j : Fin S.length => (getC3M (cachePert C radial me E) θ S x0 i j : ℂ)) U c3 → Monotone c3 → ∀ s0 s s' : CSys OKPair PKey (Fin N) (Fin N), s0.Fresh (pairInter C radial me st) → s0.V = 1 → s0.H = (Matrix.diagonal fun c => (en c : ℂ)) →
      Hist (pairInter C radial me st) s0 s → s.build (pairInter C radial me st) = .ok s' →
      DipoleAt θ s.p.1 → R0 ≤ s.p.1.dist → ∀ X e, Diagonalizes s'.H X e → Monotone e →
        ∀ (j : Fin S.length) (i : Fin N), i.val = (Finset.univ.filter fun c => en c < E0).card + j.val →
          |e i - (E0 + c3 j / s.p.1.dist ^ 3)| ≤ K / s.p.1.dist ^ 6 := by
  obtain ⟨b, b0, hb⟩ := dipoleOper_bound C radial me st hst
  obtain ⟨K, y0, hK, hy0, H⟩ := first_order_levels_sorted en E0 (by
      have : (Finset.univ.filter fun c => en c = E0) = Finset.univ.image lev := by
        ext c
        rw [Finset.mem_filter, Finset.mem_image]
        exact ⟨fun h => let ⟨l, hl⟩ := (hL.all c).1 h.2; ⟨l, Finset.mem_univ _, hl⟩, fun ⟨l, _, hl⟩ => ⟨Finset.mem_univ _, (hL.all c).2 ⟨l, hl⟩⟩⟩
      rw [this, Finset.card_image_of_injective _ hL.inj, Finset.card_univ, Fintype.card_fin]) (b + S.length * (S.length * b)) (by positivity)
  refine ⟨K, max 1 (1 / y0), hK, fun θ hθ U c3 hU hc3 => ?_⟩
  set W := dipoleOper C radial me st θ with hW
  let w : Fin S.length → Fin N → ℂ := fun j c => ∑ l, if lev l = c then U l j else 0
  have w1 : ∀ j l, w j (lev l) = U l j := by
    intro j l
    show (∑ l', if lev l' = lev l then U l' j else 0) = U l j
    rw [Finset.sum_eq_single l, if_pos rfl]
    · intro l' _ h
      rw [if_neg fun hl => h (hL.inj hl)]
    · intro h; exact absurd (Finset.mem_univ l) h
  have w2 : ∀ j c, c ∉ Set.range lev → w j c = 0 := by
    intro j c hc
    refine Finset.sum_eq_zero fun l _ => if_neg fun hl => hc ⟨l, hl⟩
  have lvl : ∀ l, en (lev l) = E0 := fun l => (hL.all _).2 ⟨l, rfl⟩
  have sum1 : ∀ (F : Fin N → ℂ), (∀ c, c ∉ Set.range lev → F c = 0) → ∑ c, F c = ∑ l, F (lev l) := fun F hF =>
    (Fintype.sum_of_injective lev hL.inj (fun l => F (lev l)) F hF fun _ => rfl).symm
  have H := H W c3 w (fun c d => (hb θ hθ c d).trans (le_add_of_nonneg_right (by positivity))) (fun j => by
      refine (eigen_bound _ U c3 hU j).trans (le_trans ?_ (le_add_of_nonneg_left b0))
      refine (Finset.sum_le_card_nsmul _ _ (S.length * b) fun i _ => ?_).trans_eq (by simp)
      refine (Finset.sum_le_card_nsmul _ _ b fun k _ => ?_).trans_eq (by simp)
      rw [Matrix.of_apply, ← C125_matrix C radial me st hst hθ E S x0 lev hL.entry i k]
      exact hb θ hθ _ _) hc3 (by
      intro i j
      show ∑ c, star (w i) c * w j c = _
      rw [sum1 _ fun c hc => by rw [w2 j c hc, mul_zero]]
      simp only [Pi.star_apply, w1]
      have := congrFun (congrFun hU.1 i) j
      rw [Matrix.mul_apply, Matrix.one_apply] at this
      exact this) (by
      intro j c hc
      refine w2 j c fun ⟨l, hl⟩ => hc ?_
      rw [← hl, lvl]) (by
      intro j c hc
      obtain ⟨i, rfl⟩ := (hL.all c).1 hc
      show ∑ d, W (lev i) d * w j d = _
      rw [sum1 _ fun c hc => by rw [w2 j c hc, mul_zero]]
      simp only [w1, hW, C125_matrix C radial me st hst hθ E S x0 lev hL.entry]
      have := congrFun (congrFun hU.2 i) j
      rw [Matrix.mul_diagonal, Matrix.mul_apply, mul_comm] at this
      exact this)
  intro s0 s s' h0 hV hH hs hb ha hR X e hX he j i hi
  obtain ⟨Y, hY⟩ := dipole_diagonalizes C radial me st en hθ s0 s s' h0 hV hH hs hb ha X e hX
  have hp := ha.pos
  have hab : |s.p.1.dist| = s.p.1.dist := abs_of_pos hp
  obtain ⟨f1, f2, -⟩ := far_distance hy0 (R := s.p.1.dist) (by rw [hab]; exact hR)
  have := H _ (by positivity) f1 Y e hY he j i hi
  rw [sq_abs, f2, one_div_mul_eq_div, mul_one_div] at this
  exact this

/-- The two eigenvalues of a matrix that couples two states with the strength c. -/
theorem two_state_shift (c : ℝ) : ∃ U : Matrix (Fin 2) (Fin 2) ℂ, Diagonalizes (!![0, (c : ℂ); (c : ℂ), 0]) U ![-|c|, |c|] := by
  have r' : (((Real.sqrt 2)⁻¹ : ℝ) : ℂ) * (((Real.sqrt 2)⁻¹ : ℝ) : ℂ) = 1 / 2 := by
    rw [← Complex.ofReal_mul, ← mul_inv, Real.mul_self_sqrt (by norm_num)]; norm_num
  have sv : (starRingEnd ℂ) (((Real.sqrt 2)⁻¹ : ℝ) : ℂ) = (((Real.sqrt 2)⁻¹ : ℝ) : ℂ) := Complex.conj_ofReal _
  generalize (((Real.sqrt 2)⁻¹ : ℝ) : ℂ) = v at r' sv
  rcases le_total 0 c with h | h
  · refine ⟨!![v, v; -v, v], ?_, ?_⟩
    · ext i j
      fin_cases i <;> fin_cases j <;> simp [Matrix.mul_apply, Fin.sum_univ_two, sv] <;> linear_combination 2 * r'
    · ext i j
      fin_cases i <;> fin_cases j <;> simp [Matrix.mul_apply, Fin.sum_univ_two, abs_of_nonneg h, mul_comm]
  · refine ⟨!![v, v; v, -v], ?_, ?_⟩
    · ext i j
      fin_cases i <;> fin_cases j <;> simp [Matrix.mul_apply, Fin.sum_univ_two, sv] <;> linear_combination 2 * r'
    · ext i j
      fin_cases i <;> fin_cases j <;> simp [Matrix.mul_apply, Fin.sum_univ_two, abs_of_nonpos h, mul_comm]

/-- **C125 (Förster resonance).** Two degenerate pair states a and b without further partners split by twice the absolute value of the C3 coefficient that `getC3` returns for them: their energies are
E0 - |C3|/R³ and E0 + |C3|/R³ up to K/R⁶. -/
theorem C125_resonance (C : FieldConsts) (radial : RadKey → ℝ) (me : Method) (st : Fin N → Option (QN × QN)) (hst : GoodPairs st) (E : QN → ℝ) (en : Fin N → ℝ)
    (a b : QA × QA) (x0 : QA × QA) (i0 j0 : Fin N) (hi : st i0 = some (a.1.qn, a.2.qn)) (hj : st j0 = some (b.1.qn, b.2.qn)) (hij : i0 ≠ j0) (hE : en j0 = en i0)
    (hno : ∀ c, c ≠ i0 → c ≠ j0 → en c ≠ en i0) :
    ∃ K R0 : ℝ, 0 ≤ K ∧ ∀ θ : ℝ, θ = 0 ∨ OKAngle θ → ∀ s0 s s' : CSys OKPair PKey (Fin N) (Fin N), s0.Fresh (pairInter C radial me st) → s0.V = 1 → s0.H = (Matrix.diagonal fun c => (en c : ℂ)) →
      Hist (pairInter C radial me st) s0 s → s.build (pairInter C radial me st) = .ok s' →
      DipoleAt θ s.p.1 → R0 ≤ s.p.1.dist → ∀ X e, Diagonalizes s'.H X e → Monotone e →
        ∀ k l : Fin N, k.val = (Finset.univ.filter fun c => en c < en i0).card → l.val = k.val + 1 →
          |e k - (en i0 - |getC3M (cachePert C radial me E) θ [a, b] x0 0 1| / s.p.1.dist ^ 3)| ≤ K / s.p.1.dist ^ 6 ∧
          |e l - (en i0 + |getC3M (cachePert C radial me E) θ [a, b] x0 0 1| / s.p.1.dist ^ 3)| ≤ K / s.p.1.dist ^ 6 := by
  obtain ⟨K, R0, hK, H⟩ := C125_c3_matrix C radial me st hst E en (en i0) [a, b] x0 ![i0, j0] (by
    constructor
    · intro i
      fin_cases i
      · exact hi
      · exact hj
    · intro i j h
      fin_cases i <;> fin_cases j
      · rfl
      · exact absurd h hij
      · exact absurd h.symm hij
      · rfl
    · intro c
      constructor
      · intro h
        by_cases h1 : c = i0
        · exact ⟨0, h1.symm⟩
        · by_cases h2 : c = j0
          · exact ⟨1, h2.symm⟩
          · exact absurd h (hno c h1 h2)
      · rintro ⟨i, rfl⟩
        fin_cases i
        · rfl
        · exact hE)
  refine ⟨K, R0, hK, fun θ hθ => ?_⟩
  set V := cachePert C radial me E
  obtain ⟨U, hU⟩ := two_state_shift (getC3M V θ [a, b] x0 0 1)
  have sy := C50_symmetric V θ 0 [a, b] x0
  have hM : (Matrix.of fun i j : Fin 2 => (getC3M V θ [a, b] x0 i j : ℂ)) = !![0, (getC3M V θ [a, b] x0 0 1 : ℂ); (getC3M V θ [a, b] x0 0 1 : ℂ), 0] := by
    ext i j
    fin_cases i <;> fin_cases j
    · show (getC3M V θ [a, b] x0 0 0 : ℂ) = 0
      rw [sy.2.2.1, Complex.ofReal_zero]
    · rfl
    · show (getC3M V θ [a, b] x0 1 0 : ℂ) = (getC3M V θ [a, b] x0 0 1 : ℂ)
      rw [sy.1]
    · show (getC3M V θ [a, b] x0 1 1 : ℂ) = 0
      rw [sy.2.2.1, Complex.ofReal_zero]
  have H := H θ hθ U ![-|getC3M V θ [a, b] x0 0 1|, |getC3M V θ [a, b] x0 0 1|] (by
      have := hU
      rw [← hM] at this
      exact this) (by
      intro i j h
      have := abs_nonneg (getC3M V θ [a, b] x0 0 1)
      fin_cases i <;> fin_cases j
      · exact le_rfl
      · show -|getC3M V θ [a, b] x0 0 1| ≤ |getC3M V θ [a, b] x0 0 1|
        linarith
      · exact absurd (show (1 : ℕ) ≤ 0 from h) (by omega)
      · exact le_rfl)
  refine fun s0 s s' h0 hV hH hs hb ha hR X e hX he k l hk hl => ⟨?_, ?_⟩
  · have := H s0 s s' h0 hV hH hs hb ha hR X e hX he (0 : Fin 2) k (by rw [hk]; rfl)
    rw [sub_eq_add_neg (en i0), ← neg_div]
    exact this
  · exact H s0 s s' h0 hV hH hs hb ha hR X e hX he (1 : Fin 2) l (by rw [hl, hk]; rfl)

/-- The pair states SP and PS with m = 1/2, a state SS below and a state PP above. -/
def rPairs : Fin 4 → Option (QN × QN) := ![some (gS 1, gS 1), some (gS 1, gP 1), some (gP 1, gS 1), some (gP 1, gP 1)]

theorem rPairs_cases {i : Fin 4} {v : QN × QN} (h : rPairs i = some v) : (v.1 = gS 1 ∨ v.1 = gP 1) ∧ (v.2 = gS 1 ∨ v.2 = gP 1) := by
  fin_cases i <;> (obtain rfl := (Option.some.inj h).symm; simp)

theorem rPairs_good : GoodPairs rPairs := by
  have ps : (gS 1).Physical := by unfold QN.Physical gS; decide
  have pp : (gP 1).Physical := by unfold QN.Physical gP; decide
  have ph : ∀ x, x = gS 1 ∨ x = gP 1 → x.Physical ∧ x.species = "Rb" ∧ x.s = 1 := by
    rintro x (rfl | rfl)
    · exact ⟨ps, rfl, rfl⟩
    · exact ⟨pp, rfl, rfl⟩
  intro i a ha
  obtain ⟨h1, h2⟩ := rPairs_cases ha
  obtain ⟨x1, x2, x3⟩ := ph _ h1
  obtain ⟨y1, y2, y3⟩ := ph _ h2
  refine ⟨x1, y1, fun j b hb => ?_⟩
  obtain ⟨h1, h2⟩ := rPairs_cases hb
  obtain ⟨-, z2, z3⟩ := ph _ h1
  obtain ⟨-, w2, w3⟩ := ph _ h2
  exact ⟨x2.trans z2.symm, x3.trans z3.symm, y2.trans w2.symm, y3.trans w3.symm⟩

/-- Both on the z axis and perpendicular to it there are accepted settings at any distance. -/
theorem dipole_settings (R : ℝ) (hR : 0 < R) (hd : R ≠ dblMax) : (∃ p : OKPair, DipoleAt 0 p.1 ∧ p.1.dist = R) ∧ ∃ p : OKPair, DipoleAt (Real.pi / 2) p.1 ∧ p.1.dist = R := by
  constructor
  · refine ⟨⟨⟨0, 0, R, R, false, dblMax, 3⟩, ?_⟩, Or.inl ⟨rfl, ⟨hd, rfl, rfl, rfl, rfl⟩, rfl, hR⟩, rfl⟩
    unfold initPair
    rw [if_neg hd]
    dsimp only
    rw [if_neg, if_neg]
    · exact fun h => h rfl
    · rintro (h | h | ⟨-, h⟩ | h) <;> revert h <;> simp
  · obtain ⟨p, h1, h2, h3⟩ := rightAngle_settings R hR hd
    exact ⟨p, Or.inr ⟨by positivity, h1, h2⟩, h3⟩

/-- SP and PS perpendicular to the axis: the second and third energy of the four pair states are 7 ± |C3|/R³ up to K/R⁶. -/
example (C : FieldConsts) (radial : RadKey → ℝ) (me : Method) (x0 : QA × QA) : ∃ K R0 : ℝ, 0 ≤ K ∧ ∀ p : OKPair, DipoleAt (Real.pi / 2) p.1 → R0 ≤ p.1.dist →
    ∃ (s s' : CSys OKPair PKey (Fin 4) (Fin 4)) (X : Matrix (Fin 4) (Fin 4) ℂ) (e : Fin 4 → ℝ), s.p = p ∧ s.build (pairInter C radial me rPairs) = .ok s' ∧ Diagonalizes s'.H X e ∧ Monotone e ∧
      |e 1 - (7 - |getC3M (cachePert C radial me fun x => 7 * x.l) (Real.pi / 2) [((gS 1).qa, (gP 1).qa), ((gP 1).qa, (gS 1).qa)] x0 0 1| / p.1.dist ^ 3)| ≤ K / p.1.dist ^ 6 ∧
      |e 2 - (7 + |getC3M (cachePert C radial me fun x => 7 * x.l) (Real.pi / 2) [((gS 1).qa, (gP 1).qa), ((gP 1).qa, (gS 1).qa)] x0 0 1| / p.1.dist ^ 3)| ≤ K / p.1.dist ^ 6 := by
  obtain ⟨K, R0, hK, H⟩ := C125_resonance C radial me rPairs rPairs_good (fun x => 7 * x.l) ![0, 7, 7, 14] ((gS 1).qa, (gP 1).qa) ((gP 1).qa, (gS 1).qa) x0 1 2 rfl rfl (by decide) rfl (by
    intro c h1 h2
    fin_cases c
    · norm_num
    · exact absurd rfl h1
    · exact absurd rfl h2
    · norm_num)
  refine ⟨K, R0, hK, fun p ha hR => ?_⟩
  obtain ⟨s0, s, s', h0, hV, hH, hs, hb, hp, X, e, hX, he⟩ := two_atoms_run C radial me rPairs ![0, 7, 7, 14] p
  refine ⟨s, s', X, e, hp, hb, hX, he, ?_⟩
  have := H _ (Or.inr rightAngle) s0 s s' h0 hV hH hs hb (by rw [hp]; exact ha) (by rw [hp]; exact hR) X e hX he 1 2 (by
    have : (Finset.univ.filter fun c : Fin 4 => (![0, 7, 7, 14] : Fin 4 → ℝ) c < (![0, 7, 7, 14] : Fin 4 → ℝ) 1) = {0} := by
      ext c
      have v : (![0, 7, 7, 14] : Fin 4 → ℝ) 1 = 7 := rfl
      rw [Finset.mem_filter, Finset.mem_singleton, v]
      fin_cases c
      · exact ⟨fun _ => rfl, fun _ => ⟨Finset.mem_univ _, show (0 : ℝ) < 7 by norm_num⟩⟩
      · exact ⟨fun h => absurd (show (7 : ℝ) < 7 from h.2) (by norm_num), fun h => absurd h (by decide)⟩
      · exact ⟨fun h => absurd (show (7 : ℝ) < 7 from h.2) (by norm_num), fun h => absurd h (by decide)⟩
      · exact ⟨fun h => absurd (show (14 : ℝ) < 7 from h.2) (by norm_num), fun h => absurd h (by decide)⟩
    rw [this]
    rfl) rfl
  rw [hp] at this
  exact this

/-- The pair states SP and PS alone. -/
def rTwo : Fin 2 → Option (QN × QN) := ![some (gS 1, gP 1), some (gP 1, gS 1)]

/-- On the z axis, the basis of SP and PS alone: the two energies are exactly the eigenvalues of `getEnergy` + `getC3`/R³. -/
example (C : FieldConsts) (radial : RadKey → ℝ) (me : Method) (x0 : QA × QA) (p : OKPair) (ha : DipoleAt 0 p.1) :
    ∃ (s s' : CSys OKPair PKey (Fin 2) (Fin 2)) (X : Matrix (Fin 2) (Fin 2) ℂ) (e : Fin 2 → ℝ), s.p = p ∧
      s.build (pairInter C radial me rTwo) = .ok s' ∧ Diagonalizes s'.H X e ∧ Monotone e ∧
      ∃ Y, Diagonalizes (Matrix.of fun i j : Fin 2 => ((getEnergyM (cachePert C radial me fun x => 7 * x.l) [((gS 1).qa, (gP 1).qa), ((gP 1).qa, (gS 1).qa)] x0 i j +
        getC3M (cachePert C radial me fun x => 7 * x.l) 0 [((gS 1).qa, (gP 1).qa), ((gP 1).qa, (gS 1).qa)] x0 i j / p.1.dist ^ 3 : ℝ) : ℂ)) Y e := by
  set S : List (QA × QA) := [((gS 1).qa, (gP 1).qa), ((gP 1).qa, (gS 1).qa)] with hS
  have st : rTwo = fun i : Fin S.length => some ((S.get i).1.qn, (S.get i).2.qn) := by
    funext i
    fin_cases i <;> rfl
  have good : GoodPairs fun i : Fin S.length => some ((S.get i).1.qn, (S.get i).2.qn) := by
    have sub : ∀ (i : Fin S.length) v, some ((S.get i).1.qn, (S.get i).2.qn) = some v → ∃ j, rPairs j = some v := by
      intro i v h
      fin_cases i
      · exact ⟨1, h⟩
      · exact ⟨2, h⟩
    intro i a ha
    obtain ⟨j, hj⟩ := sub i a ha
    obtain ⟨g1, g2, g3⟩ := rPairs_good j a hj
    exact ⟨g1, g2, fun k b hb => let ⟨l, hl⟩ := sub k b hb; g3 l b hl⟩
  rw [st]
  obtain ⟨s0, s, s', h0, hV, hH, hs, hb, hp, X, e, hX, he⟩ := two_atoms_run C radial me (fun i : Fin S.length => some ((S.get i).1.qn, (S.get i).2.qn))
    (fun i => 7 * ((S.get i).1.qn.l : ℝ) + 7 * ((S.get i).2.qn.l : ℝ)) p
  refine ⟨s, s', X, e, hp, hb, hX, he, ?_⟩
  have := C125_model_space C radial me S x0 good (Or.inl rfl) (fun x => 7 * x.l) s0 s s' h0 hV hH hs hb (by rw [hp]; exact ha) X e hX
  rw [hp] at this
  exact this

end PI
