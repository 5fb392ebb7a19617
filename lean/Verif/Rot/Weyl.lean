import Verif.Rot.Levels

/-!
# C115: how far the levels move when the settings change

The energies of two Hamiltonians of the same system with different settings.
-/

namespace PI

open Matrix

/-- `b` bounds the expectation values of `A` (e.g. any operator norm, or the sum of the absolute values of all entries, see `bounded_entries`). -/
def BoundedBy {n : Type} [Fintype n] (A : Matrix n n ℂ) (b : ℝ) : Prop := ∀ x : n → ℂ, ‖star x ⬝ᵥ A *ᵥ x‖ ≤ b * sqNorm x

section general
variable {P κ n k : Type} [DecidableEq κ] [Fintype n] [DecidableEq n] [Fintype k] [DecidableEq k]

/-- The sum of the absolute values of the entries is a bound. -/
theorem bounded_entries (A : Matrix n n ℂ) : BoundedBy A (∑ i, ∑ j, ‖A i j‖) := by
  intro x
  have hx : ∀ i, ‖x i‖ ^ 2 ≤ sqNorm x := by
    intro i
    rw [sqNorm_eq]
    exact Finset.single_le_sum (f := fun i => ‖x i‖ ^ 2) (fun i _ => by positivity) (Finset.mem_univ i)
  have hxy : ∀ i j, ‖x i‖ * ‖x j‖ ≤ sqNorm x := by
    intro i j
    nlinarith [hx i, hx j, sq_nonneg (‖x i‖ - ‖x j‖)]
  unfold dotProduct mulVec dotProduct
  refine (norm_sum_le _ _).trans ?_
  rw [Finset.sum_mul]
  refine Finset.sum_le_sum fun i _ => ?_
  rw [norm_mul, Pi.star_apply, norm_star]
  calc ‖x i‖ * ‖∑ j, A i j * x j‖ ≤ ‖x i‖ * ∑ j, ‖A i j‖ * ‖x j‖ := by
        refine mul_le_mul_of_nonneg_left ((norm_sum_le _ _).trans_eq ?_) (norm_nonneg _)
        exact Finset.sum_congr rfl fun j _ => norm_mul _ _
    _ ≤ (∑ j, ‖A i j‖) * sqNorm x := by
        rw [Finset.mul_sum, Finset.sum_mul]
        refine Finset.sum_le_sum fun j _ => ?_
        calc ‖x i‖ * (‖A i j‖ * ‖x j‖) = ‖A i j‖ * (‖x i‖ * ‖x j‖) := by ring
          _ ≤ _ := mul_le_mul_of_nonneg_left (hxy i j) (norm_nonneg _)

theorem bounded_add {A B : Matrix n n ℂ} {a b : ℝ} (hA : BoundedBy A a) (hB : BoundedBy B b) : BoundedBy (A + B) (a + b) := by
  intro x
  rw [add_mulVec, dotProduct_add, add_mul]
  exact (norm_add_le _ _).trans (add_le_add (hA x) (hB x))

theorem bounded_smul {A : Matrix n n ℂ} {a : ℝ} (hA : BoundedBy A a) (c : ℂ) : BoundedBy (c • A) (‖c‖ * a) := by
  intro x
  rw [smul_mulVec, dotProduct_smul, smul_eq_mul, norm_mul, mul_assoc]
  exact mul_le_mul_of_nonneg_left (hA x) (norm_nonneg _)

theorem bounded_zero : BoundedBy (0 : Matrix n n ℂ) 0 := by
  intro x
  simp

theorem bounded_sum {ι : Type} (K : Finset ι) (A : ι → Matrix n n ℂ) (b : ι → ℝ) (h : ∀ i ∈ K, BoundedBy (A i) (b i)) : BoundedBy (∑ i ∈ K, A i) (∑ i ∈ K, b i) := by
  classical
  induction K using Finset.induction_on with
  | empty => simpa using bounded_zero
  | insert a K ha ih =>
    rw [Finset.sum_insert ha, Finset.sum_insert ha]
    exact bounded_add (h a (by simp)) (ih fun i hi => h i (Finset.mem_insert_of_mem hi))

/-- The factor with which the operator of a key enters the Hamiltonian; 0 when the key is not used. -/
noncomputable def effCoef (I : Inter P κ n) (p : P) (key : κ) : ℂ := if key ∈ I.need p then I.coef p key else 0

theorem stateOper_eff (I : Inter P κ n) (D : Matrix n n ℂ) (p : P) (K : Finset κ) (hn : (I.need p).Nodup) (hK : ∀ key ∈ I.need p, key ∈ K) :
    stateOper I D p = D + ∑ key ∈ K, effCoef I p key • I.op key := by
  unfold stateOper
  congr 1
  rw [← List.sum_toFinset _ hn]
  have hsub : (I.need p).toFinset ⊆ K := fun x hx => hK x (List.mem_toFinset.1 hx)
  rw [← Finset.sum_subset hsub]
  · refine Finset.sum_congr rfl fun x hx => ?_
    unfold effCoef
    rw [if_pos (List.mem_toFinset.1 hx)]
  · intro x _ hx
    unfold effCoef
    rw [if_neg (fun h => hx (List.mem_toFinset.2 h)), zero_smul]

/-- **C115 (systems).** The same system with the settings `p` and `q`, each reached by any history of setters, builds and diagonalizations.  Up to every energy `E` there are at most as many levels
in the first as in the second up to `E + δ`, where `δ` is the sum over the operators of |change of the factor| · bound of the operator. -/
theorem C115_levels_move (I : Inter P κ n) (D : Matrix n n ℂ)
    (s0 s s' : CSys P κ n k) (h0 : s0.Fresh I) (hD : s0.H = s0.Vᴴ * D * s0.V) (hs : Hist I s0 s) (hb : s.build I = .ok s')
    (t0 t t' : CSys P κ n k) (g0 : t0.Fresh I) (gD : t0.H = t0.Vᴴ * D * t0.V) (ht : Hist I t0 t) (gb : t.build I = .ok t')
    (hspan : t0.V * t0.Vᴴ = s0.V * s0.Vᴴ)
    (K : Finset κ) (hn : (I.need s.p).Nodup) (hK : ∀ key ∈ I.need s.p, key ∈ K) (hn' : (I.need t.p).Nodup) (hK' : ∀ key ∈ I.need t.p, key ∈ K)
    (b : κ → ℝ) (hbd : ∀ key ∈ K, BoundedBy (I.op key) (b key))
    (X : Matrix k k ℂ) (e : k → ℝ) (hX : Diagonalizes s'.H X e) (U : Matrix k k ℂ) (d : k → ℝ) (hU : Diagonalizes t'.H U d) (E : ℝ) :
    levelsUpTo e E ≤ levelsUpTo d (E + ∑ key ∈ K, ‖effCoef I t.p key - effCoef I s.p key‖ * b key) := by
  obtain ⟨o1, q1, c1⟩ := built_compress I D s0 s s' h0 hD hs hb
  obtain ⟨o2, q2, c2⟩ := built_compress I D t0 t t' g0 gD ht gb
  rw [stateOper_eff I D s.p K hn hK] at c1
  rw [stateOper_eff I D t.p K hn' hK'] at c2
  -- the unitary between the two bases
  have hq : t'.V * t'.Vᴴ = s'.V * s'.Vᴴ := by rw [q2, q1, hspan]
  have hV : t'.V * (t'.Vᴴ * s'.V) = s'.V := by rw [← Matrix.mul_assoc, hq, Matrix.mul_assoc, o1, Matrix.mul_one]
  apply levels_compare hU hX (t'.Vᴴ * s'.V)
  · rw [Matrix.conjTranspose_mul, Matrix.conjTranspose_conjTranspose, Matrix.mul_assoc, hV, o1]
  · intro x
    rw [c1, c2, expect_conj, expect_conj, mulVec_mulVec, hV, ← sqNorm_isometry s'.V o1 x]
    generalize s'.V *ᵥ x = y
    have hdiff : BoundedBy (∑ key ∈ K, (effCoef I t.p key - effCoef I s.p key) • I.op key) (∑ key ∈ K, ‖effCoef I t.p key - effCoef I s.p key‖ * b key) :=
      bounded_sum K _ _ fun key hk => bounded_smul (hbd key hk) _
    have hsplit : D + ∑ key ∈ K, effCoef I t.p key • I.op key =
        (D + ∑ key ∈ K, effCoef I s.p key • I.op key) + ∑ key ∈ K, (effCoef I t.p key - effCoef I s.p key) • I.op key := by
      rw [add_assoc, ← Finset.sum_add_distrib]
      congr 1
      refine Finset.sum_congr rfl fun key _ => ?_
      rw [← add_smul]
      congr 1
      ring
    rw [hsplit]
    unfold expect
    rw [add_mulVec, dotProduct_add, Complex.add_re]
    have h1 := Complex.re_le_norm (star y ⬝ᵥ (∑ key ∈ K, (effCoef I t.p key - effCoef I s.p key) • I.op key) *ᵥ y)
    have h2 := hdiff y
    linarith

end general

/-- Sorted energies: what the counts say about the i-th level. -/
theorem move_sorted {N : ℕ} (e d : Fin N → ℝ) (he : Monotone e) (hd : Monotone d) (δ : ℝ)
    (h1 : ∀ E, levelsUpTo e E ≤ levelsUpTo d (E + δ)) (h2 : ∀ E, levelsUpTo d E ≤ levelsUpTo e (E + δ)) (i : Fin N) : |e i - d i| ≤ δ := by
  have key : ∀ e d : Fin N → ℝ, Monotone e → Monotone d → (∀ E, levelsUpTo e E ≤ levelsUpTo d (E + δ)) → d i ≤ e i + δ := by
    intro e d he hd h
    by_contra hc
    have a : i.val + 1 ≤ levelsUpTo e (e i) := by
      unfold levelsUpTo
      have : (Finset.Iic i) ⊆ Finset.univ.filter fun j => e j ≤ e i := fun x hx => Finset.mem_filter.2 ⟨Finset.mem_univ _, he (Finset.mem_Iic.1 hx)⟩
      have := Finset.card_le_card this
      rwa [Fin.card_Iic] at this
    have b : levelsUpTo d (e i + δ) ≤ i.val := by
      unfold levelsUpTo
      have : (Finset.univ.filter fun j => d j ≤ e i + δ) ⊆ Finset.Iio i := by
        intro x hx
        rw [Finset.mem_filter] at hx
        rw [Finset.mem_Iio]
        by_contra hx'
        have := hd (not_lt.1 hx')
        linarith [hx.2]
      have := Finset.card_le_card this
      rwa [Fin.card_Iio] at this
    have := h (e i)
    omega
  rw [abs_le]
  constructor
  · linarith [key e d he hd h1]
  · linarith [key d e hd he h2]

/-! ## One atom -/

variable {N : ℕ}

/-- The length of a field vector. -/
noncomputable def Vec3.len (v : Vec3) : ℝ := Real.sqrt (v.x ^ 2 + v.y ^ 2 + v.z ^ 2)

/-- The difference of two field vectors. -/
def Vec3.sub (v w : Vec3) : Vec3 := ⟨v.x - w.x, v.y - w.y, v.z - w.z⟩

/-- Components below the tolerance are ignored. -/
noncomputable def cut (z : ℂ) : ℂ := if isBig z then z else 0

theorem cut_near (z : ℂ) : ‖cut z - z‖ ≤ 1e-24 := by
  unfold cut
  by_cases h : isBig z = true
  · rw [if_pos h, sub_self, norm_zero]; norm_num
  · rw [if_neg h, zero_sub, norm_neg]
    unfold isBig at h
    simpa using h

theorem cut_diff (z w : ℂ) : ‖cut z - cut w‖ ≤ ‖z - w‖ + 2e-24 := by
  have h1 := cut_near z
  have h2 := cut_near w
  have : cut z - cut w = (cut z - z) + (z - w) - (cut w - w) := by ring
  rw [this]
  have h3 := norm_sub_le ((cut z - z) + (z - w)) (cut w - w)
  have h4 := norm_add_le (cut z - z) (z - w)
  have h5 : (2e-24 : ℝ) = 1e-24 + 1e-24 := by norm_num
  rw [h5]
  linarith

theorem len_nonneg (v : Vec3) : 0 ≤ v.len := Real.sqrt_nonneg _

theorem norm_le_len (v : Vec3) (a b : ℝ) (h : a ^ 2 + b ^ 2 ≤ v.x ^ 2 + v.y ^ 2 + v.z ^ 2) : ‖(⟨a, b⟩ : ℂ)‖ ≤ v.len := by
  unfold Vec3.len
  rw [← Real.sqrt_sq (norm_nonneg _)]
  apply Real.sqrt_le_sqrt
  rw [← Complex.normSq_eq_norm_sq, Complex.normSq_mk]
  nlinarith

theorem sph_norm (v : Vec3) (q : ℤ) : ‖sph v q‖ ≤ v.len := by
  have h2 : Real.sqrt 2 ^ 2 = 2 := Real.sq_sqrt (by norm_num)
  unfold sph
  split_ifs
  · apply norm_le_len
    rw [div_pow, div_pow, h2]; nlinarith [sq_nonneg v.x, sq_nonneg v.y, sq_nonneg v.z]
  · apply norm_le_len
    rw [div_pow, div_pow, h2]; nlinarith [sq_nonneg v.x, sq_nonneg v.y, sq_nonneg v.z]
  · apply norm_le_len
    nlinarith [sq_nonneg v.x, sq_nonneg v.y, sq_nonneg v.z]
  · rw [norm_zero]; exact len_nonneg v

theorem sph_sub (v w : Vec3) (q : ℤ) : sph v q - sph w q = sph (v.sub w) q := by
  unfold sph Vec3.sub
  split_ifs
  · apply Complex.ext <;> simp <;> ring
  · apply Complex.ext <;> simp <;> ring
  · apply Complex.ext <;> simp
  · simp

theorem sph_diff (v w : Vec3) (q : ℤ) : ‖sph v q - sph w q‖ ≤ (v.sub w).len := by
  rw [sph_sub]
  exact sph_norm _ _

theorem prod_diff (v w : Vec3) (i j : ℤ) : ‖sph v i * sph v j - sph w i * sph w j‖ ≤ (v.len + w.len) * (v.sub w).len := by
  have e : sph v i * sph v j - sph w i * sph w j = sph v i * (sph v j - sph w j) + (sph v i - sph w i) * sph w j := by ring
  rw [e]
  refine (norm_add_le _ _).trans ?_
  rw [norm_mul, norm_mul, add_mul]
  refine add_le_add (mul_le_mul (sph_norm _ _) (sph_diff _ _ _) (norm_nonneg _) (len_nonneg _)) ?_
  rw [mul_comm]
  exact mul_le_mul (sph_norm _ _) (sph_diff _ _ _) (norm_nonneg _) (len_nonneg _)

theorem dia_diff (v w : Vec3) (k q : ℤ) : ‖diaTerm v k q - diaTerm w k q‖ ≤ (if q = 0 then 3 else 1) * ((v.len + w.len) * (v.sub w).len) := by
  have hM : 0 ≤ (v.len + w.len) * (v.sub w).len := mul_nonneg (add_nonneg (len_nonneg _) (len_nonneg _)) (len_nonneg _)
  have p := prod_diff v w
  unfold diaTerm
  by_cases h1 : k = 0 ∧ q = 0
  · rw [if_pos h1, if_pos h1, if_pos h1.2]
    have e : sph v 0 * sph v 0 - sph v 1 * sph v (-1) * 2 - (sph w 0 * sph w 0 - sph w 1 * sph w (-1) * 2) =
      (sph v 0 * sph v 0 - sph w 0 * sph w 0) - 2 * (sph v 1 * sph v (-1) - sph w 1 * sph w (-1)) := by ring
    rw [e]
    refine (norm_sub_le _ _).trans ?_
    rw [norm_mul]
    have : ‖(2 : ℂ)‖ = 2 := by simp
    rw [this]
    linarith [p 0 0, p 1 (-1)]
  rw [if_neg h1, if_neg h1]
  by_cases h2 : k = 2 ∧ q = 0
  · rw [if_pos h2, if_pos h2, if_pos h2.2]
    have e : sph v 0 * sph v 0 + sph v 1 * sph v (-1) - (sph w 0 * sph w 0 + sph w 1 * sph w (-1)) =
      (sph v 0 * sph v 0 - sph w 0 * sph w 0) + (sph v 1 * sph v (-1) - sph w 1 * sph w (-1)) := by ring
    rw [e]
    refine (norm_add_le _ _).trans ?_
    linarith [p 0 0, p 1 (-1)]
  rw [if_neg h2, if_neg h2]
  have one : 1 * ((v.len + w.len) * (v.sub w).len) ≤ (if q = 0 then 3 else 1) * ((v.len + w.len) * (v.sub w).len) :=
    mul_le_mul_of_nonneg_right (by split_ifs <;> norm_num) hM
  rw [one_mul] at one
  refine le_trans ?_ one
  split_ifs
  · exact p _ _
  · exact p _ _
  · exact p _ _
  · exact p _ _
  · simpa using hM

/-- The keys of the electric, magnetic and diamagnetic interaction and of an ion up to the order `o`. -/
noncomputable def allKeys (o : ℕ) : Finset FKey :=
  {.e 0, .e 1, .e (-1), .b 0, .b 1, .b (-1), .d 0 0, .d 2 0, .d 2 1, .d 2 (-1), .d 2 2, .d 2 (-2)} ∪ ((List.range o).map fun i => FKey.ion (i + 1)).toFinset

theorem eff_e (C : FieldConsts) (radial : RadKey → ℝ) (me : Method) (st : Fin N → Option QN) (p : FieldParams) :
    effCoef (fieldInter C radial me st) p (.e 0) = -cut (sph p.E 0) ∧ effCoef (fieldInter C radial me st) p (.e 1) = cut (sph p.E (-1)) ∧
    effCoef (fieldInter C radial me st) p (.e (-1)) = cut (sph p.E 1) := by
  unfold effCoef cut fieldInter addKeys addCoef
  refine ⟨?_, ?_, ?_⟩
  · by_cases h : isBig (sph p.E 0) = true <;> simp [h]
  · by_cases h : isBig (sph p.E (-1)) = true <;> simp [h]
  · by_cases h : isBig (sph p.E 1) = true <;> simp [h]

theorem eff_b (C : FieldConsts) (radial : RadKey → ℝ) (me : Method) (st : Fin N → Option QN) (p : FieldParams) :
    effCoef (fieldInter C radial me st) p (.b 0) = -cut (sph p.B 0) ∧ effCoef (fieldInter C radial me st) p (.b 1) = cut (sph p.B (-1)) ∧
    effCoef (fieldInter C radial me st) p (.b (-1)) = cut (sph p.B 1) := by
  unfold effCoef cut fieldInter addKeys addCoef
  refine ⟨?_, ?_, ?_⟩
  · by_cases h : isBig (sph p.B 0) = true <;> simp [h]
  · by_cases h : isBig (sph p.B (-1)) = true <;> simp [h]
  · by_cases h : isBig (sph p.B 1) = true <;> simp [h]

/-- The constant factor of a diamagnetic operator. -/
noncomputable def diaFactor (k q : ℤ) : ℂ :=
  if k = 0 then 1 else if q = 0 then -1 else if q = 1 ∨ q = -1 then (Real.sqrt 3 : ℝ) else -(Real.sqrt 1.5 : ℝ)

theorem eff_d (C : FieldConsts) (radial : RadKey → ℝ) (me : Method) (st : Fin N → Option QN) (p : FieldParams) (k q : ℤ)
    (h : (k, q) ∈ [((0 : ℤ), (0 : ℤ)), (2, 0), (2, 1), (2, -1), (2, 2), (2, -2)]) :
    effCoef (fieldInter C radial me st) p (.d k q) = if p.dia then diaFactor k q * cut (diaTerm p.B k q) else 0 := by
  have hm : FKey.d k q ∈ addKeys p ↔ (p.dia && isBig (diaTerm p.B k q)) = true := by
    unfold addKeys
    simp only [List.mem_append, List.mem_map, List.mem_filter]
    constructor
    · rintro (((((((h | h) | h) | h) | h) | h) | ⟨⟨k', q'⟩, ⟨-, h2⟩, h3⟩) | h)
      all_goals first
        | (split_ifs at h <;> simp at h; done)
        | skip
      rw [FKey.d.injEq] at h3
      obtain ⟨rfl, rfl⟩ := h3
      exact h2
    · intro h2
      exact Or.inl (Or.inr ⟨(k, q), ⟨h, h2⟩, rfl⟩)
  unfold effCoef
  show (if FKey.d k q ∈ addKeys p then addCoef p (.d k q) else 0) = _
  by_cases hd : p.dia = true
  · rw [if_pos hd]
    by_cases hb : isBig (diaTerm p.B k q) = true
    · rw [if_pos (hm.2 (by rw [hd, hb]; rfl)), cut, if_pos hb]
      simp only [List.mem_cons, Prod.mk.injEq, List.mem_nil_iff, or_false] at h
      unfold addCoef diaFactor
      rcases h with ⟨rfl, rfl⟩ | ⟨rfl, rfl⟩ | ⟨rfl, rfl⟩ | ⟨rfl, rfl⟩ | ⟨rfl, rfl⟩ | ⟨rfl, rfl⟩
      · simp
      · simp
      · simp; ring
      · simp; ring
      · simp; ring
      · simp; ring
    · rw [if_neg (fun h => hb (by rw [hm] at h; rw [hd] at h; simpa using h)), cut, if_neg hb, mul_zero]
  · rw [if_neg hd, if_neg (fun h => hd (by rw [hm] at h; rw [Bool.and_eq_true] at h; exact h.1))]

theorem diaFactor_norm (k q : ℤ) : ‖diaFactor k q‖ ≤ if q = 0 then 1 else 2 := by
  have h3 : Real.sqrt 3 ≤ 2 := by rw [Real.sqrt_le_left (by norm_num)]; norm_num
  have h15 : Real.sqrt 1.5 ≤ 2 := by rw [Real.sqrt_le_left (by norm_num)]; norm_num
  unfold diaFactor
  split_ifs <;> simp [abs_of_nonneg (Real.sqrt_nonneg _)] <;> first | (norm_num; done) | (norm_num at h3 h15 ⊢; linarith)

/-- The factor of a diamagnetic operator moves at most quadratically. -/
theorem eff_d_diff (C : FieldConsts) (radial : RadKey → ℝ) (me : Method) (st : Fin N → Option QN) (p p' : FieldParams) (hdia : p'.dia = p.dia) (k q : ℤ)
    (h : (k, q) ∈ [((0 : ℤ), (0 : ℤ)), (2, 0), (2, 1), (2, -1), (2, 2), (2, -2)]) :
    ‖effCoef (fieldInter C radial me st) p' (.d k q) - effCoef (fieldInter C radial me st) p (.d k q)‖ ≤
      if p.dia then 3 * ((p'.B.len + p.B.len) * (p'.B.sub p.B).len) + 4e-24 else 0 := by
  rw [eff_d C radial me st p k q h, eff_d C radial me st p' k q h, hdia]
  have hM : 0 ≤ (p'.B.len + p.B.len) * (p'.B.sub p.B).len := mul_nonneg (add_nonneg (len_nonneg _) (len_nonneg _)) (len_nonneg _)
  by_cases hd : p.dia = true
  · rw [if_pos hd, if_pos hd, if_pos hd, ← mul_sub, norm_mul]
    have h1 := diaFactor_norm k q
    have h2 := (cut_diff (diaTerm p'.B k q) (diaTerm p.B k q)).trans (add_le_add_left (dia_diff p'.B p.B k q) _)
    have h3 := mul_le_mul h1 h2 (norm_nonneg _) (by split_ifs <;> norm_num)
    refine h3.trans ?_
    by_cases hq : q = 0
    · rw [if_pos hq, if_pos hq]
      norm_num <;> linarith
    · rw [if_neg hq, if_neg hq]
      norm_num <;> linarith
  · rw [if_neg hd, if_neg hd, if_neg hd]
    simp

theorem eff_ion (C : FieldConsts) (radial : RadKey → ℝ) (me : Method) (st : Fin N → Option QN) (p p' : FieldParams)
    (hc : p'.charge = p.charge) (ho : p'.order = p.order) (hd : p'.dist = p.dist) (o : ℕ) :
    effCoef (fieldInter C radial me st) p' (.ion o) = effCoef (fieldInter C radial me st) p (.ion o) := by
  have hm : ∀ p : FieldParams, FKey.ion o ∈ addKeys p ↔ FKey.ion o ∈ (if p.charge ≠ 0 ∧ p.dist.isSome then ((List.range p.order).map (· + 1)).map .ion else []) := by
    intro p
    unfold addKeys
    rw [List.mem_append]
    constructor
    · rintro (h | h)
      · exfalso
        simp only [List.mem_append, List.mem_map, List.mem_filter] at h
        rcases h with ((((((h | h) | h) | h) | h) | h) | ⟨⟨k', q'⟩, ⟨-, h2⟩, h3⟩)
        all_goals first
          | (split_ifs at h <;> simp at h; done)
          | cases h3
      · exact h
    · exact Or.inr
  unfold effCoef
  show (if FKey.ion o ∈ addKeys p' then addCoef p' (.ion o) else 0) = if FKey.ion o ∈ addKeys p then addCoef p (.ion o) else 0
  simp only [hm, hc, ho, hd, addCoef]

/-- The block of `addKeys` to which a key belongs. -/
def keyRank : FKey → ℕ
  | .e q => if q = 0 then 0 else if q = 1 then 1 else 2
  | .b q => if q = 0 then 3 else if q = 1 then 4 else 5
  | .d _ _ => 6
  | .ion _ => 7

theorem rank_append {L M : List FKey} (r : ℕ) (h : L.Nodup ∧ ∀ x ∈ L, keyRank x < r) (hM : M.Nodup) (hr : ∀ x ∈ M, keyRank x = r) :
    (L ++ M).Nodup ∧ ∀ x ∈ L ++ M, keyRank x < r + 1 := by
  constructor
  · rw [List.nodup_append]
    refine ⟨h.1, hM, ?_⟩
    intro a ha b hb hab
    subst hab
    have := h.2 a ha
    have := hr a hb
    omega
  · intro x hx
    rcases List.mem_append.1 hx with hx | hx
    · have := h.2 x hx; omega
    · have := hr x hx; omega

theorem addKeys_nodup (p : FieldParams) : (addKeys p).Nodup := by
  unfold addKeys
  have h1 : ∀ (c : Prop) [Decidable c] (k : FKey), (if c then [k] else []).Nodup := by intro c _ k; split_ifs <;> simp
  have h2 : ∀ (c : Prop) [Decidable c] (k : FKey) (r : ℕ), keyRank k = r → ∀ x ∈ (if c then [k] else []), keyRank x = r := by
    intro c _ k r hr x hx
    split_ifs at hx
    · rw [List.mem_singleton] at hx; rw [hx, hr]
    · simp at hx
  have hd : (([(0, 0), (2, 0), (2, 1), (2, -1), (2, 2), (2, -2)].filter fun i : ℤ × ℤ => p.dia && isBig (diaTerm p.B i.1 i.2)).map fun i => FKey.d i.1 i.2).Nodup := by
    refine List.Nodup.map ?_ (List.Nodup.filter _ (by decide))
    rintro ⟨a, b⟩ ⟨c, d⟩ h
    rw [FKey.d.injEq] at h
    exact Prod.ext h.1 h.2
  have hi : (if p.charge ≠ 0 ∧ p.dist.isSome then ((List.range p.order).map (· + 1)).map FKey.ion else []).Nodup := by
    split_ifs
    · refine List.Nodup.map (fun a b h => by rw [FKey.ion.injEq] at h; exact h) (List.Nodup.map (fun a b h => by simpa using h) List.nodup_range)
    · simp
  refine (rank_append 7 (rank_append 6 (rank_append 5 (rank_append 4 (rank_append 3 (rank_append 2 (rank_append 1 ⟨h1 _ _, ?_⟩ (h1 _ _) (h2 _ _ _ rfl))
    (h1 _ _) (h2 _ _ _ rfl)) (h1 _ _) (h2 _ _ _ rfl)) (h1 _ _) (h2 _ _ _ rfl)) (h1 _ _) (h2 _ _ _ rfl)) hd ?_) hi ?_).1
  · intro x hx
    rw [h2 _ _ 0 rfl x hx]
    norm_num
  · intro x hx
    obtain ⟨i, -, rfl⟩ := List.mem_map.1 hx
    rfl
  · intro x hx
    split_ifs at hx
    · obtain ⟨i, -, rfl⟩ := List.mem_map.1 hx
      rfl
    · simp at hx

theorem addKeys_all (p : FieldParams) (key : FKey) (h : key ∈ addKeys p) : key ∈ allKeys p.order := by
  unfold addKeys at h
  unfold allKeys
  rw [Finset.mem_union]
  simp only [List.mem_append, List.mem_map, List.mem_filter] at h
  rcases h with (((((((h | h) | h) | h) | h) | h) | ⟨⟨k', q'⟩, ⟨h1, -⟩, rfl⟩) | h)
  all_goals first
    | (split_ifs at h <;> simp at h <;> subst h <;> simp; done)
    | skip
  · left
    simp only [List.mem_cons, Prod.mk.injEq, List.mem_nil_iff, or_false] at h1
    rcases h1 with ⟨rfl, rfl⟩ | ⟨rfl, rfl⟩ | ⟨rfl, rfl⟩ | ⟨rfl, rfl⟩ | ⟨rfl, rfl⟩ | ⟨rfl, rfl⟩ <;> simp
  · right
    split_ifs at h
    · simpa using h
    · simp at h

/-- The total change of the factors of the one-atom interaction, weighted with the bounds of the operators. -/
theorem one_atom_change (C : FieldConsts) (radial : RadKey → ℝ) (me : Method) (st : Fin N → Option QN) (p p' : FieldParams) (hdia : p'.dia = p.dia)
    (hc : p'.charge = p.charge) (ho : p'.order = p.order) (hd : p'.dist = p.dist) (b : FKey → ℝ) (hb : ∀ key, 0 ≤ b key) :
    ∑ key ∈ allKeys p.order, ‖effCoef (fieldInter C radial me st) p' key - effCoef (fieldInter C radial me st) p key‖ * b key ≤
      ((p'.E.sub p.E).len + 2e-24) * (b (.e 0) + b (.e 1) + b (.e (-1))) + ((p'.B.sub p.B).len + 2e-24) * (b (.b 0) + b (.b 1) + b (.b (-1))) +
      (if p.dia then 3 * ((p'.B.len + p.B.len) * (p'.B.sub p.B).len) + 4e-24 else 0) * (b (.d 0 0) + b (.d 2 0) + b (.d 2 1) + b (.d 2 (-1)) + b (.d 2 2) + b (.d 2 (-2))) := by
  set I := fieldInter C radial me st with hI
  have hE : ∀ q : ℤ, q = 0 ∨ q = 1 ∨ q = -1 → ‖effCoef I p' (.e q) - effCoef I p (.e q)‖ ≤ (p'.E.sub p.E).len + 2e-24 := by
    intro q hq
    obtain ⟨a1, a2, a3⟩ := eff_e C radial me st p
    obtain ⟨b1, b2, b3⟩ := eff_e C radial me st p'
    have c := fun q => (cut_diff (sph p'.E q) (sph p.E q)).trans (add_le_add_left (sph_diff p'.E p.E q) _)
    rcases hq with rfl | rfl | rfl
    · rw [a1, b1, ← norm_neg]
      have : -(-cut (sph p'.E 0) - -cut (sph p.E 0)) = cut (sph p'.E 0) - cut (sph p.E 0) := by ring
      rw [this]; exact c 0
    · rw [a2, b2]; exact c _
    · rw [a3, b3]; exact c _
  have hB : ∀ q : ℤ, q = 0 ∨ q = 1 ∨ q = -1 → ‖effCoef I p' (.b q) - effCoef I p (.b q)‖ ≤ (p'.B.sub p.B).len + 2e-24 := by
    intro q hq
    obtain ⟨a1, a2, a3⟩ := eff_b C radial me st p
    obtain ⟨b1, b2, b3⟩ := eff_b C radial me st p'
    have c := fun q => (cut_diff (sph p'.B q) (sph p.B q)).trans (add_le_add_left (sph_diff p'.B p.B q) _)
    rcases hq with rfl | rfl | rfl
    · rw [a1, b1, ← norm_neg]
      have : -(-cut (sph p'.B 0) - -cut (sph p.B 0)) = cut (sph p'.B 0) - cut (sph p.B 0) := by ring
      rw [this]; exact c 0
    · rw [a2, b2]; exact c _
    · rw [a3, b3]; exact c _
  have hD := eff_d_diff C radial me st p p' hdia
  have hsub : ({.e 0, .e 1, .e (-1), .b 0, .b 1, .b (-1), .d 0 0, .d 2 0, .d 2 1, .d 2 (-1), .d 2 2, .d 2 (-2)} : Finset FKey) ⊆ allKeys p.order := Finset.subset_union_left
  rw [← Finset.sum_subset hsub]
  · have e1 := mul_le_mul_of_nonneg_right (hE 0 (by simp)) (hb (.e 0))
    have e2 := mul_le_mul_of_nonneg_right (hE 1 (by simp)) (hb (.e 1))
    have e3 := mul_le_mul_of_nonneg_right (hE (-1) (by simp)) (hb (.e (-1)))
    have b1 := mul_le_mul_of_nonneg_right (hB 0 (by simp)) (hb (.b 0))
    have b2 := mul_le_mul_of_nonneg_right (hB 1 (by simp)) (hb (.b 1))
    have b3 := mul_le_mul_of_nonneg_right (hB (-1) (by simp)) (hb (.b (-1)))
    have d1 := mul_le_mul_of_nonneg_right (hD 0 0 (by simp)) (hb (.d 0 0))
    have d2 := mul_le_mul_of_nonneg_right (hD 2 0 (by simp)) (hb (.d 2 0))
    have d3 := mul_le_mul_of_nonneg_right (hD 2 1 (by simp)) (hb (.d 2 1))
    have d4 := mul_le_mul_of_nonneg_right (hD 2 (-1) (by simp)) (hb (.d 2 (-1)))
    have d5 := mul_le_mul_of_nonneg_right (hD 2 2 (by simp)) (hb (.d 2 2))
    have d6 := mul_le_mul_of_nonneg_right (hD 2 (-2) (by simp)) (hb (.d 2 (-2)))
    rw [Finset.sum_insert (by decide), Finset.sum_insert (by decide), Finset.sum_insert (by decide), Finset.sum_insert (by decide), Finset.sum_insert (by decide),
      Finset.sum_insert (by decide), Finset.sum_insert (by decide), Finset.sum_insert (by decide), Finset.sum_insert (by decide), Finset.sum_insert (by decide),
      Finset.sum_insert (by decide), Finset.sum_singleton]
    generalize (if p.dia = true then 3 * ((p'.B.len + p.B.len) * (p'.B.sub p.B).len) + 4e-24 else 0) = G at *
    generalize (p'.E.sub p.E).len + 2e-24 = F at *
    generalize (p'.B.sub p.B).len + 2e-24 = F' at *
    linarith
  · intro key hk hk'
    unfold allKeys at hk
    rcases Finset.mem_union.1 hk with hk | hk
    · exact absurd hk hk'
    · rw [List.mem_toFinset, List.mem_map] at hk
      obtain ⟨o, -, rfl⟩ := hk
      rw [eff_ion C radial me st p p' hc ho hd, sub_self, norm_zero, zero_mul]

/-- **C115 (one atom).** The same SystemOne with the fields (E, B) and (E', B'), each reached by any history of setters, builds and diagonalizations, energies in ascending order.
The i-th energy moves at most by |E' − E| times the bound of the dipole operators, plus |B' − B| times the bound of the magnetic-moment operators, plus
3 (|B'| + |B|) |B' − B| times the bound of the diamagnetic operators (if diamagnetism is switched on), up to the tolerance 1e-24 below which components are ignored. -/
theorem C115_one_atom {k : ℕ} (C : FieldConsts) (radial : RadKey → ℝ) (me : Method) (st : Fin N → Option QN) (D : Matrix (Fin N) (Fin N) ℂ)
    (s0 s s' : CSys FieldParams FKey (Fin N) (Fin k)) (h0 : s0.Fresh (fieldInter C radial me st)) (hD : s0.H = s0.Vᴴ * D * s0.V)
    (hs : Hist (fieldInter C radial me st) s0 s) (hb : s.build (fieldInter C radial me st) = .ok s')
    (t0 t t' : CSys FieldParams FKey (Fin N) (Fin k)) (g0 : t0.Fresh (fieldInter C radial me st)) (gD : t0.H = t0.Vᴴ * D * t0.V)
    (ht : Hist (fieldInter C radial me st) t0 t) (gb : t.build (fieldInter C radial me st) = .ok t') (hspan : t0.V * t0.Vᴴ = s0.V * s0.Vᴴ)
    (hdia : t.p.dia = s.p.dia) (hc : t.p.charge = s.p.charge) (ho : t.p.order = s.p.order) (hd : t.p.dist = s.p.dist)
    (b : FKey → ℝ) (hb0 : ∀ key, 0 ≤ b key) (hbd : ∀ key, BoundedBy (fieldOp C radial me st key) (b key))
    (X : Matrix (Fin k) (Fin k) ℂ) (e : Fin k → ℝ) (hX : Diagonalizes s'.H X e) (he : Monotone e)
    (U : Matrix (Fin k) (Fin k) ℂ) (d : Fin k → ℝ) (hU : Diagonalizes t'.H U d) (hdm : Monotone d) (i : Fin k) :
    |e i - d i| ≤
      ((t.p.E.sub s.p.E).len + 2e-24) * (b (.e 0) + b (.e 1) + b (.e (-1))) + ((t.p.B.sub s.p.B).len + 2e-24) * (b (.b 0) + b (.b 1) + b (.b (-1))) +
      (if s.p.dia then 3 * ((t.p.B.len + s.p.B.len) * (t.p.B.sub s.p.B).len) + 4e-24 else 0) *
        (b (.d 0 0) + b (.d 2 0) + b (.d 2 1) + b (.d 2 (-1)) + b (.d 2 2) + b (.d 2 (-2))) := by
  refine le_trans ?_ (one_atom_change C radial me st s.p t.p hdia hc ho hd b hb0)
  have K1 := addKeys_all s.p
  have K2 := addKeys_all t.p
  rw [ho] at K2
  apply move_sorted e d he hdm
  · intro E
    exact C115_levels_move _ D s0 s s' h0 hD hs hb t0 t t' g0 gD ht gb hspan (allKeys s.p.order) (addKeys_nodup _) K1 (addKeys_nodup _) K2 b (fun key _ => hbd key) X e hX U d hU E
  · intro E
    have := C115_levels_move _ D t0 t t' g0 gD ht gb s0 s s' h0 hD hs hb hspan.symm (allKeys s.p.order) (addKeys_nodup _) K2 (addKeys_nodup _) K1 b (fun key _ => hbd key) U d hU X e hX E
    have comm : ∀ key, ‖effCoef (fieldInter C radial me st) s.p key - effCoef (fieldInter C radial me st) t.p key‖ =
        ‖effCoef (fieldInter C radial me st) t.p key - effCoef (fieldInter C radial me st) s.p key‖ := fun key => norm_sub_rev _ _
    simpa only [comm] using this

/-! ## Two atoms -/

theorem eff_pair (C : FieldConsts) (radial : RadKey → ℝ) (me : Method) (st : Fin N → Option (QN × QN)) (p : OKPair) (key : PKey) :
    effCoef (pairInter C radial me st) p key = ((((pairTerms p.1).lookup key).getD 0 : ℝ) : ℂ) := by
  unfold effCoef
  show (if key ∈ (pairTerms p.1).map (·.1) then ((((pairTerms p.1).lookup key).getD 0 : ℝ) : ℂ) else 0) = _
  by_cases h : key ∈ (pairTerms p.1).map (·.1)
  · rw [if_pos h]
  · rw [if_neg h]
    have : (pairTerms p.1).lookup key = none := by
      rw [List.lookup_eq_none_iff]
      intro x hx
      rw [bne_iff_ne]
      rintro rfl
      exact h (List.mem_map.2 ⟨x, hx, rfl⟩)
    rw [this]
    simp

/-- **C115 (two atoms, any geometry).** The same SystemTwo with any two accepted settings, each reached by any history, energies in ascending order: the i-th energy moves at most by the sum over the pair
operators of |change of the factor| · bound of the operator. -/
theorem C115_pair_settings {k : ℕ} (C : FieldConsts) (radial : RadKey → ℝ) (me : Method) (st : Fin N → Option (QN × QN)) (D : Matrix (Fin N) (Fin N) ℂ)
    (s0 s s' : CSys OKPair PKey (Fin N) (Fin k)) (h0 : s0.Fresh (pairInter C radial me st)) (hD : s0.H = s0.Vᴴ * D * s0.V)
    (hs : Hist (pairInter C radial me st) s0 s) (hb : s.build (pairInter C radial me st) = .ok s')
    (t0 t t' : CSys OKPair PKey (Fin N) (Fin k)) (g0 : t0.Fresh (pairInter C radial me st)) (gD : t0.H = t0.Vᴴ * D * t0.V)
    (ht : Hist (pairInter C radial me st) t0 t) (gb : t.build (pairInter C radial me st) = .ok t') (hspan : t0.V * t0.Vᴴ = s0.V * s0.Vᴴ)
    (K : Finset PKey) (hK : ∀ u ∈ pairTerms s.p.1, u.1 ∈ K) (hK' : ∀ u ∈ pairTerms t.p.1, u.1 ∈ K)
    (b : PKey → ℝ) (hbd : ∀ key ∈ K, BoundedBy (pairOper C radial me st key) (b key))
    (X : Matrix (Fin k) (Fin k) ℂ) (e : Fin k → ℝ) (hX : Diagonalizes s'.H X e) (he : Monotone e)
    (U : Matrix (Fin k) (Fin k) ℂ) (d : Fin k → ℝ) (hU : Diagonalizes t'.H U d) (hdm : Monotone d) (i : Fin k) :
    |e i - d i| ≤ ∑ key ∈ K, |((pairTerms t.p.1).lookup key).getD 0 - ((pairTerms s.p.1).lookup key).getD 0| * b key := by
  have mem : ∀ p : OKPair, (∀ u ∈ pairTerms p.1, u.1 ∈ K) → ∀ key ∈ (pairInter C radial me st).need p, key ∈ K := by
    intro p h key hk
    obtain ⟨u, hu, rfl⟩ := List.mem_map.1 hk
    exact h u hu
  have conv : ∀ p q : OKPair, ∀ key, ‖effCoef (pairInter C radial me st) p key - effCoef (pairInter C radial me st) q key‖ =
      |((pairTerms p.1).lookup key).getD 0 - ((pairTerms q.1).lookup key).getD 0| := by
    intro p q key
    rw [eff_pair, eff_pair, ← Complex.ofReal_sub, Complex.norm_real, Real.norm_eq_abs]
  apply move_sorted e d he hdm
  · intro E
    have := C115_levels_move _ D s0 s s' h0 hD hs hb t0 t t' g0 gD ht gb hspan K (pairTerms_nodup _) (mem _ hK) (pairTerms_nodup _) (mem _ hK') b hbd X e hX U d hU E
    simpa only [conv] using this
  · intro E
    have := C115_levels_move _ D t0 t t' g0 gD ht gb s0 s s' h0 hD hs hb hspan.symm K (pairTerms_nodup _) (mem _ hK') (pairTerms_nodup _) (mem _ hK) b hbd U d hU X e hX E
    simp only [conv] at this
    have comm : ∀ key, |((pairTerms s.p.1).lookup key).getD 0 - ((pairTerms t.p.1).lookup key).getD 0| =
        |((pairTerms t.p.1).lookup key).getD 0 - ((pairTerms s.p.1).lookup key).getD 0| := fun key => abs_sub_comm _ _
    simpa only [comm] using this

theorem axis_factor (p : PairParams) (h : OnAxis p) (o : ℕ) (h3 : 3 ≤ o) (ho : o ≤ p.order) : ((pairTerms p).lookup (.mul o)).getD 0 = 1 / p.dist ^ o := by
  have hn := pairTerms_nodup p
  rw [pairTerms_axis p h] at hn ⊢
  rw [lookup_of_nodup _ hn (.mul o, 1 / p.dist ^ o)]
  · rfl
  · refine List.mem_map.2 ⟨o, ?_, rfl⟩
    unfold mulOrders
    exact List.mem_map.2 ⟨o - 3, List.mem_range.2 (by omega), by omega⟩

theorem axis_keys (p : PairParams) (h : OnAxis p) (u : PKey × ℝ) (hu : u ∈ pairTerms p) : ∃ o, 3 ≤ o ∧ o ≤ p.order ∧ u.1 = .mul o := by
  rw [pairTerms_axis p h] at hu
  obtain ⟨o, ho, rfl⟩ := List.mem_map.1 hu
  unfold mulOrders at ho
  obtain ⟨a, ha, rfl⟩ := List.mem_map.1 ho
  rw [List.mem_range] at ha
  exact ⟨a + 3, by omega, by omega, rfl⟩

theorem mul_inj : Function.Injective PKey.mul := fun a b h => by rw [PKey.mul.injEq] at h; exact h

/-- **C115 (two atoms on the z axis).** With the distances R and R' and the same order of the multipole expansion the i-th energy moves at most by ∑ₒ |1/R'ᵒ − 1/Rᵒ| · bound of the multipole
operator of order o. -/
theorem C115_distance {k : ℕ} (C : FieldConsts) (radial : RadKey → ℝ) (me : Method) (st : Fin N → Option (QN × QN)) (D : Matrix (Fin N) (Fin N) ℂ)
    (s0 s s' : CSys OKPair PKey (Fin N) (Fin k)) (h0 : s0.Fresh (pairInter C radial me st)) (hD : s0.H = s0.Vᴴ * D * s0.V)
    (hs : Hist (pairInter C radial me st) s0 s) (hb : s.build (pairInter C radial me st) = .ok s')
    (t0 t t' : CSys OKPair PKey (Fin N) (Fin k)) (g0 : t0.Fresh (pairInter C radial me st)) (gD : t0.H = t0.Vᴴ * D * t0.V)
    (ht : Hist (pairInter C radial me st) t0 t) (gb : t.build (pairInter C radial me st) = .ok t') (hspan : t0.V * t0.Vᴴ = s0.V * s0.Vᴴ)
    (hp : OnAxis s.p.1) (hp' : OnAxis t.p.1) (ho : t.p.1.order = s.p.1.order)
    (b : ℕ → ℝ) (hbd : ∀ o, BoundedBy (pairOper C radial me st (.mul o)) (b o))
    (X : Matrix (Fin k) (Fin k) ℂ) (e : Fin k → ℝ) (hX : Diagonalizes s'.H X e) (he : Monotone e)
    (U : Matrix (Fin k) (Fin k) ℂ) (d : Fin k → ℝ) (hU : Diagonalizes t'.H U d) (hdm : Monotone d) (i : Fin k) :
    |e i - d i| ≤ ∑ o ∈ Finset.Icc 3 s.p.1.order, |1 / t.p.1.dist ^ o - 1 / s.p.1.dist ^ o| * b o := by
  have mem : ∀ p : PairParams, OnAxis p → p.order = s.p.1.order → ∀ u ∈ pairTerms p, u.1 ∈ (Finset.Icc 3 s.p.1.order).map ⟨PKey.mul, mul_inj⟩ := by
    intro p hp hpo u hu
    obtain ⟨o, h3, h4, h5⟩ := axis_keys p hp u hu
    rw [h5]
    exact Finset.mem_map.2 ⟨o, Finset.mem_Icc.2 ⟨h3, by omega⟩, rfl⟩
  have := C115_pair_settings C radial me st D s0 s s' h0 hD hs hb t0 t t' g0 gD ht gb hspan ((Finset.Icc 3 s.p.1.order).map ⟨PKey.mul, mul_inj⟩)
    (mem _ hp rfl) (mem _ hp' ho) (fun | .mul o => b o | _ => 0) (by
      intro key hk
      obtain ⟨o, -, rfl⟩ := Finset.mem_map.1 hk
      exact hbd o) X e hX he U d hU hdm i
  refine this.trans_eq ?_
  rw [Finset.sum_map]
  refine Finset.sum_congr rfl fun o hk => ?_
  rw [Finset.mem_Icc] at hk
  show |((pairTerms t.p.1).lookup (.mul o)).getD 0 - ((pairTerms s.p.1).lookup (.mul o)).getD 0| * b o = _
  rw [axis_factor _ hp o hk.1 hk.2, axis_factor _ hp' o hk.1 (by omega)]

/-- **C115 (large distance).** Compared with the system without interaction (no distance set) the i-th energy is shifted at most by ∑ₒ bound of the multipole operator of order o / |R|ᵒ: the interaction
vanishes at large distance. -/
theorem C115_far {k : ℕ} (C : FieldConsts) (radial : RadKey → ℝ) (me : Method) (st : Fin N → Option (QN × QN)) (D : Matrix (Fin N) (Fin N) ℂ)
    (s0 s s' : CSys OKPair PKey (Fin N) (Fin k)) (h0 : s0.Fresh (pairInter C radial me st)) (hD : s0.H = s0.Vᴴ * D * s0.V)
    (hs : Hist (pairInter C radial me st) s0 s) (hb : s.build (pairInter C radial me st) = .ok s')
    (t0 t t' : CSys OKPair PKey (Fin N) (Fin k)) (g0 : t0.Fresh (pairInter C radial me st)) (gD : t0.H = t0.Vᴴ * D * t0.V)
    (ht : Hist (pairInter C radial me st) t0 t) (gb : t.build (pairInter C radial me st) = .ok t') (hspan : t0.V * t0.Vᴴ = s0.V * s0.Vᴴ)
    (hp : OnAxis s.p.1) (hp' : t.p.1.dist = dblMax)
    (b : ℕ → ℝ) (hbd : ∀ o, BoundedBy (pairOper C radial me st (.mul o)) (b o))
    (X : Matrix (Fin k) (Fin k) ℂ) (e : Fin k → ℝ) (hX : Diagonalizes s'.H X e) (he : Monotone e)
    (U : Matrix (Fin k) (Fin k) ℂ) (d : Fin k → ℝ) (hU : Diagonalizes t'.H U d) (hdm : Monotone d) (i : Fin k) :
    |e i - d i| ≤ ∑ o ∈ Finset.Icc 3 s.p.1.order, b o / |s.p.1.dist| ^ o := by
  have hz : pairTerms t.p.1 = [] := by unfold pairTerms addPair; rw [if_pos hp']
  have := C115_pair_settings C radial me st D s0 s s' h0 hD hs hb t0 t t' g0 gD ht gb hspan ((Finset.Icc 3 s.p.1.order).map ⟨PKey.mul, mul_inj⟩)
    (by
      intro u hu
      obtain ⟨o, h3, h4, h5⟩ := axis_keys _ hp u hu
      rw [h5]
      exact Finset.mem_map.2 ⟨o, Finset.mem_Icc.2 ⟨h3, h4⟩, rfl⟩)
    (by rw [hz]; simp) (fun | .mul o => b o | _ => 0) (by
      intro key hk
      obtain ⟨o, -, rfl⟩ := Finset.mem_map.1 hk
      exact hbd o) X e hX he U d hU hdm i
  refine this.trans_eq ?_
  rw [Finset.sum_map]
  refine Finset.sum_congr rfl fun o hk => ?_
  rw [Finset.mem_Icc] at hk
  show |((pairTerms t.p.1).lookup (.mul o)).getD 0 - ((pairTerms s.p.1).lookup (.mul o)).getD 0| * b o = _
  rw [axis_factor _ hp o hk.1 hk.2, hz]
  simp only [List.lookup_nil, Option.getD_none, zero_sub, abs_neg, abs_div, abs_one, abs_pow]
  rw [one_div_mul_eq_div]

/-! ## The hypotheses can be met -/

/-- Every operator has the bound "sum of the absolute values of the entries", which is not negative; together with `one_atom_run` all hypotheses of `C115_one_atom` can be met for every basis. -/
example (C : FieldConsts) (radial : RadKey → ℝ) (me : Method) (st : Fin N → Option QN) :
    ∃ b : FKey → ℝ, (∀ key, 0 ≤ b key) ∧ ∀ key, BoundedBy (fieldOp C radial me st key) (b key) :=
  ⟨fun key => ∑ i, ∑ j, ‖fieldOp C radial me st key i j‖, fun key => by positivity, fun key => bounded_entries _⟩

/-- The two levels of 30 S1/2 in two electric fields that differ by one unit. -/
example (C : FieldConsts) (radial : RadKey → ℝ) (me : Method) : ∃ (s s' t t' : CSys FieldParams FKey (Fin 2) (Fin 2)) (X U : Matrix (Fin 2) (Fin 2) ℂ) (e d : Fin 2 → ℝ) (b : FKey → ℝ),
    s.build (fieldInter C radial me exS) = .ok s' ∧ t.build (fieldInter C radial me exS) = .ok t' ∧ Diagonalizes s'.H X e ∧ Diagonalizes t'.H U d ∧
      ∀ i, |e i - d i| ≤ (1 + 2e-24) * (b (.e 0) + b (.e 1) + b (.e (-1))) + 2e-24 * (b (.b 0) + b (.b 1) + b (.b (-1))) := by
  obtain ⟨s0, s, s', h0, hV, hH, hs, hb, hp, X, e, hX, he⟩ := one_atom_run C radial me exS exS_good (fun _ => 7) ⟨⟨0, 0, 1⟩, ⟨0, 0, 0⟩, false, 0, 0, none⟩
  obtain ⟨t0, t, t', g0, gV, gH, ht, gb, gp, U, d, hU, hd⟩ := one_atom_run C radial me exS exS_good (fun _ => 7) ⟨⟨0, 0, 2⟩, ⟨0, 0, 0⟩, false, 0, 0, none⟩
  have h0' : ∀ key, 0 ≤ ∑ i, ∑ j, ‖fieldOp C radial me exS key i j‖ := fun key => by positivity
  refine ⟨s, s', t, t', X, U, e, d, fun key => ∑ i, ∑ j, ‖fieldOp C radial me exS key i j‖, hb, gb, hX, hU, fun i => ?_⟩
  have := C115_one_atom C radial me exS (Matrix.diagonal fun _ => ((7 : ℝ) : ℂ)) s0 s s' h0 (by rw [hV, hH]; simp) hs hb t0 t t' g0 (by rw [gV, gH]; simp) ht gb (by rw [hV, gV])
    (by rw [hp, gp]) (by rw [hp, gp]) (by rw [hp, gp]) (by rw [hp, gp]) _ h0' (fun key => bounded_entries _) X e hX he U d hU hd i
  rw [hp, gp] at this
  have e1 : ((⟨0, 0, 2⟩ : Vec3).sub ⟨0, 0, 1⟩).len = 1 := by
    unfold Vec3.sub Vec3.len
    norm_num
  have e2 : ((⟨0, 0, 0⟩ : Vec3).sub ⟨0, 0, 0⟩).len = 0 := by
    unfold Vec3.sub Vec3.len
    norm_num
  dsimp only at this
  rw [e1, e2, if_neg (by simp), zero_mul, add_zero, zero_add] at this
  exact this

/-- A newly made SystemTwo with all pair states as basis vectors can be set to any accepted settings and diagonalized: the hypotheses of `C114_two_atoms` and `C115_pair_settings` can be met. -/
theorem two_atoms_run (C : FieldConsts) (radial : RadKey → ℝ) (me : Method) (st : Fin N → Option (QN × QN)) (en : Fin N → ℝ) (p : OKPair) :
    ∃ s0 s s' : CSys OKPair PKey (Fin N) (Fin N), s0.Fresh (pairInter C radial me st) ∧ s0.V = 1 ∧ s0.H = (Matrix.diagonal fun i => (en i : ℂ)) ∧
      Hist (pairInter C radial me st) s0 s ∧ s.build (pairInter C radial me st) = .ok s' ∧ s.p = p ∧ ∃ X e, Diagonalizes s'.H X e ∧ Monotone e := by
  have hf : (initPair PairParams.fresh ⟨[], [], [], [], fun _ => false⟩).1 = .ok () := by
    unfold initPair; rw [if_pos (show PairParams.fresh.dist = dblMax from rfl)]
  let s0 : CSys OKPair PKey (Fin N) (Fin N) := ⟨⟨PairParams.fresh, hf⟩, 1, Matrix.diagonal fun i => (en i : ℂ), none, none, fun _ => none, false, false, false, false⟩
  have h0 : s0.Fresh (pairInter C radial me st) := by
    constructor <;> simp [s0, pairInter, pairTerms, addPair, PairParams.fresh]
  have hset : s0.setParams p = .ok { s0 with p := p, needNew := true } := by
    simp [CSys.setParams, s0]
  have hs := Hist.set p (Hist.start (I := pairInter C radial me st) (s0 := s0)) hset
  have hd : (Matrix.diagonal fun i => (en i : ℂ)).IsHermitian := by
    rw [Matrix.IsHermitian, Matrix.diagonal_conjTranspose]; congr 1; funext i; simp
  obtain ⟨s', hb, -, h3, h4⟩ := C35_system_two C radial me st s0 _ h0 hd hs
  refine ⟨s0, _, s', h0, rfl, rfl, hs, hb, rfl, diagonalizes_sorted _ ?_⟩
  obtain ⟨o, -, -⟩ := built_compress _ (Matrix.diagonal fun i => (en i : ℂ)) _ _ _ h0 (by simp [s0]) hs hb
  have e : s'.H = s'.Vᴴ * (s'.V * s'.H * s'.Vᴴ) * s'.V := by
    have : s'.Vᴴ * (s'.V * s'.H * s'.Vᴴ) * s'.V = (s'.Vᴴ * s'.V) * s'.H * (s'.Vᴴ * s'.V) := by simp only [Matrix.mul_assoc]
    rw [this, o, Matrix.one_mul, Matrix.mul_one]
  rw [e]
  exact Matrix.isHermitian_conjTranspose_mul_mul _ h4

/-- Two distances on the axis that are accepted. -/
example (R : ℝ) (h : R ≠ dblMax) : ∃ p : OKPair, OnAxis p.1 ∧ p.1.dist = R ∧ p.1.order = 5 := by
  refine ⟨⟨⟨0, 0, R, R, false, dblMax, 5⟩, ?_⟩, ⟨h, rfl, rfl, rfl, rfl⟩, rfl, rfl⟩
  unfold initPair
  rw [if_neg h, if_neg (by unfold PairParams.greenBranch; simp), if_neg (by simp)]

end PI
