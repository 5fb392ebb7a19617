import Verif.Sys.Eff

/-!
# C82: effective Hamiltonians
-/

namespace PI
open Matrix
open scoped ComplexOrder

variable {n k : Type} [Fintype n] [DecidableEq n] [Fintype k] [DecidableEq k]

/-! ## The checks -/

theorem diagOK_iff (H : Matrix k k ℂ) : diagOK H ↔ ∀ i j, i ≠ j → ‖H i j‖ ≤ 1e-12 := by
  unfold diagOK
  constructor
  · intro h i j hij
    by_contra hc
    exact h i j (not_le.1 hc) hij
  · intro h i j hgt hij
    exact absurd (h i j hij) (not_le.2 hgt)

/-- The unitarity check accepts exactly the matrices whose columns are orthonormal within the tolerance. -/
theorem unitOK_iff (V : Matrix n k ℂ) :
    unitOK V ↔ ∀ i j, if i = j then |(star (fun r => V r i) ⬝ᵥ fun r => V r i).re - 1| ≤ 1e-12
      else ‖star (fun r => V r i) ⬝ᵥ fun r => V r j‖ ≤ 1e-12 := by
  have hG : ∀ i j, (Vᴴ * V) i j = star (fun r => V r i) ⬝ᵥ fun r => V r j := fun i j => rfl
  have him : ∀ i, (star (fun r => V r i) ⬝ᵥ fun r => V r i).im = 0 := by
    intro i
    simp only [dotProduct, Pi.star_apply, RCLike.star_def]
    rw [Complex.im_sum]
    refine Finset.sum_eq_zero fun r _ => ?_
    rw [mul_comm, Complex.mul_conj]
    exact Complex.ofReal_im _
  unfold unitOK
  simp only [hG]
  constructor
  · rintro ⟨hc, h⟩ i j
    have hoff : ∀ i j, i ≠ j → ‖star (fun r => V r i) ⬝ᵥ fun r => V r j‖ ≤ 1e-12 := by
      intro i j hij
      by_contra hcon
      exact (h i j (not_le.1 hcon)).1 hij
    by_cases hij : i = j
    · subst hij
      rw [if_pos rfl]
      -- every diagonal entry is kept
      have hsub : (Finset.univ.filter fun p : k × k => ‖star (fun r => V r p.1) ⬝ᵥ fun r => V r p.2‖ > 1e-12) ⊆ Finset.univ.image fun c : k => (c, c) := by
        intro p hp
        rw [Finset.mem_filter] at hp
        rw [Finset.mem_image]
        refine ⟨p.1, Finset.mem_univ _, ?_⟩
        by_contra hne
        have : p.1 ≠ p.2 := fun e => hne (Prod.ext rfl e)
        exact absurd (hoff _ _ this) (not_le.2 hp.2)
      have hcard : (Finset.univ.image fun c : k => (c, c)).card = Fintype.card k := by
        rw [Finset.card_image_of_injective _ (fun a b e => (Prod.ext_iff.1 e).1), Finset.card_univ]
      have heq := Finset.eq_of_subset_of_card_le hsub (by rw [hcard, hc])
      have hmem : (i, i) ∈ Finset.univ.image fun c : k => (c, c) := Finset.mem_image.2 ⟨i, Finset.mem_univ _, rfl⟩
      rw [← heq, Finset.mem_filter] at hmem
      have := (h i i hmem.2).2
      push Not at this
      exact this.1
    · rw [if_neg hij]; exact hoff i j hij
  · intro h
    have hkeep : ∀ i, ‖star (fun r => V r i) ⬝ᵥ fun r => V r i‖ > 1e-12 := by
      intro i
      have h1 := h i i
      rw [if_pos rfl, abs_le] at h1
      have h2 := Complex.abs_re_le_norm (star (fun r => V r i) ⬝ᵥ fun r => V r i)
      have h3 := le_abs_self (star (fun r => V r i) ⬝ᵥ fun r => V r i).re
      norm_num at h1 ⊢
      linarith
    constructor
    · have : (Finset.univ.filter fun p : k × k => ‖star (fun r => V r p.1) ⬝ᵥ fun r => V r p.2‖ > 1e-12) = Finset.univ.image fun c : k => (c, c) := by
        ext p
        rw [Finset.mem_filter, Finset.mem_image]
        constructor
        · rintro ⟨_, hp⟩
          refine ⟨p.1, Finset.mem_univ _, ?_⟩
          by_contra hne
          have hne' : p.1 ≠ p.2 := fun e => hne (Prod.ext rfl e)
          have := h p.1 p.2
          rw [if_neg hne'] at this
          exact absurd this (not_le.2 hp)
        · rintro ⟨c, _, rfl⟩
          exact ⟨Finset.mem_univ _, hkeep c⟩
      rw [this, Finset.card_image_of_injective _ (fun a b e => (Prod.ext_iff.1 e).1), Finset.card_univ]
    · intro i j hgt
      by_cases hij : i = j
      · subst hij
        have := h i i
        rw [if_pos rfl] at this
        refine ⟨fun hne => hne rfl, ?_⟩
        push Not
        refine ⟨this, ?_⟩
        rw [him i, abs_zero]; norm_num
      · have := h i j
        rw [if_neg hij] at this
        exact absurd this (not_le.2 hgt)

theorem unitOK_of_orthonormal {V : Matrix n k ℂ} (h : Vᴴ * V = 1) : unitOK V := by
  rw [unitOK_iff]
  intro i j
  have hG : ∀ i j, (star (fun r => V r i) ⬝ᵥ fun r => V r j) = (Vᴴ * V) i j := fun i j => rfl
  split_ifs with hij
  · subst hij
    rw [hG, h, Matrix.one_apply_eq]; norm_num
  · rw [hG, h, Matrix.one_apply_ne hij, norm_zero]; norm_num

/-! ## The effective Hamiltonian -/

section SW
variable {σ n0 k0 : Type} [DecidableEq σ] [Fintype n0] [DecidableEq n0] [Fintype k0] [DecidableEq k0]

/-- Specification: the basis vectors of system0 written in terms of the states of the system. -/
noncomputable def lowBasis0 (st : n → σ) (st0 : n0 → σ) (s0 : HSys n0 k0) : Matrix n k0 ℂ :=
  fun r c => ∑ i, if st r = st0 i then s0.V i c else 0

omit [DecidableEq n] [Fintype n] [DecidableEq n0] in
theorem embed_mul (st : n → σ) (st0 : n0 → σ) (s0 : HSys n0 k0) :
    (Matrix.of fun r i => if st r = st0 i then (1 : ℂ) else 0) * s0.V = lowBasis0 st st0 s0 := by
  ext r c
  rw [Matrix.mul_apply]
  unfold lowBasis0
  refine Finset.sum_congr rfl fun i _ => ?_
  rw [Matrix.of_apply]
  split_ifs <;> simp

omit [DecidableEq n] [DecidableEq n0] in
theorem lowBasis0_orth {st : n → σ} {st0 : n0 → σ} (hst : Function.Injective st) (hst0 : Function.Injective st0) (hsub : ∀ i, ∃ r, st r = st0 i)
    {s0 : HSys n0 k0} (h0 : s0.Vᴴ * s0.V = 1) : (lowBasis0 st st0 s0)ᴴ * lowBasis0 st st0 s0 = 1 := by
  classical
  rw [← embed_mul, Matrix.conjTranspose_mul]
  set E : Matrix n n0 ℂ := Matrix.of fun r i => if st r = st0 i then (1 : ℂ) else 0 with hE
  have hEE : Eᴴ * E = 1 := by
    ext i j
    obtain ⟨r, hr⟩ := hsub i
    rw [Matrix.mul_apply, Finset.sum_eq_single r]
    · rw [Matrix.conjTranspose_apply, hE, Matrix.of_apply, Matrix.of_apply, if_pos hr, Matrix.one_apply, star_one, one_mul]
      by_cases hij : i = j
      · subst hij; rw [if_pos hr, if_pos rfl]
      · rw [if_neg hij, if_neg]
        intro e; exact hij (hst0 (hr.symm.trans e))
    · intro r' _ hne
      rw [Matrix.conjTranspose_apply, hE, Matrix.of_apply, if_neg, star_zero, zero_mul]
      intro e; exact hne (hst (e.trans hr.symm))
    · intro h; exact absurd (Finset.mem_univ r) h
  rw [Matrix.mul_assoc, ← Matrix.mul_assoc Eᴴ, hEE, Matrix.one_mul, h0]

/-- What is asked of the matrix square root: it finds the principal root of a unitary matrix that has one, that is if −1 is not an eigenvalue. -/
def SqrtSpec (sqrtm : Matrix n n ℂ → Option (Matrix n n ℂ)) : Prop :=
  ∀ A : Matrix n n ℂ, A * Aᴴ = 1 → IsUnit (1 + A) → ∃ U, sqrtm A = some U ∧ PrincipalSqrt A U

/-- There is such a function. -/
theorem sqrtSpec_exists : ∃ f : Matrix n n ℂ → Option (Matrix n n ℂ), SqrtSpec f := by
  classical
  refine ⟨fun A => if h : ∃ U, PrincipalSqrt A U then some h.choose else none, fun A hA h1 => ?_⟩
  have h := principal_exists hA h1
  exact ⟨h.choose, dif_pos h, h.choose_spec⟩

/-- The eigenvectors with the largest overlaps. -/
noncomputable def chosen (V : Matrix n k ℂ) (B0 : Matrix n k0 ℂ) (sel : (k → ℝ) → k0 → k) : Matrix n k0 ℂ := V.submatrix id (sel (lowOverlap V B0))

/-- The transformation accepts the input and computes from the square root. -/
theorem sw_eq {st : n → σ} {st0 : n0 → σ} (hsub : ∀ i, ∃ r, st r = st0 i) {sel : (k → ℝ) → k0 → k} {s : HSys n k} {s0 : HSys n0 k0}
    (hV : unitOK s.V) (hV0 : unitOK s0.V) (hd : diagOK s0.H) (hk : Fintype.card k0 ≤ Fintype.card k)
    {sqrtm : Matrix n n ℂ → Option (Matrix n n ℂ)} {U : Matrix n n ℂ}
    (hU : sqrtm (reflOf (lowBasis0 st st0 s0) * reflOf (chosen s.V (lowBasis0 st st0 s0) sel)) = some U) :
    s.schriefferWolff sqrtm st st0 sel s0 =
      .ok (s.applyRight (s.Vᴴ * Uᴴ * (lowBasis0 st st0 s0 * (lowBasis0 st st0 s0)ᴴ) * lowBasis0 st st0 s0)) := by
  unfold HSys.schriefferWolff embedStates
  rw [if_neg (not_not.2 hV), if_neg (not_not.2 hV0), if_neg (not_not.2 hd), if_pos hsub]
  refine (Out.ok_bind _ _).trans ?_
  have e : HMul.hMul (α := Matrix n n0 ℂ) (β := Matrix n0 k0 ℂ) (γ := Matrix n k0 ℂ) (fun r i => if st r = st0 i then (1 : ℂ) else 0) s0.V
      = lowBasis0 st st0 s0 := embed_mul st st0 s0
  dsimp only
  rw [e, if_neg (not_lt.2 hk)]
  have hU' : sqrtm ((1 - (2 : ℂ) • (lowBasis0 st st0 s0 * (lowBasis0 st st0 s0)ᴴ)) *
      (1 - (2 : ℂ) • (HMul.hMul (α := Matrix n k0 ℂ) (β := Matrix k0 n ℂ) (γ := Matrix n n ℂ)
        (fun r i => s.V r (sel (lowOverlap s.V (lowBasis0 st st0 s0)) i))
        (Matrix.conjTranspose (fun r i => s.V r (sel (lowOverlap s.V (lowBasis0 st st0 s0)) i)))))) = some U := hU
  rw [hU']

/-- **C82, applySchriefferWolffTransformation.** Let the columns of `B0` be the basis vectors of the unperturbed system, and those of `B` the eigenvectors of
the system that overlap most with them.  If no combination of the columns of B is orthogonal to B0, the call succeeds and the new basis vectors

* are orthonormal and span the same space as the chosen eigenvectors,
* are the basis of this space closest to B0: the matrix of their overlaps with B0 is Hermitian and positive,

the operator that the system represents is the one before, restricted to this space, and the eigenvalues of the effective Hamiltonian are those of the
chosen eigenvectors. -/
theorem C82_effective_hamiltonian {st : n → σ} {st0 : n0 → σ} (hst : Function.Injective st) (hst0 : Function.Injective st0)
    (hsub : ∀ i, ∃ r, st r = st0 i) {sel : (k → ℝ) → k0 → k} (hsel : ∀ ov, NthLargest ov (sel ov)) {s : HSys n k} {s0 : HSys n0 k0} {d : k → ℂ}
    (hH : s.H = Matrix.diagonal d) (hV : s.Vᴴ * s.V = 1) (hV0 : s0.Vᴴ * s0.V = 1) (hd : diagOK s0.H)
    {sqrtm : Matrix n n ℂ → Option (Matrix n n ℂ)} (hs : SqrtSpec sqrtm)
    (hov : IsUnit ((lowBasis0 st st0 s0)ᴴ * chosen s.V (lowBasis0 st st0 s0) sel)) :
    ∃ s', s.schriefferWolff sqrtm st st0 sel s0 = .ok s' ∧
      s'.Vᴴ * s'.V = 1 ∧
      s'.V * s'.Vᴴ = chosen s.V (lowBasis0 st st0 s0) sel * (chosen s.V (lowBasis0 st st0 s0) sel)ᴴ ∧
      ((lowBasis0 st st0 s0)ᴴ * s'.V).PosDef ∧
      s'.H = s'.Vᴴ * s.oper * s'.V ∧
      s'.oper = s'.V * s'.Vᴴ * s.oper * (s'.V * s'.Vᴴ) ∧
      s'.H.charpoly = ∏ i, (Polynomial.X - Polynomial.C (d (sel (lowOverlap s.V (lowBasis0 st st0 s0)) i))) := by
  set B0 := lowBasis0 st st0 s0 with hB0d
  set f := sel (lowOverlap s.V B0) with hf
  set B := chosen s.V B0 sel with hBd
  have hB0 : B0ᴴ * B0 = 1 := lowBasis0_orth hst hst0 hsub hV0
  have hfi : Function.Injective f := (hsel _).inj
  have hBV : B = s.V * (1 : Matrix k k ℂ).submatrix id f := by
    ext r c
    rw [Matrix.mul_apply, Finset.sum_eq_single (f c)]
    · rw [Matrix.submatrix_apply, id, Matrix.one_apply_eq, mul_one]; rfl
    · intro j _ hj
      rw [Matrix.submatrix_apply, id, Matrix.one_apply_ne hj, mul_zero]
    · intro h; exact absurd (Finset.mem_univ _) h
  have hVB : s.Vᴴ * B = (1 : Matrix k k ℂ).submatrix id f := by rw [hBV, ← Matrix.mul_assoc, hV, Matrix.one_mul]
  have hB : Bᴴ * B = 1 := by
    conv_lhs => rw [hBV]
    rw [Matrix.conjTranspose_mul, Matrix.mul_assoc, ← Matrix.mul_assoc s.Vᴴ, hV, Matrix.one_mul]
    ext i j
    rw [Matrix.mul_apply, Finset.sum_eq_single (f i)]
    · rw [Matrix.conjTranspose_apply, Matrix.submatrix_apply, Matrix.submatrix_apply, id, Matrix.one_apply_eq, star_one, one_mul, Matrix.one_apply,
        Matrix.one_apply]
      by_cases hij : i = j
      · rw [hij]; simp
      · rw [if_neg hij, if_neg (fun e => hij (hfi e))]
    · intro c _ hc
      rw [Matrix.conjTranspose_apply, Matrix.submatrix_apply, id, Matrix.one_apply_ne hc, star_zero, zero_mul]
    · intro h; exact absurd (Finset.mem_univ _) h
  have hPi : s.V * s.Vᴴ * B = B := by rw [Matrix.mul_assoc, hVB, ← hBV]
  obtain ⟨U, hU, hUp⟩ := hs (reflOf B0 * reflOf B) (refl_prod_unit hB hB0) (refl_prod_root hB hB0 hov)
  obtain ⟨hrot, hpos⟩ := direct_rotation hB hB0 hUp
  have hUU : Uᴴ * U = 1 := mul_eq_one_comm.1 hUp.unit
  have hcard : Fintype.card k0 ≤ Fintype.card k := Fintype.card_le_of_injective f hfi
  have hP : Uᴴ * (B0 * B0ᴴ) * U = B * Bᴴ := by
    rw [← hrot]
    have : Uᴴ * (U * (B * Bᴴ) * Uᴴ) * U = (Uᴴ * U) * (B * Bᴴ) * (Uᴴ * U) := by simp only [Matrix.mul_assoc]
    rw [this, hUU, Matrix.one_mul, Matrix.mul_one]
  -- the new basis vectors
  set W : Matrix n k0 ℂ := Uᴴ * B0 with hW
  have hWW : W * Wᴴ = B * Bᴴ := by
    rw [hW, Matrix.conjTranspose_mul, Matrix.conjTranspose_conjTranspose, ← hP]; simp only [Matrix.mul_assoc]
  have hWo : Wᴴ * W = 1 := by
    rw [hW, Matrix.conjTranspose_mul, Matrix.conjTranspose_conjTranspose, Matrix.mul_assoc, ← Matrix.mul_assoc U, hUp.unit, Matrix.one_mul, hB0]
  have hBW : B * (Bᴴ * W) = W := by rw [← Matrix.mul_assoc, ← hWW, Matrix.mul_assoc, hWo, Matrix.mul_one]
  have hT : s.V * (s.Vᴴ * Uᴴ * (B0 * B0ᴴ) * B0) = W := by
    have e1 : s.Vᴴ * Uᴴ * (B0 * B0ᴴ) * B0 = s.Vᴴ * W := by
      rw [Matrix.mul_assoc _ (B0 * B0ᴴ), Matrix.mul_assoc B0, hB0, Matrix.mul_one, Matrix.mul_assoc]
    rw [e1, ← hBW, ← Matrix.mul_assoc, ← Matrix.mul_assoc, hPi]
  have hTd : s.Vᴴ * Uᴴ * (B0 * B0ᴴ) * B0 = s.Vᴴ * W := by
    rw [Matrix.mul_assoc _ (B0 * B0ᴴ), Matrix.mul_assoc B0, hB0, Matrix.mul_one, Matrix.mul_assoc]
  have hH' : (s.applyRight (s.Vᴴ * Uᴴ * (B0 * B0ᴴ) * B0)).H = Wᴴ * s.oper * W := by
    unfold HSys.applyRight HSys.oper
    dsimp only
    rw [hTd, Matrix.conjTranspose_mul, Matrix.conjTranspose_conjTranspose]
    simp only [Matrix.mul_assoc]
  have hV' : (s.applyRight (s.Vᴴ * Uᴴ * (B0 * B0ᴴ) * B0)).V = W := hT
  refine ⟨_, sw_eq hsub (unitOK_of_orthonormal hV) (unitOK_of_orthonormal hV0) hd hcard hU, ?_⟩
  rw [hV', hH']
  refine ⟨hWo, hWW, ?_, rfl, ?_, ?_⟩
  · rw [hW, ← Matrix.mul_assoc]; exact hpos
  · have : (s.applyRight (s.Vᴴ * Uᴴ * (B0 * B0ᴴ) * B0)).oper = W * (Wᴴ * s.oper * W) * Wᴴ := by
      rw [← hH', ← hV']; rfl
    rw [this]; simp only [Matrix.mul_assoc]
  · set Q := Bᴴ * W with hQ
    have hQQ : Qᴴ * Q = 1 := by
      have : Qᴴ * Q = Wᴴ * (B * Bᴴ) * W := by
        rw [hQ, Matrix.conjTranspose_mul, Matrix.conjTranspose_conjTranspose]; simp only [Matrix.mul_assoc]
      rw [this, ← hWW]
      have : Wᴴ * (W * Wᴴ) * W = (Wᴴ * W) * (Wᴴ * W) := by simp only [Matrix.mul_assoc]
      rw [this, hWo, Matrix.one_mul]
    have hQQ' : Q * Qᴴ = 1 := mul_eq_one_comm.1 hQQ
    have hBd : Bᴴ * s.oper * B = Matrix.diagonal (d ∘ f) := by
      have : Bᴴ * s.oper * B = (s.Vᴴ * B)ᴴ * s.H * (s.Vᴴ * B) := by
        unfold HSys.oper
        rw [Matrix.conjTranspose_mul, Matrix.conjTranspose_conjTranspose]; simp only [Matrix.mul_assoc]
      rw [this, hVB, hH]
      ext i j
      rw [Matrix.mul_assoc, Matrix.mul_apply, Finset.sum_eq_single (f i)]
      · rw [Matrix.conjTranspose_apply, Matrix.submatrix_apply, id, Matrix.one_apply_eq, star_one, one_mul, Matrix.diagonal_mul,
          Matrix.submatrix_apply, id, Matrix.one_apply, Matrix.diagonal_apply]
        by_cases hij : i = j
        · rw [hij]; simp
        · rw [if_neg hij, if_neg (fun e => hij (hfi e)), mul_zero]
      · intro c _ hc
        rw [Matrix.conjTranspose_apply, Matrix.submatrix_apply, id, Matrix.one_apply_ne hc, star_zero, zero_mul]
      · intro h; exact absurd (Finset.mem_univ _) h
    have hc : Wᴴ * s.oper * W = Qᴴ * Matrix.diagonal (d ∘ f) * Q := by
      rw [← hBd]
      conv_lhs => rw [← hBW]
      rw [Matrix.conjTranspose_mul]
      simp only [Matrix.mul_assoc]
    rw [hc, Matrix.charpoly_mul_comm, ← Matrix.mul_assoc, hQQ', Matrix.one_mul, Matrix.charpoly_diagonal]
    rfl

/-- The basis of the chosen space is determined by the overlaps: there is only one orthonormal basis of a space whose overlaps with B0 form a positive
Hermitian matrix. -/
theorem C82_unique {B0 W W' : Matrix n k0 ℂ} (h1 : Wᴴ * W = 1) (h2 : W'ᴴ * W' = 1) (h : W * Wᴴ = W' * W'ᴴ) (p1 : (B0ᴴ * W).PosDef)
    (p2 : (B0ᴴ * W').PosDef) : W = W' := by
  have e : B0ᴴ * W = B0ᴴ * W' := by
    refine posSemidef_sq_inj p1.posSemidef p2.posSemidef ?_
    have k1 : B0ᴴ * W * (B0ᴴ * W) = B0ᴴ * (W * Wᴴ) * B0 := by
      conv_lhs => rw [← p1.isHermitian.eq]
      conv_lhs => enter [1]; rw [p1.isHermitian.eq]
      rw [Matrix.conjTranspose_mul, Matrix.conjTranspose_conjTranspose]; simp only [Matrix.mul_assoc]
    have k2 : B0ᴴ * W' * (B0ᴴ * W') = B0ᴴ * (W' * W'ᴴ) * B0 := by
      conv_lhs => rw [← p2.isHermitian.eq]
      conv_lhs => enter [1]; rw [p2.isHermitian.eq]
      rw [Matrix.conjTranspose_mul, Matrix.conjTranspose_conjTranspose]; simp only [Matrix.mul_assoc]
    rw [k1, k2, h]
  -- W' = W Q, and the overlap matrix can be cancelled
  have q : W' = W * (Wᴴ * W') := by rw [← Matrix.mul_assoc, h, Matrix.mul_assoc, h2, Matrix.mul_one]
  have e2 : B0ᴴ * W * (Wᴴ * W') = B0ᴴ * W * 1 := by rw [Matrix.mul_one, Matrix.mul_assoc, ← q, ← e]
  have := p1.isUnit.mul_left_cancel e2
  rw [q, this, Matrix.mul_one]

/-- Without mixing between the spaces, the result is the unperturbed basis and the Hamiltonian is the block of the Hamiltonian. -/
theorem C82_no_mixing {st : n → σ} {st0 : n0 → σ} (hst : Function.Injective st) (hst0 : Function.Injective st0)
    (hsub : ∀ i, ∃ r, st r = st0 i) {sel : (k → ℝ) → k0 → k} (hsel : ∀ ov, NthLargest ov (sel ov)) {s : HSys n k} {s0 : HSys n0 k0} {d : k → ℂ}
    (hH : s.H = Matrix.diagonal d) (hV : s.Vᴴ * s.V = 1) (hV0 : s0.Vᴴ * s0.V = 1) (hd : diagOK s0.H)
    {sqrtm : Matrix n n ℂ → Option (Matrix n n ℂ)} (hs : SqrtSpec sqrtm)
    (heq : chosen s.V (lowBasis0 st st0 s0) sel * (chosen s.V (lowBasis0 st st0 s0) sel)ᴴ = lowBasis0 st st0 s0 * (lowBasis0 st st0 s0)ᴴ) :
    ∃ s', s.schriefferWolff sqrtm st st0 sel s0 = .ok s' ∧ s'.V = lowBasis0 st st0 s0 ∧
      s'.H = (lowBasis0 st st0 s0)ᴴ * s.oper * lowBasis0 st st0 s0 := by
  have hB0 : (lowBasis0 st st0 s0)ᴴ * lowBasis0 st st0 s0 = 1 := lowBasis0_orth hst hst0 hsub hV0
  have hu : IsUnit ((lowBasis0 st st0 s0)ᴴ * chosen s.V (lowBasis0 st st0 s0) sel) := by
    refine IsUnit.of_mul_eq_one ((chosen s.V (lowBasis0 st st0 s0) sel)ᴴ * lowBasis0 st st0 s0) ?_
    have : (lowBasis0 st st0 s0)ᴴ * chosen s.V (lowBasis0 st st0 s0) sel * ((chosen s.V (lowBasis0 st st0 s0) sel)ᴴ * lowBasis0 st st0 s0) =
        (lowBasis0 st st0 s0)ᴴ * (chosen s.V (lowBasis0 st st0 s0) sel * (chosen s.V (lowBasis0 st st0 s0) sel)ᴴ) * lowBasis0 st st0 s0 := by
      simp only [Matrix.mul_assoc]
    rw [this, heq]
    have : (lowBasis0 st st0 s0)ᴴ * (lowBasis0 st st0 s0 * (lowBasis0 st st0 s0)ᴴ) * lowBasis0 st st0 s0 =
        ((lowBasis0 st st0 s0)ᴴ * lowBasis0 st st0 s0) * ((lowBasis0 st st0 s0)ᴴ * lowBasis0 st st0 s0) := by simp only [Matrix.mul_assoc]
    rw [this, hB0, Matrix.one_mul]
  obtain ⟨s', h1, h2, h3, h4, h5, _, _⟩ := C82_effective_hamiltonian hst hst0 hsub hsel hH hV hV0 hd hs hu
  have hV' : s'.V = lowBasis0 st st0 s0 := by
    refine C82_unique (B0 := lowBasis0 st st0 s0) h2 hB0 (h3.trans heq) h4 ?_
    rw [hB0]; exact Matrix.PosDef.one
  exact ⟨s', h1, hV', by rw [h5, hV']⟩

/-- A single unperturbed state that is not orthogonal to every eigenvector always works. -/
theorem C82_single {st : n → σ} {st0 : n0 → σ} (hst : Function.Injective st) (hst0 : Function.Injective st0)
    (hsub : ∀ i, ∃ r, st r = st0 i) {sel : (k → ℝ) → Unit → k} (hsel : ∀ ov, NthLargest ov (sel ov)) {s : HSys n k} {s0 : HSys n0 Unit} {d : k → ℂ}
    (hH : s.H = Matrix.diagonal d) (hV : s.Vᴴ * s.V = 1) (hV0 : s0.Vᴴ * s0.V = 1) (hd : diagOK s0.H)
    {sqrtm : Matrix n n ℂ → Option (Matrix n n ℂ)} (hs : SqrtSpec sqrtm) (hne : s.Vᴴ * lowBasis0 st st0 s0 ≠ 0) :
    ∃ s' c, s.schriefferWolff sqrtm st st0 sel s0 = .ok s' ∧ s'.H = (fun _ _ => d c) ∧
      ∀ c', ‖(s.Vᴴ * lowBasis0 st st0 s0) c' ()‖ ≤ ‖(s.Vᴴ * lowBasis0 st st0 s0) c ()‖ := by
  set B0 := lowBasis0 st st0 s0 with hB0
  set c := sel (lowOverlap s.V B0) () with hc
  have hlo : ∀ c', lowOverlap s.V B0 c' = ‖(s.Vᴴ * B0) c' ()‖ ^ 2 := fun c' => by
    unfold lowOverlap; rw [Finset.univ_unique, Finset.sum_singleton]
  have hmax : ∀ c', ‖(s.Vᴴ * B0) c' ()‖ ≤ ‖(s.Vᴴ * B0) c ()‖ := by
    intro c'
    by_cases hcc : c' = c
    · rw [hcc]
    · have := (hsel (lowOverlap s.V B0)).top () c' (by rintro ⟨u, hu⟩; exact hcc hu.symm)
      rw [hlo, hlo] at this
      exact le_of_sq_le_sq this (norm_nonneg _)
  have hu : IsUnit (B0ᴴ * chosen s.V B0 sel) := by
    rw [Matrix.isUnit_iff_isUnit_det, Matrix.det_unique, isUnit_iff_ne_zero]
    have e : (B0ᴴ * chosen s.V B0 sel) () () = star ((s.Vᴴ * B0) c ()) := by
      rw [Matrix.mul_apply, Matrix.mul_apply, star_sum]
      refine Finset.sum_congr rfl fun r _ => ?_
      rw [star_mul', Matrix.conjTranspose_apply, Matrix.conjTranspose_apply, star_star, mul_comm]
      rfl
    change (B0ᴴ * chosen s.V B0 sel) () () ≠ 0
    rw [e, Ne, star_eq_zero]
    intro h0
    refine hne ?_
    ext c' u
    have := hmax c'
    rw [h0, norm_zero] at this
    exact norm_le_zero_iff.1 this
  obtain ⟨s', h1, _, _, _, _, _, h7⟩ := C82_effective_hamiltonian hst hst0 hsub hsel hH hV hV0 hd hs hu
  refine ⟨s', c, h1, ?_, hmax⟩
  rw [Matrix.charpoly, Matrix.det_unique, Finset.univ_unique, Finset.prod_singleton] at h7
  ext i j
  rw [Matrix.charmatrix_apply_eq] at h7
  exact Polynomial.C_injective (sub_right_injective h7)

/-! ## Rejected and undefined input -/

/-- The call throws if a basis is not orthonormal within the tolerance, if the unperturbed Hamiltonian is not diagonal, or if the unperturbed system has a
state that the system lacks. -/
theorem C82_rejects (sqrtm : Matrix n n ℂ → Option (Matrix n n ℂ)) (st : n → σ) (st0 : n0 → σ) (sel : (k → ℝ) → k0 → k) (s : HSys n k) (s0 : HSys n0 k0)
    (h : ¬ unitOK s.V ∨ ¬ unitOK s0.V ∨ ¬ diagOK s0.H ∨ ∃ i, ∀ r, st r ≠ st0 i) : s.schriefferWolff sqrtm st st0 sel s0 = .throw := by
  unfold HSys.schriefferWolff
  by_cases h1 : ¬ unitOK s.V
  · rw [if_pos h1]
  by_cases h2 : ¬ unitOK s0.V
  · rw [if_neg h1, if_pos h2]
  by_cases h3 : ¬ diagOK s0.H
  · rw [if_neg h1, if_neg h2, if_pos h3]
  · obtain ⟨i, hi⟩ := (h.resolve_left h1 |>.resolve_left h2 |>.resolve_left h3)
    rw [if_neg h1, if_neg h2, if_neg h3]
    unfold embedStates
    rw [if_neg (fun hall => (hall i).elim fun r hr => hi r hr)]
    rfl

/-- **The number of basis vectors is not checked**: an unperturbed system with more basis vectors than the system makes `nth_element` run past the end. -/
theorem C82_too_many_vectors_fails (sqrtm : Matrix n n ℂ → Option (Matrix n n ℂ)) (st : n → σ) (st0 : n0 → σ) (sel : (k → ℝ) → k0 → k) (s : HSys n k)
    (s0 : HSys n0 k0) (hsub : ∀ i, ∃ r, st r = st0 i) (hV : unitOK s.V) (hV0 : unitOK s0.V) (hd : diagOK s0.H)
    (hk : Fintype.card k < Fintype.card k0) : s.schriefferWolff sqrtm st st0 sel s0 = .ub := by
  unfold HSys.schriefferWolff embedStates
  rw [if_neg (not_not.2 hV), if_neg (not_not.2 hV0), if_neg (not_not.2 hd), if_pos hsub]
  refine (Out.ok_bind _ _).trans ?_
  rw [if_pos hk]

end SW

/-- The hypotheses can be met: a system of one basis vector on two states, an unperturbed system with both states. -/
example (sqrtm : Matrix (Fin 2) (Fin 2) ℂ → Option (Matrix (Fin 2) (Fin 2) ℂ)) (sel : (Fin 1 → ℝ) → Fin 2 → Fin 1) :
    (⟨!![1; 0], !![3]⟩ : HSys (Fin 2) (Fin 1)).schriefferWolff sqrtm (id : Fin 2 → Fin 2) id sel (⟨1, Matrix.diagonal ![0, 1]⟩ : HSys (Fin 2) (Fin 2)) = .ub := by
  refine C82_too_many_vectors_fails _ _ _ _ _ _ (fun i => ⟨i, rfl⟩) (unitOK_of_orthonormal ?_) (unitOK_of_orthonormal (by simp)) ?_ (by simp)
  · ext i j; fin_cases i; fin_cases j; simp [Matrix.mul_apply, Fin.sum_univ_two]
  · rw [diagOK_iff]; intro i j hij; change ‖Matrix.diagonal ![(0 : ℂ), 1] i j‖ ≤ _; rw [Matrix.diagonal_apply_ne _ hij]; norm_num

/-! ## The largest overlaps need not belong to the unperturbed space -/

/-- Five orthonormal eigenvectors.  The first two are mixtures of states 0 and 2, the others of states 1, 3 and 4. -/
noncomputable def swV : Matrix (Fin 5) (Fin 5) ℂ :=
  !![20/29, 21/29, 0, 0, 0; 0, 0, 1/3, 2/3, 2/3; 21/29, -20/29, 0, 0, 0; 0, 0, 2/3, 1/3, -2/3; 0, 0, 2/3, -2/3, 1/3]

/-- Their energies. -/
def swD : Fin 5 → ℂ := ![0, 841, 9, 0, 0]

/-- The unperturbed basis: the first two states. -/
def swB0 : Matrix (Fin 5) (Fin 2) ℂ := !![1, 0; 0, 1; 0, 0; 0, 0; 0, 0]

theorem swV_orth : swVᴴ * swV = 1 := by
  ext i j
  rw [Matrix.mul_apply, Fin.sum_univ_five]
  fin_cases i <;> fin_cases j <;> simp [swV, Matrix.conjTranspose_apply] <;> norm_num

theorem swB0_orth : swB0ᴴ * swB0 = 1 := by
  ext i j
  rw [Matrix.mul_apply, Fin.sum_univ_five]
  fin_cases i <;> fin_cases j <;> simp [swB0, Matrix.conjTranspose_apply]

theorem sw_overlap : lowOverlap swV swB0 = ![400/841, 441/841, 1/9, 4/9, 4/9] := by
  funext c
  unfold lowOverlap
  rw [Fin.sum_univ_two]
  simp only [Matrix.mul_apply, Fin.sum_univ_five]
  fin_cases c <;> simp [swV, swB0, Matrix.conjTranspose_apply] <;> norm_num

/-- Every choice of the two largest overlaps takes the first two eigenvectors. -/
theorem sw_sel {sel : Fin 2 → Fin 5} (h : NthLargest (lowOverlap swV swB0) sel) : sel = ![0, 1] ∨ sel = ![1, 0] := by
  rw [sw_overlap] at h
  have key : ∀ i, sel i = 0 ∨ sel i = 1 := by
    intro i
    by_contra hc
    push Not at hc
    have hv : (![400/841, 441/841, 1/9, 4/9, 4/9] : Fin 5 → ℝ) (sel i) ≤ 4/9 := by
      have h2 : sel i = 2 ∨ sel i = 3 ∨ sel i = 4 := by omega
      rcases h2 with e | e | e <;> rw [e] <;> simp <;> norm_num
    have m0 : (0 : Fin 5) ∈ Set.range sel := by
      by_contra hm
      have := h.top i 0 hm
      have e : (![400/841, 441/841, 1/9, 4/9, 4/9] : Fin 5 → ℝ) 0 = 400/841 := rfl
      rw [e] at this
      norm_num at this hv
      linarith
    have m1 : (1 : Fin 5) ∈ Set.range sel := by
      by_contra hm
      have := h.top i 1 hm
      have e : (![400/841, 441/841, 1/9, 4/9, 4/9] : Fin 5 → ℝ) 1 = 441/841 := rfl
      rw [e] at this
      norm_num at this hv
      linarith
    obtain ⟨a, ha⟩ := m0
    obtain ⟨b, hb⟩ := m1
    have : ∀ a b i : Fin 2, i = a ∨ i = b ∨ a = b := by decide
    rcases this a b i with e | e | e
    · exact hc.1 (e ▸ ha)
    · exact hc.2 (e ▸ hb)
    · rw [e, hb] at ha; exact absurd ha (by decide)
  have hne : sel 0 ≠ sel 1 := fun e => absurd (h.inj e) (by decide)
  rcases key 0 with e0 | e0 <;> rcases key 1 with e1 | e1
  · exact absurd (e0.trans e1.symm) hne
  · left; funext i; fin_cases i <;> simp [e0, e1]
  · right; funext i; fin_cases i <;> simp [e0, e1]
  · exact absurd (e0.trans e1.symm) hne

theorem sw_proj {sel : Fin 2 → Fin 5} (h : sel = ![0, 1] ∨ sel = ![1, 0]) :
    swV.submatrix id sel * (swV.submatrix id sel)ᴴ = Matrix.diagonal ![1, 0, 1, 0, 0] := by
  rcases h with rfl | rfl
  all_goals
    ext i j
    rw [Matrix.mul_apply, Fin.sum_univ_two]
    fin_cases i <;> fin_cases j <;> simp [swV, Matrix.conjTranspose_apply] <;> norm_num

theorem sw_proj0 : swB0 * swB0ᴴ = Matrix.diagonal ![1, 1, 0, 0, 0] := by
  ext i j
  rw [Matrix.mul_apply, Fin.sum_univ_two]
  fin_cases i <;> fin_cases j <;> simp [swB0, Matrix.conjTranspose_apply]

/-- **C82 fails if the largest overlaps do not belong to the space.** The system and the unperturbed system pass all checks and every unperturbed state is an
exact combination of eigenvectors.  The two eigenvectors with the largest overlaps are both mixtures of the first unperturbed state, so the second
unperturbed state is orthogonal to them and −1 is an eigenvalue of the product of the reflections.  The complex square root exists nevertheless and the
call succeeds: the diagonal "effective Hamiltonian" has entries that are not energies of the system. -/
theorem C82_wrong_space_fails {sel : (Fin 5 → ℝ) → Fin 2 → Fin 5} (hsel : ∀ ov, NthLargest ov (sel ov))
    {sqrtm : Matrix (Fin 5) (Fin 5) ℂ → Option (Matrix (Fin 5) (Fin 5) ℂ)}
    (hsq : ∀ a, sqrtm (Matrix.diagonal a) = some (Matrix.diagonal fun i => (a i) ^ (1/2 : ℂ))) (d0 : Fin 2 → ℂ) :
    swVᴴ * swV = 1 ∧ swB0ᴴ * swB0 = 1 ∧
    ∃ s', (⟨swV, Matrix.diagonal swD⟩ : HSys (Fin 5) (Fin 5)).schriefferWolff sqrtm (id : Fin 5 → Fin 5) id sel
        (⟨swB0, Matrix.diagonal d0⟩ : HSys (Fin 5) (Fin 2)) = .ok s' ∧
      s'.H = Matrix.diagonal ![441, 1] ∧ (∀ i, swD i ≠ 441) ∧ (∀ i, swD i ≠ 1) := by
  refine ⟨swV_orth, swB0_orth, ?_⟩
  have hlb : lowBasis0 (id : Fin 5 → Fin 5) id (⟨swB0, Matrix.diagonal d0⟩ : HSys (Fin 5) (Fin 2)) = swB0 := by
    ext r c
    unfold lowBasis0
    simp
  have hs := sw_sel (hsel (lowOverlap swV swB0))
  have hch : chosen swV swB0 sel * (chosen swV swB0 sel)ᴴ = Matrix.diagonal ![1, 0, 1, 0, 0] := sw_proj hs
  have hA : reflOf swB0 * reflOf (chosen swV swB0 sel) = Matrix.diagonal ![1, -1, -1, 1, 1] := by
    unfold reflOf
    rw [sw_proj0, hch]
    ext i j
    rw [Matrix.mul_apply, Fin.sum_univ_five]
    fin_cases i <;> fin_cases j <;> simp [Matrix.one_apply] <;> norm_num
  have hroot : (Matrix.diagonal fun i => (![(1 : ℂ), -1, -1, 1, 1] i) ^ (1/2 : ℂ)) = Matrix.diagonal ![1, Complex.I, Complex.I, 1, 1] := by
    have hI : (-1 : ℂ) ^ (1/2 : ℂ) = Complex.I := by
      rw [Complex.cpow_def_of_ne_zero (by norm_num), Complex.log_neg_one]
      have : (Real.pi : ℂ) * Complex.I * (1 / 2) = (Real.pi : ℂ) / 2 * Complex.I := by ring
      rw [this, Complex.exp_pi_div_two_mul_I]
    congr 1
    funext i
    fin_cases i <;> simp [-one_div, hI]
  have hdiag : diagOK (Matrix.diagonal d0) := by
    rw [diagOK_iff]; intro i j hij; rw [Matrix.diagonal_apply_ne _ hij]; norm_num
  have hres := sw_eq (st := (id : Fin 5 → Fin 5)) (st0 := id) (fun i => ⟨i, rfl⟩) (sel := sel) (s := ⟨swV, Matrix.diagonal swD⟩)
    (s0 := (⟨swB0, Matrix.diagonal d0⟩ : HSys (Fin 5) (Fin 2))) (unitOK_of_orthonormal swV_orth) (unitOK_of_orthonormal swB0_orth) hdiag (by simp)
    (sqrtm := sqrtm) (U := Matrix.diagonal ![1, Complex.I, Complex.I, 1, 1]) (by rw [hlb]; refine (congrArg sqrtm hA).trans ((hsq _).trans (congrArg some hroot)))
  rw [hlb] at hres
  refine ⟨_, hres, ?_, ?_, ?_⟩
  · have e1 : swVᴴ * (Matrix.diagonal ![1, Complex.I, Complex.I, 1, 1])ᴴ * (swB0 * swB0ᴴ) * swB0 =
        !![20/29, 0; 21/29, 0; 0, -Complex.I/3; 0, -2*Complex.I/3; 0, -2*Complex.I/3] := by
      rw [Matrix.mul_assoc _ (swB0 * swB0ᴴ), Matrix.mul_assoc swB0, swB0_orth, Matrix.mul_one]
      ext i j
      rw [Matrix.diagonal_conjTranspose, Matrix.mul_apply, Fin.sum_univ_five]
      simp only [Matrix.mul_diagonal, Matrix.conjTranspose_apply]
      fin_cases i <;> fin_cases j <;> simp [swV, swB0] <;> ring
    change (swVᴴ * (Matrix.diagonal ![1, Complex.I, Complex.I, 1, 1])ᴴ * (swB0 * swB0ᴴ) * swB0)ᴴ * Matrix.diagonal swD *
      (swVᴴ * (Matrix.diagonal ![1, Complex.I, Complex.I, 1, 1])ᴴ * (swB0 * swB0ᴴ) * swB0) = _
    rw [e1]
    ext i j
    rw [Matrix.mul_apply, Fin.sum_univ_five]
    simp only [Matrix.mul_diagonal, Matrix.conjTranspose_apply]
    fin_cases i <;> fin_cases j <;> simp [swD] <;> ring_nf <;> simp [Complex.I_sq]
  · intro i; fin_cases i <;> simp [swD]
  · intro i; fin_cases i <;> simp [swD]

/-- Such choices and square roots exist, and a mixed two-level system meets the hypotheses of `C82_effective_hamiltonian` (through `C82_single`). -/
example : ∃ (sel : (Fin 2 → ℝ) → Unit → Fin 2) (sqrtm : Matrix (Fin 2) (Fin 2) ℂ → Option (Matrix (Fin 2) (Fin 2) ℂ)),
    (∀ ov, NthLargest ov (sel ov)) ∧ SqrtSpec sqrtm ∧
    ∃ s' c, (⟨!![4/5, -3/5; 3/5, 4/5], Matrix.diagonal ![0, 7]⟩ : HSys (Fin 2) (Fin 2)).schriefferWolff sqrtm (id : Fin 2 → Fin 2) (fun _ : Unit => 0) sel
      (⟨1, 0⟩ : HSys Unit Unit) = .ok s' ∧ s'.H = (fun _ _ => (![0, 7] : Fin 2 → ℂ) c) := by
  have hm : ∀ ov : Fin 2 → ℝ, ∃ c, ∀ c', ov c' ≤ ov c := fun ov => Finite.exists_max ov
  obtain ⟨sqrtm, hsq⟩ := sqrtSpec_exists (n := Fin 2)
  have hsel : ∀ ov : Fin 2 → ℝ, NthLargest ov (fun _ : Unit => (hm ov).choose) := fun ov =>
    ⟨fun a b _ => rfl, fun i c _ => (hm ov).choose_spec c⟩
  refine ⟨fun ov _ => (hm ov).choose, sqrtm, hsel, hsq, ?_⟩
  obtain ⟨s', c, h1, h2, _⟩ := C82_single (st := (id : Fin 2 → Fin 2)) (st0 := fun _ : Unit => 0) (fun _ _ h => h) (fun _ _ _ => rfl) (fun i => ⟨0, rfl⟩)
    (sel := fun ov _ => (hm ov).choose) hsel (s := ⟨!![4/5, -3/5; 3/5, 4/5], Matrix.diagonal ![0, 7]⟩) (s0 := (⟨1, 0⟩ : HSys Unit Unit)) (d := ![0, 7]) rfl
    (by
      ext i j
      rw [Matrix.mul_apply, Fin.sum_univ_two]
      fin_cases i <;> fin_cases j <;> simp [Matrix.conjTranspose_apply] <;> norm_num)
    (by simp) (by rw [diagOK_iff]; intro i j hij; exact absurd rfl hij) hsq
    (by
      intro h
      have := congrFun (congrFun h 0) ()
      rw [Matrix.mul_apply, Fin.sum_univ_two] at this
      simp [lowBasis0, Matrix.conjTranspose_apply] at this)
  exact ⟨s', c, h1, h2⟩

/-! # C83: forgetStatemixing -/

section Forget
variable {N : ℕ}

omit [Fintype k] [DecidableEq k] in
theorem dominantRow_some {V : Matrix (Fin N) k ℂ} {c : k} {r : Fin N} (h : dominantRow V c = some r) : ‖V r c‖ ^ 2 > 1/2 := by
  have := List.find?_some h
  rw [decide_eq_true_eq] at this
  have h0 : (0 : ℝ) ≤ 0.5 := by norm_num
  have h1 : Real.sqrt 0.5 ^ 2 = 0.5 := Real.sq_sqrt h0
  have h2 := Real.sqrt_nonneg (0.5 : ℝ)
  have h3 : Real.sqrt 0.5 ^ 2 < ‖V r c‖ ^ 2 := pow_lt_pow_left₀ this h2 two_ne_zero
  rw [h1] at h3
  norm_num at h3 ⊢
  linarith

/-- Two entries of a normalised column cannot both carry more than half of the weight. -/
theorem col_dominant_unique {V : Matrix (Fin N) k ℂ} (hV : Vᴴ * V = 1) {c : k} {r r' : Fin N} (h : ‖V r c‖ ^ 2 > 1/2) (h' : ‖V r' c‖ ^ 2 > 1/2) : r = r' := by
  by_contra hne
  have hn : ∑ i, ‖V i c‖ ^ 2 = 1 := by
    have := congrFun (congrFun hV c) c
    rw [Matrix.mul_apply, Matrix.one_apply_eq] at this
    have e : ∀ i, Vᴴ c i * V i c = ((‖V i c‖ ^ 2 : ℝ) : ℂ) := by
      intro i
      rw [Matrix.conjTranspose_apply, RCLike.star_def, mul_comm, Complex.mul_conj, Complex.normSq_eq_norm_sq]
    rw [Finset.sum_congr rfl fun i _ => e i, ← Complex.ofReal_sum] at this
    exact_mod_cast this
  have : ∑ i ∈ {r, r'}, ‖V i c‖ ^ 2 ≤ ∑ i, ‖V i c‖ ^ 2 := Finset.sum_le_univ_sum_of_nonneg fun i => sq_nonneg _
  rw [Finset.sum_pair hne, hn] at this
  linarith

/-- Bessel: a row of a matrix with orthonormal columns has at most weight one. -/
theorem bessel_row {V : Matrix (Fin N) k ℂ} (hV : Vᴴ * V = 1) (r : Fin N) : ∑ c, ‖V r c‖ ^ 2 ≤ 1 := by
  -- P = V Vᴴ is a projector: P r r = Σ_i |P r i|² ≥ (P r r)²
  set P := V * Vᴴ with hP
  have hPP : P * P = P := by
    have : P * P = V * (Vᴴ * V) * Vᴴ := by rw [hP]; simp only [Matrix.mul_assoc]
    rw [this, hV, Matrix.mul_one]
  have hPh : Pᴴ = P := by rw [hP, Matrix.conjTranspose_mul, Matrix.conjTranspose_conjTranspose]
  have e1 : P r r = ((∑ c, ‖V r c‖ ^ 2 : ℝ) : ℂ) := by
    rw [hP, Matrix.mul_apply, Complex.ofReal_sum]
    refine Finset.sum_congr rfl fun c _ => ?_
    rw [Matrix.conjTranspose_apply, RCLike.star_def, Complex.mul_conj, Complex.normSq_eq_norm_sq]
  have e2 : P r r = ((∑ i, ‖P r i‖ ^ 2 : ℝ) : ℂ) := by
    conv_lhs => rw [← hPP]
    rw [Matrix.mul_apply, Complex.ofReal_sum]
    refine Finset.sum_congr rfl fun i _ => ?_
    have : P i r = star (P r i) := by rw [← Matrix.conjTranspose_apply, hPh]
    rw [this, RCLike.star_def, Complex.mul_conj, Complex.normSq_eq_norm_sq]
  set w := ∑ c, ‖V r c‖ ^ 2 with hw
  have hw0 : 0 ≤ w := Finset.sum_nonneg fun c _ => sq_nonneg _
  have e3 : w = ∑ i, ‖P r i‖ ^ 2 := by
    have := e1.symm.trans e2
    exact_mod_cast this
  have e4 : ‖P r r‖ ^ 2 ≤ ∑ i, ‖P r i‖ ^ 2 := Finset.single_le_sum (f := fun i => ‖P r i‖ ^ 2) (fun i _ => sq_nonneg _) (Finset.mem_univ r)
  rw [e1, Complex.norm_real, Real.norm_of_nonneg hw0, ← e3] at e4
  by_contra hc
  push Not at hc
  nlinarith

theorem row_dominant_unique {V : Matrix (Fin N) k ℂ} (hV : Vᴴ * V = 1) {r : Fin N} {c c' : k} (h : ‖V r c‖ ^ 2 > 1/2) (h' : ‖V r c'‖ ^ 2 > 1/2) : c = c' := by
  by_contra hne
  have : ∑ i ∈ {c, c'}, ‖V r i‖ ^ 2 ≤ ∑ i, ‖V r i‖ ^ 2 := Finset.sum_le_univ_sum_of_nonneg fun i => sq_nonneg _
  rw [Finset.sum_pair hne] at this
  have := bessel_row hV r
  linarith

omit [Fintype k] [DecidableEq k] in
theorem dominantRow_isSome_iff (V : Matrix (Fin N) k ℂ) (c : k) : (dominantRow V c).isSome ↔ ∃ r, ‖V r c‖ ^ 2 > 1/2 := by
  have h0 : (0 : ℝ) ≤ 0.5 := by norm_num
  have h1 : Real.sqrt 0.5 ^ 2 = 0.5 := Real.sq_sqrt h0
  constructor
  · intro h
    obtain ⟨r, hr⟩ := Option.isSome_iff_exists.1 h
    exact ⟨r, dominantRow_some hr⟩
  · rintro ⟨r, hr⟩
    unfold dominantRow
    rw [List.find?_isSome]
    refine ⟨r, List.mem_finRange r, ?_⟩
    rw [decide_eq_true_eq]
    have : Real.sqrt 0.5 ^ 2 < ‖V r c‖ ^ 2 := by rw [h1]; norm_num at hr ⊢; linarith
    exact lt_of_pow_lt_pow_left₀ 2 (norm_nonneg _) this

/-- **C83, forgetStatemixing.** For orthonormal eigenvectors the call succeeds exactly if in every eigenvector one state carries more than half of the
probability.  Then every basis vector becomes that state with coefficient one, no state is used twice (so the basis vectors are orthonormal again), and the
energies are kept. -/
theorem C83_forget (s : HSys (Fin N) k) (hV : s.Vᴴ * s.V = 1) :
    (s.forget = .throw ↔ ∃ c, ∀ r, ‖s.V r c‖ ^ 2 ≤ 1/2) ∧ s.forget ≠ .ub ∧
    ∀ s', s.forget = .ok s' →
      (∀ r c, s'.V r c = if ‖s.V r c‖ ^ 2 > 1/2 then 1 else 0) ∧
      (∃ g : k → Fin N, Function.Injective g ∧ ∀ r c, s'.V r c = if g c = r then 1 else 0) ∧
      s'.Vᴴ * s'.V = 1 ∧ s'.H = s.H := by
  have hcount : ((Finset.univ.filter fun c => (dominantRow s.V c).isSome).card < Fintype.card k) ↔ ∃ c, ∀ r, ‖s.V r c‖ ^ 2 ≤ 1/2 := by
    rw [← Finset.card_univ]
    constructor
    · intro h
      by_contra hc
      push Not at hc
      have : (Finset.univ.filter fun c => (dominantRow s.V c).isSome) = Finset.univ :=
        Finset.filter_true_of_mem fun c _ => (dominantRow_isSome_iff s.V c).2 (hc c)
      rw [this] at h
      exact lt_irrefl _ h
    · rintro ⟨c, hc⟩
      refine Finset.card_lt_card ((Finset.filter_ssubset).2 ⟨c, Finset.mem_univ c, fun h => ?_⟩)
      obtain ⟨r, hr⟩ := (dominantRow_isSome_iff s.V c).1 h
      exact absurd (hc r) (not_le.2 hr)
  unfold HSys.forget
  split_ifs with h
  · exact ⟨⟨fun _ => hcount.1 h, fun _ => rfl⟩, (by intro e; cases e), fun s' e => by cases e⟩
  · refine ⟨⟨fun e => (by cases e), fun e => absurd (hcount.2 e) h⟩, (by intro e; cases e), fun s' e => ?_⟩
    injection e with e
    subst e
    have hall : ∀ c, ∃ r, dominantRow s.V c = some r := by
      intro c
      rw [hcount] at h
      push Not at h
      exact Option.isSome_iff_exists.1 ((dominantRow_isSome_iff s.V c).2 (h c))
    choose g hg using hall
    have hgd : ∀ c, ‖s.V (g c) c‖ ^ 2 > 1/2 := fun c => dominantRow_some (hg c)
    have hgi : Function.Injective g := fun a b e => row_dominant_unique hV (hgd a) (e ▸ hgd b)
    have hV' : ∀ r c, (if dominantRow s.V c = some r then (1 : ℂ) else 0) = if g c = r then 1 else 0 := by
      intro r c; rw [hg c]; simp only [Option.some.injEq]
    refine ⟨fun r c => ?_, ⟨g, hgi, hV'⟩, ?_, rfl⟩
    · refine (hV' r c).trans ?_
      by_cases hr : ‖s.V r c‖ ^ 2 > 1/2
      · rw [if_pos hr, if_pos (col_dominant_unique hV (hgd c) hr)]
      · rw [if_neg hr, if_neg]
        rintro rfl; exact hr (hgd c)
    · ext i j
      rw [Matrix.mul_apply, Finset.sum_eq_single (g i)]
      · rw [Matrix.conjTranspose_apply]
        change star (if dominantRow s.V i = some (g i) then (1 : ℂ) else 0) * (if dominantRow s.V j = some (g i) then (1 : ℂ) else 0) = _
        rw [hV', hV', if_pos rfl, star_one, one_mul, Matrix.one_apply]
        by_cases hij : i = j
        · rw [hij]; simp
        · rw [if_neg hij, if_neg (fun e => hij (hgi e).symm)]
      · intro r _ hr
        rw [Matrix.conjTranspose_apply]
        change star (if dominantRow s.V i = some r then (1 : ℂ) else 0) * _ = _
        rw [hV', if_neg (Ne.symm hr), star_zero, zero_mul]
      · intro h; exact absurd (Finset.mem_univ _) h

/-- Both outcomes occur: with a weight of 16/25 the mixing is forgotten, with weights of at most 4/9 it is rejected. -/
example : (⟨!![4/5, -3/5; 3/5, 4/5], Matrix.diagonal ![0, 7]⟩ : HSys (Fin 2) (Fin 2)).forget ≠ .throw ∧
    (⟨!![(1/3 : ℂ), 2/3, 2/3; 2/3, 1/3, -2/3; 2/3, -2/3, 1/3], 0⟩ : HSys (Fin 3) (Fin 3)).forget = .throw := by
  constructor
  · rw [Ne, (C83_forget _ ?_).1]
    · push Not
      intro c
      refine ⟨c, ?_⟩
      fin_cases c <;> simp <;> norm_num
    · ext i j
      rw [Matrix.mul_apply, Fin.sum_univ_two]
      fin_cases i <;> fin_cases j <;> simp [Matrix.conjTranspose_apply] <;> norm_num
  · rw [(C83_forget _ ?_).1]
    · refine ⟨0, fun r => ?_⟩
      fin_cases r <;> simp <;> norm_num
    · ext i j
      rw [Matrix.mul_apply, Fin.sum_univ_three]
      fin_cases i <;> fin_cases j <;> simp [Matrix.conjTranspose_apply] <;> norm_num

/-- **Without orthonormal vectors two basis vectors can become the same state.** Basis vectors that were combined from different systems need not be
orthonormal; the call does not check it and the result has two equal columns. -/
theorem C83_duplicate_fails : ∃ s : HSys (Fin 2) (Fin 2), s.V.det ≠ 0 ∧ (∀ c, ∑ r, ‖s.V r c‖ ^ 2 = 1) ∧
    ∃ s', s.forget = .ok s' ∧ (∀ r, s'.V r 0 = s'.V r 1) := by
  have hd : ∀ c : Fin 2, dominantRow (!![4/5, 4/5; 3/5, -3/5] : Matrix (Fin 2) (Fin 2) ℂ) c = some 0 := by
    intro c
    unfold dominantRow
    have h0 : (List.finRange 2) = [0, 1] := rfl
    rw [h0, List.find?_cons_of_pos]
    rw [decide_eq_true_eq]
    have : ‖(!![4/5, 4/5; 3/5, -3/5] : Matrix (Fin 2) (Fin 2) ℂ) 0 c‖ = 4/5 := by fin_cases c <;> simp
    rw [this, gt_iff_lt, Real.sqrt_lt' (by norm_num)]
    norm_num
  refine ⟨⟨!![4/5, 4/5; 3/5, -3/5], 0⟩, ?_, ?_, ?_⟩
  · rw [Matrix.det_fin_two]; simp; norm_num
  · intro c; rw [Fin.sum_univ_two]; fin_cases c <;> simp <;> norm_num
  · unfold HSys.forget
    have : (Finset.univ.filter fun c : Fin 2 => (dominantRow (!![4/5, 4/5; 3/5, -3/5] : Matrix (Fin 2) (Fin 2) ℂ) c).isSome = true) = Finset.univ :=
      Finset.filter_true_of_mem fun c _ => by rw [hd c]; rfl
    refine ⟨_, if_neg ?_, ?_⟩
    · rw [this, Finset.card_univ]; exact lt_irrefl _
    · intro r
      change (if dominantRow (!![4/5, 4/5; 3/5, -3/5] : Matrix (Fin 2) (Fin 2) ℂ) 0 = some r then (1 : ℂ) else 0) =
        if dominantRow (!![4/5, 4/5; 3/5, -3/5] : Matrix (Fin 2) (Fin 2) ℂ) 1 = some r then (1 : ℂ) else 0
      rw [hd, hd]

end Forget

end PI
