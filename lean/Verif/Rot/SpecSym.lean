import Verif.Rot.FieldCov
import Verif.Pair.SectorReflDir

/-!
# C111: symmetries of the spectrum of one atom

Parity, complex conjugation and time reversal of the Hamiltonian that a SystemOne represents.
-/

namespace PI

open Matrix

variable {N : ℕ}

/-! ## Transformed parameters -/

/-- The opposite vector. -/
def Vec3.opp (v : Vec3) : Vec3 := ⟨-v.x, -v.y, -v.z⟩

/-- The vector reflected at the x-z plane. -/
def Vec3.flipY (v : Vec3) : Vec3 := ⟨v.x, -v.y, v.z⟩

/-- Parameters with the opposite electric field. -/
def FieldParams.oppE (p : FieldParams) : FieldParams := { p with E := p.E.opp }

/-- Parameters with the opposite magnetic field. -/
def FieldParams.oppB (p : FieldParams) : FieldParams := { p with B := p.B.opp }

/-- Parameters with the y components of both fields reversed. -/
def FieldParams.flipY (p : FieldParams) : FieldParams := { p with E := p.E.flipY, B := p.B.flipY }

theorem sph_opp (v : Vec3) (q : ℤ) : sph v.opp q = -sph v q := by
  unfold sph Vec3.opp
  split_ifs <;> first | (apply Complex.ext <;> simp [neg_div]; done) | (simp; done)

theorem sph_flipY (v : Vec3) (q : ℤ) : sph v.flipY q = (starRingEnd ℂ) (sph v q) := by
  unfold sph Vec3.flipY
  split_ifs <;> first | (apply Complex.ext <;> simp [neg_div]; done) | (simp; done)

theorem dia_opp (B : Vec3) (k q : ℤ) : diaTerm B.opp k q = diaTerm B k q := by
  unfold diaTerm
  simp only [sph_opp, neg_mul_neg]

theorem dia_flipY (B : Vec3) (k q : ℤ) : diaTerm B.flipY k q = (starRingEnd ℂ) (diaTerm B k q) := by
  unfold diaTerm
  simp only [sph_flipY]
  split_ifs <;> simp [Complex.conj_ofNat]

theorem isBig_neg (x : ℂ) : isBig (-x) = isBig x := by unfold isBig; rw [norm_neg]

theorem isBig_conj (x : ℂ) : isBig ((starRingEnd ℂ) x) = isBig x := by unfold isBig; rw [Complex.norm_conj]

theorem addKeys_oppE (p : FieldParams) : addKeys p.oppE = addKeys p := by
  unfold addKeys FieldParams.oppE
  simp only [sph_opp, isBig_neg]

theorem addKeys_oppB (p : FieldParams) : addKeys p.oppB = addKeys p := by
  unfold addKeys FieldParams.oppB
  simp only [sph_opp, isBig_neg, dia_opp]

theorem addKeys_flipY (p : FieldParams) : addKeys p.flipY = addKeys p := by
  unfold addKeys FieldParams.flipY
  simp only [sph_flipY, isBig_conj, dia_flipY]

theorem coef_oppE (p : FieldParams) (key : FKey) : addCoef p.oppE key = (match key with | .e _ => -1 | _ => 1) * addCoef p key := by
  cases key <;> unfold addCoef FieldParams.oppE <;> simp only [sph_opp]
  · split_ifs <;> ring
  all_goals simp

theorem coef_oppB (p : FieldParams) (key : FKey) : addCoef p.oppB key = (match key with | .b _ => -1 | _ => 1) * addCoef p key := by
  cases key <;> unfold addCoef FieldParams.oppB <;> simp only [sph_opp, dia_opp]
  · simp
  · split_ifs <;> ring
  all_goals simp

theorem coef_flipY (p : FieldParams) (key : FKey) : addCoef p.flipY key = (starRingEnd ℂ) (addCoef p key) := by
  cases key <;> unfold addCoef FieldParams.flipY <;> simp only [sph_flipY, dia_flipY]
  · split_ifs <;> simp
  · split_ifs <;> simp
  · split_ifs <;> simp
  · simp

/-! ## Which keys occur -/

theorem addKeys_d (p : FieldParams) (k q : ℤ) (h : FKey.d k q ∈ addKeys p) : 0 ≤ k ∧ (k : ℤ) % 2 = 0 := by
  unfold addKeys at h
  simp only [List.mem_append, List.mem_map, List.mem_filter] at h
  have e : ∀ (c : Prop) [Decidable c] (x : FKey), FKey.d k q ≠ x → ¬ FKey.d k q ∈ (if c then [x] else []) := by
    intro c _ x hx hm
    split_ifs at hm
    · exact hx (List.mem_singleton.1 hm)
    · simp at hm
  rcases h with ((((((( h | h) | h) | h) | h) | h) | h) | h)
  · exact absurd h (e _ _ (by simp))
  · exact absurd h (e _ _ (by simp))
  · exact absurd h (e _ _ (by simp))
  · exact absurd h (e _ _ (by simp))
  · exact absurd h (e _ _ (by simp))
  · exact absurd h (e _ _ (by simp))
  · obtain ⟨⟨a, b⟩, ⟨h1, -⟩, h2⟩ := h
    simp only [FKey.d.injEq] at h2
    obtain ⟨rfl, rfl⟩ := h2
    simp only [List.mem_cons, Prod.mk.injEq, List.not_mem_nil, or_false] at h1
    omega
  · split_ifs at h
    · obtain ⟨o, -, h⟩ := List.mem_map.1 h
      exact absurd h (by simp)
    · simp at h

theorem addKeys_ion (p : FieldParams) (o : ℕ) (h : FKey.ion o ∈ addKeys p) : p.charge ≠ 0 ∧ p.dist.isSome := by
  by_contra hc
  unfold addKeys at h
  rw [if_neg hc] at h
  simp only [List.mem_append, List.mem_map, List.mem_filter] at h
  have e : ∀ (c : Prop) [Decidable c] (x : FKey), FKey.ion o ≠ x → ¬ FKey.ion o ∈ (if c then [x] else []) := by
    intro c _ x hx hm
    split_ifs at hm
    · exact hx (List.mem_singleton.1 hm)
    · simp at hm
  rcases h with ((((((( h | h) | h) | h) | h) | h) | h) | h)
  · exact absurd h (e _ _ (by simp))
  · exact absurd h (e _ _ (by simp))
  · exact absurd h (e _ _ (by simp))
  · exact absurd h (e _ _ (by simp))
  · exact absurd h (e _ _ (by simp))
  · exact absurd h (e _ _ (by simp))
  · obtain ⟨a, -, h2⟩ := h
    exact absurd h2 (by simp)
  · simp at h

/-! ## Transformations of the Hamiltonian -/

/-- An additive map that scales with a map of the scalars carries the Hamiltonian over if it does so for every term. -/
theorem oneOperator_map (C : FieldConsts) (radial : RadKey → ℝ) (me : Method) (st : Fin N → Option QN) (e : Fin N → ℝ) (p p' : FieldParams)
    (Φ : Matrix (Fin N) (Fin N) ℂ → Matrix (Fin N) (Fin N) ℂ) (φ : ℂ → ℂ) (hadd : ∀ A B, Φ (A + B) = Φ A + Φ B) (hz : Φ 0 = 0)
    (hsm : ∀ c A, Φ (c • A) = φ c • Φ A) (hk : addKeys p' = addKeys p)
    (h0 : Φ (Matrix.diagonal fun i => (e i : ℂ)) = Matrix.diagonal fun i => (e i : ℂ))
    (hop : ∀ key ∈ addKeys p, φ (addCoef p key) • Φ (fieldOp C radial me st key) = addCoef p' key • fieldOp C radial me st key) :
    Φ (oneOperator C radial me st e p) = oneOperator C radial me st e p' := by
  unfold oneOperator freshOper
  rw [hadd, h0]
  congr 1
  show Φ (List.map (fun key => addCoef p key • (1 * fieldOp C radial me st key * 1)) (addKeys p)).sum =
    (List.map (fun key => addCoef p' key • (1 * fieldOp C radial me st key * 1)) (addKeys p')).sum
  rw [hk]
  simp only [Matrix.one_mul, Matrix.mul_one]
  generalize addKeys p = L at hop
  induction L with
  | nil => simpa using hz
  | cons x xs ih =>
    rw [List.map_cons, List.sum_cons, List.map_cons, List.sum_cons, hadd, ih fun key hk => hop key (List.mem_cons_of_mem _ hk), hsm,
      hop x List.mem_cons_self]

/-! ## Elements of the operators -/

theorem tensorMat_real (st : Fin N → Option QN) (f : QN → QN → ℝ) (q : ℤ) : (tensorMat st f q).map (starRingEnd ℂ) = tensorMat st f q := by
  ext r c
  rw [Matrix.map_apply]
  unfold tensorMat
  cases st r with
  | none => simp
  | some a =>
    cases st c with
    | none => simp
    | some b =>
      dsimp only
      split_ifs <;> simp

/-- Every operator of a key is a tensor matrix with real elements. -/
theorem fieldOp_tensor (C : FieldConsts) (radial : RadKey → ℝ) (me : Method) (st : Fin N → Option QN) (hst : GoodStates st) (p : FieldParams) (key : FKey)
    (hk : key ∈ addKeys p) : ∃ f q, fieldOp C radial me st key = tensorMat st f q := by
  cases key with
  | e q => exact ⟨_, q, (C37_operators C radial me st hst q).1⟩
  | b q => exact ⟨_, q, (C37_operators C radial me st hst q).2.1⟩
  | d k q => exact ⟨_, q, (C37_operators C radial me st hst q).2.2.1 k (addKeys_d p k q hk).1⟩
  | ion o => exact ⟨_, 0, (C37_operators C radial me st hst 0).2.2.2 o⟩

theorem multipole_parity (C : ElemConsts) (radial : RadKey → ℝ) (me : Method) (a b : QN) (kr ka : ℤ) (ha : a.Physical) (hb : b.Physical)
    (hs : a.species = b.species) (hss : a.s = b.s) (h : outVal (electricMultipole C radial me a b kr ka) ≠ 0) : (ka + a.l + b.l) % 2 = 0 := by
  by_contra hp
  apply h
  have h0 : multipoleSpec ka a.l b.l = 0 := by
    unfold multipoleSpec
    rw [w3j_zero_of_odd _ _ _ (by omega), mul_zero]
  rw [electricMultipole_eq C radial me a b kr ka ha hb hs hss, h0]
  simp [outVal]

/-- The parity of a state: (−1)^l, 1 for artificial states. -/
def paritySign (st : Fin N → Option QN) (i : Fin N) : ℤ := match st i with
  | some a => sgnZ a.l
  | none => 1

theorem paritySign_sq (st : Fin N → Option QN) (i : Fin N) : paritySign st i * paritySign st i = 1 := by
  unfold paritySign
  split
  · exact sgnZ_sq _
  · rfl

/-- The parity operator: the diagonal matrix with (−1)^l. -/
def parityMat (st : Fin N → Option QN) : Matrix (Fin N) (Fin N) ℂ := Matrix.diagonal fun i => ((paritySign st i : ℤ) : ℂ)

theorem parityMat_sq (st : Fin N → Option QN) : parityMat st * parityMat st = 1 := by
  unfold parityMat
  rw [Matrix.diagonal_mul_diagonal, ← Matrix.diagonal_one]
  congr 1
  funext i
  exact_mod_cast paritySign_sq st i

theorem tensor_parity (st : Fin N → Option QN) (f : QN → QN → ℝ) (q x : ℤ) (hf : ∀ i j a b, st i = some a → st j = some b → f a b ≠ 0 → (x + a.l + b.l) % 2 = 0) :
    parityMat st * tensorMat st f q * parityMat st = ((sgnZ x : ℤ) : ℂ) • tensorMat st f q := by
  ext r c
  unfold parityMat
  rw [Matrix.mul_diagonal, Matrix.diagonal_mul, Matrix.smul_apply]
  unfold tensorMat paritySign
  cases hr : st r with
  | none => simp
  | some a =>
    cases hc : st c with
    | none => simp
    | some b =>
      dsimp only
      by_cases hm : a.m - b.m = 2 * q
      · rw [if_pos hm]
        by_cases h : f a b = 0
        · rw [h]; simp
        · have hp := hf r c a b hr hc h
          have : sgnZ a.l * sgnZ b.l = sgnZ x := by
            rw [← sgnZ_add]
            exact sgnZ_congr (by omega)
          rw [smul_eq_mul, ← this]
          push_cast
          ring
      · rw [if_neg hm]; simp

/-- **C111 (parity).** Conjugating the Hamiltonian with (−1)^l reverses the electric field (no ion). -/
theorem C111_parity (C : FieldConsts) (radial : RadKey → ℝ) (me : Method) (st : Fin N → Option QN) (hst : GoodStates st) (e : Fin N → ℝ) (p : FieldParams)
    (hion : p.charge = 0 ∨ p.dist = none) :
    parityMat st * oneOperator C radial me st e p * parityMat st = oneOperator C radial me st e p.oppE := by
  refine oneOperator_map C radial me st e p p.oppE (fun A => parityMat st * A * parityMat st) id ?_ ?_ ?_ (addKeys_oppE p) ?_ ?_
  · intro A B; rw [Matrix.mul_add, Matrix.add_mul]
  · simp
  · intro c A; rw [Matrix.mul_smul, Matrix.smul_mul]; rfl
  · unfold parityMat
    rw [Matrix.diagonal_mul_diagonal, Matrix.diagonal_mul_diagonal]
    congr 1
    funext i
    have : ((paritySign st i : ℤ) : ℂ) * ((paritySign st i : ℤ) : ℂ) = 1 := by exact_mod_cast paritySign_sq st i
    linear_combination (e i : ℂ) * this
  · intro key hk
    dsimp only [id]
    rw [coef_oppE]
    cases key with
    | e q =>
      rw [(C37_operators C radial me st hst q).1, tensor_parity st _ q 1 (fun i j a b ha hb h => multipole_parity C.elem radial me a b 1 1 (hst i a ha).1 (hst j b hb).1
        ((hst i a ha).2 j b hb).1 ((hst i a ha).2 j b hb).2 h), smul_smul]
      congr 1
      simp [sgnZ]
    | b q =>
      rw [(C37_operators C radial me st hst q).2.1, tensor_parity st _ q 0 (fun i j a b ha hb h => by
        unfold magSpec at h
        by_cases hl : a.l = b.l
        · omega
        · rw [if_neg hl] at h; exact absurd rfl h), smul_smul]
      congr 1
      simp [sgnZ]
    | d k q =>
      have hk' := addKeys_d p k q hk
      rw [(C37_operators C radial me st hst q).2.2.1 k hk'.1, tensor_parity st _ q k (fun i j a b ha hb h => multipole_parity C.elem radial me a b 2 k (hst i a ha).1 (hst j b hb).1
        ((hst i a ha).2 j b hb).1 ((hst i a ha).2 j b hb).2 (fun h0 => h (by rw [h0]; ring))), smul_smul]
      congr 1
      simp [sgnZ, hk'.2]
    | ion o =>
      have := addKeys_ion p o hk
      rcases hion with h | h
      · exact absurd h this.1
      · rw [h] at this; simp at this

theorem charpoly_sandwich {n : Type} [Fintype n] [DecidableEq n] (U V A : Matrix n n ℂ) (h : V * U = 1) : (U * A * V).charpoly = A.charpoly := by
  rw [Matrix.charpoly_mul_comm, ← Matrix.mul_assoc, h, Matrix.one_mul]

/-- **C111 (parity, energies).** The energies with their multiplicities do not change when the electric field is reversed. -/
theorem C111_parity_spectrum (C : FieldConsts) (radial : RadKey → ℝ) (me : Method) (st : Fin N → Option QN) (hst : GoodStates st) (e : Fin N → ℝ) (p : FieldParams)
    (hion : p.charge = 0 ∨ p.dist = none) :
    (oneOperator C radial me st e p.oppE).charpoly = (oneOperator C radial me st e p).charpoly := by
  rw [← C111_parity C radial me st hst e p hion, charpoly_sandwich _ _ _ (parityMat_sq st)]

/-- **C111 (conjugation).** The complex conjugate of the Hamiltonian is the one with the y components of both fields reversed; an ion on the z axis is allowed. -/
theorem C111_conjugation (C : FieldConsts) (radial : RadKey → ℝ) (me : Method) (st : Fin N → Option QN) (hst : GoodStates st) (e : Fin N → ℝ) (p : FieldParams) :
    (oneOperator C radial me st e p).map (starRingEnd ℂ) = oneOperator C radial me st e p.flipY := by
  refine oneOperator_map C radial me st e p p.flipY (fun A => A.map (starRingEnd ℂ)) (starRingEnd ℂ) ?_ ?_ ?_ (addKeys_flipY p) ?_ ?_
  · intro A B; ext i j; simp
  · ext i j; simp
  · intro c A; ext i j; simp
  · ext i j
    rw [Matrix.map_apply, Matrix.diagonal_apply]
    split_ifs <;> simp
  · intro key hk
    obtain ⟨f, q, h⟩ := fieldOp_tensor C radial me st hst p key hk
    rw [h, coef_flipY]
    rw [tensorMat_real]

theorem oneOperator_herm (C : FieldConsts) (radial : RadKey → ℝ) (me : Method) (st : Fin N → Option QN) (hst : GoodStates st) (e : Fin N → ℝ) (p : FieldParams) :
    (oneOperator C radial me st e p).IsHermitian := by
  apply C37_hermitian C radial me st hst
  · unfold Matrix.IsHermitian
    rw [Matrix.diagonal_conjTranspose]
    congr 1
    funext i
    simp
  · simp [Matrix.IsHermitian]

theorem herm_conj_transpose {n : Type} (A : Matrix n n ℂ) (h : A.IsHermitian) : A.map (starRingEnd ℂ) = Aᵀ := by
  ext i j
  rw [Matrix.map_apply, Matrix.transpose_apply]
  exact h.apply j i

/-- **C111 (conjugation, energies).** The energies with their multiplicities do not change when the y components of both fields are reversed. -/
theorem C111_conjugation_spectrum (C : FieldConsts) (radial : RadKey → ℝ) (me : Method) (st : Fin N → Option QN) (hst : GoodStates st) (e : Fin N → ℝ) (p : FieldParams) :
    (oneOperator C radial me st e p.flipY).charpoly = (oneOperator C radial me st e p).charpoly := by
  rw [← C111_conjugation C radial me st hst e p, herm_conj_transpose _ (oneOperator_herm C radial me st hst e p), Matrix.charpoly_transpose]

/-! ## Time reversal -/

/-- With a state the one of opposite momentum along z is in the basis; no state occurs twice. -/
structure FlipClosed (st : Fin N → Option QN) : Prop where
  all : ∀ i, ∃ a, st i = some a
  inj : ∀ i k, st i = st k → i = k
  flip : ∀ i a, st i = some a → ∃ k, st k = some a.flip

/-- The phase of a state under time reversal: (−1)^(l + j − m); `j`, `m` are doubled. -/
def reversalSign (a : QN) : ℤ := sgnZ (a.l + (a.j - a.m) / 2)

/-- The time reversal matrix: |n l j m⟩ goes to (−1)^(l + j − m) |n l j −m⟩. -/
def reversalMat (st : Fin N → Option QN) : Matrix (Fin N) (Fin N) ℂ := fun r c => match st r, st c with
  | some a, some b => if a = b.flip then ((reversalSign b : ℤ) : ℂ) else 0
  | _, _ => 0

theorem qn_flip_flip (a : QN) : a.flip.flip = a := by
  unfold QN.flip; simp

theorem multipole_flip (C : ElemConsts) (radial : RadKey → ℝ) (me : Method) (a b : QN) (kr ka : ℤ) (ha : a.Physical) (hb : b.Physical)
    (hs : a.species = b.species) (hss : a.s = b.s) :
    outVal (electricMultipole C radial me a.flip b.flip kr ka) = reversalSign a * reversalSign b * outVal (electricMultipole C radial me b a kr ka) := by
  obtain ⟨x, h1, -, h2⟩ := C21_multipole_hermitian C radial me a b kr ka ha hb hs hss
  have hp := multipole_parity C radial me a b kr ka ha hb hs hss
  have e : outVal (electricMultipole C radial me a.flip b.flip kr ka) = sgnZ ((a.j + b.j) / 2 + ka + a.m) * x := by
    rw [electricMultipole_eq C radial me a.flip b.flip kr ka (flip_physical ha) (flip_physical hb) hs hss]
    rw [electricMultipole_eq C radial me a b kr ka ha hb hs hss, Out.ok.injEq] at h1
    rw [← h1]
    unfold QN.flip
    dsimp only [outVal]
    have h1 := ha.2.2.2.2
    have h2 := hb.2.2.2.2
    rw [angularSpec_flip _ _ _ _ _ (by omega) (by omega)]
    ring
  rw [e, h2]
  rw [h1] at hp
  simp only [outVal] at hp ⊢
  by_cases hx : x = 0
  · rw [hx]; ring
  · have hp := hp hx
    rw [sgn_mul_sgnZ]
    have : sgnZ ((a.j + b.j) / 2 + ka + a.m) = reversalSign a * reversalSign b * sgnZ ((a.m - b.m) / 2) := by
      unfold reversalSign
      rw [← sgnZ_add, ← sgnZ_add]
      apply sgnZ_congr
      have h1 := ha.2.2.2.2
      have h2 := hb.2.2.2.2
      obtain ⟨u, hu⟩ : ∃ u, a.j = a.m + 2 * u := ⟨(a.j - a.m) / 2, by omega⟩
      obtain ⟨v, hv⟩ : ∃ v, b.j = b.m + 2 * v := ⟨(b.j - b.m) / 2, by omega⟩
      obtain ⟨w, hw⟩ : ∃ w, b.m = a.m + 2 * w := ⟨(b.m - a.m) / 2, by omega⟩
      rw [hu, hv, hw]
      have e1 : (a.m + 2 * u + (a.m + 2 * w + 2 * v)) / 2 = a.m + u + w + v := by omega
      have e2 : (a.m + 2 * u - a.m) / 2 = u := by omega
      have e3 : (a.m + 2 * w + 2 * v - (a.m + 2 * w)) / 2 = v := by omega
      have e4 : (a.m - (a.m + 2 * w)) / 2 = -w := by omega
      rw [e1, e2, e3, e4]
      omega
    rw [this]
    push_cast
    ring

theorem magnetic_flip (C : FieldConsts) (radial : RadKey → ℝ) (me : Method) (a b : QN) (ha : a.Physical) (hb : b.Physical)
    (hs : a.species = b.species) (hss : a.s = b.s) :
    magSpec C radial me a.flip b.flip = -(reversalSign a * reversalSign b * magSpec C radial me b a) := by
  unfold magSpec
  by_cases hl : a.l = b.l
  · rw [if_pos (show a.flip.l = b.flip.l from hl), if_pos hl.symm]
    obtain ⟨x, h1, h2⟩ := C63_magnetic_hermitian_partial C.elem radial me a b ha hb hs hss hl
    have e : valB C radial me a.flip b.flip = sgnZ ((a.j + b.j) / 2 + 1 + a.m) * x := by
      unfold valB
      rw [magneticDipole_eq C.elem radial me a.flip b.flip (flip_physical ha) (flip_physical hb) hs hss hl]
      rw [magneticDipole_eq C.elem radial me a b ha hb hs hss hl, Out.ok.injEq] at h1
      rw [← h1]
      unfold QN.flip
      dsimp only [outVal]
      have h1 := ha.2.2.2.2
      have h2 := hb.2.2.2.2
      rw [angularSpec_flip _ _ _ _ _ (by omega) (by omega)]
      ring
    rw [e]
    unfold valB
    rw [h2]
    simp only [outVal]
    rw [sgn_mul_sgnZ]
    have : sgnZ ((a.j + b.j) / 2 + 1 + a.m) = -(reversalSign a * reversalSign b * sgnZ ((a.m - b.m) / 2)) := by
      have m1 : ∀ x : ℤ, -x = sgnZ 1 * x := by intro x; simp [sgnZ]
      unfold reversalSign
      rw [m1, ← sgnZ_add, ← sgnZ_add, ← sgnZ_add]
      apply sgnZ_congr
      have h1 := ha.2.2.2.2
      have h2 := hb.2.2.2.2
      obtain ⟨u, hu⟩ : ∃ u, a.j = a.m + 2 * u := ⟨(a.j - a.m) / 2, by omega⟩
      obtain ⟨v, hv⟩ : ∃ v, b.j = b.m + 2 * v := ⟨(b.j - b.m) / 2, by omega⟩
      obtain ⟨w, hw⟩ : ∃ w, b.m = a.m + 2 * w := ⟨(b.m - a.m) / 2, by omega⟩
      rw [hu, hv, hw]
      have e1 : (a.m + 2 * u + (a.m + 2 * w + 2 * v)) / 2 = a.m + u + w + v := by omega
      have e2 : (a.m + 2 * u - a.m) / 2 = u := by omega
      have e3 : (a.m + 2 * w + 2 * v - (a.m + 2 * w)) / 2 = v := by omega
      have e4 : (a.m - (a.m + 2 * w)) / 2 = -w := by omega
      rw [e1, e2, e3, e4]
      omega
    rw [this]
    push_cast
    ring
  · rw [if_neg (show a.flip.l ≠ b.flip.l from hl), if_neg (fun h => hl h.symm)]; ring

theorem reversalMat_mul (st : Fin N → Option QN) (hf : FlipClosed st) (r : Fin N) (a : QN) (k : Fin N) (hr : st r = some a) (hk : st k = some a.flip)
    (x : Fin N → ℂ) : ∑ c, reversalMat st r c * x c = ((reversalSign a.flip : ℤ) : ℂ) * x k := by
  rw [Finset.sum_eq_single k]
  · unfold reversalMat
    rw [hr, hk]
    dsimp only
    rw [qn_flip_flip, if_pos rfl]
  · intro c _ hc
    obtain ⟨b, hb⟩ := hf.all c
    unfold reversalMat
    rw [hr, hb]
    dsimp only
    rw [if_neg, zero_mul]
    intro h
    apply hc
    apply hf.inj
    rw [hb, hk, h, qn_flip_flip]
  · intro h; exact absurd (Finset.mem_univ k) h

/-- Time reversal is orthogonal. -/
theorem reversalMat_unitary (st : Fin N → Option QN) (hf : FlipClosed st) : reversalMat st * (reversalMat st)ᵀ = 1 := by
  ext r c
  obtain ⟨a, ha⟩ := hf.all r
  obtain ⟨k, hk⟩ := hf.flip r a ha
  obtain ⟨b, hb⟩ := hf.all c
  rw [Matrix.mul_apply]
  simp only [Matrix.transpose_apply]
  rw [reversalMat_mul st hf r a k ha hk (fun x => reversalMat st c x)]
  unfold reversalMat
  rw [hb, hk]
  dsimp only
  rw [qn_flip_flip, Matrix.one_apply]
  by_cases h : r = c
  · subst h
    rw [ha, Option.some.injEq] at hb
    rw [if_pos hb.symm, if_pos rfl]
    exact_mod_cast sgnZ_sq _
  · rw [if_neg h, if_neg, mul_zero]
    intro h'
    exact h (hf.inj r c (by rw [ha, hb, h']))

theorem reversal_sandwich (st : Fin N → Option QN) (hf : FlipClosed st) (A : Matrix (Fin N) (Fin N) ℂ) (r c r' c' : Fin N) (a b : QN) (hr : st r = some a) (hc : st c = some b)
    (hr' : st r' = some a.flip) (hc' : st c' = some b.flip) :
    (reversalMat st * Aᵀ * (reversalMat st)ᵀ) r c = ((reversalSign a.flip : ℤ) : ℂ) * ((reversalSign b.flip : ℤ) : ℂ) * A c' r' := by
  rw [Matrix.mul_apply]
  have : ∀ x, (reversalMat st * Aᵀ) r x * (reversalMat st)ᵀ x c = reversalMat st c x * (((reversalSign a.flip : ℤ) : ℂ) * A x r') := by
    intro x
    rw [Matrix.mul_apply, reversalMat_mul st hf r a r' hr hr' (fun y => Aᵀ y x)]
    rw [Matrix.transpose_apply, Matrix.transpose_apply]
    ring
  rw [Finset.sum_congr rfl fun x _ => this x, reversalMat_mul st hf c b c' hc hc']
  ring

theorem tensor_reversal (st : Fin N → Option QN) (hf : FlipClosed st) (f : QN → QN → ℝ) (q : ℤ) (x : ℝ) (hx : x * x = 1)
    (h : ∀ i j a b, st i = some a → st j = some b → f a.flip b.flip = x * (reversalSign a * reversalSign b * f b a)) :
    reversalMat st * (tensorMat st f q)ᵀ * (reversalMat st)ᵀ = (x : ℂ) • tensorMat st f q := by
  ext r c
  obtain ⟨a, ha⟩ := hf.all r
  obtain ⟨b, hb⟩ := hf.all c
  obtain ⟨r', hr'⟩ := hf.flip r a ha
  obtain ⟨c', hc'⟩ := hf.flip c b hb
  rw [reversal_sandwich st hf _ r c r' c' a b ha hb hr' hc', Matrix.smul_apply]
  have key := h r' c' a.flip b.flip hr' hc'
  rw [qn_flip_flip, qn_flip_flip] at key
  unfold tensorMat
  rw [ha, hb, hr', hc']
  dsimp only
  have hm' : b.flip.m - a.flip.m = a.m - b.m := by show -b.m - -a.m = _; ring
  rw [hm']
  by_cases hm : a.m - b.m = 2 * q
  · rw [if_pos hm, if_pos hm, key, smul_eq_mul]
    push_cast
    have hx' : (x : ℂ) * x = 1 := by exact_mod_cast hx
    linear_combination (-(((reversalSign a.flip : ℤ) : ℂ) * ((reversalSign b.flip : ℤ) : ℂ) * (f b.flip a.flip : ℂ))) * hx'
  · rw [if_neg hm, if_neg hm]; simp

theorem reversal_energies (st : Fin N → Option QN) (hf : FlipClosed st) (e : Fin N → ℝ) (he : LevelEnergies st e) :
    reversalMat st * (Matrix.diagonal fun i => (e i : ℂ))ᵀ * (reversalMat st)ᵀ = Matrix.diagonal fun i => (e i : ℂ) := by
  have : reversalMat st * (Matrix.diagonal fun i => (e i : ℂ))ᵀ = (Matrix.diagonal fun i => (e i : ℂ)) * reversalMat st := by
    rw [Matrix.diagonal_transpose]
    ext r c
    rw [Matrix.mul_diagonal, Matrix.diagonal_mul]
    obtain ⟨a, ha⟩ := hf.all r
    obtain ⟨b, hb⟩ := hf.all c
    unfold reversalMat
    rw [ha, hb]
    dsimp only
    by_cases h : a = b.flip
    · rw [he r c a b ha hb (by rw [h]; rfl)]; ring
    · rw [if_neg h]; ring
  rw [this, Matrix.mul_assoc, reversalMat_unitary st hf, Matrix.mul_one]

/-- **C111 (time reversal).** If with each state the one of opposite m is in the basis, time reversal turns the Hamiltonian into the one with the opposite magnetic
field; the electric field and an ion stay. The complex conjugate of a Hermitian matrix is its transpose. -/
theorem C111_time_reversal (C : FieldConsts) (radial : RadKey → ℝ) (me : Method) (st : Fin N → Option QN) (hst : GoodStates st) (hf : FlipClosed st) (e : Fin N → ℝ)
    (he : LevelEnergies st e) (p : FieldParams) :
    reversalMat st * (oneOperator C radial me st e p).map (starRingEnd ℂ) * (reversalMat st)ᵀ = oneOperator C radial me st e p.oppB := by
  rw [herm_conj_transpose _ (oneOperator_herm C radial me st hst e p)]
  refine oneOperator_map C radial me st e p p.oppB (fun A => reversalMat st * Aᵀ * (reversalMat st)ᵀ) id ?_ ?_ ?_ (addKeys_oppB p) ?_ ?_
  · intro A B; rw [Matrix.transpose_add, Matrix.mul_add, Matrix.add_mul]
  · simp
  · intro c A; rw [Matrix.transpose_smul, Matrix.mul_smul, Matrix.smul_mul]; rfl
  · exact reversal_energies st hf e he
  · intro key hk
    dsimp only [id]
    rw [coef_oppB]
    have M : ∀ (kr ka : ℤ) (y : ℝ) (i j : Fin N) (a b : QN), st i = some a → st j = some b →
        y * outVal (electricMultipole C.elem radial me a.flip b.flip kr ka) =
          1 * (reversalSign a * reversalSign b * (y * outVal (electricMultipole C.elem radial me b a kr ka))) := by
      intro kr ka y i j a b ha hb
      rw [multipole_flip C.elem radial me a b kr ka (hst i a ha).1 (hst j b hb).1 ((hst i a ha).2 j b hb).1 ((hst i a ha).2 j b hb).2]
      ring
    cases key with
    | e q =>
      rw [(C37_operators C radial me st hst q).1, tensor_reversal st hf _ q 1 (by norm_num) (fun i j a b ha hb => by simpa using M 1 1 1 i j a b ha hb), smul_smul]
      congr 1
      simp
    | b q =>
      rw [(C37_operators C radial me st hst q).2.1, tensor_reversal st hf _ q (-1) (by norm_num) (fun i j a b ha hb => by
        rw [magnetic_flip C radial me a b (hst i a ha).1 (hst j b hb).1 ((hst i a ha).2 j b hb).1 ((hst i a ha).2 j b hb).2]; ring), smul_smul]
      congr 1
      simp
    | d k q =>
      have hk' := addKeys_d p k q hk
      rw [(C37_operators C radial me st hst q).2.2.1 k hk'.1, tensor_reversal st hf _ q 1 (by norm_num) (fun i j a b ha hb => by
        have := M 2 k (1 / (8 * C.mass) * (2 / 3 * C.elem.e)) i j a b ha hb
        linear_combination this), smul_smul]
      congr 1
      simp
    | ion o =>
      rw [(C37_operators C radial me st hst 0).2.2.2 o, tensor_reversal st hf _ 0 1 (by norm_num) (fun i j a b ha hb => M o o _ i j a b ha hb), smul_smul]
      congr 1
      simp

/-- **C111 (time reversal, energies).** The energies with their multiplicities do not change when the magnetic field is reversed. -/
theorem C111_time_reversal_spectrum (C : FieldConsts) (radial : RadKey → ℝ) (me : Method) (st : Fin N → Option QN) (hst : GoodStates st) (hf : FlipClosed st)
    (e : Fin N → ℝ) (he : LevelEnergies st e) (p : FieldParams) :
    (oneOperator C radial me st e p.oppB).charpoly = (oneOperator C radial me st e p).charpoly := by
  rw [← C111_time_reversal C radial me st hst hf e he p, charpoly_sandwich _ _ _ (mul_eq_one_comm.1 (reversalMat_unitary st hf)),
    herm_conj_transpose _ (oneOperator_herm C radial me st hst e p), Matrix.charpoly_transpose]

end PI
