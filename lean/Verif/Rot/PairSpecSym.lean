import Verif.Rot.Kramers
import Verif.Pair.SectorQuad

/-!
# C111: symmetries of the spectrum of two atoms
-/

namespace PI

open Matrix

variable {N : ℕ}

/-- The parity of a pair state: (−1)^(l₁ + l₂), 1 for artificial states. -/
def pairParitySign (st : Fin N → Option (QN × QN)) (i : Fin N) : ℤ := match st i with
  | some a => sgnZ (a.1.l + a.2.l)
  | none => 1

/-- The parity operator of pair states. -/
def pairParityMat (st : Fin N → Option (QN × QN)) : Matrix (Fin N) (Fin N) ℂ := Matrix.diagonal fun i => ((pairParitySign st i : ℤ) : ℂ)

theorem pairParitySign_sq (st : Fin N → Option (QN × QN)) (i : Fin N) : pairParitySign st i * pairParitySign st i = 1 := by
  unfold pairParitySign
  split
  · exact sgnZ_sq _
  · rfl

theorem pairParityMat_sq (st : Fin N → Option (QN × QN)) : pairParityMat st * pairParityMat st = 1 := by
  unfold pairParityMat
  rw [Matrix.diagonal_mul_diagonal, ← Matrix.diagonal_one]
  congr 1
  funext i
  exact_mod_cast pairParitySign_sq st i

theorem goodPairs_ok {st : Fin N → Option (QN × QN)} (hst : GoodPairs st) {i j : Fin N} {a b : QN × QN} (ha : st i = some a) (hb : st j = some b) : PairOK a b := by
  obtain ⟨h1, h2, h3⟩ := hst i a ha
  obtain ⟨h4, h5, -⟩ := hst j b hb
  obtain ⟨h6, h7, h8, h9⟩ := h3 j b hb
  exact ⟨h1, h2, h4, h5, h6, h7, h8, h9⟩

theorem fullPairs_parity (st : Fin N → Option (QN × QN)) (hst : GoodPairs st) (F F' : QN × QN → QN × QN → ℂ)
    (h : ∀ a b, PairOK a b → (sgnZ (a.1.l + a.2.l) : ℂ) * (sgnZ (b.1.l + b.2.l) : ℂ) * F a b = F' a b) :
    pairParityMat st * fullPairs st F * pairParityMat st = fullPairs st F' := by
  ext r c
  unfold pairParityMat
  rw [Matrix.mul_diagonal, Matrix.diagonal_mul]
  unfold fullPairs pairParitySign
  cases hr : st r with
  | none => simp
  | some a =>
    cases hc : st c with
    | none => simp
    | some b =>
      dsimp only
      rw [← h a b (goodPairs_ok hst hr hc)]
      ring

theorem thirdDeriv_opp (x y z : ℝ) (i j l : Fin 3) : thirdDeriv (-x) (-y) (-z) i j l = -thirdDeriv x y z i j l := by
  unfold thirdDeriv
  simp only [neg_sq]
  have : ∀ k : Fin 3, (![-x, -y, -z] : V3) k = -(![x, y, z] : V3) k := by
    intro k; fin_cases k <;> simp
  simp only [this]
  ring

theorem dipoleQuadrupole_opp (k x y z : ℝ) (D1 D2 : Fin 3 → ℂ) (Q1 Q2 : Fin 3 → Fin 3 → ℂ) :
    dipoleQuadrupole k (-x) (-y) (-z) D1 D2 Q1 Q2 = -dipoleQuadrupole k x y z D1 D2 Q1 Q2 := by
  unfold dipoleQuadrupole
  simp only [thirdDeriv_opp, Complex.ofReal_neg, neg_mul, Finset.sum_neg_distrib, mul_neg]

theorem dipoleDipole_opp (k x y z : ℝ) (D1 D2 : Fin 3 → ℂ) : dipoleDipole k (-x) (-y) (-z) D1 D2 = dipoleDipole k x y z D1 D2 := by
  unfold dipoleDipole
  simp only [neg_sq, neg_div]
  simp
  left
  ring

theorem vec_xyz {p' : PairParams} {v : Vec3} (h : p'.vec = v) : p'.x = v.x ∧ p'.y = v.y ∧ p'.z = v.z := by
  unfold PairParams.vec at h
  rw [← h]
  exact ⟨rfl, rfl, rfl⟩

theorem dd_opp (C : FieldConsts) (radial : RadKey → ℝ) (me : Method) (p p' : PairParams) (hv : p'.vec = p.vec.opp) (a b : QN × QN) :
    ddPairSpec C radial me p' a b = ddPairSpec C radial me p a b := by
  obtain ⟨h1, h2, h3⟩ := vec_xyz hv
  unfold ddPairSpec
  rw [h1, h2, h3]
  exact dipoleDipole_opp _ _ _ _ _ _

theorem dq_opp (C : FieldConsts) (radial : RadKey → ℝ) (me : Method) (p p' : PairParams) (hv : p'.vec = p.vec.opp) (a b : QN × QN) :
    dqPairSpec C radial me p' a b = -dqPairSpec C radial me p a b := by
  obtain ⟨h1, h2, h3⟩ := vec_xyz hv
  unfold dqPairSpec
  rw [h1, h2, h3]
  exact dipoleQuadrupole_opp _ _ _ _ _ _ _ _

theorem dd_parity (C : FieldConsts) (radial : RadKey → ℝ) (me : Method) (p : PairParams) (a b : QN × QN) (ok : PairOK a b) :
    (sgnZ (a.1.l + a.2.l) : ℂ) * (sgnZ (b.1.l + b.2.l) : ℂ) * ddPairSpec C radial me p a b = ddPairSpec C radial me p a b := by
  rw [← dd_inversion C radial me p a b ok, ddPairSpec_swap]

/-! ## Conjugation -/

theorem dipCoef_real (i : Fin 3) (q : ℤ) : (starRingEnd ℂ) (dipCoef i q) = mir i * dipCoef i q := by
  unfold dipCoef mir
  fin_cases i
  · simp only [Fin.zero_eta, ↓reduceIte]
    split_ifs <;> simp_all
  · simp only [Fin.mk_one, ↓reduceIte, one_ne_zero]
    split_ifs <;> simp [neg_div]
  · simp only [Fin.reduceFinMk, Fin.reduceEq, ↓reduceIte]
    split_ifs <;> simp

theorem quadCoef_real (j k : Fin 3) (q : ℤ) : (starRingEnd ℂ) (quadCoef j k q) = mir j * mir k * quadCoef j k q := by
  unfold quadCoef mir
  fin_cases j <;> fin_cases k <;> simp <;> split_ifs <;> simp [neg_div, Complex.conj_ofNat]

theorem cartDip_real (C : FieldConsts) (radial : RadKey → ℝ) (me : Method) (a b : QN) (i : Fin 3) :
    (starRingEnd ℂ) (cartDip C radial me a b i) = mir i * cartDip C radial me a b i := by
  unfold cartDip
  rw [map_mul, dipCoef_real, Complex.conj_ofReal]
  ring

theorem cartQuad_real (C : FieldConsts) (radial : RadKey → ℝ) (me : Method) (a b : QN) (j k : Fin 3) :
    (starRingEnd ℂ) (cartQuad C radial me a b j k) = mir j * mir k * cartQuad C radial me a b j k := by
  unfold cartQuad
  rw [map_mul, quadCoef_real, Complex.conj_ofReal]
  ring

theorem dd_conj (C : FieldConsts) (radial : RadKey → ℝ) (me : Method) (p p' : PairParams) (hv : p'.vec = p.vec.flipY) (a b : QN × QN) :
    (starRingEnd ℂ) (ddPairSpec C radial me p a b) = ddPairSpec C radial me p' a b := by
  obtain ⟨h1, h2, h3⟩ := vec_xyz hv
  unfold ddPairSpec
  rw [h1, h2, h3, ← dipoleDipole_conj]
  simp only [cartDip_real]
  have := dipoleDipole_mirror C.ke p.x p.y p.z (cartDip C radial me a.1 b.1) (cartDip C radial me a.2 b.2) 1 1
  simp only [one_mul] at this
  exact this

theorem dq_conj (C : FieldConsts) (radial : RadKey → ℝ) (me : Method) (p p' : PairParams) (hv : p'.vec = p.vec.flipY) (a b : QN × QN) :
    (starRingEnd ℂ) (dqPairSpec C radial me p a b) = dqPairSpec C radial me p' a b := by
  obtain ⟨h1, h2, h3⟩ := vec_xyz hv
  unfold dqPairSpec
  rw [h1, h2, h3, ← dipoleQuadrupole_conj]
  simp only [cartDip_real, cartQuad_real]
  have := dipoleQuadrupole_mirror C.ke p.x p.y p.z (cartDip C radial me a.1 b.1) (cartDip C radial me a.2 b.2) (cartQuad C radial me a.1 b.1) (cartQuad C radial me a.2 b.2)
    1 1 1 1 1 (Or.inr (by ring)) (Or.inr (by ring))
  simp only [one_mul] at this
  exact this

theorem QuadrupoleSettings.pairH {C : FieldConsts} {radial : RadKey → ℝ} {me : Method} {st : Fin N → Option (QN × QN)} {q : PairParams}
    (hq : QuadrupoleSettings C radial me st q) (hg0 : GoodPairs st) : pairH C radial me st q = fullPairs st (quadSpec C radial me q) := by
  ext r c
  exact (C71_green_order4 C radial me st hg0 q hq.green hq.order hq.ne hq.dd hq.dq hq.elems r c).trans (by
    unfold fullPairs; cases st r <;> cases st c <;> rfl)

/-- The operator with the interaction `F`. -/
noncomputable def pairSum (st : Fin N → Option (QN × QN)) (e : Fin N → ℝ) (F : QN × QN → QN × QN → ℂ) : Matrix (Fin N) (Fin N) ℂ :=
  Matrix.diagonal (fun i => (e i : ℂ)) + fullPairs st F

theorem pairSum_parity (st : Fin N → Option (QN × QN)) (hst : GoodPairs st) (e : Fin N → ℝ) (F F' : QN × QN → QN × QN → ℂ)
    (h : ∀ a b, PairOK a b → (sgnZ (a.1.l + a.2.l) : ℂ) * (sgnZ (b.1.l + b.2.l) : ℂ) * F a b = F' a b) :
    pairParityMat st * pairSum st e F * pairParityMat st = pairSum st e F' := by
  unfold pairSum
  rw [Matrix.mul_add, Matrix.add_mul, fullPairs_parity st hst F F' h]
  congr 1
  unfold pairParityMat
  rw [Matrix.diagonal_mul_diagonal, Matrix.diagonal_mul_diagonal]
  congr 1
  funext i
  have : ((pairParitySign st i : ℤ) : ℂ) * ((pairParitySign st i : ℤ) : ℂ) = 1 := by exact_mod_cast pairParitySign_sq st i
  linear_combination (e i : ℂ) * this

theorem pairSum_conj (st : Fin N → Option (QN × QN)) (e : Fin N → ℝ) (F F' : QN × QN → QN × QN → ℂ) (h : ∀ a b, (starRingEnd ℂ) (F a b) = F' a b) :
    (pairSum st e F).map (starRingEnd ℂ) = pairSum st e F' := by
  unfold pairSum
  ext r c
  rw [Matrix.map_apply, Matrix.add_apply, Matrix.add_apply, map_add]
  congr 1
  · rw [Matrix.diagonal_apply]
    split_ifs <;> simp
  · unfold fullPairs
    cases st r with
    | none => simp
    | some a =>
      cases st c with
      | none => simp
      | some b => exact h a b

/-- **C111 (pairs, opposite axis).** For every set of pair states: the parity (−1)^(l₁+l₂) turns the Hamiltonian of a pair at the distance vector R into the one at −R; the
dipole-dipole interaction alone is the same at both. -/
theorem C111_pair_opposite (C : FieldConsts) (radial : RadKey → ℝ) (me : Method) (st : Fin N → Option (QN × QN)) (hst : GoodPairs st) (e : Fin N → ℝ) (p p' : OKPair)
    (h : (DipoleSettings p.1 ∧ DipoleSettings p'.1) ∨ (QuadrupoleSettings C radial me st p.1 ∧ QuadrupoleSettings C radial me st p'.1))
    (hv : p'.1.vec = p.1.vec.opp) :
    pairParityMat st * twoOperator C radial me st e p * pairParityMat st = twoOperator C radial me st e p' ∧
      (DipoleSettings p.1 → DipoleSettings p'.1 → twoOperator C radial me st e p' = twoOperator C radial me st e p) := by
  constructor
  · rw [twoOperator_eq, twoOperator_eq]
    rcases h with ⟨h, h'⟩ | ⟨h, h'⟩
    · rw [h.pairH C radial me st hst, h'.pairH C radial me st hst]
      exact pairSum_parity st hst e _ _ fun a b ok => by rw [dd_parity C radial me p.1 a b ok, dd_opp C radial me p.1 p'.1 hv]
    · rw [h.pairH hst, h'.pairH hst]
      refine pairSum_parity st hst e _ _ fun a b ok => ?_
      unfold quadSpec
      rw [mul_add, dd_parity C radial me p.1 a b ok, dq_parity C radial me p.1 a b ok, dd_opp C radial me p.1 p'.1 hv, dq_opp C radial me p.1 p'.1 hv]
  · intro h h'
    rw [twoOperator_eq, twoOperator_eq, h.pairH C radial me st hst, h'.pairH C radial me st hst]
    congr 2
    funext a b
    exact dd_opp C radial me p.1 p'.1 hv a b

/-- **C111 (pairs, conjugation).** The complex conjugate of the Hamiltonian is the one with the y component of the distance vector reversed. -/
theorem C111_pair_conjugation (C : FieldConsts) (radial : RadKey → ℝ) (me : Method) (st : Fin N → Option (QN × QN)) (hst : GoodPairs st) (e : Fin N → ℝ) (p p' : OKPair)
    (h : (DipoleSettings p.1 ∧ DipoleSettings p'.1) ∨ (QuadrupoleSettings C radial me st p.1 ∧ QuadrupoleSettings C radial me st p'.1))
    (hv : p'.1.vec = p.1.vec.flipY) :
    (twoOperator C radial me st e p).map (starRingEnd ℂ) = twoOperator C radial me st e p' := by
  rw [twoOperator_eq, twoOperator_eq]
  rcases h with ⟨h, h'⟩ | ⟨h, h'⟩
  · rw [h.pairH C radial me st hst, h'.pairH C radial me st hst]
    exact pairSum_conj st e _ _ fun a b => dd_conj C radial me p.1 p'.1 hv a b
  · rw [h.pairH hst, h'.pairH hst]
    refine pairSum_conj st e _ _ fun a b => ?_
    unfold quadSpec
    rw [map_add, dd_conj C radial me p.1 p'.1 hv a b, dq_conj C radial me p.1 p'.1 hv a b]

/-- **C111 (pairs, energies).** For every set of pair states: the energies, with their multiplicities, at the distance vectors (x, y, z), (−x, −y, −z), (x, −y, z) and (−x, y, −z) are
the same, with the dipole-dipole interaction and with the dipole-quadrupole one. -/
theorem C111_pair_spectrum (C : FieldConsts) (radial : RadKey → ℝ) (me : Method) (st : Fin N → Option (QN × QN)) (hst : GoodPairs st) (e : Fin N → ℝ) (p p' : OKPair)
    (h : (DipoleSettings p.1 ∧ DipoleSettings p'.1) ∨ (QuadrupoleSettings C radial me st p.1 ∧ QuadrupoleSettings C radial me st p'.1))
    (hv : p'.1.vec = p.1.vec.opp ∨ p'.1.vec = p.1.vec.flipY ∨ p'.1.vec = p.1.vec.opp.flipY) :
    (twoOperator C radial me st e p').charpoly = (twoOperator C radial me st e p).charpoly := by
  have herm : (twoOperator C radial me st e p).IsHermitian := by
    rw [twoOperator_eq]
    refine Matrix.IsHermitian.add ?_ (C44_hermitian C radial me st p.1)
    unfold Matrix.IsHermitian
    rw [Matrix.diagonal_conjTranspose]
    congr 1
    funext i
    simp
  rcases hv with hv | hv | hv
  · rw [← (C111_pair_opposite C radial me st hst e p p' h hv).1, charpoly_sandwich _ _ _ (pairParityMat_sq st)]
  · rw [← C111_pair_conjugation C radial me st hst e p p' h hv, herm_conj_transpose _ herm, Matrix.charpoly_transpose]
  · have key : (pairParityMat st * twoOperator C radial me st e p * pairParityMat st).map (starRingEnd ℂ) = twoOperator C radial me st e p' := by
      let v : PairParams := { p.1 with x := -p.1.x, y := -p.1.y, z := -p.1.z }
      have hv1 : v.vec = p.1.vec.opp := rfl
      have hv2 : p'.1.vec = v.vec.flipY := hv
      rw [twoOperator_eq, twoOperator_eq]
      rcases h with ⟨h, h'⟩ | ⟨h, h'⟩
      · rw [h.pairH C radial me st hst, h'.pairH C radial me st hst]
        have := pairSum_parity st hst e (ddPairSpec C radial me p.1) (ddPairSpec C radial me v)
          fun a b ok => by rw [dd_parity C radial me p.1 a b ok, dd_opp C radial me p.1 v hv1]
        unfold pairSum at this
        rw [this]
        exact pairSum_conj st e _ _ fun a b => dd_conj C radial me v p'.1 hv2 a b
      · rw [h.pairH hst, h'.pairH hst]
        have := pairSum_parity st hst e (quadSpec C radial me p.1) (quadSpec C radial me v) fun a b ok => by
          unfold quadSpec
          rw [mul_add, dd_parity C radial me p.1 a b ok, dq_parity C radial me p.1 a b ok, dd_opp C radial me p.1 v hv1, dq_opp C radial me p.1 v hv1]
        unfold pairSum at this
        rw [this]
        refine pairSum_conj st e _ _ fun a b => ?_
        unfold quadSpec
        rw [map_add, dd_conj C radial me v p'.1 hv2 a b, dq_conj C radial me v p'.1 hv2 a b]
    have herm2 : (pairParityMat st * twoOperator C radial me st e p * pairParityMat st).IsHermitian := by
      have hp : (pairParityMat st)ᴴ = pairParityMat st := by
        unfold pairParityMat
        rw [Matrix.diagonal_conjTranspose]
        congr 1
        funext i
        simp
      unfold Matrix.IsHermitian
      rw [Matrix.conjTranspose_mul, Matrix.conjTranspose_mul, hp, herm, Matrix.mul_assoc]
    rw [← key, herm_conj_transpose _ herm2, Matrix.charpoly_transpose, charpoly_sandwich _ _ _ (pairParityMat_sq st)]

/-! ## Examples -/

theorem norm_0yz (y z : ℝ) (hy : y ^ 2 = 9) (hz : z ^ 2 = 16) : Real.sqrt (0 ^ 2 + y ^ 2 + z ^ 2) = 5 := by
  rw [hy, hz, show (0 ^ 2 + 9 + 16 : ℝ) = 25 by norm_num, sqrt25]

theorem noTiny_0yz (s t : ℝ) (hs : s = 1 ∨ s = -1) (ht : t = 1 ∨ t = -1) (i j : Fin 3) : NoTinyTerm (ddVacuum 0 (3 * s) (4 * t) i j) := by
  unfold NoTinyTerm overTol
  rw [decide_eq_true_eq, gt_iff_lt, lt_abs]
  unfold ddVacuum
  dsimp only
  rw [norm3_eq, norm_0yz _ _ (by rcases hs with rfl | rfl <;> norm_num) (by rcases ht with rfl | rfl <;> norm_num)]
  rcases hs with rfl | rfl <;> rcases ht with rfl | rfl <;> fin_cases i <;> fin_cases j <;> norm_num [eye]

theorem noTiny3_0yz (s t : ℝ) (hs : s = 1 ∨ s = -1) (ht : t = 1 ∨ t = -1) (i j k : Fin 3) : NoTinyTerm (thirdDeriv 0 (3 * s) (4 * t) i j k) := by
  unfold NoTinyTerm overTol
  rw [decide_eq_true_eq, gt_iff_lt, lt_abs]
  unfold thirdDeriv
  dsimp only
  rw [norm_0yz _ _ (by rcases hs with rfl | rfl <;> norm_num) (by rcases ht with rfl | rfl <;> norm_num)]
  rcases hs with rfl | rfl <;> rcases ht with rfl | rfl <;> fin_cases i <;> fin_cases j <;> fin_cases k <;> norm_num [eye]

theorem ex034 (C : FieldConsts) (radial : RadKey → ℝ) (me : Method) (s t : ℝ) (hs : s = 1 ∨ s = -1) (ht : t = 1 ∨ t = -1) :
    QuadrupoleSettings C radial me exSP ⟨0, 3 * s, 4 * t, 5, true, dblMax, 4⟩ :=
  ⟨⟨by have := dblMax_big; intro h; dsimp only at h; linarith, rfl, rfl, by norm_num⟩, rfl, by
    refine Or.inr (Or.inl ?_)
    rcases hs with rfl | rfl <;> norm_num, noTiny_0yz s t hs ht, noTiny3_0yz s t hs ht, exSP_noTinyDQ C radial me⟩

theorem ex034_ok (s t : ℝ) (_ : s = 1 ∨ s = -1) (_ : t = 1 ∨ t = -1) :
    (initPair ⟨0, 3 * s, 4 * t, 5, true, dblMax, 4⟩ ⟨[], [], [], [], fun _ => false⟩).1 = .ok () := by
  have hd : (5 : ℝ) ≠ dblMax := by have := dblMax_big; intro h; linarith
  unfold initPair
  dsimp only
  rw [if_neg hd, if_pos (by unfold PairParams.greenBranch; simp), if_neg (by simp), if_neg (by simp)]
  unfold PairParams.green
  rw [if_neg (by simp)]
  dsimp only
  rw [if_neg (by norm_num)]

/-- S and P states of two atoms at (0, 3, 4) and (0, −3, 4), (0, −3, −4), (0, 3, −4), with the dipole-quadrupole interaction. -/
example (C : FieldConsts) (radial : RadKey → ℝ) (me : Method) (s t : ℝ) (hs : s = 1 ∨ s = -1) (ht : t = 1 ∨ t = -1) (hst : s = -1 ∨ t = -1) :
    (twoOperator C radial me exSP (fun i => if i.val < 4 then 7 else 8) ⟨⟨0, 3 * s, 4 * t, 5, true, dblMax, 4⟩, ex034_ok s t hs ht⟩).charpoly =
      (twoOperator C radial me exSP (fun i => if i.val < 4 then 7 else 8) ⟨⟨0, 3 * 1, 4 * 1, 5, true, dblMax, 4⟩, ex034_ok 1 1 (Or.inl rfl) (Or.inl rfl)⟩).charpoly := by
  refine C111_pair_spectrum C radial me exSP exSP_good _ ⟨⟨0, 3 * 1, 4 * 1, 5, true, dblMax, 4⟩, _⟩ ⟨⟨0, 3 * s, 4 * t, 5, true, dblMax, 4⟩, _⟩
    (Or.inr ⟨ex034 C radial me 1 1 (Or.inl rfl) (Or.inl rfl), ex034 C radial me s t hs ht⟩) ?_
  unfold PairParams.vec Vec3.opp Vec3.flipY
  simp only [Vec3.mk.injEq]
  rcases hs with rfl | rfl <;> rcases ht with rfl | rfl <;> first | (norm_num at hst; done) | norm_num

end PI
