import Verif.Rot.VanDerWaalsMatrix

/-!
# The C6 coefficients for a distance vector that is tilted against the quantization axis
-/

namespace PI
open Matrix

variable {N : ℕ}

/-! ## The operator at an angle -/

/-- Settings of a unit distance at the angle θ to the quantization axis. -/
noncomputable def unitTilt (θ : ℝ) : PairParams := ⟨Real.sin θ, 0, Real.cos θ, 1, false, dblMax, 3⟩

/-- The interaction that SystemTwo adds at unit distance at the angle θ to the quantization axis. -/
noncomputable def tiltOper (C : FieldConsts) (radial : RadKey → ℝ) (me : Method) (st : Fin N → Option (QN × QN)) (θ : ℝ) : Matrix (Fin N) (Fin N) ℂ :=
  pairH C radial me st (unitTilt θ)

/-- The angle is in general position: not along the quantization axis, and none of the angle factors lies below the tolerance 1e-16 without being zero. -/
structure OKAngle (θ : ℝ) : Prop where
  sin : Real.sin θ ≠ 0
  tol : ∀ t ∈ angleTerms θ, NoTinyTerm t.2

/-- The distance vector of the settings has the angle θ, and its length is positive. -/
structure AtAngle (θ : ℝ) (p : PairParams) : Prop where
  pos : 0 < p.dist
  x : p.x = p.dist * Real.sin θ
  z : p.z = p.dist * Real.cos θ

theorem OKAngle.ne {θ : ℝ} (h : OKAngle θ) : θ ≠ 0 := by
  rintro rfl
  exact h.sin Real.sin_zero

theorem atAngle_trig {θ : ℝ} {p : PairParams} (h : AtAngle θ p) : Real.cos (atan2 p.x p.z) = Real.cos θ ∧ Real.sin (atan2 p.x p.z) = Real.sin θ := by
  have e : (⟨p.z, p.x⟩ : ℂ) = (p.dist : ℂ) * (Complex.cos θ + Complex.sin θ * Complex.I) := by
    rw [h.x, h.z, ← Complex.ofReal_cos, ← Complex.ofReal_sin]
    apply Complex.ext <;> simp [-Complex.ofReal_cos, -Complex.ofReal_sin]
  unfold atan2
  rw [e]
  have a := Complex.arg_mul_cos_add_sin_mul_I_coe_angle h.pos (θ : Real.Angle)
  rw [Real.Angle.cos_coe, Real.Angle.sin_coe, Complex.ofReal_cos, Complex.ofReal_sin] at a
  have c := congrArg Real.Angle.cos a
  have s := congrArg Real.Angle.sin a
  rw [Real.Angle.cos_coe, Real.Angle.cos_coe] at c
  rw [Real.Angle.sin_coe, Real.Angle.sin_coe] at s
  exact ⟨c, s⟩

theorem atAngle_terms {θ : ℝ} {p : PairParams} (h : AtAngle θ p) : angleTerms (atan2 p.x p.z) = angleTerms θ := by
  obtain ⟨c, s⟩ := atAngle_trig h
  unfold angleTerms
  rw [c, s]

theorem unitTilt_at (θ : ℝ) : AtAngle θ (unitTilt θ) := ⟨one_pos, by simp [unitTilt], by simp [unitTilt]⟩

theorem unitTilt_tilted {θ : ℝ} (h : OKAngle θ) : Tilted (unitTilt θ) := by
  have hd : (1 : ℝ) ≠ dblMax := by have := dblMax_big; intro h; linarith
  exact ⟨hd, rfl, rfl, rfl, h.sin, le_refl _⟩

/-- At the angle θ the interaction is that at unit distance divided by the third power of the distance. -/
theorem tilt_scale (C : FieldConsts) (radial : RadKey → ℝ) (me : Method) (st : Fin N → Option (QN × QN)) {θ : ℝ} (hθ : OKAngle θ) (p : PairParams) (ht : Tilted p) (ha : AtAngle θ p) :
    pairH C radial me st p = ((1 / p.dist ^ 3 : ℝ) : ℂ) • tiltOper C radial me st θ := by
  unfold tiltOper pairH
  rw [pairTerms_tilted p ht, pairTerms_tilted _ (unitTilt_tilted hθ), atAngle_terms ha, atAngle_terms (unitTilt_at θ)]
  generalize (angleTerms θ).filter (fun t => overTol t.2) = L
  induction L with
  | nil => simp
  | cons t L ih =>
    simp only [List.map_cons, List.sum_cons] at ih ⊢
    rw [ih, smul_add, smul_smul]
    congr 2
    simp only [unitTilt]
    push_cast
    ring

/-- The entry of the operator is the product that getC6 squares. -/
theorem tilt_entry (C : FieldConsts) (radial : RadKey → ℝ) (me : Method) (st : Fin N → Option (QN × QN)) (hst : GoodPairs st) {θ : ℝ} (hθ : OKAngle θ) (r c : Fin N) :
    tiltOper C radial me st θ r c = match st r, st c with
      | some a, some b => ((C.ke * angleVal θ (mDiff a.1 b.1, mDiff a.2 b.2) * elem C radial me 1 a.1 b.1 * elem C radial me 1 a.2 b.2 : ℝ) : ℂ)
      | _, _ => 0 := by
  have u : Real.sqrt ((unitTilt θ).x ^ 2 + (unitTilt θ).y ^ 2 + (unitTilt θ).z ^ 2) = 1 := by
    show Real.sqrt (Real.sin θ ^ 2 + 0 ^ 2 + Real.cos θ ^ 2) = 1
    rw [zero_pow two_ne_zero, add_zero, Real.sin_sq_add_cos_sq, Real.sqrt_one]
  have hne := hθ.ne
  have e := pairH_eq C radial me st hst (unitTilt θ) (ddPairSpec C radial me (unitTilt θ))
    (ang_total C radial me _ (unitTilt_tilted hθ) u.symm (by rw [atAngle_terms (unitTilt_at θ)]; exact hθ.tol)) (ddPairSpec_herm C radial me _) r c
  unfold tiltOper
  rw [e]
  cases hr : st r with
  | none => rfl
  | some a =>
    cases hc : st c with
    | none => rfl
    | some b =>
      have ok : PairOK a b := hst.ok hr hc
      dsimp only
      by_cases s1 : selMultipole a.1 b.1 1 = true
      · by_cases s2 : selMultipole a.2 b.2 1 = true
        · have m1 := selMultipole_m a.1 b.1 ok.a1 ok.b1 ok.s1 1 s1
          have m2 := selMultipole_m a.2 b.2 ok.a2 ok.b2 ok.s2 1 s2
          unfold ddPairSpec dipoleDipole cartDip
          rw [mDiff_div a.1 b.1 ok.a1 ok.b1 ok.s1, mDiff_div a.2 b.2 ok.a2 ok.b2 ok.s2, u]
          generalize mDiff a.1 b.1 = q1 at *
          generalize mDiff a.2 b.2 = q2 at *
          have h0 := csqrt2_ne
          have hs := csqrt2_sq
          have hI := Complex.I_sq
          have sc : ((Real.sin θ : ℝ) : ℂ) ^ 2 + ((Real.cos θ : ℝ) : ℂ) ^ 2 = 1 := by rw [← Complex.ofReal_pow, ← Complex.ofReal_pow, ← Complex.ofReal_add, Real.sin_sq_add_cos_sq, Complex.ofReal_one]
          have := angleSum θ C.ke (elem C radial me 1 a.1 b.1) (elem C radial me 1 a.2 b.2) q1 q2 m1 m2
          have e2 : (C.ke : ℂ) / ((1 : ℝ) : ℂ) ^ 3 * (dipCoef 0 q1 * (elem C radial me 1 a.1 b.1 : ℂ) * (dipCoef 0 q2 * (elem C radial me 1 a.2 b.2 : ℂ)) + dipCoef 1 q1 * (elem C radial me 1 a.1 b.1 : ℂ) * (dipCoef 1 q2 * (elem C radial me 1 a.2 b.2 : ℂ)) + dipCoef 2 q1 * (elem C radial me 1 a.1 b.1 : ℂ) * (dipCoef 2 q2 * (elem C radial me 1 a.2 b.2 : ℂ))
              - 3 * (dipCoef 0 q1 * (elem C radial me 1 a.1 b.1 : ℂ) * ((![(unitTilt θ).x / 1, (unitTilt θ).y / 1, (unitTilt θ).z / 1] 0 : ℝ) : ℂ) + dipCoef 1 q1 * (elem C radial me 1 a.1 b.1 : ℂ) * ((![(unitTilt θ).x / 1, (unitTilt θ).y / 1, (unitTilt θ).z / 1] 1 : ℝ) : ℂ) + dipCoef 2 q1 * (elem C radial me 1 a.1 b.1 : ℂ) * ((![(unitTilt θ).x / 1, (unitTilt θ).y / 1, (unitTilt θ).z / 1] 2 : ℝ) : ℂ)) * (dipCoef 0 q2 * (elem C radial me 1 a.2 b.2 : ℂ) * ((![(unitTilt θ).x / 1, (unitTilt θ).y / 1, (unitTilt θ).z / 1] 0 : ℝ) : ℂ) + dipCoef 1 q2 * (elem C radial me 1 a.2 b.2 : ℂ) * ((![(unitTilt θ).x / 1, (unitTilt θ).y / 1, (unitTilt θ).z / 1] 1 : ℝ) : ℂ) + dipCoef 2 q2 * (elem C radial me 1 a.2 b.2 : ℂ) * ((![(unitTilt θ).x / 1, (unitTilt θ).y / 1, (unitTilt θ).z / 1] 2 : ℝ) : ℂ)))
            = ((angleTerms θ).map fun t => (t.2 : ℂ) * (if angKey q1 q2 = t.1 then ((C.ke * elem C radial me 1 a.1 b.1 * elem C radial me 1 a.2 b.2 : ℝ) : ℂ) else 0)).sum := by
            rw [this]
            simp only [unitTilt, Matrix.cons_val_zero, Matrix.cons_val_one, Matrix.cons_val, div_one]
            push_cast
            ring
          refine e2.trans ?_
          rcases q_cases q1 m1 with rfl | rfl | rfl <;> rcases q_cases q2 m2 with rfl | rfl | rfl <;>
            simp [angleTerms, angKey, angleVal, angleTerm, hne] <;> ring
        · have z := elem_zero C radial me a.2 b.2 ok.a2 ok.b2 ok.sp2 ok.s2 1 (by norm_num) (by simpa using s2)
          unfold ddPairSpec
          rw [dip_zero z, dipoleDipole_zero2, z]
          simp
      · have z := elem_zero C radial me a.1 b.1 ok.a1 ok.b1 ok.sp1 ok.s1 1 (by norm_num) (by simpa using s1)
        unfold ddPairSpec
        rw [dip_zero z, dipoleDipole_zero1, z]
        simp

theorem tiltOper_herm (C : FieldConsts) (radial : RadKey → ℝ) (me : Method) (st : Fin N → Option (QN × QN)) (θ : ℝ) : (tiltOper C radial me st θ).IsHermitian := by
  unfold tiltOper pairH
  generalize pairTerms (unitTilt θ) = L
  induction L with
  | nil => exact Matrix.isHermitian_zero
  | cons t L ih =>
    rw [List.map_cons, List.sum_cons]
    refine Matrix.IsHermitian.add ?_ ih
    rw [Matrix.IsHermitian, Matrix.conjTranspose_smul, Complex.star_def, Complex.conj_ofReal]
    congr 1
    cases t.1 <;> exact lowerView_herm _

/-- At the angle θ the energies are those of the unperturbed Hamiltonian plus the operator at unit distance divided by the third power of the distance. -/
theorem tilt_diagonalizes (C : FieldConsts) (radial : RadKey → ℝ) (me : Method) (st : Fin N → Option (QN × QN)) (en : Fin N → ℝ) {θ : ℝ} (hθ : OKAngle θ)
    (s0 s s' : CSys OKPair PKey (Fin N) (Fin N)) (h0 : s0.Fresh (pairInter C radial me st)) (hV : s0.V = 1) (hH : s0.H = (Matrix.diagonal fun c => (en c : ℂ)))
    (hs : Hist (pairInter C radial me st) s0 s) (hb : s.build (pairInter C radial me st) = .ok s') (ht : Tilted s.p.1) (ha : AtAngle θ s.p.1)
    (X : Matrix (Fin N) (Fin N) ℂ) (e : Fin N → ℝ) (hX : Diagonalizes s'.H X e) :
    ∃ Y, Diagonalizes ((Matrix.diagonal fun c => (en c : ℂ)) + ((1 / s.p.1.dist ^ 3 : ℝ) : ℂ) • tiltOper C radial me st θ) Y e := by
  have hD : s0.H = s0.Vᴴ * s0.H * s0.V := by rw [hV, Matrix.conjTranspose_one, Matrix.one_mul, Matrix.mul_one]
  obtain ⟨Y, hY⟩ := diagonalizes_start _ s0.H s0 s s' h0 hD hs hb X e hX
  refine ⟨Y, ?_⟩
  rw [start_oper _ s0.H s0 hD, hV] at hY
  have o := pairInter_oper C radial me st (0 : Matrix (Fin N) (Fin N) ℂ) 1 s.p
  unfold freshOper at o
  rw [zero_add, zero_add, Matrix.one_mul, Matrix.mul_one, tilt_scale C radial me st hθ _ ht ha] at o
  rw [Matrix.conjTranspose_one, o, hH] at hY
  exact hY

/-! ## The number that getC6 returns for an angle -/

/-- The basis of the pair system has what the sum of getC6 for (a, b) needs: every possible pair state within D of the principal quantum numbers to which both atoms have nonzero dipole elements is in it
(with any total momentum along z), no state twice, and no state outside of the range D of the principal quantum numbers. -/
structure C6BasisTilt (C : FieldConsts) (radial : RadKey → ℝ) (me : Method) (st : Fin N → Option (QN × QN)) (D : ℕ) (a b : QN) : Prop where
  once : ∀ i j v, st i = some v → st j = some v → i = j
  bound : ∀ i v, st i = some v → v.1.l < v.1.n ∧ v.2.l < v.2.n
  range : ∀ i v, st i = some v → |v.1.n - a.n| ≤ (D : ℤ) ∧ |v.2.n - b.n| ≤ (D : ℤ)
  complete : ∀ v w : QN, ValidQ v.qa → ValidQ w.qa → DipoleStep a.qa v.qa → DipoleStep b.qa w.qa → |v.n - a.n| ≤ (D : ℤ) → |w.n - b.n| ≤ (D : ℤ) →
    elem C radial me 1 v a ≠ 0 → elem C radial me 1 w b ≠ 0 → ∃ i, st i = some (v, w)

/-- What the loops of getC6 add for a virtual pair state. -/
noncomputable def c6TermAt (V : PertEnv) (θ : ℝ) (a b : QA) (z : QA × QA) : ℝ :=
  (V.k * angleVal θ ((z.1.m - a.m) / 2, (z.2.m - b.m) / 2) * V.d z.1 a * V.d z.2 b) ^ 2 / ((V.E a + V.E b) - (V.E z.1 + V.E z.2))

theorem getC6_terms_at (V : PertEnv) {θ : ℝ} (hθ : θ ≠ 0) (D : ℕ) (a b : QA) (ha : ValidQ a) (hb : ValidQ b) (sa : a.s = 0 ∨ a.s = 1) (sb : b.s = 0 ∨ b.s = 1) (hDa : (D : ℤ) ≤ a.n - a.l) (hDb : (D : ℤ) ≤ b.n - b.l) :
    getC6 V θ (D : ℚ) a b = ∑ z ∈ ((virtuals true (D : ℚ) a b).map (·.1)).toFinset, c6TermAt V θ a b z := by
  obtain ⟨hnd, -⟩ := C48_virtual_states_partial true D a b ha hb sa sb hDa hDb
  rw [List.sum_toFinset _ hnd, List.map_map]
  unfold getC6
  rw [show decide (θ ≠ 0) = true from decide_eq_true hθ]
  refine congrArg List.sum (List.map_congr_left fun v hv => ?_)
  rw [mem_virtuals] at hv
  obtain ⟨-, -, -, m1, m2, -⟩ := hv
  have e1 : (v.1.1.m - a.m) / 2 = v.2.1 := by omega
  have e2 : (v.1.2.m - b.m) / 2 = v.2.2 := by omega
  simp only [Function.comp, c6TermAt, e1, e2]

/-- **C124 (the sums agree).** For a basis that has what the sum needs, the second-order sum with the operator that SystemTwo adds at the angle θ is the number that `getC6` returns for θ. -/
theorem C124_sum (C : FieldConsts) (radial : RadKey → ℝ) (me : Method) (st : Fin N → Option (QN × QN)) (hst : GoodPairs st) {θ : ℝ} (hθ : OKAngle θ) (E : QN → ℝ) (en : Fin N → ℝ)
    (hE : ∀ i v, st i = some v → en i = E v.1 + E v.2) (i0 : Fin N) (a b : QN) (hi : st i0 = some (a, b)) (sa : a.s = 0 ∨ a.s = 1) (sb : b.s = 0 ∨ b.s = 1)
    (D : ℕ) (hDa : (D : ℤ) ≤ a.n - a.l) (hDb : (D : ℤ) ≤ b.n - b.l) (hB : C6BasisTilt C radial me st D a b) :
    secondOrder en (en i0) (tiltOper C radial me st θ) i0 i0 = (getC6 (cachePert C radial me E) θ (D : ℚ) a.qa b.qa : ℝ) := by
  obtain ⟨pa, pb, -⟩ := hst i0 _ hi
  obtain ⟨na, nb⟩ := hB.bound i0 _ hi
  have va := valid_qa pa na
  have vb := valid_qa pb nb
  obtain ⟨-, hmem⟩ := C48_virtual_states_partial true D a.qa b.qa va vb sa sb hDa hDb
  rw [getC6_terms_at _ hθ.ne D a.qa b.qa va vb sa sb hDa hDb]
  set T := ((virtuals true (D : ℚ) a.qa b.qa).map (·.1)).toFinset with hT
  have memT : ∀ z : QA × QA, z ∈ T ↔ _ := fun z => (List.mem_toFinset).trans (hmem z.1 z.2)
  have hW := tiltOper_herm C radial me st θ
  -- one term of the sum over the basis
  have term : ∀ i v, st i = some v → (if en i = en i0 then (0 : ℂ) else
      tiltOper C radial me st θ i0 i * tiltOper C radial me st θ i i0 / ((en i0 - en i : ℝ) : ℂ)) = (c6TermAt (cachePert C radial me E) θ a.qa b.qa (v.1.qa, v.2.qa) : ℂ) := by
    intro i v hv
    have ok : PairOK v (a, b) := hst.ok hv hi
    have w1 : tiltOper C radial me st θ i i0 = ((C.ke * angleVal θ (mDiff v.1 a, mDiff v.2 b) * elem C radial me 1 v.1 a * elem C radial me 1 v.2 b : ℝ) : ℂ) := by
      rw [tilt_entry C radial me st hst hθ, hv, hi]
    have w2 : tiltOper C radial me st θ i0 i = (starRingEnd ℂ) (tiltOper C radial me st θ i i0) := (hW.apply i0 i).symm
    have d1 : (v.1.m - a.m) / 2 = mDiff v.1 a := mDiff_div v.1 a ok.a1 ok.b1 ok.s1
    have d2 : (v.2.m - b.m) / 2 = mDiff v.2 b := mDiff_div v.2 b ok.a2 ok.b2 ok.s2
    have ct : c6TermAt (cachePert C radial me E) θ a.qa b.qa (v.1.qa, v.2.qa) =
        (C.ke * angleVal θ (mDiff v.1 a, mDiff v.2 b) * elem C radial me 1 v.1 a * elem C radial me 1 v.2 b) ^ 2 / ((E a + E b) - (E v.1 + E v.2)) := by
      unfold c6TermAt
      show (C.ke * angleVal θ ((v.1.m - a.m) / 2, (v.2.m - b.m) / 2) * elem C radial me 1 v.1 a * elem C radial me 1 v.2 b) ^ 2 / ((E a + E b) - (E v.1 + E v.2)) = _
      rw [d1, d2]
    rw [w2, w1, ct, Complex.conj_ofReal, hE i v hv, hE i0 _ hi]
    by_cases he : E v.1 + E v.2 = E a + E b
    · rw [if_pos he, he, sub_self, div_zero, Complex.ofReal_zero]
    · rw [if_neg he]
      push_cast
      ring
  -- the sum over the basis and the sum over the virtual states
  unfold secondOrder
  rw [Complex.ofReal_sum]
  have nz : ∀ i, (if en i = en i0 then (0 : ℂ) else tiltOper C radial me st θ i0 i * tiltOper C radial me st θ i i0 / ((en i0 - en i : ℝ) : ℂ)) ≠ 0 →
      ∃ v, st i = some v ∧ c6TermAt (cachePert C radial me E) θ a.qa b.qa (v.1.qa, v.2.qa) ≠ 0 := by
    intro i h
    cases hv : st i with
    | none =>
      exfalso
      apply h
      rw [tilt_entry C radial me st hst hθ i i0, hv]
      simp
    | some v =>
      rw [term i v hv, Complex.ofReal_ne_zero] at h
      exact ⟨v, rfl, h⟩
  have dip : ∀ z : QA × QA, c6TermAt (cachePert C radial me E) θ a.qa b.qa z ≠ 0 → elem C radial me 1 z.1.qn a ≠ 0 ∧ elem C radial me 1 z.2.qn b ≠ 0 := by
    intro z h
    constructor
    · intro h0
      apply h
      unfold c6TermAt
      rw [show (cachePert C radial me E).d z.1 a.qa = 0 from h0]
      simp
    · intro h0
      apply h
      unfold c6TermAt
      rw [show (cachePert C radial me E).d z.2 b.qa = 0 from h0]
      simp
  refine Finset.sum_bij_ne_zero (fun i _ h => ((nz i h).choose.1.qa, (nz i h).choose.2.qa)) ?_ ?_ ?_ ?_
  · intro i _ h
    obtain ⟨hv, hc⟩ := (nz i h).choose_spec
    generalize (nz i h).choose = v at hv hc
    obtain ⟨d1, d2⟩ := dip _ hc
    have ok : PairOK v (a, b) := hst.ok hv hi
    obtain ⟨b1, b2⟩ := hB.bound i v hv
    obtain ⟨r1, r2⟩ := hB.range i v hv
    exact (memT _).2 ⟨valid_qa ok.a1 b1, valid_qa ok.a2 b2, dipole_step C radial me ok.b1 ok.a1 ok.sp1 ok.s1 d1, dipole_step C radial me ok.b2 ok.a2 ok.sp2 ok.s2 d2, r1, r2, Or.inl rfl⟩
  · intro i _ h j _ h' heq
    obtain ⟨hv, -⟩ := (nz i h).choose_spec
    obtain ⟨hv', -⟩ := (nz j h').choose_spec
    have : (nz i h).choose = (nz j h').choose := by
      generalize (nz i h).choose = v at heq hv
      generalize (nz j h').choose = v' at heq hv'
      rw [Prod.mk.injEq] at heq
      exact Prod.ext (congrArg QA.qn heq.1) (congrArg QA.qn heq.2)
    rw [this] at hv
    exact hB.once i j _ hv hv'
  · intro z hz h
    rw [Complex.ofReal_ne_zero] at h
    obtain ⟨d1, d2⟩ := dip z h
    obtain ⟨v1, v2, t1, t2, r1, r2, -⟩ := (memT z).1 hz
    obtain ⟨i, hv⟩ := hB.complete z.1.qn z.2.qn v1 v2 t1 t2 r1 r2 d1 d2
    have h' : (if en i = en i0 then (0 : ℂ) else tiltOper C radial me st θ i0 i * tiltOper C radial me st θ i i0 / ((en i0 - en i : ℝ) : ℂ)) ≠ 0 := by
      rw [term i _ hv, Complex.ofReal_ne_zero]
      exact h
    refine ⟨i, Finset.mem_univ i, h', ?_⟩
    have c1 : some (z.1.qn, z.2.qn) = some (nz i h').choose := hv.symm.trans (nz i h').choose_spec.1
    rw [← Option.some.inj c1]
    rfl
  · intro i _ h
    obtain ⟨hv, -⟩ := (nz i h).choose_spec
    rw [term i _ hv]

/-- **C124.** For a pair state (a, b) without degenerate partners in a basis that has the states the sum needs, at the angle θ between the distance vector and the quantization axis: the energy of the same
number in the sorted list is E(a) + E(b) + C6(θ)/R⁶ up to K/R⁹ at all distances above some R0, with the number that `getC6` returns for θ; R0 and K do not depend on the distance or the history. -/
theorem C124_c6 (C : FieldConsts) (radial : RadKey → ℝ) (me : Method) (st : Fin N → Option (QN × QN)) (hst : GoodPairs st) {θ : ℝ} (hθ : OKAngle θ) (E : QN → ℝ) (en : Fin N → ℝ)
    (hE : ∀ i v, st i = some v → en i = E v.1 + E v.2) (i0 : Fin N) (a b : QN) (hi : st i0 = some (a, b)) (sa : a.s = 0 ∨ a.s = 1) (sb : b.s = 0 ∨ b.s = 1)
    (D : ℕ) (hDa : (D : ℤ) ≤ a.n - a.l) (hDb : (D : ℤ) ≤ b.n - b.l) (hB : C6BasisTilt C radial me st D a b) (hn : ∀ c, c ≠ i0 → en c ≠ en i0) :
    ∃ K R0 : ℝ, 0 ≤ K ∧ ∀ s0 s s' : CSys OKPair PKey (Fin N) (Fin N), s0.Fresh (pairInter C radial me st) → s0.V = 1 → s0.H = (Matrix.diagonal fun c => (en c : ℂ)) →
      Hist (pairInter C radial me st) s0 s → s.build (pairInter C radial me st) = .ok s' →
      Tilted s.p.1 → AtAngle θ s.p.1 → R0 ≤ s.p.1.dist → ∀ X e, Diagonalizes s'.H X e → Monotone e →
        ∀ i : Fin N, i.val = (Finset.univ.filter fun c => en c < en i0).card →
          |e i - (E a + E b + getC6 (cachePert C radial me E) θ (D : ℚ) a.qa b.qa / s.p.1.dist ^ 6)| ≤ K / s.p.1.dist ^ 9 := by
  have ok : PairOK (a, b) (a, b) := hst.ok hi hi
  have z : tiltOper C radial me st θ i0 i0 = 0 := by
    rw [tilt_entry C radial me st hst hθ, hi]
    have z : elem C radial me 1 a a = 0 := elem_zero C radial me a a ok.a1 ok.a1 rfl rfl 1 (by norm_num) (by simp [selMultipole])
    simp [z]
  obtain ⟨K, x0, hK, hx0, H⟩ := second_order_sorted en (tiltOper C radial me st θ) i0 hn z _ (C124_sum C radial me st hst hθ E en hE i0 a b hi sa sb D hDa hDb hB)
  refine ⟨K, max 1 (1 / x0), hK, fun s0 s s' h0 hV hH hs hb ht ha hR X e hX he i hi' => ?_⟩
  obtain ⟨Y, hY⟩ := tilt_diagonalizes C radial me st en hθ s0 s s' h0 hV hH hs hb ht ha X e hX
  have hab : |s.p.1.dist| = s.p.1.dist := abs_of_pos ha.pos
  obtain ⟨f1, f2, f3⟩ := far_distance hx0 (R := s.p.1.dist) (by rw [hab]; exact hR)
  have := H _ f1 Y e hY he i hi'
  rw [f2, f3, one_div_mul_eq_div, mul_one_div, hE i0 _ hi, hab] at this
  exact this

/-! ## The matrix that getC6 returns for an angle -/

/-- What the loops add to a matrix element for a virtual pair state. -/
noncomputable def c6TermMAt (V : PertEnv) (θ : ℝ) (r c z : QA × QA) : ℝ :=
  V.k * angleVal θ ((r.1.m - z.1.m) / 2, (r.2.m - z.2.m) / 2) * V.d r.1 z.1 * V.d r.2 z.2 * V.k * angleVal θ ((z.1.m - c.1.m) / 2, (z.2.m - c.2.m) / 2) * V.d z.1 c.1 * V.d z.2 c.2 * 0.5 *
    (1 / ((V.E r.1 + V.E r.2) - (V.E z.1 + V.E z.2)) + 1 / ((V.E c.1 + V.E c.2) - (V.E z.1 + V.E z.2)))

theorem c6Elem_terms_at (V : PertEnv) {θ : ℝ} (hθ : θ ≠ 0) (δ : ℚ) (S : List (QA × QA)) (r c : QA × QA) (hm1 : (r.1.m - c.1.m) % 2 = 0) (hm2 : (r.2.m - c.2.m) % 2 = 0) :
    c6Elem V θ δ S r c = ∑ z ∈ ((virtualsM true δ S r c).map (·.1)).toFinset, c6TermMAt V θ r c z := by
  rw [List.sum_toFinset _ (nodup_virtualsM _ _ _ _ _), List.map_map]
  unfold c6Elem
  rw [show decide (θ ≠ 0) = true from decide_eq_true hθ]
  refine congrArg List.sum (List.map_congr_left fun v hv => ?_)
  obtain ⟨n0, n1, l0, l1, j0, j1, q, -, -, -, -, -, -, -, a8⟩ := mem_virtualsM hv
  obtain ⟨-, b2, b3, b4, -⟩ := virtQM_some a8
  have m1 : v.1.1.m = c.1.m + 2 * q.1 := by rw [b3]
  have m2 : v.1.2.m = c.2.m + 2 * q.2 := by rw [b3]
  simp only [Function.comp, c6TermMAt]
  rw [b4, b2, tdiv_two_even (by omega), tdiv_two_even (by omega), show ((v.1.1.m - c.1.m) / 2, (v.1.2.m - c.2.m) / 2) = q from Prod.ext (by dsimp only; omega) (by dsimp only; omega)]

/-- **C124 (the sums agree, matrix elements).** Between two states of the level the second-order sum with the operator that SystemTwo adds at the angle θ is the sum of `getC6` for the matrix element. -/
theorem C124_elem (C : FieldConsts) (radial : RadKey → ℝ) (me : Method) (st : Fin N → Option (QN × QN)) (hst : GoodPairs st) {θ : ℝ} (hθ : OKAngle θ) (E : QN → ℝ) (en : Fin N → ℝ)
    (hE : ∀ i v, st i = some v → en i = E v.1 + E v.2) (E0 : ℝ) (S : List (QA × QA)) (lev : Fin S.length → Fin N) (hL : C6Level st en E0 S lev)
    (hs : ∀ i, ((S.get i).1.s = 0 ∨ (S.get i).1.s = 1) ∧ ((S.get i).2.s = 0 ∨ (S.get i).2.s = 1)) (D : ℕ) (hD : ∀ i, (D : ℤ) ≤ (S.get i).1.n - (S.get i).1.l ∧ (D : ℤ) ≤ (S.get i).2.n - (S.get i).2.l)
    (hB : ∀ i, C6BasisTilt C radial me st D (S.get i).1.qn (S.get i).2.qn) (i j : Fin S.length) :
    secondOrder en E0 (tiltOper C radial me st θ) (lev i) (lev j) = (c6Elem (cachePert C radial me E) θ (D : ℚ) S (S.get i) (S.get j) : ℝ) := by
  have hi := hL.entry i
  have hj := hL.entry j
  have ei : en (lev i) = E0 := (hL.all _).2 ⟨i, rfl⟩
  have ej : en (lev j) = E0 := (hL.all _).2 ⟨j, rfl⟩
  obtain ⟨sh1, sh2⟩ := hL.shell i j
  obtain ⟨s1, s2⟩ := hs j
  obtain ⟨hD1, hD2⟩ := hD j
  have Ei := hE _ _ hi
  have Ej := hE _ _ hj
  have hS : ∀ z, z ∈ S ↔ ∃ l, S.get l = z := fun z => List.mem_iff_get
  have hBj := hB j
  generalize hr : S.get i = r at *
  generalize hc : S.get j = c at *
  obtain ⟨pr1, pr2, -⟩ := hst _ _ hi
  obtain ⟨pc1, pc2, -⟩ := hst _ _ hj
  obtain ⟨nr1, nr2⟩ := hBj.bound _ _ hi
  obtain ⟨nc1, nc2⟩ := hBj.bound _ _ hj
  have vr1 : ValidQ r.1 := valid_qa pr1 nr1
  have vr2 : ValidQ r.2 := valid_qa pr2 nr2
  have vc1 : ValidQ c.1 := valid_qa pc1 nc1
  have vc2 : ValidQ c.2 := valid_qa pc2 nc2
  have par : ∀ {a b : QA}, ValidQ a → ValidQ b → a.s = b.s → (a.m - b.m) % 2 = 0 := by
    intro a b ha hb h
    have q1 := ha.jpar
    have q2 := hb.jpar
    have q3 := ha.mpar
    have q4 := hb.mpar
    omega
  have hm1 := par vr1 vc1 sh1.s
  have hm2 := par vr2 vc2 sh2.s
  have hmem := virtualsM_iff true D S r c vr1 vr2 vc1 vc2 s1 s2 sh1 sh2 hD1 hD2 hm1 hm2
  rw [c6Elem_terms_at _ hθ.ne _ _ _ _ hm1 hm2]
  set T := ((virtualsM true (D : ℚ) S r c).map (·.1)).toFinset with hT
  have memT : ∀ z : QA × QA, z ∈ T ↔ _ := fun z => (List.mem_toFinset).trans (hmem z)
  -- one term of the sum over the basis
  have term : ∀ d v, st d = some v → (if en d = E0 then (0 : ℂ) else
      tiltOper C radial me st θ (lev i) d * tiltOper C radial me st θ d (lev j) / ((E0 - en d : ℝ) : ℂ))
      = ((if en d ≠ E0 then c6TermMAt (cachePert C radial me E) θ r c (v.1.qa, v.2.qa) else 0 : ℝ) : ℂ) := by
    intro d v hv
    have okc : PairOK v (c.1.qn, c.2.qn) := hst.ok hv hj
    have okr : PairOK (r.1.qn, r.2.qn) v := hst.ok hi hv
    by_cases he : en d = E0
    · rw [if_pos he, if_neg (fun h => h he), Complex.ofReal_zero]
    rw [if_neg he, if_pos he]
    have w1 : tiltOper C radial me st θ d (lev j) = ((C.ke * angleVal θ (mDiff v.1 c.1.qn, mDiff v.2 c.2.qn) * elem C radial me 1 v.1 c.1.qn * elem C radial me 1 v.2 c.2.qn : ℝ) : ℂ) := by
      rw [tilt_entry C radial me st hst hθ, hv, hj]
    have w2 : tiltOper C radial me st θ (lev i) d = ((C.ke * angleVal θ (mDiff r.1.qn v.1, mDiff r.2.qn v.2) * elem C radial me 1 r.1.qn v.1 * elem C radial me 1 r.2.qn v.2 : ℝ) : ℂ) := by
      rw [tilt_entry C radial me st hst hθ, hv, hi]
    have d1 : (v.1.m - c.1.m) / 2 = mDiff v.1 c.1.qn := mDiff_div v.1 c.1.qn okc.a1 okc.b1 okc.s1
    have d2 : (v.2.m - c.2.m) / 2 = mDiff v.2 c.2.qn := mDiff_div v.2 c.2.qn okc.a2 okc.b2 okc.s2
    have d3 : (r.1.m - v.1.m) / 2 = mDiff r.1.qn v.1 := mDiff_div r.1.qn v.1 okr.a1 okr.b1 okr.s1
    have d4 : (r.2.m - v.2.m) / 2 = mDiff r.2.qn v.2 := mDiff_div r.2.qn v.2 okr.a2 okr.b2 okr.s2
    have ct : c6TermMAt (cachePert C radial me E) θ r c (v.1.qa, v.2.qa) =
        C.ke * angleVal θ (mDiff r.1.qn v.1, mDiff r.2.qn v.2) * elem C radial me 1 r.1.qn v.1 * elem C radial me 1 r.2.qn v.2 * C.ke * angleVal θ (mDiff v.1 c.1.qn, mDiff v.2 c.2.qn) *
          elem C radial me 1 v.1 c.1.qn * elem C radial me 1 v.2 c.2.qn * 0.5 * (1 / ((E r.1.qn + E r.2.qn) - (E v.1 + E v.2)) + 1 / ((E c.1.qn + E c.2.qn) - (E v.1 + E v.2))) := by
      unfold c6TermMAt
      show C.ke * angleVal θ ((r.1.m - v.1.m) / 2, (r.2.m - v.2.m) / 2) * elem C radial me 1 r.1.qn v.1 * elem C radial me 1 r.2.qn v.2 * C.ke * angleVal θ ((v.1.m - c.1.m) / 2, (v.2.m - c.2.m) / 2) *
          elem C radial me 1 v.1 c.1.qn * elem C radial me 1 v.2 c.2.qn * 0.5 * (1 / ((E r.1.qn + E r.2.qn) - (E v.1 + E v.2)) + 1 / ((E c.1.qn + E c.2.qn) - (E v.1 + E v.2))) = _
      rw [d1, d2, d3, d4]
    rw [w1, w2, ct, show E r.1.qn + E r.2.qn = E0 from Ei.symm.trans ei, show E c.1.qn + E c.2.qn = E0 from Ej.symm.trans ej, hE d v hv]
    push_cast
    ring
  unfold secondOrder
  rw [Complex.ofReal_sum]
  have nz : ∀ d, (if en d = E0 then (0 : ℂ) else tiltOper C radial me st θ (lev i) d * tiltOper C radial me st θ d (lev j) / ((E0 - en d : ℝ) : ℂ)) ≠ 0 →
      ∃ v, st d = some v ∧ en d ≠ E0 ∧ c6TermMAt (cachePert C radial me E) θ r c (v.1.qa, v.2.qa) ≠ 0 := by
    intro d h
    cases hv : st d with
    | none =>
      exfalso
      apply h
      rw [tilt_entry C radial me st hst hθ d (lev j), hv]
      simp
    | some v =>
      rw [term d v hv, Complex.ofReal_ne_zero] at h
      by_cases hm : en d ≠ E0
      · rw [if_pos hm] at h
        exact ⟨v, rfl, hm, h⟩
      · rw [if_neg hm] at h
        exact absurd rfl h
  have dip : ∀ z : QA × QA, c6TermMAt (cachePert C radial me E) θ r c z ≠ 0 → (elem C radial me 1 z.1.qn c.1.qn ≠ 0 ∧ elem C radial me 1 z.2.qn c.2.qn ≠ 0) ∧
      (elem C radial me 1 r.1.qn z.1.qn ≠ 0 ∧ elem C radial me 1 r.2.qn z.2.qn ≠ 0) := by
    intro z h
    refine ⟨⟨?_, ?_⟩, ?_, ?_⟩
    · intro h0
      apply h
      unfold c6TermMAt
      rw [show (cachePert C radial me E).d z.1 c.1 = 0 from h0]
      simp
    · intro h0
      apply h
      unfold c6TermMAt
      rw [show (cachePert C radial me E).d z.2 c.2 = 0 from h0]
      simp
    · intro h0
      apply h
      unfold c6TermMAt
      rw [show (cachePert C radial me E).d r.1 z.1 = 0 from h0]
      simp
    · intro h0
      apply h
      unfold c6TermMAt
      rw [show (cachePert C radial me E).d r.2 z.2 = 0 from h0]
      simp
  refine Finset.sum_bij_ne_zero (fun d _ h => ((nz d h).choose.1.qa, (nz d h).choose.2.qa)) ?_ ?_ ?_ ?_
  · intro d _ h
    obtain ⟨hv, he, hz⟩ := (nz d h).choose_spec
    generalize (nz d h).choose = v at hv hz
    obtain ⟨⟨d1, d2⟩, d3, d4⟩ := dip _ hz
    have okc : PairOK v (c.1.qn, c.2.qn) := hst.ok hv hj
    have okr : PairOK (r.1.qn, r.2.qn) v := hst.ok hi hv
    obtain ⟨b1, b2⟩ := hBj.bound d v hv
    obtain ⟨r1, r2⟩ := hBj.range d v hv
    refine (memT _).2 ⟨?_, ⟨valid_qa okc.a1 b1, valid_qa okc.a2 b2⟩, ⟨dipole_step C radial me okc.b1 okc.a1 okc.sp1 okc.s1 d1, dipole_step C radial me okc.b2 okc.a2 okc.sp2 okc.s2 d2⟩,
      ⟨dipole_symm (dipole_step C radial me okr.b1 okr.a1 okr.sp1 okr.s1 d3), dipole_symm (dipole_step C radial me okr.b2 okr.a2 okr.sp2 okr.s2 d4)⟩, ⟨r1, r2⟩, Or.inl rfl⟩
    intro hin
    obtain ⟨l, hl⟩ := (hS _).1 hin
    have el := hL.entry l
    rw [hl] at el
    have : lev l = d := hBj.once _ _ _ el hv
    exact he ((hL.all d).2 ⟨l, this⟩)
  · intro d _ h d' _ h' heq
    obtain ⟨hv, -, -⟩ := (nz d h).choose_spec
    obtain ⟨hv', -, -⟩ := (nz d' h').choose_spec
    have : (nz d h).choose = (nz d' h').choose := by
      generalize (nz d h).choose = v at heq hv
      generalize (nz d' h').choose = v' at heq hv'
      rw [Prod.mk.injEq] at heq
      exact Prod.ext (congrArg QA.qn heq.1) (congrArg QA.qn heq.2)
    rw [this] at hv
    exact hBj.once d d' _ hv hv'
  · intro z hz h
    rw [Complex.ofReal_ne_zero] at h
    obtain ⟨⟨d1, d2⟩, -, -⟩ := dip z h
    obtain ⟨zS, ⟨v1, v2⟩, ⟨t1, t2⟩, -, ⟨r1, r2⟩, -⟩ := (memT z).1 hz
    obtain ⟨d, hv⟩ := hBj.complete z.1.qn z.2.qn v1 v2 t1 t2 r1 r2 d1 d2
    have he : en d ≠ E0 := by
      intro he
      obtain ⟨l, hl⟩ := (hL.all d).1 he
      have el := hL.entry l
      rw [hl, hv] at el
      have ez := Option.some.inj el
      rw [Prod.mk.injEq] at ez
      have : z = S.get l := Prod.ext (congrArg QN.qa ez.1) (congrArg QN.qa ez.2)
      exact zS ((hS z).2 ⟨l, this.symm⟩)
    have t := term d _ hv
    rw [if_pos he] at t
    have h' : (if en d = E0 then (0 : ℂ) else tiltOper C radial me st θ (lev i) d * tiltOper C radial me st θ d (lev j) / ((E0 - en d : ℝ) : ℂ)) ≠ 0 := by
      rw [t, Complex.ofReal_ne_zero]
      exact h
    refine ⟨d, Finset.mem_univ d, h', ?_⟩
    have c1 : some (z.1.qn, z.2.qn) = some (nz d h').choose := hv.symm.trans (nz d h').choose_spec.1
    rw [← Option.some.inj c1]
    rfl
  · intro d _ h
    obtain ⟨hv, hm, -⟩ := (nz d h).choose_spec
    rw [term d _ hv, if_pos hm]

/-- **C124 (the matrix).** The matrix that `getC6` returns for the states of the level and the angle θ is the effective operator of second order within the level. -/
theorem C124_matrix (C : FieldConsts) (radial : RadKey → ℝ) (me : Method) (st : Fin N → Option (QN × QN)) (hst : GoodPairs st) {θ : ℝ} (hθ : OKAngle θ) (E : QN → ℝ) (en : Fin N → ℝ)
    (hE : ∀ i v, st i = some v → en i = E v.1 + E v.2) (E0 : ℝ) (S : List (QA × QA)) (x0 : QA × QA) (lev : Fin S.length → Fin N) (hL : C6Level st en E0 S lev)
    (hs : ∀ i, ((S.get i).1.s = 0 ∨ (S.get i).1.s = 1) ∧ ((S.get i).2.s = 0 ∨ (S.get i).2.s = 1)) (D : ℕ) (hD : ∀ i, (D : ℤ) ≤ (S.get i).1.n - (S.get i).1.l ∧ (D : ℤ) ≤ (S.get i).2.n - (S.get i).2.l)
    (hB : ∀ i, C6BasisTilt C radial me st D (S.get i).1.qn (S.get i).2.qn) (i j : Fin S.length) :
    secondOrder en E0 (tiltOper C radial me st θ) (lev i) (lev j) = (getC6M (cachePert C radial me E) θ (D : ℚ) S x0 i j : ℝ) := by
  have el := C124_elem C radial me st hst hθ E en hE E0 S lev hL hs D hD hB
  have g : ∀ l : Fin S.length, S.getD l.val x0 = S.get l := fun l => by simp
  unfold getC6M upperView
  dsimp only
  by_cases h : i.val ≤ j.val
  · rw [if_pos h, if_pos ⟨i.isLt, h, j.isLt⟩, g, g]
    exact el i j
  · rw [if_neg h, if_pos ⟨j.isLt, by omega, i.isLt⟩, g, g, secondOrder_herm en E0 (tiltOper C radial me st θ) (tiltOper_herm C radial me st θ) (lev i) (lev j), el j i, Complex.conj_ofReal]

/-- **C124.** The eigenvalues of the C6 matrix are the van der Waals shifts also for a tilted distance vector: for a level of pair states of the same shell (any m and j) that contains all pair states of its
energy, at the angle θ the energies of the numbers of the level in the sorted list are E0 + (the sorted eigenvalues of the matrix that `getC6` returns for θ)/R⁶ up to K/R⁹ at all distances above some R0, each
with its multiplicity; R0 and K do not depend on the distance or the history of the system. -/
theorem C124_c6_matrix (C : FieldConsts) (radial : RadKey → ℝ) (me : Method) (st : Fin N → Option (QN × QN)) (hst : GoodPairs st) {θ : ℝ} (hθ : OKAngle θ) (E : QN → ℝ) (en : Fin N → ℝ)
    (hE : ∀ i v, st i = some v → en i = E v.1 + E v.2) (E0 : ℝ) (S : List (QA × QA)) (x0 : QA × QA) (lev : Fin S.length → Fin N) (hL : C6Level st en E0 S lev)
    (hs : ∀ i, ((S.get i).1.s = 0 ∨ (S.get i).1.s = 1) ∧ ((S.get i).2.s = 0 ∨ (S.get i).2.s = 1)) (D : ℕ) (hD : ∀ i, (D : ℤ) ≤ (S.get i).1.n - (S.get i).1.l ∧ (D : ℤ) ≤ (S.get i).2.n - (S.get i).2.l)
    (hB : ∀ i, C6BasisTilt C radial me st D (S.get i).1.qn (S.get i).2.qn)
    (U : Matrix (Fin S.length) (Fin S.length) ℂ) (c6 : Fin S.length → ℝ) (hU : Diagonalizes (Matrix.of fun i j : Fin S.length => (getC6M (cachePert C radial me E) θ (D : ℚ) S x0 i j : ℂ)) U c6) (hc6 : Monotone c6) :
    ∃ K R0 : ℝ, 0 ≤ K ∧ ∀ s0 s s' : CSys OKPair PKey (Fin N) (Fin N), s0.Fresh (pairInter C radial me st) → s0.V = 1 → s0.H = (Matrix.diagonal fun c => (en c : ℂ)) →
      Hist (pairInter C radial me st) s0 s → s.build (pairInter C radial me st) = .ok s' →
      Tilted s.p.1 → AtAngle θ s.p.1 → R0 ≤ s.p.1.dist → ∀ X e, Diagonalizes s'.H X e → Monotone e →
        ∀ (j : Fin S.length) (i : Fin N), i.val = (Finset.univ.filter fun c => en c < E0).card + j.val →
          |e i - (E0 + c6 j / s.p.1.dist ^ 6)| ≤ K / s.p.1.dist ^ 9 := by
  set W := tiltOper C radial me st θ with hW
  let w : Fin S.length → Fin N → ℂ := fun j c => ∑ l, if lev l = c then U l j else 0
  have w1 : ∀ j l, w j (lev l) = U l j := by
    intro j l
    show (∑ l', if lev l' = lev l then U l' j else 0) = U l j
    rw [Finset.sum_eq_single l, if_pos rfl]
    · intro l' _ h
      rw [if_neg fun hl => h (hL.inj hl)]
    · intro h; exact absurd (Finset.mem_univ l) h
  have w2 : ∀ j c, c ∉ Set.range lev → w j c = 0 := by
    intro j c hc
    refine Finset.sum_eq_zero fun l _ => if_neg fun hl => hc ⟨l, hl⟩
  have lvl : ∀ l, en (lev l) = E0 := fun l => (hL.all _).2 ⟨l, rfl⟩
  -- no shift of first order within the shell
  have z : ∀ i j, W (lev i) (lev j) = 0 := by
    intro i j
    have ok : PairOK ((S.get i).1.qn, (S.get i).2.qn) ((S.get j).1.qn, (S.get j).2.qn) := hst.ok (hL.entry i) (hL.entry j)
    have hl := (hL.shell i j).1.l
    have z1 : elem C radial me 1 (S.get i).1.qn (S.get j).1.qn = 0 := elem_zero C radial me _ _ ok.a1 ok.b1 ok.sp1 ok.s1 1 (by norm_num) (by
      have : (S.get i).1.qn.l = (S.get j).1.qn.l := hl
      unfold selMultipole
      rw [this, sub_self]
      simp)
    rw [hW, tilt_entry C radial me st hst hθ, hL.entry i, hL.entry j]
    dsimp only
    rw [z1]
    simp
  have sum1 : ∀ (F : Fin N → ℂ), (∀ c, c ∉ Set.range lev → F c = 0) → ∑ c, F c = ∑ l, F (lev l) := fun F hF =>
    (Fintype.sum_of_injective lev hL.inj (fun l => F (lev l)) F hF fun _ => rfl).symm
  obtain ⟨K, y0, hK, hy0, H⟩ := second_order_levels_sorted en W E0 (by
      have : (Finset.univ.filter fun c => en c = E0) = Finset.univ.image lev := by
        ext c
        rw [Finset.mem_filter, Finset.mem_image]
        exact ⟨fun h => let ⟨l, hl⟩ := (hL.all c).1 h.2; ⟨l, Finset.mem_univ _, hl⟩, fun ⟨l, _, hl⟩ => ⟨Finset.mem_univ _, (hL.all c).2 ⟨l, hl⟩⟩⟩
      rw [this, Finset.card_image_of_injective _ hL.inj, Finset.card_univ, Fintype.card_fin]) c6 hc6 w (by
      intro i j
      show ∑ c, star (w i) c * w j c = _
      rw [sum1 _ fun c hc => by rw [w2 j c hc, mul_zero]]
      simp only [Pi.star_apply, w1]
      have := congrFun (congrFun hU.1 i) j
      rw [Matrix.mul_apply, Matrix.one_apply] at this
      exact this) (by
      intro j c hc
      refine w2 j c fun ⟨l, hl⟩ => hc ?_
      rw [← hl, lvl]) (by
      intro j c hc
      obtain ⟨i, rfl⟩ := (hL.all c).1 hc
      show ∑ d, W (lev i) d * w j d = 0
      rw [sum1 _ fun c hc => by rw [w2 j c hc, mul_zero]]
      exact Finset.sum_eq_zero fun l _ => by rw [z, zero_mul]) (by
      intro j c hc
      obtain ⟨i, rfl⟩ := (hL.all c).1 hc
      show ∑ d, secondOrder en E0 W (lev i) d * w j d = _
      rw [sum1 _ fun c hc => by rw [w2 j c hc, mul_zero]]
      simp only [w1, hW, C124_matrix C radial me st hst hθ E en hE E0 S x0 lev hL hs D hD hB]
      have := congrFun (congrFun hU.2 i) j
      rw [Matrix.mul_diagonal, Matrix.mul_apply, mul_comm] at this
      exact this)
  refine ⟨K, max 1 (1 / y0), hK, fun s0 s s' h0 hV hH hs hb ht ha hR X e hX he j i hi => ?_⟩
  obtain ⟨Y, hY⟩ := tilt_diagonalizes C radial me st en hθ s0 s s' h0 hV hH hs hb ht ha X e hX
  have hab : |s.p.1.dist| = s.p.1.dist := abs_of_pos ha.pos
  obtain ⟨f1, f2, f3⟩ := far_distance hy0 (R := s.p.1.dist) (by rw [hab]; exact hR)
  have rne : s.p.1.dist ≠ 0 := ha.pos.ne'
  have := H _ (by positivity) f1 Y e hY he j i hi
  rw [f2, f3, one_div_mul_eq_div, mul_one_div, hab] at this
  exact this

/-! ## The hypotheses can be met: distance vector perpendicular to the quantization axis -/

theorem rightAngle : OKAngle (Real.pi / 2) := by
  refine ⟨by rw [Real.sin_pi_div_two]; exact one_ne_zero, fun t ht => ?_⟩
  unfold angleTerms at ht
  rw [Real.sin_pi_div_two, Real.cos_pi_div_two] at ht
  simp only [List.mem_cons, List.not_mem_nil, or_false] at ht
  rcases ht with rfl | rfl | rfl | rfl | rfl | rfl
  · right; unfold overTol; norm_num
  · right; unfold overTol; norm_num
  · left; simp
  · left; simp
  · right; unfold overTol; norm_num
  · right; unfold overTol; norm_num

/-- Settings at any distance on the x axis are accepted and have the angle π/2. -/
theorem rightAngle_settings (R : ℝ) (hR : 0 < R) (hd : R ≠ dblMax) : ∃ p : OKPair, Tilted p.1 ∧ AtAngle (Real.pi / 2) p.1 ∧ p.1.dist = R := by
  refine ⟨⟨⟨R, 0, 0, R, false, dblMax, 3⟩, ?_⟩, ⟨hd, rfl, rfl, rfl, hR.ne', le_refl _⟩, ⟨hR, by simp, by simp⟩, rfl⟩
  unfold initPair
  rw [if_neg hd]
  dsimp only
  rw [if_neg, if_pos hR.ne']
  rintro (h | h | ⟨-, h⟩ | h)
  · exact h rfl
  · exact h rfl
  · have h' : 3 < 3 := h
    omega
  · exact Bool.false_ne_true h

/-- The pair states SS and PP of j = 1/2 with all m. -/
def tPairs : Fin 8 → Option (QN × QN) := ![some (gS 1, gS 1), some (gS 1, gS (-1)), some (gS (-1), gS 1), some (gS (-1), gS (-1)),
  some (gP 1, gP 1), some (gP 1, gP (-1)), some (gP (-1), gP 1), some (gP (-1), gP (-1))]
/-- The four states SS. -/
def tLevel : List (QA × QA) := [((gS 1).qa, (gS 1).qa), ((gS 1).qa, (gS (-1)).qa), ((gS (-1)).qa, (gS 1).qa), ((gS (-1)).qa, (gS (-1)).qa)]
/-- Their places. -/
def tPlace : Fin tLevel.length → Fin 8 := ![0, 1, 2, 3]

theorem tPairs_cases {i : Fin 8} {v : QN × QN} (h : tPairs i = some v) :
    ∃ m m' : ℤ, (m = 1 ∨ m = -1) ∧ (m' = 1 ∨ m' = -1) ∧ ((i.val < 4 ∧ v = (gS m, gS m')) ∨ (4 ≤ i.val ∧ v = (gP m, gP m'))) := by
  fin_cases i
  · exact ⟨1, 1, by decide, by decide, Or.inl ⟨by decide, (Option.some.inj h).symm⟩⟩
  · exact ⟨1, -1, by decide, by decide, Or.inl ⟨by decide, (Option.some.inj h).symm⟩⟩
  · exact ⟨-1, 1, by decide, by decide, Or.inl ⟨by decide, (Option.some.inj h).symm⟩⟩
  · exact ⟨-1, -1, by decide, by decide, Or.inl ⟨by decide, (Option.some.inj h).symm⟩⟩
  · exact ⟨1, 1, by decide, by decide, Or.inr ⟨by decide, (Option.some.inj h).symm⟩⟩
  · exact ⟨1, -1, by decide, by decide, Or.inr ⟨by decide, (Option.some.inj h).symm⟩⟩
  · exact ⟨-1, 1, by decide, by decide, Or.inr ⟨by decide, (Option.some.inj h).symm⟩⟩
  · exact ⟨-1, -1, by decide, by decide, Or.inr ⟨by decide, (Option.some.inj h).symm⟩⟩

theorem tPairs_good : GoodPairs tPairs := by
  have ps : ∀ m : ℤ, m = 1 ∨ m = -1 → (gS m).Physical := by
    rintro m (rfl | rfl) <;> (unfold QN.Physical gS; decide)
  have pp : ∀ m : ℤ, m = 1 ∨ m = -1 → (gP m).Physical := by
    rintro m (rfl | rfl) <;> (unfold QN.Physical gP; decide)
  have same : ∀ j b, tPairs j = some b → b.1.species = "Rb" ∧ b.1.s = 1 ∧ b.2.species = "Rb" ∧ b.2.s = 1 := by
    intro j b hb
    obtain ⟨m, m', -, -, ⟨-, rfl⟩ | ⟨-, rfl⟩⟩ := tPairs_cases hb <;> exact ⟨rfl, rfl, rfl, rfl⟩
  intro i a ha
  obtain ⟨x1, x2, x3, x4⟩ := same i a ha
  refine ⟨?_, ?_, fun j b hb => ?_⟩
  · obtain ⟨m, m', h1, h2, ⟨-, rfl⟩ | ⟨-, rfl⟩⟩ := tPairs_cases ha
    · exact ps m h1
    · exact pp m h1
  · obtain ⟨m, m', h1, h2, ⟨-, rfl⟩ | ⟨-, rfl⟩⟩ := tPairs_cases ha
    · exact ps m' h2
    · exact pp m' h2
  · obtain ⟨y1, y2, y3, y4⟩ := same j b hb
    exact ⟨x1.trans y1.symm, x2.trans y2.symm, x3.trans y3.symm, x4.trans y4.symm⟩

theorem tPairs_inj : ∀ i j : Fin 8, tPairs i = tPairs j → i = j := by decide

theorem tPairs_place (v w : QN) (hv : v = gP 1 ∨ v = gP (-1)) (hw : w = gP 1 ∨ w = gP (-1)) : ∃ i, tPairs i = some (v, w) := by
  rcases hv with rfl | rfl <;> rcases hw with rfl | rfl
  · exact ⟨4, rfl⟩
  · exact ⟨5, rfl⟩
  · exact ⟨6, rfl⟩
  · exact ⟨7, rfl⟩

theorem tBasis (C : FieldConsts) (me : Method) (m m' : ℤ) : C6BasisTilt C vRad me tPairs 0 (gS m) (gS m') := by
  constructor
  · intro i j v hi hj
    exact tPairs_inj i j (hi.trans hj.symm)
  · intro i v hi
    obtain ⟨x, x', -, -, ⟨-, rfl⟩ | ⟨-, rfl⟩⟩ := tPairs_cases hi
    · exact ⟨by show (0 : ℤ) < 60; norm_num, by show (0 : ℤ) < 60; norm_num⟩
    · exact ⟨by show (1 : ℤ) < 60; norm_num, by show (1 : ℤ) < 60; norm_num⟩
  · intro i v hi
    obtain ⟨x, x', -, -, ⟨-, rfl⟩ | ⟨-, rfl⟩⟩ := tPairs_cases hi <;>
      exact ⟨by show |(60 : ℤ) - 60| ≤ 0; norm_num, by show |(60 : ℤ) - 60| ≤ 0; norm_num⟩
  · intro v w hv hw sv sw nv nw dv dw
    have one : ∀ (v : QN) (m : ℤ), ValidQ v.qa → DipoleStep (gS m).qa v.qa → |v.n - (gS m).n| ≤ ((0 : ℕ) : ℤ) → elem C vRad me 1 v (gS m) ≠ 0 → v = gP 1 ∨ v = gP (-1) := by
      intro v m hv sv hn hd
      have hj := gRad_elem C me v m hd
      have l0 : 0 ≤ v.l := hv.l0
      have l1 : v.l = 0 + 1 ∨ v.l = 0 - 1 := sv.l
      have m1 : |v.m| ≤ v.j := hv.mj
      have m2 : (v.m - v.j) % 2 = 0 := hv.mpar
      have n1 : |v.n - 60| ≤ 0 := hn
      rw [abs_le] at m1 n1
      have c : v.m = 1 ∨ v.m = -1 := by omega
      have x1 : v.species = "Rb" := sv.sp
      have x2 : v.s = 1 := sv.s
      obtain ⟨y1, y2, y3, y4, y5, y6⟩ := v
      simp only at hj l0 l1 m1 m2 n1 c x1 x2
      unfold gP
      rcases c with c | c
      · left; rw [QN.mk.injEq]; exact ⟨x1, by omega, by omega, hj, c, x2⟩
      · right; rw [QN.mk.injEq]; exact ⟨x1, by omega, by omega, hj, c, x2⟩
    exact tPairs_place v w (one v m hv sv nv dv) (one w m' hw sw nw dw)

/-- The energies of the states SS are 0, those of the states PP are 14. -/
def tEn : Fin 8 → ℝ := ![0, 0, 0, 0, 14, 14, 14, 14]

theorem tEn_iff (c : Fin 8) : (tEn c = 0 ↔ c.val < 4) ∧ (c.val < 4 → tEn c = 0) ∧ (4 ≤ c.val → tEn c = 14) := by
  fin_cases c <;> simp [tEn]

theorem tLevel_ok : C6Level tPairs tEn 0 tLevel tPlace := by
  constructor
  · intro i
    fin_cases i <;> rfl
  · intro i j h
    fin_cases i <;> fin_cases j <;> first | rfl | exact absurd h (by decide)
  · intro c
    rw [(tEn_iff c).1]
    revert c
    decide
  · intro i j
    fin_cases i <;> fin_cases j <;> exact ⟨by constructor <;> rfl, by constructor <;> rfl⟩

/-- Perpendicular to the quantization axis, the four lowest energies of the eight pair states follow the eigenvalues of the 4 × 4 matrix that `getC6` returns for θ = π/2 and the four states SS. -/
example (C : FieldConsts) (me : Method) (x0 : QA × QA) : ∃ (U : Matrix (Fin 4) (Fin 4) ℂ) (c6 : Fin 4 → ℝ),
    Diagonalizes (Matrix.of fun i j : Fin 4 => (getC6M (cachePert C vRad me fun x => 7 * x.l) (Real.pi / 2) ((0 : ℕ) : ℚ) tLevel x0 i j : ℂ)) U c6 ∧ Monotone c6 ∧
    ∃ K R0 : ℝ, 0 ≤ K ∧ ∀ p : OKPair, Tilted p.1 → AtAngle (Real.pi / 2) p.1 → R0 ≤ p.1.dist →
    ∃ (s s' : CSys OKPair PKey (Fin 8) (Fin 8)) (X : Matrix (Fin 8) (Fin 8) ℂ) (e : Fin 8 → ℝ), s.p = p ∧ s.build (pairInter C vRad me tPairs) = .ok s' ∧ Diagonalizes s'.H X e ∧ Monotone e ∧
      ∀ j : Fin 4, |e (Fin.castLE (by norm_num) j) - c6 j / p.1.dist ^ 6| ≤ K / p.1.dist ^ 9 := by
  have hH : (Matrix.of fun i j : Fin 4 => (getC6M (cachePert C vRad me fun x => 7 * x.l) (Real.pi / 2) ((0 : ℕ) : ℚ) tLevel x0 i j : ℂ)).IsHermitian := by
    ext i j
    rw [Matrix.conjTranspose_apply, Matrix.of_apply, Matrix.of_apply, Complex.star_def, Complex.conj_ofReal, (C50_symmetric _ (Real.pi / 2) _ tLevel x0).2.1]
  obtain ⟨U, c6, hU, hc6⟩ := diagonalizes_sorted _ hH
  refine ⟨U, c6, hU, hc6, ?_⟩
  obtain ⟨K, R0, hK, H⟩ := C124_c6_matrix C vRad me tPairs tPairs_good rightAngle (fun x => 7 * x.l) tEn (by
      intro i v hv
      obtain ⟨m, m', -, -, ⟨h, rfl⟩ | ⟨h, rfl⟩⟩ := tPairs_cases hv
      · rw [(tEn_iff i).2.1 h]; norm_num [gS]
      · rw [(tEn_iff i).2.2 h]; norm_num [gP]) 0 tLevel x0 tPlace tLevel_ok (by
      intro i
      fin_cases i <;> exact ⟨Or.inr rfl, Or.inr rfl⟩) 0 (by
      intro i
      fin_cases i <;> exact ⟨by decide, by decide⟩) (by
      intro i
      fin_cases i
      · exact tBasis C me 1 1
      · exact tBasis C me 1 (-1)
      · exact tBasis C me (-1) 1
      · exact tBasis C me (-1) (-1)) U c6 hU hc6
  refine ⟨K, R0, hK, fun p ht ha hR => ?_⟩
  obtain ⟨s0, s, s', h0, hV, hH, hs, hb, hp, X, e, hX, he⟩ := two_atoms_run C vRad me tPairs tEn p
  refine ⟨s, s', X, e, hp, hb, hX, he, fun j => ?_⟩
  have := H s0 s s' h0 hV hH hs hb (by rw [hp]; exact ht) (by rw [hp]; exact ha) (by rw [hp]; exact hR) X e hX he j (Fin.castLE (by norm_num) j) (by
    rw [Finset.filter_false_of_mem, Finset.card_empty, zero_add]
    · rfl
    · intro c _
      fin_cases c <;> norm_num [tEn])
  rwa [hp, zero_add] at this

/-- A pair state without degenerate partners: if the energies depend on m, the fourth energy follows the C6 coefficient of the state SS with m = 1/2 for both atoms. -/
example (C : FieldConsts) (me : Method) : ∃ K R0 : ℝ, 0 ≤ K ∧ ∀ p : OKPair, Tilted p.1 → AtAngle (Real.pi / 2) p.1 → R0 ≤ p.1.dist →
    ∃ (s s' : CSys OKPair PKey (Fin 8) (Fin 8)) (X : Matrix (Fin 8) (Fin 8) ℂ) (e : Fin 8 → ℝ), s.p = p ∧ s.build (pairInter C vRad me tPairs) = .ok s' ∧ Diagonalizes s'.H X e ∧ Monotone e ∧
      |e 3 - (2 + getC6 (cachePert C vRad me fun x => 7 * x.l + x.m) (Real.pi / 2) ((0 : ℕ) : ℚ) (gS 1).qa (gS 1).qa / p.1.dist ^ 6)| ≤ K / p.1.dist ^ 9 := by
  obtain ⟨K, R0, hK, H⟩ := C124_c6 C vRad me tPairs tPairs_good rightAngle (fun x => 7 * x.l + x.m) ![2, 0, 0, -2, 16, 14, 14, 12] (by
      intro i v hv
      fin_cases i <;> (obtain rfl := (Option.some.inj hv).symm; norm_num [gS, gP])) 0 (gS 1) (gS 1) rfl (Or.inr rfl) (Or.inr rfl) 0 (by decide) (by decide) (tBasis C me 1 1) (by
      intro c hc
      fin_cases c
      · exact absurd rfl hc
      all_goals norm_num)
  refine ⟨K, R0, hK, fun p ht ha hR => ?_⟩
  obtain ⟨s0, s, s', h0, hV, hH, hs, hb, hp, X, e, hX, he⟩ := two_atoms_run C vRad me tPairs ![2, 0, 0, -2, 16, 14, 14, 12] p
  refine ⟨s, s', X, e, hp, hb, hX, he, ?_⟩
  have := H s0 s s' h0 hV hH hs hb (by rw [hp]; exact ht) (by rw [hp]; exact ha) (by rw [hp]; exact hR) X e hX he 3 (by
    have : (Finset.univ.filter fun c : Fin 8 => (![2, 0, 0, -2, 16, 14, 14, 12] : Fin 8 → ℝ) c < (![2, 0, 0, -2, 16, 14, 14, 12] : Fin 8 → ℝ) 0) = {1, 2, 3} := by
      ext c
      rw [Finset.mem_filter]
      have z : (![2, 0, 0, -2, 16, 14, 14, 12] : Fin 8 → ℝ) 0 = 2 := rfl
      rw [z]
      fin_cases c <;> first
        | exact ⟨fun h => absurd h.2 (by norm_num), fun h => absurd h (by decide)⟩
        | exact ⟨fun _ => by decide, fun _ => ⟨Finset.mem_univ _, by norm_num⟩⟩
    rw [this]
    rfl)
  rw [hp] at this
  have e2 : (7 * ((gS 1).l : ℝ) + ((gS 1).m : ℝ)) + (7 * ((gS 1).l : ℝ) + ((gS 1).m : ℝ)) = 2 := by norm_num [gS]
  rw [e2] at this
  exact this

end PI
