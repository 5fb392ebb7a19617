import Verif.Rot.ResonantShift
import Verif.Legacy.HamOne
import Verif.Element.Lande
import Verif.Rot.FieldCov

/-!
# C126: levels in weak fields

In weak fields the sublevels of a fine-structure level move linearly with the magnetic field, with the Landé factor of the level, and not at all in first order with the electric field;
the rest (electric field, coupling to other levels, diamagnetism) is bounded by a constant times the square of the field strength.
-/

namespace PI
open Matrix

set_option linter.unusedSimpArgs false

/-- Two Hermitian matrices that differ by a bounded one: sorted eigenvalues differ by at most the bound. -/
theorem weyl_sorted {k : ℕ} (A Z : Matrix (Fin k) (Fin k) ℂ) (z : ℝ) (hz : BoundedBy Z z) (Y : Matrix (Fin k) (Fin k) ℂ) (e : Fin k → ℝ) (hY : Diagonalizes (A + Z) Y e) (he : Monotone e)
    (U : Matrix (Fin k) (Fin k) ℂ) (d : Fin k → ℝ) (hU : Diagonalizes A U d) (hd : Monotone d) (i : Fin k) : |e i - d i| ≤ z := by
  have key : ∀ y, |expect (A + Z) y - expect A y| ≤ z * sqNorm y := by
    intro y
    unfold expect
    rw [add_mulVec, dotProduct_add, Complex.add_re, add_sub_cancel_left]
    exact (Complex.abs_re_le_norm _).trans (hz y)
  refine move_sorted e d he hd z (fun E => ?_) (fun E => ?_) i
  · refine levels_compare hU hY 1 (by simp) z (fun y => ?_) E
    rw [one_mulVec]
    linarith [(abs_le.1 (key y)).1]
  · refine levels_compare hY hU 1 (by simp) z (fun y => ?_) E
    rw [one_mulVec]
    linarith [(abs_le.1 (key y)).2]

variable {N : ℕ}

/-- Specification: the shift of the sublevel m (doubled) of the level of `a` in a magnetic field along z, μ_B g_J m B (times the overlap of the radial function with itself). -/
noncomputable def zeemanShift (C : FieldConsts) (radial : RadKey → ℝ) (me : Method) (a : QN) (m : ℤ) (Bz : ℝ) : ℝ :=
  C.elem.muB * landeFactor C.elem.gL C.elem.gS a.l a.s a.j * ((m : ℝ) / 2) * Bz * radial (RadKey.make me a.species 0 a.n a.n a.l a.l a.j a.j)

/-- The states with the energy E0 are the sublevels `mj` of the level of `a`, at the places `lev`. -/
structure FineLevel {m : ℕ} (st : Fin N → Option QN) (en : Fin N → ℝ) (E0 : ℝ) (a : QN) (lev : Fin m → Fin N) (mj : Fin m → ℤ) : Prop where
  entry : ∀ j, st (lev j) = some { a with m := mj j }
  inj : Function.Injective lev
  distinct : Function.Injective mj
  all : ∀ c, en c = E0 ↔ ∃ j, lev j = c

/-- The interaction with the fields without diamagnetism and ion. -/
noncomputable def fieldPart (C : FieldConsts) (radial : RadKey → ℝ) (me : Method) (st : Fin N → Option QN) (E B : Vec3) : Matrix (Fin N) (Fin N) ℂ :=
  - dotOp E (dipoleT C radial me st) - dotOp B (magneticT C radial me st)

/-- The factor of a key in `fieldPart`. -/
noncomputable def fieldCoef (E B : Vec3) : FKey → ℂ
  | .e q => if q = 0 then -sph E 0 else if q = 1 then sph E (-1) else sph E 1
  | .b q => if q = 0 then -sph B 0 else if q = 1 then sph B (-1) else sph B 1
  | .d _ _ => 0
  | .ion _ => 0

/-- The factors the library uses differ from those of `fieldPart` by the tolerance and the square of the magnetic field. -/
theorem fieldCoef_near (C : FieldConsts) (radial : RadKey → ℝ) (me : Method) (st : Fin N → Option QN) (p : FieldParams) (key : FKey) (hk : key ∈ allKeys 0) :
    ‖effCoef (fieldInter C radial me st) p key - fieldCoef p.E p.B key‖ ≤ 3 * p.B.len ^ 2 + 4e-24 := by
  obtain ⟨e1, e2, e3⟩ := eff_e C radial me st p
  obtain ⟨b1, b2, b3⟩ := eff_b C radial me st p
  have B2 := sq_nonneg p.B.len
  have near : ∀ z : ℂ, ‖cut z - z‖ ≤ 3 * p.B.len ^ 2 + 4e-24 := fun z => (cut_near z).trans (by norm_num; linarith)
  have nearm : ∀ z : ℂ, ‖-cut z - -z‖ ≤ 3 * p.B.len ^ 2 + 4e-24 := fun z => by
    rw [← norm_neg, show -(-cut z - -z) = cut z - z by ring]; exact near z
  have dia : ∀ k q : ℤ, (k, q) ∈ [((0 : ℤ), (0 : ℤ)), (2, 0), (2, 1), (2, -1), (2, 2), (2, -2)] →
      ‖effCoef (fieldInter C radial me st) p (.d k q) - fieldCoef p.E p.B (.d k q)‖ ≤ 3 * p.B.len ^ 2 + 4e-24 := by
    intro k q h
    have d := eff_d_diff C radial me st { p with B := ⟨0, 0, 0⟩ } p rfl k q h
    have z : effCoef (fieldInter C radial me st) { p with B := ⟨0, 0, 0⟩ } (.d k q) = 0 := by
      rw [eff_d C radial me st _ k q h]
      obtain ⟨t0, t1, t2⟩ := sph_along_z 0
      have : diaTerm ⟨0, 0, 0⟩ k q = 0 := by
        unfold diaTerm; rw [t0, t1, t2]; simp
      show (if p.dia then diaFactor k q * cut (diaTerm ⟨0, 0, 0⟩ k q) else 0) = 0
      rw [this]; unfold cut; simp
    rw [z] at d
    refine d.trans ?_
    split_ifs
    · have z0 : (⟨0, 0, 0⟩ : Vec3).len = 0 := by unfold Vec3.len; simp
      have s0 : p.B.sub ⟨0, 0, 0⟩ = p.B := by unfold Vec3.sub; simp
      show 3 * ((p.B.len + (⟨0, 0, 0⟩ : Vec3).len) * (p.B.sub ⟨0, 0, 0⟩).len) + 4e-24 ≤ _
      rw [z0, s0, add_zero, sq]
    · norm_num; linarith
  unfold allKeys at hk
  simp only [List.range_zero, List.map_nil, List.toFinset_nil, Finset.union_empty, Finset.mem_insert, Finset.mem_singleton] at hk
  rcases hk with rfl | rfl | rfl | rfl | rfl | rfl | rfl | rfl | rfl | rfl | rfl | rfl
  · rw [e1]; exact nearm _
  · rw [e2]; exact near _
  · rw [e3]; exact near _
  · rw [b1]; exact nearm _
  · rw [b2]; exact near _
  · rw [b3]; exact near _
  all_goals exact dia _ _ (by simp)

/-- The operator of the fields is `fieldPart` up to the tolerance and terms quadratic in the magnetic field. -/
theorem weak_operator (C : FieldConsts) (radial : RadKey → ℝ) (me : Method) (st : Fin N → Option QN) (hst : GoodStates st) :
    ∃ z : ℝ, 0 ≤ z ∧ ∀ (D : Matrix (Fin N) (Fin N) ℂ) (p : FieldParams), (p.charge = 0 ∨ p.dist = none) →
      ∃ Z, stateOper (fieldInter C radial me st) D p = D + fieldPart C radial me st p.E p.B + Z ∧ BoundedBy Z (z * (p.B.len ^ 2 + 1e-23)) := by
  set I := fieldInter C radial me st with hI
  set b : FKey → ℝ := fun key => ∑ i, ∑ j, ‖I.op key i j‖ with hb
  have b0 : ∀ key, 0 ≤ b key := fun key => by positivity
  refine ⟨∑ key ∈ allKeys 0, 4 * b key, Finset.sum_nonneg fun key _ => by linarith [b0 key], fun D p hc => ?_⟩
  have keys : addKeys p = addKeys { p with order := 0 } := by
    unfold addKeys
    rw [if_neg (c := p.charge ≠ 0 ∧ p.dist.isSome) (by rcases hc with h | h <;> simp [h])]
    dsimp only
    rw [if_neg (c := p.charge ≠ 0 ∧ p.dist.isSome) (by rcases hc with h | h <;> simp [h])]
  have hop : fieldPart C radial me st p.E p.B = ∑ key ∈ allKeys 0, fieldCoef p.E p.B key • I.op key := by
    have oe : ∀ q, I.op (.e q) = dipoleT C radial me st q := fun q => (C37_operators C radial me st hst q).1
    have ob : ∀ q, I.op (.b q) = magneticT C radial me st q := fun q => (C37_operators C radial me st hst q).2.1
    unfold allKeys
    rw [List.range_zero, List.map_nil, List.toFinset_nil, Finset.union_empty,
      Finset.sum_insert (by decide), Finset.sum_insert (by decide), Finset.sum_insert (by decide), Finset.sum_insert (by decide), Finset.sum_insert (by decide),
      Finset.sum_insert (by decide), Finset.sum_insert (by decide), Finset.sum_insert (by decide), Finset.sum_insert (by decide), Finset.sum_insert (by decide),
      Finset.sum_insert (by decide), Finset.sum_singleton, oe, oe, oe, ob, ob, ob]
    unfold fieldPart
    rw [dotOp_eq, dotOp_eq]
    have m1 : ¬ ((-1 : ℤ) = 1) := by norm_num
    have m0 : ¬ ((-1 : ℤ) = 0) := by norm_num
    have i0 : ¬ ((1 : ℤ) = 0) := by norm_num
    simp only [fieldCoef, if_true, if_neg m1, if_neg m0, if_neg i0, zero_smul, add_zero]
    module
  refine ⟨∑ key ∈ allKeys 0, (effCoef I p key - fieldCoef p.E p.B key) • I.op key, ?_, ?_⟩
  · rw [stateOper_eff I D p (allKeys 0) (addKeys_nodup p) (fun key hk => addKeys_all { p with order := 0 } key (keys ▸ hk)), hop, add_assoc, ← Finset.sum_add_distrib]
    congr 1
    refine Finset.sum_congr rfl fun key _ => ?_
    rw [← add_smul]; congr 1; ring
  · intro x
    refine (bounded_sum (allKeys 0) _ (fun key => ‖effCoef I p key - fieldCoef p.E p.B key‖ * b key) (fun key _ => bounded_smul (bounded_entries _) _) x).trans
      (mul_le_mul_of_nonneg_right ?_ (by rw [sqNorm_eq]; positivity))
    rw [Finset.sum_mul]
    refine Finset.sum_le_sum fun key hk => ?_
    have := mul_le_mul_of_nonneg_right (fieldCoef_near C radial me st p key hk) (b0 key)
    have f : 3 * p.B.len ^ 2 + 4e-24 ≤ 4 * (p.B.len ^ 2 + 1e-23) := by norm_num; linarith [sq_nonneg p.B.len]
    refine this.trans ((mul_le_mul_of_nonneg_right f (b0 key)).trans_eq (by ring))

/-- The interaction is Hermitian. -/
theorem fieldPart_herm (C : FieldConsts) (radial : RadKey → ℝ) (me : Method) (st : Fin N → Option QN) (hst : GoodStates st) (E B : Vec3) :
    (fieldPart C radial me st E B).IsHermitian := by
  have conj : ∀ raw : ℤ → Matrix (Fin N) (Fin N) ℂ, ∀ q, (compOp raw q)ᴴ = ((sgn q : ℝ) : ℂ) • compOp raw (-q) := by
    intro raw q
    rcases lt_trichotomy q 0 with h | h | h
    · have := compOp_neg raw (-q) (by omega)
      rw [neg_neg] at this
      have hs : sgn (-q) = sgn q := by unfold sgn; congr 1; apply propext; omega
      rw [this, Matrix.conjTranspose_smul, Matrix.conjTranspose_conjTranspose, ← sgn_neg_one_pow, hs]
      simp
    · subst h
      rw [compOp_zero_herm]; simp [sgn]
    · rw [compOp_neg raw q h, smul_smul, ← sgn_neg_one_pow, ← Complex.ofReal_mul, sgn_self]; simp
  have oe : ∀ q, (dipoleT C radial me st q)ᴴ = ((sgn q : ℝ) : ℂ) • dipoleT C radial me st (-q) := by
    intro q
    have a := fun q => (C37_operators C radial me st hst q).1
    unfold dipoleT
    rw [← a, ← a]
    exact conj _ q
  have ob : ∀ q, (magneticT C radial me st q)ᴴ = ((sgn q : ℝ) : ℂ) • magneticT C radial me st (-q) := by
    intro q
    have a := fun q => (C37_operators C radial me st hst q).2.1
    unfold magneticT
    rw [← a, ← a]
    exact conj _ q
  have h1 := dotOp_herm E _ oe
  have h2 := dotOp_herm B _ ob
  unfold fieldPart
  exact h1.neg.sub h2

/-- The elements of the interaction within the level: the Zeeman shifts on the diagonal. -/
theorem fieldPart_level (C : FieldConsts) (radial : RadKey → ℝ) (me : Method) (st : Fin N → Option QN) (hst : GoodStates st) (E : Vec3) (Bz : ℝ) (a : QN) (r c : Fin N) (m1 m2 : ℤ)
    (h1 : st r = some { a with m := m1 }) (h2 : st c = some { a with m := m2 }) :
    fieldPart C radial me st E ⟨0, 0, Bz⟩ r c = if m1 = m2 then (zeemanShift C radial me a m2 Bz : ℂ) else 0 := by
  have p1 := (hst r _ h1).1
  have p2 := (hst c _ h2).1
  have d0 : ∀ q, dipoleT C radial me st q r c = 0 := by
    intro q
    have := electric_entry C radial me st hst q r c (by
      intro x y hx hy
      rw [h1] at hx; rw [h2] at hy
      obtain rfl := Option.some.inj hx
      obtain rfl := Option.some.inj hy
      show (a.l + a.l) % 2 = 0
      omega)
    rw [(C37_operators C radial me st hst q).1] at this
    exact this
  have zB : dotOp (⟨0, 0, Bz⟩ : Vec3) (magneticT C radial me st) = (Bz : ℂ) • magneticT C radial me st 0 := by unfold dotOp; simp
  unfold fieldPart
  rw [zB]
  unfold dotOp
  simp only [Matrix.sub_apply, Matrix.neg_apply, Matrix.add_apply, Matrix.smul_apply, d0, smul_eq_mul]
  unfold magneticT tensorMat
  rw [h1, h2]
  dsimp only
  by_cases h : m1 = m2
  · rw [if_pos (by omega), if_pos h]
    unfold magSpec valB
    rw [if_pos rfl, C117_magnetic_moment C.elem radial me a m1 m2 p1 p2]
    unfold spinElt outVal zeemanShift
    rw [if_pos h]
    push_cast
    ring
  · rw [if_neg (by omega), if_neg h]; simp

theorem len_comp (v : Vec3) : |v.x| ≤ v.len ∧ |v.y| ≤ v.len ∧ |v.z| ≤ v.len := by
  unfold Vec3.len
  refine ⟨Real.abs_le_sqrt ?_, Real.abs_le_sqrt ?_, Real.abs_le_sqrt ?_⟩ <;> nlinarith [sq_nonneg v.x, sq_nonneg v.y, sq_nonneg v.z]

/-- The elements of the interaction are bounded by the strength of the fields. -/
theorem fieldPart_bound (C : FieldConsts) (radial : RadKey → ℝ) (me : Method) (st : Fin N → Option QN) :
    ∃ b : ℝ, 0 ≤ b ∧ ∀ (E : Vec3) (Bz : ℝ) r c, ‖fieldPart C radial me st E ⟨0, 0, Bz⟩ r c‖ ≤ b * (E.len + |Bz|) := by
  set S := ∑ r, ∑ c, (2 * ‖dipoleT C radial me st (-1) r c‖ + 2 * ‖dipoleT C radial me st 1 r c‖ + ‖dipoleT C radial me st 0 r c‖ + ‖magneticT C radial me st 0 r c‖) with hS
  have S0 : 0 ≤ S := by positivity
  refine ⟨S, S0, fun E Bz r c => ?_⟩
  have le : 2 * ‖dipoleT C radial me st (-1) r c‖ + 2 * ‖dipoleT C radial me st 1 r c‖ + ‖dipoleT C radial me st 0 r c‖ + ‖magneticT C radial me st 0 r c‖ ≤ S :=
    (Finset.single_le_sum (f := fun c => 2 * ‖dipoleT C radial me st (-1) r c‖ + 2 * ‖dipoleT C radial me st 1 r c‖ + ‖dipoleT C radial me st 0 r c‖ + ‖magneticT C radial me st 0 r c‖)
      (fun c _ => by positivity) (Finset.mem_univ c)).trans
      (Finset.single_le_sum (f := fun r => ∑ c, (2 * ‖dipoleT C radial me st (-1) r c‖ + 2 * ‖dipoleT C radial me st 1 r c‖ + ‖dipoleT C radial me st 0 r c‖ + ‖magneticT C radial me st 0 r c‖))
        (fun r _ => by positivity) (Finset.mem_univ r))
  obtain ⟨ex, ey, ez⟩ := len_comp E
  have l0 : 0 ≤ E.len := Real.sqrt_nonneg _
  have half : ∀ t : ℝ, |t / Real.sqrt 2| ≤ |t| := by
    intro t
    rw [abs_div, abs_of_nonneg (Real.sqrt_nonneg 2)]
    refine div_le_self (abs_nonneg _) ?_
    rw [Real.one_le_sqrt]; norm_num
  have zB : dotOp (⟨0, 0, Bz⟩ : Vec3) (magneticT C radial me st) = (Bz : ℂ) • magneticT C radial me st 0 := by unfold dotOp; simp
  unfold fieldPart
  rw [zB]
  unfold dotOp
  simp only [Matrix.sub_apply, Matrix.neg_apply, Matrix.add_apply, Matrix.smul_apply, smul_eq_mul]
  generalize dipoleT C radial me st (-1) r c = u at *
  generalize dipoleT C radial me st 1 r c = v at *
  generalize dipoleT C radial me st 0 r c = w at *
  generalize magneticT C radial me st 0 r c = y at *
  have n1 : ‖((E.x / Real.sqrt 2 : ℝ) : ℂ) * (u - v)‖ ≤ E.len * (‖u‖ + ‖v‖) := by
    rw [norm_mul, Complex.norm_real, Real.norm_eq_abs]
    exact mul_le_mul ((half _).trans ex) (norm_sub_le _ _) (norm_nonneg _) l0
  have n2 : ‖Complex.I * ((E.y / Real.sqrt 2 : ℝ) : ℂ) * (u + v)‖ ≤ E.len * (‖u‖ + ‖v‖) := by
    rw [norm_mul, norm_mul, Complex.norm_I, one_mul, Complex.norm_real, Real.norm_eq_abs]
    exact mul_le_mul ((half _).trans ey) (norm_add_le _ _) (norm_nonneg _) l0
  have n3 : ‖(E.z : ℂ) * w‖ ≤ E.len * ‖w‖ := by
    rw [norm_mul, Complex.norm_real, Real.norm_eq_abs]
    exact mul_le_mul_of_nonneg_right ez (norm_nonneg _)
  have n4 : ‖(Bz : ℂ) * y‖ = |Bz| * ‖y‖ := by rw [norm_mul, Complex.norm_real, Real.norm_eq_abs]
  refine (norm_sub_le _ _).trans ?_
  rw [norm_neg, n4]
  have t := (norm_add_le (((E.x / Real.sqrt 2 : ℝ) : ℂ) * (u - v) + Complex.I * ((E.y / Real.sqrt 2 : ℝ) : ℂ) * (u + v)) ((E.z : ℂ) * w)).trans (add_le_add (norm_add_le _ _) le_rfl)
  have hu := norm_nonneg u; have hv := norm_nonneg v; have hw := norm_nonneg w; have hy := norm_nonneg y
  have b0 := abs_nonneg Bz
  have q1 : E.len * (2 * ‖u‖ + 2 * ‖v‖ + ‖w‖) ≤ E.len * S := mul_le_mul_of_nonneg_left (by linarith) l0
  have q2 : |Bz| * ‖y‖ ≤ |Bz| * S := mul_le_mul_of_nonneg_left (by linarith) b0
  nlinarith

theorem len_z (f : ℝ) : (⟨0, 0, f⟩ : Vec3).len = |f| := by
  unfold Vec3.len
  simp [Real.sqrt_sq_eq_abs]

/-- The levels of the Hamiltonian without the quadratic terms. -/
theorem weak_core (C : FieldConsts) (radial : RadKey → ℝ) (me : Method) (st : Fin N → Option QN) (hst : GoodStates st) (en : Fin N → ℝ) (E0 : ℝ) (a : QN)
    {m : ℕ} (lev : Fin m → Fin N) (mj : Fin m → ℤ) (hL : FineLevel st en E0 a lev mj) :
    ∃ K F0 : ℝ, 0 ≤ K ∧ 0 < F0 ∧ ∀ (E : Vec3) (Bz F : ℝ), 0 < F → F ≤ F0 → E.len + |Bz| ≤ F →
      ∀ U d, Diagonalizes ((Matrix.diagonal fun c => (en c : ℂ)) + fieldPart C radial me st E ⟨0, 0, Bz⟩) U d → Monotone d →
        ∀ π : Equiv.Perm (Fin m), (Monotone fun j => zeemanShift C radial me a (mj (π j)) Bz) →
          ∀ (j : Fin m) (i : Fin N), i.val = (Finset.univ.filter fun c => en c < E0).card + j.val →
            |d i - (E0 + zeemanShift C radial me a (mj (π j)) Bz)| ≤ K * F ^ 2 := by
  obtain ⟨b, b0, hb⟩ := fieldPart_bound C radial me st
  obtain ⟨K, x0, hK, hx0, H⟩ := first_order_levels_sorted en E0 (m := m) (by
    have : (Finset.univ.filter fun c => en c = E0) = Finset.univ.image lev := by
      ext c
      rw [Finset.mem_filter, Finset.mem_image]
      exact ⟨fun h => let ⟨l, hl⟩ := (hL.all c).1 h.2; ⟨l, Finset.mem_univ _, hl⟩, fun ⟨l, _, hl⟩ => ⟨Finset.mem_univ _, (hL.all c).2 ⟨l, hl⟩⟩⟩
    rw [this, Finset.card_image_of_injective _ hL.inj, Finset.card_univ, Fintype.card_fin]) b b0
  refine ⟨K, x0, hK, hx0, fun E Bz F hF hF0 hEB U d hU hd π hπ j i hi => ?_⟩
  set W := ((1 / F : ℝ) : ℂ) • fieldPart C radial me st E ⟨0, 0, Bz⟩ with hW
  have FW : fieldPart C radial me st E ⟨0, 0, Bz⟩ = (F : ℂ) • W := by
    rw [hW, smul_smul, ← Complex.ofReal_mul, mul_one_div, div_self hF.ne', Complex.ofReal_one, one_smul]
  have lvl : ∀ r c m1 m2, st r = some { a with m := m1 } → st c = some { a with m := m2 } → W r c = if m1 = m2 then ((zeemanShift C radial me a m2 Bz / F : ℝ) : ℂ) else 0 := by
    intro r c m1 m2 h1 h2
    rw [hW, Matrix.smul_apply, fieldPart_level C radial me st hst E Bz a r c m1 m2 h1 h2, smul_eq_mul]
    split_ifs
    · push_cast; ring
    · rw [mul_zero]
  have Wb : ∀ r c, ‖W r c‖ ≤ b := by
    intro r c
    rw [hW, Matrix.smul_apply, smul_eq_mul, norm_mul, Complex.norm_real, Real.norm_eq_abs, abs_of_pos (by positivity), one_div_mul_eq_div, div_le_iff₀ hF]
    exact (hb _ _ _ _).trans (mul_le_mul_of_nonneg_left hEB b0)
  rw [FW] at hU
  have step2 := H W (fun j => zeemanShift C radial me a (mj (π j)) Bz / F) (fun j => Pi.single (lev (π j)) 1) Wb (by
      intro j
      have := Wb (lev (π j)) (lev (π j))
      rw [lvl _ _ _ _ (hL.entry _) (hL.entry _), if_pos rfl, Complex.norm_real, Real.norm_eq_abs] at this
      exact this) (fun i j h => div_le_div_of_nonneg_right (hπ h) hF.le) (by
      intro i j
      by_cases h : i = j
      · subst h; simp [dotProduct, Pi.single_apply]
      · have : lev (π i) ≠ lev (π j) := fun hl => h (π.injective (hL.inj hl))
        simp [h, dotProduct, Pi.single_apply, Ne.symm this]) (by
      intro j c hc
      rw [Pi.single_apply, if_neg]
      rintro rfl
      exact hc ((hL.all _).2 ⟨_, rfl⟩)) (by
      intro j c hc
      obtain ⟨l, rfl⟩ := (hL.all c).1 hc
      have col : (W *ᵥ Pi.single (lev (π j)) 1) (lev l) = W (lev l) (lev (π j)) := by simp
      rw [col, lvl _ _ _ _ (hL.entry _) (hL.entry _), Pi.single_apply]
      by_cases h : l = π j
      · subst h; rw [if_pos rfl, if_pos rfl, mul_one]
      · rw [if_neg fun hm => h (hL.distinct hm), if_neg fun hl => h (hL.inj hl), mul_zero]) F hF (by rw [abs_of_pos hF]; exact hF0) U d hU hd j i hi
  rw [abs_of_pos hF, mul_div_cancel₀ _ hF.ne'] at step2
  exact step2

theorem fieldHam_herm (C : FieldConsts) (radial : RadKey → ℝ) (me : Method) (st : Fin N → Option QN) (hst : GoodStates st) (en : Fin N → ℝ) (E B : Vec3) :
    ((Matrix.diagonal fun c => (en c : ℂ)) + fieldPart C radial me st E B).IsHermitian := by
  refine Matrix.IsHermitian.add ?_ (fieldPart_herm C radial me st hst E B)
  rw [Matrix.IsHermitian, Matrix.diagonal_conjTranspose]; congr 1; funext i; simp

/-- **C126.** Levels in weak fields: for a fine-structure level (any sublevels that are all states of the energy E0) there are constants K and F0 such that for all electric fields of any direction and
magnetic fields along z of strength at most F ≤ F0, with or without diamagnetism, any history of the system, the energies of the numbers of the level in the sorted list are
E0 + μ_B g_J m B, in the order of the shifts, up to K (F² + 10⁻²³); the library ignores field components below 10⁻²⁴. -/
theorem C126_weak_fields (C : FieldConsts) (radial : RadKey → ℝ) (me : Method) (st : Fin N → Option QN) (hst : GoodStates st) (en : Fin N → ℝ) (E0 : ℝ) (a : QN)
    {m : ℕ} (lev : Fin m → Fin N) (mj : Fin m → ℤ) (hL : FineLevel st en E0 a lev mj) :
    ∃ K F0 : ℝ, 0 ≤ K ∧ 0 < F0 ∧ ∀ s0 s s' : CSys FieldParams FKey (Fin N) (Fin N), s0.Fresh (fieldInter C radial me st) → s0.V = 1 → s0.H = (Matrix.diagonal fun c => (en c : ℂ)) →
      Hist (fieldInter C radial me st) s0 s → s.build (fieldInter C radial me st) = .ok s' →
      ∀ Bz F : ℝ, s.p.B = ⟨0, 0, Bz⟩ → (s.p.charge = 0 ∨ s.p.dist = none) → 0 < F → F ≤ F0 → s.p.E.len + |Bz| ≤ F →
        ∀ X e, Diagonalizes s'.H X e → Monotone e → ∀ π : Equiv.Perm (Fin m), (Monotone fun j => zeemanShift C radial me a (mj (π j)) Bz) →
          ∀ (j : Fin m) (i : Fin N), i.val = (Finset.univ.filter fun c => en c < E0).card + j.val →
            |e i - (E0 + zeemanShift C radial me a (mj (π j)) Bz)| ≤ K * (F ^ 2 + 1e-23) := by
  obtain ⟨K, F0, hK, hF0, H⟩ := weak_core C radial me st hst en E0 a lev mj hL
  obtain ⟨z, z0, hz⟩ := weak_operator C radial me st hst
  refine ⟨K + z, F0, by positivity, hF0, fun s0 s s' h0 hV hH hs hbd Bz F hB hc hF hF0 hEB X e hX he π hπ j i hi => ?_⟩
  obtain ⟨Y, hY⟩ := diagonalizes_start _ (Matrix.diagonal fun c => (en c : ℂ)) s0 s s' h0 (by rw [hV, hH]; simp) hs hbd X e hX
  rw [hV, Matrix.conjTranspose_one, Matrix.one_mul, Matrix.mul_one] at hY
  obtain ⟨Z, hZ, bZ⟩ := hz (Matrix.diagonal fun c => (en c : ℂ)) s.p hc
  rw [hZ] at hY
  obtain ⟨U, d, hU, hd⟩ := diagonalizes_sorted _ (fieldHam_herm C radial me st hst en s.p.E s.p.B)
  have step1 := weyl_sorted _ _ _ bZ Y e hY he U d hU hd i
  rw [hB] at hU step1
  have step2 := H s.p.E Bz F hF hF0 hEB U d hU hd π hπ j i hi
  rw [len_z] at step1
  have small : |Bz| ^ 2 ≤ F ^ 2 := by
    have l0 : 0 ≤ s.p.E.len := Real.sqrt_nonneg _
    exact pow_le_pow_left₀ (abs_nonneg _) (by linarith) 2
  have step3 := step1.trans (mul_le_mul_of_nonneg_left (add_le_add_left small _) z0)
  have tri := abs_sub_le (e i) (d i) (E0 + zeemanShift C radial me a (mj (π j)) Bz)
  have k23 : 0 ≤ K * (1e-23 : ℝ) := mul_nonneg hK (by norm_num)
  nlinarith

/-- Some rotation turns a vector to the z axis. -/
theorem align_z (v : Vec3) : ∃ α β, rotateVectorEuler v α β 0 = ⟨0, 0, v.len⟩ := by
  refine ⟨Complex.arg ⟨v.x, v.y⟩, Complex.arg ⟨v.z, ‖(⟨v.x, v.y⟩ : ℂ)‖⟩, ?_⟩
  have hx := Complex.norm_mul_cos_arg ⟨v.x, v.y⟩
  have hy := Complex.norm_mul_sin_arg ⟨v.x, v.y⟩
  have hz := Complex.norm_mul_cos_arg ⟨v.z, ‖(⟨v.x, v.y⟩ : ℂ)‖⟩
  have hρ := Complex.norm_mul_sin_arg ⟨v.z, ‖(⟨v.x, v.y⟩ : ℂ)‖⟩
  have n1 : ‖(⟨v.x, v.y⟩ : ℂ)‖ ^ 2 = v.x ^ 2 + v.y ^ 2 := by rw [Complex.sq_norm, Complex.normSq_mk]; ring
  have n2 : ‖(⟨v.z, ‖(⟨v.x, v.y⟩ : ℂ)‖⟩ : ℂ)‖ = v.len := by
    unfold Vec3.len
    rw [Complex.norm_def, Complex.normSq_mk, ← sq ‖_‖, n1]
    congr 1; ring
  rw [n2] at hz hρ
  dsimp only at hx hy hz hρ
  generalize Complex.arg ⟨v.z, ‖(⟨v.x, v.y⟩ : ℂ)‖⟩ = β at *
  generalize Complex.arg ⟨v.x, v.y⟩ = α at *
  generalize ‖(⟨v.x, v.y⟩ : ℂ)‖ = ρ at *
  generalize v.len = L at *
  have c1 := Real.sin_sq_add_cos_sq α
  have c2 := Real.sin_sq_add_cos_sq β
  rw [rotateVectorEuler_eq]
  unfold buildRotatorEuler rotZ3 rotY3 Vec3.ofFn Vec3.fn
  rw [Vec3.mk.injEq]
  simp [Matrix.mulVec, dotProduct, Fin.sum_univ_three, Matrix.mul_apply, Matrix.transpose_apply]
  rw [← hx, ← hy, ← hz, ← hρ]
  refine ⟨?_, ?_, ?_⟩
  · linear_combination (L * Real.sin β * Real.cos β) * c1
  · ring
  · linear_combination (L * Real.sin β ^ 2) * c1 + L * c2

/-- **C126 (any direction).** With all sublevels of every level: the same for magnetic fields of any direction, with the strength of the field. -/
theorem C126_any_direction (C : FieldConsts) (radial : RadKey → ℝ) (me : Method) (st : Fin N → Option QN) (hst : GoodStates st) (hr : RotStates st) (hz : AllZeeman st) (en : Fin N → ℝ) (hen : LevelEnergies st en)
    (E0 : ℝ) (a : QN) {m : ℕ} (lev : Fin m → Fin N) (mj : Fin m → ℤ) (hL : FineLevel st en E0 a lev mj) :
    ∃ K F0 : ℝ, 0 ≤ K ∧ 0 < F0 ∧ ∀ s0 s s' : CSys FieldParams FKey (Fin N) (Fin N), s0.Fresh (fieldInter C radial me st) → s0.V = 1 → s0.H = (Matrix.diagonal fun c => (en c : ℂ)) →
      Hist (fieldInter C radial me st) s0 s → s.build (fieldInter C radial me st) = .ok s' →
      ∀ F : ℝ, (s.p.charge = 0 ∨ s.p.dist = none) → 0 < F → F ≤ F0 → s.p.E.len + s.p.B.len ≤ F →
        ∀ X e, Diagonalizes s'.H X e → Monotone e → ∀ π : Equiv.Perm (Fin m), (Monotone fun j => zeemanShift C radial me a (mj (π j)) s.p.B.len) →
          ∀ (j : Fin m) (i : Fin N), i.val = (Finset.univ.filter fun c => en c < E0).card + j.val →
            |e i - (E0 + zeemanShift C radial me a (mj (π j)) s.p.B.len)| ≤ K * (F ^ 2 + 1e-23) := by
  obtain ⟨K, F0, hK, hF0, H⟩ := weak_core C radial me st hst en E0 a lev mj hL
  obtain ⟨z, z0, hzz⟩ := weak_operator C radial me st hst
  refine ⟨K + z, F0, by positivity, hF0, fun s0 s s' h0 hV hH hs hbd F hc hF hF0 hEB X e hX he π hπ j i hi => ?_⟩
  obtain ⟨Y, hY⟩ := diagonalizes_start _ (Matrix.diagonal fun c => (en c : ℂ)) s0 s s' h0 (by rw [hV, hH]; simp) hs hbd X e hX
  rw [hV, Matrix.conjTranspose_one, Matrix.one_mul, Matrix.mul_one] at hY
  obtain ⟨Z, hZ, bZ⟩ := hzz (Matrix.diagonal fun c => (en c : ℂ)) s.p hc
  rw [hZ] at hY
  obtain ⟨U, d, hU, hd⟩ := diagonalizes_sorted _ (fieldHam_herm C radial me st hst en s.p.E s.p.B)
  have step1 := weyl_sorted _ _ _ bZ Y e hY he U d hU hd i
  obtain ⟨α, β, hαβ⟩ := align_z s.p.B
  have hsu := euler2_su (-0) (-β) (-α)
  set M := rotSymMat st (euler2 (-0) (-β) (-α)) with hM
  have u1 : M * Mᴴ = 1 := rotSymMat_row st hr hz hsu
  have u2 : Mᴴ * M = 1 := mul_eq_one_comm.1 u1
  have rot : M * ((Matrix.diagonal fun c => (en c : ℂ)) + fieldPart C radial me st s.p.E s.p.B) * Mᴴ =
      (Matrix.diagonal fun c => (en c : ℂ)) + fieldPart C radial me st (rotateVectorEuler s.p.E α β 0) ⟨0, 0, s.p.B.len⟩ := by
    have f := fieldOperator_rotate C radial me st hr hz hst hsu s.p.E s.p.B (rotateVectorEuler s.p.E α β 0) (rotateVectorEuler s.p.B α β 0)
      (moves_euler α β 0 s.p.E) (moves_euler α β 0 s.p.B) (C79_euler_isometry s.p.B s.p.B α β 0) false
    unfold fieldOperator at f
    simp only [Bool.false_eq_true, if_false, add_zero] at f
    rw [Matrix.mul_add, Matrix.add_mul, energies_rotate st hr hz hsu en hen]
    rw [hαβ] at f
    unfold fieldPart
    rw [f]
  have hU' : Diagonalizes ((Matrix.diagonal fun c => (en c : ℂ)) + fieldPart C radial me st (rotateVectorEuler s.p.E α β 0) ⟨0, 0, s.p.B.len⟩) (M * U) d := by
    rw [← rot]
    refine ⟨?_, ?_⟩
    · rw [Matrix.conjTranspose_mul, Matrix.mul_assoc, ← Matrix.mul_assoc Mᴴ, u2, Matrix.one_mul, hU.1]
    · rw [Matrix.mul_assoc, ← Matrix.mul_assoc Mᴴ, u2, Matrix.one_mul, Matrix.mul_assoc, hU.2, Matrix.mul_assoc]
  have lE : (rotateVectorEuler s.p.E α β 0).len = s.p.E.len := by
    have := C79_euler_isometry s.p.E s.p.E α β 0
    unfold Vec3.dot at this
    unfold Vec3.len
    congr 1
    linarith
  have lB : 0 ≤ s.p.B.len := Real.sqrt_nonneg _
  have step2 := H (rotateVectorEuler s.p.E α β 0) s.p.B.len F hF hF0 (by rw [lE, abs_of_nonneg lB]; exact hEB) (M * U) d hU' hd π hπ j i hi
  have small : s.p.B.len ^ 2 ≤ F ^ 2 := by
    have l0 : 0 ≤ s.p.E.len := Real.sqrt_nonneg _
    exact pow_le_pow_left₀ lB (by linarith) 2
  have step3 := step1.trans (mul_le_mul_of_nonneg_left (add_le_add_left small _) z0)
  have tri := abs_sub_le (e i) (d i) (E0 + zeemanShift C radial me a (mj (π j)) s.p.B.len)
  have k23 : 0 ≤ K * (1e-23 : ℝ) := mul_nonneg hK (by norm_num)
  nlinarith

/-- **C126 (no linear Stark effect).** In weak electric fields alone, of any direction, the energies of a fine-structure level stay at E0 up to K (F² + 10⁻²³). -/
theorem C126_no_linear_stark (C : FieldConsts) (radial : RadKey → ℝ) (me : Method) (st : Fin N → Option QN) (hst : GoodStates st) (en : Fin N → ℝ) (E0 : ℝ) (a : QN)
    {m : ℕ} (lev : Fin m → Fin N) (mj : Fin m → ℤ) (hL : FineLevel st en E0 a lev mj) :
    ∃ K F0 : ℝ, 0 ≤ K ∧ 0 < F0 ∧ ∀ s0 s s' : CSys FieldParams FKey (Fin N) (Fin N), s0.Fresh (fieldInter C radial me st) → s0.V = 1 → s0.H = (Matrix.diagonal fun c => (en c : ℂ)) →
      Hist (fieldInter C radial me st) s0 s → s.build (fieldInter C radial me st) = .ok s' →
      s.p.B = ⟨0, 0, 0⟩ → (s.p.charge = 0 ∨ s.p.dist = none) → 0 < s.p.E.len → s.p.E.len ≤ F0 →
        ∀ X e, Diagonalizes s'.H X e → Monotone e →
          ∀ (j : Fin m) (i : Fin N), i.val = (Finset.univ.filter fun c => en c < E0).card + j.val → |e i - E0| ≤ K * (s.p.E.len ^ 2 + 1e-23) := by
  obtain ⟨K, F0, hK, hF0, H⟩ := C126_weak_fields C radial me st hst en E0 a lev mj hL
  refine ⟨K, F0, hK, hF0, fun s0 s s' h0 hV hH hs hb hB hc hE hEF X e hX he j i hi => ?_⟩
  have z : ∀ x, zeemanShift C radial me a x 0 = 0 := fun x => by unfold zeemanShift; ring
  have := H s0 s s' h0 hV hH hs hb 0 _ hB hc hE hEF (by rw [abs_zero, add_zero]) X e hX he 1 (by
    intro x y _
    dsimp only
    rw [z, z]) j i hi
  rwa [z, add_zero] at this

/-- **C126 (magnetic field).** In weak magnetic fields along z alone and for sublevels listed by ascending m, a level with positive product of Landé factor, μ_B and radial overlap follows
E0 + μ_B g_J m B for B > 0: the numbers of the level in the sorted list are in the order of m. -/
theorem C126_zeeman (C : FieldConsts) (radial : RadKey → ℝ) (me : Method) (st : Fin N → Option QN) (hst : GoodStates st) (en : Fin N → ℝ) (E0 : ℝ) (a : QN)
    {m : ℕ} (lev : Fin m → Fin N) (mj : Fin m → ℤ) (hL : FineLevel st en E0 a lev mj) (hm : Monotone mj)
    (hg : 0 ≤ C.elem.muB * landeFactor C.elem.gL C.elem.gS a.l a.s a.j * radial (RadKey.make me a.species 0 a.n a.n a.l a.l a.j a.j)) :
    ∃ K F0 : ℝ, 0 ≤ K ∧ 0 < F0 ∧ ∀ s0 s s' : CSys FieldParams FKey (Fin N) (Fin N), s0.Fresh (fieldInter C radial me st) → s0.V = 1 → s0.H = (Matrix.diagonal fun c => (en c : ℂ)) →
      Hist (fieldInter C radial me st) s0 s → s.build (fieldInter C radial me st) = .ok s' →
      ∀ Bz : ℝ, s.p.E = ⟨0, 0, 0⟩ → s.p.B = ⟨0, 0, Bz⟩ → (s.p.charge = 0 ∨ s.p.dist = none) → 0 < Bz → Bz ≤ F0 →
        ∀ X e, Diagonalizes s'.H X e → Monotone e →
          ∀ (j : Fin m) (i : Fin N), i.val = (Finset.univ.filter fun c => en c < E0).card + j.val →
            |e i - (E0 + C.elem.muB * landeFactor C.elem.gL C.elem.gS a.l a.s a.j * ((mj j : ℝ) / 2) * Bz * radial (RadKey.make me a.species 0 a.n a.n a.l a.l a.j a.j))| ≤ K * (Bz ^ 2 + 1e-23) := by
  obtain ⟨K, F0, hK, hF0, H⟩ := C126_weak_fields C radial me st hst en E0 a lev mj hL
  refine ⟨K, F0, hK, hF0, fun s0 s s' h0 hV hH hs hb Bz hE hB hc hB0 hBF X e hX he j i hi => ?_⟩
  exact H s0 s s' h0 hV hH hs hb Bz Bz hB hc hB0 hBF (by rw [hE, abs_of_pos hB0]; unfold Vec3.len; simp) X e hX he 1 (by
    intro x y h
    have : (mj x : ℝ) ≤ mj y := by exact_mod_cast hm h
    show zeemanShift C radial me a (mj x) Bz ≤ zeemanShift C radial me a (mj y) Bz
    have f : ∀ t, zeemanShift C radial me a t Bz = C.elem.muB * landeFactor C.elem.gL C.elem.gS a.l a.s a.j * radial (RadKey.make me a.species 0 a.n a.n a.l a.l a.j a.j) * Bz * ((t : ℝ) / 2) := by
      intro t; unfold zeemanShift; ring
    rw [f, f]
    exact mul_le_mul_of_nonneg_left (by linarith) (mul_nonneg hg hB0.le)) j i hi

/-! ## The hypotheses can be met: 60 P1/2 and 60 S1/2 -/

/-- The sublevels of 60 P1/2 and of 60 S1/2. -/
def zStates : Fin 4 → Option QN := ![some (gP (-1)), some (gP 1), some (gS (-1)), some (gS 1)]

theorem zStates_cases {i : Fin 4} {v : QN} (h : zStates i = some v) : (i = 0 ∧ v = gP (-1)) ∨ (i = 1 ∧ v = gP 1) ∨ (i = 2 ∧ v = gS (-1)) ∨ (i = 3 ∧ v = gS 1) := by
  fin_cases i
  · exact Or.inl ⟨rfl, (Option.some.inj h).symm⟩
  · exact Or.inr (Or.inl ⟨rfl, (Option.some.inj h).symm⟩)
  · exact Or.inr (Or.inr (Or.inl ⟨rfl, (Option.some.inj h).symm⟩))
  · exact Or.inr (Or.inr (Or.inr ⟨rfl, (Option.some.inj h).symm⟩))

theorem zStates_good : GoodStates zStates := by
  have s1 : (gS 1).Physical := by unfold QN.Physical gS; decide
  have s2 : (gS (-1)).Physical := by unfold QN.Physical gS; decide
  have p1 : (gP 1).Physical := by unfold QN.Physical gP; decide
  have p2 : (gP (-1)).Physical := by unfold QN.Physical gP; decide
  intro i a ha
  refine ⟨?_, fun j b hb => ?_⟩
  · rcases zStates_cases ha with ⟨-, rfl⟩ | ⟨-, rfl⟩ | ⟨-, rfl⟩ | ⟨-, rfl⟩ <;> assumption
  · rcases zStates_cases ha with ⟨-, rfl⟩ | ⟨-, rfl⟩ | ⟨-, rfl⟩ | ⟨-, rfl⟩ <;>
      rcases zStates_cases hb with ⟨-, rfl⟩ | ⟨-, rfl⟩ | ⟨-, rfl⟩ | ⟨-, rfl⟩ <;> exact ⟨rfl, rfl⟩

theorem zStates_rot : RotStates zStates := by
  refine ⟨fun i => ?_, fun i a ha => ?_, by decide⟩
  · fin_cases i <;> exact ⟨_, rfl⟩
  · rcases zStates_cases ha with ⟨-, rfl⟩ | ⟨-, rfl⟩ | ⟨-, rfl⟩ | ⟨-, rfl⟩ <;> refine ⟨by decide, by decide, ?_⟩ <;> constructor <;> decide

theorem zStates_all : AllZeeman zStates := by
  intro i a ha m hm
  have hm2 : m = 1 ∨ m = -1 := by
    have hj : a.j = 1 := by rcases zStates_cases ha with ⟨-, rfl⟩ | ⟨-, rfl⟩ | ⟨-, rfl⟩ | ⟨-, rfl⟩ <;> rfl
    rw [hj] at hm
    obtain ⟨h1, h2⟩ := hm
    omega
  rcases zStates_cases ha with ⟨-, rfl⟩ | ⟨-, rfl⟩ | ⟨-, rfl⟩ | ⟨-, rfl⟩ <;> rcases hm2 with rfl | rfl
  · exact ⟨1, rfl⟩
  · exact ⟨0, rfl⟩
  · exact ⟨1, rfl⟩
  · exact ⟨0, rfl⟩
  · exact ⟨3, rfl⟩
  · exact ⟨2, rfl⟩
  · exact ⟨3, rfl⟩
  · exact ⟨2, rfl⟩

theorem zStates_level : FineLevel zStates ![0, 0, 14, 14] 0 (gP 1) (![0, 1] : Fin 2 → Fin 4) ![-1, 1] := by
  refine ⟨fun j => by fin_cases j <;> rfl, by decide, by decide, fun c => ?_⟩
  fin_cases c
  · exact ⟨fun _ => ⟨0, rfl⟩, fun _ => rfl⟩
  · exact ⟨fun _ => ⟨1, rfl⟩, fun _ => rfl⟩
  · exact ⟨fun h => absurd (show (14 : ℝ) = 0 from h) (by norm_num), fun ⟨j, h⟩ => by fin_cases j <;> exact absurd h (by decide)⟩
  · exact ⟨fun h => absurd (show (14 : ℝ) = 0 from h) (by norm_num), fun ⟨j, h⟩ => by fin_cases j <;> exact absurd h (by decide)⟩

theorem zStates_below : (Finset.univ.filter fun c : Fin 4 => (![0, 0, 14, 14] : Fin 4 → ℝ) c < 0).card = 0 := by
  rw [Finset.card_eq_zero, Finset.filter_eq_empty_iff]
  intro c _
  fin_cases c <;> norm_num

/-- The two lowest energies of 60 P1/2 and 60 S1/2 in every weak magnetic field along z, with diamagnetism: E0 ∓ μ_B g_J B/2. -/
example (C : FieldConsts) (radial : RadKey → ℝ) (me : Method)
    (hg : 0 ≤ C.elem.muB * landeFactor C.elem.gL C.elem.gS 1 1 1 * radial (RadKey.make me "Rb" 0 60 60 1 1 1 1)) :
    ∃ K F0 : ℝ, 0 < F0 ∧ ∀ Bz : ℝ, 0 < Bz → Bz ≤ F0 → ∃ (s s' : CSys FieldParams FKey (Fin 4) (Fin 4)) (X : Matrix (Fin 4) (Fin 4) ℂ) (e : Fin 4 → ℝ),
      s.p = ⟨⟨0, 0, 0⟩, ⟨0, 0, Bz⟩, true, 0, 0, none⟩ ∧ s.build (fieldInter C radial me zStates) = .ok s' ∧ Diagonalizes s'.H X e ∧ Monotone e ∧
      |e 0 - -(C.elem.muB * landeFactor C.elem.gL C.elem.gS 1 1 1 * radial (RadKey.make me "Rb" 0 60 60 1 1 1 1) * Bz / 2)| ≤ K * (Bz ^ 2 + 1e-23) ∧
      |e 1 - C.elem.muB * landeFactor C.elem.gL C.elem.gS 1 1 1 * radial (RadKey.make me "Rb" 0 60 60 1 1 1 1) * Bz / 2| ≤ K * (Bz ^ 2 + 1e-23) := by
  obtain ⟨K, F0, hK, hF0, H⟩ := C126_zeeman C radial me zStates zStates_good ![0, 0, 14, 14] 0 (gP 1) (![0, 1] : Fin 2 → Fin 4) ![-1, 1] zStates_level
    (by intro i j h; fin_cases i <;> fin_cases j <;> first | decide | exact absurd h (by decide)) hg
  refine ⟨K, F0, hF0, fun Bz hB hBF => ?_⟩
  obtain ⟨s0, s, s', h0, hV, hH, hs, hb, hp, X, e, hX, he⟩ := one_atom_run C radial me zStates zStates_good ![0, 0, 14, 14] ⟨⟨0, 0, 0⟩, ⟨0, 0, Bz⟩, true, 0, 0, none⟩
  have h := H s0 s s' h0 hV hH hs hb Bz (by rw [hp]) (by rw [hp]) (by rw [hp]; exact Or.inl rfl) hB hBF X e hX he
  have t0 := h 0 0 (by rw [zStates_below]; rfl)
  have t1 := h 1 1 (by rw [zStates_below]; rfl)
  refine ⟨s, s', X, e, hp, hb, hX, he, ?_, ?_⟩
  · refine (le_of_eq ?_).trans t0
    congr 2
    simp [gP]; ring
  · refine (le_of_eq ?_).trans t1
    congr 2
    simp [gP]; ring

/-- The two lowest energies in every weak electric field along x with a magnetic field along y, with diamagnetism. -/
example (C : FieldConsts) (radial : RadKey → ℝ) (me : Method)
    (hg : 0 ≤ C.elem.muB * landeFactor C.elem.gL C.elem.gS 1 1 1 * radial (RadKey.make me "Rb" 0 60 60 1 1 1 1)) :
    ∃ K F0 : ℝ, 0 < F0 ∧ ∀ x : ℝ, 0 < x → 2 * x ≤ F0 → ∃ (s s' : CSys FieldParams FKey (Fin 4) (Fin 4)) (X : Matrix (Fin 4) (Fin 4) ℂ) (e : Fin 4 → ℝ),
      s.p = ⟨⟨x, 0, 0⟩, ⟨0, x, 0⟩, true, 0, 0, none⟩ ∧ s.build (fieldInter C radial me zStates) = .ok s' ∧ Diagonalizes s'.H X e ∧ Monotone e ∧
      |e 0 - (0 + zeemanShift C radial me (gP 1) (-1) x)| ≤ K * ((2 * x) ^ 2 + 1e-23) ∧ |e 1 - (0 + zeemanShift C radial me (gP 1) 1 x)| ≤ K * ((2 * x) ^ 2 + 1e-23) := by
  obtain ⟨K, F0, hK, hF0, H⟩ := C126_any_direction C radial me zStates zStates_good zStates_rot zStates_all ![0, 0, 14, 14] (by
    intro i k a b ha hb hab
    rcases zStates_cases ha with ⟨rfl, rfl⟩ | ⟨rfl, rfl⟩ | ⟨rfl, rfl⟩ | ⟨rfl, rfl⟩ <;>
      rcases zStates_cases hb with ⟨rfl, rfl⟩ | ⟨rfl, rfl⟩ | ⟨rfl, rfl⟩ | ⟨rfl, rfl⟩ <;> first | rfl | exact absurd hab (by decide)) 0 (gP 1) (![0, 1] : Fin 2 → Fin 4) ![-1, 1] zStates_level
  refine ⟨K, F0, hF0, fun x hx hxF => ?_⟩
  obtain ⟨s0, s, s', h0, hV, hH, hs, hb, hp, X, e, hX, he⟩ := one_atom_run C radial me zStates zStates_good ![0, 0, 14, 14] ⟨⟨x, 0, 0⟩, ⟨0, x, 0⟩, true, 0, 0, none⟩
  have lE : s.p.E.len = x := by rw [hp]; unfold Vec3.len; simp [abs_of_pos hx, Real.sqrt_sq_eq_abs]
  have lB : s.p.B.len = x := by rw [hp]; unfold Vec3.len; simp [abs_of_pos hx, Real.sqrt_sq_eq_abs]
  have f : ∀ t, zeemanShift C radial me (gP 1) t x = C.elem.muB * landeFactor C.elem.gL C.elem.gS 1 1 1 * radial (RadKey.make me "Rb" 0 60 60 1 1 1 1) * (x * ((t : ℝ) / 2)) := by
    intro t; unfold zeemanShift gP; ring
  have h := H s0 s s' h0 hV hH hs hb (2 * x) (by rw [hp]; exact Or.inl rfl) (by linarith) hxF (by rw [lE, lB]; linarith) X e hX he 1 (by
    rw [lB]
    intro i j hij
    show zeemanShift C radial me (gP 1) ((![-1, 1] : Fin 2 → ℤ) i) x ≤ zeemanShift C radial me (gP 1) ((![-1, 1] : Fin 2 → ℤ) j) x
    rw [f, f]
    refine mul_le_mul_of_nonneg_left (mul_le_mul_of_nonneg_left ?_ hx.le) hg
    fin_cases i <;> fin_cases j <;> first | exact absurd hij (by decide) | norm_num)
  have t0 := h 0 0 (by rw [zStates_below]; rfl)
  have t1 := h 1 1 (by rw [zStates_below]; rfl)
  rw [lB] at t0 t1
  exact ⟨s, s', X, e, hp, hb, hX, he, t0, t1⟩

end PI
