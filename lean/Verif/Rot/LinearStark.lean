import Verif.Rot.StarkShift

/-!
# C128: degenerate levels in weak fields, linear Stark effect
-/

namespace PI
open Matrix

variable {N : ℕ}

theorem dotOp_bound (T : ℤ → Matrix (Fin N) (Fin N) ℂ) : ∃ b : ℝ, 0 ≤ b ∧ ∀ (E : Vec3) r c, ‖dotOp E T r c‖ ≤ b * E.len := by
  set S := ∑ r, ∑ c, (2 * ‖T (-1) r c‖ + 2 * ‖T 1 r c‖ + ‖T 0 r c‖) with hS
  have S0 : 0 ≤ S := by positivity
  refine ⟨S, S0, fun E r c => ?_⟩
  have le : 2 * ‖T (-1) r c‖ + 2 * ‖T 1 r c‖ + ‖T 0 r c‖ ≤ S :=
    (Finset.single_le_sum (f := fun c => 2 * ‖T (-1) r c‖ + 2 * ‖T 1 r c‖ + ‖T 0 r c‖) (fun c _ => by positivity) (Finset.mem_univ c)).trans
      (Finset.single_le_sum (f := fun r => ∑ c, (2 * ‖T (-1) r c‖ + 2 * ‖T 1 r c‖ + ‖T 0 r c‖)) (fun r _ => by positivity) (Finset.mem_univ r))
  obtain ⟨ex, ey, ez⟩ := len_comp E
  have l0 : 0 ≤ E.len := Real.sqrt_nonneg _
  have half : ∀ t : ℝ, |t / Real.sqrt 2| ≤ |t| := by
    intro t
    rw [abs_div, abs_of_nonneg (Real.sqrt_nonneg 2)]
    refine div_le_self (abs_nonneg _) ?_
    rw [Real.one_le_sqrt]; norm_num
  unfold dotOp
  simp only [Matrix.sub_apply, Matrix.add_apply, Matrix.smul_apply, smul_eq_mul]
  generalize T (-1) r c = u at *
  generalize T 1 r c = v at *
  generalize T 0 r c = w at *
  have n1 : ‖((E.x / Real.sqrt 2 : ℝ) : ℂ) * (u - v)‖ ≤ E.len * (‖u‖ + ‖v‖) := by
    rw [norm_mul, Complex.norm_real, Real.norm_eq_abs]
    exact mul_le_mul ((half _).trans ex) (norm_sub_le _ _) (norm_nonneg _) l0
  have n2 : ‖Complex.I * ((E.y / Real.sqrt 2 : ℝ) : ℂ) * (u + v)‖ ≤ E.len * (‖u‖ + ‖v‖) := by
    rw [norm_mul, norm_mul, Complex.norm_I, one_mul, Complex.norm_real, Real.norm_eq_abs]
    exact mul_le_mul ((half _).trans ey) (norm_add_le _ _) (norm_nonneg _) l0
  have n3 : ‖(E.z : ℂ) * w‖ ≤ E.len * ‖w‖ := by
    rw [norm_mul, Complex.norm_real, Real.norm_eq_abs]
    exact mul_le_mul_of_nonneg_right ez (norm_nonneg _)
  have t := (norm_add_le (((E.x / Real.sqrt 2 : ℝ) : ℂ) * (u - v) + Complex.I * ((E.y / Real.sqrt 2 : ℝ) : ℂ) * (u + v)) ((E.z : ℂ) * w)).trans (add_le_add (norm_add_le _ _) le_rfl)
  have q1 : E.len * (2 * ‖u‖ + 2 * ‖v‖ + ‖w‖) ≤ E.len * S := mul_le_mul_of_nonneg_left (by linarith) l0
  nlinarith

/-- The elements of the interaction are bounded by the strength of the fields. -/
theorem fieldPart_bounded (C : FieldConsts) (radial : RadKey → ℝ) (me : Method) (st : Fin N → Option QN) :
    ∃ b : ℝ, 0 ≤ b ∧ ∀ (E B : Vec3) r c, ‖fieldPart C radial me st E B r c‖ ≤ b * (E.len + B.len) := by
  obtain ⟨b1, p1, h1⟩ := dotOp_bound (dipoleT C radial me st)
  obtain ⟨b2, p2, h2⟩ := dotOp_bound (magneticT C radial me st)
  refine ⟨b1 + b2, by positivity, fun E B r c => ?_⟩
  unfold fieldPart
  rw [Matrix.sub_apply, Matrix.neg_apply]
  refine (norm_sub_le _ _).trans ?_
  rw [norm_neg]
  have := h1 E r c
  have := h2 B r c
  have e0 : 0 ≤ E.len := Real.sqrt_nonneg _
  have e1 : 0 ≤ B.len := Real.sqrt_nonneg _
  nlinarith [mul_nonneg p1 e1, mul_nonneg p2 e0]

/-- The states of the energy E0, each once. -/
structure LevelList {m : ℕ} (en : Fin N → ℝ) (E0 : ℝ) (lev : Fin m → Fin N) : Prop where
  inj : Function.Injective lev
  all : ∀ c, en c = E0 ↔ ∃ j, lev j = c

theorem degenerate_core (C : FieldConsts) (radial : RadKey → ℝ) (me : Method) (st : Fin N → Option QN) (en : Fin N → ℝ) (E0 : ℝ)
    {m : ℕ} (lev : Fin m → Fin N) (hL : LevelList en E0 lev) :
    ∃ K F0 : ℝ, 0 ≤ K ∧ 0 < F0 ∧ ∀ (E B : Vec3) (F : ℝ), 0 < F → F ≤ F0 → E.len + B.len ≤ F →
      ∀ U d, Diagonalizes ((Matrix.diagonal fun c => (en c : ℂ)) + fieldPart C radial me st E B) U d → Monotone d →
        ∀ (V : Matrix (Fin m) (Fin m) ℂ) (μ : Fin m → ℝ), Diagonalizes (Matrix.of fun i j : Fin m => fieldPart C radial me st E B (lev i) (lev j)) V μ → Monotone μ →
          ∀ (j : Fin m) (i : Fin N), i.val = (Finset.univ.filter fun c => en c < E0).card + j.val → |d i - (E0 + μ j)| ≤ K * F ^ 2 := by
  obtain ⟨b, b0, hb⟩ := fieldPart_bounded C radial me st
  obtain ⟨K, x0, hK, hx0, H⟩ := first_order_levels_sorted en E0 (m := m) (by
    have : (Finset.univ.filter fun c => en c = E0) = Finset.univ.image lev := by
      ext c
      rw [Finset.mem_filter, Finset.mem_image]
      exact ⟨fun h => let ⟨l, hl⟩ := (hL.all c).1 h.2; ⟨l, Finset.mem_univ _, hl⟩, fun ⟨l, _, hl⟩ => ⟨Finset.mem_univ _, (hL.all c).2 ⟨l, hl⟩⟩⟩
    rw [this, Finset.card_image_of_injective _ hL.inj, Finset.card_univ, Fintype.card_fin]) (b + m * (m * b)) (by positivity)
  refine ⟨K, x0, hK, hx0, fun E B F hF hF0 hEB U d hU hd V μ hV hμ j i hi => ?_⟩
  set P := fieldPart C radial me st E B with hP
  set W := ((1 / F : ℝ) : ℂ) • P with hW
  have FW : P = (F : ℂ) • W := by
    rw [hW, smul_smul, ← Complex.ofReal_mul, mul_one_div, div_self hF.ne', Complex.ofReal_one, one_smul]
  have Wb : ∀ r c, ‖W r c‖ ≤ b := by
    intro r c
    rw [hW, Matrix.smul_apply, smul_eq_mul, norm_mul, Complex.norm_real, Real.norm_eq_abs, abs_of_pos (by positivity), one_div_mul_eq_div, div_le_iff₀ hF]
    exact (hb _ _ _ _).trans (mul_le_mul_of_nonneg_left hEB b0)
  have hV' : Diagonalizes (Matrix.of fun i j : Fin m => W (lev i) (lev j)) V fun j => μ j / F := by
    refine ⟨hV.1, ?_⟩
    have e1 : (Matrix.of fun i j : Fin m => W (lev i) (lev j)) = ((1 / F : ℝ) : ℂ) • Matrix.of fun i j : Fin m => P (lev i) (lev j) := rfl
    have e2 : (Matrix.diagonal fun j => ((μ j / F : ℝ) : ℂ)) = ((1 / F : ℝ) : ℂ) • Matrix.diagonal fun j => (μ j : ℂ) := by
      rw [← Matrix.diagonal_smul]
      congr 1
      funext j
      show ((μ j / F : ℝ) : ℂ) = ((1 / F : ℝ) : ℂ) * (μ j : ℂ)
      push_cast; ring
    rw [e1, e2, Matrix.smul_mul, hV.2, Matrix.mul_smul]
  rw [FW] at hU
  let w : Fin m → Fin N → ℂ := fun j c => ∑ l, if lev l = c then V l j else 0
  have w1 : ∀ j l, w j (lev l) = V l j := by
    intro j l
    show (∑ l', if lev l' = lev l then V l' j else 0) = V l j
    rw [Finset.sum_eq_single l, if_pos rfl]
    · intro l' _ h
      rw [if_neg fun hl => h (hL.inj hl)]
    · intro h; exact absurd (Finset.mem_univ l) h
  have w2 : ∀ j c, c ∉ Set.range lev → w j c = 0 := by
    intro j c hc
    refine Finset.sum_eq_zero fun l _ => if_neg fun hl => hc ⟨l, hl⟩
  have lvl : ∀ l, en (lev l) = E0 := fun l => (hL.all _).2 ⟨l, rfl⟩
  have sum1 : ∀ (F : Fin N → ℂ), (∀ c, c ∉ Set.range lev → F c = 0) → ∑ c, F c = ∑ l, F (lev l) := fun F hF =>
    (Fintype.sum_of_injective lev hL.inj (fun l => F (lev l)) F hF fun _ => rfl).symm
  have step2 := H W (fun j => μ j / F) w (fun c d => (Wb c d).trans (le_add_of_nonneg_right (by positivity))) (fun j => by
      refine (eigen_bound _ V _ hV' j).trans (le_trans ?_ (le_add_of_nonneg_left b0))
      refine (Finset.sum_le_card_nsmul _ _ (m * b) fun i _ => ?_).trans_eq (by simp)
      refine (Finset.sum_le_card_nsmul _ _ b fun k _ => ?_).trans_eq (by simp)
      rw [Matrix.of_apply]
      exact Wb _ _) (fun i j h => div_le_div_of_nonneg_right (hμ h) hF.le) (by
      intro i j
      show ∑ c, star (w i) c * w j c = _
      rw [sum1 _ fun c hc => by rw [w2 j c hc, mul_zero]]
      simp only [Pi.star_apply, w1]
      have := congrFun (congrFun hV.1 i) j
      rw [Matrix.mul_apply, Matrix.one_apply] at this
      exact this) (by
      intro j c hc
      refine w2 j c fun ⟨l, hl⟩ => hc ?_
      rw [← hl, lvl]) (by
      intro j c hc
      obtain ⟨i, rfl⟩ := (hL.all c).1 hc
      show ∑ d, W (lev i) d * w j d = _
      rw [sum1 _ fun c hc => by rw [w2 j c hc, mul_zero]]
      simp only [w1]
      have := congrFun (congrFun hV'.2 i) j
      rw [Matrix.mul_diagonal, Matrix.mul_apply, mul_comm] at this
      exact this) F hF (by rw [abs_of_pos hF]; exact hF0) U d hU hd j i hi
  rw [abs_of_pos hF, mul_div_cancel₀ _ hF.ne'] at step2
  exact step2

/-- **C128.** Any level in weak fields, also with accidental degeneracies: the energies are E0 + the sorted eigenvalues of -E·d - B·μ within the level, up to K (F² + 10⁻²³), for electric and magnetic fields
of any directions and of strength together at most F ≤ F0, with or without diamagnetism, after any history. -/
theorem C128_degenerate (C : FieldConsts) (radial : RadKey → ℝ) (me : Method) (st : Fin N → Option QN) (hst : GoodStates st) (en : Fin N → ℝ) (E0 : ℝ)
    {m : ℕ} (lev : Fin m → Fin N) (hL : LevelList en E0 lev) :
    ∃ K F0 : ℝ, 0 ≤ K ∧ 0 < F0 ∧ ∀ s0 s s' : CSys FieldParams FKey (Fin N) (Fin N), s0.Fresh (fieldInter C radial me st) → s0.V = 1 → s0.H = (Matrix.diagonal fun c => (en c : ℂ)) →
      Hist (fieldInter C radial me st) s0 s → s.build (fieldInter C radial me st) = .ok s' →
      ∀ F : ℝ, (s.p.charge = 0 ∨ s.p.dist = none) → 0 < F → F ≤ F0 → s.p.E.len + s.p.B.len ≤ F →
        ∀ X e, Diagonalizes s'.H X e → Monotone e →
          ∀ (V : Matrix (Fin m) (Fin m) ℂ) (μ : Fin m → ℝ), Diagonalizes (Matrix.of fun i j : Fin m => fieldPart C radial me st s.p.E s.p.B (lev i) (lev j)) V μ → Monotone μ →
            ∀ (j : Fin m) (i : Fin N), i.val = (Finset.univ.filter fun c => en c < E0).card + j.val → |e i - (E0 + μ j)| ≤ K * (F ^ 2 + 1e-23) := by
  obtain ⟨K, F0, hK, hF0, H⟩ := degenerate_core C radial me st en E0 lev hL
  obtain ⟨z, z0, hz⟩ := weak_operator C radial me st hst
  refine ⟨K + z, F0, by positivity, hF0, fun s0 s s' h0 hV hH hs hbd F hc hF hF0 hEB X e hX he V μ hVm hμ j i hi => ?_⟩
  obtain ⟨Y, hY⟩ := diagonalizes_start _ (Matrix.diagonal fun c => (en c : ℂ)) s0 s s' h0 (by rw [hV, hH]; simp) hs hbd X e hX
  rw [hV, Matrix.conjTranspose_one, Matrix.one_mul, Matrix.mul_one] at hY
  obtain ⟨Z, hZ, bZ⟩ := hz (Matrix.diagonal fun c => (en c : ℂ)) s.p hc
  rw [hZ] at hY
  obtain ⟨U, d, hU, hd⟩ := diagonalizes_sorted _ (fieldHam_herm C radial me st hst en s.p.E s.p.B)
  have step1 := weyl_sorted _ _ _ bZ Y e hY he U d hU hd i
  have step2 := H s.p.E s.p.B F hF hF0 hEB U d hU hd V μ hVm hμ j i hi
  have small : s.p.B.len ^ 2 ≤ F ^ 2 := by
    have l0 : 0 ≤ s.p.E.len := Real.sqrt_nonneg _
    have b1 : 0 ≤ s.p.B.len := Real.sqrt_nonneg _
    have b2 : s.p.B.len ≤ F := by linarith
    exact pow_le_pow_left₀ b1 b2 2
  have step3 := step1.trans (mul_le_mul_of_nonneg_left (add_le_add_left small _) z0)
  have tri := abs_sub_le (e i) (d i) (E0 + μ j)
  have k23 : 0 ≤ K * (1e-23 : ℝ) := mul_nonneg hK (by norm_num)
  nlinarith

/-- **C128 (linear Stark effect).** Two degenerate states of opposite parity and equal m in a field along z: E0 ∓ F |⟨i|d_z|j⟩|. -/
theorem C128_linear_stark (C : FieldConsts) (radial : RadKey → ℝ) (me : Method) (st : Fin N → Option QN) (hst : GoodStates st) (en : Fin N → ℝ) (E0 : ℝ)
    (i0 j0 : Fin N) (a b : QN) (hi : st i0 = some a) (hj : st j0 = some b) (hm : a.m = b.m) (hL : LevelList en E0 ![i0, j0]) :
    ∃ K F0 : ℝ, 0 ≤ K ∧ 0 < F0 ∧ ∀ s0 s s' : CSys FieldParams FKey (Fin N) (Fin N), s0.Fresh (fieldInter C radial me st) → s0.V = 1 → s0.H = (Matrix.diagonal fun c => (en c : ℂ)) →
      Hist (fieldInter C radial me st) s0 s → s.build (fieldInter C radial me st) = .ok s' →
      ∀ f : ℝ, s.p.E = ⟨0, 0, f⟩ → s.p.B = ⟨0, 0, 0⟩ → (s.p.charge = 0 ∨ s.p.dist = none) → f ≠ 0 → |f| ≤ F0 → ∀ X e, Diagonalizes s'.H X e → Monotone e →
        ∀ k l : Fin N, k.val = (Finset.univ.filter fun c => en c < E0).card → l.val = k.val + 1 →
          |e k - (E0 - |f * outVal (electricMultipole C.elem radial me a b 1 1)|)| ≤ K * (f ^ 2 + 1e-23) ∧
          |e l - (E0 + |f * outVal (electricMultipole C.elem radial me a b 1 1)|)| ≤ K * (f ^ 2 + 1e-23) := by
  obtain ⟨K, F0, hK, hF0, H⟩ := C128_degenerate C radial me st hst en E0 _ hL
  refine ⟨K, F0, hK, hF0, fun s0 s s' h0 hV hH hs hbd f hE hB hc hf hfF X e hX he k l hk hl => ?_⟩
  set x := outVal (electricMultipole C.elem radial me a b 1 1) with hx
  obtain ⟨U, hU⟩ := two_state_shift (-(f * x))
  rw [abs_neg] at hU
  have herm := fieldPart_herm C radial me st hst s.p.E s.p.B
  have op : fieldPart C radial me st s.p.E s.p.B = ((-f : ℝ) : ℂ) • dipoleT C radial me st 0 := by
    rw [hE, hB]
    unfold fieldPart dotOp
    simp
  have dg : ∀ (r : Fin N) (c : QN), st r = some c → dipoleT C radial me st 0 r r = 0 := by
    intro r c hr
    have := electric_entry C radial me st hst 0 r r (by
      intro x y hx hy
      rw [hr] at hx hy
      obtain rfl := Option.some.inj hx
      obtain rfl := Option.some.inj hy
      omega)
    rw [(C37_operators C radial me st hst 0).1] at this
    exact this
  have e01 : fieldPart C radial me st s.p.E s.p.B i0 j0 = ((-(f * x) : ℝ) : ℂ) := by
    rw [op, Matrix.smul_apply]
    unfold dipoleT tensorMat
    rw [hi, hj]
    dsimp only
    rw [if_pos (by omega), ← hx, smul_eq_mul]
    push_cast
    ring
  have e10 : fieldPart C radial me st s.p.E s.p.B j0 i0 = ((-(f * x) : ℝ) : ℂ) := by
    rw [← herm.apply, e01]
    exact Complex.conj_ofReal _
  have hM : (Matrix.of fun i j : Fin 2 => fieldPart C radial me st s.p.E s.p.B ((![i0, j0] : Fin 2 → Fin N) i) ((![i0, j0] : Fin 2 → Fin N) j)) =
      !![0, ((-(f * x) : ℝ) : ℂ); ((-(f * x) : ℝ) : ℂ), 0] := by
    ext i j
    fin_cases i <;> fin_cases j
    · show fieldPart C radial me st s.p.E s.p.B i0 i0 = 0
      rw [op, Matrix.smul_apply, dg i0 a hi, smul_zero]
    · exact e01
    · exact e10
    · show fieldPart C radial me st s.p.E s.p.B j0 j0 = 0
      rw [op, Matrix.smul_apply, dg j0 b hj, smul_zero]
  have lE : s.p.E.len = |f| := by rw [hE, len_z]
  have lB : s.p.B.len = 0 := by rw [hB]; unfold Vec3.len; simp
  have R := H s0 s s' h0 hV hH hs hbd |f| hc (abs_pos.2 hf) hfF (by rw [lE, lB, add_zero]) X e hX he U ![-|f * x|, |f * x|] (by rw [hM]; exact hU) (by
      intro i j h
      have := abs_nonneg (f * x)
      fin_cases i <;> fin_cases j
      · exact le_rfl
      · show -|f * x| ≤ |f * x|
        linarith
      · exact absurd (show (1 : ℕ) ≤ 0 from h) (by omega)
      · exact le_rfl)
  rw [sq_abs] at R
  exact ⟨R 0 k (by rw [hk]; rfl), R 1 l (by rw [hl, hk]; rfl)⟩

/-- 60 S1/2 and 60 P1/2 with m = 1/2 at the same energy: in every weak field along z the level splits linearly. -/
example (C : FieldConsts) (radial : RadKey → ℝ) (me : Method) :
    ∃ K F0 : ℝ, 0 < F0 ∧ ∀ f : ℝ, f ≠ 0 → |f| ≤ F0 → ∃ (s s' : CSys FieldParams FKey (Fin 4) (Fin 4)) (X : Matrix (Fin 4) (Fin 4) ℂ) (e : Fin 4 → ℝ),
      s.p = ⟨⟨0, 0, f⟩, ⟨0, 0, 0⟩, true, 0, 0, none⟩ ∧ s.build (fieldInter C radial me zStates) = .ok s' ∧ Diagonalizes s'.H X e ∧ Monotone e ∧
      |e 0 - (0 - |f * outVal (electricMultipole C.elem radial me (gP 1) (gS 1) 1 1)|)| ≤ K * (f ^ 2 + 1e-23) ∧
      |e 1 - (0 + |f * outVal (electricMultipole C.elem radial me (gP 1) (gS 1) 1 1)|)| ≤ K * (f ^ 2 + 1e-23) := by
  obtain ⟨K, F0, hK, hF0, H⟩ := C128_linear_stark C radial me zStates zStates_good ![9, 0, 9, 0] 0 1 3 (gP 1) (gS 1) rfl rfl rfl (by
    refine ⟨by decide, fun c => ?_⟩
    fin_cases c
    · exact ⟨fun h => absurd (show (9 : ℝ) = 0 from h) (by norm_num), fun ⟨j, h⟩ => by fin_cases j <;> exact absurd h (by decide)⟩
    · exact ⟨fun _ => ⟨0, rfl⟩, fun _ => rfl⟩
    · exact ⟨fun h => absurd (show (9 : ℝ) = 0 from h) (by norm_num), fun ⟨j, h⟩ => by fin_cases j <;> exact absurd h (by decide)⟩
    · exact ⟨fun _ => ⟨1, rfl⟩, fun _ => rfl⟩)
  have below : (Finset.univ.filter fun c : Fin 4 => (![9, 0, 9, 0] : Fin 4 → ℝ) c < 0).card = 0 := by
    rw [Finset.card_eq_zero, Finset.filter_eq_empty_iff]
    intro c _
    fin_cases c <;> norm_num
  refine ⟨K, F0, hF0, fun f hf hfF => ?_⟩
  obtain ⟨s0, s, s', h0, hV, hH, hs, hb, hp, X, e, hX, he⟩ := one_atom_run C radial me zStates zStates_good ![9, 0, 9, 0] ⟨⟨0, 0, f⟩, ⟨0, 0, 0⟩, true, 0, 0, none⟩
  obtain ⟨h1, h2⟩ := H s0 s s' h0 hV hH hs hb f (by rw [hp]) (by rw [hp]) (by rw [hp]; exact Or.inl rfl) hf hfF X e hX he 0 1 (by rw [below]; rfl) rfl
  exact ⟨s, s', X, e, hp, hb, hX, he, h1, h2⟩

end PI
