import Verif.Rot.WeakFields

/-!
# C127: the quadratic Stark effect of a fine-structure level
-/

namespace PI
open Matrix

variable {N : ℕ}

/-- The levels in an electric field along z, without tolerance. -/
theorem stark_core (C : FieldConsts) (radial : RadKey → ℝ) (me : Method) (st : Fin N → Option QN) (hst : GoodStates st) (en : Fin N → ℝ) (E0 : ℝ) (a : QN)
    {m : ℕ} (lev : Fin m → Fin N) (mj : Fin m → ℤ) (hL : FineLevel st en E0 a lev mj)
    (π : Equiv.Perm (Fin m)) (hπ : Monotone fun j => secondShift en E0 (dipoleT C radial me st 0) (lev (π j))) :
    ∃ K F0 : ℝ, 0 ≤ K ∧ 0 < F0 ∧ ∀ f : ℝ, f ≠ 0 → |f| ≤ F0 →
      ∀ U d, Diagonalizes ((Matrix.diagonal fun c => (en c : ℂ)) + fieldPart C radial me st ⟨0, 0, f⟩ ⟨0, 0, 0⟩) U d → Monotone d →
        ∀ (j : Fin m) (i : Fin N), i.val = (Finset.univ.filter fun c => en c < E0).card + j.val →
          |d i - (E0 + f ^ 2 * secondShift en E0 (dipoleT C radial me st 0) (lev (π j)))| ≤ K * |f| ^ 3 := by
  set W := dipoleT C radial me st 0 with hW
  have herm : W.IsHermitian := by
    have := (C37_operators C radial me st hst 0).1
    rw [hW]
    unfold dipoleT
    rw [← this]
    exact compOp_zero_herm _
  have conj : ∀ r c, W r c = (starRingEnd ℂ) (W c r) := fun r c => (herm.apply r c).symm
  have d0 : ∀ l l', W (lev l) (lev l') = 0 := by
    intro l l'
    have := electric_entry C radial me st hst 0 (lev l) (lev l') (by
      intro x y hx hy
      rw [hL.entry] at hx hy
      obtain rfl := Option.some.inj hx
      obtain rfl := Option.some.inj hy
      show (a.l + a.l) % 2 = 0
      omega)
    rw [(C37_operators C radial me st hst 0).1] at this
    exact this
  have mz : ∀ l l', l ≠ l' → ∀ d, W (lev l) d = 0 ∨ W d (lev l') = 0 := by
    intro l l' hl d
    rw [hW]
    unfold dipoleT tensorMat
    rw [hL.entry l, hL.entry l']
    cases st d with
    | none => exact Or.inl rfl
    | some b =>
      dsimp only
      by_cases h : mj l - b.m = 2 * 0
      · right
        rw [if_neg]
        intro h'
        exact hl (hL.distinct (by omega))
      · left
        rw [if_neg h]
  obtain ⟨K, x0, hK, hx0, H⟩ := second_order_levels_sorted en W E0 (m := m) (by
    have : (Finset.univ.filter fun c => en c = E0) = Finset.univ.image lev := by
      ext c
      rw [Finset.mem_filter, Finset.mem_image]
      exact ⟨fun h => let ⟨l, hl⟩ := (hL.all c).1 h.2; ⟨l, Finset.mem_univ _, hl⟩, fun ⟨l, _, hl⟩ => ⟨Finset.mem_univ _, (hL.all c).2 ⟨l, hl⟩⟩⟩
    rw [this, Finset.card_image_of_injective _ hL.inj, Finset.card_univ, Fintype.card_fin])
    (fun j => secondShift en E0 W (lev (π j))) hπ (fun j => Pi.single (lev (π j)) 1) (by
      intro i j
      by_cases h : i = j
      · subst h; simp [dotProduct, Pi.single_apply]
      · have : lev (π i) ≠ lev (π j) := fun hl => h (π.injective (hL.inj hl))
        simp [h, dotProduct, Pi.single_apply, Ne.symm this]) (by
      intro j c hc
      rw [Pi.single_apply, if_neg]
      rintro rfl
      exact hc ((hL.all _).2 ⟨_, rfl⟩)) (by
      intro j c hc
      obtain ⟨l, rfl⟩ := (hL.all c).1 hc
      have col : (W *ᵥ Pi.single (lev (π j)) 1) (lev l) = W (lev l) (lev (π j)) := by simp
      rw [col, d0]) (by
      intro j c hc
      obtain ⟨l, rfl⟩ := (hL.all c).1 hc
      have col : (secondOrder en E0 W *ᵥ Pi.single (lev (π j)) 1) (lev l) = secondOrder en E0 W (lev l) (lev (π j)) := by simp
      rw [col, Pi.single_apply]
      unfold secondOrder
      by_cases h : l = π j
      · subst h
        rw [if_pos rfl, mul_one]
        unfold secondShift
        push_cast
        refine Finset.sum_congr rfl fun d _ => ?_
        split_ifs
        · simp
        · rw [conj (lev (π j)) d, ← Complex.normSq_eq_conj_mul_self, Complex.normSq_eq_norm_sq]
          push_cast
          ring
      · rw [if_neg fun hl => h (hL.inj hl), mul_zero]
        refine Finset.sum_eq_zero fun d _ => ?_
        split_ifs
        · rfl
        · rcases mz l (π j) h d with h' | h' <;> rw [h'] <;> simp)
  refine ⟨K, x0, hK, hx0, fun f hf hf0 U d hU hd j i hi => ?_⟩
  have op : fieldPart C radial me st ⟨0, 0, f⟩ ⟨0, 0, 0⟩ = ((-f : ℝ) : ℂ) • W := by
    unfold fieldPart dotOp
    simp [hW]
  rw [op] at hU
  have := H (-f) (neg_ne_zero.2 hf) (by rw [abs_neg]; exact hf0) U d hU hd j i hi
  rwa [abs_neg, neg_sq] at this

/-- **C127.** The quadratic Stark effect: with all sublevels of every level, in electric fields of any direction and strength F up to some F0, any history of the system, the energies of the numbers of
the level in the sorted list are E0 + F² · (the second-order sum ∑ |⟨d|p_z|m⟩|²/(E0 - E_d) of the sublevel), in the order of these sums, up to K (F³ + 10⁻²³). -/
theorem C127_stark (C : FieldConsts) (radial : RadKey → ℝ) (me : Method) (st : Fin N → Option QN) (hst : GoodStates st) (hr : RotStates st) (hz : AllZeeman st) (en : Fin N → ℝ) (hen : LevelEnergies st en)
    (E0 : ℝ) (a : QN) {m : ℕ} (lev : Fin m → Fin N) (mj : Fin m → ℤ) (hL : FineLevel st en E0 a lev mj)
    (π : Equiv.Perm (Fin m)) (hπ : Monotone fun j => secondShift en E0 (dipoleT C radial me st 0) (lev (π j))) :
    ∃ K F0 : ℝ, 0 ≤ K ∧ 0 < F0 ∧ ∀ s0 s s' : CSys FieldParams FKey (Fin N) (Fin N), s0.Fresh (fieldInter C radial me st) → s0.V = 1 → s0.H = (Matrix.diagonal fun c => (en c : ℂ)) →
      Hist (fieldInter C radial me st) s0 s → s.build (fieldInter C radial me st) = .ok s' →
      s.p.B = ⟨0, 0, 0⟩ → (s.p.charge = 0 ∨ s.p.dist = none) → 0 < s.p.E.len → s.p.E.len ≤ F0 → ∀ X e, Diagonalizes s'.H X e → Monotone e →
        ∀ (j : Fin m) (i : Fin N), i.val = (Finset.univ.filter fun c => en c < E0).card + j.val →
          |e i - (E0 + s.p.E.len ^ 2 * secondShift en E0 (dipoleT C radial me st 0) (lev (π j)))| ≤ K * (s.p.E.len ^ 3 + 1e-23) := by
  obtain ⟨K, F0, hK, hF0, H⟩ := stark_core C radial me st hst en E0 a lev mj hL π hπ
  obtain ⟨z, z0, hzz⟩ := weak_operator C radial me st hst
  refine ⟨K + z, F0, by positivity, hF0, fun s0 s s' h0 hV hH hs hbd hB hc hF hF0 X e hX he j i hi => ?_⟩
  obtain ⟨Y, hY⟩ := diagonalizes_start _ (Matrix.diagonal fun c => (en c : ℂ)) s0 s s' h0 (by rw [hV, hH]; simp) hs hbd X e hX
  rw [hV, Matrix.conjTranspose_one, Matrix.one_mul, Matrix.mul_one] at hY
  obtain ⟨Z, hZ, bZ⟩ := hzz (Matrix.diagonal fun c => (en c : ℂ)) s.p hc
  rw [hZ] at hY
  obtain ⟨U, d, hU, hd⟩ := diagonalizes_sorted _ (fieldHam_herm C radial me st hst en s.p.E s.p.B)
  have step1 := weyl_sorted _ _ _ bZ Y e hY he U d hU hd i
  obtain ⟨α, β, hαβ⟩ := align_z s.p.E
  have hsu := euler2_su (-0) (-β) (-α)
  set M := rotSymMat st (euler2 (-0) (-β) (-α)) with hM
  have u1 : M * Mᴴ = 1 := rotSymMat_row st hr hz hsu
  have u2 : Mᴴ * M = 1 := mul_eq_one_comm.1 u1
  have rB : rotateVectorEuler s.p.B α β 0 = ⟨0, 0, 0⟩ := by
    rw [hB]; unfold rotateVectorEuler; simp [Vec3.dot]
  have rot : M * ((Matrix.diagonal fun c => (en c : ℂ)) + fieldPart C radial me st s.p.E s.p.B) * Mᴴ =
      (Matrix.diagonal fun c => (en c : ℂ)) + fieldPart C radial me st ⟨0, 0, s.p.E.len⟩ ⟨0, 0, 0⟩ := by
    have f := fieldOperator_rotate C radial me st hr hz hst hsu s.p.E s.p.B (rotateVectorEuler s.p.E α β 0) (rotateVectorEuler s.p.B α β 0)
      (moves_euler α β 0 s.p.E) (moves_euler α β 0 s.p.B) (C79_euler_isometry s.p.B s.p.B α β 0) false
    unfold fieldOperator at f
    simp only [Bool.false_eq_true, if_false, add_zero] at f
    rw [Matrix.mul_add, Matrix.add_mul, energies_rotate st hr hz hsu en hen]
    rw [hαβ, rB] at f
    unfold fieldPart
    rw [f]
  have hU' : Diagonalizes ((Matrix.diagonal fun c => (en c : ℂ)) + fieldPart C radial me st ⟨0, 0, s.p.E.len⟩ ⟨0, 0, 0⟩) (M * U) d := by
    rw [← rot]
    refine ⟨?_, ?_⟩
    · rw [Matrix.conjTranspose_mul, Matrix.mul_assoc, ← Matrix.mul_assoc Mᴴ, u2, Matrix.one_mul, hU.1]
    · rw [Matrix.mul_assoc, ← Matrix.mul_assoc Mᴴ, u2, Matrix.one_mul, Matrix.mul_assoc, hU.2, Matrix.mul_assoc]
  have step2 := H s.p.E.len hF.ne' (by rw [abs_of_pos hF]; exact hF0) (M * U) d hU' hd j i hi
  rw [abs_of_pos hF] at step2
  have b0 : s.p.B.len = 0 := by rw [hB]; unfold Vec3.len; simp
  rw [b0] at step1
  have tri := abs_sub_le (e i) (d i) (E0 + s.p.E.len ^ 2 * secondShift en E0 (dipoleT C radial me st 0) (lev (π j)))
  have k23 : 0 ≤ K * (1e-23 : ℝ) := mul_nonneg hK (by norm_num)
  have zF : 0 ≤ z * s.p.E.len ^ 3 := by positivity
  nlinarith

/-- The sublevels m and -m have the same second-order sum. -/
theorem C127_mirror (C : FieldConsts) (radial : RadKey → ℝ) (me : Method) (st : Fin N → Option QN) (hst : GoodStates st) (hf : FlipClosed st) (en : Fin N → ℝ) (hen : LevelEnergies st en)
    (E0 : ℝ) (i k : Fin N) (a : QN) (hi : st i = some a) (hk : st k = some { a with m := -a.m }) :
    secondShift en E0 (dipoleT C radial me st 0) i = secondShift en E0 (dipoleT C radial me st 0) k := by
  have herm : (dipoleT C radial me st 0).IsHermitian := by
    have := (C37_operators C radial me st hst 0).1
    unfold dipoleT
    rw [← this]
    exact compOp_zero_herm _
  have ex : ∀ d, ∃ d' b, st d = some b ∧ st d' = some b.flip := fun d => by
    obtain ⟨b, hb⟩ := hf.all d
    obtain ⟨d', hd⟩ := hf.flip d b hb
    exact ⟨d', b, hb, hd⟩
  choose σ b hb hσ using ex
  have inv : ∀ d, σ (σ d) = d := by
    intro d
    apply hf.inj
    have h1 := hσ (σ d)
    have h2 := hb (σ d)
    rw [hσ d] at h2
    rw [h1, ← Option.some.inj h2, qn_flip_flip, hb d]
  have hk' : st k = some a.flip := hk
  have sg : ∀ x, ‖((sgnZ x : ℤ) : ℂ)‖ = 1 := by
    intro x
    unfold sgnZ
    split_ifs <;> simp
  unfold secondShift
  refine Finset.sum_nbij' σ σ (fun _ _ => Finset.mem_univ _) (fun _ _ => Finset.mem_univ _) (fun d _ => inv d) (fun d _ => inv d) fun d _ => ?_
  have he : en (σ d) = en d := (hen d (σ d) (b d) (b d).flip (hb d) (hσ d) rfl).symm
  rw [he]
  split_ifs with h
  · rfl
  · congr 2
    rw [← herm.apply d i, norm_star]
    unfold dipoleT tensorMat
    rw [hi, hb d, hσ d, hk']
    dsimp only
    have hm : (b d).flip.m - a.flip.m = a.m - (b d).m := by show -(b d).m - -a.m = _; ring
    rw [hm]
    by_cases h0 : a.m - (b d).m = 2 * 0
    · rw [if_pos h0, if_pos h0, multipole_flip C.elem radial me (b d) a 1 1 (hst d _ (hb d)).1 (hst i a hi).1 ((hst d _ (hb d)).2 i a hi).1 ((hst d _ (hb d)).2 i a hi).2]
      unfold reversalSign
      push_cast
      rw [norm_mul, norm_mul, sg, sg, one_mul, one_mul]
    · rw [if_neg h0, if_neg h0]

/-- The sum has only terms of states of opposite parity and equal m: if they all lie above the level, the sublevel is lowered. -/
theorem C127_lowered (C : FieldConsts) (radial : RadKey → ℝ) (me : Method) (st : Fin N → Option QN) (hst : GoodStates st) (en : Fin N → ℝ)
    (E0 : ℝ) (i : Fin N) (a : QN) (hi : st i = some a) (h : ∀ d b, st d = some b → b.m = a.m → (b.l + a.l) % 2 = 1 → E0 ≤ en d) :
    secondShift en E0 (dipoleT C radial me st 0) i ≤ 0 := by
  unfold secondShift
  refine Finset.sum_nonpos fun d _ => ?_
  split_ifs with hd
  · exact le_rfl
  by_cases hW : dipoleT C radial me st 0 d i = 0
  · rw [hW]; simp
  have odd : ∀ b, st d = some b → (b.l + a.l) % 2 = 1 := by
    intro b hb
    by_contra hne
    apply hW
    have := electric_entry C radial me st hst 0 d i (by
      intro x y hx hy
      rw [hb] at hx
      rw [hi] at hy
      obtain rfl := Option.some.inj hx
      obtain rfl := Option.some.inj hy
      omega)
    rw [(C37_operators C radial me st hst 0).1] at this
    exact this
  have some' : ∃ b, st d = some b ∧ b.m = a.m := by
    unfold dipoleT tensorMat at hW
    rw [hi] at hW
    cases hb : st d with
    | none => rw [hb] at hW; exact absurd rfl hW
    | some b =>
      rw [hb] at hW
      dsimp only at hW
      refine ⟨b, rfl, ?_⟩
      by_contra hne
      exact hW (if_neg (by omega))
  obtain ⟨b, hb, hm⟩ := some'
  exact div_nonpos_of_nonneg_of_nonpos (sq_nonneg _) (by linarith [h d b hb hm (odd b hb)])

/-- 60 P1/2 with 60 S1/2 above it is lowered. -/
example (C : FieldConsts) (radial : RadKey → ℝ) (me : Method) : secondShift ![0, 0, 14, 14] 0 (dipoleT C radial me zStates 0) 1 ≤ 0 :=
  C127_lowered C radial me zStates zStates_good _ 0 1 (gP 1) rfl (by
    intro d b _ _ _
    fin_cases d <;> norm_num)

/-- The Stark shift of 60 P1/2 by 60 S1/2, in every weak electric field along x: both sublevels by the same second-order sum. -/
example (C : FieldConsts) (radial : RadKey → ℝ) (me : Method) :
    ∃ K F0 : ℝ, 0 < F0 ∧ ∀ x : ℝ, 0 < x → x ≤ F0 → ∃ (s s' : CSys FieldParams FKey (Fin 4) (Fin 4)) (X : Matrix (Fin 4) (Fin 4) ℂ) (e : Fin 4 → ℝ),
      s.p = ⟨⟨x, 0, 0⟩, ⟨0, 0, 0⟩, true, 0, 0, none⟩ ∧ s.build (fieldInter C radial me zStates) = .ok s' ∧ Diagonalizes s'.H X e ∧ Monotone e ∧
      |e 0 - (0 + x ^ 2 * secondShift ![0, 0, 14, 14] 0 (dipoleT C radial me zStates 0) 0)| ≤ K * (x ^ 3 + 1e-23) ∧
      |e 1 - (0 + x ^ 2 * secondShift ![0, 0, 14, 14] 0 (dipoleT C radial me zStates 0) 0)| ≤ K * (x ^ 3 + 1e-23) := by
  have hen : LevelEnergies zStates ![0, 0, 14, 14] := by
    intro i k a b ha hb hab
    rcases zStates_cases ha with ⟨rfl, rfl⟩ | ⟨rfl, rfl⟩ | ⟨rfl, rfl⟩ | ⟨rfl, rfl⟩ <;>
      rcases zStates_cases hb with ⟨rfl, rfl⟩ | ⟨rfl, rfl⟩ | ⟨rfl, rfl⟩ | ⟨rfl, rfl⟩ <;> first | rfl | exact absurd hab (by decide)
  have mir := C127_mirror C radial me zStates zStates_good (flipClosed_of_zeeman zStates zStates_rot zStates_all) ![0, 0, 14, 14] hen 0 0 1 (gP (-1)) rfl rfl
  have val : ∀ j : Fin 2, secondShift ![0, 0, 14, 14] 0 (dipoleT C radial me zStates 0) ((![0, 1] : Fin 2 → Fin 4) ((Equiv.refl (Fin 2)) j)) =
      secondShift ![0, 0, 14, 14] 0 (dipoleT C radial me zStates 0) 0 := by
    intro j
    fin_cases j
    · rfl
    · exact mir.symm
  obtain ⟨K, F0, hK, hF0, H⟩ := C127_stark C radial me zStates zStates_good zStates_rot zStates_all ![0, 0, 14, 14] hen 0 (gP 1) (![0, 1] : Fin 2 → Fin 4) ![-1, 1] zStates_level
    (Equiv.refl (Fin 2)) (fun i j _ => by
      show secondShift _ _ _ ((![0, 1] : Fin 2 → Fin 4) ((Equiv.refl (Fin 2)) i)) ≤ secondShift _ _ _ ((![0, 1] : Fin 2 → Fin 4) ((Equiv.refl (Fin 2)) j))
      rw [val, val])
  refine ⟨K, F0, hF0, fun x hx hxF => ?_⟩
  obtain ⟨s0, s, s', h0, hV, hH, hs, hb, hp, X, e, hX, he⟩ := one_atom_run C radial me zStates zStates_good ![0, 0, 14, 14] ⟨⟨x, 0, 0⟩, ⟨0, 0, 0⟩, true, 0, 0, none⟩
  have lE : s.p.E.len = x := by rw [hp]; unfold Vec3.len; simp [abs_of_pos hx, Real.sqrt_sq_eq_abs]
  have h := H s0 s s' h0 hV hH hs hb (by rw [hp]) (by rw [hp]; exact Or.inl rfl) (by rw [lE]; exact hx) (by rw [lE]; exact hxF) X e hX he
  have t0 := h 0 0 (by rw [zStates_below]; rfl)
  have t1 := h 1 1 (by rw [zStates_below]; rfl)
  rw [lE, val] at t0 t1
  exact ⟨s, s', X, e, hp, hb, hX, he, t0, t1⟩

end PI
