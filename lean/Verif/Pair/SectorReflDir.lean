import Verif.Pair.SectorReflMain

/-!
# Symmetry sectors of a pair system: which interactions are symmetric under reflection
-/

namespace PI

open Matrix

/-- The state with the opposite momentum along z. -/
def QN.flip (a : QN) : QN := { a with m := -a.m }

/-- The pair with opposite momenta. -/
def flipP (a : QN × QN) : QN × QN := (a.1.flip, a.2.flip)

/-- The sign of the reflection of a pair, in terms of the quantum numbers. -/
def reflSignQ (a : QN × QN) : ℤ := sgnZ (a.1.l + a.2.l + (a.1.j + a.2.j) / 2 + (a.1.m + a.2.m) / 2)

theorem flip_physical {a : QN} (h : a.Physical) : a.flip.Physical := by
  obtain ⟨h1, h2, h3, h4, h5, h6, h7⟩ := h
  refine ⟨h1, h2, h3, h4, h5, ?_, ?_⟩
  · show |-a.m| ≤ a.j
    rwa [abs_neg]
  · show (a.j + -a.m) % 2 = 0
    omega

theorem sgn_mul_sgnZ (a : ℤ) : sgn a = (sgnZ a : ℝ) := by
  unfold sgn sgnZ
  split_ifs <;> norm_num

theorem elem_eq_spec (C : FieldConsts) (radial : RadKey → ℝ) (me : Method) (a b : QN) (ha : a.Physical) (hb : b.Physical) (hs : a.species = b.species) (hss : a.s = b.s) (k : ℤ) :
    elem C radial me k a b = C.elem.e * radial (RadKey.make me a.species k a.n b.n a.l b.l a.j b.j) *
        (angularSpec k a.j b.j a.m b.m * commutesSSpec a.s k a.l b.l a.j b.j * multipoleSpec k a.l b.l) := by
  unfold elem
  rw [electricMultipole_eq C.elem radial me a b k k ha hb hs hss]
  rfl

theorem angularSpec_flip (k j1 j2 m1 m2 : ℤ) (h1 : (j1 + m1) % 2 = 0) (h2 : (j1 + j2) % 2 = 0) :
    angularSpec k j1 j2 (-m1) (-m2) = sgnZ ((j1 + j2) / 2 + k + m1) * angularSpec k j1 j2 m1 m2 := by
  unfold angularSpec
  rw [show -m1 - -m2 = -(m1 - m2) by ring, w3j_neg, sgn_mul_sgnZ, sgn_mul_sgnZ, sgn_mul_sgnZ]
  have : (sgnZ ((j1 - -m1) / 2) : ℝ) * (sgnZ ((j1 + 2 * k + j2) / 2) : ℝ) = (sgnZ ((j1 + j2) / 2 + k + m1) : ℝ) * (sgnZ ((j1 - m1) / 2) : ℝ) := by
    unfold sgnZ
    split_ifs <;> first | (exfalso; omega) | norm_num
  linear_combination (w3j j1 (2 * k) j2 (-m1) (m1 - m2) m2) * this

/-- The element between the flipped states. -/
theorem elem_flip (C : FieldConsts) (radial : RadKey → ℝ) (me : Method) (a b : QN) (ha : a.Physical) (hb : b.Physical) (hs : a.species = b.species) (hss : a.s = b.s) (k : ℤ) :
    elem C radial me k a.flip b.flip = sgnZ ((a.j + b.j) / 2 + k + a.m) * elem C radial me k a b := by
  rw [elem_eq_spec C radial me a b ha hb hs hss, elem_eq_spec C radial me a.flip b.flip (flip_physical ha) (flip_physical hb) hs hss]
  unfold QN.flip
  dsimp only
  have h1 := ha.2.2.2.2
  have h2 := hb.2.2.2.2
  rw [angularSpec_flip _ _ _ _ _ (by omega) (by omega)]
  ring

theorem sgnZ_congr {a b : ℤ} (h : (a - b) % 2 = 0) : sgnZ a = sgnZ b := by
  unfold sgnZ
  congr 1
  rw [eq_iff_iff]
  omega

theorem odd_repr {x : ℤ} (h : x % 2 = 1) : ∃ y, x = 2 * y + 1 := ⟨(x - 1) / 2, by omega⟩

/-- The signs of the elements of the two atoms. -/
theorem sign_pair (la1 la2 lb1 lb2 ja1 ja2 jb1 jb2 ma1 ma2 mb1 mb2 k1 k2 t : ℤ) (o1 : ja1 % 2 = 1) (o2 : ja2 % 2 = 1) (o3 : jb1 % 2 = 1) (o4 : jb2 % 2 = 1)
    (n1 : ma1 % 2 = 1) (n2 : ma2 % 2 = 1) (n3 : mb1 % 2 = 1) (n4 : mb2 % 2 = 1) (p1 : (k1 + la1 + lb1) % 2 = 0) (p2 : (k2 + la2 + lb2) % 2 = 0)
    (ht : (t - ((ma1 - mb1) / 2 + (ma2 - mb2) / 2)) % 2 = 0) :
    sgnZ ((ja1 + jb1) / 2 + k1 + ma1) * sgnZ ((ja2 + jb2) / 2 + k2 + ma2) * sgnZ t =
      sgnZ (la1 + la2 + (ja1 + ja2) / 2 + (ma1 + ma2) / 2) * sgnZ (lb1 + lb2 + (jb1 + jb2) / 2 + (mb1 + mb2) / 2) := by
  obtain ⟨a, rfl⟩ := odd_repr o1
  obtain ⟨b, rfl⟩ := odd_repr o2
  obtain ⟨c, rfl⟩ := odd_repr o3
  obtain ⟨d, rfl⟩ := odd_repr o4
  obtain ⟨e, rfl⟩ := odd_repr n1
  obtain ⟨f, rfl⟩ := odd_repr n2
  obtain ⟨g, rfl⟩ := odd_repr n3
  obtain ⟨i, rfl⟩ := odd_repr n4
  have e1 : ∀ x y : ℤ, (2 * x + 1 + (2 * y + 1)) / 2 = x + y + 1 := by intro x y; omega
  have e2 : ∀ x y : ℤ, (2 * x + 1 - (2 * y + 1)) / 2 = x - y := by intro x y; omega
  rw [e2, e2] at ht
  simp only [e1]
  rw [← sgnZ_add, ← sgnZ_add, ← sgnZ_add]
  apply sgnZ_congr
  omega

theorem phys_odd {a : QN} (h : a.Physical) (hm : a.m % 2 = 1) : a.j % 2 = 1 := by
  have := h.2.2.2.2.2.2
  omega

theorem phys_s {a b : QN} (ha : a.Physical) (hb : b.Physical) (hs : a.s = b.s) (hm : a.m % 2 = 1) : b.m % 2 = 1 := by
  have h1 := ha.2.2.2.2.1
  have h2 := ha.2.2.2.2.2.2
  have h3 := hb.2.2.2.2.1
  have h4 := hb.2.2.2.2.2.2
  omega

/-- Half-integer momenta. -/
structure HalfPair (a b : QN × QN) : Prop where
  a1 : a.1.m % 2 = 1
  a2 : a.2.m % 2 = 1

theorem multipoleTerm_flip (C : FieldConsts) (radial : RadKey → ℝ) (me : Method) (k1 k2 : ℕ) (a b : QN × QN) (ok : PairOK a b) (hh : HalfPair a b)
    (hm : a.1.m + a.2.m = b.1.m + b.2.m) :
    multipoleTerm C radial me k1 k2 (flipP a) (flipP b) = reflSignQ a * reflSignQ b * multipoleTerm C radial me k1 k2 a b := by
  have d1 := mDiff_spec a.1 b.1 ok.a1 ok.b1 ok.s1
  unfold multipoleTerm flipP
  dsimp only
  rw [elem_flip C radial me a.1 b.1 ok.a1 ok.b1 ok.sp1 ok.s1, elem_flip C radial me a.2 b.2 ok.a2 ok.b2 ok.sp2 ok.s2]
  have hq : (a.1.flip.m - b.1.flip.m) / 2 = -((a.1.m - b.1.m) / 2) := by
    show (-a.1.m - -b.1.m) / 2 = _
    omega
  rw [hq, mDiff_div a.1 b.1 ok.a1 ok.b1 ok.s1]
  by_cases z1 : elem C radial me k1 a.1 b.1 = 0
  · rw [z1]; ring
  by_cases z2 : elem C radial me k2 a.2 b.2 = 0
  · rw [z2]; ring
  have p1 := elem_parity C radial me a.1 b.1 ok.a1 ok.b1 ok.sp1 ok.s1 k1 z1
  have p2 := elem_parity C radial me a.2 b.2 ok.a2 ok.b2 ok.sp2 ok.s2 k2 z2
  have d2 := mDiff_spec a.2 b.2 ok.a2 ok.b2 ok.s2
  have hq2 : mDiff a.2 b.2 = -mDiff a.1 b.1 := by omega
  have m1 : |mDiff a.1 b.1| ≤ (k1 : ℤ) := by
    by_contra hc
    exact z1 (elem_m C radial me a.1 b.1 ok.a1 ok.b1 ok.sp1 ok.s1 k1 (by positivity) hc)
  have m2 : |mDiff a.2 b.2| ≤ (k2 : ℤ) := by
    by_contra hc
    exact z2 (elem_m C radial me a.2 b.2 ok.a2 ok.b2 ok.sp2 ok.s2 k2 (by positivity) hc)
  rw [hq2, abs_neg] at m2
  rw [abs_le] at m1 m2
  set q := mDiff a.1 b.1
  have c1 : (k1 + k2).choose ((k1 : ℤ) + -q).toNat = (k1 + k2).choose ((k2 : ℤ) + q).toNat := by
    rw [← Nat.choose_symm (by omega)]
    congr 1; omega
  have c2 : (k1 + k2).choose ((k2 : ℤ) + -q).toNat = (k1 + k2).choose ((k1 : ℤ) + q).toNat := by
    rw [← Nat.choose_symm (by omega)]
    congr 1; omega
  rw [c1, c2]
  have sg : (sgnZ ((a.1.j + b.1.j) / 2 + k1 + a.1.m) : ℝ) * (sgnZ ((a.2.j + b.2.j) / 2 + k2 + a.2.m) : ℝ) = (reflSignQ a : ℝ) * (reflSignQ b : ℝ) := by
    have hb1 := phys_s ok.a1 ok.b1 ok.s1 hh.a1
    have hb2 := phys_s ok.a2 ok.b2 ok.s2 hh.a2
    have := sign_pair a.1.l a.2.l b.1.l b.2.l a.1.j a.2.j b.1.j b.2.j a.1.m a.2.m b.1.m b.2.m k1 k2 0 (phys_odd ok.a1 hh.a1) (phys_odd ok.a2 hh.a2) (phys_odd ok.b1 hb1)
      (phys_odd ok.b2 hb2) hh.a1 hh.a2 hb1 hb2 p1 p2 (by omega)
    rw [show sgnZ 0 = 1 from rfl, mul_one] at this
    exact_mod_cast this
  rw [← sg, mul_comm (((k1 + k2).choose ((k2 : ℤ) + q).toNat : ℕ) : ℝ)]
  ring

theorem multipoleSpecPair_flip (C : FieldConsts) (radial : RadKey → ℝ) (me : Method) (o : ℕ) (a b : QN × QN) (ok : PairOK a b) (hh : HalfPair a b) :
    multipoleSpecPair C radial me o (flipP a) (flipP b) = reflSignQ a * reflSignQ b * multipoleSpecPair C radial me o a b := by
  unfold multipoleSpecPair
  by_cases hm : a.1.m + a.2.m = b.1.m + b.2.m
  · rw [if_pos hm, if_pos (by show -a.1.m + -a.2.m = -b.1.m + -b.2.m; omega), Finset.mul_sum]
    exact Finset.sum_congr rfl fun i _ => multipoleTerm_flip C radial me _ _ a b ok hh hm
  · rw [if_neg hm, if_neg (by show ¬ -a.1.m + -a.2.m = -b.1.m + -b.2.m; omega), mul_zero]

theorem axisSpec_flip (C : FieldConsts) (radial : RadKey → ℝ) (me : Method) (p : PairParams) (a b : QN × QN) (ok : PairOK a b) (hh : HalfPair a b) :
    axisSpec C radial me p (flipP a) (flipP b) = (reflSignQ a : ℂ) * (reflSignQ b : ℂ) * axisSpec C radial me p a b := by
  unfold axisSpec
  have : ∀ u v : ℤ, ∀ r : ℝ, (u : ℂ) * (v : ℂ) * ((r : ℝ) : ℂ) = ((u * v * r : ℝ) : ℂ) := by intros; push_cast; ring
  rw [this, Finset.mul_sum]
  congr 1
  refine Finset.sum_congr rfl fun o _ => ?_
  rw [multipoleSpecPair_flip C radial me o a b ok hh]
  ring

/-! ## Dipoles -/

/-- The settings with the mirrored separation of the atoms. -/
def PairParams.mirror (p : PairParams) : PairParams := { p with y := -p.y }

/-- The Cartesian dipole between the flipped states: the y component changes its sign relative to the others. -/
theorem cartDip_flip (C : FieldConsts) (radial : RadKey → ℝ) (me : Method) (a b : QN) (ha : a.Physical) (hb : b.Physical) (hs : a.species = b.species) (hss : a.s = b.s)
    (i : Fin 3) :
    cartDip C radial me a.flip b.flip i = (sgnZ ((a.j + b.j) / 2 + 1 + a.m + (a.m - b.m) / 2) : ℂ) * (if i = 1 then -1 else 1) * cartDip C radial me a b i := by
  unfold cartDip
  have d := mDiff_spec a b ha hb hss
  rw [elem_flip C radial me a b ha hb hs hss 1, show (a.flip.m - b.flip.m) / 2 = -((a.m - b.m) / 2) by
    show (-a.m - -b.m) / 2 = _
    omega, sgnZ_add ((a.j + b.j) / 2 + 1 + a.m)]
  have e : dipCoef i (-((a.m - b.m) / 2)) = (sgnZ ((a.m - b.m) / 2) : ℂ) * (if i = 1 then -1 else 1) * dipCoef i ((a.m - b.m) / 2) := by
    set q := (a.m - b.m) / 2
    by_cases q1 : q = 1
    · rw [q1]; fin_cases i <;> simp [dipCoef, sgnZ] <;> ring
    by_cases q2 : q = -1
    · rw [q2]; fin_cases i <;> simp [dipCoef, sgnZ] <;> ring
    by_cases q0 : q = 0
    · rw [q0]; fin_cases i <;> simp [dipCoef, sgnZ]
    · have n1 : ¬ -q = 1 := by omega
      have n2 : ¬ -q = -1 := by omega
      have n0 : ¬ -q = 0 := by omega
      fin_cases i <;> simp [dipCoef, q1, q2, q0, n1]
  rw [e]
  push_cast
  ring

theorem dipoleDipole_mirror (k x y z : ℝ) (D1 D2 : Fin 3 → ℂ) (s t : ℂ) :
    dipoleDipole k x y z (fun i => s * (if i = 1 then -1 else 1) * D1 i) (fun i => t * (if i = 1 then -1 else 1) * D2 i) = s * t * dipoleDipole k x (-y) z D1 D2 := by
  unfold dipoleDipole
  have : (-y) ^ 2 = y ^ 2 := by ring
  rw [this]
  simp only [Matrix.cons_val_zero, Matrix.cons_val_one, Matrix.cons_val]
  simp
  ring

theorem dd_flip (C : FieldConsts) (radial : RadKey → ℝ) (me : Method) (p : PairParams) (a b : QN × QN) (ok : PairOK a b) (hh : HalfPair a b) :
    ddPairSpec C radial me p (flipP a) (flipP b) = (reflSignQ a : ℂ) * (reflSignQ b : ℂ) * ddPairSpec C radial me p.mirror a b := by
  unfold ddPairSpec flipP
  dsimp only
  rw [show cartDip C radial me a.1.flip b.1.flip = _ from funext fun i => cartDip_flip C radial me a.1 b.1 ok.a1 ok.b1 ok.sp1 ok.s1 i,
    show cartDip C radial me a.2.flip b.2.flip = _ from funext fun i => cartDip_flip C radial me a.2 b.2 ok.a2 ok.b2 ok.sp2 ok.s2 i, dipoleDipole_mirror]
  show _ = _ * dipoleDipole C.ke p.x (-p.y) p.z _ _
  by_cases z1 : elem C radial me 1 a.1 b.1 = 0
  · rw [dip_zero z1, dipoleDipole_zero1]; ring
  by_cases z2 : elem C radial me 1 a.2 b.2 = 0
  · rw [dip_zero z2, dipoleDipole_zero2]; ring
  have p1 := elem_parity C radial me a.1 b.1 ok.a1 ok.b1 ok.sp1 ok.s1 1 (by exact_mod_cast z1)
  have p2 := elem_parity C radial me a.2 b.2 ok.a2 ok.b2 ok.sp2 ok.s2 1 (by exact_mod_cast z2)
  congr 1
  have hb1 := phys_s ok.a1 ok.b1 ok.s1 hh.a1
  have hb2 := phys_s ok.a2 ok.b2 ok.s2 hh.a2
  have := sign_pair a.1.l a.2.l b.1.l b.2.l a.1.j a.2.j b.1.j b.2.j a.1.m a.2.m b.1.m b.2.m 1 1 ((a.1.m - b.1.m) / 2 + (a.2.m - b.2.m) / 2) (phys_odd ok.a1 hh.a1)
    (phys_odd ok.a2 hh.a2) (phys_odd ok.b1 hb1) (phys_odd ok.b2 hb2) hh.a1 hh.a2 hb1 hb2 p1 p2 (by rw [sub_self]; rfl)
  rw [sgnZ_add ((a.1.m - b.1.m) / 2)] at this
  have : sgnZ ((a.1.j + b.1.j) / 2 + 1 + a.1.m + (a.1.m - b.1.m) / 2) * sgnZ ((a.2.j + b.2.j) / 2 + 1 + a.2.m + (a.2.m - b.2.m) / 2) = reflSignQ a * reflSignQ b := by
    unfold reflSignQ
    rw [← this, sgnZ_add ((a.1.j + b.1.j) / 2 + 1 + a.1.m), sgnZ_add ((a.2.j + b.2.j) / 2 + 1 + a.2.m)]
    ring
  exact_mod_cast this

/-! ## The theorems -/

theorem refl_qn {x : AState} {a : QN} (h : x.qn = some a) : x.refl.qn = some a.flip := by
  unfold AState.qn at h
  split at h
  · split at h
    · rename_i heq
      obtain rfl := Option.some.inj h
      unfold AState.refl AState.qn QN.flip
      dsimp only
      rw [heq]
    · cases h
  · cases h

theorem reflP_qn {x : AState × AState} {a : QN × QN} (h1 : x.1.qn = some a.1) (h2 : x.2.qn = some a.2) : qnPair (reflP x) = some (flipP a) := by
  unfold qnPair reflP
  dsimp only
  rw [refl_qn h1, refl_qn h2]
  rfl

theorem reflSign_qn {x : AState × AState} {a : QN × QN} (h1 : x.1.qn = some a.1) (h2 : x.2.qn = some a.2) : reflSignP x = reflSignQ a := by
  unfold reflSignP reflSignQ
  rw [(qn_l h1).1, (qn_l h2).1, (qn_l h1).2.1, (qn_l h2).2.1, (qn_l h1).2.2.1, (qn_l h2).2.2.1]

theorem TwoAtoms.ok {S1 S2 : OneSys} (h : TwoAtoms S1 S2) {x y : AState × AState} (hx : x ∈ sq2 S1 S2) (hy : y ∈ sq2 S1 S2) {a b : QN × QN} (ha : qnPair x = some a)
    (hb : qnPair y = some b) : PairOK a b := by
  obtain ⟨sp1, s1, sp2, s2, H⟩ := h.phys
  obtain ⟨⟨p1, p2, p3⟩, q1, q2, q3⟩ := H x hx a ha
  obtain ⟨⟨p1', p2', p3'⟩, q1', q2', q3'⟩ := H y hy b hb
  exact ⟨p1, q1, p1', q1', p2.trans p2'.symm, p3.trans p3'.symm, q2.trans q2'.symm, q3.trans q3'.symm⟩

theorem half_pair {S1 S2 : OneSys} (hh1 : HalfSys S1) (hh2 : HalfSys S2) {x : AState × AState} (hx : x ∈ sq2 S1 S2) {a : QN × QN} (b : QN × QN) (h1 : x.1.qn = some a.1)
    (h2 : x.2.qn = some a.2) : HalfPair a b := by
  have hx' := mem_sq2.1 hx
  refine ⟨?_, ?_⟩
  · rw [(qn_l h1).2.2.1]; exact (hh1 _ hx'.1).2.2
  · rw [(qn_l h2).2.2.1]; exact (hh2 _ hx'.2).2.2

/-- **C109.** Reflection: for all complete bases of two atoms (of equal or different species) with half-integer momenta whose vectors are symmetric or antisymmetric under the
reflection at the xz-plane (see C74), and for atoms along z with any order of the multipole expansion, or atoms in the xz-plane with the dipole-dipole interaction: the systems of
the two parities together have the eigenvalues (with multiplicities) of the system without symmetry. -/
theorem C109_reflection (C : FieldConsts) (radial : RadKey → ℝ) (me : Method) (S1 S2 : OneSys) (u1 : UnitarySys S1) (u2 : UnitarySys S2) (h : TwoAtoms S1 S2)
    (hn1 : S1.states ≠ []) (hn2 : S2.states ≠ []) (r1 r2 : ℕ → ℤ) (g1 : ReflVecs S1 r1) (g2 : ReflVecs S2 r2) (hh1 : HalfSys S1) (hh2 : HalfSys S2) (p : PairParams)
    (hp : OnAxis p ∨ (DipoleSettings p ∧ p.y = 0)) (thr : ℝ) (h0 : 0 ≤ thr) (h1 : thr < 1 / 2) (sp : String × String) (lt : AState → AState → Bool) (E : AState → ℝ) :
    ∃ A B D : PairBasis, pairBuild (plainSet thr sp) lt E S1 S2 = .ok A ∧ pairBuild (reflSet .even thr sp) lt E S1 S2 = .ok B ∧
      pairBuild (reflSet .odd thr sp) lt E S1 S2 = .ok D ∧
      (A.hamiltonian C radial me p).charpoly = (B.hamiltonian C radial me p).charpoly * (D.hamiltonian C radial me p).charpoly := by
  rcases hp with hp | ⟨hp, hy⟩
  · obtain ⟨A, B, D, a1, b1, d1, hab⟩ := refl_sectors C radial me S1 S2 u1 u2 h hn1 hn2 r1 r2 g1 g2 hh1 hh2 p (axisSpec C radial me p)
      (fun B hB => axis_pairH C radial me B.st (h.good B hB) p hp) thr h0 h1 sp lt E
    refine ⟨A, B, D, a1, b1, d1, hab.2 fun x hx y hy => ?_⟩
    obtain ⟨a, ha, a1', a2'⟩ := h.pair hx
    obtain ⟨b, hb, b1', b2'⟩ := h.pair hy
    unfold elemOf
    rw [ha, hb, reflP_qn a1' a2', reflP_qn b1' b2', reflSign_qn a1' a2', reflSign_qn b1' b2']
    exact axisSpec_flip C radial me p a b (h.ok hx hy ha hb) (half_pair hh1 hh2 hx b a1' a2')
  · obtain ⟨A, B, D, a1, b1, d1, hab⟩ := refl_sectors C radial me S1 S2 u1 u2 h hn1 hn2 r1 r2 g1 g2 hh1 hh2 p (ddPairSpec C radial me p)
      (fun B hB => hp.pairH C radial me B.st (h.good B hB)) thr h0 h1 sp lt E
    refine ⟨A, B, D, a1, b1, d1, hab.2 fun x hx y hy' => ?_⟩
    obtain ⟨a, ha, a1', a2'⟩ := h.pair hx
    obtain ⟨b, hb, b1', b2'⟩ := h.pair hy'
    unfold elemOf
    rw [ha, hb, reflP_qn a1' a2', reflP_qn b1' b2', reflSign_qn a1' a2', reflSign_qn b1' b2']
    have e := dd_flip C radial me p a b (h.ok hx hy' ha hb) (half_pair hh1 hh2 hx b a1' a2')
    have hm : p.mirror = p := by
      unfold PairParams.mirror
      rw [hy, neg_zero, ← hy]
    rw [hm] at e
    exact e

/-- **C109.** Reflection with the dipole-dipole interaction in any direction: the sectors are right exactly if the interaction energies of the atoms are the same for the mirrored
position of the second atom (the code does not check the direction). -/
theorem C109_reflection_direction (C : FieldConsts) (radial : RadKey → ℝ) (me : Method) (S1 S2 : OneSys) (u1 : UnitarySys S1) (u2 : UnitarySys S2) (h : TwoAtoms S1 S2)
    (hn1 : S1.states ≠ []) (hn2 : S2.states ≠ []) (r1 r2 : ℕ → ℤ) (g1 : ReflVecs S1 r1) (g2 : ReflVecs S2 r2) (hh1 : HalfSys S1) (hh2 : HalfSys S2) (p : PairParams)
    (hp : DipoleSettings p) (thr : ℝ) (h0 : 0 ≤ thr) (h1 : thr < 1 / 2) (sp : String × String) (lt : AState → AState → Bool) (E : AState → ℝ) :
    ∃ A B D : PairBasis, pairBuild (plainSet thr sp) lt E S1 S2 = .ok A ∧ pairBuild (reflSet .even thr sp) lt E S1 S2 = .ok B ∧
      pairBuild (reflSet .odd thr sp) lt E S1 S2 = .ok D ∧
      ((A.hamiltonian C radial me p).charpoly = (B.hamiltonian C radial me p).charpoly * (D.hamiltonian C radial me p).charpoly ↔
        ∀ x ∈ sq2 S1 S2, ∀ y ∈ sq2 S1 S2, ∀ a b, qnPair x = some a → qnPair y = some b →
          dipoleDipole C.ke p.x (-p.y) p.z (cartDip C radial me a.1 b.1) (cartDip C radial me a.2 b.2) =
            dipoleDipole C.ke p.x p.y p.z (cartDip C radial me a.1 b.1) (cartDip C radial me a.2 b.2)) := by
  obtain ⟨A, B, D, a1, b1, d1, hab⟩ := refl_sectors C radial me S1 S2 u1 u2 h hn1 hn2 r1 r2 g1 g2 hh1 hh2 p (ddPairSpec C radial me p)
    (fun B hB => hp.pairH C radial me B.st (h.good B hB)) thr h0 h1 sp lt E
  refine ⟨A, B, D, a1, b1, d1, hab.trans ?_⟩
  have key : ∀ x ∈ sq2 S1 S2, ∀ y ∈ sq2 S1 S2, ∀ a b, qnPair x = some a → qnPair y = some b →
      (elemOf (ddPairSpec C radial me p) (reflP x) (reflP y) = (reflSignP x : ℂ) * (reflSignP y : ℂ) * elemOf (ddPairSpec C radial me p) x y ↔
        ddPairSpec C radial me p.mirror a b = ddPairSpec C radial me p a b) := by
    intro x hx y hy a b ha hb
    obtain ⟨a', ha', a1', a2'⟩ := h.pair hx
    obtain ⟨b', hb', b1', b2'⟩ := h.pair hy
    obtain rfl : a = a' := Option.some.inj (ha.symm.trans ha')
    obtain rfl : b = b' := Option.some.inj (hb.symm.trans hb')
    unfold elemOf
    rw [ha, hb, reflP_qn a1' a2', reflP_qn b1' b2']
    dsimp only
    rw [dd_flip C radial me p a b (h.ok hx hy ha hb) (half_pair hh1 hh2 hx b a1' a2'), ← reflSign_qn a1' a2', ← reflSign_qn b1' b2']
    have sx : (reflSignP x : ℂ) * (reflSignP x : ℂ) = 1 := by exact_mod_cast reflSignP_sq x
    have sy : (reflSignP y : ℂ) * (reflSignP y : ℂ) = 1 := by exact_mod_cast reflSignP_sq y
    have nx : (reflSignP x : ℂ) ≠ 0 := fun h0 => by rw [h0, mul_zero] at sx; exact zero_ne_one sx
    have ny : (reflSignP y : ℂ) ≠ 0 := fun h0 => by rw [h0, mul_zero] at sy; exact zero_ne_one sy
    exact mul_right_inj' (mul_ne_zero nx ny)
  constructor
  · intro hz x hx y hy a b ha hb
    exact (key x hx y hy a b ha hb).1 (hz x hx y hy)
  · intro hz x hx y hy
    obtain ⟨a, ha, -⟩ := h.pair hx
    obtain ⟨b, hb, -⟩ := h.pair hy
    exact (key x hx y hy a b ha hb).2 (hz x hx y hy a b ha hb)

end PI
