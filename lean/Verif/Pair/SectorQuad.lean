import Verif.Pair.SectorReflEx
import Verif.Pair.SectorEx

/-!
# Symmetry sectors of a pair system with the dipole-quadrupole interaction (Green tensor, order 4)
-/

namespace PI

open Matrix

/-- Settings for which the code adds the dipole-dipole and the dipole-quadrupole interaction with the vacuum Green tensor, for the pair states `X`. -/
structure QuadOn (C : FieldConsts) (radial : RadKey → ℝ) (me : Method) (X : Finset (AState × AState)) (p : PairParams) : Prop where
  green : GreenVac p
  order : p.order = 4
  ne : p.x ≠ 0 ∨ p.y ≠ 0 ∨ p.z ≠ 0
  dd : ∀ i j, NoTinyTerm (ddVacuum p.x p.y p.z i j)
  dq : ∀ i j k, NoTinyTerm (thirdDeriv p.x p.y p.z i j k)
  elems : ∀ x ∈ X, ∀ y ∈ X, ∀ a b, qnPair x = some a → qnPair y = some b → NoTinyDQ C radial me a b

/-- The dipole-dipole and the dipole-quadrupole interaction. -/
noncomputable def quadSpec (C : FieldConsts) (radial : RadKey → ℝ) (me : Method) (p : PairParams) (a b : QN × QN) : ℂ :=
  ddPairSpec C radial me p a b + dqPairSpec C radial me p a b

theorem QuadOn.pairH {C : FieldConsts} {radial : RadKey → ℝ} {me : Method} {X : Finset (AState × AState)} {p : PairParams} (h : QuadOn C radial me X p) (B : PairBasis)
    (hB : ∀ x ∈ B.states, x ∈ X) (hg : GoodPairs B.st) : pairH C radial me B.st p = fullPairs B.st (quadSpec C radial me p) := by
  ext r c
  refine (C71_green_order4 C radial me B.st hg p h.green h.order h.ne h.dd h.dq ?_ r c).trans (by unfold fullPairs; cases B.st r <;> cases B.st c <;> rfl)
  rintro a b ⟨i, hi⟩ ⟨j, hj⟩
  exact h.elems _ (hB _ (List.get_mem _ i)) _ (hB _ (List.get_mem _ j)) a b hi hj

/-! ## The exchange of the atoms -/

theorem cyc3 (F : Fin 3 → Fin 3 → Fin 3 → ℂ) : ∑ i, ∑ j, ∑ l, F i j l = ∑ l, ∑ i, ∑ j, F i j l := by
  rw [Finset.sum_congr rfl fun i _ => Finset.sum_comm, Finset.sum_comm]

/-- The dipole-quadrupole energy changes its sign if the charge distributions are exchanged (with the same distance vector). -/
theorem dipoleQuadrupole_swap (k x y z : ℝ) (D1 D2 : Fin 3 → ℂ) (Q1 Q2 : Fin 3 → Fin 3 → ℂ) :
    dipoleQuadrupole k x y z D2 D1 Q2 Q1 = -dipoleQuadrupole k x y z D1 D2 Q1 Q2 := by
  have key : ∀ (D : Fin 3 → ℂ) (Q : Fin 3 → Fin 3 → ℂ), ∑ i, ∑ j, ∑ l, (thirdDeriv x y z i j l : ℂ) * (Q i j * D l) =
      ∑ i, ∑ j, ∑ l, (thirdDeriv x y z i j l : ℂ) * (D i * Q j l) := by
    intro D Q
    rw [cyc3]
    refine Finset.sum_congr rfl fun i _ => Finset.sum_congr rfl fun j _ => Finset.sum_congr rfl fun l _ => ?_
    rw [thirdDeriv_cycle x y z j l i]
    ring
  unfold dipoleQuadrupole
  simp only [mul_sub, Finset.sum_sub_distrib]
  rw [key D1 Q2, key D2 Q1]
  ring

theorem dqPairSpec_swap (C : FieldConsts) (radial : RadKey → ℝ) (me : Method) (p : PairParams) (a b : QN × QN) :
    dqPairSpec C radial me p a.swap b.swap = -dqPairSpec C radial me p a b := dipoleQuadrupole_swap _ _ _ _ _ _ _ _

theorem quad_zero' {C : FieldConsts} {radial : RadKey → ℝ} {me : Method} {a b : QN} (h : elem C radial me 2 a b = 0) : cartQuad C radial me a b = 0 := by
  funext j k; exact quad_zero h j k

theorem dipoleQuadrupole_zero (k x y z : ℝ) (D1 D2 : Fin 3 → ℂ) (Q1 Q2 : Fin 3 → Fin 3 → ℂ) (h1 : D1 = 0 ∨ Q2 = 0) (h2 : Q1 = 0 ∨ D2 = 0) :
    dipoleQuadrupole k x y z D1 D2 Q1 Q2 = 0 := by
  have e1 : ∀ i j l, D1 i * Q2 j l = 0 := by
    intro i j l
    rcases h1 with rfl | rfl <;> simp
  have e2 : ∀ i j l, Q1 i j * D2 l = 0 := by
    intro i j l
    rcases h2 with rfl | rfl <;> simp
  unfold dipoleQuadrupole
  simp [e1, e2]

/-- The dipole-quadrupole interaction changes the product of the parities of the atoms. -/
theorem dq_parity (C : FieldConsts) (radial : RadKey → ℝ) (me : Method) (p : PairParams) (a b : QN × QN) (ok : PairOK a b) :
    (sgnZ (a.1.l + a.2.l) : ℂ) * (sgnZ (b.1.l + b.2.l) : ℂ) * dqPairSpec C radial me p a b = -dqPairSpec C radial me p a b := by
  have par : ∀ k1 k2 : ℕ, (k1 + k2) % 2 = 1 → elem C radial me k1 a.1 b.1 ≠ 0 → elem C radial me k2 a.2 b.2 ≠ 0 →
      (sgnZ (a.1.l + a.2.l) : ℂ) * (sgnZ (b.1.l + b.2.l) : ℂ) = -1 := by
    intro k1 k2 hk z1 z2
    have p1 := elem_parity C radial me a.1 b.1 ok.a1 ok.b1 ok.sp1 ok.s1 k1 z1
    have p2 := elem_parity C radial me a.2 b.2 ok.a2 ok.b2 ok.sp2 ok.s2 k2 z2
    unfold sgnZ
    split_ifs <;> first | (exfalso; omega) | norm_num
  by_cases h1 : elem C radial me 1 a.1 b.1 = 0 ∨ elem C radial me 2 a.2 b.2 = 0
  · by_cases h2 : elem C radial me 2 a.1 b.1 = 0 ∨ elem C radial me 1 a.2 b.2 = 0
    · have : dqPairSpec C radial me p a b = 0 := dipoleQuadrupole_zero _ _ _ _ _ _ _ _ (h1.imp dip_zero quad_zero') (h2.imp quad_zero' dip_zero)
      rw [this]; simp
    · rw [not_or] at h2
      rw [par 2 1 rfl (by exact_mod_cast h2.1) (by exact_mod_cast h2.2)]; ring
  · rw [not_or] at h1
    rw [par 1 2 rfl (by exact_mod_cast h1.1) (by exact_mod_cast h1.2)]; ring

theorem quad_inversion (C : FieldConsts) (radial : RadKey → ℝ) (me : Method) (p : PairParams) (a b : QN × QN) (ok : PairOK a b) :
    quadSpec C radial me p a.swap b.swap = sgnZ (a.1.l + a.2.l) * sgnZ (b.1.l + b.2.l) * quadSpec C radial me p a b := by
  unfold quadSpec
  rw [mul_add, dq_parity C radial me p a b ok, dqPairSpec_swap, dd_inversion C radial me p a b ok]

/-- **C109.** Inversion symmetry with the dipole-quadrupole interaction (Green tensor, order 4), for every distance vector: the two sectors together have the eigenvalues (with
multiplicities) of the system without symmetry. -/
theorem C109_inversion_quadrupole (C : FieldConsts) (radial : RadKey → ℝ) (me : Method) (S : OneSys) (hS : UnitarySys S) (hk : 2 ≤ S.cols.length) (h1s : SameAtoms S)
    (par : ℕ → ℤ) (hpar : ∀ a < S.cols.length, ∀ e ∈ (S.col a).2, (e.1.l - par a) % 2 = 0)
    (p : PairParams) (hp : QuadOn C radial me S.sq p) (thr : ℝ) (h0 : 0 ≤ thr) (h1 : thr < 1 / 4) (sp : String × String) (lt : AState → AState → Bool)
    (E : AState → ℝ) :
    ∃ A B D, pairBuild (plainSet thr sp) lt E S S = .ok A ∧ pairBuild (invSet .even thr sp) lt E S S = .ok B ∧
      pairBuild (invSet .odd thr sp) lt E S S = .ok D ∧
      (A.hamiltonian C radial me p).charpoly = (B.hamiltonian C radial me p).charpoly * (D.hamiltonian C radial me p).charpoly := by
  have ha := h1s.noArt hS
  have hη : ∀ x ∈ S.sq, ∀ a, qnPair x = some a → (sgnZ (x.1.l + x.2.l) : ℂ) = (sgnZ (a.1.l + a.2.l) : ℂ) := by
    intro x hx a ha
    obtain ⟨a', e, e1, e2⟩ := h1s.pair hx
    rw [ha] at e
    obtain rfl := Option.some.inj e
    rw [(qn_l e1).1, (qn_l e2).1]
  have hs : PairSign (k := S.cols.length) fun q => (sgnZ (par q.1 + par q.2) : ℂ) := by
    refine ⟨fun q => ?_, fun q => ?_, fun q h => ?_⟩
    · unfold sgnZ; split_ifs <;> simp
    · dsimp only [Prod.fst_swap, Prod.snd_swap]; rw [add_comm]
    · rw [h]; unfold sgnZ; rw [if_pos (by omega)]; simp
  exact sectors_split C radial me S hS hk h1s p (quadSpec C radial me p) (fun B hB => hp.pairH B hB (h1s.good B hB)) (fun x => (sgnZ (x.1.l + x.2.l) : ℂ))
      (elemOf_swap S h1s _ _ (fun a => (sgnZ (a.1.l + a.2.l) : ℂ)) hη fun a b ok _ => quad_inversion C radial me p a b ok)
      (fun q => (sgnZ (par q.1 + par q.2) : ℂ)) hs (fun q x h => parity_cols S par hpar q x h) _ _ _ thr h0 (by linarith) sp rfl _ _
      (invSet_swap .even (by decide) thr h0 h1 sp S ha par hpar h1s.spin) (invSet_swap .odd (by decide) thr h0 h1 sp S ha par hpar h1s.spin) rfl rfl
      (by intro p; push_cast; simp) (by intro p; push_cast; simp) lt E

/-- **C109.** Permutation symmetry with the dipole-quadrupole interaction (Green tensor, order 4), for every distance vector: the two permutation sectors together have the eigenvalues
of the system exactly if the dipole-quadrupole interaction vanishes between all pair states. -/
theorem C109_permutation_quadrupole (C : FieldConsts) (radial : RadKey → ℝ) (me : Method) (S : OneSys) (hS : UnitarySys S) (hk : 2 ≤ S.cols.length) (h1s : SameAtoms S)
    (p : PairParams) (hp : QuadOn C radial me S.sq p) (thr : ℝ) (h0 : 0 ≤ thr) (h1 : thr < 1 / 4) (sp : String × String) (lt : AState → AState → Bool) (E : AState → ℝ) :
    ∃ A B D, pairBuild (plainSet thr sp) lt E S S = .ok A ∧ pairBuild (permSet .even thr sp) lt E S S = .ok B ∧
      pairBuild (permSet .odd thr sp) lt E S S = .ok D ∧
      ((A.hamiltonian C radial me p).charpoly = (B.hamiltonian C radial me p).charpoly * (D.hamiltonian C radial me p).charpoly ↔
        ∀ x ∈ S.sq, ∀ y ∈ S.sq, ∀ a b, qnPair x = some a → qnPair y = some b →
          dipoleQuadrupole C.ke p.x p.y p.z (cartDip C radial me a.1 b.1) (cartDip C radial me a.2 b.2) (cartQuad C radial me a.1 b.1) (cartQuad C radial me a.2 b.2) = 0) := by
  obtain ⟨A, B, D, a1, b1, d1, h⟩ := perm_sectors C radial me S hS hk h1s p (quadSpec C radial me p) (fun B hB => hp.pairH B hB (h1s.good B hB)) thr h0 h1 sp lt E
  refine ⟨A, B, D, a1, b1, d1, h.trans ?_⟩
  have key : ∀ x ∈ S.sq, ∀ y ∈ S.sq, ∀ a b, qnPair x = some a → qnPair y = some b →
      (elemOf (quadSpec C radial me p) x.swap y.swap = elemOf (quadSpec C radial me p) x y ↔ dqPairSpec C radial me p a b = 0) := by
    intro x hx y hy a b ha hb
    unfold elemOf
    rw [qnPair_swap, qnPair_swap, ha, hb]
    dsimp only [Option.map_some]
    unfold quadSpec
    rw [ddPairSpec_swap, dqPairSpec_swap]
    constructor
    · intro h
      linear_combination (-1 / 2) * h
    · intro h
      rw [h]; simp
  constructor
  · intro h x hx y hy a b ha hb
    exact (key x hx y hy a b ha hb).1 (h x hx y hy)
  · intro h x hx y hy
    obtain ⟨a, ha, -⟩ := h1s.pair hx
    obtain ⟨b, hb, -⟩ := h1s.pair hy
    exact (key x hx y hy a b ha hb).2 (h x hx y hy a b ha hb)

/-! ## Reflection -/

/-- The sign of a component under the reflection y ↦ −y. -/
def mir (i : Fin 3) : ℂ := if i = 1 then -1 else 1

theorem quadCoef_flip (j k : Fin 3) (q : ℤ) : quadCoef j k (-q) = (sgnZ q : ℂ) * (mir j * mir k) * quadCoef j k q := by
  by_cases q2 : q = 2
  · subst q2; fin_cases j <;> fin_cases k <;> simp [quadCoef, sgnZ, mir] <;> ring
  by_cases q1 : q = 1
  · subst q1; fin_cases j <;> fin_cases k <;> simp [quadCoef, sgnZ, mir] <;> ring
  by_cases q0 : q = 0
  · subst q0; fin_cases j <;> fin_cases k <;> simp [quadCoef, sgnZ, mir]
  by_cases q3 : q = -1
  · subst q3; fin_cases j <;> fin_cases k <;> simp [quadCoef, sgnZ, mir] <;> ring
  by_cases q4 : q = -2
  · subst q4; fin_cases j <;> fin_cases k <;> simp [quadCoef, sgnZ, mir] <;> ring
  have n1 : ¬ -q = 1 := by omega
  have n2 : ¬ -q = 2 := by omega
  fin_cases j <;> fin_cases k <;> simp [quadCoef, q0, q1, q2, q3, q4, n1, n2]

/-- The Cartesian quadrupole between the flipped states. -/
theorem cartQuad_flip (C : FieldConsts) (radial : RadKey → ℝ) (me : Method) (a b : QN) (ha : a.Physical) (hb : b.Physical) (hs : a.species = b.species) (hss : a.s = b.s)
    (j k : Fin 3) :
    cartQuad C radial me a.flip b.flip j k = (sgnZ ((a.j + b.j) / 2 + 2 + a.m + (a.m - b.m) / 2) : ℂ) * (mir j * mir k) * cartQuad C radial me a b j k := by
  unfold cartQuad
  have d := mDiff_spec a b ha hb hss
  rw [elem_flip C radial me a b ha hb hs hss 2, show (a.flip.m - b.flip.m) / 2 = -((a.m - b.m) / 2) by
    show (-a.m - -b.m) / 2 = _
    omega, sgnZ_add ((a.j + b.j) / 2 + 2 + a.m), quadCoef_flip]
  push_cast
  ring

theorem thirdDeriv_mirror (x y z : ℝ) (i j l : Fin 3) : (thirdDeriv x (-y) z i j l : ℂ) = mir i * mir j * mir l * (thirdDeriv x y z i j l : ℂ) := by
  have : (-y) ^ 2 = y ^ 2 := by ring
  unfold thirdDeriv mir
  rw [this]
  fin_cases i <;> fin_cases j <;> fin_cases l <;> simp [eye] <;> ring

theorem mir_sq (i : Fin 3) : mir i * mir i = 1 := by
  unfold mir; split_ifs <;> norm_num

theorem dipoleQuadrupole_mirror (k x y z : ℝ) (D1 D2 : Fin 3 → ℂ) (Q1 Q2 : Fin 3 → Fin 3 → ℂ) (s1 s2 t1 t2 σ : ℂ) (h1 : (∀ i j l, D1 i * Q2 j l = 0) ∨ s1 * t2 = σ)
    (h2 : (∀ i j l, Q1 i j * D2 l = 0) ∨ t1 * s2 = σ) :
    dipoleQuadrupole k x y z (fun i => s1 * mir i * D1 i) (fun i => s2 * mir i * D2 i) (fun i j => t1 * (mir i * mir j) * Q1 i j) (fun i j => t2 * (mir i * mir j) * Q2 i j) =
      σ * dipoleQuadrupole k x (-y) z D1 D2 Q1 Q2 := by
  have e1 : ∀ i j l, s1 * t2 * (D1 i * Q2 j l) = σ * (D1 i * Q2 j l) := by
    intro i j l
    rcases h1 with h | h
    · rw [h]; ring
    · rw [h]
  have e2 : ∀ i j l, t1 * s2 * (Q1 i j * D2 l) = σ * (Q1 i j * D2 l) := by
    intro i j l
    rcases h2 with h | h
    · rw [h]; ring
    · rw [h]
  unfold dipoleQuadrupole
  rw [mul_left_comm]
  congr 1
  rw [Finset.mul_sum]
  refine Finset.sum_congr rfl fun i _ => ?_
  rw [Finset.mul_sum]
  refine Finset.sum_congr rfl fun j _ => ?_
  rw [Finset.mul_sum]
  refine Finset.sum_congr rfl fun l _ => ?_
  rw [thirdDeriv_mirror]
  linear_combination ((thirdDeriv x y z i j l : ℂ) * (mir i * mir j * mir l)) * (e2 i j l - e1 i j l)

theorem dq_flip (C : FieldConsts) (radial : RadKey → ℝ) (me : Method) (p : PairParams) (a b : QN × QN) (ok : PairOK a b) (hh : HalfPair a b) :
    dqPairSpec C radial me p (flipP a) (flipP b) = (reflSignQ a : ℂ) * (reflSignQ b : ℂ) * dqPairSpec C radial me p.mirror a b := by
  have hb1 := phys_s ok.a1 ok.b1 ok.s1 hh.a1
  have hb2 := phys_s ok.a2 ok.b2 ok.s2 hh.a2
  have sg : ∀ k1 k2 : ℕ, elem C radial me k1 a.1 b.1 ≠ 0 → elem C radial me k2 a.2 b.2 ≠ 0 →
      (sgnZ ((a.1.j + b.1.j) / 2 + k1 + a.1.m + (a.1.m - b.1.m) / 2) : ℂ) * (sgnZ ((a.2.j + b.2.j) / 2 + k2 + a.2.m + (a.2.m - b.2.m) / 2) : ℂ) =
        (reflSignQ a : ℂ) * (reflSignQ b : ℂ) := by
    intro k1 k2 z1 z2
    have p1 := elem_parity C radial me a.1 b.1 ok.a1 ok.b1 ok.sp1 ok.s1 k1 z1
    have p2 := elem_parity C radial me a.2 b.2 ok.a2 ok.b2 ok.sp2 ok.s2 k2 z2
    have := sign_pair a.1.l a.2.l b.1.l b.2.l a.1.j a.2.j b.1.j b.2.j a.1.m a.2.m b.1.m b.2.m k1 k2 ((a.1.m - b.1.m) / 2 + (a.2.m - b.2.m) / 2) (phys_odd ok.a1 hh.a1)
      (phys_odd ok.a2 hh.a2) (phys_odd ok.b1 hb1) (phys_odd ok.b2 hb2) hh.a1 hh.a2 hb1 hb2 p1 p2 (by rw [sub_self]; rfl)
    rw [sgnZ_add ((a.1.m - b.1.m) / 2)] at this
    have : sgnZ ((a.1.j + b.1.j) / 2 + k1 + a.1.m + (a.1.m - b.1.m) / 2) * sgnZ ((a.2.j + b.2.j) / 2 + k2 + a.2.m + (a.2.m - b.2.m) / 2) = reflSignQ a * reflSignQ b := by
      unfold reflSignQ
      rw [← this, sgnZ_add ((a.1.j + b.1.j) / 2 + k1 + a.1.m), sgnZ_add ((a.2.j + b.2.j) / 2 + k2 + a.2.m)]
      ring
    exact_mod_cast this
  unfold dqPairSpec flipP
  dsimp only
  rw [show cartDip C radial me a.1.flip b.1.flip = _ from funext fun i => cartDip_flip C radial me a.1 b.1 ok.a1 ok.b1 ok.sp1 ok.s1 i,
    show cartDip C radial me a.2.flip b.2.flip = _ from funext fun i => cartDip_flip C radial me a.2 b.2 ok.a2 ok.b2 ok.sp2 ok.s2 i,
    show cartQuad C radial me a.1.flip b.1.flip = _ from funext fun j => funext fun k => cartQuad_flip C radial me a.1 b.1 ok.a1 ok.b1 ok.sp1 ok.s1 j k,
    show cartQuad C radial me a.2.flip b.2.flip = _ from funext fun j => funext fun k => cartQuad_flip C radial me a.2 b.2 ok.a2 ok.b2 ok.sp2 ok.s2 j k]
  refine dipoleQuadrupole_mirror C.ke p.x p.y p.z _ _ _ _ _ _ _ _ _ ?_ ?_
  · by_cases z1 : elem C radial me 1 a.1 b.1 = 0
    · left; intro i j l; rw [dip_zero z1]; simp
    by_cases z2 : elem C radial me 2 a.2 b.2 = 0
    · left; intro i j l; rw [quad_zero z2]; simp
    right
    exact sg 1 2 (by exact_mod_cast z1) (by exact_mod_cast z2)
  · by_cases z1 : elem C radial me 2 a.1 b.1 = 0
    · left; intro i j l; rw [quad_zero z1]; simp
    by_cases z2 : elem C radial me 1 a.2 b.2 = 0
    · left; intro i j l; rw [dip_zero z2]; simp
    right
    exact sg 2 1 (by exact_mod_cast z1) (by exact_mod_cast z2)

/-- **C109.** Reflection with the dipole-quadrupole interaction (Green tensor, order 4): for atoms in the xz-plane the sectors of the two parities together have the eigenvalues (with
multiplicities) of the system without symmetry; for other directions they have them exactly if the interaction is the one for the mirrored position of the second atom. -/
theorem C109_reflection_quadrupole (C : FieldConsts) (radial : RadKey → ℝ) (me : Method) (S1 S2 : OneSys) (u1 : UnitarySys S1) (u2 : UnitarySys S2) (h : TwoAtoms S1 S2)
    (hn1 : S1.states ≠ []) (hn2 : S2.states ≠ []) (r1 r2 : ℕ → ℤ) (g1 : ReflVecs S1 r1) (g2 : ReflVecs S2 r2) (hh1 : HalfSys S1) (hh2 : HalfSys S2) (p : PairParams)
    (hp : QuadOn C radial me (sq2 S1 S2) p) (thr : ℝ) (h0 : 0 ≤ thr) (h1 : thr < 1 / 2) (sp : String × String) (lt : AState → AState → Bool) (E : AState → ℝ) :
    ∃ A B D : PairBasis, pairBuild (plainSet thr sp) lt E S1 S2 = .ok A ∧ pairBuild (reflSet .even thr sp) lt E S1 S2 = .ok B ∧
      pairBuild (reflSet .odd thr sp) lt E S1 S2 = .ok D ∧
      (p.y = 0 → (A.hamiltonian C radial me p).charpoly = (B.hamiltonian C radial me p).charpoly * (D.hamiltonian C radial me p).charpoly) ∧
      ((A.hamiltonian C radial me p).charpoly = (B.hamiltonian C radial me p).charpoly * (D.hamiltonian C radial me p).charpoly ↔
        ∀ x ∈ sq2 S1 S2, ∀ y ∈ sq2 S1 S2, ∀ a b, qnPair x = some a → qnPair y = some b → quadSpec C radial me p.mirror a b = quadSpec C radial me p a b) := by
  obtain ⟨A, B, D, a1, b1, d1, hab⟩ := refl_sectors C radial me S1 S2 u1 u2 h hn1 hn2 r1 r2 g1 g2 hh1 hh2 p (quadSpec C radial me p)
    (fun B hB => hp.pairH B hB (h.good B hB)) thr h0 h1 sp lt E
  have key : ∀ x ∈ sq2 S1 S2, ∀ y ∈ sq2 S1 S2, ∀ a b, qnPair x = some a → qnPair y = some b →
      (elemOf (quadSpec C radial me p) (reflP x) (reflP y) = (reflSignP x : ℂ) * (reflSignP y : ℂ) * elemOf (quadSpec C radial me p) x y ↔
        quadSpec C radial me p.mirror a b = quadSpec C radial me p a b) := by
    intro x hx y hy a b ha hb
    obtain ⟨a', ha', a1', a2'⟩ := h.pair hx
    obtain ⟨b', hb', b1', b2'⟩ := h.pair hy
    obtain rfl : a = a' := Option.some.inj (ha.symm.trans ha')
    obtain rfl : b = b' := Option.some.inj (hb.symm.trans hb')
    unfold elemOf
    rw [ha, hb, reflP_qn a1' a2', reflP_qn b1' b2']
    dsimp only
    have e : quadSpec C radial me p (flipP a) (flipP b) = (reflSignQ a : ℂ) * (reflSignQ b : ℂ) * quadSpec C radial me p.mirror a b := by
      unfold quadSpec
      rw [dd_flip C radial me p a b (h.ok hx hy ha hb) (half_pair hh1 hh2 hx b a1' a2'), dq_flip C radial me p a b (h.ok hx hy ha hb) (half_pair hh1 hh2 hx b a1' a2')]
      ring
    rw [e, ← reflSign_qn a1' a2', ← reflSign_qn b1' b2']
    have sx : (reflSignP x : ℂ) * (reflSignP x : ℂ) = 1 := by exact_mod_cast reflSignP_sq x
    have sy : (reflSignP y : ℂ) * (reflSignP y : ℂ) = 1 := by exact_mod_cast reflSignP_sq y
    have nx : (reflSignP x : ℂ) ≠ 0 := fun h0 => by rw [h0, mul_zero] at sx; exact zero_ne_one sx
    have ny : (reflSignP y : ℂ) ≠ 0 := fun h0 => by rw [h0, mul_zero] at sy; exact zero_ne_one sy
    exact mul_right_inj' (mul_ne_zero nx ny)
  have main : (A.hamiltonian C radial me p).charpoly = (B.hamiltonian C radial me p).charpoly * (D.hamiltonian C radial me p).charpoly ↔
        ∀ x ∈ sq2 S1 S2, ∀ y ∈ sq2 S1 S2, ∀ a b, qnPair x = some a → qnPair y = some b → quadSpec C radial me p.mirror a b = quadSpec C radial me p a b := by
    refine hab.trans ⟨fun hz x hx y hy a b ha hb => (key x hx y hy a b ha hb).1 (hz x hx y hy), fun hz x hx y hy => ?_⟩
    obtain ⟨a, ha, -⟩ := h.pair hx
    obtain ⟨b, hb, -⟩ := h.pair hy
    exact (key x hx y hy a b ha hb).2 (hz x hx y hy a b ha hb)
  refine ⟨A, B, D, a1, b1, d1, fun hy => main.2 fun x _ y _ a b _ _ => ?_, main⟩
  have hm : p.mirror = p := by
    unfold PairParams.mirror
    rw [hy, neg_zero, ← hy]
  rw [hm]

/-! ## Examples: enough radial functions have no entries below the tolerance -/

theorem elem_scale (C : FieldConsts) (radial : RadKey → ℝ) (t : ℝ) (me : Method) (k : ℤ) (a b : QN) : elem C (fun key => t * radial key) me k a b = t * elem C radial me k a b := by
  unfold elem electricMultipole
  split_ifs with h
  · simp [outVal]
  · unfold outVal
    dsimp only
    ring

theorem vecEntry_scale (i : Fin 3) (q : ℤ) (t e v : ℝ) (h : vecEntry i q (t * e) = some v) : ∃ w, vecEntry i q e = some w ∧ v = t * w := by
  unfold vecEntry at h ⊢
  split_ifs at h ⊢ <;> exact (Option.some.inj h) ▸ ⟨_, rfl, by ring⟩

theorem quadEntry_scale (j k : Fin 3) (q : ℤ) (t e o : ℝ) : quadEntry j k q (t * e) (t * o) = t * quadEntry j k q e o := by
  have c : ∀ (P : Prop) [Decidable P] (x y x' y' : ℝ), x' = t * x → y' = t * y → (if P then x' else y') = t * (if P then x else y) := by
    intro P _ x y x' y' h1 h2
    split_ifs
    · exact h1
    · exact h2
  unfold quadEntry
  repeat' (first | apply c | ring)

/-- Every radial function can be scaled such that no product of a dipole and a quadrupole entry lies below the tolerance. -/
theorem noTiny_scale (C : FieldConsts) (radial : RadKey → ℝ) (me : Method) (L : Finset ((QN × QN) × (QN × QN))) :
    ∃ T : ℝ, 1 ≤ T ∧ ∀ t ≥ T, ∀ ab ∈ L, NoTinyDQ C (fun key => t * radial key) me ab.1 ab.2 := by
  classical
  have one : ∀ w : ℝ, ∃ T : ℝ, 1 ≤ T ∧ ∀ t ≥ T, NoTinyTerm (t * t * w) := by
    intro w
    by_cases h : w = 0
    · exact ⟨1, le_rfl, fun t _ => by left; rw [h, mul_zero]⟩
    · have hw : 0 < |w| := abs_pos.2 h
      refine ⟨max 1 (1 / |w|), le_max_left _ _, fun t ht => ?_⟩
      have h1 : 1 ≤ t := (le_max_left _ _).trans ht
      have h2 : 1 / |w| ≤ t := (le_max_right _ _).trans ht
      right
      unfold overTol
      rw [decide_eq_true_eq, gt_iff_lt, abs_mul, abs_of_nonneg (by positivity)]
      have : 1 ≤ t * |w| := by rw [div_le_iff₀ hw] at h2; exact h2
      nlinarith [mul_le_mul h1 this (by norm_num) (by linarith)]
  have fam : ∀ W : Finset ℝ, ∃ T : ℝ, 1 ≤ T ∧ ∀ t ≥ T, ∀ w ∈ W, NoTinyTerm (t * t * w) := by
    intro W
    induction W using Finset.induction_on with
    | empty => exact ⟨1, le_rfl, by simp⟩
    | insert w W _ ih =>
      obtain ⟨T, h1, h2⟩ := ih
      obtain ⟨U, h3, h4⟩ := one w
      refine ⟨max T U, h1.trans (le_max_left _ _), fun t ht x hx => ?_⟩
      rcases Finset.mem_insert.1 hx with rfl | hx
      · exact h4 t ((le_max_right _ _).trans ht)
      · exact h2 t ((le_max_left _ _).trans ht) x hx
  let val : QN × QN → QN × QN → Fin 3 → Fin 3 → Fin 3 → ℝ := fun a b i j k =>
    ((vecEntry i (mDiff a.1 b.1) (elem C radial me 1 a.1 b.1)).getD 0) * quadEntry j k (mDiff a.2 b.2) (elem C radial me 2 a.2 b.2) (elem C radial me 0 a.2 b.2)
  let W : Finset ℝ := (L ×ˢ (Finset.univ : Finset (Fin 3 × Fin 3 × Fin 3))).image (fun u => val u.1.1 u.1.2 u.2.1 u.2.2.1 u.2.2.2) ∪
    (L ×ˢ (Finset.univ : Finset (Fin 3 × Fin 3 × Fin 3))).image (fun u => val u.1.1.swap u.1.2.swap u.2.1 u.2.2.1 u.2.2.2)
  obtain ⟨T, h1, h2⟩ := fam W
  refine ⟨T, h1, fun t ht ab hab => ?_⟩
  have wm : ∀ i j k, val ab.1 ab.2 i j k ∈ W ∧ val ab.1.swap ab.2.swap i j k ∈ W := by
    intro i j k
    refine ⟨Finset.mem_union_left _ (Finset.mem_image.2 ⟨(ab, i, j, k), Finset.mem_product.2 ⟨hab, Finset.mem_univ _⟩, rfl⟩),
      Finset.mem_union_right _ (Finset.mem_image.2 ⟨(ab, i, j, k), Finset.mem_product.2 ⟨hab, Finset.mem_univ _⟩, rfl⟩)⟩
  constructor
  · intro i j k v hv
    rw [elem_scale] at hv
    obtain ⟨w, hw, rfl⟩ := vecEntry_scale _ _ _ _ _ hv
    rw [elem_scale, elem_scale, quadEntry_scale]
    have := h2 t ht _ (wm i j k).1
    dsimp only [val] at this
    rw [hw, Option.getD_some] at this
    convert this using 1
    ring
  · intro i j k v hv
    rw [elem_scale] at hv
    obtain ⟨w, hw, rfl⟩ := vecEntry_scale _ _ _ _ _ hv
    rw [elem_scale, elem_scale, quadEntry_scale]
    have := h2 t ht _ (wm k i j).2
    dsimp only [val, Prod.fst_swap, Prod.snd_swap] at this
    rw [hw, Option.getD_some] at this
    convert this using 1
    ring

/-- The settings of order 4 with atoms in the xz-plane. -/
noncomputable def exQuad4 : PairParams := ⟨3, 0, 4, 5, true, dblMax, 4⟩

theorem exQuad4_on (C : FieldConsts) (radial : RadKey → ℝ) (me : Method) (X : Finset (AState × AState)) : ∃ T : ℝ, 1 ≤ T ∧ ∀ t ≥ T, QuadOn C (fun key => t * radial key) me X exQuad4 := by
  classical
  obtain ⟨T, h1, h2⟩ := noTiny_scale C radial me ((X ×ˢ X).image fun u => ((qnPair u.1).getD (singlet 0, singlet 0), (qnPair u.2).getD (singlet 0, singlet 0)))
  refine ⟨T, h1, fun t ht => ⟨⟨by have := dblMax_big; intro h; unfold exQuad4 at h; dsimp only at h; linarith, rfl, rfl, by unfold exQuad4; norm_num⟩, rfl, by unfold exQuad4; norm_num,
    noTiny_304, noTiny3_304, fun x hx y hy a b ha hb => ?_⟩⟩
  have := h2 t ht (a, b) (Finset.mem_image.2 ⟨(x, y), Finset.mem_product.2 ⟨hx, hy⟩, by simp only; rw [ha, hb]; rfl⟩)
  exact this

example (C : FieldConsts) (radial : RadKey → ℝ) (me : Method) (lt : AState → AState → Bool) (E : AState → ℝ) : ∃ t : ℝ, 1 ≤ t ∧ ∃ A B D : PairBasis,
    pairBuild (plainSet 0.05 ("Sr1", "Sr1")) lt E spdSys spdSys = .ok A ∧ pairBuild (invSet .even 0.05 ("Sr1", "Sr1")) lt E spdSys spdSys = .ok B ∧
      pairBuild (invSet .odd 0.05 ("Sr1", "Sr1")) lt E spdSys spdSys = .ok D ∧
      (A.hamiltonian C (fun key => t * radial key) me exQuad4).charpoly =
        (B.hamiltonian C (fun key => t * radial key) me exQuad4).charpoly * (D.hamiltonian C (fun key => t * radial key) me exQuad4).charpoly := by
  obtain ⟨T, h1, h2⟩ := exQuad4_on C radial me spdSys.sq
  exact ⟨T, h1, C109_inversion_quadrupole C (fun key => T * radial key) me spdSys spd_unitary (by rw [spd_len]; norm_num) spd_species (fun a => a) spd_parity exQuad4 (h2 T le_rfl) 0.05
    (by norm_num) (by norm_num) ("Sr1", "Sr1") lt E⟩

example (C : FieldConsts) (radial : RadKey → ℝ) (me : Method) (lt : AState → AState → Bool) (E : AState → ℝ) : ∃ t : ℝ, 1 ≤ t ∧ QuadOn C (fun key => t * radial key) me spdSys.sq exQuad4 ∧
    ∃ A B D, pairBuild (plainSet 0.05 ("Sr1", "Sr1")) lt E spdSys spdSys = .ok A ∧ pairBuild (permSet .even 0.05 ("Sr1", "Sr1")) lt E spdSys spdSys = .ok B ∧
      pairBuild (permSet .odd 0.05 ("Sr1", "Sr1")) lt E spdSys spdSys = .ok D := by
  obtain ⟨T, h1, h2⟩ := exQuad4_on C radial me spdSys.sq
  obtain ⟨A, B, D, a, b, d, -⟩ := C109_permutation_quadrupole C (fun key => T * radial key) me spdSys spd_unitary (by rw [spd_len]; norm_num) spd_species exQuad4 (h2 T le_rfl) 0.05
    (by norm_num) (by norm_num) ("Sr1", "Sr1") lt E
  exact ⟨T, h1, h2 T le_rfl, A, B, D, a, b, d⟩

example (C : FieldConsts) (radial : RadKey → ℝ) (me : Method) (lt : AState → AState → Bool) (E : AState → ℝ) : ∃ t : ℝ, 1 ≤ t ∧ ∃ A B D : PairBasis,
    pairBuild (plainSet 0.05 ("Rb", "Rb")) lt E rSys rSys = .ok A ∧ pairBuild (reflSet .even 0.05 ("Rb", "Rb")) lt E rSys rSys = .ok B ∧
      pairBuild (reflSet .odd 0.05 ("Rb", "Rb")) lt E rSys rSys = .ok D ∧
      (A.hamiltonian C (fun key => t * radial key) me exQuad4).charpoly =
        (B.hamiltonian C (fun key => t * radial key) me exQuad4).charpoly * (D.hamiltonian C (fun key => t * radial key) me exQuad4).charpoly := by
  obtain ⟨T, h1, h2⟩ := exQuad4_on C radial me (sq2 rSys rSys)
  obtain ⟨A, B, D, a1, b1, d1, h, -⟩ := C109_reflection_quadrupole C (fun key => T * radial key) me rSys rSys rSys_unitary rSys_unitary rSys_atoms rSys_nonempty rSys_nonempty rEig rEig
    rSys_refl rSys_refl rSys_half rSys_half exQuad4 (h2 T le_rfl) 0.05 (by norm_num) (by norm_num) ("Rb", "Rb") lt E
  exact ⟨T, h1, A, B, D, a1, b1, d1, h rfl⟩

end PI
