import Verif.Rot.PairCov

/-!
# C81: rotating a pair of atoms
-/

namespace PI

open Matrix

variable {N : ℕ}

/-- Settings for which the code adds the dipole-dipole interaction: an axis in the xz-plane with the angular operators, an axis along z with the operator of
order 3, or any axis with the vacuum Green tensor. No factor lies between zero and the tolerance. -/
inductive DipoleSettings (p : PairParams) : Prop
  | tilted (h : Tilted p) (hd : p.dist = Real.sqrt (p.x ^ 2 + p.y ^ 2 + p.z ^ 2)) (ht : ∀ t ∈ angleTerms (atan2 p.x p.z), NoTinyTerm t.2)
  | axis (h : OnAxis p) (h3 : p.order = 3) (hz : p.z ≠ 0) (hd : p.dist = Real.sqrt (p.x ^ 2 + p.y ^ 2 + p.z ^ 2))
  | green (h : GreenVac p) (h3 : p.order = 3) (hr : p.x ≠ 0 ∨ p.y ≠ 0 ∨ p.z ≠ 0) (ht : ∀ i j, NoTinyTerm (ddVacuum p.x p.y p.z i j))

theorem DipoleSettings.ne {p : PairParams} (h : DipoleSettings p) : p.x ≠ 0 ∨ p.y ≠ 0 ∨ p.z ≠ 0 := by
  rcases h with ⟨h, -, -⟩ | ⟨-, -, h, -⟩ | ⟨-, -, h, -⟩
  · exact Or.inl h.x
  · exact Or.inr (Or.inr h)
  · exact h

theorem DipoleSettings.pairH {p : PairParams} (h : DipoleSettings p) (C : FieldConsts) (radial : RadKey → ℝ) (me : Method)
    (st : Fin N → Option (QN × QN)) (hst : GoodPairs st) : pairH C radial me st p = fullPairs st (ddPairSpec C radial me p) := by
  ext r c
  rcases h with ⟨h, hd, ht⟩ | ⟨h, h3, hz, hd⟩ | ⟨h, h3, hr, ht⟩
  · exact (C43_angular C radial me st hst p h hd ht r c).trans (by unfold fullPairs; cases st r <;> cases st c <;> rfl)
  · exact (C43_axis C radial me st hst p h h3 hz hd r c).trans (by unfold fullPairs; cases st r <;> cases st c <;> rfl)
  · exact (C43_green C radial me st hst p h h3 hr ht r c).trans (by unfold fullPairs; cases st r <;> cases st c <;> rfl)

theorem rotator2_plain (st : Fin N → Option (QN × QN)) (hst : RotPairs st) (α β γ : ℝ) (hp : PlainAngle (-β)) :
    rotator2 false st α β γ = .ok (rotSymPairs st (euler2 (-γ) (-β) (-α))) := by
  obtain ⟨β', h1, h2⟩ := rotator2_sym st hst α β γ
  rcases h1 with rfl | ⟨rfl, h3⟩
  · exact h2
  · rw [hp h3]; exact h2

theorem euler3_rows (α β γ : ℝ) : (buildRotatorEuler α β γ)ᵀ * (buildRotatorEuler α β γ)ᵀᵀ = 1 := by
  rw [Matrix.transpose_transpose]; exact euler3_ortho α β γ

theorem vec_moves {p p' : PairParams} {α β γ : ℝ} (hv : p'.vec = rotateVectorEuler p.vec α β γ) :
    p'.vec.fn = (buildRotatorEuler α β γ)ᵀ.mulVec p.vec.fn := by
  rw [hv, rotateVectorEuler_eq, fn_ofFn]

/-- **C81**: dipole-dipole interaction. For every set of pair states with all combinations of Zeeman levels, all distance vectors and all angles, and
whichever of the three ways to calculate the interaction the settings select: the rotator of the system transforms the interaction into the one of the
distance vector that is rotated with the same angles. -/
theorem C81_dipole (C : FieldConsts) (radial : RadKey → ℝ) (me : Method) (st : Fin N → Option (QN × QN)) (hst : RotPairs st) (hz : AllZeemanPairs st)
    (hg0 : GoodPairs st) (p p' : PairParams) (α β γ : ℝ) (hb : PlainAngle (-β)) (h : DipoleSettings p) (h' : DipoleSettings p')
    (hv : p'.vec = rotateVectorEuler p.vec α β γ) :
    ∃ M, rotator2 false st α β γ = .ok M ∧ M * Mᴴ = 1 ∧ M * pairH C radial me st p * Mᴴ = pairH C radial me st p' := by
  have hsu := euler2_su (-γ) (-β) (-α)
  refine ⟨_, rotator2_plain st hst α β γ hb, mul_eq_one_comm.1 (rotSymPairs_col st hst hz hsu), ?_⟩
  rw [h.pairH C radial me st hg0, h'.pairH C radial me st hg0]
  exact dd_rotate C radial me st hst hz hg0 hsu (movesBy_euler α β γ) (euler3_rows α β γ) p p' (vec_moves hv) h.ne h'.ne

/-- Settings for which the code adds the dipole-dipole and the dipole-quadrupole interaction with the vacuum Green tensor. -/
structure QuadrupoleSettings (C : FieldConsts) (radial : RadKey → ℝ) (me : Method) (st : Fin N → Option (QN × QN)) (p : PairParams) : Prop where
  green : GreenVac p
  order : p.order = 4
  ne : p.x ≠ 0 ∨ p.y ≠ 0 ∨ p.z ≠ 0
  dd : ∀ i j, NoTinyTerm (ddVacuum p.x p.y p.z i j)
  dq : ∀ i j k, NoTinyTerm (thirdDeriv p.x p.y p.z i j k)
  elems : ∀ a b, InSt st a → InSt st b → NoTinyDQ C radial me a b

theorem fullPairs_add (st : Fin N → Option (QN × QN)) (F G : QN × QN → QN × QN → ℂ) :
    fullPairs st (fun a b => F a b + G a b) = fullPairs st F + fullPairs st G := by
  ext r c
  rw [Matrix.add_apply]
  unfold fullPairs
  cases st r <;> cases st c <;> simp

/-- **C81**: the same with the dipole-quadrupole interaction (order 4 with the Green tensor). -/
theorem C81_quadrupole (C : FieldConsts) (radial : RadKey → ℝ) (me : Method) (st : Fin N → Option (QN × QN)) (hst : RotPairs st) (hz : AllZeemanPairs st)
    (hg0 : GoodPairs st) (p p' : PairParams) (α β γ : ℝ) (hb : PlainAngle (-β)) (h : QuadrupoleSettings C radial me st p)
    (h' : QuadrupoleSettings C radial me st p') (hv : p'.vec = rotateVectorEuler p.vec α β γ) :
    ∃ M, rotator2 false st α β γ = .ok M ∧ M * Mᴴ = 1 ∧ M * pairH C radial me st p * Mᴴ = pairH C radial me st p' := by
  have hsu := euler2_su (-γ) (-β) (-α)
  refine ⟨_, rotator2_plain st hst α β γ hb, mul_eq_one_comm.1 (rotSymPairs_col st hst hz hsu), ?_⟩
  have e : ∀ q, QuadrupoleSettings C radial me st q → pairH C radial me st q = fullPairs st (ddPairSpec C radial me q) + fullPairs st (dqPairSpec C radial me q) := by
    intro q hq
    rw [← fullPairs_add]
    ext r c
    exact (C71_green_order4 C radial me st hg0 q hq.green hq.order hq.ne hq.dd hq.dq hq.elems r c).trans (by
      unfold fullPairs; cases st r <;> cases st c <;> rfl)
  rw [e p h, e p' h', Matrix.mul_add, Matrix.add_mul]
  congr 1
  · exact dd_rotate C radial me st hst hz hg0 hsu (movesBy_euler α β γ) (euler3_rows α β γ) p p' (vec_moves hv) h.ne h'.ne
  · exact dq_rotate C radial me st hst hz hg0 hsu (movesBy_euler α β γ) (euler3_rows α β γ) p p' (vec_moves hv)

/-! ## Rotations about the interatomic axis -/

theorem rotSym_axis (θ : ℝ) (a b : QN) (am : 0 ≤ a.j ∧ IsM a.j a.m) (bm : 0 ≤ b.j ∧ IsM b.j b.m) :
    rotSym (rotZ2 θ) a b = if a = b then Complex.exp (-((θ / 2 * a.m : ℝ) : ℂ) * Complex.I) else 0 := by
  obtain ⟨i1, i2⟩ := QN.idx_spec am.1 am.2
  unfold rotSym
  by_cases h : a = { b with m := a.m }
  · rw [if_pos h]
    have hj : b.j = a.j := by rw [h]
    unfold rotZ2
    rw [sym_diag _ _ _ _ _ (QN.idx_spec bm.1 bm.2).1]
    by_cases hab : a = b
    · subst hab
      rw [if_pos rfl, if_pos rfl]
      unfold ePh fPh
      rw [← Complex.exp_nat_mul, ← Complex.exp_nat_mul, ← Complex.exp_add]
      congr 1
      have : ((a.j.toNat - a.idx : ℕ) : ℂ) = (a.m : ℂ) + (a.idx : ℂ) := by
        have : ((a.j.toNat - a.idx : ℕ) : ℤ) = a.m + a.idx := by omega
        exact_mod_cast congrArg (Int.cast : ℤ → ℂ) this
      rw [this]
      push_cast
      ring
    · rw [if_neg hab, if_neg]
      intro hi
      exact hab (idx_inj am.1 am.2 bm.2 h hi)
  · rw [if_neg h, if_neg]
    rintro rfl
    exact h rfl

/-- **C81**: for atoms along z and every order of the multipole expansion, rotations about the interatomic axis leave the interaction as it is (for every
set of pair states, complete or not). -/
theorem C81_axis (C : FieldConsts) (radial : RadKey → ℝ) (me : Method) (st : Fin N → Option (QN × QN)) (hst : RotPairs st) (hg0 : GoodPairs st)
    (p : PairParams) (h : OnAxis p) (α γ : ℝ) :
    ∃ M, rotator2 false st α 0 γ = .ok M ∧ M * Mᴴ = 1 ∧ M * pairH C radial me st p * Mᴴ = pairH C radial me st p := by
  have hp : PlainAngle (-0) := by
    intro h
    rw [neg_zero, zero_sub, abs_neg, abs_of_pos (by positivity)] at h
    have := Real.pi_gt_three
    norm_num at h
    linarith
  obtain ⟨θ, hθ⟩ := euler2_axis α γ
  refine ⟨_, rotator2_plain st hst α 0 γ hp, ?_⟩
  rw [hθ]
  have hM : ∃ t : Fin N → ℤ, (∀ i a, st i = some a → t i = a.1.m + a.2.m) ∧
      rotSymPairs st (rotZ2 θ) = Matrix.diagonal fun i => Complex.exp (-((θ / 2 * t i : ℝ) : ℂ) * Complex.I) := by
    choose a ha using hst.all
    refine ⟨fun i => (a i).1.m + (a i).2.m, ?_, ?_⟩
    · intro i b hb
      rw [ha i, Option.some.injEq] at hb
      show (a i).1.m + (a i).2.m = _
      rw [hb]
    · ext r c
      unfold rotSymPairs
      rw [ha r, ha c]
      dsimp only
      obtain ⟨⟨r0, -, r1⟩, r2, -, r3⟩ := hst.isM r _ (ha r)
      obtain ⟨⟨c0, -, c1⟩, c2, -, c3⟩ := hst.isM c _ (ha c)
      rw [rotSym_axis θ _ _ ⟨r0, r1⟩ ⟨c0, c1⟩, rotSym_axis θ _ _ ⟨r2, r3⟩ ⟨c2, c3⟩]
      by_cases hrc : r = c
      · subst hrc
        rw [if_pos rfl, if_pos rfl, Matrix.diagonal_apply_eq, ← Complex.exp_add]
        congr 1
        push_cast
        ring
      · rw [Matrix.diagonal_apply_ne _ hrc]
        by_cases h1 : (a r).1 = (a c).1
        · rw [if_neg (fun h2 : (a r).2 = (a c).2 => hrc (hst.inj r c (by rw [ha r, ha c, Prod.ext h1 h2]))), mul_zero]
        · rw [if_neg h1, zero_mul]
  obtain ⟨t, ht, hM⟩ := hM
  rw [hM]
  have hu : ∀ x : ℝ, Complex.exp (-(x : ℂ) * Complex.I) * (starRingEnd ℂ) (Complex.exp (-(x : ℂ) * Complex.I)) = 1 := by
    intro x
    rw [← Complex.exp_conj, ← Complex.exp_add, map_mul, map_neg, Complex.conj_ofReal, Complex.conj_I]
    simp
  rw [Matrix.diagonal_conjTranspose]
  refine ⟨?_, ?_⟩
  · rw [Matrix.diagonal_mul_diagonal, ← Matrix.diagonal_one]
    congr 1
    funext i
    exact hu _
  · ext r c
    rw [Matrix.mul_diagonal, Matrix.diagonal_mul]
    obtain ⟨a, ha⟩ := hst.all r
    obtain ⟨b, hb⟩ := hst.all c
    by_cases hm : a.1.m + a.2.m = b.1.m + b.2.m
    · rw [Pi.star_apply, ht r a ha, ht c b hb, hm]
      have := hu (θ / 2 * ((b.1.m + b.2.m : ℤ) : ℝ))
      rw [mul_right_comm]
      refine Eq.trans (congrArg (· * _) ?_) (one_mul _)
      exact this
    · rw [C44_total_m C radial me st hg0 p h r c a b ha hb hm]; simp

/-! ## Energies -/

/-- The energies of the pair states do not depend on the magnetic quantum numbers. -/
def LevelPairEnergies (st : Fin N → Option (QN × QN)) (e : Fin N → ℝ) : Prop :=
  ∀ i k a b, st i = some a → st k = some b → b.1 = { a.1 with m := b.1.m } → b.2 = { a.2 with m := b.2.m } → e i = e k

theorem pair_energies_rotate (st : Fin N → Option (QN × QN)) (hst : RotPairs st) (hz : AllZeemanPairs st) {g : M2} (hg : g.SU) (e : Fin N → ℝ)
    (he : LevelPairEnergies st e) :
    rotSymPairs st g * Matrix.diagonal (fun i => (e i : ℂ)) * (rotSymPairs st g)ᴴ = Matrix.diagonal fun i => (e i : ℂ) := by
  have : rotSymPairs st g * Matrix.diagonal (fun i => (e i : ℂ)) = Matrix.diagonal (fun i => (e i : ℂ)) * rotSymPairs st g := by
    ext r c
    rw [Matrix.mul_diagonal, Matrix.diagonal_mul]
    obtain ⟨a, ha⟩ := hst.all r
    obtain ⟨b, hb⟩ := hst.all c
    unfold rotSymPairs
    rw [ha, hb]
    dsimp only
    unfold rotSym
    by_cases h : a.1 = { b.1 with m := a.1.m }
    · by_cases h2 : a.2 = { b.2 with m := a.2.m }
      · rw [he r c a b ha hb (same_level_symm h) (same_level_symm h2)]; ring
      · rw [if_neg h2]; ring
    · rw [if_neg h]; ring
  rw [this, Matrix.mul_assoc, mul_eq_one_comm.1 (rotSymPairs_col st hst hz hg), Matrix.mul_one]

/-- The operator that a SystemTwo with all pair states as basis vectors represents (`C35_system_two`). -/
noncomputable def twoOperator (C : FieldConsts) (radial : RadKey → ℝ) (me : Method) (st : Fin N → Option (QN × QN)) (e : Fin N → ℝ) (p : OKPair) :
    Matrix (Fin N) (Fin N) ℂ := freshOper (pairInter C radial me st) (Matrix.diagonal fun i => (e i : ℂ)) 1 p

theorem twoOperator_eq (C : FieldConsts) (radial : RadKey → ℝ) (me : Method) (st : Fin N → Option (QN × QN)) (e : Fin N → ℝ) (p : OKPair) :
    twoOperator C radial me st e p = Matrix.diagonal (fun i => (e i : ℂ)) + pairH C radial me st p.1 := by
  unfold twoOperator
  rw [pairInter_oper, Matrix.one_mul, Matrix.mul_one]

/-- **C81**: without fields, the energies of two interacting atoms do not depend on the direction of the interatomic axis, and neither on the way in which
the interaction is calculated: any two settings whose distance vectors are related by a rotation have the same spectrum. -/
theorem C81_spectrum (C : FieldConsts) (radial : RadKey → ℝ) (me : Method) (st : Fin N → Option (QN × QN)) (hst : RotPairs st) (hz : AllZeemanPairs st)
    (hg0 : GoodPairs st) (e : Fin N → ℝ) (he : LevelPairEnergies st e) (p p' : OKPair) (α β γ : ℝ) (hb : PlainAngle (-β))
    (h : (DipoleSettings p.1 ∧ DipoleSettings p'.1) ∨ (QuadrupoleSettings C radial me st p.1 ∧ QuadrupoleSettings C radial me st p'.1))
    (hv : p'.1.vec = rotateVectorEuler p.1.vec α β γ) :
    (twoOperator C radial me st e p').charpoly = (twoOperator C radial me st e p).charpoly := by
  have hsu := euler2_su (-γ) (-β) (-α)
  have key : ∃ M, rotator2 false st α β γ = .ok M ∧ M * Mᴴ = 1 ∧ M * pairH C radial me st p.1 * Mᴴ = pairH C radial me st p'.1 := by
    rcases h with ⟨h, h'⟩ | ⟨h, h'⟩
    · exact C81_dipole C radial me st hst hz hg0 p.1 p'.1 α β γ hb h h' hv
    · exact C81_quadrupole C radial me st hst hz hg0 p.1 p'.1 α β γ hb h h' hv
  obtain ⟨M, hM, h1, h2⟩ := key
  rw [rotator2_plain st hst α β γ hb] at hM
  simp only [Out.ok.injEq] at hM
  have h3 := pair_energies_rotate st hst hz hsu e he
  rw [hM] at h3
  rw [twoOperator_eq, twoOperator_eq, ← h2]
  nth_rw 1 [← h3]
  rw [← Matrix.add_mul, ← Matrix.mul_add, Matrix.charpoly_mul_comm, ← Matrix.mul_assoc, mul_eq_one_comm.1 h1, Matrix.one_mul]

/-- **C81**: a built pair system represents, after `rotate`, the Hamiltonian of the rotated distance vector. -/
theorem C81_rotate {k : Type} [Fintype k] [DecidableEq k] (C : FieldConsts) (radial : RadKey → ℝ) (me : Method) (st : Fin N → Option (QN × QN))
    (hst : RotPairs st) (hz : AllZeemanPairs st) (hg0 : GoodPairs st) (e : Fin N → ℝ) (he : LevelPairEnergies st e) (p p' : OKPair) (α β γ : ℝ)
    (hb : PlainAngle (-β)) (h : DipoleSettings p.1) (h' : DipoleSettings p'.1) (hv : p'.1.vec = rotateVectorEuler p.1.vec α β γ)
    (s : CSys OKPair PKey (Fin N) k) (hs : s.V * s.H * s.Vᴴ = twoOperator C radial me st e p) :
    ∃ M, rotator2 false st α β γ = .ok M ∧ (s.rotate M).V * (s.rotate M).H * (s.rotate M).Vᴴ = twoOperator C radial me st e p' := by
  obtain ⟨M, hM, h1, h2⟩ := C81_dipole C radial me st hst hz hg0 p.1 p'.1 α β γ hb h h' hv
  refine ⟨M, hM, ?_⟩
  rw [rotator2_plain st hst α β γ hb] at hM
  simp only [Out.ok.injEq] at hM
  have h3 := pair_energies_rotate st hst hz (euler2_su (-γ) (-β) (-α)) e he
  rw [hM] at h3
  rw [twoOperator_eq] at hs
  rw [twoOperator_eq, ← h2]
  have e3 : Matrix.diagonal (fun i => (e i : ℂ)) + M * pairH C radial me st p.1 * Mᴴ
      = M * (Matrix.diagonal (fun i => (e i : ℂ)) + pairH C radial me st p.1) * Mᴴ := by rw [Matrix.mul_add, Matrix.add_mul, h3]
  rw [e3, ← hs]
  unfold CSys.rotate
  rw [Matrix.conjTranspose_mul]
  simp only [Matrix.mul_assoc]

/-! ## Examples -/

/-- 61 S1/2 of rubidium. -/
def exRbS (m : ℤ) : QN := ⟨"Rb", 61, 0, 1, m, 1⟩
/-- 60 P1/2 of rubidium. -/
def exRbP (m : ℤ) : QN := ⟨"Rb", 60, 1, 1, m, 1⟩

/-- The pair states S1/2 P1/2 and P1/2 S1/2 with all Zeeman levels. -/
def exSP : Fin 8 → Option (QN × QN) := fun i =>
  let m : ℤ := if i.val % 2 = 0 then 1 else -1
  let m2 : ℤ := if i.val / 2 % 2 = 0 then 1 else -1
  some (if i.val < 4 then (exRbS m, exRbP m2) else (exRbP m, exRbS m2))

theorem exSP_cases {i : Fin 8} {a : QN × QN} (h : exSP i = some a) :
    ∃ m m2 : ℤ, (m = 1 ∨ m = -1) ∧ (m2 = 1 ∨ m2 = -1) ∧ (a = (exRbS m, exRbP m2) ∨ a = (exRbP m, exRbS m2)) := by
  unfold exSP at h
  dsimp only at h
  rw [Option.some.injEq] at h
  refine ⟨if i.val % 2 = 0 then 1 else -1, if i.val / 2 % 2 = 0 then 1 else -1, ?_, ?_, ?_⟩
  · split_ifs <;> simp
  · split_ifs <;> simp
  · subst h
    by_cases h4 : i.val < 4
    · rw [if_pos h4]; exact Or.inl rfl
    · rw [if_neg h4]; exact Or.inr rfl

theorem exSP_surj (m m2 : ℤ) (h : m = 1 ∨ m = -1) (h2 : m2 = 1 ∨ m2 = -1) :
    (∃ i, exSP i = some (exRbS m, exRbP m2)) ∧ ∃ i, exSP i = some (exRbP m, exRbS m2) := by
  rcases h with rfl | rfl <;> rcases h2 with rfl | rfl
  · exact ⟨⟨0, rfl⟩, 4, rfl⟩
  · exact ⟨⟨2, rfl⟩, 6, rfl⟩
  · exact ⟨⟨1, rfl⟩, 5, rfl⟩
  · exact ⟨⟨3, rfl⟩, 7, rfl⟩

theorem exSP_rot : RotPairs exSP := by
  refine ⟨fun i => ⟨_, rfl⟩, ?_, ?_⟩
  · intro i a h
    obtain ⟨m, m2, rfl | rfl, rfl | rfl, rfl | rfl⟩ := exSP_cases h <;>
      exact ⟨⟨by decide, by decide, by constructor <;> decide⟩, ⟨by decide, by decide, by constructor <;> decide⟩⟩
  · intro i k
    revert i k
    decide

theorem exSP_all : AllZeemanPairs exSP := by
  intro i a h m m2 hm hm2
  have key : ∀ {x : ℤ}, IsM 1 x → x = 1 ∨ x = -1 := by
    rintro x ⟨h1, h2, h3⟩; omega
  obtain ⟨n, n2, -, -, rfl | rfl⟩ := exSP_cases h
  · exact (exSP_surj m m2 (key hm) (key hm2)).1
  · exact (exSP_surj m m2 (key hm) (key hm2)).2

theorem exSP_good : GoodPairs exSP := by
  intro i a h
  obtain ⟨m, m2, hm, hm2, ha⟩ := exSP_cases h
  have hs : ∀ m, (m = 1 ∨ m = -1) → (exRbS m).Physical ∧ (exRbP m).Physical := by
    rintro m (rfl | rfl) <;> norm_num [QN.Physical, exRbS, exRbP]
  refine ⟨?_, ?_, ?_⟩
  · rcases ha with rfl | rfl
    · exact (hs m hm).1
    · exact (hs m hm).2
  · rcases ha with rfl | rfl
    · exact (hs m2 hm2).2
    · exact (hs m2 hm2).1
  · intro j b hb
    obtain ⟨n, n2, -, -, hb'⟩ := exSP_cases hb
    rcases ha with rfl | rfl <;> rcases hb' with rfl | rfl <;> exact ⟨rfl, rfl, rfl, rfl⟩

/-- Atoms at distance 5 along z, and the same pair tilted in the xz-plane. -/
noncomputable def exAxis : PairParams := ⟨0, 0, 5, 5, false, dblMax, 3⟩

theorem exAxis_settings : DipoleSettings exAxis :=
  .axis ⟨by have := dblMax_big; intro h; unfold exAxis at h; linarith, rfl, rfl, rfl, rfl⟩ rfl (by norm_num [exAxis]) (by norm_num [exAxis]; rw [sqrt25])

theorem tiltedEx_settings : DipoleSettings tiltedEx :=
  .tilted tiltedEx_tilted (by rw [tiltedEx_dist]; simp [tiltedEx, PairParams.setVector]
                              rw [show (3 ^ 2 + 4 ^ 2 : ℝ) = 25 by norm_num, sqrt25]) tiltedEx_noTiny

/-- The angle between the axes. -/
noncomputable def exAngle : ℝ := -Real.arccos (4 / 5)

theorem exAngle_trig : Real.cos exAngle = 4 / 5 ∧ Real.sin exAngle = -(3 / 5) := by
  unfold exAngle
  rw [Real.cos_neg, Real.sin_neg, Real.cos_arccos (by norm_num) (by norm_num), Real.sin_arccos]
  refine ⟨rfl, ?_⟩
  rw [show (1 - (4 / 5) ^ 2 : ℝ) = (3 / 5) ^ 2 by norm_num, Real.sqrt_sq (by norm_num)]

theorem exAngle_plain : PlainAngle (-exAngle) := by
  intro h
  exfalso
  rw [exAngle, neg_neg, ← abs_neg, neg_sub, ← Real.arcsin_eq_pi_div_two_sub_arccos] at h
  have h1 : (4 / 5 : ℝ) ≤ Real.arcsin (4 / 5) := by
    have := Real.sin_le (Real.arcsin_nonneg.2 (by norm_num : (0 : ℝ) ≤ 4 / 5))
    rwa [Real.sin_arcsin (by norm_num) (by norm_num)] at this
  rw [abs_of_nonneg (by linarith)] at h
  norm_num at h
  linarith

theorem exAngle_vec : rotateVectorEuler ⟨0, 0, 5⟩ 0 exAngle 0 = ⟨3, 0, 4⟩ := by
  obtain ⟨hc, hs⟩ := exAngle_trig
  rw [rotateVectorEuler_eq]
  unfold buildRotatorEuler rotZ3 rotY3 Vec3.ofFn Vec3.fn
  rw [Vec3.mk.injEq]
  simp [Matrix.mulVec, dotProduct, Fin.sum_univ_three, Matrix.transpose_apply, hc, hs]

theorem tiltedEx_vec : tiltedEx.vec = rotateVectorEuler exAxis.vec 0 exAngle 0 := by
  refine Eq.trans ?_ exAngle_vec.symm
  simp [PairParams.vec, tiltedEx, PairParams.setVector]

example (C : FieldConsts) (radial : RadKey → ℝ) (me : Method) :
    ∃ M, rotator2 false exSP 0 exAngle 0 = .ok M ∧ M * Mᴴ = 1 ∧ M * pairH C radial me exSP exAxis * Mᴴ = pairH C radial me exSP tiltedEx :=
  C81_dipole C radial me exSP exSP_rot exSP_all exSP_good exAxis tiltedEx 0 exAngle 0 exAngle_plain exAxis_settings tiltedEx_settings tiltedEx_vec

theorem exPair_ok (p : PairParams) (h : ¬ p.greenBranch) : (initPair p ⟨[], [], [], [], fun _ => false⟩).1 = .ok () := by
  unfold initPair
  dsimp only
  split_ifs <;> simp_all

theorem exAxis_notGreen : ¬ exAxis.greenBranch := by
  unfold PairParams.greenBranch exAxis; simp

theorem tiltedEx_notGreen : ¬ tiltedEx.greenBranch := by
  unfold PairParams.greenBranch
  rw [tiltedEx_tilted.y, tiltedEx_tilted.surf, tiltedEx_tilted.gt]
  simp [tiltedEx, PairParams.setVector, PairParams.fresh]

theorem exSP_energies : LevelPairEnergies exSP (fun i => if i.val < 4 then 7 else 8) := by
  intro i k a b h h2 e1 e2
  dsimp only
  unfold exSP at h h2
  dsimp only at h h2
  rw [Option.some.injEq] at h h2
  subst h; subst h2
  split_ifs at e1 e2 ⊢ <;> simp [exRbS, exRbP] at e1 e2 ⊢

example (C : FieldConsts) (radial : RadKey → ℝ) (me : Method) :
    (twoOperator C radial me exSP (fun i => if i.val < 4 then 7 else 8) ⟨tiltedEx, exPair_ok _ tiltedEx_notGreen⟩).charpoly
      = (twoOperator C radial me exSP (fun i => if i.val < 4 then 7 else 8) ⟨exAxis, exPair_ok _ exAxis_notGreen⟩).charpoly :=
  C81_spectrum C radial me exSP exSP_rot exSP_all exSP_good _ exSP_energies ⟨exAxis, exPair_ok _ exAxis_notGreen⟩ ⟨tiltedEx, exPair_ok _ tiltedEx_notGreen⟩ 0 exAngle 0 exAngle_plain
    (Or.inl ⟨exAxis_settings, tiltedEx_settings⟩) tiltedEx_vec

example (C : FieldConsts) (radial : RadKey → ℝ) (me : Method) :
    let H := twoOperator C radial me exSP (fun i => if i.val < 4 then 7 else 8) ⟨exAxis, exPair_ok _ exAxis_notGreen⟩
    let s : CSys OKPair PKey (Fin 8) (Fin 8) := ⟨⟨exAxis, exPair_ok _ exAxis_notGreen⟩, 1, H, none, none, fun _ => none, false, false, false, false⟩
    ∃ M, rotator2 false exSP 0 exAngle 0 = .ok M ∧ (s.rotate M).V * (s.rotate M).H * (s.rotate M).Vᴴ
      = twoOperator C radial me exSP (fun i => if i.val < 4 then 7 else 8) ⟨tiltedEx, exPair_ok _ tiltedEx_notGreen⟩ := by
  intro H s
  exact C81_rotate C radial me exSP exSP_rot exSP_all exSP_good _ exSP_energies ⟨exAxis, exPair_ok _ exAxis_notGreen⟩
    ⟨tiltedEx, exPair_ok _ tiltedEx_notGreen⟩ 0 exAngle 0 exAngle_plain exAxis_settings tiltedEx_settings tiltedEx_vec s (by simp [s, H])

theorem sel_parity (a b : QN) (k : ℤ) (h : k.tmod 2 ≠ |a.l - b.l|.tmod 2) : selMultipole a b k = false := by
  unfold selMultipole
  dsimp only
  rw [decide_eq_false h]
  simp

theorem exSP_noTinyDQ (C : FieldConsts) (radial : RadKey → ℝ) (me : Method) (a b : QN × QN) (ha : InSt exSP a) (hb : InSt exSP b) :
    NoTinyDQ C radial me a b := by
  obtain ⟨i, hi⟩ := ha
  obtain ⟨k, hk⟩ := hb
  have ga := exSP_good i a hi
  have gb := exSP_good k b hk
  obtain ⟨s1, t1, s2, t2⟩ := ga.2.2 k b hk
  have z1 : ∀ n : ℤ, 0 ≤ n → selMultipole a.1 b.1 n = false → elem C radial me n a.1 b.1 = 0 :=
    fun n hn h => elem_zero C radial me _ _ ga.1 gb.1 s1 t1 n hn h
  have z2 : ∀ n : ℤ, 0 ≤ n → selMultipole a.2 b.2 n = false → elem C radial me n a.2 b.2 = 0 :=
    fun n hn h => elem_zero C radial me _ _ ga.2.1 gb.2.1 s2 t2 n hn h
  obtain ⟨m, m2, -, -, ha⟩ := exSP_cases hi
  obtain ⟨n, n2, -, -, hb⟩ := exSP_cases hk
  have q0 : ∀ (j k : Fin 3) (q : ℤ), quadEntry j k q 0 0 = 0 := by
    intro j k q; unfold quadEntry; simp
  have v0 : ∀ (i : Fin 3) (q : ℤ) (v : ℝ), vecEntry i q 0 = some v → v = 0 := by
    intro i q v h
    unfold vecEntry at h
    split_ifs at h <;> simp at h <;> exact h.symm
  unfold NoTinyDQ
  rcases ha with rfl | rfl <;> rcases hb with rfl | rfl
  all_goals
    first
    | (rw [z1 1 (by norm_num) (sel_parity _ _ _ (by simp only [exRbS, exRbP]; decide)), z2 1 (by norm_num) (sel_parity _ _ _ (by simp only [exRbS, exRbP]; decide))]
       exact ⟨fun i j k v hv => by left; rw [v0 i _ v hv, zero_mul], fun i j k v hv => by left; rw [v0 k _ v hv, zero_mul]⟩)
    | (rw [z1 2 (by norm_num) (sel_parity _ _ _ (by simp only [exRbS, exRbP]; decide)), z2 2 (by norm_num) (sel_parity _ _ _ (by simp only [exRbS, exRbP]; decide)),
         z1 0 (by norm_num) (sel_parity _ _ _ (by simp only [exRbS, exRbP]; decide)), z2 0 (by norm_num) (sel_parity _ _ _ (by simp only [exRbS, exRbP]; decide))]
       exact ⟨fun i j k v hv => by left; rw [q0, mul_zero], fun i j k v hv => by left; rw [q0, mul_zero]⟩)

theorem norm_304 : Real.sqrt (3 ^ 2 + 0 ^ 2 + 4 ^ 2) = 5 := by
  rw [show (3 ^ 2 + 0 ^ 2 + 4 ^ 2 : ℝ) = 25 by norm_num, sqrt25]

theorem noTiny_304 (i j : Fin 3) : NoTinyTerm (ddVacuum 3 0 4 i j) := by
  unfold NoTinyTerm overTol
  rw [decide_eq_true_eq, gt_iff_lt, lt_abs]
  unfold ddVacuum
  dsimp only
  rw [norm3_eq, norm_304]
  fin_cases i <;> fin_cases j <;> norm_num [eye]

theorem noTiny3_304 (i j k : Fin 3) : NoTinyTerm (thirdDeriv 3 0 4 i j k) := by
  unfold NoTinyTerm overTol
  rw [decide_eq_true_eq, gt_iff_lt, lt_abs]
  unfold thirdDeriv
  dsimp only
  rw [norm_304]
  fin_cases i <;> fin_cases j <;> fin_cases k <;> norm_num [eye]

example (C : FieldConsts) (radial : RadKey → ℝ) (me : Method) :
    ∃ M, rotator2 false exSP 0 exAngle 0 = .ok M ∧ M * Mᴴ = 1 ∧
      M * pairH C radial me exSP ⟨0, 0, 5, 5, true, dblMax, 4⟩ * Mᴴ = pairH C radial me exSP ⟨3, 0, 4, 5, true, dblMax, 4⟩ :=
  C81_quadrupole C radial me exSP exSP_rot exSP_all exSP_good ⟨0, 0, 5, 5, true, dblMax, 4⟩ ⟨3, 0, 4, 5, true, dblMax, 4⟩ 0 exAngle 0 exAngle_plain
    ⟨⟨by have := dblMax_big; intro h; dsimp only at h; linarith, rfl, rfl, by norm_num⟩, rfl, by norm_num, noTiny_005, noTiny3_005, exSP_noTinyDQ C radial me⟩
    ⟨⟨by have := dblMax_big; intro h; dsimp only at h; linarith, rfl, rfl, by norm_num⟩, rfl, by norm_num, noTiny_304, noTiny3_304, exSP_noTinyDQ C radial me⟩
    exAngle_vec.symm

example (C : FieldConsts) (radial : RadKey → ℝ) (me : Method) (α γ : ℝ) :=
  C81_axis C radial me stEx (by
    refine ⟨fun i => by fin_cases i <;> exact ⟨_, rfl⟩, ?_, by decide⟩
    intro i a h
    fin_cases i <;> simp [stEx] at h <;> subst h <;>
      exact ⟨⟨by decide, by decide, by constructor <;> decide⟩, ⟨by decide, by decide, by constructor <;> decide⟩⟩) stEx_good
    ⟨0, 0, 5, 5, false, dblMax, 6⟩ ⟨by have := dblMax_big; intro h; dsimp only at h; linarith, rfl, rfl, rfl, rfl⟩ α γ

end PI
