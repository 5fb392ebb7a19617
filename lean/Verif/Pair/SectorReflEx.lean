import Verif.Pair.SectorReflDir
import Verif.Pair.SectorMomEx

/-!
# Symmetry sectors of a pair system: reflection, examples
-/

namespace PI

open Matrix

/-- 60 S1/2 and 60 P3/2 with stretched projections. -/
def rState : Fin 4 → AState := ![.phys "Rb" 60 0 1 1, .phys "Rb" 60 0 1 (-1), .phys "Rb" 60 1 3 3, .phys "Rb" 60 1 3 (-3)]

/-- Their quantum numbers. -/
def rQN : Fin 4 → QN := ![⟨"Rb", 60, 0, 1, 1, 1⟩, ⟨"Rb", 60, 0, 1, -1, 1⟩, ⟨"Rb", 60, 1, 3, 3, 1⟩, ⟨"Rb", 60, 1, 3, -3, 1⟩]

theorem rState_qn (k : Fin 4) : (rState k).qn = some (rQN k) := by
  fin_cases k <;> decide +kernel

/-- The amplitude (1 + i)/2 of absolute value 1/√2. -/
noncomputable def rAmp : ℂ := (1 + Complex.I) / 2

/-- The system of the vectors that are symmetric or antisymmetric under reflection. -/
noncomputable def rSys : OneSys := ⟨[rState 0, rState 1, rState 2, rState 3],
  [(0, [(rState 0, rAmp), (rState 1, Complex.I * rAmp)]), (0, [(rState 0, rAmp), (rState 1, -Complex.I * rAmp)]),
   (7, [(rState 2, rAmp), (rState 3, -Complex.I * rAmp)]), (7, [(rState 2, rAmp), (rState 3, Complex.I * rAmp)])]⟩

/-- The eigenvalues of the reflection. -/
def rEig : ℕ → ℤ := fun a => if a = 0 ∨ a = 2 then 1 else -1

theorem rState_ne : rState 0 ≠ rState 1 ∧ rState 0 ≠ rState 2 ∧ rState 0 ≠ rState 3 ∧ rState 1 ≠ rState 2 ∧ rState 1 ≠ rState 3 ∧ rState 2 ≠ rState 3 := by
  refine ⟨?_, ?_, ?_, ?_, ?_, ?_⟩ <;> decide

theorem rAmp_norm : (starRingEnd ℂ) rAmp * rAmp = 1 / 2 := by
  unfold rAmp
  rw [map_div₀, map_add, Complex.conj_I, map_one, Complex.conj_ofNat]
  linear_combination (-1 / 4 : ℂ) * Complex.I_mul_I

theorem rCol (a : ℕ) (ha : a < 4) (s : AState) : coef1 (rSys.col a).2 s =
    if a = 0 then (if rState 0 = s then rAmp else 0) + (if rState 1 = s then Complex.I * rAmp else 0)
    else if a = 1 then (if rState 0 = s then rAmp else 0) + (if rState 1 = s then -Complex.I * rAmp else 0)
    else if a = 2 then (if rState 2 = s then rAmp else 0) + (if rState 3 = s then -Complex.I * rAmp else 0)
    else (if rState 2 = s then rAmp else 0) + (if rState 3 = s then Complex.I * rAmp else 0) := by
  interval_cases a <;> simp [coef1, OneSys.col, rSys]

theorem rSys_unitary : UnitarySys rSys := by
  obtain ⟨n01, n02, n03, n12, n13, n23⟩ := rState_ne
  have hset : rSys.states.toFinset = {rState 0, rState 1, rState 2, rState 3} := by unfold rSys; simp
  have hlen : rSys.cols.length = 4 := rfl
  have hn := rAmp_norm
  have hi := Complex.I_mul_I
  refine ⟨?_, ?_, ?_, ?_⟩
  · unfold rSys; simp [n01, n02, n03, n12, n13, n23]
  · intro u hu
    unfold rSys at hu ⊢
    simp only [List.mem_cons, List.not_mem_nil, or_false] at hu
    rcases hu with rfl | rfl | rfl | rfl <;> simp [n01, n23]
  · intro a ha b hb
    rw [hlen] at ha hb
    rw [hset, Finset.sum_insert (by simp [n01, n02, n03]), Finset.sum_insert (by simp [n12, n13]), Finset.sum_pair n23]
    simp only [rCol a ha, rCol b hb]
    interval_cases a <;> interval_cases b <;> simp [n01, n02, n03, n12, n13, n23, n01.symm, n02.symm, n03.symm, n12.symm, n13.symm, n23.symm] <;>
      first | linear_combination 2 * hn - ((starRingEnd ℂ) rAmp * rAmp) * hi | linear_combination ((starRingEnd ℂ) rAmp * rAmp) * hi
  · intro s hs t ht
    rw [hlen]
    simp only [Finset.sum_range_succ, Finset.sum_range_zero, zero_add]
    rw [rCol 0 (by norm_num), rCol 1 (by norm_num), rCol 2 (by norm_num), rCol 3 (by norm_num), rCol 0 (by norm_num), rCol 1 (by norm_num), rCol 2 (by norm_num), rCol 3 (by norm_num)]
    have hs' : s = rState 0 ∨ s = rState 1 ∨ s = rState 2 ∨ s = rState 3 := by unfold rSys at hs; simpa using hs
    have ht' : t = rState 0 ∨ t = rState 1 ∨ t = rState 2 ∨ t = rState 3 := by unfold rSys at ht; simpa using ht
    rcases hs' with rfl | rfl | rfl | rfl <;> rcases ht' with rfl | rfl | rfl | rfl <;>
      simp [n01, n02, n03, n12, n13, n23, n01.symm, n02.symm, n03.symm, n12.symm, n13.symm, n23.symm] <;>
      first | linear_combination 2 * hn | linear_combination 2 * hn - 2 * ((starRingEnd ℂ) rAmp * rAmp) * hi | ring

theorem rSys_half : HalfSys rSys := by
  intro x hx
  have hs' : x = rState 0 ∨ x = rState 1 ∨ x = rState 2 ∨ x = rState 3 := by unfold rSys at hx; simpa using hx
  rcases hs' with rfl | rfl | rfl | rfl <;> decide

theorem rSys_species : ∀ x ∈ rSys.states, ∃ a, x.qn = some a ∧ a.Physical ∧ a.species = "Rb" ∧ a.s = 1 := by
  intro x hx
  have hs' : ∃ k, x = rState k := by
    have : x = rState 0 ∨ x = rState 1 ∨ x = rState 2 ∨ x = rState 3 := by unfold rSys at hx; simpa using hx
    rcases this with h | h | h | h
    · exact ⟨0, h⟩
    · exact ⟨1, h⟩
    · exact ⟨2, h⟩
    · exact ⟨3, h⟩
  obtain ⟨k, rfl⟩ := hs'
  refine ⟨_, rState_qn k, ?_, ?_, ?_⟩
  · unfold QN.Physical
    fin_cases k <;> simp [rQN]
  · fin_cases k <;> rfl
  · fin_cases k <;> rfl

theorem rSys_atoms : TwoAtoms rSys rSys := ⟨"Rb", 1, "Rb", 1, rfl, rSys_species, rSys_species⟩

theorem rSys_refl : ReflVecs rSys rEig := by
  obtain ⟨n01, n02, n03, n12, n13, n23⟩ := rState_ne
  intro a ha
  have ha : a < 4 := ha
  refine ⟨by unfold rEig; split_ifs <;> simp, ?_⟩
  funext x
  have out : ∀ y : AState, y ∉ rSys.states → coef1 (rSys.col a).2 y = 0 := fun y hy => coef1_zero_of_not_mem rSys rSys_unitary a y hy
  have hmem : ∀ y : AState, y ∈ rSys.states ↔ (y = rState 0 ∨ y = rState 1 ∨ y = rState 2 ∨ y = rState 3) := by intro y; unfold rSys; simp
  have r0 : (rState 0).refl = rState 1 := by decide
  have r1 : (rState 1).refl = rState 0 := by decide
  have r2 : (rState 2).refl = rState 3 := by decide
  have r3 : (rState 3).refl = rState 2 := by decide
  by_cases hx : x ∈ rSys.states
  · rw [reflect_apply _ x (rSys_half x hx).1]
    rw [hmem] at hx
    have q0 : reflPhase (rState 0).l (rState 0).j (-(rState 0).m) = -Complex.I := by
      show reflPhase 0 1 (-1) = _
      unfold reflPhase
      norm_num
    have q1 : reflPhase (rState 1).l (rState 1).j (-(rState 1).m) = Complex.I := by
      show reflPhase 0 1 (- -1) = _
      unfold reflPhase
      norm_num
    have q2 : reflPhase (rState 2).l (rState 2).j (-(rState 2).m) = Complex.I := by
      show reflPhase 1 3 (-3) = _
      unfold reflPhase
      norm_num
    have q3 : reflPhase (rState 3).l (rState 3).j (-(rState 3).m) = -Complex.I := by
      show reflPhase 1 3 (- -3) = _
      unfold reflPhase
      norm_num
    have hi := Complex.I_mul_I
    simp only [rCol a ha]
    rcases hx with rfl | rfl | rfl | rfl
    · rw [q0, r0]
      interval_cases a <;> simp [rEig, n01, n02, n03, n12, n13, n23, n01.symm, n02.symm, n03.symm, n12.symm, n13.symm, n23.symm] <;>
        first | linear_combination (-rAmp) * hi | linear_combination rAmp * hi
    · rw [q1, r1]
      interval_cases a <;> simp [rEig, n01, n02, n03, n12, n13, n23, n01.symm, n02.symm, n03.symm, n12.symm, n13.symm, n23.symm]
    · rw [q2, r2]
      interval_cases a <;> simp [rEig, n01, n02, n03, n12, n13, n23, n01.symm, n02.symm, n03.symm, n12.symm, n13.symm, n23.symm] <;>
        first | linear_combination (-rAmp) * hi | linear_combination rAmp * hi
    · rw [q3, r3]
      interval_cases a <;> simp [rEig, n01, n02, n03, n12, n13, n23, n01.symm, n02.symm, n03.symm, n12.symm, n13.symm, n23.symm]
  · rw [out x hx, mul_zero]
    by_cases hart : x.isArt = false
    · rw [reflect_apply _ x hart, out x.refl, mul_zero]
      intro hr
      apply hx
      rw [hmem] at hr ⊢
      have hrr : x.refl.refl = x := by cases x <;> simp [AState.refl]
      rcases hr with h | h | h | h <;> rw [← hrr, h]
      · rw [r0]; simp
      · rw [r1]; simp
      · rw [r2]; simp
      · rw [r3]; simp
    · cases x with
      | phys => exact absurd rfl hart
      | art b =>
        simp [reflect, out _ hx]

theorem rSys_nonempty : rSys.states ≠ [] := by
  unfold rSys
  simp

example (C : FieldConsts) (radial : RadKey → ℝ) (me : Method) (lt : AState → AState → Bool) (E : AState → ℝ) (p : PairParams) (hp : p = exAxis4 ∨ p = tiltedEx) :
    ∃ A B D : PairBasis, pairBuild (plainSet 0.05 ("Rb", "Rb")) lt E rSys rSys = .ok A ∧ pairBuild (reflSet .even 0.05 ("Rb", "Rb")) lt E rSys rSys = .ok B ∧
      pairBuild (reflSet .odd 0.05 ("Rb", "Rb")) lt E rSys rSys = .ok D ∧
      (A.hamiltonian C radial me p).charpoly = (B.hamiltonian C radial me p).charpoly * (D.hamiltonian C radial me p).charpoly := by
  refine C109_reflection C radial me rSys rSys rSys_unitary rSys_unitary rSys_atoms rSys_nonempty rSys_nonempty rEig rEig rSys_refl rSys_refl rSys_half rSys_half p ?_ 0.05
    (by norm_num) (by norm_num) ("Rb", "Rb") lt E
  rcases hp with rfl | rfl
  · exact Or.inl exAxis4_axis
  · exact Or.inr ⟨tiltedEx_settings, by simp [tiltedEx, PairParams.setVector]⟩

/-! ## Another direction -/

theorem w3j_13 : w3j 1 2 3 (-1) (-2) 3 ≠ 0 := by
  unfold w3j
  rw [if_pos (by decide)]
  apply mul_ne_zero
  · refine mul_ne_zero (sgn_ne_zero _) (Real.sqrt_pos.mpr ?_).ne'
    unfold rad3
    have := fct_pos
    simp only [fct]
    positivity
  · rw [sum3_eq]
    norm_num
    have h1 : ∀ n : ℤ, 0 ≤ n → 0 < ifct n := fun n => ifct_pos
    exact ⟨sgn_ne_zero _, ⟨⟨⟨(h1 0 le_rfl).ne', (h1 2 (by norm_num)).ne'⟩, (h1 0 le_rfl).ne'⟩, (h1 1 (by norm_num)).ne'⟩, (h1 0 le_rfl).ne'⟩

theorem w6j_13 : w6j 0 1 1 3 2 2 ≠ 0 := by
  unfold w6j
  rw [if_pos (by decide)]
  apply mul_ne_zero
  · have := delta2_pos
    exact (Real.sqrt_pos.mpr (mul_pos (mul_pos (mul_pos (this _ _ _) (this _ _ _)) (this _ _ _)) (this _ _ _))).ne'
  · norm_num
    rw [sum6_eq]
    have : Finset.Icc (1 : ℤ) 3 = {1, 2, 3} := by decide
    rw [this, Finset.sum_insert (by decide), Finset.sum_pair (by norm_num)]
    have z1 : ifct ((1 : ℤ) - 3) = 0 := by simp [ifct]
    have z2 : ifct ((2 : ℤ) - 3) = 0 := by simp [ifct]
    rw [z1, z2]
    simp only [mul_zero, zero_mul, zero_add]
    have h1 : 0 < ifct ((3 : ℤ) - 1) := ifct_pos (by norm_num)
    have h2 : 0 < ifct ((3 : ℤ) - 2) := ifct_pos (by norm_num)
    have h3 : 0 < ifct ((3 : ℤ) - 3) := ifct_pos (by norm_num)
    have h4 := fct_pos (3 + 1)
    exact mul_ne_zero (mul_ne_zero (sgn_ne_zero _) h4.ne') (by positivity)

theorem elem_sp_half (C : FieldConsts) (radial : RadKey → ℝ) (me : Method) (hC : C.elem.e ≠ 0) (hr : ∀ k, radial k ≠ 0) : elem C radial me 1 (rQN 0) (rQN 2) ≠ 0 := by
  rw [elem_eq_spec C radial me (rQN 0) (rQN 2) (by unfold QN.Physical; simp [rQN]) (by unfold QN.Physical; simp [rQN]) rfl rfl]
  refine mul_ne_zero (mul_ne_zero hC (hr _)) (mul_ne_zero (mul_ne_zero ?_ ?_) ?_)
  · show angularSpec 1 1 3 1 3 ≠ 0
    unfold angularSpec
    exact mul_ne_zero (sgn_ne_zero _) (by simpa using w3j_13)
  · show commutesSSpec 1 1 0 1 1 3 ≠ 0
    unfold commutesSSpec
    refine mul_ne_zero (mul_ne_zero (sgn_ne_zero _) ?_) (by simpa using w6j_13)
    exact (Real.sqrt_pos.mpr (by push_cast; positivity)).ne'
  · show multipoleSpec 1 0 1 ≠ 0
    unfold multipoleSpec
    refine mul_ne_zero (mul_ne_zero (sgn_ne_zero _) ?_) (by simpa using w3j_0kk 1 (by norm_num))
    exact (Real.sqrt_pos.mpr (by push_cast; positivity)).ne'

/-- Atoms in the xy-plane. -/
noncomputable def outOfPlane : PairParams := PairParams.fresh.setVector ![3, 4, 0]

theorem outOfPlane_eq : outOfPlane = ⟨3, 4, 0, 5, true, dblMax, 3⟩ := by
  unfold outOfPlane PairParams.setVector PairParams.fresh
  simp
  rw [show (3 * 3 + 4 * 4 : ℝ) = 25 by norm_num, sqrt25]

theorem outOfPlane_settings : DipoleSettings outOfPlane := by
  rw [outOfPlane_eq]
  refine .green ⟨?_, rfl, rfl, by norm_num⟩ rfl (Or.inl (by norm_num)) ?_
  · have := dblMax_big
    intro h
    dsimp only at h
    linarith
  · intro i j
    have hn : norm3 ![3, 4, 0] = 5 := by
      unfold norm3
      simp
      rw [show (3 * 3 + 4 * 4 : ℝ) = 25 by norm_num, sqrt25]
    show NoTinyTerm (ddVacuum 3 4 0 i j)
    have hv : ddVacuum 3 4 0 i j = -eye i j / 125 + 3 * ![3, 4, 0] i * ![3, 4, 0] j / 3125 := by
      unfold ddVacuum
      dsimp only
      rw [hn]
      norm_num
    rw [hv]
    unfold NoTinyTerm overTol
    rw [decide_eq_true_eq]
    fin_cases i <;> fin_cases j <;> simp [eye] <;> norm_num [abs_of_pos, abs_of_neg]

/-- The dipole-dipole energy between S S and P P is not the one for the mirrored position. -/
theorem mirror_term (C : FieldConsts) (radial : RadKey → ℝ) (me : Method) (hC : C.elem.e ≠ 0 ∧ C.ke ≠ 0) (hr : ∀ k, radial k ≠ 0) :
    dipoleDipole C.ke outOfPlane.x (-outOfPlane.y) outOfPlane.z (cartDip C radial me (rQN 0) (rQN 2)) (cartDip C radial me (rQN 0) (rQN 2)) ≠
      dipoleDipole C.ke outOfPlane.x outOfPlane.y outOfPlane.z (cartDip C radial me (rQN 0) (rQN 2)) (cartDip C radial me (rQN 0) (rQN 2)) := by
  rw [outOfPlane_eq]
  dsimp only
  have n1 := elem_sp_half C radial me hC.1 hr
  have q1 : ((rQN 0).m - (rQN 2).m) / 2 = -1 := by decide
  have s5 : Real.sqrt (3 ^ 2 + 4 ^ 2 + 0 ^ 2) = 5 := by
    rw [show (3 ^ 2 + 4 ^ 2 + 0 ^ 2 : ℝ) = 25 by norm_num, sqrt25]
  have s5' : Real.sqrt (3 ^ 2 + (-4) ^ 2 + 0 ^ 2) = 5 := by
    rw [show (3 ^ 2 + (-4) ^ 2 + 0 ^ 2 : ℝ) = 25 by norm_num, sqrt25]
  unfold dipoleDipole cartDip
  dsimp only
  rw [q1, s5, s5']
  have s2 : ((Real.sqrt 2 : ℝ) : ℂ) * ((Real.sqrt 2 : ℝ) : ℂ) = 2 := sqrt2_mul
  have s2n : ((Real.sqrt 2 : ℝ) : ℂ) ≠ 0 := by simp
  have k0 : (C.ke : ℂ) ≠ 0 := by exact_mod_cast hC.2
  have e1 : ((elem C radial me 1 (rQN 0) (rQN 2) : ℝ) : ℂ) ≠ 0 := by exact_mod_cast n1
  set e : ℂ := ((elem C radial me 1 (rQN 0) (rQN 2) : ℝ) : ℂ)
  set w : ℂ := ((Real.sqrt 2 : ℝ) : ℂ)
  simp [dipCoef]
  refine ⟨fun h => ?_, hC.2⟩
  have z : (w⁻¹ * e * (3 / 5)) * (Complex.I / w * e * (4 / 5)) = 0 := by
    linear_combination (-1 / 12 : ℂ) * h
  exact mul_ne_zero (mul_ne_zero (mul_ne_zero (inv_ne_zero s2n) e1) (by norm_num)) (mul_ne_zero (mul_ne_zero (div_ne_zero Complex.I_ne_zero s2n) e1) (by norm_num)) z

/-- **C109 fails** for the reflection with atoms that are not in the xz-plane: `setConservedParityUnderReflection` with a distance vector with a y component is accepted, but the
interaction couples the parities.  With S1/2 and P3/2 states the two sectors do not have the eigenvalues of the system. -/
theorem C109_reflection_plane_fails (C : FieldConsts) (radial : RadKey → ℝ) (me : Method) (hC : C.elem.e ≠ 0 ∧ C.ke ≠ 0) (hr : ∀ k, radial k ≠ 0) (lt : AState → AState → Bool)
    (E : AState → ℝ) :
    UnitarySys rSys ∧ TwoAtoms rSys rSys ∧ ReflVecs rSys rEig ∧ (initPair outOfPlane ⟨[], [], [], [], fun _ => false⟩).1 = .ok () ∧
      ∃ A B D : PairBasis, pairBuild (plainSet 0.05 ("Rb", "Rb")) lt E rSys rSys = .ok A ∧ pairBuild (reflSet .even 0.05 ("Rb", "Rb")) lt E rSys rSys = .ok B ∧
        pairBuild (reflSet .odd 0.05 ("Rb", "Rb")) lt E rSys rSys = .ok D ∧
        (A.hamiltonian C radial me outOfPlane).charpoly ≠ (B.hamiltonian C radial me outOfPlane).charpoly * (D.hamiltonian C radial me outOfPlane).charpoly := by
  refine ⟨rSys_unitary, rSys_atoms, rSys_refl, ?_, ?_⟩
  · rw [outOfPlane_eq]
    have := dblMax_big
    unfold initPair
    rw [if_neg (by dsimp only; intro h; linarith), if_pos (by unfold PairParams.greenBranch; simp), if_neg (by simp), if_neg (by simp)]
    unfold PairParams.green
    simp
  obtain ⟨A, B, D, a1, b1, d1, h⟩ := C109_reflection_direction C radial me rSys rSys rSys_unitary rSys_unitary rSys_atoms rSys_nonempty rSys_nonempty rEig rEig rSys_refl rSys_refl
    rSys_half rSys_half outOfPlane outOfPlane_settings 0.05 (by norm_num) (by norm_num) ("Rb", "Rb") lt E
  refine ⟨A, B, D, a1, b1, d1, fun hc => ?_⟩
  have mem : ∀ k, rState k ∈ rSys.states := by
    intro k
    unfold rSys
    fin_cases k <;> simp
  exact mirror_term C radial me hC hr (h.1 hc (rState 0, rState 0) (mem_sq2.2 ⟨mem 0, mem 0⟩) (rState 2, rState 2) (mem_sq2.2 ⟨mem 2, mem 2⟩) (rQN 0, rQN 0) (rQN 2, rQN 2) (by decide +kernel) (by decide +kernel))

end PI
