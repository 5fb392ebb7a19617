import Verif.Pair.SectorMomThm
import Verif.Pair.SectorEx

/-!
# Symmetry sectors of a pair system: the total momentum along z, examples
-/

namespace PI

open Matrix

/-- A system in which every state is a basis vector. -/
noncomputable def pureSys {n : ℕ} (st : Fin n → AState) (e : Fin n → ℝ) : OneSys := ⟨(List.finRange n).map st, (List.finRange n).map fun k => (e k, [(st k, 1)])⟩

theorem pure_len {n : ℕ} (st : Fin n → AState) (e : Fin n → ℝ) : (pureSys st e).cols.length = n := by unfold pureSys; simp

theorem pure_get {n : ℕ} (st : Fin n → AState) (e : Fin n → ℝ) (a : Fin n) : (pureSys st e).col a.val = (e a, [(st a, 1)]) := by
  unfold OneSys.col pureSys
  simp

theorem pure_col {n : ℕ} (st : Fin n → AState) (e : Fin n → ℝ) (a : Fin n) (s : AState) : coef1 ((pureSys st e).col a.val).2 s = if st a = s then 1 else 0 := by
  rw [pure_get]; simp [coef1]

theorem pure_states {n : ℕ} (st : Fin n → AState) (e : Fin n → ℝ) : (pureSys st e).states.toFinset = Finset.univ.image st := by
  ext s; unfold pureSys; simp

theorem pure_unitary {n : ℕ} (st : Fin n → AState) (hst : Function.Injective st) (e : Fin n → ℝ) : UnitarySys (pureSys st e) := by
  refine ⟨?_, ?_, ?_, ?_⟩
  · unfold pureSys
    exact (List.nodup_finRange n).map hst
  · intro u hu
    unfold pureSys at hu ⊢
    obtain ⟨k, -, rfl⟩ := List.mem_map.1 hu
    simp
  · intro a ha b hb
    rw [pure_len] at ha hb
    have e1 := pure_col st e ⟨a, ha⟩
    have e2 := pure_col st e ⟨b, hb⟩
    dsimp only at e1 e2
    rw [pure_states, Finset.sum_image (fun x _ y _ h => hst h)]
    simp only [e1, e2, hst.eq_iff]
    rw [Finset.sum_eq_single ⟨a, ha⟩]
    · simp [Fin.ext_iff, eq_comm]
    · intro x _ hx
      rw [if_neg (fun h => hx h.symm)]; simp
    · simp
  · intro s hs t ht
    rw [← List.mem_toFinset, pure_states] at hs ht
    obtain ⟨x, -, rfl⟩ := Finset.mem_image.1 hs
    obtain ⟨y, -, rfl⟩ := Finset.mem_image.1 ht
    rw [pure_len, Finset.sum_range fun a => (starRingEnd ℂ) (coef1 ((pureSys st e).col a).2 (st x)) * coef1 ((pureSys st e).col a).2 (st y)]
    simp only [pure_col, hst.eq_iff]
    rw [Finset.sum_eq_single x]
    · simp
    · intro z _ hz
      rw [if_neg hz]; simp
    · simp

theorem pure_definite {n : ℕ} (st : Fin n → AState) (e : Fin n → ℝ) : OneMomentum (pureSys st e) fun a => if h : a < n then (st ⟨a, h⟩).m else 0 := by
  intro a ha x hx
  rw [pure_len] at ha
  have := pure_get st e ⟨a, ha⟩
  dsimp only at this
  rw [this] at hx
  simp only [List.mem_singleton] at hx
  rw [hx]
  dsimp only
  rw [dif_pos ha]

/-- Singlet states S and P with all projections. -/
def spState : Fin 4 → AState := ![.phys "Sr1" 60 0 0 0, .phys "Sr1" 60 1 2 (-2), .phys "Sr1" 60 1 2 0, .phys "Sr1" 60 1 2 2]

theorem spState_inj : Function.Injective spState := by decide

/-- Their quantum numbers. -/
def spQN : Fin 4 → QN := ![⟨"Sr1", 60, 0, 0, 0, 0⟩, ⟨"Sr1", 60, 1, 2, -2, 0⟩, ⟨"Sr1", 60, 1, 2, 0, 0⟩, ⟨"Sr1", 60, 1, 2, 2, 0⟩]

theorem spState_qn (k : Fin 4) : (spState k).qn = some (spQN k) := by
  fin_cases k <;> decide +kernel

/-- The system of the four states. -/
noncomputable def spmSys : OneSys := pureSys spState fun k => if k = 0 then 0 else 7

theorem spm_species : ∀ x ∈ spmSys.states, ∃ a, x.qn = some a ∧ a.Physical ∧ a.species = "Sr1" ∧ a.s = 0 := by
  intro x hx
  unfold spmSys at hx
  rw [← List.mem_toFinset, pure_states] at hx
  obtain ⟨k, -, rfl⟩ := Finset.mem_image.1 hx
  refine ⟨_, spState_qn k, ?_, ?_, ?_⟩
  · unfold QN.Physical
    fin_cases k <;> simp [spQN]
  · fin_cases k <;> rfl
  · fin_cases k <;> rfl

theorem spm_atoms : TwoAtoms spmSys spmSys := ⟨"Sr1", 0, "Sr1", 0, rfl, spm_species, spm_species⟩

theorem spm_unitary : UnitarySys spmSys := pure_unitary spState spState_inj _

theorem spm_nonempty : spmSys.states ≠ [] := by
  unfold spmSys pureSys
  simp

theorem spm_momenta : momenta spmSys spmSys = {-2, -1, 0, 1, 2} := by
  unfold momenta sq2 spmSys
  rw [pure_states]
  decide +kernel

example (C : FieldConsts) (radial : RadKey → ℝ) (me : Method) (lt : AState → AState → Bool) (E : AState → ℝ) :
    ∃ (A : PairBasis) (B : ℤ → PairBasis), pairBuild (plainSet 0.05 ("Sr1", "Sr1")) lt E spmSys spmSys = .ok A ∧
      (∀ M ∈ ({-2, -1, 0, 1, 2} : Finset ℤ), pairBuild (rotSet {M} 0.05 ("Sr1", "Sr1")) lt E spmSys spmSys = .ok (B M)) ∧
      (A.hamiltonian C radial me exAxis4).charpoly = ∏ M ∈ ({-2, -1, 0, 1, 2} : Finset ℤ), ((B M).hamiltonian C radial me exAxis4).charpoly := by
  have := C109_momentum C radial me spmSys spmSys spm_unitary spm_unitary spm_atoms spm_nonempty spm_nonempty _ _ (pure_definite _ _) (pure_definite _ _) exAxis4 exAxis4_axis 0.05 (by norm_num) (by norm_num)
    ("Sr1", "Sr1") lt E
  rwa [spm_momenta] at this

/-! ## Another direction -/

theorem w3j_01 : w3j 0 2 2 0 (-2) 2 ≠ 0 := by
  unfold w3j
  rw [if_pos (by decide)]
  apply mul_ne_zero
  · refine mul_ne_zero (sgn_ne_zero _) (Real.sqrt_pos.mpr ?_).ne'
    unfold rad3
    have := fct_pos
    simp only [fct]
    positivity
  · rw [sum3_eq]
    norm_num
    have h1 : ∀ n : ℤ, 0 ≤ n → 0 < ifct n := fun n => ifct_pos
    have := h1 0 le_rfl
    have := h1 1 (by norm_num)
    have := h1 2 (by norm_num)
    exact ⟨sgn_ne_zero _, ⟨by positivity, by positivity⟩, by positivity⟩

theorem elem_s_p1 (C : FieldConsts) (radial : RadKey → ℝ) (me : Method) (hC : C.elem.e ≠ 0) (hr : ∀ k, radial k ≠ 0) : elem C radial me 1 (spQN 0) (spQN 3) ≠ 0 := by
  show elem C radial me 1 ⟨"Sr1", 60, 0, 0, 0, 0⟩ ⟨"Sr1", 60, 1, 2, 2, 0⟩ ≠ 0
  unfold elem electricMultipole
  rw [if_neg (by simp)]
  unfold outVal
  dsimp only
  have A : (AngKey.make 1 0 2 0 2).2 * (AngKey.make 1 0 2 0 2).1.value ≠ 0 := by
    unfold AngKey.make AngKey.value
    rw [if_pos (by omega)]
    dsimp only
    refine mul_ne_zero one_ne_zero (mul_ne_zero (sgn_ne_zero _) ?_)
    simpa using w3j_01
  have B : (ComKey.make 0 1 0 1 0 2).2 * (ComKey.make 0 1 0 1 0 2).1.valueS ≠ 0 := by
    unfold ComKey.make ComKey.valueS
    rw [if_pos (by omega)]
    dsimp only
    rw [if_pos (by refine ⟨?_, ?_, ?_, ?_, ?_, ?_, ?_, ?_⟩ <;> norm_num)]
    refine mul_ne_zero one_ne_zero (mul_ne_zero (mul_ne_zero (sgn_ne_zero _) ?_) ?_)
    · exact (Real.sqrt_pos.mpr (by push_cast; positivity)).ne'
    · simpa using w6j_000 1 (by norm_num)
  have D : (MulKey.make 1 0 1).2 * (MulKey.make 1 0 1).1.value ≠ 0 := by
    unfold MulKey.make MulKey.value
    rw [if_pos (by norm_num)]
    dsimp only
    refine mul_ne_zero one_ne_zero (mul_ne_zero (mul_ne_zero (sgn_ne_zero _) ?_) ?_)
    · exact (Real.sqrt_pos.mpr (by push_cast; positivity)).ne'
    · simpa using w3j_0kk 1 (by norm_num)
  have E : C.elem.e * radial (RadKey.make me "Sr1" 1 60 60 0 1 0 2) ≠ 0 := mul_ne_zero hC (hr _)
  have := mul_ne_zero (mul_ne_zero (mul_ne_zero E A) B) D
  intro h
  apply this
  rw [← h]
  ring

/-- The dipole-dipole energy between SS and P0 P1 for tilted atoms. -/
theorem tilted_term (C : FieldConsts) (radial : RadKey → ℝ) (me : Method) (hC : C.elem.e ≠ 0 ∧ C.ke ≠ 0) (hr : ∀ k, radial k ≠ 0) :
    ddPairSpec C radial me tiltedEx (spQN 0, spQN 0) (spQN 2, spQN 3) ≠ 0 := by
  have n1 : elem C radial me 1 (spQN 0) (spQN 2) ≠ 0 := elem_singlet_ne C radial me hC.1 hr 1 (by norm_num)
  have n2 := elem_s_p1 C radial me hC.1 hr
  have hx : tiltedEx.x = 3 ∧ tiltedEx.y = 0 ∧ tiltedEx.z = 4 := by simp [tiltedEx, PairParams.setVector]
  have q1 : ((spQN 0).m - (spQN 2).m) / 2 = 0 := by decide
  have q2 : ((spQN 0).m - (spQN 3).m) / 2 = -1 := by decide
  unfold ddPairSpec dipoleDipole cartDip
  dsimp only
  rw [hx.1, hx.2.1, hx.2.2, q1, q2]
  have s5 : Real.sqrt (3 ^ 2 + 0 ^ 2 + 4 ^ 2) = 5 := by
    rw [show (3 ^ 2 + 0 ^ 2 + 4 ^ 2 : ℝ) = 25 by norm_num, sqrt25]
  rw [s5]
  have s2 : ((Real.sqrt 2 : ℝ) : ℂ) ≠ 0 := by simp
  have k0 : (C.ke : ℂ) ≠ 0 := by exact_mod_cast hC.2
  have e1 : ((elem C radial me 1 (spQN 0) (spQN 2) : ℝ) : ℂ) ≠ 0 := by exact_mod_cast n1
  have e2 : ((elem C radial me 1 (spQN 0) (spQN 3) : ℝ) : ℂ) ≠ 0 := by exact_mod_cast n2
  simp [dipCoef]
  exact ⟨hC.2, n1, n2⟩

/-- **C109 fails** for conserved momenta with atoms that are not along z: `setConservedMomentaUnderRotation` with a distance vector in the xz-plane is accepted, but the interaction
couples the total momenta.  With singlet S and P states the sectors of all momenta do not have the eigenvalues of the system. -/
theorem C109_momentum_tilted_fails (C : FieldConsts) (radial : RadKey → ℝ) (me : Method) (hC : C.elem.e ≠ 0 ∧ C.ke ≠ 0) (hr : ∀ k, radial k ≠ 0) (lt : AState → AState → Bool)
    (E : AState → ℝ) :
    UnitarySys spmSys ∧ TwoAtoms spmSys spmSys ∧ (initPair tiltedEx ⟨[], [], [], [], fun _ => false⟩).1 = .ok () ∧
      ∃ (A : PairBasis) (B : ℤ → PairBasis), pairBuild (plainSet 0.05 ("Sr1", "Sr1")) lt E spmSys spmSys = .ok A ∧
        (∀ M ∈ ({-2, -1, 0, 1, 2} : Finset ℤ), pairBuild (rotSet {M} 0.05 ("Sr1", "Sr1")) lt E spmSys spmSys = .ok (B M)) ∧
        (A.hamiltonian C radial me tiltedEx).charpoly ≠ ∏ M ∈ ({-2, -1, 0, 1, 2} : Finset ℤ), ((B M).hamiltonian C radial me tiltedEx).charpoly := by
  refine ⟨spm_unitary, spm_atoms, ?_, ?_⟩
  · have t := tiltedEx_tilted
    unfold initPair
    rw [if_neg t.dist, if_neg (by unfold PairParams.greenBranch; rw [t.gt, t.surf, t.y]; have := t.order; simp; omega), if_pos t.x]
  obtain ⟨A, B, a1, b1, h⟩ := C109_momentum_direction C radial me spmSys spmSys spm_unitary spm_unitary spm_atoms spm_nonempty spm_nonempty _ _ (pure_definite _ _) (pure_definite _ _) tiltedEx
    tiltedEx_settings 0.05 (by norm_num) (by norm_num) ("Sr1", "Sr1") lt E
  rw [spm_momenta] at b1 h
  refine ⟨A, B, a1, b1, fun hc => ?_⟩
  have mem : ∀ j k : Fin 4, (spState j, spState k) ∈ sq2 spmSys spmSys := by
    intro j k
    unfold sq2 spmSys
    rw [Finset.mem_product, pure_states]
    exact ⟨Finset.mem_image_of_mem _ (Finset.mem_univ _), Finset.mem_image_of_mem _ (Finset.mem_univ _)⟩
  exact tilted_term C radial me hC hr (h.1 hc _ (mem 0 0) _ (mem 2 3) (by decide) (spQN 0, spQN 0) (spQN 2, spQN 3) (by decide +kernel) (by decide +kernel))

end PI
