import Verif.Pair.SectorIff
import Verif.Pair.Multi
import Verif.Pair.BasisEx
import Verif.Rot.PairThm
import Mathlib.Tactic.FinCases

/-!
# Symmetry sectors of a pair system: examples and a counterexample
-/

namespace PI

open Matrix

/-- Three singlet states (S, P, D) with m = 0. -/
def spdState (k : Fin 3) : AState := .phys "Sr1" 60 k.val (2 * k.val) 0

theorem spdState_inj : Function.Injective spdState := by decide

/-- The system of the three states, each its own basis vector. -/
noncomputable def spdSys : OneSys := ⟨(List.finRange 3).map spdState, (List.finRange 3).map fun k => ((k.val : ℝ), [(spdState k, 1)])⟩

theorem spd_col (a : Fin 3) (s : AState) : coef1 (spdSys.col a.val).2 s = if spdState a = s then 1 else 0 := by
  fin_cases a <;> simp [coef1, OneSys.col, spdSys, List.finRange_succ]

theorem spd_states : spdSys.states.toFinset = Finset.univ.image spdState := by
  ext s; unfold spdSys; simp

theorem spd_len : spdSys.cols.length = 3 := by unfold spdSys; simp

theorem spd_unitary : UnitarySys spdSys := by
  refine ⟨?_, ?_, ?_, ?_⟩
  · unfold spdSys
    exact (List.nodup_finRange 3).map spdState_inj
  · intro u hu
    unfold spdSys at hu ⊢
    obtain ⟨k, -, rfl⟩ := List.mem_map.1 hu
    simp
  · intro a ha b hb
    rw [spd_len] at ha hb
    have e1 := spd_col ⟨a, ha⟩
    have e2 := spd_col ⟨b, hb⟩
    dsimp only at e1 e2
    rw [spd_states, Finset.sum_image (fun x _ y _ h => spdState_inj h)]
    simp only [e1, e2, spdState_inj.eq_iff]
    rw [Finset.sum_eq_single ⟨a, ha⟩]
    · simp [Fin.ext_iff, eq_comm]
    · intro x _ hx
      rw [if_neg (fun h => hx h.symm)]; simp
    · simp
  · intro s hs t ht
    rw [← List.mem_toFinset, spd_states] at hs ht
    obtain ⟨x, -, rfl⟩ := Finset.mem_image.1 hs
    obtain ⟨y, -, rfl⟩ := Finset.mem_image.1 ht
    rw [spd_len, Finset.sum_range fun a => (starRingEnd ℂ) (coef1 (spdSys.col a).2 (spdState x)) * coef1 (spdSys.col a).2 (spdState y)]
    simp only [spd_col, spdState_inj.eq_iff]
    rw [Finset.sum_eq_single x]
    · simp
    · intro z _ hz
      rw [if_neg hz]; simp
    · simp

theorem spd_qn (k : Fin 3) : (spdState k).qn = some (singlet k.val) := by
  fin_cases k <;> decide +kernel

theorem spd_species : SameAtoms spdSys := by
  refine ⟨"Sr1", 0, fun x hx => ?_⟩
  rw [← List.mem_toFinset, spd_states] at hx
  obtain ⟨k, -, rfl⟩ := Finset.mem_image.1 hx
  exact ⟨_, spd_qn k, singlet_physical _ (by positivity), rfl, rfl⟩

theorem spd_parity : ∀ a < spdSys.cols.length, ∀ e ∈ (spdSys.col a).2, (e.1.l - (a : ℤ)) % 2 = 0 := by
  intro a ha e he
  rw [spd_len] at ha
  interval_cases a <;> simp [OneSys.col, spdSys, List.finRange_succ, spdState] at he <;> subst he <;> simp [AState.l]

theorem spd_sq (j k : Fin 3) : (spdState j, spdState k) ∈ spdSys.sq := by
  unfold OneSys.sq
  rw [Finset.mem_product, spd_states]
  exact ⟨Finset.mem_image_of_mem _ (Finset.mem_univ _), Finset.mem_image_of_mem _ (Finset.mem_univ _)⟩

/-- The dipole-quadrupole energy between SS and PD does not vanish. -/
theorem spd_term (C : FieldConsts) (radial : RadKey → ℝ) (me : Method) (hC : C.elem.e ≠ 0 ∧ C.ke ≠ 0) (hr : ∀ k, radial k ≠ 0) :
    multipoleSpecPair C radial me 4 (singlet 0, singlet 0) (singlet 1, singlet 2) ≠ 0 := by
  unfold multipoleSpecPair
  rw [if_pos (by rfl)]
  simp only [show 4 - 2 = 2 from rfl, Finset.sum_range_succ, Finset.sum_range_zero, zero_add, Nat.reduceAdd, Nat.reduceSub, multipoleTerm]
  have ok : PairOK (singlet 0, singlet 0) (singlet 1, singlet 2) := stSPD_good.ok (r := 0) (c := 1) rfl rfl
  have z : elem C radial me (2 : ℕ) (singlet 0) (singlet 1) = 0 := by
    refine elem_zero C radial me _ _ ok.a1 ok.b1 rfl rfl 2 (by norm_num) ?_
    decide
  rw [z]
  have n1 := elem_singlet_ne C radial me hC.1 hr 1 (by norm_num)
  have n2 := elem_singlet_ne C radial me hC.1 hr 2 (by norm_num)
  simp only [mul_zero, zero_mul, add_zero]
  have c1 := choose3 0 (by norm_num)
  rw [show ((singlet 0).m - (singlet 1).m) / 2 = 0 from rfl]
  have hne : Real.sqrt (((1 + 2 : ℕ).choose (1 + (0 : ℤ)).toNat : ℝ) * ((1 + 2 : ℕ).choose (2 + (0 : ℤ)).toNat : ℝ)) ≠ 0 := by
    rw [c1]; norm_num
  have a2 : C.ke * (-1) ^ 2 ≠ 0 := mul_ne_zero hC.2 (by norm_num)
  exact mul_ne_zero (mul_ne_zero (mul_ne_zero a2 hne) n1) n2

/-- Atoms along z with dipole-quadrupole interaction. -/
noncomputable def exAxis4 : PairParams := ⟨0, 0, 5, 5, false, dblMax, 4⟩

theorem exAxis4_axis : OnAxis exAxis4 := ⟨by have := dblMax_big; intro h; unfold exAxis4 at h; linarith, rfl, rfl, rfl, rfl⟩

/-- **C109 fails** for permutation symmetry with order 4: `setConservedParityUnderPermutation` with `setOrder(4)` is accepted, but the dipole-quadrupole interaction is not symmetric
under the exchange of the atoms.  With singlet S, P and D states the two permutation sectors do not have the eigenvalues of the system. -/
theorem C109_permutation_order_fails (C : FieldConsts) (radial : RadKey → ℝ) (me : Method) (hC : C.elem.e ≠ 0 ∧ C.ke ≠ 0) (hr : ∀ k, radial k ≠ 0) (lt : AState → AState → Bool)
    (E : AState → ℝ) :
    UnitarySys spdSys ∧ SameAtoms spdSys ∧ (initPair exAxis4 ⟨[], [], [], [], fun _ => false⟩).1 = .ok () ∧
      ∃ A B D, pairBuild (plainSet 0.05 ("Sr1", "Sr1")) lt E spdSys spdSys = .ok A ∧ pairBuild (permSet .even 0.05 ("Sr1", "Sr1")) lt E spdSys spdSys = .ok B ∧
        pairBuild (permSet .odd 0.05 ("Sr1", "Sr1")) lt E spdSys spdSys = .ok D ∧
        (A.hamiltonian C radial me exAxis4).charpoly ≠ (B.hamiltonian C radial me exAxis4).charpoly * (D.hamiltonian C radial me exAxis4).charpoly := by
  refine ⟨spd_unitary, spd_species, ?_, ?_⟩
  · have hd : (5 : ℝ) ≠ dblMax := by have := dblMax_big; intro h; linarith
    unfold initPair exAxis4
    rw [if_neg hd, if_neg, if_neg (by simp)]
    rintro (h | h | h | h) <;> simp at h
  obtain ⟨A, B, D, a1, b1, d1, h⟩ := C109_permutation_orders C radial me spdSys spd_unitary (by rw [spd_len]; norm_num) spd_species exAxis4 exAxis4_axis 0.05 (by norm_num) (by norm_num)
    ("Sr1", "Sr1") lt E
  refine ⟨A, B, D, a1, b1, d1, fun hc => ?_⟩
  have := h.1 hc (spdState 0, spdState 0) (spd_sq 0 0) (spdState 1, spdState 2) (spd_sq 1 2) (singlet 0, singlet 0) (singlet 1, singlet 2)
    (by decide +kernel) (by decide +kernel)
  unfold evenOrders at this
  rw [show (Finset.Icc 3 exAxis4.order).filter (fun o => o % 2 = 0) = {4} from by unfold exAxis4; decide, Finset.sum_singleton] at this
  exact mul_ne_zero (by unfold exAxis4; norm_num) (spd_term C radial me hC hr) this

example (C : FieldConsts) (radial : RadKey → ℝ) (me : Method) (lt : AState → AState → Bool) (E : AState → ℝ) :
    ∃ A B D, pairBuild (plainSet 0.05 ("Sr1", "Sr1")) lt E spdSys spdSys = .ok A ∧ pairBuild (permSet .even 0.05 ("Sr1", "Sr1")) lt E spdSys spdSys = .ok B ∧
      pairBuild (permSet .odd 0.05 ("Sr1", "Sr1")) lt E spdSys spdSys = .ok D ∧
      (A.hamiltonian C radial me tiltedEx).charpoly = (B.hamiltonian C radial me tiltedEx).charpoly * (D.hamiltonian C radial me tiltedEx).charpoly :=
  C109_permutation C radial me spdSys spd_unitary (by rw [spd_len]; norm_num) spd_species tiltedEx tiltedEx_settings 0.05 (by norm_num) (by norm_num) _ lt E

example (C : FieldConsts) (radial : RadKey → ℝ) (me : Method) (lt : AState → AState → Bool) (E : AState → ℝ) :
    ∃ A B D, pairBuild (plainSet 0.05 ("Sr1", "Sr1")) lt E spdSys spdSys = .ok A ∧ pairBuild (invSet .even 0.05 ("Sr1", "Sr1")) lt E spdSys spdSys = .ok B ∧
      pairBuild (invSet .odd 0.05 ("Sr1", "Sr1")) lt E spdSys spdSys = .ok D ∧
      (A.hamiltonian C radial me exAxis4).charpoly = (B.hamiltonian C radial me exAxis4).charpoly * (D.hamiltonian C radial me exAxis4).charpoly :=
  C109_inversion C radial me spdSys spd_unitary (by rw [spd_len]; norm_num) spd_species (fun a => a) spd_parity exAxis4 (Or.inl exAxis4_axis) 0.05 (by norm_num) (by norm_num) _ lt E

end PI
