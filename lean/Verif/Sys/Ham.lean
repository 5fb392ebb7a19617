import Verif.Sys.HamModel
import Mathlib.Tactic.Module
import Mathlib.Tactic.NoncommRing
import Mathlib.Tactic.FinCases
import Mathlib.Data.Matrix.Reflection
import Mathlib.LinearAlgebra.Matrix.Notation
import Mathlib.Analysis.SpecialFunctions.Sqrt

/-! # C34 Hamiltonian entries, C36 basis changes, C35 parameter changes -/

namespace PI
open Matrix

variable {n k : Type} [Fintype n] [DecidableEq n] [Fintype k] [DecidableEq k]

/-! ## C34 -/

/-- The entry read is the complex conjugate of the entry of the represented operator. -/
theorem getEntry_eq (s : HSys n k) (r c : n) : s.getEntry r c = (starRingEnd ℂ) (s.oper r c) := by
  unfold HSys.getEntry eigenDot HSys.oper
  rw [Matrix.mul_apply, map_sum]
  apply Finset.sum_congr rfl
  intro i _
  rw [map_mul, Matrix.conjTranspose_apply]
  simp only [starRingEnd_apply, star_star]
  rfl

theorem oper_addEntry (s : HSys n k) (hV : s.V * s.Vᴴ = 1) (r c : n) (v : ℂ) :
    (s.addEntry r c v).oper = s.oper + entryMat r c v := by
  unfold HSys.oper HSys.addEntry
  dsimp only
  rw [Matrix.mul_add, Matrix.add_mul]
  congr 1
  calc s.V * (s.Vᴴ * entryMat r c v * s.V) * s.Vᴴ = (s.V * s.Vᴴ) * entryMat r c v * (s.V * s.Vᴴ) := by
        simp only [Matrix.mul_assoc]
    _ = entryMat r c v := by rw [hV, Matrix.one_mul, Matrix.mul_one]

theorem entryMat_apply (r c i j : n) (v : ℂ) : entryMat r c v i j =
    if i = r ∧ j = c then v else if i = c ∧ j = r then (starRingEnd ℂ) v else 0 := by
  unfold entryMat
  by_cases h : r = c
  · subst h
    rw [if_pos rfl, Matrix.single_apply]
    by_cases h2 : i = r ∧ j = r
    · rw [if_pos ⟨h2.1.symm, h2.2.symm⟩, if_pos h2]
    · rw [if_neg (fun hc => h2 ⟨hc.1.symm, hc.2.symm⟩), if_neg h2, if_neg h2]
  · rw [if_neg h, Matrix.add_apply, Matrix.single_apply, Matrix.single_apply]
    by_cases h2 : i = r ∧ j = c
    · rw [if_pos ⟨h2.1.symm, h2.2.symm⟩, if_pos h2, if_neg, add_zero]
      rintro ⟨h3, -⟩
      exact h (h2.1.symm.trans h3.symm)
    · rw [if_neg (fun hc => h2 ⟨hc.1.symm, hc.2.symm⟩), if_neg h2, zero_add]
      by_cases h3 : i = c ∧ j = r
      · rw [if_pos ⟨h3.1.symm, h3.2.symm⟩, if_pos h3]
      · rw [if_neg (fun hc => h3 ⟨hc.1.symm, hc.2.symm⟩), if_neg h3]

/-- A system over the real scalar type: all entries are real. -/
def HSys.IsReal (s : HSys n k) : Prop := (∀ i j, (starRingEnd ℂ) (s.V i j) = s.V i j) ∧ ∀ i j, (starRingEnd ℂ) (s.H i j) = s.H i j

theorem oper_real (s : HSys n k) (h : s.IsReal) (r c : n) : (starRingEnd ℂ) (s.oper r c) = s.oper r c := by
  have h1 : ∀ i j, (starRingEnd ℂ) ((s.V * s.H) i j) = (s.V * s.H) i j := by
    intro i j
    rw [Matrix.mul_apply, map_sum]
    exact Finset.sum_congr rfl fun x _ => by rw [map_mul, h.1, h.2]
  unfold HSys.oper
  rw [Matrix.mul_apply, map_sum]
  apply Finset.sum_congr rfl
  intro x _
  rw [map_mul, h1, Matrix.conjTranspose_apply]
  have := h.1 c x
  simp only [starRingEnd_apply] at this ⊢
  rw [this, this]

theorem oper_herm (s : HSys n k) (h : s.H.IsHermitian) : s.oper.IsHermitian := by
  unfold HSys.oper Matrix.IsHermitian
  rw [Matrix.conjTranspose_mul, Matrix.conjTranspose_mul, Matrix.conjTranspose_conjTranspose, h.eq, Matrix.mul_assoc]

theorem entryMat_herm (r c : n) (v : ℂ) (h : r = c → (starRingEnd ℂ) v = v) : (entryMat r c v).IsHermitian := by
  unfold entryMat Matrix.IsHermitian
  by_cases hrc : r = c
  · rw [if_pos hrc]
    subst hrc
    rw [Matrix.conjTranspose_single]
    have := h rfl
    rw [starRingEnd_apply] at this
    rw [this]
  · rw [if_neg hrc, Matrix.conjTranspose_add, Matrix.conjTranspose_single, Matrix.conjTranspose_single]
    simp only [starRingEnd_apply, star_star]
    rw [add_comm]

/-- **C34 (partial).** For all systems over the real scalar type with a complete orthonormal basis and a Hermitian
Hamiltonian, all states a, b and all real values v: after setHamiltonianEntry(a, b, v) the entries (a, b) and (b, a) read v, all others
read what they did before, and the Hamiltonian is Hermitian (and real).  Missing: complex scalars
(`C34_complex_fails`). -/
theorem C34_set_get_partial (s : HSys n k) (hV : s.V * s.Vᴴ = 1) (hR : s.IsReal) (hH : s.H.IsHermitian) (a b : n) (v : ℝ) :
    (s.setEntry a b v).getEntry a b = v ∧ (s.setEntry a b v).getEntry b a = v ∧
    (∀ i j, ¬ (i = a ∧ j = b) → ¬ (i = b ∧ j = a) → (s.setEntry a b v).getEntry i j = s.getEntry i j) ∧
    (s.setEntry a b v).H.IsHermitian := by
  have hg : ∀ i j, s.getEntry i j = s.oper i j := fun i j => by rw [getEntry_eq, oper_real s hR]
  have hval : (starRingEnd ℂ) ((v : ℂ) - s.getEntry a b) = (v : ℂ) - s.getEntry a b := by
    rw [map_sub, hg, oper_real s hR, Complex.conj_ofReal]
  have hnew : ∀ i j, (s.setEntry a b v).getEntry i j =
      (starRingEnd ℂ) (s.oper i j + entryMat a b ((v : ℂ) - s.getEntry a b) i j) := by
    intro i j
    rw [getEntry_eq]
    unfold HSys.setEntry
    rw [oper_addEntry s hV]; rfl
  have hsym : s.oper b a = s.oper a b := by
    have := (oper_herm s hH).apply a b
    rw [← starRingEnd_apply, oper_real s hR] at this
    exact this
  refine ⟨?_, ?_, ?_, ?_⟩
  · rw [hnew, entryMat_apply, if_pos ⟨rfl, rfl⟩, map_add, hval, oper_real s hR, hg]
    ring
  · rw [hnew, entryMat_apply, map_add, oper_real s hR, hsym]
    by_cases hab : b = a ∧ a = b
    · rw [if_pos hab, hval, hg]; ring
    · rw [if_neg hab, if_pos ⟨rfl, rfl⟩, hval, hval, hg]; ring
  · intro i j h1 h2
    rw [hnew, entryMat_apply, if_neg h1, if_neg h2, add_zero, ← getEntry_eq]
  · unfold HSys.setEntry HSys.addEntry
    apply hH.add
    have h1 := entryMat_herm a b ((v : ℂ) - s.getEntry a b) (fun _ => hval)
    unfold Matrix.IsHermitian
    rw [Matrix.conjTranspose_mul, Matrix.conjTranspose_mul, Matrix.conjTranspose_conjTranspose, h1.eq, Matrix.mul_assoc]

/-- **C34, addHamiltonianEntry.**  For all systems with a complete orthonormal basis: the represented operator gains v at
(a, b) and conj v at (b, a) and nothing else; with a real system the entry that is read grows by v. -/
theorem C34_add_entry (s : HSys n k) (hV : s.V * s.Vᴴ = 1) (a b : n) (v : ℂ) (i j : n) :
    (s.addEntry a b v).oper i j =
      s.oper i j + (if i = a ∧ j = b then v else if i = b ∧ j = a then (starRingEnd ℂ) v else 0) := by
  rw [oper_addEntry s hV, Matrix.add_apply, entryMat_apply]

/-- With complex scalars the entry read is the conjugate, in every system: after setHamiltonianEntry(a, b, v) on a
system with zero Hamiltonian, getHamiltonianEntry(a, b) returns conj v. -/
theorem C34_complex_fails (a b : n) (v : ℂ) :
    ((⟨1, 0⟩ : HSys n n).setEntry a b v).getEntry a b = (starRingEnd ℂ) v := by
  have h0 : (⟨1, 0⟩ : HSys n n).getEntry a b = 0 := by
    rw [getEntry_eq]; simp [HSys.oper]
  unfold HSys.setEntry
  rw [getEntry_eq, oper_addEntry _ (by simp), h0, Matrix.add_apply, entryMat_apply, if_pos ⟨rfl, rfl⟩]
  simp [HSys.oper]

/-- So writing i reads back -i. -/
example : ((⟨1, 0⟩ : HSys (Fin 2) (Fin 2)).setEntry 0 1 Complex.I).getEntry 0 1 = -Complex.I := by
  rw [C34_complex_fails]; simp

/-- Without a complete basis (here: the second state was removed from the vectors) a value cannot be written. -/
theorem C34_incomplete_basis_fails :
    ((⟨!![1; 0], !![0]⟩ : HSys (Fin 2) (Fin 1)).setEntry 0 1 5).getEntry 0 1 = 0 := by
  simp [HSys.setEntry, HSys.addEntry, HSys.getEntry, eigenDot, Matrix.vecMul, dotProduct]

/-- A real two-state system: writing 3 at (0, 1). -/
example : ((⟨1, !![1, 2; 2, 5]⟩ : HSys (Fin 2) (Fin 2)).setEntry 0 1 (3 : ℝ)).getEntry 0 1 = (3 : ℝ) := by
  refine (C34_set_get_partial ⟨1, !![1, 2; 2, 5]⟩ (by simp) ⟨?_, ?_⟩ ?_ 0 1 3).1
  · intro i j
    fin_cases i <;> fin_cases j <;> simp
  · intro i j
    fin_cases i <;> fin_cases j <;> simp [Complex.conj_ofNat]
  · ext i j
    fin_cases i <;> fin_cases j <;> simp

/-! ## C36 -/

/-- **C36.** For all systems with orthonormal basis vectors: `diagonalize` (with any unitary matrix U and values d such that
H U = U diag(d), or skipped) and a unitary change of the basis vectors leave the represented operator and orthonormality
unchanged; `canonicalize` keeps the operator; `unitarize` keeps the Hamiltonian matrix, which represents the old operator in the old
basis vectors. -/
theorem C36_basis_changes (s : HSys n k) (hV : s.Vᴴ * s.V = 1) (U : Matrix k k ℂ) (hU : Uᴴ * U = 1) :
    (∀ isDiag (d : k → ℝ), s.H * U = U * Matrix.diagonal (fun i => (d i : ℂ)) →
      (s.diagonalize isDiag U d).oper = s.oper ∧ (s.diagonalize isDiag U d).Vᴴ * (s.diagonalize isDiag U d).V = 1 ∧
      (isDiag = false → ∀ i j, i ≠ j → (s.diagonalize isDiag U d).H i j = 0)) ∧
    ((s.applyRight U).oper = s.oper ∧ (s.applyRight U).Vᴴ * (s.applyRight U).V = 1) ∧
    s.canonicalize.oper = s.oper ∧
    (s.canonicalize.H = s.oper ∧ s.canonicalize.V * s.V = s.V) ∧
    (s.unitarize.oper = s.H ∧ s.V * s.unitarize.oper * s.Vᴴ = s.oper) := by
  have hU' : U * Uᴴ = 1 := mul_eq_one_comm.mp hU
  have hVU : (s.V * U)ᴴ * (s.V * U) = 1 := by
    rw [Matrix.conjTranspose_mul]
    calc Uᴴ * s.Vᴴ * (s.V * U) = Uᴴ * (s.Vᴴ * s.V) * U := by simp only [Matrix.mul_assoc]
      _ = 1 := by rw [hV, Matrix.mul_one, hU]
  refine ⟨?_, ⟨?_, hVU⟩, ?_, ⟨rfl, ?_⟩, ?_, ?_⟩
  · intro isDiag d hd
    cases isDiag with
    | true => exact ⟨rfl, hV, fun h => by cases h⟩
    | false =>
      refine ⟨?_, hVU, ?_⟩
      · change s.V * U * Matrix.diagonal (fun i => (d i : ℂ)) * (s.V * U)ᴴ = _
        rw [Matrix.conjTranspose_mul]
        calc s.V * U * Matrix.diagonal (fun i => (d i : ℂ)) * (Uᴴ * s.Vᴴ)
            = s.V * (U * Matrix.diagonal (fun i => (d i : ℂ))) * Uᴴ * s.Vᴴ := by simp only [Matrix.mul_assoc]
          _ = s.V * (s.H * (U * Uᴴ)) * s.Vᴴ := by rw [← hd]; simp only [Matrix.mul_assoc]
          _ = s.oper := by rw [hU', Matrix.mul_one]; rfl
      · intro _ i j hij
        exact Matrix.diagonal_apply_ne _ hij
  · change s.V * U * (Uᴴ * s.H * U) * (s.V * U)ᴴ = _
    rw [Matrix.conjTranspose_mul]
    calc s.V * U * (Uᴴ * s.H * U) * (Uᴴ * s.Vᴴ) = s.V * ((U * Uᴴ) * s.H * (U * Uᴴ)) * s.Vᴴ := by simp only [Matrix.mul_assoc]
      _ = s.oper := by rw [hU', Matrix.one_mul, Matrix.mul_one]; rfl
  · change s.V * s.Vᴴ * (s.V * s.H * s.Vᴴ) * (s.V * s.Vᴴ)ᴴ = _
    rw [Matrix.conjTranspose_mul, Matrix.conjTranspose_conjTranspose]
    calc s.V * s.Vᴴ * (s.V * s.H * s.Vᴴ) * (s.V * s.Vᴴ) = s.V * (s.Vᴴ * s.V) * s.H * (s.Vᴴ * s.V) * s.Vᴴ := by
          simp only [Matrix.mul_assoc]
      _ = s.oper := by rw [hV, Matrix.mul_one, Matrix.mul_one]; rfl
  · change s.V * s.Vᴴ * s.V = s.V
    rw [Matrix.mul_assoc, hV, Matrix.mul_one]
  · change (1 : Matrix k k ℂ) * s.H * (1 : Matrix k k ℂ)ᴴ = s.H
    simp
  · change s.V * ((1 : Matrix k k ℂ) * s.H * (1 : Matrix k k ℂ)ᴴ) * s.Vᴴ = s.oper
    simp [HSys.oper]

end PI
