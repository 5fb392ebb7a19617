import Verif.Legacy.ReflRun

/-!
# Legacy pair Hamiltonian with reflection: where C91 fails
-/

namespace PI

open Matrix

theorem ite_all {T : Type} {P : T → Prop} {c : Prop} [Decidable c] (l l' : List T) (h : ∀ t ∈ l, P t) (h' : ∀ t ∈ l', P t) : ∀ t ∈ (if c then l else l'), P t := by
  by_cases hc : c
  · rw [if_pos hc]; exact h
  · rw [if_neg hc]; exact h'

theorem nil_all {T : Type} {P : T → Prop} : ∀ t ∈ ([] : List T), P t := by simp

theorem single_all {T : Type} {P : T → Prop} {a : T} (h : P a) : ∀ t ∈ [a], P t := by simpa using h

theorem cell_rows (sym : OldSym) (x : Old1 × Old1) (mp : ℕ → Option ℕ) (neq : Prop) (row rowS : ℕ) (v : ℂ) (N : ℕ) (h1 : row < N) (h2 : rowS < N)
    (hm : ∀ r < N, ∃ i < N, mp r = some i) : ∀ t ∈ combineCell sym x mp neq row rowS v, ∃ i < N, t.1 = some i := by
  classical
  unfold combineCell
  dsimp only
  refine ite_all _ _ nil_all (ite_all _ _ nil_all (ite_all _ _ nil_all (ite_all _ _ nil_all (ite_all _ _ nil_all ?_))))
  rw [List.forall_mem_append, List.forall_mem_append, List.forall_mem_append, List.forall_mem_append, List.forall_mem_append]
  exact ⟨⟨⟨⟨⟨single_all ⟨row, h1, rfl⟩, ite_all _ _ (single_all (hm row h1)) nil_all⟩, ite_all _ _ (single_all ⟨rowS, h2, rfl⟩) nil_all⟩,
    ite_all _ _ (single_all (hm rowS h2)) nil_all⟩, ite_all _ _ (single_all ⟨rowS, h2, rfl⟩) nil_all⟩, ite_all _ _ (single_all (hm rowS h2)) nil_all⟩

/-- The columns that `combine` returns when the map of the rows is complete. -/
theorem combine_ok (sym : OldSym) {n : ℕ} (s : Fin n → Old1) (A : OldOne n) (deltaE : ℝ)
    (hm : ∀ r < n * n, ∃ i < n * n, oldMapping sym (number 0 (List.ofFn (pairState s s))) r = some i) :
    ∃ cols, oldCombine sym s s A A deltaE = .ok cols ∧ ∀ p : Fin A.nb × Fin A.nb, ¬ sym.skips p.1 p.2 → inCutoff deltaE (A.diag p.1 + A.diag p.2) →
      combineTriplets sym s s (oldMapping sym (number 0 (List.ofFn (pairState s s)))) A A p ≠ [] →
      (A.diag p.1 + A.diag p.2, fun i : Fin (n * n) => tripletSum (combineTriplets sym s s (oldMapping sym (number 0 (List.ofFn (pairState s s)))) A A p) i) ∈ cols := by
  classical
  unfold oldCombine
  dsimp only
  rw [if_pos]
  · refine ⟨_, rfl, fun p h1 h2 h3 => ?_⟩
    rw [List.mem_map]
    refine ⟨(_, _), ?_, rfl⟩
    rw [List.mem_filter]
    refine ⟨List.mem_map.mpr ⟨p, ?_, rfl⟩, decide_eq_true h3⟩
    rw [List.mem_filter]
    refine ⟨?_, by simpa using ⟨h1, h2⟩⟩
    unfold oldPairIdx
    exact List.mem_product.mpr ⟨List.mem_finRange _, List.mem_finRange _⟩
  · intro c hc t ht
    rw [List.mem_filter, List.mem_map] at hc
    obtain ⟨⟨p, -, rfl⟩, -⟩ := hc
    unfold combineTriplets at ht
    rw [List.mem_flatMap] at ht
    obtain ⟨r, -, hr⟩ := ht
    have b : ∀ a b : Fin n, n * (a : ℕ) + b < n * n := by
      intro a b
      have := a.2
      have := b.2
      nlinarith
    exact cell_rows _ _ _ _ _ _ _ (n * n) (b _ _) (b _ _) hm t hr

/-! ## The reflection with the inversion: a vector twice -/

/-- The states of a P₃/₂ level in the order of the program. -/
def exP32 : Fin 4 → Old1 := ![⟨60, 1, 3, -3⟩, ⟨60, 1, 3, -1⟩, ⟨60, 1, 3, 1⟩, ⟨60, 1, 3, 3⟩]

/-- Their eigenvectors without fields. -/
noncomputable def exP32One : OldOne 4 := ⟨4, 1, fun _ => 0⟩

theorem filter_one (c : Fin 4) [DecidablePred fun r => (1 : Matrix (Fin 4) (Fin 4) ℂ) r c ≠ 0] :
    ((List.finRange 4).filter fun r => decide ((1 : Matrix (Fin 4) (Fin 4) ℂ) r c ≠ 0)) = [c] := by
  have : (fun r => decide ((1 : Matrix (Fin 4) (Fin 4) ℂ) r c ≠ 0)) = fun r => decide (r = c) := by
    funext r
    by_cases h : r = c
    · subst h; simp
    · simp [Matrix.one_apply_ne h, h]
  rw [this]
  clear this
  fin_cases c <;> decide

/-- The symmetry of the first witness. -/
def symA : OldSym := ⟨some .even, none, some .even, some 1⟩

/-- The map of the rows for the first witness. -/
def mpA : ℕ → Option ℕ := oldMapping symA (number 0 (List.ofFn (pairState exP32 exP32)))

theorem mpA_vals : mpA 8 = some 7 ∧ mpA 2 = some 13 ∧ mpA 13 = some 2 ∧ mpA 7 = some 8 := by decide +kernel

theorem mpA_all : ∀ r < 16, ∃ i < 16, mpA r = some i := by decide +kernel

theorem tripletsA (a b : Fin 4) : combineTriplets symA exP32 exP32 mpA exP32One exP32One (a, b) =
    combineCell symA (exP32 a, exP32 b) mpA ((a : ℕ) ≠ b) (4 * a + b) (4 * b + a) 1 := by
  classical
  unfold combineTriplets
  show List.flatMap _ ((List.filter (fun r => decide ((1 : Matrix (Fin 4) (Fin 4) ℂ) r a ≠ 0)) (List.finRange 4)) ×ˢ
    (List.filter (fun r => decide ((1 : Matrix (Fin 4) (Fin 4) ℂ) r b ≠ 0)) (List.finRange 4))) = _
  rw [filter_one, filter_one]
  show List.flatMap _ [(a, b)] = _
  rw [List.flatMap_singleton]
  show combineCell symA (exP32 a, exP32 b) mpA ((a : ℕ) ≠ b) (4 * a + b) (4 * b + a) ((1 : Matrix (Fin 4) (Fin 4) ℂ) a a * (1 : Matrix (Fin 4) (Fin 4) ℂ) b b) = _
  rw [Matrix.one_apply_eq, Matrix.one_apply_eq, mul_one]

theorem sqrt_half : (1 : ℂ) / (Real.sqrt 2 : ℝ) / (Real.sqrt 2 : ℝ) = 1 / 2 := by
  rw [div_div, ← Complex.ofReal_mul, Real.mul_self_sqrt (by norm_num)]
  norm_num

theorem cellA (x : Old1 × Old1) (row rowS r' s' : ℕ) (hr : symA.refSign x = 1) (hi : symA.invSign x = -1) (h1 : mpA row = some r') (h2 : mpA rowS = some s') (hne : r' ≠ rowS)
    (hm : x.1.m + x.2.m = 2 ∨ x.1.m + x.2.m = -2) (hp : 0 ≤ x.1.m) :
    combineCell symA x mpA True row rowS 1 = [(some row, 1 / 2), (some r', 1 / 2), (some rowS, -(1 / 2)), (some s', -(1 / 2))] := by
  classical
  unfold combineCell
  have hit : (some r' = some rowS) = False := by simpa using hne
  have e1 : (symA.inversion ≠ none) = True := by simp [symA]
  have e2 : (symA.permutation ≠ none) = False := by simp [symA]
  have e3 : (symA.reflection ≠ none) = True := by simp [symA]
  have e4 : ¬ (symA.rotation ≠ none ∧ symA.rotation.map (2 * ·) ≠ some (x.1.m + x.2.m) ∧ (symA.reflection = none ∨ symA.rotation.map (2 * ·) ≠ some (-(x.1.m + x.2.m)))) := by
    rcases hm with h | h <;> rw [h] <;> simp [symA]
  have e5 : ¬ x.1.m < 0 := by omega
  dsimp only
  simp only [hit, e1, e2, e3, and_false, false_and, if_false, not_false_eq_true, if_true, e5, hr, hi, h1, h2, and_self, and_true, or_false]
  rw [if_neg e4]
  simp only [sqrt_half, Int.cast_one, mul_one, Int.cast_neg, mul_neg, List.append_nil, List.cons_append, List.nil_append]

/-- **C91, the claim fails.** With the inversion and the reflection and conservation of the momentum, for the states of a P₃/₂ level without fields: the block of the
momentum 1 holds a vector twice, once with the opposite sign. Such a basis is not linearly independent. -/
theorem C91_inversion_fails : ∃ cols v,
    symA ∈ oldSymmetries ⟨(true, true), (false, false), (true, true), true, false, false⟩ (exP32 2, exP32 1) (List.ofFn (pairState exP32 exP32)) ∧
    oldCombine symA exP32 exP32 exP32One exP32One (-1) = .ok cols ∧ v ≠ 0 ∧ (0, v) ∈ cols ∧ (0, -v) ∈ cols := by
  obtain ⟨cols, h, hc⟩ := combine_ok symA exP32 exP32One (-1) mpA_all
  have c0 : inCutoff (-1) ((0 : ℝ) + 0) := Or.inr (by norm_num)
  obtain ⟨m8, m2, m13, m7⟩ := mpA_vals
  have n1 : (((2 : Fin 4) : ℕ) ≠ ((0 : Fin 4) : ℕ)) = True := by decide
  have n2 : (((3 : Fin 4) : ℕ) ≠ ((1 : Fin 4) : ℕ)) = True := by decide
  have t1 : combineTriplets symA exP32 exP32 mpA exP32One exP32One ((2 : Fin 4), (0 : Fin 4)) = [(some 8, 1 / 2), (some 7, 1 / 2), (some 2, -(1 / 2)), (some 13, -(1 / 2))] := by
    rw [tripletsA, n1]
    exact cellA _ 8 2 7 13 (by decide) (by decide) m8 m2 (by decide) (by decide) (by decide)
  have t2 : combineTriplets symA exP32 exP32 mpA exP32One exP32One ((3 : Fin 4), (1 : Fin 4)) = [(some 13, 1 / 2), (some 2, 1 / 2), (some 7, -(1 / 2)), (some 8, -(1 / 2))] := by
    rw [tripletsA, n2]
    exact cellA _ 13 7 2 8 (by decide) (by decide) m13 m7 (by decide) (by decide) (by decide)
  have k1 := hc ((2 : Fin 4), (0 : Fin 4)) (by unfold OldSym.skips; decide) c0 (by
    show combineTriplets symA exP32 exP32 mpA exP32One exP32One ((2 : Fin 4), (0 : Fin 4)) ≠ []
    rw [t1]; simp)
  have k2 := hc ((3 : Fin 4), (1 : Fin 4)) (by unfold OldSym.skips; decide) c0 (by
    show combineTriplets symA exP32 exP32 mpA exP32One exP32One ((3 : Fin 4), (1 : Fin 4)) ≠ []
    rw [t2]; simp)
  refine ⟨cols, fun i : Fin (4 * 4) => tripletSum (combineTriplets symA exP32 exP32 mpA exP32One exP32One ((2 : Fin 4), (0 : Fin 4))) i, by decide +kernel, h, ?_, ?_, ?_⟩
  · intro e
    have := congrFun e (8 : Fin 16)
    rw [t1] at this
    simp [tripletSum] at this
  · show ((0 : ℝ), _) ∈ cols
    have e : exP32One.diag (2 : Fin 4) + exP32One.diag (0 : Fin 4) = 0 := add_zero _
    rw [e] at k1
    exact k1
  · have e : exP32One.diag (3 : Fin 4) + exP32One.diag (1 : Fin 4) = 0 := add_zero _
    rw [e] at k2
    have v : (-fun i : Fin (4 * 4) => tripletSum (combineTriplets symA exP32 exP32 mpA exP32One exP32One ((2 : Fin 4), (0 : Fin 4))) i) =
        fun i : Fin (4 * 4) => tripletSum (combineTriplets symA exP32 exP32 mpA exP32One exP32One ((3 : Fin 4), (1 : Fin 4))) i := by
      funext i
      rw [Pi.neg_apply, t1, t2]
      unfold tripletSum
      revert i
      show ∀ i : Fin 16, _
      intro i
      fin_cases i <;> simp
    rw [v]
    exact k2

/-! ## The reflection with the permutation in an electric field: a vector that is not normalised -/

/-- The states of an S₁/₂ and a P₁/₂ level. -/
def exFieldSP : Fin 4 → Old1 := ![⟨60, 0, 1, -1⟩, ⟨60, 0, 1, 1⟩, ⟨60, 1, 1, -1⟩, ⟨60, 1, 1, 1⟩]

/-- A Hamiltonian that couples the levels, as a field along z does. -/
noncomputable def exSPH : Matrix (Fin 4) (Fin 4) ℂ := !![0, 0, 1, 0; 0, 0, 0, -1; 1, 0, 0, 0; 0, -1, 0, 0]

theorem inv_sqrt2_sq : (((Real.sqrt 2)⁻¹ : ℝ) : ℂ) * (((Real.sqrt 2)⁻¹ : ℝ) : ℂ) = 1 / 2 := by
  rw [← Complex.ofReal_mul, ← mul_inv, Real.mul_self_sqrt (by norm_num)]
  norm_num

theorem inv_sqrt2_ne : (((Real.sqrt 2)⁻¹ : ℝ) : ℂ) ≠ 0 := by
  rw [Complex.ofReal_ne_zero]
  exact inv_ne_zero (by positivity)

/-- The eigenvectors as a matrix over the states. -/
noncomputable def exSPM : Matrix (Fin 4) (Fin 4) ℂ := (((Real.sqrt 2)⁻¹ : ℝ) : ℂ) • !![-1, 0, 1, 0; 0, 1, 0, 1; 1, 0, 1, 0; 0, 1, 0, -1]

/-- The eigenvectors and their energies. -/
noncomputable def exSPOne : OldOne 4 := ⟨4, exSPM, ![-1, -1, 1, 1]⟩

theorem exSPM_herm : exSPMᴴ = (((Real.sqrt 2)⁻¹ : ℝ) : ℂ) • !![-1, 0, 1, 0; 0, 1, 0, 1; 1, 0, 1, 0; 0, 1, 0, -1] := by
  unfold exSPM
  rw [conjTranspose_smul]
  congr 1
  · exact Complex.conj_ofReal _
  · ext i j
    fin_cases i <;> fin_cases j <;> simp

theorem exSPM_orth : exSPMᴴ * exSPM = 1 ∧ exSPM * exSPMᴴ = 1 := by
  rw [exSPM_herm]
  unfold exSPM
  constructor
  · rw [Matrix.smul_mul, Matrix.mul_smul, smul_smul, inv_sqrt2_sq]
    ext i j
    fin_cases i <;> fin_cases j <;> simp <;> norm_num
  · rw [Matrix.smul_mul, Matrix.mul_smul, smul_smul, inv_sqrt2_sq]
    ext i j
    fin_cases i <;> fin_cases j <;> simp <;> norm_num

theorem exSPM_eig : exSPH * exSPM = exSPM * diagonal ![-1, -1, 1, 1] := by
  unfold exSPM exSPH
  rw [Matrix.smul_mul, Matrix.mul_smul]
  congr 1
  ext i j
  fin_cases i <;> fin_cases j <;> simp [Matrix.mul_apply, Fin.sum_univ_four]

theorem exSPH_refl : ReflInv exFieldSP exSPH := by
  have key : ∀ i j k l : Fin 4, exFieldSP k = (exFieldSP i).flip → exFieldSP l = (exFieldSP j).flip → k = (![1, 0, 3, 2] : Fin 4 → Fin 4) i ∧ l = (![1, 0, 3, 2] : Fin 4 → Fin 4) j := by decide +kernel
  have sg : ∀ i, oneSign (exFieldSP i) = (![1, -1, -1, 1] : Fin 4 → ℤ) i := by decide +kernel
  intro i j k l hk hl
  obtain ⟨rfl, rfl⟩ := key i j k l hk hl
  rw [sg, sg]
  unfold exSPH
  fin_cases i <;> fin_cases j <;> simp

/-- The symmetry of the second witness. -/
def symB : OldSym := ⟨none, some .even, some .even, some 0⟩

/-- The map of the rows for the second witness. -/
def mpB : ℕ → Option ℕ := oldMapping symB (number 0 (List.ofFn (pairState exFieldSP exFieldSP)))

theorem mpB_vals : mpB 4 = some 1 ∧ mpB 6 = some 3 ∧ mpB 9 = some 12 ∧ mpB 12 = some 9 ∧ mpB 3 = some 6 ∧ mpB 14 = some 11 := by decide +kernel

theorem mpB_all : ∀ r < 16, ∃ i < 16, mpB r = some i := by decide +kernel

theorem filterB0 [DecidablePred fun r => exSPM r 0 ≠ 0] : ((List.finRange 4).filter fun r => decide (exSPM r 0 ≠ 0)) = [0, 2] := by
  have : (fun r => decide (exSPM r 0 ≠ 0)) = fun r => decide (r = 0 ∨ r = 2) := by
    funext r
    refine decide_eq_decide.mpr ?_
    unfold exSPM
    rw [Matrix.smul_apply, smul_eq_mul, mul_ne_zero_iff]
    fin_cases r <;> simp
  rw [this]
  decide

theorem filterB1 [DecidablePred fun r => exSPM r 1 ≠ 0] : ((List.finRange 4).filter fun r => decide (exSPM r 1 ≠ 0)) = [1, 3] := by
  have : (fun r => decide (exSPM r 1 ≠ 0)) = fun r => decide (r = 1 ∨ r = 3) := by
    funext r
    refine decide_eq_decide.mpr ?_
    unfold exSPM
    rw [Matrix.smul_apply, smul_eq_mul, mul_ne_zero_iff]
    fin_cases r <;> simp
  rw [this]
  decide

theorem cellB_hit (x : Old1 × Old1) (row rowS : ℕ) (v : ℂ) (hr : symB.refSign x = -1) (h1 : mpB row = some rowS) (hm : x.1.m + x.2.m = 0) :
    combineCell symB x mpB True row rowS v = [(some row, v / (Real.sqrt 2 : ℝ)), (some rowS, -(v / (Real.sqrt 2 : ℝ)))] := by
  classical
  unfold combineCell
  have e1 : (symB.inversion ≠ none) = False := by simp [symB]
  have e2 : (symB.permutation ≠ none) = True := by simp [symB]
  have e3 : (symB.reflection ≠ none) = True := by simp [symB]
  have e4 : ¬ (symB.rotation ≠ none ∧ symB.rotation.map (2 * ·) ≠ some (x.1.m + x.2.m) ∧ (symB.reflection = none ∨ symB.rotation.map (2 * ·) ≠ some (-(x.1.m + x.2.m)))) := by
    rw [hm]; simp [symB]
  have hp : symB.perSign = -1 := rfl
  dsimp only
  simp only [e1, e2, e3, hr, h1, hp, and_false, false_and, if_false, ne_eq, not_true_eq_false, not_false_eq_true, if_true, and_self, or_true, and_true]
  rw [if_neg e4]
  simp

theorem cellB (x : Old1 × Old1) (row rowS r' s' : ℕ) (v : ℂ) (hr : symB.refSign x = 1) (h1 : mpB row = some r') (h2 : mpB rowS = some s') (hne : r' ≠ rowS)
    (hm : x.1.m + x.2.m = 0) (hp : 0 ≤ x.1.m) :
    combineCell symB x mpB True row rowS v = [(some row, v * (1 / 2)), (some r', v * (1 / 2)), (some rowS, -(v * (1 / 2))), (some s', -(v * (1 / 2)))] := by
  classical
  unfold combineCell
  have hit : (some r' = some rowS) = False := by simpa using hne
  have e1 : (symB.inversion ≠ none) = False := by simp [symB]
  have e2 : (symB.permutation ≠ none) = True := by simp [symB]
  have e3 : (symB.reflection ≠ none) = True := by simp [symB]
  have e4 : ¬ (symB.rotation ≠ none ∧ symB.rotation.map (2 * ·) ≠ some (x.1.m + x.2.m) ∧ (symB.reflection = none ∨ symB.rotation.map (2 * ·) ≠ some (-(x.1.m + x.2.m)))) := by
    rw [hm]; simp [symB]
  have hs : symB.perSign = -1 := rfl
  have e5 : ¬ x.1.m < 0 := by omega
  have w : v / (Real.sqrt 2 : ℝ) / (Real.sqrt 2 : ℝ) = v * (1 / 2) := by
    rw [← sqrt_half]
    ring
  dsimp only
  simp only [hit, e1, e2, e3, e5, hr, h1, h2, hs, and_false, false_and, if_false, not_false_eq_true, if_true, and_self, and_true]
  rw [if_neg e4]
  simp only [w, Int.cast_one, mul_one, Int.cast_neg, mul_neg, List.append_nil, List.cons_append, List.nil_append]

theorem tripletsB : combineTriplets symB exFieldSP exFieldSP mpB exSPOne exSPOne ((1 : Fin 4), (0 : Fin 4)) =
    [(some 4, -(1 / 2) / ((Real.sqrt 2 : ℝ) : ℂ)), (some 1, -(-(1 / 2) / ((Real.sqrt 2 : ℝ) : ℂ))), (some 6, 1 / 2 * (1 / 2)), (some 3, 1 / 2 * (1 / 2)), (some 9, -(1 / 2 * (1 / 2))),
      (some 12, -(1 / 2 * (1 / 2))), (some 12, -(1 / 2) * (1 / 2)), (some 9, -(1 / 2) * (1 / 2)), (some 3, -(-(1 / 2) * (1 / 2))), (some 6, -(-(1 / 2) * (1 / 2))),
      (some 14, 1 / 2 / ((Real.sqrt 2 : ℝ) : ℂ)), (some 11, -(1 / 2 / ((Real.sqrt 2 : ℝ) : ℂ)))] := by
  classical
  obtain ⟨m4, m6, m9, m12, m3, m14⟩ := mpB_vals
  have n1 : (((1 : Fin 4) : ℕ) ≠ ((0 : Fin 4) : ℕ)) = True := by decide
  have v0 : exSPM 0 0 = -(((Real.sqrt 2)⁻¹ : ℝ) : ℂ) := by unfold exSPM; rw [Matrix.smul_apply, smul_eq_mul]; simp
  have v2 : exSPM 2 0 = (((Real.sqrt 2)⁻¹ : ℝ) : ℂ) := by unfold exSPM; rw [Matrix.smul_apply, smul_eq_mul]; simp
  have v1 : exSPM 1 1 = (((Real.sqrt 2)⁻¹ : ℝ) : ℂ) := by unfold exSPM; rw [Matrix.smul_apply, smul_eq_mul]; simp
  have v3 : exSPM 3 1 = (((Real.sqrt 2)⁻¹ : ℝ) : ℂ) := by unfold exSPM; rw [Matrix.smul_apply, smul_eq_mul]; simp
  unfold combineTriplets
  show List.flatMap _ ((List.filter (fun r => decide (exSPM r 1 ≠ 0)) (List.finRange 4)) ×ˢ (List.filter (fun r => decide (exSPM r 0 ≠ 0)) (List.finRange 4))) = _
  rw [filterB0, filterB1]
  show combineCell symB (exFieldSP 1, exFieldSP 0) mpB (((1 : Fin 4) : ℕ) ≠ ((0 : Fin 4) : ℕ)) 4 1 (exSPM 1 1 * exSPM 0 0) ++
    (combineCell symB (exFieldSP 1, exFieldSP 2) mpB (((1 : Fin 4) : ℕ) ≠ ((0 : Fin 4) : ℕ)) 6 9 (exSPM 1 1 * exSPM 2 0) ++
    (combineCell symB (exFieldSP 3, exFieldSP 0) mpB (((1 : Fin 4) : ℕ) ≠ ((0 : Fin 4) : ℕ)) 12 3 (exSPM 3 1 * exSPM 0 0) ++
    (combineCell symB (exFieldSP 3, exFieldSP 2) mpB (((1 : Fin 4) : ℕ) ≠ ((0 : Fin 4) : ℕ)) 14 11 (exSPM 3 1 * exSPM 2 0) ++ []))) = _
  rw [n1, v0, v1, v2, v3, mul_neg, inv_sqrt2_sq, cellB_hit _ 4 1 _ (by decide) m4 (by decide), cellB _ 6 9 3 12 _ (by decide) m6 m9 (by decide) (by decide) (by decide),
    cellB _ 12 3 9 6 _ (by decide) m12 m3 (by decide) (by decide) (by decide), cellB_hit _ 14 11 _ (by decide) m14 (by decide)]
  rfl

theorem exSP_norm (i : Fin 16) : ‖tripletSum (combineTriplets symB exFieldSP exFieldSP mpB exSPOne exSPOne ((1 : Fin 4), (0 : Fin 4))) i‖ ^ 2 =
    (![0, 1 / 8, 0, 1 / 4, 1 / 8, 0, 1 / 4, 0, 0, 1 / 4, 0, 1 / 8, 1 / 4, 0, 1 / 8, 0] : Fin 16 → ℝ) i := by
  rw [tripletsB]
  have z : ‖(1 / 2 / ((Real.sqrt 2 : ℝ) : ℂ))‖ ^ 2 = 1 / 8 := by
    rw [norm_div, Complex.norm_real, Real.norm_eq_abs, div_pow, sq_abs, Real.sq_sqrt (by norm_num)]
    norm_num
  have z' : ‖(-(1 / 2) / ((Real.sqrt 2 : ℝ) : ℂ))‖ ^ 2 = 1 / 8 := by rw [neg_div, norm_neg, z]
  have q : ‖(1 / 2 * (1 / 2) + -(-(1 / 2) * (1 / 2)) : ℂ)‖ ^ 2 = 1 / 4 := by norm_num
  have q' : ‖(-(1 / 2 * (1 / 2)) + -(1 / 2) * (1 / 2) : ℂ)‖ ^ 2 = 1 / 4 := by norm_num
  set w := (1 / 2 / ((Real.sqrt 2 : ℝ) : ℂ))
  set w' := (-(1 / 2) / ((Real.sqrt 2 : ℝ) : ℂ))
  unfold tripletSum
  fin_cases i <;> simp only [List.filter_cons, List.filter_nil] <;> simp [z, z'] <;> norm_num

/-- **C91, the claim fails.** With the permutation and the reflection, for two atoms whose S and P states a field along z mixes, and with the hypotheses of `C91_spectrum_partial`
(complete orthonormal eigenvectors of definite momenta, reflection invariant Hamiltonian, closed basis): the block of momentum 0 holds a vector of squared norm 3/2.
`changeBasis` takes the vectors as normalised, so that its interaction energy is off by one half. -/
theorem C91_permutation_fails : ∃ (H M : Matrix (Fin 4) (Fin 4) ℂ) (E : Fin 4 → ℝ) (mu : Fin 4 → ℤ),
    (∀ i, OldValid (exFieldSP i)) ∧ (∀ i, ∃ k, exFieldSP k = { exFieldSP i with m := -(exFieldSP i).m }) ∧ Mᴴ * M = 1 ∧ M * Mᴴ = 1 ∧ H * M = M * diagonal (fun c => (E c : ℂ)) ∧
    ReflInv exFieldSP H ∧ (∀ r c, M r c ≠ 0 → (exFieldSP r).m = mu c) ∧
    symB ∈ oldSymmetries ⟨(false, false), (true, true), (true, true), true, false, false⟩ (exFieldSP 1, exFieldSP 0) (List.ofFn (pairState exFieldSP exFieldSP)) ∧
    ∃ cols, oldCombine symB exFieldSP exFieldSP ⟨4, M, E⟩ ⟨4, M, E⟩ (-1) = .ok cols ∧ ∃ c ∈ cols, ∑ i, ‖c.2 i‖ ^ 2 = 3 / 2 := by
  refine ⟨exSPH, exSPM, ![-1, -1, 1, 1], ![-1, 1, -1, 1], fun i => by fin_cases i <;> exact ⟨by decide, by decide, by decide, by decide, by decide⟩, by decide +kernel,
    exSPM_orth.1, exSPM_orth.2, ?_, exSPH_refl, ?_, by decide +kernel, ?_⟩
  · have d : (fun c : Fin 4 => (((![-1, -1, 1, 1] : Fin 4 → ℝ) c : ℝ) : ℂ)) = ![-1, -1, 1, 1] := by funext c; fin_cases c <;> simp
    rw [d]
    exact exSPM_eig
  · intro r c h
    unfold exSPM at h
    rw [Matrix.smul_apply, smul_eq_mul] at h
    fin_cases r <;> fin_cases c <;> first | rfl | (exfalso; exact h (by simp))
  obtain ⟨cols, h, hc⟩ := combine_ok symB exFieldSP exSPOne (-1) mpB_all
  have k1 := hc ((1 : Fin 4), (0 : Fin 4)) (by unfold OldSym.skips; decide) (Or.inr (by norm_num)) (by
    show combineTriplets symB exFieldSP exFieldSP mpB exSPOne exSPOne ((1 : Fin 4), (0 : Fin 4)) ≠ []
    rw [tripletsB]; simp)
  refine ⟨cols, h, _, k1, ?_⟩
  show ∑ i : Fin 16, ‖tripletSum (combineTriplets symB exFieldSP exFieldSP mpB exSPOne exSPOne ((1 : Fin 4), (0 : Fin 4))) i‖ ^ 2 = 3 / 2
  rw [Finset.sum_congr rfl fun i _ => exSP_norm i]
  simp [Fin.sum_univ_succ]
  norm_num

/-! ## A basis that is not closed -/

/-- The only state: the basis that the restriction of the magnetic quantum number to that of the initial state leaves. -/
def exUp : Fin 1 → Old1 := fun _ => ⟨60, 0, 1, 1⟩

/-- **C91, the claim fails.** A basis that the restriction of the magnetic quantum numbers leaves without a reversed state: the row that `combine` looks up is outside
of the matrix, which is undefined behaviour. -/
theorem C91_open_basis_fails : OldValid (exUp 0) ∧ oldCombine ⟨none, none, some .even, none⟩ exUp exUp ⟨1, 1, fun _ => 0⟩ ⟨1, 1, fun _ => 0⟩ (-1) = .ub := by
  classical
  refine ⟨⟨by decide, by decide, by decide, by decide, by decide⟩, ?_⟩
  set sym : OldSym := ⟨none, none, some .even, none⟩ with hs
  have m : oldMapping sym (number 0 (List.ofFn (pairState exUp exUp))) 0 = none := by decide +kernel
  set mp := oldMapping sym (number 0 (List.ofFn (pairState exUp exUp))) with hmp
  have f : ∀ c : Fin 1, ((List.finRange 1).filter fun r => decide ((1 : Matrix (Fin 1) (Fin 1) ℂ) r c ≠ 0)) = [0] := by
    intro c
    have : (fun r => decide ((1 : Matrix (Fin 1) (Fin 1) ℂ) r c ≠ 0)) = fun _ => true := by
      funext r
      rw [Subsingleton.elim r c]
      simp
    rw [this]
    rfl
  have t : combineTriplets sym exUp exUp mp (⟨1, 1, fun _ => 0⟩ : OldOne 1) (⟨1, 1, fun _ => 0⟩ : OldOne 1) ((0 : Fin 1), (0 : Fin 1)) =
      combineCell sym (exUp 0, exUp 0) mp (((0 : Fin 1) : ℕ) ≠ ((0 : Fin 1) : ℕ)) 0 0 1 := by
    unfold combineTriplets
    show List.flatMap _ ((List.filter (fun r => decide ((1 : Matrix (Fin 1) (Fin 1) ℂ) r 0 ≠ 0)) (List.finRange 1)) ×ˢ
      (List.filter (fun r => decide ((1 : Matrix (Fin 1) (Fin 1) ℂ) r 0 ≠ 0)) (List.finRange 1))) = _
    rw [f]
    show combineCell sym (exUp 0, exUp 0) mp _ 0 0 ((1 : Matrix (Fin 1) (Fin 1) ℂ) 0 0 * (1 : Matrix (Fin 1) (Fin 1) ℂ) 0 0) ++ [] = _
    rw [Matrix.one_apply_eq, mul_one, List.append_nil]
  have c : ∃ z, (none, z) ∈ combineCell sym (exUp 0, exUp 0) mp (((0 : Fin 1) : ℕ) ≠ ((0 : Fin 1) : ℕ)) 0 0 1 := by
    unfold combineCell
    have e0 : (((0 : Fin 1) : ℕ) ≠ ((0 : Fin 1) : ℕ)) = False := by decide
    have e5 : ¬ (exUp 0).m < 0 := by decide
    rw [e0]
    simp [sym, e5, m]
  unfold oldCombine
  dsimp only
  rw [if_neg]
  intro h
  obtain ⟨z, hz⟩ := c
  rw [← t] at hz
  have := h ((0 : ℝ) + 0, combineTriplets sym exUp exUp mp (⟨1, 1, fun _ => 0⟩ : OldOne 1) (⟨1, 1, fun _ => 0⟩ : OldOne 1) ((0 : Fin 1), (0 : Fin 1))) (by
    rw [List.mem_filter]
    refine ⟨List.mem_map.mpr ⟨((0 : Fin 1), (0 : Fin 1)), ?_, rfl⟩, decide_eq_true (List.ne_nil_of_mem hz)⟩
    rw [List.mem_filter]
    refine ⟨List.mem_product.mpr ⟨List.mem_finRange _, List.mem_finRange _⟩, decide_eq_true ⟨?_, Or.inr (by norm_num)⟩⟩
    unfold OldSym.skips
    simp [sym]) _ hz
  obtain ⟨i, -, hi⟩ := this
  exact absurd hi (by simp)

end PI
