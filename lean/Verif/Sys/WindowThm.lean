import Verif.Sys.Window
import Mathlib.Tactic.FinCases
import Mathlib.Tactic.NormNum

/-!
# C99: diagonalization in an energy window, theorems
-/

namespace PI

open Matrix

/-- The matrix of a list of columns. -/
noncomputable def colsMat (n : ℕ) (cols : SpCols) : Matrix (Fin n) (Fin n) ℂ := fun i j => colsEntry cols i j

/-- A square sparse matrix: n columns, every row at most once per column, no row beyond n. -/
structure ColsWF (n : ℕ) (cols : SpCols) : Prop where
  length : cols.length = n
  nodup : ∀ c ∈ cols, (c.map (·.1)).Nodup
  rows : ∀ c ∈ cols, ∀ e ∈ c, e.1 < n

/-- What the documentation of FEAST promises if it reports success: orthonormal eigenvectors of the matrix in the arrays, with all their energies in the window, not more than
`m0`, and every eigenvector with an energy in the window is a combination of them. -/
def FeastSound {n : ℕ} (feast : SpArr → ℝ → ℝ → ℕ → Option (FeastRes n)) : Prop :=
  ∀ (A : SpArr) (M : Matrix (Fin n) (Fin n) ℂ) (a b : ℝ) (m0 : ℕ) (res : FeastRes n), (∀ i j : Fin n, csrEntry A i j = M i j) → M.IsHermitian → feast A a b m0 = some res →
    res.Xᴴ * res.X = 1 ∧ (M * res.X = res.X * Matrix.diagonal fun i => (res.e i : ℂ)) ∧ (∀ k, a ≤ res.e k ∧ res.e k ≤ b) ∧ res.m ≤ m0 ∧
    ∀ (w : Fin n → ℂ) (x : ℝ), M *ᵥ w = (x : ℂ) • w → a < x → x < b → ∃ c, w = res.X *ᵥ c

/-- **C99 (window, partial).** For every Hermitian Hamiltonian and every orthonormal basis: if the method returns and the Hamiltonian was not diagonal before, the new basis
vectors are orthonormal eigenvectors, with the energies on the diagonal of the new Hamiltonian, of the operator that the old ones represent; all energies are in the window,
and every eigenvector with an energy in the window is a combination of the new vectors. Missing: a Hamiltonian that is already diagonal (`C99_diagonal_fails`) and calls that
throw (`C99_failure_fails`). -/
theorem C99_window_partial {r n m : ℕ} {feast : SpArr → ℝ → ℝ → ℕ → Option (FeastRes n)} (hf : FeastSound feast) (V : Matrix (Fin r) (Fin n) ℂ) (cols : SpCols)
    (hH : (colsMat n cols).IsHermitian) (hV : Vᴴ * V = 1) (a b : ℝ) (V' : Matrix (Fin r) (Fin m) ℂ) (H' : Matrix (Fin m) (Fin m) ℂ)
    (h : diagonalizeWindow feast V cols a b = .done m V' H') :
    V'ᴴ * V' = 1 ∧ ∃ e : Fin m → ℝ, H' = (Matrix.diagonal fun i => (e i : ℂ)) ∧ (V * colsMat n cols * Vᴴ) * V' = V' * H' ∧ (∀ k, a ≤ e k ∧ e k ≤ b) ∧
    ∀ (w : Fin n → ℂ) (x : ℝ), (V * colsMat n cols * Vᴴ) *ᵥ (V *ᵥ w) = (x : ℂ) • (V *ᵥ w) → a < x → x < b → ∃ c, V *ᵥ w = V' *ᵥ c := by
  classical
  unfold diagonalizeWindow at h
  by_cases hd : colsDiagonal cols
  · rw [if_pos hd] at h; cases h
  rw [if_neg hd] at h
  dsimp only at h
  cases hr : feast (feastArrays n cols) a b (feastM0 a b cols) with
  | none => rw [hr] at h; cases h
  | some res =>
    rw [hr] at h
    dsimp only at h
    obtain ⟨h1, h2, h3, -, h5⟩ := hf _ (colsMat n cols) a b _ res (fun i j => C99_input n cols i j i.2) hH hr
    injection h with hm hV' hH'
    subst hm
    have hV' := eq_of_heq hV'
    have hH' := eq_of_heq hH'
    subst hV' hH'
    refine ⟨?_, res.e, rfl, ?_, h3, ?_⟩
    · rw [Matrix.conjTranspose_mul, Matrix.mul_assoc, ← Matrix.mul_assoc _ V, hV, Matrix.one_mul, h1]
    · rw [Matrix.mul_assoc, ← Matrix.mul_assoc Vᴴ, hV, Matrix.one_mul, Matrix.mul_assoc, h2, Matrix.mul_assoc]
    · intro w x hw ha hb
      have hw' : colsMat n cols *ᵥ w = (x : ℂ) • w := by
        have := congrArg (fun u => Vᴴ *ᵥ u) hw
        simp only [Matrix.mulVec_mulVec, Matrix.mulVec_smul] at this
        have e1 : Vᴴ * (V * colsMat n cols * Vᴴ * V) = colsMat n cols := by
          rw [Matrix.mul_assoc _ Vᴴ V, hV, Matrix.mul_one, ← Matrix.mul_assoc, hV, Matrix.one_mul]
        rw [e1, hV, Matrix.one_mulVec] at this
        exact this
      obtain ⟨c, hc⟩ := h5 w x hw' ha hb
      exact ⟨c, by rw [hc, Matrix.mulVec_mulVec]⟩

/-! ## The estimate of the number of eigenvalues -/

theorem diagVal_eq (k : ℕ) (c : List (ℕ × ℂ)) (hn : (c.map (·.1)).Nodup) (x : ℝ) :
    c.foldl (fun acc e => if e.1 = k then e.2.re else acc) x = if k ∈ c.map (·.1) then (((c.filter fun e : ℕ × ℂ => e.1 = k).map (fun e : ℕ × ℂ => e.2)).sum).re else x := by
  induction c generalizing x with
  | nil => simp
  | cons e c ih =>
    rw [List.map_cons, List.nodup_cons] at hn
    rw [List.foldl_cons, ih hn.2]
    by_cases he : e.1 = k
    · subst he
      rw [if_neg hn.1]
      have hnil : (c.filter fun e' => decide (e'.1 = e.1)) = [] := by
        rw [List.filter_eq_nil_iff]
        intro e' he' h
        exact hn.1 (List.mem_map.2 ⟨e', he', by simpa using h⟩)
      simp [hnil]
    · rw [if_neg he]
      have : (k ∈ (e :: c).map (·.1)) ↔ k ∈ c.map (·.1) := by
        rw [List.map_cons, List.mem_cons]
        constructor
        · rintro (h | h)
          · exact absurd h.symm he
          · exact h
        · exact Or.inr
      by_cases hk : k ∈ c.map (·.1)
      · rw [if_pos hk, if_pos (this.2 hk), List.filter_cons, if_neg (by simpa using he)]
      · rw [if_neg hk, if_neg (fun h => hk (this.1 h))]

theorem diagVal_entry {n : ℕ} {cols : SpCols} (hw : ColsWF n cols) (k : ℕ) (c : List (ℕ × ℂ)) (hc : cols[k]? = some c) : diagVal k c = (colsEntry cols k k).re := by
  unfold diagVal colsEntry
  rw [diagVal_eq k c (hw.nodup c (List.mem_of_getElem? hc)), List.getD_eq_getElem?_getD, hc, Option.getD_some]
  by_cases hk : k ∈ c.map (·.1)
  · rw [if_pos hk]
  · rw [if_neg hk]
    have hnil : (c.filter fun e' => decide (e'.1 = k)) = [] := by
      rw [List.filter_eq_nil_iff]
      intro e' he' h
      exact hk (List.mem_map.2 ⟨e', he', by simpa using h⟩)
    rw [hnil]; simp

theorem diagMax_filter (k : ℕ) (c : List (ℕ × ℂ)) (x : ℝ) :
    c.foldl (fun acc e => if e.1 = k then acc else max acc ‖e.2‖) x = (c.filter fun e => e.1 ≠ k).foldl (fun acc e => max acc ‖e.2‖) x := by
  induction c generalizing x with
  | nil => rfl
  | cons e c ih =>
    rw [List.foldl_cons, ih, List.filter_cons]
    by_cases he : e.1 = k
    · rw [if_pos he, if_neg (by simpa using he)]
    · rw [if_neg he, if_pos (by simpa using he), List.foldl_cons]

theorem diagMax_nonneg (k : ℕ) (c : List (ℕ × ℂ)) : 0 ≤ diagMax k c := by
  unfold diagMax
  have : ∀ x : ℝ, 0 ≤ x → 0 ≤ c.foldl (fun acc e => if e.1 = k then acc else max acc ‖e.2‖) x := by
    induction c with
    | nil => intro x hx; exact hx
    | cons e c ih =>
      intro x hx
      rw [List.foldl_cons]
      apply ih
      by_cases he : e.1 = k
      · rw [if_pos he]; exact hx
      · rw [if_neg he]; exact le_max_of_le_left hx
  exact this 0 le_rfl

theorem sum_norm_le (n : ℕ) (F : List (ℕ × ℂ)) : ∑ j : Fin n, ‖((F.filter fun e => decide (e.1 = (j : ℕ))).map (·.2)).sum‖ ≤ (F.map fun e => ‖e.2‖).sum := by
  induction F with
  | nil => simp
  | cons e F ih =>
    rw [List.map_cons, List.sum_cons]
    have : ∀ j : Fin n, ‖(((e :: F).filter fun e => decide (e.1 = (j : ℕ))).map (·.2)).sum‖ ≤
        (if (j : ℕ) = e.1 then ‖e.2‖ else 0) + ‖((F.filter fun e => decide (e.1 = (j : ℕ))).map (·.2)).sum‖ := by
      intro j
      rw [List.filter_cons]
      by_cases h : e.1 = (j : ℕ)
      · rw [if_pos (by simpa using h), if_pos h.symm, List.map_cons, List.sum_cons]; exact norm_add_le _ _
      · rw [if_neg (by simpa using h), if_neg (fun h' => h h'.symm), zero_add]
    refine (Finset.sum_le_sum fun j _ => this j).trans ?_
    rw [Finset.sum_add_distrib]
    refine add_le_add ?_ ih
    by_cases he : e.1 < n
    · rw [Finset.sum_eq_single ⟨e.1, he⟩]
      · simp
      · intro j _ hj
        rw [if_neg (fun h => hj (Fin.ext h))]
      · intro h; exact absurd (Finset.mem_univ _) h
    · rw [Finset.sum_eq_zero]
      · exact norm_nonneg _
      · intro j _
        rw [if_neg (by have := j.2; omega)]

theorem radius_le {n : ℕ} {cols : SpCols} (hH : (colsMat n cols).IsHermitian) (i : Fin n) (c : List (ℕ × ℂ)) (hc : cols[(i : ℕ)]? = some c)
    (h1 : (c.filter fun e => e.1 ≠ (i : ℕ)).length ≤ 1) : radius (colsMat n cols) i ≤ diagMax i c := by
  have hsum : radius (colsMat n cols) i ≤ ((c.filter fun e => decide (e.1 ≠ (i : ℕ))).map fun e => ‖e.2‖).sum := by
    refine le_trans ?_ (sum_norm_le n _)
    unfold radius
    refine Finset.sum_le_sum fun j _ => ?_
    by_cases hj : j = i
    · rw [if_pos hj]; exact norm_nonneg _
    · rw [if_neg hj]
      have hs : ‖colsMat n cols i j‖ = ‖colsMat n cols j i‖ := by
        have := congrFun (congrFun hH i) j
        rw [← this, Matrix.conjTranspose_apply, norm_star]
      rw [hs]
      unfold colsMat colsEntry
      rw [List.getD_eq_getElem?_getD, hc, Option.getD_some, List.filter_filter]
      apply le_of_eq
      congr 4
      funext e
      by_cases he : e.1 = (j : ℕ)
      · have hji : (j : ℕ) ≠ (i : ℕ) := fun h => hj (Fin.ext h)
        simp [he, hji]
      · simp [he]
  refine hsum.trans ?_
  unfold diagMax
  rw [diagMax_filter]
  generalize (c.filter fun e => decide (e.1 ≠ (i : ℕ))) = F at h1
  rcases F with _ | ⟨e, _ | ⟨e', F⟩⟩
  · simp
  · simp
  · simp at h1

theorem feastM0_eq (a b : ℝ) (cols : SpCols) :
    feastM0 a b cols = (Finset.univ.filter fun i : Fin cols.length => a - diagMax i cols[i] < diagVal i cols[i] ∧ diagVal i cols[i] < b + diagMax i cols[i]).card := by
  classical
  unfold feastM0
  dsimp only
  have key : ∀ d : List (ℝ × ℝ), (∀ x ∈ d, 0 ≤ x.2) →
      (d.countP fun x => decide (x.1 < b ∧ x.1 > a)) + (d.countP fun x => decide ((x.1 ≥ b ∨ x.1 ≤ a) ∧ x.1 < b + x.2 ∧ x.1 > a - x.2)) =
      d.countP fun x => decide (a - x.2 < x.1 ∧ x.1 < b + x.2) := by
    intro d
    induction d with
    | nil => intro _; rfl
    | cons x d ih =>
      intro hd
      have h0 := hd x List.mem_cons_self
      have := ih fun y hy => hd y (List.mem_cons_of_mem _ hy)
      simp only [List.countP_cons]
      by_cases hin : x.1 < b ∧ x.1 > a
      · have h2 : ¬ ((x.1 ≥ b ∨ x.1 ≤ a) ∧ x.1 < b + x.2 ∧ x.1 > a - x.2) := by rintro ⟨h | h, -⟩ <;> linarith [hin.1, hin.2]
        have h3 : a - x.2 < x.1 ∧ x.1 < b + x.2 := ⟨by linarith [hin.2], by linarith [hin.1]⟩
        rw [if_pos (by simpa using hin), if_neg (by simpa using h2), if_pos (by simpa using h3)]
        omega
      · have h1 : x.1 ≥ b ∨ x.1 ≤ a := by
          by_contra h; push Not at h; exact hin ⟨h.1, h.2⟩
        by_cases h3 : a - x.2 < x.1 ∧ x.1 < b + x.2
        · have h2 : (x.1 ≥ b ∨ x.1 ≤ a) ∧ x.1 < b + x.2 ∧ x.1 > a - x.2 := ⟨h1, h3.2, h3.1⟩
          rw [if_neg (by simpa using hin), if_pos (by simpa using h2), if_pos (by simpa using h3)]
          omega
        · have h2 : ¬ ((x.1 ≥ b ∨ x.1 ≤ a) ∧ x.1 < b + x.2 ∧ x.1 > a - x.2) := fun h => h3 ⟨h.2.2, h.2.1⟩
          rw [if_neg (by simpa using hin), if_neg (by simpa using h2), if_neg (by simpa using h3)]
          omega
  rw [key]
  · have hofn : (cols.zipIdx.map fun c => (diagVal c.2 c.1, diagMax c.2 c.1)) = List.ofFn fun i : Fin cols.length => (diagVal i cols[i], diagMax i cols[i]) := by
      refine List.ext_getElem (by simp) fun i h1 h2 => ?_
      simp
    rw [hofn, List.ofFn_eq_map, List.countP_map, List.countP_eq_length_filter]
    rw [← List.toFinset_card_of_nodup ((List.nodup_finRange _).filter _)]
    congr 1
    ext i
    simp
  · intro x hx
    obtain ⟨c, -, rfl⟩ := List.mem_map.1 hx
    exact diagMax_nonneg _ _

/-- **C99 (estimate, partial).** If every column has at most one stored entry beside the diagonal, the space reserved for eigenvectors suffices: not more than `m0` orthonormal
eigenvectors have energies in the window. For other matrices it need not (`C99_estimate_fails`). -/
theorem C99_estimate_partial {n m : ℕ} {cols : SpCols} (hw : ColsWF n cols) (hH : (colsMat n cols).IsHermitian)
    (h1 : ∀ (k : ℕ) (c : List (ℕ × ℂ)), cols[k]? = some c → (c.filter fun e => e.1 ≠ k).length ≤ 1) (a b : ℝ) (X : Matrix (Fin n) (Fin m) ℂ) (e : Fin m → ℝ) (hX : Xᴴ * X = 1)
    (hAX : colsMat n cols * X = X * Matrix.diagonal fun i => (e i : ℂ)) (he : ∀ k, a < e k ∧ e k < b) : m ≤ feastM0 a b cols := by
  have hl := hw.length
  subst hl
  rw [feastM0_eq]
  refine (window_count _ hH X e hX hAX a b he (fun i => diagMax i cols[i]) fun i => radius_le hH i _ (List.getElem?_eq_getElem i.2) (h1 i _ (List.getElem?_eq_getElem i.2))).trans ?_
  apply le_of_eq
  congr 1
  ext i
  simp only [Finset.mem_filter, Finset.mem_univ, true_and]
  rw [show (colsMat cols.length cols i i).re = diagVal i cols[i] from (diagVal_entry hw i _ (List.getElem?_eq_getElem i.2)).symm]

/-- The same estimate with the sum of the entries beside the diagonal instead of the largest one always suffices. -/
theorem C99_sum_estimate {n m : ℕ} (A : Matrix (Fin n) (Fin n) ℂ) (hA : A.IsHermitian) (X : Matrix (Fin n) (Fin m) ℂ) (e : Fin m → ℝ) (hX : Xᴴ * X = 1)
    (hAX : A * X = X * Matrix.diagonal fun i => (e i : ℂ)) (a b : ℝ) (he : ∀ k, a < e k ∧ e k < b) :
    m ≤ (Finset.univ.filter fun i => a - (∑ j, if j = i then 0 else ‖A i j‖) < (A i i).re ∧ (A i i).re < b + ∑ j, if j = i then 0 else ‖A i j‖).card :=
  window_count A hA X e hX hAX a b he _ fun _ => le_rfl

/-- Three coupled states of energy 0. -/
noncomputable def threeCols : SpCols := [[(1, 1), (2, 1)], [(0, 1), (2, 1)], [(0, 1), (1, 1)]]

theorem threeCols_wf : ColsWF 3 threeCols := by
  refine ⟨rfl, ?_, ?_⟩
  · intro c hc
    simp only [threeCols, List.mem_cons, List.not_mem_nil, or_false] at hc
    rcases hc with rfl | rfl | rfl <;> decide
  · intro c hc e he
    simp only [threeCols, List.mem_cons, List.not_mem_nil, or_false] at hc
    rcases hc with rfl | rfl | rfl <;>
    · simp only [List.mem_cons, List.not_mem_nil, or_false] at he
      rcases he with rfl | rfl <;> simp

theorem threeCols_mat : colsMat 3 threeCols = !![0, 1, 1; 1, 0, 1; 1, 1, 0] := by
  ext i j
  fin_cases i <;> fin_cases j <;> simp [colsMat, colsEntry, threeCols]

theorem threeCols_herm : (colsMat 3 threeCols).IsHermitian := by
  rw [threeCols_mat]
  ext i j
  fin_cases i <;> fin_cases j <;> simp [Matrix.conjTranspose_apply]

/-- **C99 fails (estimate).** Three states of energy 0, coupled pairwise by 1, window from 3/2 to 3: the eigenvalue 2 is in the window, but no space is reserved, although the
largest eigenvalue differs from the diagonal by less than the sum of the couplings. -/
theorem C99_estimate_fails : feastM0 (3/2) 3 threeCols = 0 ∧ ∃ w : Fin 3 → ℂ, w ≠ 0 ∧ colsMat 3 threeCols *ᵥ w = (2 : ℂ) • w := by
  classical
  constructor
  · unfold feastM0 threeCols diagVal diagMax
    simp
    norm_num
  · refine ⟨fun _ => 1, fun h => by have := congrFun h 0; simp at this, ?_⟩
    rw [threeCols_mat]
    ext i
    fin_cases i <;> simp [Matrix.mulVec, dotProduct, Fin.sum_univ_three] <;> norm_num

/-- The hypotheses of `C99_window_partial` and `C99_estimate_partial` are met: two states of energy 0, coupled by 1, window from 0 to 2; a FEAST that finds the eigenvalue 1. -/
noncomputable def twoCols : SpCols := [[(1, 1)], [(0, 1)]]

theorem twoCols_mat : colsMat 2 twoCols = !![0, 1; 1, 0] := by
  ext i j
  fin_cases i <;> fin_cases j <;> simp [colsMat, colsEntry, twoCols]

theorem twoCols_herm : (colsMat 2 twoCols).IsHermitian := by
  rw [twoCols_mat]
  ext i j
  fin_cases i <;> fin_cases j <;> simp [Matrix.conjTranspose_apply]

theorem twoCols_not_diagonal : ¬ colsDiagonal twoCols := by
  intro h
  have := h 0 [(1, 1)] rfl (1, 1) (by simp) (by norm_num)
  cases this

example : 1 ≤ feastM0 0 2 twoCols := by
  let s : ℂ := 1 / (Real.sqrt 2 : ℝ)
  have hs : s * s = 1 / 2 := by
    have : ((Real.sqrt 2 : ℝ) : ℂ) * (Real.sqrt 2 : ℝ) = 2 := by
      rw [← Complex.ofReal_mul, Real.mul_self_sqrt (by norm_num)]; norm_num
    show 1 / ((Real.sqrt 2 : ℝ) : ℂ) * (1 / (Real.sqrt 2 : ℝ)) = 1 / 2
    rw [div_mul_div_comm, this]; norm_num
  have hst : (starRingEnd ℂ) s = s := by
    show (starRingEnd ℂ) (1 / ((Real.sqrt 2 : ℝ) : ℂ)) = _
    rw [map_div₀, map_one, Complex.conj_ofReal]
  refine C99_estimate_partial (n := 2) (m := 1) (cols := twoCols) ⟨rfl, ?_, ?_⟩ twoCols_herm ?_ 0 2 (Matrix.of fun _ _ => s) (fun _ => 1) ?_ ?_ fun _ => ⟨by norm_num, by norm_num⟩
  · intro c hc
    simp only [twoCols, List.mem_cons, List.not_mem_nil, or_false] at hc
    rcases hc with rfl | rfl <;> simp
  · intro c hc e he
    simp only [twoCols, List.mem_cons, List.not_mem_nil, or_false] at hc
    rcases hc with rfl | rfl <;>
    · simp only [List.mem_cons, List.not_mem_nil, or_false] at he
      subst he; simp
  · intro k c hc
    have hm := List.mem_of_getElem? hc
    simp only [twoCols, List.mem_cons, List.not_mem_nil, or_false] at hm
    have : c.length ≤ 1 := by rcases hm with rfl | rfl <;> simp
    exact (List.length_filter_le _ _).trans this
  · ext i j
    rw [Matrix.mul_apply, Fin.sum_univ_two]
    simp only [Matrix.conjTranspose_apply, RCLike.star_def, Matrix.of_apply]
    rw [hst, hs, Subsingleton.elim i j, Matrix.one_apply_eq]
    norm_num
  · rw [twoCols_mat]
    ext i j
    rw [Matrix.mul_apply, Fin.sum_univ_two, Matrix.mul_diagonal]
    fin_cases i <;> simp

/-! ## The two other deviations -/

/-- **C99 fails (diagonal Hamiltonian).** A Hamiltonian that is diagonal already is returned as it is: the state of energy 5 stays although the window is from 0 to 1. Adding any
coupling would remove it. -/
theorem C99_diagonal_fails {r : ℕ} (feast : SpArr → ℝ → ℝ → ℕ → Option (FeastRes 1)) (V : Matrix (Fin r) (Fin 1) ℂ) :
    diagonalizeWindow feast V [[(0, 5)]] 0 1 = .same ∧ colsMat 1 [[(0, 5)]] 0 0 = 5 := by
  classical
  constructor
  · unfold diagonalizeWindow
    rw [if_pos]
    intro k c hc e he _
    have hk : k = 0 := by
      have : k < 1 := by
        by_contra h
        rw [List.getElem?_eq_none (by simp only [List.length_cons, List.length_nil]; omega)] at hc
        cases hc
      omega
    subst hk
    simp only [List.getElem?_cons_zero, Option.some.injEq] at hc
    subst hc
    simp only [List.mem_cons, List.not_mem_nil, or_false] at he
    subst he
    rfl
  · simp [colsMat, colsEntry]

theorem mapM_eq_none {α β : Type} {f : α → Option β} {L : List α} {p : α} (hp : p ∈ L) (hf : f p = none) : L.mapM f = none := by
  induction L with
  | nil => cases hp
  | cons a L ih =>
    rw [List.mapM_cons]
    rcases List.mem_cons.1 hp with h | h
    · rw [← h, hf]; rfl
    · rw [ih h]
      cases f a <;> rfl

theorem exists_last_col (T : SpCols) (h : T.flatten ≠ []) :
    ∃ k c, T[k]? = some c ∧ c ≠ [] ∧ (T.take k).flatten.length + c.length = T.flatten.length := by
  classical
  have hex : ∃ k, (T.take (k + 1)).flatten.length = T.flatten.length := ⟨T.length, by rw [List.take_of_length_le (by omega)]⟩
  have hk := Nat.find_spec hex
  set k := Nat.find hex with hkdef
  have hlt : (T.take k).flatten.length ≠ T.flatten.length := by
    cases hk0 : k with
    | zero =>
      intro h'
      have : T.flatten.length = 0 := by rw [← h']; rfl
      exact h (List.length_eq_zero_iff.1 this)
    | succ k' => exact Nat.find_min hex (m := k') (by omega)
  have hin : k < T.length := by
    by_contra hge
    apply hlt
    rw [List.take_of_length_le (by omega)]
  have hc : T[k]? = some T[k] := List.getElem?_eq_getElem hin
  rw [take_succ_flatten T k _ hc] at hk
  refine ⟨k, T[k], hc, ?_, hk⟩
  intro hnil
  rw [hnil] at hk
  exact hlt (by simpa using hk)

/-- **C99 fails (failure).** If FEAST reports a failure, the call throws and leaves the Hamiltonian in one-based arrays: for every Hamiltonian that is not diagonal, iterating
over it reads beyond the arrays (every other method that uses the Hamiltonian does, a second `diagonalize` included). -/
theorem C99_failure_fails {r n : ℕ} {feast : SpArr → ℝ → ℝ → ℕ → Option (FeastRes n)} (V : Matrix (Fin r) (Fin n) ℂ) {cols : SpCols} (hw : ColsWF n cols) (a b : ℝ)
    (hnd : ¬ colsDiagonal cols) (hf : feast (feastArrays n cols) a b (feastM0 a b cols) = none) :
    ∃ H, diagonalizeWindow feast V cols a b = .failed H ∧ ∃ k < n, H.col? k = none := by
  classical
  refine ⟨feastArrays n cols, ?_, ?_⟩
  · unfold diagonalizeWindow
    rw [if_neg hnd]
    dsimp only
    rw [hf]
  · have hne : (transposeCols n cols).flatten ≠ [] := by
      unfold colsDiagonal at hnd
      push Not at hnd
      obtain ⟨k, c, hc, e, he, -, -⟩ := hnd
      have hr := hw.rows c (List.mem_of_getElem? hc) e he
      apply List.ne_nil_of_mem (a := (k, e.2))
      rw [List.mem_flatten]
      refine ⟨_, List.mem_map.2 ⟨e.1, List.mem_range.2 hr, rfl⟩, ?_⟩
      rw [List.mem_flatMap]
      refine ⟨(c, k), ?_, List.mem_map.2 ⟨e, by simp [he], rfl⟩⟩
      rw [List.mem_zipIdx_iff_getElem?]
      exact hc
    obtain ⟨k, c, hc, hcne, hlen⟩ := exists_last_col _ hne
    have hk : k < (transposeCols n cols).length := by
      by_contra h
      rw [List.getElem?_eq_none (by omega)] at hc
      cases hc
    refine ⟨k, by simpa [transposeCols] using hk, ?_⟩
    unfold feastArrays SpArr.shift compress SpArr.col?
    dsimp only
    rw [List.getElem?_map, List.getElem?_map, offsets_get _ _ k hk.le, offsets_get _ _ (k + 1) hk, take_succ_flatten _ k c hc, hlen]
    simp only [Option.map_some]
    have hmem : (transposeCols n cols).flatten.length ∈ List.range' (0 + (List.take k (transposeCols n cols)).flatten.length + 1)
        (0 + (transposeCols n cols).flatten.length + 1 - (0 + (List.take k (transposeCols n cols)).flatten.length + 1)) := by
      rw [List.mem_range'_1]
      have : 0 < c.length := List.length_pos_iff.2 hcne
      omega
    refine mapM_eq_none hmem ?_
    rw [List.getElem?_map, List.getElem?_map, List.getElem?_eq_none (by simp)]
    rfl

/-- The hypotheses are met: two coupled states. -/
example : ∃ H, diagonalizeWindow (fun _ _ _ _ => none) (1 : Matrix (Fin 2) (Fin 2) ℂ) twoCols 0 2 = .failed H ∧ ∃ k < 2, H.col? k = none := by
  refine C99_failure_fails (n := 2) (1 : Matrix (Fin 2) (Fin 2) ℂ) (cols := twoCols) ⟨rfl, ?_, ?_⟩ 0 2 twoCols_not_diagonal rfl
  · intro c hc
    simp only [twoCols, List.mem_cons, List.not_mem_nil, or_false] at hc
    rcases hc with rfl | rfl <;> simp
  · intro c hc e he
    simp only [twoCols, List.mem_cons, List.not_mem_nil, or_false] at hc
    rcases hc with rfl | rfl <;>
    · simp only [List.mem_cons, List.not_mem_nil, or_false] at he
      subst he; simp

/-- What a successful call of FEAST has to return. -/
def FeastGood {n : ℕ} (M : Matrix (Fin n) (Fin n) ℂ) (a b : ℝ) (m0 : ℕ) (res : FeastRes n) : Prop :=
  res.Xᴴ * res.X = 1 ∧ (M * res.X = res.X * Matrix.diagonal fun i => (res.e i : ℂ)) ∧ (∀ k, a ≤ res.e k ∧ res.e k ≤ b) ∧ res.m ≤ m0 ∧
    ∀ (w : Fin n → ℂ) (x : ℝ), M *ᵥ w = (x : ℂ) • w → a < x → x < b → ∃ c, w = res.X *ᵥ c

/-- A FEAST that succeeds whenever it can. -/
noncomputable def idealFeast (n : ℕ) (A : SpArr) (a b : ℝ) (m0 : ℕ) : Option (FeastRes n) :=
  open Classical in
  if h : ∃ res, FeastGood (Matrix.of fun i j : Fin n => csrEntry A i j) a b m0 res then some h.choose else none

theorem idealFeast_sound (n : ℕ) : FeastSound (idealFeast n) := by
  intro A M a b m0 res hA _ h
  have hM : (Matrix.of fun i j : Fin n => csrEntry A i j) = M := by ext i j; exact hA i j
  unfold idealFeast at h
  split at h
  next hex =>
    injection h with h
    subst h
    have := hex.choose_spec
    generalize hex.choose = q at this
    unfold FeastGood at this
    rw [hM] at this
    exact this
  next => cases h

/-- The hypotheses of `C99_window_partial` are met: two coupled states, the new basis has at least one vector. -/
example : ∃ m V' H', diagonalizeWindow (idealFeast 2) (1 : Matrix (Fin 2) (Fin 2) ℂ) twoCols 0 2 = .done m V' H' ∧ 0 < m := by
  classical
  let s : ℂ := 1 / (Real.sqrt 2 : ℝ)
  have hs : s * s = 1 / 2 := by
    have : ((Real.sqrt 2 : ℝ) : ℂ) * (Real.sqrt 2 : ℝ) = 2 := by
      rw [← Complex.ofReal_mul, Real.mul_self_sqrt (by norm_num)]; norm_num
    show 1 / ((Real.sqrt 2 : ℝ) : ℂ) * (1 / (Real.sqrt 2 : ℝ)) = 1 / 2
    rw [div_mul_div_comm, this]; norm_num
  have hs0 : s ≠ 0 := by intro h; rw [h] at hs; norm_num at hs
  have hst : (starRingEnd ℂ) s = s := by
    show (starRingEnd ℂ) (1 / ((Real.sqrt 2 : ℝ) : ℂ)) = _
    rw [map_div₀, map_one, Complex.conj_ofReal]
  have hm0 : 1 ≤ feastM0 0 2 twoCols := by
    unfold feastM0 twoCols diagVal diagMax
    simp
    norm_num
  have hM : (Matrix.of fun i j : Fin 2 => csrEntry (feastArrays 2 twoCols) i j) = !![0, 1; 1, 0] := by
    rw [← twoCols_mat]; ext i j; exact C99_input 2 twoCols i j i.2
  have hex : ∃ res, FeastGood (Matrix.of fun i j : Fin 2 => csrEntry (feastArrays 2 twoCols) i j) 0 2 (feastM0 0 2 twoCols) res := by
    rw [hM]
    refine ⟨⟨1, fun _ => 1, Matrix.of fun _ _ => s⟩, ?_, ?_, fun _ => ⟨by norm_num, by norm_num⟩, hm0, ?_⟩
    · ext i j
      rw [Matrix.mul_apply, Fin.sum_univ_two]
      simp only [Matrix.conjTranspose_apply, RCLike.star_def, Matrix.of_apply]
      rw [hst, hs, Subsingleton.elim i j, Matrix.one_apply_eq]
      norm_num
    · ext i j
      rw [Matrix.mul_apply, Fin.sum_univ_two, Matrix.mul_diagonal]
      fin_cases i <;> simp
    · intro w x hw h0 h2
      have e0 := congrFun hw 0
      have e1 := congrFun hw 1
      simp [Matrix.mulVec, dotProduct, Fin.sum_univ_two] at e0 e1
      -- w 1 = x * w 0, w 0 = x * w 1
      refine ⟨fun _ => w 0 / s, ?_⟩
      have h01 : w 0 = w 1 := by
        by_cases hz : w 0 = 0
        · rw [e0, hz, mul_zero]
        · have hxx : ((x : ℂ) * x) = 1 := by
            have : w 0 = x * (x * w 0) := by rw [← e0]; exact e1
            apply mul_right_cancel₀ hz
            rw [mul_assoc, ← this, one_mul]
          have hx1 : x = 1 := by
            have : x * x = 1 := by exact_mod_cast hxx
            nlinarith
          rw [e0, hx1]; simp
      ext i
      rw [Matrix.mulVec, dotProduct]
      fin_cases i
      · simp [mul_div_cancel₀ _ hs0]
      · simp [mul_div_cancel₀ _ hs0, h01]
  have hsome : idealFeast 2 (feastArrays 2 twoCols) 0 2 (feastM0 0 2 twoCols) = some hex.choose := by
    unfold idealFeast; rw [dif_pos hex]
  have hd : diagonalizeWindow (idealFeast 2) (1 : Matrix (Fin 2) (Fin 2) ℂ) twoCols 0 2 =
      WinOut.done (r := 2) (n := 2) hex.choose.m ((1 : Matrix (Fin 2) (Fin 2) ℂ) * hex.choose.X) (Matrix.diagonal fun i => (hex.choose.e i : ℂ)) := by
    unfold diagonalizeWindow
    rw [if_neg twoCols_not_diagonal]
    dsimp only
    rw [hsome]
  refine ⟨_, _, _, hd, ?_⟩
  by_contra hm
  have hm0' : hex.choose.m = 0 := by omega
  obtain ⟨c, hc⟩ := hex.choose_spec.2.2.2.2 (fun _ => 1) 1 (by
    rw [hM]; ext i; fin_cases i <;> simp [Matrix.mulVec, dotProduct, Fin.sum_univ_two]) (by norm_num) (by norm_num)
  have := congrFun hc 0
  rw [Matrix.mulVec, dotProduct] at this
  have hempty : IsEmpty (Fin hex.choose.m) := by rw [hm0']; infer_instance
  rw [Finset.univ_eq_empty, Finset.sum_empty] at this
  exact one_ne_zero this

end PI
