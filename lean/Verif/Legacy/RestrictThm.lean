import Verif.Legacy.RestrictBlock
import Mathlib.Tactic.NormNum
import Mathlib.Tactic.FieldSimp

/-!
# C97: which states stay, and what goes wrong
-/

namespace PI

open Matrix

/-- **C97, separate atoms.** With one initial state for each atom: for all states and Hamiltonians of the scans, the states of each atom that stay are, in their order, the
ones that differ from its initial state by at most the given amounts. They are numbered by their rows, all Hamiltonians of the scan keep the rows of these
states and nothing else changes, and nothing is read outside of the vectors. -/
theorem C97_restricted (d : Deltas) (s1 s2 : Old1) (L1 L2 : List Old1) (mats1 : List (OldOne L1.length)) (mats2 : List (OldOne L2.length)) :
    ∃ (m1 m2 : ℕ) (e1 : Fin m1 → Fin L1.length) (e2 : Fin m2 → Fin L2.length), StrictMono e1 ∧ StrictMono e2 ∧
      (∀ i, i ∈ Set.range e1 ↔ NearInitial d [s1] (L1.get i)) ∧ (∀ i, i ∈ Set.range e2 ↔ NearInitial d [s2] (L2.get i)) ∧
      oldRestrictBoth d false [s1] [s2] ⟨number 0 L1, L1.length, mats1⟩ ⟨number 0 L2, L2.length, mats2⟩ =
        .ok (⟨number 0 (List.ofFn fun r => L1.get (e1 r)), m1, mats1.map fun A => A.sub e1⟩, ⟨number 0 (List.ofFn fun r => L2.get (e2 r)), m2, mats2.map fun A => A.sub e2⟩) := by
  have key : ∀ (s : Old1) (L : List Old1) (mats : List (OldOne L.length)), ∃ (m : ℕ) (e : Fin m → Fin L.length), StrictMono e ∧
      (∀ i, i ∈ Set.range e ↔ NearInitial d [s] (L.get i)) ∧
      OldAtom.restrict d [s] ⟨number 0 L, L.length, mats⟩ = .ok ⟨number 0 (List.ofFn fun r => L.get (e r)), m, mats.map fun A => A.sub e⟩ := by
    intro s L mats
    obtain ⟨m, e, he, hm, hmem, hr, hg⟩ := C97_states d [s] L mats
    refine ⟨m, e, he, fun i => (hmem i).trans nearSeparately_single, ?_⟩
    rw [hr]
    congr 2
    congr 1
    refine List.ext_getElem? fun i => ?_
    by_cases hi : i < m
    · rw [hg ⟨i, hi⟩]; simp [hi]
    · rw [List.getElem?_eq_none (by omega), List.getElem?_eq_none (by simp; omega)]
  obtain ⟨m1, e1, a1, b1, r1⟩ := key s1 L1 mats1
  obtain ⟨m2, e2, a2, b2, r2⟩ := key s2 L2 mats2
  refine ⟨m1, m2, e1, e2, a1, a2, b1, b2, ?_⟩
  unfold oldRestrictBoth
  rw [r1, Out.ok_bind, if_neg (by simp), r2]
  rfl

/-- **C97, a common basis.** With the initial states of both atoms in one basis: both atoms keep the same states, all the states that are close to the initial state of an atom
stay, and a state stays only if each of its quantum numbers is close to the one of an initial state. -/
theorem C97_common_partial (d : Deltas) (init init' : List Old1) (L : List Old1) (mats : List (OldOne L.length)) (b : OldAtom) :
    ∃ (m : ℕ) (e : Fin m → Fin L.length) (names : List (Named Old1)), StrictMono e ∧ (∀ i, NearInitial d init (L.get i) → i ∈ Set.range e) ∧
      (∀ i, i ∈ Set.range e ↔ NearSeparately d init (L.get i)) ∧ (∀ r : Fin m, names[(r : ℕ)]? = some ((r : ℕ), L.get (e r))) ∧ names.length = m ∧
      oldRestrictBoth d true init init' ⟨number 0 L, L.length, mats⟩ b = .ok (⟨names, m, mats.map fun A => A.sub e⟩, ⟨names, m, mats.map fun A => A.sub e⟩) := by
  obtain ⟨m, e, he, hm, hmem, hr, hg⟩ := C97_states d init L mats
  refine ⟨m, e, number 0 (L.filter fun x => decide (NearSeparately d init x)), he, fun i hi => (hmem i).2 (nearSeparately_of_near hi), hmem, ?_, ?_, ?_⟩
  rotate_left 2
  · unfold oldRestrictBoth
    rw [hr, Out.ok_bind, if_pos rfl]
    rfl
  · intro r
    rw [number_getElem?, hg r]
    simp
  · rw [number_length, ← hm]

/-- C97, a common basis: a state can stay although it is close to neither initial state. -/
theorem C97_common_fails : ∃ (d : Deltas) (s1 s2 x : Old1), ¬ NearInitial d [s1, s2] x ∧
    ∀ b, ∃ a, oldRestrictBoth d true [s1, s2] [s1, s2] ⟨number 0 [s1, s2, x], 3, []⟩ b = .ok (a, a) ∧ (2, x) ∈ a.names := by
  refine ⟨⟨0, 0, -1, -1⟩, ⟨70, 0, 1, 1⟩, ⟨75, 1, 1, 1⟩, ⟨70, 1, 1, 1⟩, by decide, fun b => ?_⟩
  obtain ⟨m, e, names, he, h1, h2, h3, h4, h5⟩ := C97_common_partial ⟨0, 0, -1, -1⟩ [⟨70, 0, 1, 1⟩, ⟨75, 1, 1, 1⟩] [⟨70, 0, 1, 1⟩, ⟨75, 1, 1, 1⟩]
    [⟨70, 0, 1, 1⟩, ⟨75, 1, 1, 1⟩, ⟨70, 1, 1, 1⟩] [] b
  refine ⟨_, h5, ?_⟩
  have hall : ∀ i, i ∈ Set.range e := fun i => (h2 i).2 (by revert i; decide)
  have hm : m = 3 := by
    have := Fintype.card_of_bijective ⟨he.injective, hall⟩
    simpa using this
  subst hm
  have h22 : e 2 = 2 := by
    have := he (show (0 : Fin 3) < 1 by decide)
    have := he (show (1 : Fin 3) < 2 by decide)
    have h2lt := (e 2).isLt
    simp only [List.length_cons, List.length_nil] at h2lt
    apply Fin.ext
    show (e 2 : ℕ) = 2
    omega
  have := h3 2
  rw [h22] at this
  exact List.mem_of_getElem? this

theorem hadamard_eigen (q : ℂ) (hc : (starRingEnd ℂ) q = q) (hs : q * q = 1 / 2) :
    (!![q, q; q, -q] : Matrix (Fin 2) (Fin 2) ℂ)ᴴ * !![q, q; q, -q] = 1 ∧ (!![q, q; q, -q] : Matrix (Fin 2) (Fin 2) ℂ) * !![q, q; q, -q]ᴴ = 1 ∧
      (!![0, 1; 1, 0] : Matrix (Fin 2) (Fin 2) ℂ) * !![q, q; q, -q] = !![q, q; q, -q] * diagonal fun c => (((![1, -1] : Fin 2 → ℝ) c : ℝ) : ℂ) := by
  refine ⟨?_, ?_, ?_⟩
  · ext i j
    fin_cases i <;> fin_cases j <;> simp [mul_apply, Fin.sum_univ_two, conjTranspose_apply, hc, hs] <;> norm_num
  · ext i j
    fin_cases i <;> fin_cases j <;> simp [mul_apply, Fin.sum_univ_two, conjTranspose_apply, hc, hs] <;> norm_num
  · ext i j
    fin_cases i <;> fin_cases j <;> simp [mul_apply, Fin.sum_univ_two]

/-- C97: if an eigenvector mixes states that stay with states that go, the block can have more vectors than there are pair states. Two states mixed by a field, of which one stays,
and a second atom with one state: one pair state, but a matrix with two rows is diagonalised. -/
theorem C97_mixed_fails : ∃ (H : Matrix (Fin 2) (Fin 2) ℂ) (A : OldOne 2) (d : Deltas) (s t : Old1) (A' B : OldOne 1), H.IsHermitian ∧ Diagonalises H A ∧
    OldAtom.restrict d [s] ⟨number 0 [s, t], 2, [A]⟩ = .ok ⟨number 0 [s], 1, [A']⟩ ∧ Diagonalises 0 B ∧
    ∀ (U : Units) (c1 c2 : Cells) (nec : Fin (1 * 1) → Bool) (exponent : ℤ) (R : ℝ),
      ∃ M : Matrix (Fin 2) (Fin 2) ℂ, oldBlock U c1 c2 ⟨none, none, none, none⟩ (fun _ => s) (fun _ => s) A' B (-1) nec exponent R = .ok ⟨2, M⟩ := by
  classical
  have hs : ((1 / Real.sqrt 2 : ℝ) : ℂ) * ((1 / Real.sqrt 2 : ℝ) : ℂ) = 1 / 2 := by
    rw [← Complex.ofReal_mul, div_mul_div_comm, Real.mul_self_sqrt (by norm_num)]
    norm_num
  set q : ℂ := ((1 / Real.sqrt 2 : ℝ) : ℂ) with hq
  have hcq : (starRingEnd ℂ) q = q := by rw [hq]; exact Complex.conj_ofReal _
  let A : OldOne 2 := ⟨2, !![q, q; q, -q], ![1, -1]⟩
  let H : Matrix (Fin 2) (Fin 2) ℂ := !![0, 1; 1, 0]
  let B : OldOne 1 := ⟨1, 1, fun _ => 0⟩
  obtain ⟨m, e, he, hm, hmem, hr, hg⟩ := C97_states ⟨-1, 0, -1, -1⟩ [⟨70, 0, 1, 1⟩] [⟨70, 0, 1, 1⟩, ⟨70, 1, 1, 1⟩] [A]
  have hm1 : m = 1 := by rw [hm]; decide
  subst hm1
  have he0 : e 0 = 0 := by
    have h := hg 0
    rw [show ([⟨70, 0, 1, 1⟩, ⟨70, 1, 1, 1⟩] : List Old1).filter (fun x => decide (NearSeparately ⟨-1, 0, -1, -1⟩ [⟨70, 0, 1, 1⟩] x)) = [⟨70, 0, 1, 1⟩] by decide] at h
    revert h
    generalize e 0 = i
    revert i
    decide
  have e0 : ∀ r, e r = 0 := fun r => by rw [Subsingleton.elim r 0]; exact he0
  refine ⟨H, A, ⟨-1, 0, -1, -1⟩, ⟨70, 0, 1, 1⟩, ⟨70, 1, 1, 1⟩, ⟨2, fun _ _ => q, ![1, -1]⟩, B, ?_, hadamard_eigen q hcq hs, ?_, ?_, ?_⟩
  · ext i j; fin_cases i <;> fin_cases j <;> simp [H]
  · refine hr.trans ?_
    have h1 : ([⟨70, 0, 1, 1⟩, ⟨70, 1, 1, 1⟩] : List Old1).filter (fun x => decide (NearSeparately ⟨-1, 0, -1, -1⟩ [⟨70, 0, 1, 1⟩] x)) = [⟨70, 0, 1, 1⟩] := by decide
    rw [h1]
    have h2 : (⟨A.nb, fun r c => A.basis (e r) c, A.diag⟩ : OldOne 1) = ⟨2, fun _ _ => q, ![1, -1]⟩ := by
      have : (fun (r : Fin 1) (c : Fin 2) => A.basis (e r) c) = fun _ _ => q := by
        funext r c
        rw [e0 r]
        fin_cases c <;> rfl
      show (⟨2, fun r c => A.basis (e r) c, ![1, -1]⟩ : OldOne 1) = _
      rw [this]
    simp only [List.map_cons, List.map_nil, h2]
  · refine ⟨by simp [B], by simp [B], ?_⟩
    ext i j; simp [B]
  · intro U c1 c2 nec exponent R
    unfold oldBlock
    have hq0 : q ≠ 0 := by
      intro h; rw [h] at hs; norm_num at hs
    have hc := combine_two none (fun _ : Fin 1 => (⟨70, 0, 1, 1⟩ : Old1)) (fun _ : Fin 1 => (⟨70, 0, 1, 1⟩ : Old1)) (⟨2, fun _ _ => q, ![1, -1]⟩ : OldOne 1) B (-1)
      (fun _ => 0) (fun _ => 0) (by intro h; exact absurd rfl h) (by intro h; exact absurd rfl h) (fun c => ⟨0, hq0⟩) (fun c => ⟨0, by simp [B]; rw [Subsingleton.elim c 0]; simp⟩)
    rw [hc, Out.ok_bind]
    suffices hl : (oldPrune ((pairsTwo none (⟨2, fun _ _ => q, ![1, -1]⟩ : OldOne 1) B (-1) (fun _ => 0) (fun _ => 0)).map fun p =>
        (((![1, -1] : Fin 2 → ℝ) p.1 + B.diag p.2), kronCol (⟨2, fun _ _ => q, ![1, -1]⟩ : OldOne 1) B p))).length = 2 by
      have gen : ∀ (k : ℕ) (X : Matrix (Fin k) (Fin k) ℂ), k = 2 → ∃ M : Matrix (Fin 2) (Fin 2) ℂ, (Out.ok (⟨k, X⟩ : Σ k, Matrix (Fin k) (Fin k) ℂ)) = .ok ⟨2, M⟩ := by
        rintro k X rfl; exact ⟨X, rfl⟩
      exact gen _ _ hl
    unfold oldPrune
    rw [List.filter_eq_self.2, List.length_map]
    · unfold pairsTwo
      rw [List.filter_eq_self.2]
      · rfl
      · intro p _
        simp [keepsTwo, inCutoff]
    · intro c hc
      obtain ⟨p, _, rfl⟩ := List.mem_map.1 hc
      have hn : ∀ i, kronCol (⟨2, fun _ _ => q, ![1, -1]⟩ : OldOne 1) B p i = q := by
        intro i
        unfold kronCol
        rw [Subsingleton.elim p.2 0, Subsingleton.elim (finProdFinEquiv.symm i).2 0]
        simp [B]
      simp only [hn]
      have : ‖q‖ ^ 2 = 1 / 2 := by
        rw [sq, ← norm_mul, hs]; norm_num
      rw [this]
      norm_num

end PI
