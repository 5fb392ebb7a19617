import Verif.Legacy.Combine
import Verif.Legacy.Two

/-!
# Legacy pair Hamiltonian: the blocks and their spectra (C88, C89, C90)
-/

namespace PI

open Matrix

/-! ## Two different atoms -/

/-- The pairs of basis vectors of a block without symmetries of the exchange: the energy is within the cutoff, the total momentum is the one of the block. -/
def keepsTwo (M : Option ℤ) {n1 n2 : ℕ} (A : OldOne n1) (B : OldOne n2) (deltaE : ℝ) (mu1 : Fin A.nb → ℤ) (mu2 : Fin B.nb → ℤ) (p : Fin A.nb × Fin B.nb) : Prop :=
  inCutoff deltaE (A.diag p.1 + B.diag p.2) ∧ ∀ m, M = some m → mu1 p.1 + mu2 p.2 = 2 * m

/-- The basis vectors have definite momenta if the block has a total momentum. -/
def DefiniteM (M : Option ℤ) {n : ℕ} (s : Fin n → Old1) (A : OldOne n) (mu : Fin A.nb → ℤ) : Prop := M ≠ none → ∀ r c, A.basis r c ≠ 0 → (s r).m = mu c

theorem cell_two (M : Option ℤ) (x : Old1 × Old1) (mp : ℕ → Option ℕ) (neq : Prop) (row rowS : ℕ) (v : ℂ) :
    open Classical in
    combineCell ⟨none, none, none, M⟩ x mp neq row rowS v = if ∀ m, M = some m → x.1.m + x.2.m = 2 * m then [(some row, v)] else [] := by
  classical
  rw [combineCell_plain _ rfl]
  unfold plainCell
  rcases M with _ | m
  · simp
  · simp [eq_comm]

theorem triplets_two (M : Option ℤ) {n1 n2 : ℕ} (s1 : Fin n1 → Old1) (s2 : Fin n2 → Old1) (mp : ℕ → Option ℕ) (A : OldOne n1) (B : OldOne n2)
    (mu1 : Fin A.nb → ℤ) (mu2 : Fin B.nb → ℤ) (h1 : DefiniteM M s1 A mu1) (h2 : DefiniteM M s2 B mu2) (zA : ∀ c, ∃ r, A.basis r c ≠ 0) (zB : ∀ c, ∃ r, B.basis r c ≠ 0)
    (p : Fin A.nb × Fin B.nb) :
    (combineTriplets ⟨none, none, none, M⟩ s1 s2 mp A B p ≠ [] ↔ ∀ m, M = some m → mu1 p.1 + mu2 p.2 = 2 * m) ∧
    (∀ t ∈ combineTriplets ⟨none, none, none, M⟩ s1 s2 mp A B p, ∃ i < n1 * n2, t.1 = some i) ∧
    ((∀ m, M = some m → mu1 p.1 + mu2 p.2 = 2 * m) → ∀ i : Fin (n1 * n2), tripletSum (combineTriplets ⟨none, none, none, M⟩ s1 s2 mp A B p) i = kronCol A B p i) := by
  classical
  have cell : ∀ r1 r2, A.basis r1 p.1 ≠ 0 → B.basis r2 p.2 ≠ 0 → ∀ row rowS v, combineCell ⟨none, none, none, M⟩ (s1 r1, s2 r2) mp ((p.1 : ℕ) ≠ p.2) row rowS v =
      if ∀ m, M = some m → mu1 p.1 + mu2 p.2 = 2 * m then [(some row, v)] else [] := by
    intro r1 r2 a1 a2 row rowS v
    rw [cell_two]
    have : (∀ m, M = some m → (s1 r1).m + (s2 r2).m = 2 * m) ↔ ∀ m, M = some m → mu1 p.1 + mu2 p.2 = 2 * m := by
      refine forall_congr' fun m => ?_
      refine imp_congr_right fun hm => ?_
      have hM : M ≠ none := by rw [hm]; simp
      rw [h1 hM r1 p.1 a1, h2 hM r2 p.2 a2]
    by_cases h : ∀ m, M = some m → mu1 p.1 + mu2 p.2 = 2 * m
    · rw [if_pos (this.mpr h), if_pos h]
    · rw [if_neg (fun h' => h (this.mp h')), if_neg h]
  unfold combineTriplets
  refine ⟨?_, ?_, ?_⟩
  · rw [Ne, List.flatMap_eq_nil_iff]
    push Not
    constructor
    · rintro ⟨r, hr1, hr2⟩
      rw [List.mem_product] at hr1
      simp only [List.mem_filter, List.mem_finRange, true_and, decide_eq_true_eq] at hr1
      rw [cell r.1 r.2 hr1.1 hr1.2] at hr2
      by_contra h
      rw [if_neg h] at hr2
      exact hr2 rfl
    · intro h
      obtain ⟨r1, a1⟩ := zA p.1
      obtain ⟨r2, a2⟩ := zB p.2
      refine ⟨(r1, r2), ?_, ?_⟩
      · rw [List.mem_product]
        simp [a1, a2]
      · rw [cell r1 r2 a1 a2, if_pos h]
        simp
  · intro t ht
    rw [List.mem_flatMap] at ht
    obtain ⟨r, hr1, ht⟩ := ht
    rw [List.mem_product] at hr1
    simp only [List.mem_filter, List.mem_finRange, true_and, decide_eq_true_eq] at hr1
    rw [cell r.1 r.2 hr1.1 hr1.2, row_eq] at ht
    split_ifs at ht
    · simp only [List.mem_cons, List.not_mem_nil, or_false] at ht
      subst ht
      exact ⟨_, Fin.is_lt _, rfl⟩
    · simp at ht
  · intro h i
    rw [tripletSum_flatMap, sum_product]
    simp only [decide_eq_true_eq]
    set a := (finProdFinEquiv.symm i : Fin n1 × Fin n2).1 with ha
    set b := (finProdFinEquiv.symm i : Fin n1 × Fin n2).2 with hb
    have hab : ((a, b) : Fin n1 × Fin n2) = finProdFinEquiv.symm i := rfl
    have c1 : ∀ (r1 : Fin n1) (r2 : Fin n2), n2 * (r1 : ℕ) + r2 = (i : ℕ) ↔ r1 = a ∧ r2 = b := by
      intro r1 r2
      rw [row_inj, ← hab, Prod.mk.injEq]
    have : ∀ (r1 : Fin n1) (r2 : Fin n2), (if A.basis r1 p.1 ≠ 0 ∧ B.basis r2 p.2 ≠ 0 then
        tripletSum (combineCell ⟨none, none, none, M⟩ (s1 r1, s2 r2) mp ((p.1 : ℕ) ≠ p.2) (n2 * r1 + r2) (n2 * r2 + r1) (A.basis r1 p.1 * B.basis r2 p.2)) i else 0) =
        (if r1 = a then (if r2 = b then A.basis r1 p.1 * B.basis r2 p.2 else 0) else 0) := by
      intro r1 r2
      by_cases hz' : A.basis r1 p.1 ≠ 0 ∧ B.basis r2 p.2 ≠ 0
      · rw [if_pos hz', cell r1 r2 hz'.1 hz'.2, if_pos h, tripletSum_cons, tripletSum_nil, add_zero]
        rw [← ite_and]
        simp only [c1]
      · rw [if_neg hz']
        have : A.basis r1 p.1 * B.basis r2 p.2 = 0 := by
          rw [mul_eq_zero]; by_contra hc; push Not at hc; exact hz' hc
        simp [this]
    simp only [this, Finset.sum_ite_eq', Finset.mem_univ, if_true, Finset.sum_const_zero, Finset.sum_ite_irrel]
    rfl

/-- The list of the pairs of a block. -/
noncomputable def pairsTwo (M : Option ℤ) {n1 n2 : ℕ} (A : OldOne n1) (B : OldOne n2) (deltaE : ℝ) (mu1 : Fin A.nb → ℤ) (mu2 : Fin B.nb → ℤ) : List (Fin A.nb × Fin B.nb) :=
  open Classical in (oldPairIdx A.nb B.nb).filter fun p => keepsTwo M A B deltaE mu1 mu2 p

theorem mem_pairsTwo (M : Option ℤ) {n1 n2 : ℕ} (A : OldOne n1) (B : OldOne n2) (deltaE : ℝ) (mu1 : Fin A.nb → ℤ) (mu2 : Fin B.nb → ℤ) (p : Fin A.nb × Fin B.nb) :
    p ∈ pairsTwo M A B deltaE mu1 mu2 ↔ keepsTwo M A B deltaE mu1 mu2 p := by
  classical
  unfold pairsTwo
  rw [List.mem_filter]
  simp [mem_oldPairIdx]

theorem pairsTwo_nodup (M : Option ℤ) {n1 n2 : ℕ} (A : OldOne n1) (B : OldOne n2) (deltaE : ℝ) (mu1 : Fin A.nb → ℤ) (mu2 : Fin B.nb → ℤ) :
    (pairsTwo M A B deltaE mu1 mu2).Nodup := (oldPairIdx_nodup _ _).filter _

theorem combine_two (M : Option ℤ) {n1 n2 : ℕ} (s1 : Fin n1 → Old1) (s2 : Fin n2 → Old1) (A : OldOne n1) (B : OldOne n2) (deltaE : ℝ)
    (mu1 : Fin A.nb → ℤ) (mu2 : Fin B.nb → ℤ) (h1 : DefiniteM M s1 A mu1) (h2 : DefiniteM M s2 B mu2) (zA : ∀ c, ∃ r, A.basis r c ≠ 0) (zB : ∀ c, ∃ r, B.basis r c ≠ 0) :
    oldCombine ⟨none, none, none, M⟩ s1 s2 A B deltaE = .ok ((pairsTwo M A B deltaE mu1 mu2).map fun p => (A.diag p.1 + B.diag p.2, kronCol A B p)) := by
  classical
  unfold oldCombine
  dsimp only
  set mp := oldMapping ⟨none, none, none, M⟩ (number 0 (List.ofFn (pairState s1 s2)))
  have sp := triplets_two M s1 s2 mp A B mu1 mu2 h1 h2 zA zB
  have ns : ∀ a b : ℕ, ¬ OldSym.skips ⟨none, none, none, M⟩ a b := by
    intro a b
    unfold OldSym.skips
    simp
  rw [if_pos]
  · congr 1
    rw [List.filter_map, List.filter_filter, List.map_map]
    have : (oldPairIdx A.nb B.nb).filter (fun p => ((fun c : ℝ × List (Option ℕ × ℂ) => decide (c.2 ≠ [])) ∘ fun p : Fin A.nb × Fin B.nb =>
        (A.diag p.1 + B.diag p.2, combineTriplets ⟨none, none, none, M⟩ s1 s2 mp A B p)) p &&
        decide (¬ OldSym.skips ⟨none, none, none, M⟩ p.1 p.2 ∧ inCutoff deltaE (A.diag p.1 + B.diag p.2))) = pairsTwo M A B deltaE mu1 mu2 := by
      unfold pairsTwo
      refine List.filter_congr fun p _ => ?_
      rw [Bool.eq_iff_iff]
      simp only [Function.comp, Bool.and_eq_true, decide_eq_true_eq]
      rw [(sp p).1]
      unfold keepsTwo
      simp only [ns, not_false_eq_true, true_and]
      exact and_comm
    rw [this]
    refine List.map_congr_left fun p hp => ?_
    rw [mem_pairsTwo] at hp
    simp only [Function.comp, Prod.mk.injEq, true_and]
    funext i
    exact (sp p).2.2 hp.2 i
  · intro c hc t ht
    rw [List.mem_filter, List.mem_map] at hc
    obtain ⟨⟨p, -, rfl⟩, -⟩ := hc
    exact (sp p).2.1 t ht

/-- Specification: the Hamiltonian of two atoms, H₁ ⊗ 1 + 1 ⊗ H₂ and the interaction. -/
def pairFull {n1 n2 : ℕ} (H1 : Matrix (Fin n1) (Fin n1) ℂ) (H2 : Matrix (Fin n2) (Fin n2) ℂ) (V : Matrix (Fin (n1 * n2)) (Fin (n1 * n2)) ℂ) :
    Matrix (Fin (n1 * n2)) (Fin (n1 * n2)) ℂ := fun i j =>
  H1 (finProdFinEquiv.symm i).1 (finProdFinEquiv.symm j).1 * (if (finProdFinEquiv.symm i).2 = (finProdFinEquiv.symm j).2 then 1 else 0) +
    (if (finProdFinEquiv.symm i).1 = (finProdFinEquiv.symm j).1 then 1 else 0) * H2 (finProdFinEquiv.symm i).2 (finProdFinEquiv.symm j).2 + V i j

theorem pairFull_kron {n1 n2 : ℕ} (H1 : Matrix (Fin n1) (Fin n1) ℂ) (H2 : Matrix (Fin n2) (Fin n2) ℂ) (V : Matrix (Fin (n1 * n2)) (Fin (n1 * n2)) ℂ)
    (A : OldOne n1) (B : OldOne n2) (eA : H1 * A.basis = A.basis * diagonal fun c => (A.diag c : ℂ)) (eB : H2 * B.basis = B.basis * diagonal fun c => (B.diag c : ℂ))
    (p : Fin A.nb × Fin B.nb) (i : Fin (n1 * n2)) :
    ∑ j, pairFull H1 H2 V i j * kronCol A B p j = ((A.diag p.1 + B.diag p.2 : ℝ) : ℂ) * kronCol A B p i + ∑ j, V i j * kronCol A B p j := by
  have e1 : ∀ r c, ∑ t, H1 r t * A.basis t c = A.basis r c * (A.diag c : ℂ) := by
    intro r c
    have := congrFun (congrFun eA r) c
    rwa [mul_apply, mul_diagonal] at this
  have e2 : ∀ r c, ∑ t, H2 r t * B.basis t c = B.basis r c * (B.diag c : ℂ) := by
    intro r c
    have := congrFun (congrFun eB r) c
    rwa [mul_apply, mul_diagonal] at this
  unfold pairFull
  simp only [add_mul, Finset.sum_add_distrib]
  congr 1
  rw [← finProdFinEquiv.sum_comp, ← finProdFinEquiv.sum_comp, Fintype.sum_prod_type, Fintype.sum_prod_type]
  unfold kronCol
  simp only [Equiv.symm_apply_apply]
  set a := (finProdFinEquiv.symm i : Fin n1 × Fin n2).1
  set b := (finProdFinEquiv.symm i : Fin n1 × Fin n2).2
  have l1 : ∀ x, ∑ y, H1 a x * (if b = y then 1 else 0) * (A.basis x p.1 * B.basis y p.2) = H1 a x * A.basis x p.1 * B.basis b p.2 := by
    intro x
    rw [Finset.sum_eq_single b (by intro y _ hy; rw [if_neg (Ne.symm hy)]; simp) (by simp)]
    simp; ring
  have l2 : ∑ x, ∑ y, (if a = x then 1 else 0) * H2 b y * (A.basis x p.1 * B.basis y p.2) = A.basis a p.1 * ∑ y, H2 b y * B.basis y p.2 := by
    rw [Finset.sum_eq_single a (by intro x _ hx; simp [if_neg (Ne.symm hx)]) (by simp), Finset.mul_sum]
    refine Finset.sum_congr rfl fun y _ => ?_
    simp; ring
  simp only [l1, l2, ← Finset.sum_mul, e1, e2]
  push_cast
  ring

/-- The elements of the total matrix between products of eigenvectors. -/
theorem kron_elem {n1 n2 : ℕ} (H1 : Matrix (Fin n1) (Fin n1) ℂ) (H2 : Matrix (Fin n2) (Fin n2) ℂ) (V : Matrix (Fin (n1 * n2)) (Fin (n1 * n2)) ℂ)
    (A : OldOne n1) (B : OldOne n2) (hA : A.basisᴴ * A.basis = 1) (hB : B.basisᴴ * B.basis = 1)
    (eA : H1 * A.basis = A.basis * diagonal fun c => (A.diag c : ℂ)) (eB : H2 * B.basis = B.basis * diagonal fun c => (B.diag c : ℂ)) (p q : Fin A.nb × Fin B.nb) :
    (if p = q then ((A.diag p.1 + B.diag p.2 : ℝ) : ℂ) else 0) + ∑ i, ∑ j, star (kronCol A B p i) * V i j * kronCol A B q j =
      ∑ i, ∑ j, star (kronCol A B p i) * pairFull H1 H2 V i j * kronCol A B q j := by
  have l : ∀ (W : Matrix (Fin (n1 * n2)) (Fin (n1 * n2)) ℂ) i, ∑ j, star (kronCol A B p i) * W i j * kronCol A B q j = star (kronCol A B p i) * ∑ j, W i j * kronCol A B q j := by
    intro W i
    rw [Finset.mul_sum]
    exact Finset.sum_congr rfl fun j _ => mul_assoc _ _ _
  simp only [l, pairFull_kron H1 H2 V A B eA eB, mul_add, Finset.sum_add_distrib]
  congr 1
  have : ∀ i, star (kronCol A B p i) * (((A.diag q.1 + B.diag q.2 : ℝ) : ℂ) * kronCol A B q i) = ((A.diag q.1 + B.diag q.2 : ℝ) : ℂ) * (star (kronCol A B p i) * kronCol A B q i) := by
    intro i; ring
  simp only [this, ← Finset.mul_sum, kron_orth A B hA hB]
  by_cases h : p = q
  · subst h; simp
  · simp [h]

theorem kron_norm {n1 n2 : ℕ} (A : OldOne n1) (B : OldOne n2) (hA : A.basisᴴ * A.basis = 1) (hB : B.basisᴴ * B.basis = 1) (p : Fin A.nb × Fin B.nb) :
    ∑ i, ‖kronCol A B p i‖ ^ 2 = 1 := by
  have c := kron_orth A B hA hB p p
  rw [if_pos rfl] at c
  have : ((∑ i, ‖kronCol A B p i‖ ^ 2 : ℝ) : ℂ) = 1 := by
    rw [← c]
    push_cast
    refine Finset.sum_congr rfl fun i _ => ?_
    rw [Complex.star_def, Complex.conj_mul']
  exact_mod_cast this

/-- What is diagonalised in a block without symmetries of the exchange. -/
theorem block_two (U : Units) (c1 c2 : Cells) (M : Option ℤ) {n1 n2 : ℕ} (s1 : Fin n1 → Old1) (s2 : Fin n2 → Old1) (A : OldOne n1) (B : OldOne n2)
    (hA : A.basisᴴ * A.basis = 1) (hB : B.basisᴴ * B.basis = 1) (deltaE : ℝ) (mu1 : Fin A.nb → ℤ) (mu2 : Fin B.nb → ℤ) (h1 : DefiniteM M s1 A mu1) (h2 : DefiniteM M s2 B mu2)
    (nec : Fin (n1 * n2) → Bool) (exponent : ℤ) (R : ℝ) (hn : ∀ p, keepsTwo M A B deltaE mu1 mu2 p → ∀ i, kronCol A B p i ≠ 0 → nec i = true) :
    oldBlock U c1 c2 ⟨none, none, none, M⟩ s1 s2 A B deltaE nec exponent R = .ok ⟨_, listMat (fun p q => (if p = q then ((A.diag p.1 + B.diag p.2 : ℝ) : ℂ) else 0) +
      ∑ i, ∑ j, star (kronCol A B p i) * oldInteraction U c1 c2 (fun _ => true) (pairState s1 s2) exponent R i j * kronCol A B q j) (pairsTwo M A B deltaE mu1 mu2)⟩ := by
  classical
  unfold oldBlock
  rw [combine_two M s1 s2 A B deltaE mu1 mu2 h1 h2 (orth_ne A hA) (orth_ne B hB)]
  refine (Out.ok_bind _ _).trans ?_
  have pr : oldPrune ((pairsTwo M A B deltaE mu1 mu2).map fun p => (A.diag p.1 + B.diag p.2, kronCol A B p)) =
      (pairsTwo M A B deltaE mu1 mu2).map fun p => (A.diag p.1 + B.diag p.2, kronCol A B p) := by
    unfold oldPrune
    rw [List.filter_eq_self]
    intro c hc
    rw [List.mem_map] at hc
    obtain ⟨p, hp, rfl⟩ := hc
    rw [decide_eq_true_eq]
    dsimp only
    rw [kron_norm A B hA hB p]
    norm_num
  rw [pr]
  congr 1
  exact total_of_cols U c1 c2 nec _ exponent R _ (pairsTwo_nodup M A B deltaE mu1 mu2) _ _ (fun p hp => hn p ((mem_pairsTwo ..).mp hp))

/-! ## The necessary states contain all vectors of the blocks -/

theorem cutoff_kron {n1 n2 : ℕ} (steps : List (OldOne n1 × OldOne n2)) (deltaE : ℝ) (A : OldOne n1) (B : OldOne n2) (hs : (A, B) ∈ steps) (p : Fin A.nb × Fin B.nb)
    (hc : inCutoff deltaE (A.diag p.1 + B.diag p.2)) (i : Fin (n1 * n2)) (hi : kronCol A B p i ≠ 0) : oldCutoff steps deltaE i = true := by
  classical
  unfold oldCutoff
  unfold kronCol at hi
  exact decide_eq_true ⟨(A, B), hs, p.1, p.2, hc, left_ne_zero_of_mul hi, right_ne_zero_of_mul hi⟩

theorem necessary_iff (c : OldSymConf) (syms : List OldSym) (init : Old1 × Old1) {N : ℕ} (b : Fin N → Old1 × Old1) (tmp : Fin N → Bool) (i : Fin N) :
    oldNecessary c syms init b tmp i = true ↔ tmp i = true ∧ ∃ sym ∈ syms, ¬ (sym.rotation ≠ none ∧ sym.rotation.map (2 * ·) ≠ some ((b i).1.m + (b i).2.m) ∧
        (sym.reflection = none ∨ sym.rotation.map (2 * ·) ≠ some (-((b i).1.m + (b i).2.m)))) ∧
      ¬ ((sym.inversion ≠ none ∧ sym.permutation ≠ none ∧ parityL (b i) ≠ parityL init) ∧ c.sametrafo = true) := by
  unfold oldNecessary
  rw [Bool.and_eq_true, List.any_eq_true]
  simp only [Bool.and_eq_true, Bool.not_eq_true', decide_eq_false_iff_not, Bool.and_eq_false_iff]
  refine and_congr_right fun _ => exists_congr fun sym => and_congr_right fun _ => and_congr_right fun _ => ?_
  rw [not_and_or (a := _ ∧ _), Bool.not_eq_true]

theorem necessary_two (c : OldSymConf) (syms : List OldSym) (init : Old1 × Old1) (M : Option ℤ) {n1 n2 : ℕ} (s1 : Fin n1 → Old1) (s2 : Fin n2 → Old1)
    (steps : List (OldOne n1 × OldOne n2)) (A : OldOne n1) (B : OldOne n2) (hs : (A, B) ∈ steps) (deltaE : ℝ) (mu1 : Fin A.nb → ℤ) (mu2 : Fin B.nb → ℤ)
    (h1 : DefiniteM M s1 A mu1) (h2 : DefiniteM M s2 B mu2) (hm : ⟨none, none, none, M⟩ ∈ syms) (p : Fin A.nb × Fin B.nb) (kp : keepsTwo M A B deltaE mu1 mu2 p)
    (i : Fin (n1 * n2)) (hi : kronCol A B p i ≠ 0) : oldNecessary c syms init (pairState s1 s2) (oldCutoff steps deltaE) i = true := by
  rw [necessary_iff]
  refine ⟨cutoff_kron steps deltaE A B hs p kp.1 i hi, _, hm, ?_, by simp⟩
  rintro ⟨hM, hne, -⟩
  unfold kronCol at hi
  have e1 := h1 hM _ _ (left_ne_zero_of_mul hi)
  have e2 := h2 hM _ _ (right_ne_zero_of_mul hi)
  rcases hm' : M with _ | m
  · exact hM hm'
  · apply hne
    show Option.map _ M = some ((s1 _).m + (s2 _).m)
    rw [e1, e2, hm', kp.2 m hm']
    rfl

/-- **C88.** For all one-atom Hamiltonians with orthonormal eigenvectors, all energy cutoffs, distances, exponents and steps: in a block without symmetries of the exchange
the program diagonalises the projection of H₁ ⊗ 1 + 1 ⊗ H₂ + V on the products of the eigenvectors whose energy is within the cutoff and whose total momentum
is the one of the block. The restriction to the necessary states takes nothing away. -/
theorem C88_block (U : Units) (c1 c2 : Cells) (M : Option ℤ) {n1 n2 : ℕ} (s1 : Fin n1 → Old1) (s2 : Fin n2 → Old1) (A : OldOne n1) (B : OldOne n2)
    (H1 : Matrix (Fin n1) (Fin n1) ℂ) (H2 : Matrix (Fin n2) (Fin n2) ℂ) (hA : A.basisᴴ * A.basis = 1) (hB : B.basisᴴ * B.basis = 1)
    (eA : H1 * A.basis = A.basis * diagonal fun c => (A.diag c : ℂ)) (eB : H2 * B.basis = B.basis * diagonal fun c => (B.diag c : ℂ))
    (mu1 : Fin A.nb → ℤ) (mu2 : Fin B.nb → ℤ) (h1 : M ≠ none → ∀ r c, A.basis r c ≠ 0 → (s1 r).m = mu1 c) (h2 : M ≠ none → ∀ r c, B.basis r c ≠ 0 → (s2 r).m = mu2 c)
    (deltaE : ℝ) (steps : List (OldOne n1 × OldOne n2)) (hs : (A, B) ∈ steps) (c : OldSymConf) (init : Old1 × Old1) (syms : List OldSym)
    (hm : ⟨none, none, none, M⟩ ∈ syms) (exponent : ℤ) (R : ℝ) :
    ∃ L : List (Fin A.nb × Fin B.nb), L.Nodup ∧
      (∀ p, p ∈ L ↔ (|A.diag p.1 + B.diag p.2| < deltaE + 1e-11 ∨ deltaE < 0) ∧ ∀ m, M = some m → mu1 p.1 + mu2 p.2 = 2 * m) ∧
      oldBlock U c1 c2 ⟨none, none, none, M⟩ s1 s2 A B deltaE (oldNecessary c syms init (pairState s1 s2) (oldCutoff steps deltaE)) exponent R =
        .ok ⟨L.length, fun i j => ∑ a, ∑ b, star (kronCol A B (L.get i) a) *
          pairFull H1 H2 (oldInteraction U c1 c2 (fun _ => true) (pairState s1 s2) exponent R) a b * kronCol A B (L.get j) b⟩ := by
  refine ⟨pairsTwo M A B deltaE mu1 mu2, pairsTwo_nodup .., fun p => mem_pairsTwo .., ?_⟩
  rw [block_two U c1 c2 M s1 s2 A B hA hB deltaE mu1 mu2 h1 h2 _ exponent R (necessary_two c syms init M s1 s2 steps A B hs deltaE mu1 mu2 h1 h2 hm)]
  congr 1
  refine sized_eq rfl _ _ fun i j => ?_
  exact kron_elem H1 H2 _ A B hA hB eA eB _ _

theorem kron_complete {n1 n2 : ℕ} (A : OldOne n1) (B : OldOne n2) (hA : A.basis * A.basisᴴ = 1) (hB : B.basis * B.basisᴴ = 1) (i j : Fin (n1 * n2)) :
    ∑ p, kronCol A B p i * star (kronCol A B p j) = if i = j then 1 else 0 := by
  have e : ∀ a b, ∑ c, A.basis a c * star (A.basis b c) = if a = b then 1 else 0 := by
    intro c d
    have := congrFun (congrFun hA c) d
    rwa [mul_apply, one_apply] at this
  have e' : ∀ a b, ∑ c, B.basis a c * star (B.basis b c) = if a = b then 1 else 0 := by
    intro c d
    have := congrFun (congrFun hB c) d
    rwa [mul_apply, one_apply] at this
  rw [Fintype.sum_prod_type]
  unfold kronCol
  have : ∀ (a : Fin A.nb) (b : Fin B.nb), A.basis (finProdFinEquiv.symm i).1 a * B.basis (finProdFinEquiv.symm i).2 b *
      star (A.basis (finProdFinEquiv.symm j).1 a * B.basis (finProdFinEquiv.symm j).2 b) =
      (A.basis (finProdFinEquiv.symm i).1 a * star (A.basis (finProdFinEquiv.symm j).1 a)) * (B.basis (finProdFinEquiv.symm i).2 b * star (B.basis (finProdFinEquiv.symm j).2 b)) := by
    intro a b
    rw [star_mul']
    ring
  simp only [this, ← Finset.mul_sum, ← Finset.sum_mul, e, e']
  have hij : i = j ↔ (finProdFinEquiv.symm i).1 = (finProdFinEquiv.symm j).1 ∧ (finProdFinEquiv.symm i).2 = (finProdFinEquiv.symm j).2 := by
    rw [← Prod.ext_iff, finProdFinEquiv.symm.injective.eq_iff]
  by_cases h1 : (finProdFinEquiv.symm i).1 = (finProdFinEquiv.symm j).1 <;> by_cases h2 : (finProdFinEquiv.symm i).2 = (finProdFinEquiv.symm j).2
  · rw [if_pos h1, if_pos h2, if_pos (hij.mpr ⟨h1, h2⟩), one_mul]
  · rw [if_neg h2, mul_zero, if_neg (fun h => h2 (hij.mp h).2)]
  · rw [if_neg h1, zero_mul, if_neg (fun h => h1 (hij.mp h).1)]
  · rw [if_neg h1, zero_mul, if_neg (fun h => h1 (hij.mp h).1)]

/-- **C88, no restrictions.** With complete sets of eigenvectors, no cutoff and no symmetries the eigenvalues are those of H₁ ⊗ 1 + 1 ⊗ H₂ + V, with multiplicities. -/
theorem C88_spectrum (U : Units) (c1 c2 : Cells) {n1 n2 : ℕ} (s1 : Fin n1 → Old1) (s2 : Fin n2 → Old1) (A : OldOne n1) (B : OldOne n2)
    (H1 : Matrix (Fin n1) (Fin n1) ℂ) (H2 : Matrix (Fin n2) (Fin n2) ℂ) (hA : A.basisᴴ * A.basis = 1) (hB : B.basisᴴ * B.basis = 1)
    (hA' : A.basis * A.basisᴴ = 1) (hB' : B.basis * B.basisᴴ = 1)
    (eA : H1 * A.basis = A.basis * diagonal fun c => (A.diag c : ℂ)) (eB : H2 * B.basis = B.basis * diagonal fun c => (B.diag c : ℂ))
    (deltaE : ℝ) (hE : deltaE < 0) (steps : List (OldOne n1 × OldOne n2)) (hs : (A, B) ∈ steps) (c : OldSymConf) (init : Old1 × Old1) (syms : List OldSym)
    (hm : ⟨none, none, none, none⟩ ∈ syms) (exponent : ℤ) (R : ℝ) :
    ∃ B', oldBlock U c1 c2 ⟨none, none, none, none⟩ s1 s2 A B deltaE (oldNecessary c syms init (pairState s1 s2) (oldCutoff steps deltaE)) exponent R = .ok B' ∧
      B'.2.charpoly = (pairFull H1 H2 (oldInteraction U c1 c2 (fun _ => true) (pairState s1 s2) exponent R)).charpoly := by
  classical
  obtain ⟨L, hL, hmem, hb⟩ := C88_block U c1 c2 none s1 s2 A B H1 H2 hA hB eA eB (fun _ => 0) (fun _ => 0) (by simp) (by simp) deltaE steps hs c init syms hm exponent R
  refine ⟨_, hb, ?_⟩
  set F := pairFull H1 H2 (oldInteraction U c1 c2 (fun _ => true) (pairState s1 s2) exponent R)
  show (listMat (fun p q => ∑ a, ∑ b, star (kronCol A B p a) * F a b * kronCol A B q b) L).charpoly = _
  rw [listMat_charpoly _ L (fun _ => True) hL (fun p => by rw [hmem]; simp [hE])]
  set K : Matrix (Fin (n1 * n2)) {p : Fin A.nb × Fin B.nb // True} ℂ := of fun i p => kronCol A B p.1 i with hK
  have hKa : ∀ i p, K i p = kronCol A B p.1 i := fun _ _ => rfl
  clear_value K
  have k1 : Kᴴ * K = 1 := by
    ext p q
    rw [mul_apply]
    simp only [conjTranspose_apply, hKa]
    rw [kron_orth A B hA hB, one_apply]
    simp only [Subtype.ext_iff]
  have k2 : K * Kᴴ = 1 := by
    ext i j
    rw [mul_apply]
    simp only [conjTranspose_apply, hKa]
    rw [one_apply, ← kron_complete A B hA' hB' i j]
    exact (Finset.sum_subtype Finset.univ (by simp) fun p => kronCol A B p i * star (kronCol A B p j)).symm
  have e : subMat (fun p q => ∑ a, ∑ b, star (kronCol A B p a) * F a b * kronCol A B q b) (fun _ => True) = Kᴴ * F * K := by
    ext p q
    rw [mul_apply]
    have : ∀ b, (Kᴴ * F) p b * K b q = ∑ a, star (kronCol A B p.1 a) * F a b * kronCol A B q.1 b := by
      intro b
      rw [mul_apply, Finset.sum_mul]
      refine Finset.sum_congr rfl fun a _ => ?_
      rw [conjTranspose_apply, hKa, hKa]
    simp only [this]
    exact Finset.sum_comm
  have hc : Fintype.card {p : Fin A.nb × Fin B.nb // True} = Fintype.card (Fin (n1 * n2)) := by
    have t := Matrix.trace_mul_comm Kᴴ K
    rw [k1, k2, trace_one, trace_one] at t
    exact_mod_cast t
  rw [e, Matrix.mul_assoc, charpoly_mul_comm_of_le _ _ hc.ge, hc, Nat.sub_self, pow_zero, one_mul, Matrix.mul_assoc, k2, Matrix.mul_one]

end PI
