import Verif.Legacy.Restrict

/-!
# C97: the Hamiltonians after the restriction of the one-atom states
-/

namespace PI

open Matrix

/-- Some of the basis vectors. -/
def OldOne.cols {n : ℕ} (A : OldOne n) (l : List (Fin A.nb)) : OldOne n := ⟨l.length, fun r c => A.basis r (l.get c), fun c => A.diag (l.get c)⟩

/-- The basis vectors that are not zero. -/
noncomputable def OldOne.nonzeroIdx {n : ℕ} (A : OldOne n) : List (Fin A.nb) := open Classical in (List.finRange A.nb).filter fun c => decide (∃ r, A.basis r c ≠ 0)

/-- The basis vectors that are not zero. -/
noncomputable def OldOne.nonzero {n : ℕ} (A : OldOne n) : OldOne n := A.cols A.nonzeroIdx

theorem mem_nonzeroIdx {n : ℕ} (A : OldOne n) (c : Fin A.nb) : c ∈ A.nonzeroIdx ↔ ∃ r, A.basis r c ≠ 0 := by
  classical
  simp [OldOne.nonzeroIdx]

/-! ## Lists -/

theorem filter_product {α β : Type} (p : α → Bool) (q : β → Bool) (l : List α) (m : List β) :
    (l ×ˢ m).filter (fun x => p x.1 && q x.2) = l.filter p ×ˢ m.filter q := by
  induction l with
  | nil => rfl
  | cons a l ih =>
    rw [List.product_cons, List.filter_append, ih, List.filter_cons, List.filter_map]
    by_cases h : p a = true
    · rw [if_pos h, List.product_cons]
      congr 3
      funext b; simp [h]
    · rw [if_neg h]
      have : (fun x : α × β => p x.1 && q x.2) ∘ (fun b => (a, b)) = fun _ => false := by funext b; simp [h]
      rw [this, List.filter_false]
      simp

theorem map_product {α β γ δ : Type} (f : α → γ) (g : β → δ) (l : List α) (m : List β) :
    (l ×ˢ m).map (fun x => (f x.1, g x.2)) = l.map f ×ˢ m.map g := by
  induction l with
  | nil => rfl
  | cons a l ih => rw [List.product_cons, List.map_append, ih, List.map_cons, List.product_cons, List.map_map, List.map_map]; rfl

theorem filter_map_skip {α β : Type} (F : α → β) (q : β → Bool) (R : α → Bool) (L : List α) (h : ∀ a ∈ L, R a = false → q (F a) = false) :
    ((L.filter R).map F).filter q = (L.map F).filter q := by
  rw [List.filter_map, List.filter_map, List.filter_filter]
  congr 1
  refine List.filter_congr fun a ha => ?_
  by_cases hR : R a = true
  · simp [hR]
  · rw [Bool.not_eq_true] at hR
    simp [hR, h a ha hR]

/-! ## Combining -/

/-- Without symmetries of the exchange it does not matter whether the two basis vectors have the same number. -/
theorem combineCell_neq (sym : OldSym) (hi : sym.inversion = none) (hp : sym.permutation = none) (x : Old1 × Old1) (mp : ℕ → Option ℕ) (P Q : Prop) (row rowS : ℕ) (v : ℂ) :
    combineCell sym x mp P row rowS v = combineCell sym x mp Q row rowS v := by
  unfold combineCell
  simp [hi, hp]

/-- The numbering of the basis vectors matters through comparisons only, and these only with symmetries of the exchange. -/
def SameComparisons (sym : OldSym) {a b : ℕ} (l1 : List (Fin a)) (l2 : List (Fin b)) : Prop :=
  (sym.inversion = none ∧ sym.permutation = none) ∨
    ∀ (i : Fin l1.length) (j : Fin l2.length), (((l1.get i : Fin a) : ℕ) ≤ (l2.get j : Fin b) ↔ (i : ℕ) ≤ j) ∧ (((l1.get i : Fin a) : ℕ) < (l2.get j : Fin b) ↔ (i : ℕ) < j)

theorem combine_nonzero (sym : OldSym) {n1 n2 : ℕ} (s1 : Fin n1 → Old1) (s2 : Fin n2 → Old1) (A : OldOne n1) (B : OldOne n2) (deltaE : ℝ)
    (hc : SameComparisons sym A.nonzeroIdx B.nonzeroIdx) : oldCombine sym s1 s2 A B deltaE = oldCombine sym s1 s2 A.nonzero B.nonzero deltaE := by
  classical
  unfold oldCombine
  dsimp only
  set mp := oldMapping sym (number 0 (List.ofFn (pairState s1 s2)))
  suffices h : (((oldPairIdx A.nb B.nb).filter fun p => ¬ sym.skips p.1 p.2 ∧ inCutoff deltaE (A.diag p.1 + B.diag p.2)).map
        fun p => (A.diag p.1 + B.diag p.2, combineTriplets sym s1 s2 mp A B p)).filter (fun c => c.2 ≠ []) =
      (((oldPairIdx A.nonzero.nb B.nonzero.nb).filter fun p => ¬ sym.skips p.1 p.2 ∧ inCutoff deltaE (A.nonzero.diag p.1 + B.nonzero.diag p.2)).map
        fun p => (A.nonzero.diag p.1 + B.nonzero.diag p.2, combineTriplets sym s1 s2 mp A.nonzero B.nonzero p)).filter (fun c => c.2 ≠ []) by
    rw [h]
  -- products with a zero vector leave no triplets
  have hz : ∀ p : Fin A.nb × Fin B.nb, ((A.nonzeroIdx.elem p.1) && (B.nonzeroIdx.elem p.2)) = false → combineTriplets sym s1 s2 mp A B p = [] := by
    intro p h
    unfold combineTriplets
    rw [List.flatMap_eq_nil_iff]
    rintro ⟨r1, r2⟩ hr
    rw [List.mem_product, List.mem_filter, List.mem_filter] at hr
    have h1 := of_decide_eq_true hr.1.2
    have h2 := of_decide_eq_true hr.2.2
    rw [Bool.and_eq_false_iff] at h
    rcases h with h | h
    · have : p.1 ∈ A.nonzeroIdx := (mem_nonzeroIdx A p.1).2 ⟨r1, h1⟩
      rw [← List.elem_iff, h] at this; cases this
    · have : p.2 ∈ B.nonzeroIdx := (mem_nonzeroIdx B p.2).2 ⟨r2, h2⟩
      rw [← List.elem_iff, h] at this; cases this
  have hl1 : (List.finRange A.nb).filter (A.nonzeroIdx.elem ·) = A.nonzeroIdx := by
    conv_rhs => rw [OldOne.nonzeroIdx]
    exact List.filter_congr fun c _ => by rw [Bool.eq_iff_iff, List.elem_iff, mem_nonzeroIdx, decide_eq_true_eq]
  have hl2 : (List.finRange B.nb).filter (B.nonzeroIdx.elem ·) = B.nonzeroIdx := by
    conv_rhs => rw [OldOne.nonzeroIdx]
    exact List.filter_congr fun c _ => by rw [Bool.eq_iff_iff, List.elem_iff, mem_nonzeroIdx, decide_eq_true_eq]
  have hidx : (oldPairIdx A.nb B.nb).filter (fun p => A.nonzeroIdx.elem p.1 && B.nonzeroIdx.elem p.2) =
      (oldPairIdx A.nonzero.nb B.nonzero.nb).map fun p => (A.nonzeroIdx.get p.1, B.nonzeroIdx.get p.2) := by
    unfold oldPairIdx
    rw [filter_product (fun a => A.nonzeroIdx.elem a) (fun b => B.nonzeroIdx.elem b), hl1, hl2]
    refine Eq.trans ?_ (map_product A.nonzeroIdx.get B.nonzeroIdx.get (List.finRange A.nonzeroIdx.length) (List.finRange B.nonzeroIdx.length)).symm
    rw [List.map_get_finRange, List.map_get_finRange]
  rw [← filter_map_skip _ _ (fun p => A.nonzeroIdx.elem p.1 && B.nonzeroIdx.elem p.2) _ (fun p _ h => by simp [hz p h]), List.filter_filter]
  rw [show (fun p : Fin A.nb × Fin B.nb => (A.nonzeroIdx.elem p.1 && B.nonzeroIdx.elem p.2) && decide (¬ sym.skips p.1 p.2 ∧ inCutoff deltaE (A.diag p.1 + B.diag p.2))) =
      fun p => decide (¬ sym.skips p.1 p.2 ∧ inCutoff deltaE (A.diag p.1 + B.diag p.2)) && (A.nonzeroIdx.elem p.1 && B.nonzeroIdx.elem p.2) from
        funext fun p => Bool.and_comm _ _, ← List.filter_filter, hidx]
  have hfm : ∀ (q : Fin A.nb × Fin B.nb → Bool) (g : Fin A.nonzero.nb × Fin B.nonzero.nb → Fin A.nb × Fin B.nb) (L : List (Fin A.nonzero.nb × Fin B.nonzero.nb)),
      (L.map g).filter q = (L.filter (q ∘ g)).map g := fun q g L => List.filter_map
  rw [hfm, List.map_map]
  congr 1
  -- comparisons of the numbers
  have hskip : ∀ p : Fin A.nonzero.nb × Fin B.nonzero.nb, sym.skips (A.nonzeroIdx.get p.1) (B.nonzeroIdx.get p.2) ↔ sym.skips p.1 p.2 := by
    intro p
    unfold OldSym.skips
    rcases hc with ⟨hi, hp⟩ | hc
    · simp [hi, hp]
    · rw [(hc p.1 p.2).1, (hc p.1 p.2).2]
  have htrip : ∀ p : Fin A.nonzero.nb × Fin B.nonzero.nb, combineTriplets sym s1 s2 mp A B (A.nonzeroIdx.get p.1, B.nonzeroIdx.get p.2) =
      combineTriplets sym s1 s2 mp A.nonzero B.nonzero p := by
    intro p
    unfold combineTriplets
    have : ∀ x row rowS v, combineCell sym x mp (((A.nonzeroIdx.get p.1 : Fin A.nb) : ℕ) ≠ (B.nonzeroIdx.get p.2 : Fin B.nb)) row rowS v =
        combineCell sym x mp ((p.1 : ℕ) ≠ p.2) row rowS v := by
      intro x row rowS v
      rcases hc with ⟨hi, hp⟩ | hc
      · exact combineCell_neq sym hi hp _ _ _ _ _ _ _
      · have hiff : (((A.nonzeroIdx.get p.1 : Fin A.nb) : ℕ) ≠ (B.nonzeroIdx.get p.2 : Fin B.nb)) = ((p.1 : ℕ) ≠ p.2) := by
          have h1 := (hc p.1 p.2).1
          have h2 := (hc p.1 p.2).2
          refine propext ⟨fun h e => h ?_, fun h e => h ?_⟩
          · have := h1.2 (le_of_eq e); have h' := mt h2.1 (by omega); omega
          · have := h1.1 (le_of_eq e); have h' := mt h2.2 (by omega); omega
        rw [hiff]
    simp only [this]
    rfl
  refine (List.map_congr_left fun p _ => ?_).trans (congrArg (List.map _) (List.filter_congr fun p _ => ?_))
  · simp only [Function.comp, htrip]
    rfl
  · simp only [Function.comp, hskip]
    rfl

theorem block_nonzero (U : Units) (c1 c2 : Cells) (sym : OldSym) {n1 n2 : ℕ} (s1 : Fin n1 → Old1) (s2 : Fin n2 → Old1) (A : OldOne n1) (B : OldOne n2) (deltaE : ℝ)
    (hc : SameComparisons sym A.nonzeroIdx B.nonzeroIdx) (nec : Fin (n1 * n2) → Bool) (exponent : ℤ) (R : ℝ) :
    oldBlock U c1 c2 sym s1 s2 A B deltaE nec exponent R = oldBlock U c1 c2 sym s1 s2 A.nonzero B.nonzero deltaE nec exponent R := by
  unfold oldBlock
  rw [combine_nonzero sym s1 s2 A B deltaE hc]

theorem cutoff_nonzero {n1 n2 : ℕ} (steps : List (OldOne n1 × OldOne n2)) (deltaE : ℝ) :
    oldCutoff steps deltaE = oldCutoff (steps.map fun h => (h.1.nonzero, h.2.nonzero)) deltaE := by
  classical
  funext i
  unfold oldCutoff
  rw [Bool.eq_iff_iff, decide_eq_true_eq, decide_eq_true_eq]
  constructor
  · rintro ⟨h, hh, a, b, hE, ha, hb⟩
    obtain ⟨a', ha'⟩ := List.get_of_mem ((mem_nonzeroIdx h.1 a).2 ⟨_, ha⟩)
    obtain ⟨b', hb'⟩ := List.get_of_mem ((mem_nonzeroIdx h.2 b).2 ⟨_, hb⟩)
    refine ⟨_, List.mem_map_of_mem hh, a', b', ?_, ?_, ?_⟩
    · show inCutoff deltaE (h.1.diag (h.1.nonzeroIdx.get a') + h.2.diag (h.2.nonzeroIdx.get b'))
      rw [ha', hb']; exact hE
    · show h.1.basis _ (h.1.nonzeroIdx.get a') ≠ 0
      rw [ha']; exact ha
    · show h.2.basis _ (h.2.nonzeroIdx.get b') ≠ 0
      rw [hb']; exact hb
  · rintro ⟨h', hh', a, b, hE, ha, hb⟩
    obtain ⟨h, hh, rfl⟩ := List.mem_map.1 hh'
    exact ⟨h, hh, h.1.nonzeroIdx.get a, h.2.nonzeroIdx.get b, hE, ha, hb⟩

theorem nonzeroIdx_sorted {n : ℕ} (A : OldOne n) : A.nonzeroIdx.Pairwise (· < ·) := by
  classical
  exact (List.pairwise_lt_finRange _).filter _

theorem nonzeroIdx_mono {n : ℕ} (A : OldOne n) : StrictMono A.nonzeroIdx.get := fun a b h => List.pairwise_iff_get.1 (nonzeroIdx_sorted A) a b h

theorem sameComparisons_common (sym : OldSym) {n : ℕ} (A : OldOne n) : SameComparisons sym A.nonzeroIdx A.nonzeroIdx :=
  Or.inr fun i j => ⟨(nonzeroIdx_mono A).le_iff_le, (nonzeroIdx_mono A).lt_iff_lt⟩

/-! ## Eigenvectors -/

/-- The program's matrix is a complete diagonalisation of the Hermitian matrix `H`. -/
def Diagonalises {n : ℕ} (H : Matrix (Fin n) (Fin n) ℂ) (A : OldOne n) : Prop :=
  A.basisᴴ * A.basis = 1 ∧ A.basis * A.basisᴴ = 1 ∧ H * A.basis = A.basis * diagonal fun c => (A.diag c : ℂ)

/-- The rows `e` of the matrix, as in `C97_states`. -/
def OldOne.sub {n m : ℕ} (A : OldOne n) (e : Fin m → Fin n) : OldOne m := ⟨A.nb, fun r c => A.basis (e r) c, A.diag⟩

/-- No eigenvector mixes the states that stay with the others. -/
def Unmixed {n m : ℕ} (e : Fin m → Fin n) (A : OldOne n) : Prop := ∀ c, (∀ r, A.basis r c ≠ 0 → r ∈ Set.range e) ∨ ∀ r, A.basis (e r) c = 0

/-- The three identities of a diagonalisation, for the rows `e` and the columns `k` of a matrix of eigenvectors. -/
theorem eigen_sub {n nb m K : ℕ} (H : Matrix (Fin n) (Fin n) ℂ) (b : Matrix (Fin n) (Fin nb) ℂ) (d : Fin nb → ℂ) (e : Fin m → Fin n) (k : Fin K → Fin nb)
    (he : Function.Injective e) (kinj : Function.Injective k) (h1 : bᴴ * b = 1) (h2 : b * bᴴ = 1) (h3 : H * b = b * diagonal d)
    (kmem : ∀ c, c ∉ Set.range k → ∀ r, b (e r) c = 0) (ksup : ∀ c r, r ∉ Set.range e → b r (k c) = 0) :
    (b.submatrix e k)ᴴ * b.submatrix e k = 1 ∧ b.submatrix e k * (b.submatrix e k)ᴴ = 1 ∧ H.submatrix e e * b.submatrix e k = b.submatrix e k * diagonal (d ∘ k) := by
  refine ⟨?_, ?_, ?_⟩
  · ext c c'
    have := congrFun (congrFun h1 (k c)) (k c')
    rw [mul_apply] at this ⊢
    simp only [conjTranspose_apply, submatrix_apply] at this ⊢
    rw [Fintype.sum_of_injective e he (fun r => star (b (e r) (k c)) * b (e r) (k c'))
      (fun r => star (b r (k c)) * b r (k c')) (fun r hr => by rw [ksup c' r hr, mul_zero]) (fun r => rfl), this, one_apply, one_apply]
    by_cases h : c = c'
    · rw [if_pos h, if_pos (congrArg k h)]
    · rw [if_neg h, if_neg fun h' => h (kinj h')]
  · ext r r'
    have := congrFun (congrFun h2 (e r)) (e r')
    rw [mul_apply] at this ⊢
    simp only [conjTranspose_apply, submatrix_apply] at this ⊢
    rw [Fintype.sum_of_injective k kinj (fun c => b (e r) (k c) * star (b (e r') (k c)))
      (fun c => b (e r) c * star (b (e r') c)) (fun c hc => by rw [kmem c hc, zero_mul]) (fun c => rfl), this, one_apply, one_apply]
    by_cases h : r = r'
    · rw [if_pos h, if_pos (congrArg e h)]
    · rw [if_neg h, if_neg fun h' => h (he h')]
  · ext r c
    have := congrFun (congrFun h3 (e r)) (k c)
    rw [mul_apply, mul_diagonal] at this ⊢
    simp only [submatrix_apply, Function.comp] at this ⊢
    rw [Fintype.sum_of_injective e he (fun t => H (e r) (e t) * b (e t) (k c)) (fun t => H (e r) t * b t (k c))
      (fun t ht => by rw [ksup c t ht, mul_zero]) (fun t => rfl), this]

/-- If no eigenvector mixes, what the restriction leaves is a complete diagonalisation of the restricted Hamiltonian. -/
theorem diagonalises_sub {n m : ℕ} (H : Matrix (Fin n) (Fin n) ℂ) (A : OldOne n) (e : Fin m → Fin n) (he : Function.Injective e) (hd : Diagonalises H A) (hm : Unmixed e A) :
    Diagonalises (H.submatrix e e) (A.sub e).nonzero := by
  obtain ⟨h1, h2, h3⟩ := hd
  have kmem : ∀ c : Fin A.nb, c ∈ Set.range (A.sub e).nonzeroIdx.get ↔ ∃ r, A.basis (e r) c ≠ 0 := fun c =>
    (List.mem_iff_get (a := c) (l := (A.sub e).nonzeroIdx)).symm.trans (mem_nonzeroIdx (A.sub e) c)
  exact eigen_sub H A.basis (fun c => (A.diag c : ℂ)) e (A.sub e).nonzeroIdx.get he (nonzeroIdx_mono _).injective h1 h2 h3
    (fun c hc r => by by_contra hne; exact hc ((kmem c).2 ⟨r, hne⟩))
    (fun c r hr => by
      obtain ⟨r', hr'⟩ := (kmem ((A.sub e).nonzeroIdx.get c)).1 ⟨c, rfl⟩
      rcases hm ((A.sub e).nonzeroIdx.get c) with h | h
      · by_contra hne; exact hr (h r hne)
      · exact absurd (h r') hr')

/-- **C97, the Hamiltonians.** For all one-atom Hamiltonians of a scan and all restrictions: if no one-atom eigenvector mixes the states that stay with the ones that go,
then every block (any energy cutoff, distance, exponent and total momentum, with or without reflection) is the one that the program builds from a complete diagonalisation of
the Hamiltonians restricted to the states that stay. -/
theorem C97_unmixed_partial {n1 n2 m1 m2 : ℕ} (e1 : Fin m1 → Fin n1) (e2 : Fin m2 → Fin n2) (i1 : Function.Injective e1) (i2 : Function.Injective e2) :
    ∃ (f1 : OldOne n1 → OldOne m1) (f2 : OldOne n2 → OldOne m2),
      (∀ H A, Diagonalises H A → Unmixed e1 A → Diagonalises (H.submatrix e1 e1) (f1 A)) ∧
      (∀ H B, Diagonalises H B → Unmixed e2 B → Diagonalises (H.submatrix e2 e2) (f2 B)) ∧
      ∀ (U : Units) (c1 c2 : Cells) (sym : OldSym) (s1 : Fin m1 → Old1) (s2 : Fin m2 → Old1) (A : OldOne n1) (B : OldOne n2) (deltaE : ℝ)
        (steps : List (OldOne n1 × OldOne n2)) (c : OldSymConf) (syms : List OldSym) (init : Old1 × Old1) (exponent : ℤ) (R : ℝ),
        sym.inversion = none → sym.permutation = none →
        oldBlock U c1 c2 sym s1 s2 (A.sub e1) (B.sub e2) deltaE
            (oldNecessary c syms init (pairState s1 s2) (oldCutoff (steps.map fun h => (h.1.sub e1, h.2.sub e2)) deltaE)) exponent R =
          oldBlock U c1 c2 sym s1 s2 (f1 A) (f2 B) deltaE
            (oldNecessary c syms init (pairState s1 s2) (oldCutoff (steps.map fun h => (f1 h.1, f2 h.2)) deltaE)) exponent R := by
  refine ⟨fun A => (A.sub e1).nonzero, fun B => (B.sub e2).nonzero, fun H A h h' => diagonalises_sub H A e1 i1 h h', fun H B h h' => diagonalises_sub H B e2 i2 h h', ?_⟩
  intro U c1 c2 sym s1 s2 A B deltaE steps c syms init exponent R hi hp
  rw [block_nonzero U c1 c2 sym s1 s2 (A.sub e1) (B.sub e2) deltaE (Or.inl ⟨hi, hp⟩), cutoff_nonzero, List.map_map]
  rfl

/-- **C97, a common basis.** The same for two equal atoms with a common basis, and for all symmetries. -/
theorem C97_common_unmixed_partial {n m : ℕ} (e : Fin m → Fin n) (i : Function.Injective e) :
    ∃ f : OldOne n → OldOne m, (∀ H A, Diagonalises H A → Unmixed e A → Diagonalises (H.submatrix e e) (f A)) ∧
      ∀ (U : Units) (c1 c2 : Cells) (sym : OldSym) (s : Fin m → Old1) (A : OldOne n) (deltaE : ℝ)
        (steps : List (OldOne n)) (c : OldSymConf) (syms : List OldSym) (init : Old1 × Old1) (exponent : ℤ) (R : ℝ),
        oldBlock U c1 c2 sym s s (A.sub e) (A.sub e) deltaE
            (oldNecessary c syms init (pairState s s) (oldCutoff (steps.map fun h => (h.sub e, h.sub e)) deltaE)) exponent R =
          oldBlock U c1 c2 sym s s (f A) (f A) deltaE (oldNecessary c syms init (pairState s s) (oldCutoff (steps.map fun h => (f h, f h)) deltaE)) exponent R := by
  refine ⟨fun A => (A.sub e).nonzero, fun H A h h' => diagonalises_sub H A e i h h', ?_⟩
  intro U c1 c2 sym s A deltaE steps c syms init exponent R
  rw [block_nonzero U c1 c2 sym s s (A.sub e) (A.sub e) deltaE (sameComparisons_common _ _), cutoff_nonzero, List.map_map]
  rfl

/-- **C97, the spectrum.** Without energy cutoff and symmetries, and if no one-atom eigenvector mixes, the eigenvalues are those of the pair Hamiltonian restricted to the
pairs of states that stay, with multiplicities. -/
theorem C97_spectrum_partial (U : Units) (c1 c2 : Cells) {n1 n2 m1 m2 : ℕ} (e1 : Fin m1 → Fin n1) (e2 : Fin m2 → Fin n2) (i1 : Function.Injective e1) (i2 : Function.Injective e2)
    (s1 : Fin m1 → Old1) (s2 : Fin m2 → Old1) (A : OldOne n1) (B : OldOne n2) (H1 : Matrix (Fin n1) (Fin n1) ℂ) (H2 : Matrix (Fin n2) (Fin n2) ℂ)
    (dA : Diagonalises H1 A) (dB : Diagonalises H2 B) (uA : Unmixed e1 A) (uB : Unmixed e2 B)
    (deltaE : ℝ) (hE : deltaE < 0) (steps : List (OldOne n1 × OldOne n2)) (hs : (A, B) ∈ steps) (c : OldSymConf) (init : Old1 × Old1) (syms : List OldSym)
    (hm : ⟨none, none, none, none⟩ ∈ syms) (exponent : ℤ) (R : ℝ) :
    ∃ M, oldBlock U c1 c2 ⟨none, none, none, none⟩ s1 s2 (A.sub e1) (B.sub e2) deltaE
          (oldNecessary c syms init (pairState s1 s2) (oldCutoff (steps.map fun h => (h.1.sub e1, h.2.sub e2)) deltaE)) exponent R = .ok M ∧
      M.2.charpoly = (pairFull (H1.submatrix e1 e1) (H2.submatrix e2 e2) (oldInteraction U c1 c2 (fun _ => true) (pairState s1 s2) exponent R)).charpoly := by
  obtain ⟨f1, f2, hf1, hf2, hb⟩ := C97_unmixed_partial e1 e2 i1 i2
  obtain ⟨a1, a2, a3⟩ := hf1 H1 A dA uA
  obtain ⟨b1, b2, b3⟩ := hf2 H2 B dB uB
  have hmem : (f1 A, f2 B) ∈ steps.map fun h => (f1 h.1, f2 h.2) := List.mem_map.2 ⟨(A, B), hs, rfl⟩
  obtain ⟨M, h1, h2⟩ := C88_spectrum U c1 c2 s1 s2 (f1 A) (f2 B) _ _ a1 b1 a2 b2 a3 b3 deltaE hE _ hmem c init syms hm exponent R
  exact ⟨M, (hb U c1 c2 ⟨none, none, none, none⟩ s1 s2 A B deltaE steps c syms init exponent R rfl rfl).trans h1, h2⟩

/-- Example: without fields the eigenvectors are the states. -/
example : ∃ A : OldOne 2, Diagonalises (diagonal ![(1 : ℂ), 2]) A ∧ Unmixed (fun _ : Fin 1 => (1 : Fin 2)) A := by
  refine ⟨⟨2, 1, ![1, 2]⟩, ⟨by simp, by simp, ?_⟩, fun c => ?_⟩
  · ext i j; fin_cases i <;> fin_cases j <;> simp
  · fin_cases c
    · exact Or.inr fun r => by simp [one_apply]
    · refine Or.inl fun r hr => ⟨0, ?_⟩
      fin_cases r
      · simp [one_apply] at hr
      · rfl

end PI
