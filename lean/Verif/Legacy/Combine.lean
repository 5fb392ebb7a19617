import Verif.Legacy.CombineModel
import Verif.Legacy.BlockLemma

/-!
# Legacy pair Hamiltonian: what is diagonalised in each symmetry block (C88, C89, C90)
-/

namespace PI

open Matrix

theorem tripletSum_append (a b : List (Option ℕ × ℂ)) (i : ℕ) : tripletSum (a ++ b) i = tripletSum a i + tripletSum b i := by
  unfold tripletSum
  rw [List.filter_append, List.map_append, List.sum_append]

theorem tripletSum_flatMap {α : Type} (L : List α) (f : α → List (Option ℕ × ℂ)) (i : ℕ) :
    tripletSum (L.flatMap f) i = (L.map fun a => tripletSum (f a) i).sum := by
  induction L with
  | nil => rfl
  | cons a L ih => rw [List.flatMap_cons, tripletSum_append, ih, List.map_cons, List.sum_cons]

theorem tripletSum_nil (i : ℕ) : tripletSum [] i = 0 := rfl

theorem tripletSum_cons (r : ℕ) (v : ℂ) (t : List (Option ℕ × ℂ)) (i : ℕ) : tripletSum ((some r, v) :: t) i = (if r = i then v else 0) + tripletSum t i := by
  unfold tripletSum
  by_cases h : r = i
  · simp [h]
  · simp [h]

theorem sum_map_filter {α : Type} (L : List α) (p : α → Bool) (g : α → ℂ) : ((L.filter p).map g).sum = (L.map fun a => if p a = true then g a else 0).sum := by
  induction L with
  | nil => rfl
  | cons a L ih =>
    by_cases h : p a = true
    · simp [h, ih]
    · simp [h, ih]

theorem sum_product {n1 n2 : ℕ} (p : Fin n1 → Bool) (q : Fin n2 → Bool) (f : Fin n1 × Fin n2 → ℂ) :
    ((((List.finRange n1).filter p) ×ˢ ((List.finRange n2).filter q)).map f).sum = ∑ a, ∑ b, if p a = true ∧ q b = true then f (a, b) else 0 := by
  have h1 : ∀ (L : List (Fin n1)) (M : List (Fin n2)), ((L ×ˢ M).map f).sum = (L.map fun a => (M.map fun b => f (a, b)).sum).sum := by
    intro L M
    induction L with
    | nil => rfl
    | cons a L ih =>
      rw [List.product_cons, List.map_append, List.sum_append, ih, List.map_cons, List.sum_cons, List.map_map]
      rfl
  rw [h1, sum_map_filter, ← Fin.sum_univ_def]
  refine Finset.sum_congr rfl fun a _ => ?_
  rw [sum_map_filter, ← Fin.sum_univ_def]
  by_cases h : p a = true
  · simp [h]
  · simp [h]

/-- The row of a pair of coordinates. -/
theorem row_eq {n1 n2 : ℕ} (r1 : Fin n1) (r2 : Fin n2) : n2 * (r1 : ℕ) + (r2 : ℕ) = (finProdFinEquiv (r1, r2) : Fin (n1 * n2)) := by
  simp [finProdFinEquiv, Nat.add_comm]

theorem row_inj {n1 n2 : ℕ} (r1 : Fin n1) (r2 : Fin n2) (i : Fin (n1 * n2)) : n2 * (r1 : ℕ) + (r2 : ℕ) = (i : ℕ) ↔ (r1, r2) = finProdFinEquiv.symm i := by
  rw [row_eq, ← Fin.ext_iff, Equiv.eq_symm_apply]

/-- The parts of a block without reflection: what `combineCell` adds. -/
noncomputable def plainCell (sym : OldSym) (x : Old1 × Old1) (neq : Prop) (row rowS : ℕ) (v : ℂ) : List (Option ℕ × ℂ) :=
  open Classical in
  if (sym.inversion ≠ none ∧ sym.permutation ≠ none ∧ neq ∧ sym.invSign x ≠ sym.perSign) ∨ (sym.rotation ≠ none ∧ sym.rotation.map (2 * ·) ≠ some (x.1.m + x.2.m)) then []
  else if (sym.inversion ≠ none ∨ sym.permutation ≠ none) ∧ neq then
    [(some row, v / (Real.sqrt 2 : ℝ)), (some rowS, v / (Real.sqrt 2 : ℝ) * (if sym.inversion ≠ none then sym.invSign x else sym.perSign : ℤ))]
  else [(some row, v)]

theorem combineCell_plain (sym : OldSym) (hr : sym.reflection = none) (x : Old1 × Old1) (mp : ℕ → Option ℕ) (neq : Prop) (row rowS : ℕ) (v : ℂ) :
    combineCell sym x mp neq row rowS v = plainCell sym x neq row rowS v := by
  classical
  unfold combineCell plainCell
  by_cases h1 : sym.inversion = none <;> by_cases h2 : sym.permutation = none <;> by_cases h3 : neq <;> by_cases h4 : sym.rotation = none <;>
    by_cases h5 : sym.invSign x = sym.perSign <;> by_cases h6 : sym.rotation.map (2 * ·) = some (x.1.m + x.2.m) <;> simp [hr, h1, h2, h3, h4, h5, h6]

/-- The product of two basis vectors. -/
def kronCol {n1 n2 : ℕ} (A : OldOne n1) (B : OldOne n2) (p : Fin A.nb × Fin B.nb) (i : Fin (n1 * n2)) : ℂ :=
  A.basis (finProdFinEquiv.symm i).1 p.1 * B.basis (finProdFinEquiv.symm i).2 p.2

/-- The sign with which the exchanged product enters, for basis vectors of parities `par`. -/
def OldSym.secSign (sym : OldSym) {k : ℕ} (par : Fin k → ℤ) (p : Fin k × Fin k) : ℤ :=
  match sym.inversion with
  | some .even => -(par p.1 * par p.2)
  | some .odd => par p.1 * par p.2
  | none => sym.perSign

/-- The block contains products of these basis vectors: the parities agree, the total momentum is right. -/
def OldSym.inSector (sym : OldSym) {k : ℕ} (par mu : Fin k → ℤ) (p : Fin k × Fin k) : Prop :=
  (sym.inversion ≠ none → sym.permutation ≠ none → p.1 ≠ p.2 → sym.secSign par p = sym.perSign) ∧ (∀ M, sym.rotation = some M → 2 * M = mu p.1 + mu p.2)

/-- The basis vectors of one atom have definite parity if the block has an inversion parity, and definite momentum if it has a total momentum. -/
structure Definite (sym : OldSym) {n : ℕ} (s : Fin n → Old1) (A : OldOne n) (par mu : Fin A.nb → ℤ) : Prop where
  /-- parities are signs -/
  sign : ∀ c, par c = 1 ∨ par c = -1
  /-- definite parity -/
  parity : sym.inversion ≠ none → ∀ r c, A.basis r c ≠ 0 → parityOf (s r).l = par c
  /-- definite momentum -/
  moment : sym.rotation ≠ none → ∀ r c, A.basis r c ≠ 0 → (s r).m = mu c

/-- The vector of a pair of basis vectors in a block. -/
noncomputable def pairVec (sym : OldSym) {n : ℕ} (A : OldOne n) (par : Fin A.nb → ℤ) (p : Fin A.nb × Fin A.nb) (i : Fin (n * n)) : ℂ :=
  open Classical in
  if (sym.inversion ≠ none ∨ sym.permutation ≠ none) ∧ p.1 ≠ p.2 then (kronCol A A p i + (sym.secSign par p : ℤ) * kronCol A A p.swap i) / (Real.sqrt 2 : ℝ)
  else kronCol A A p i

theorem parityOf_add (a b : ℤ) : parityOf (a + b) = parityOf a * parityOf b := by
  unfold parityOf
  split_ifs <;> omega

theorem invSign_sec (sym : OldSym) {n : ℕ} (s : Fin n → Old1) (A : OldOne n) (par mu : Fin A.nb → ℤ) (hd : Definite sym s A par mu) (hi : sym.inversion ≠ none)
    (p : Fin A.nb × Fin A.nb) (r1 r2 : Fin n) (h1 : A.basis r1 p.1 ≠ 0) (h2 : A.basis r2 p.2 ≠ 0) : sym.invSign (s r1, s r2) = sym.secSign par p := by
  have e : parityL (s r1, s r2) = par p.1 * par p.2 := by
    unfold parityL
    rw [parityOf_add, hd.parity hi r1 p.1 h1, hd.parity hi r2 p.2 h2]
  unfold OldSym.invSign OldSym.secSign
  rw [e]
  rcases h : sym.inversion with _ | _ | _
  · exact absurd h hi
  · simp
  · simp

theorem plainCell_def (sym : OldSym) {n : ℕ} (s : Fin n → Old1) (A : OldOne n) (par mu : Fin A.nb → ℤ) (hd : Definite sym s A par mu)
    (p : Fin A.nb × Fin A.nb) (r1 r2 : Fin n) (h1 : A.basis r1 p.1 ≠ 0) (h2 : A.basis r2 p.2 ≠ 0) (row rowS : ℕ) (v : ℂ) :
    open Classical in
    plainCell sym (s r1, s r2) ((p.1 : ℕ) ≠ p.2) row rowS v = if sym.inSector par mu p then
      (if (sym.inversion ≠ none ∨ sym.permutation ≠ none) ∧ p.1 ≠ p.2 then
        [(some row, v / (Real.sqrt 2 : ℝ)), (some rowS, v / (Real.sqrt 2 : ℝ) * (sym.secSign par p : ℤ))] else [(some row, v)]) else [] := by
  classical
  unfold plainCell
  have hne : ((p.1 : ℕ) ≠ p.2) ↔ p.1 ≠ p.2 := by rw [Ne, Ne, Fin.ext_iff]
  have hm : (sym.rotation ≠ none ∧ sym.rotation.map (2 * ·) ≠ some ((s r1).m + (s r2).m)) ↔ ¬ ∀ M, sym.rotation = some M → 2 * M = mu p.1 + mu p.2 := by
    rcases hrot : sym.rotation with _ | M
    · simp
    · have hn : sym.rotation ≠ none := by rw [hrot]; simp
      rw [hd.moment hn r1 p.1 h1, hd.moment hn r2 p.2 h2]
      simp
  have hs : (sym.inversion ≠ none ∧ sym.permutation ≠ none ∧ (p.1 : ℕ) ≠ p.2 ∧ sym.invSign (s r1, s r2) ≠ sym.perSign) ↔
      ¬ (sym.inversion ≠ none → sym.permutation ≠ none → p.1 ≠ p.2 → sym.secSign par p = sym.perSign) := by
    rw [hne]
    by_cases hi : sym.inversion = none
    · simp [hi]
    · rw [invSign_sec sym s A par mu hd hi p r1 r2 h1 h2]
      push Not
      rfl
  have hsec : (if sym.inversion ≠ none then sym.invSign (s r1, s r2) else sym.perSign) = sym.secSign par p := by
    by_cases hi : sym.inversion = none
    · simp [hi, OldSym.secSign]
    · rw [if_pos hi, invSign_sec sym s A par mu hd hi p r1 r2 h1 h2]
  rw [hsec]
  unfold OldSym.inSector
  by_cases hA : (sym.inversion ≠ none → sym.permutation ≠ none → p.1 ≠ p.2 → sym.secSign par p = sym.perSign) ∧ (∀ M, sym.rotation = some M → 2 * M = mu p.1 + mu p.2)
  · rw [if_neg (by rw [hs, hm, ← not_and_or]; exact not_not.mpr hA), if_pos hA]
    simp only [hne]
  · rw [if_pos (by rw [hs, hm, ← not_and_or]; exact hA), if_neg hA]

theorem triplets_spec (sym : OldSym) (hr : sym.reflection = none) {n : ℕ} (s : Fin n → Old1) (mp : ℕ → Option ℕ) (A : OldOne n) (par mu : Fin A.nb → ℤ)
    (hd : Definite sym s A par mu) (hz : ∀ c, ∃ r, A.basis r c ≠ 0) (p : Fin A.nb × Fin A.nb) :
    (combineTriplets sym s s mp A A p ≠ [] ↔ sym.inSector par mu p) ∧ (∀ t ∈ combineTriplets sym s s mp A A p, ∃ i < n * n, t.1 = some i) ∧
    (sym.inSector par mu p → ∀ i : Fin (n * n), tripletSum (combineTriplets sym s s mp A A p) i = pairVec sym A par p i) := by
  classical
  have cell : ∀ r1 r2, A.basis r1 p.1 ≠ 0 → A.basis r2 p.2 ≠ 0 → ∀ row rowS v, combineCell sym (s r1, s r2) mp ((p.1 : ℕ) ≠ p.2) row rowS v = _ :=
    fun r1 r2 h1 h2 row rowS v => (combineCell_plain sym hr _ mp _ row rowS v).trans (plainCell_def sym s A par mu hd p r1 r2 h1 h2 row rowS v)
  unfold combineTriplets
  refine ⟨?_, ?_, ?_⟩
  · rw [Ne, List.flatMap_eq_nil_iff]
    push Not
    constructor
    · rintro ⟨r, hr1, hr2⟩
      rw [List.mem_product] at hr1
      simp only [List.mem_filter, List.mem_finRange, true_and, decide_eq_true_eq] at hr1
      rw [cell r.1 r.2 hr1.1 hr1.2] at hr2
      by_contra h
      rw [if_neg h] at hr2
      exact hr2 rfl
    · intro h
      obtain ⟨r1, h1⟩ := hz p.1
      obtain ⟨r2, h2⟩ := hz p.2
      refine ⟨(r1, r2), ?_, ?_⟩
      · rw [List.mem_product]
        simp [h1, h2]
      · rw [cell r1 r2 h1 h2, if_pos h]
        split_ifs <;> simp
  · intro t ht
    rw [List.mem_flatMap] at ht
    obtain ⟨r, hr1, ht⟩ := ht
    rw [List.mem_product] at hr1
    simp only [List.mem_filter, List.mem_finRange, true_and, decide_eq_true_eq] at hr1
    rw [cell r.1 r.2 hr1.1 hr1.2, row_eq, row_eq] at ht
    split_ifs at ht
    · simp only [List.mem_cons, List.not_mem_nil, or_false] at ht
      rcases ht with rfl | rfl
      · exact ⟨_, Fin.is_lt _, rfl⟩
      · exact ⟨_, Fin.is_lt _, rfl⟩
    · simp only [List.mem_cons, List.not_mem_nil, or_false] at ht
      subst ht
      exact ⟨_, Fin.is_lt _, rfl⟩
    · simp at ht
  · intro h i
    rw [tripletSum_flatMap, sum_product]
    simp only [decide_eq_true_eq]
    set a := (finProdFinEquiv.symm i : Fin n × Fin n).1 with ha
    set b := (finProdFinEquiv.symm i : Fin n × Fin n).2 with hb
    have hab : ((a, b) : Fin n × Fin n) = finProdFinEquiv.symm i := rfl
    have c1 : ∀ r1 r2 : Fin n, n * (r1 : ℕ) + r2 = (i : ℕ) ↔ r1 = a ∧ r2 = b := by
      intro r1 r2
      rw [row_inj, ← hab, Prod.mk.injEq]
    unfold pairVec
    by_cases hsw : (sym.inversion ≠ none ∨ sym.permutation ≠ none) ∧ p.1 ≠ p.2
    · rw [if_pos hsw]
      have : ∀ r1 r2 : Fin n, (if A.basis r1 p.1 ≠ 0 ∧ A.basis r2 p.2 ≠ 0 then
          tripletSum (combineCell sym (s r1, s r2) mp ((p.1 : ℕ) ≠ p.2) (n * r1 + r2) (n * r2 + r1) (A.basis r1 p.1 * A.basis r2 p.2)) i else 0) =
          (if r1 = a then (if r2 = b then A.basis r1 p.1 * A.basis r2 p.2 / (Real.sqrt 2 : ℝ) else 0) else 0) +
          (if r1 = b then (if r2 = a then A.basis r1 p.1 * A.basis r2 p.2 / (Real.sqrt 2 : ℝ) * (sym.secSign par p : ℤ) else 0) else 0) := by
        intro r1 r2
        by_cases hz' : A.basis r1 p.1 ≠ 0 ∧ A.basis r2 p.2 ≠ 0
        · rw [if_pos hz', cell r1 r2 hz'.1 hz'.2, if_pos h, if_pos hsw, tripletSum_cons, tripletSum_cons, tripletSum_nil, add_zero]
          rw [← ite_and, ← ite_and]
          simp only [c1]
          simp only [and_comm (a := r2 = a)]
        · rw [if_neg hz']
          have : A.basis r1 p.1 * A.basis r2 p.2 = 0 := by
            rw [mul_eq_zero]; by_contra hc; push Not at hc; exact hz' hc
          simp [this]
      simp only [this, Finset.sum_add_distrib, Finset.sum_ite_eq', Finset.mem_univ, if_true, Finset.sum_const_zero, Finset.sum_ite_irrel]
      unfold kronCol
      rw [← ha, ← hb]
      simp only [Prod.fst_swap, Prod.snd_swap]
      ring
    · rw [if_neg hsw]
      have : ∀ r1 r2 : Fin n, (if A.basis r1 p.1 ≠ 0 ∧ A.basis r2 p.2 ≠ 0 then
          tripletSum (combineCell sym (s r1, s r2) mp ((p.1 : ℕ) ≠ p.2) (n * r1 + r2) (n * r2 + r1) (A.basis r1 p.1 * A.basis r2 p.2)) i else 0) =
          (if r1 = a then (if r2 = b then A.basis r1 p.1 * A.basis r2 p.2 else 0) else 0) := by
        intro r1 r2
        by_cases hz' : A.basis r1 p.1 ≠ 0 ∧ A.basis r2 p.2 ≠ 0
        · rw [if_pos hz', cell r1 r2 hz'.1 hz'.2, if_pos h, if_neg hsw, tripletSum_cons, tripletSum_nil, add_zero]
          rw [← ite_and]
          simp only [c1]
        · rw [if_neg hz']
          have : A.basis r1 p.1 * A.basis r2 p.2 = 0 := by
            rw [mul_eq_zero]; by_contra hc; push Not at hc; exact hz' hc
          simp [this]
      simp only [this, Finset.sum_ite_eq', Finset.mem_univ, if_true, Finset.sum_const_zero, Finset.sum_ite_irrel]
      rfl

theorem oldPairIdx_nodup (k1 k2 : ℕ) : (oldPairIdx k1 k2).Nodup := (List.nodup_finRange k1).product (List.nodup_finRange k2)

theorem mem_oldPairIdx {k1 k2 : ℕ} (p : Fin k1 × Fin k2) : p ∈ oldPairIdx k1 k2 := by
  unfold oldPairIdx
  rw [List.mem_product]
  exact ⟨List.mem_finRange _, List.mem_finRange _⟩

/-- The pairs of basis vectors of a block. -/
def OldSym.keeps (sym : OldSym) {n : ℕ} (A : OldOne n) (deltaE : ℝ) (par mu : Fin A.nb → ℤ) (p : Fin A.nb × Fin A.nb) : Prop :=
  (¬ sym.skips p.1 p.2 ∧ inCutoff deltaE (A.diag p.1 + A.diag p.2)) ∧ sym.inSector par mu p

/-- The list of the pairs of a block. -/
noncomputable def OldSym.pairs (sym : OldSym) {n : ℕ} (A : OldOne n) (deltaE : ℝ) (par mu : Fin A.nb → ℤ) : List (Fin A.nb × Fin A.nb) :=
  open Classical in (oldPairIdx A.nb A.nb).filter fun p => sym.keeps A deltaE par mu p

theorem mem_pairs (sym : OldSym) {n : ℕ} (A : OldOne n) (deltaE : ℝ) (par mu : Fin A.nb → ℤ) (p : Fin A.nb × Fin A.nb) :
    p ∈ sym.pairs A deltaE par mu ↔ sym.keeps A deltaE par mu p := by
  classical
  unfold OldSym.pairs
  rw [List.mem_filter]
  simp [mem_oldPairIdx]

theorem pairs_nodup (sym : OldSym) {n : ℕ} (A : OldOne n) (deltaE : ℝ) (par mu : Fin A.nb → ℤ) : (sym.pairs A deltaE par mu).Nodup :=
  (oldPairIdx_nodup _ _).filter _

theorem combine_spec (sym : OldSym) (hr : sym.reflection = none) {n : ℕ} (s : Fin n → Old1) (A : OldOne n) (deltaE : ℝ) (par mu : Fin A.nb → ℤ)
    (hd : Definite sym s A par mu) (hz : ∀ c, ∃ r, A.basis r c ≠ 0) :
    oldCombine sym s s A A deltaE = .ok ((sym.pairs A deltaE par mu).map fun p => (A.diag p.1 + A.diag p.2, pairVec sym A par p)) := by
  classical
  unfold oldCombine
  dsimp only
  set mp := oldMapping sym (number 0 (List.ofFn (pairState s s)))
  have sp := triplets_spec sym hr s mp A par mu hd hz
  rw [if_pos]
  · congr 1
    rw [List.filter_map, List.filter_filter, List.map_map]
    have : (oldPairIdx A.nb A.nb).filter (fun p => ((fun c : ℝ × List (Option ℕ × ℂ) => decide (c.2 ≠ [])) ∘ fun p : Fin A.nb × Fin A.nb =>
        (A.diag p.1 + A.diag p.2, combineTriplets sym s s mp A A p)) p && decide (¬ sym.skips p.1 p.2 ∧ inCutoff deltaE (A.diag p.1 + A.diag p.2))) = sym.pairs A deltaE par mu := by
      unfold OldSym.pairs
      refine List.filter_congr fun p _ => ?_
      rw [Bool.eq_iff_iff]
      simp only [Function.comp, Bool.and_eq_true, decide_eq_true_eq]
      rw [(sp p).1]
      unfold OldSym.keeps
      exact and_comm
    rw [this]
    refine List.map_congr_left fun p hp => ?_
    rw [mem_pairs] at hp
    simp only [Function.comp, Prod.mk.injEq, true_and]
    funext i
    exact (sp p).2.2 hp.2 i
  · intro c hc t ht
    rw [List.mem_filter, List.mem_map] at hc
    obtain ⟨⟨p, -, rfl⟩, -⟩ := hc
    exact (sp p).2.1 t ht

/-- Two square matrices are the same if their sizes and entries are. -/
theorem sized_eq {a b : ℕ} (h : a = b) (M : Matrix (Fin a) (Fin a) ℂ) (N : Matrix (Fin b) (Fin b) ℂ) (he : ∀ i j, M i j = N (Fin.cast h i) (Fin.cast h j)) :
    (⟨a, M⟩ : Σ k, Matrix (Fin k) (Fin k) ℂ) = ⟨b, N⟩ := by
  subst h
  congr 1
  ext i j
  exact he i j

theorem oldPairMat_nec (U : Units) (c1 c2 : Cells) {N : ℕ} (nec : Fin N → Bool) (b : Fin N → Old1 × Old1) (sum : ℕ) (r c : Fin N) :
    oldPairMat U c1 c2 nec b sum r c = if nec r = true ∧ nec c = true then oldPairMat U c1 c2 (fun _ => true) b sum r c else 0 := by
  have low : ∀ r c, oldPairEntry U c1 c2 nec b sum r c = if nec r = true ∧ nec c = true then oldPairEntry U c1 c2 (fun _ => true) b sum r c else 0 := by
    intro r c
    unfold oldPairEntry
    by_cases h : nec r = true ∧ nec c = true
    · simp [h.1, h.2]
    · rw [if_neg h, if_pos]
      by_contra hc
      rw [not_or] at hc
      simp only [Bool.not_eq_false] at hc
      exact h ⟨hc.2, hc.1⟩
  unfold oldPairMat
  rw [low, low]
  by_cases h : nec r = true ∧ nec c = true
  · rw [if_pos h, if_pos h, if_pos h.symm]
  · have h2 : ¬ (nec c = true ∧ nec r = true) := fun h' => h h'.symm
    rw [if_neg h, if_neg h, if_neg h2]
    simp

/-- The entries of the total matrix on columns that lie in the space of the necessary states: energies and the unrestricted interaction. -/
theorem total_entry (U : Units) (c1 c2 : Cells) {N : ℕ} (nec : Fin N → Bool) (b : Fin N → Old1 × Old1) (exponent : ℤ) (R : ℝ)
    (cols : List (ℝ × (Fin N → ℂ))) (hn : ∀ k i, (cols.get k).2 i ≠ 0 → nec i = true) (i j : Fin cols.length) :
    oldTotalTwo U c1 c2 nec b exponent R cols i j = (if i = j then ((cols.get i).1 : ℂ) else 0) +
      ∑ a, ∑ c, star ((cols.get i).2 a) * oldInteraction U c1 c2 (fun _ => true) b exponent R a c * (cols.get j).2 c := by
  have T : (necMat nec)ᴴ * colMat cols = colMat cols := by
    ext a k
    unfold necMat
    rw [diagonal_conjTranspose, diagonal_mul]
    by_cases h : nec a = true
    · simp [h]
    · have : colMat cols a k = 0 := by
        by_contra hne
        exact h (hn k a hne)
      rw [this, mul_zero]
  have one : ∀ sum, ((colMat cols)ᴴ * oldPairMat U c1 c2 nec b sum * colMat cols) i j =
      ∑ a, ∑ c, star ((cols.get i).2 a) * oldPairMat U c1 c2 (fun _ => true) b sum a c * (cols.get j).2 c := by
    intro sum
    rw [mul_apply]
    have : ∀ c, ((colMat cols)ᴴ * oldPairMat U c1 c2 nec b sum) i c * colMat cols c j =
        ∑ a, star ((cols.get i).2 a) * oldPairMat U c1 c2 (fun _ => true) b sum a c * (cols.get j).2 c := by
      intro c
      rw [mul_apply, Finset.sum_mul]
      refine Finset.sum_congr rfl fun a _ => ?_
      rw [conjTranspose_apply, oldPairMat_nec]
      show star ((cols.get i).2 a) * _ * (cols.get j).2 c = _
      by_cases h : nec a = true ∧ nec c = true
      · rw [if_pos h]
      · rw [if_neg h, mul_zero, zero_mul]
        have : (cols.get i).2 a = 0 ∨ (cols.get j).2 c = 0 := by
          by_contra hcc
          push Not at hcc
          exact h ⟨hn i a hcc.1, hn j c hcc.2⟩
        rcases this with h0 | h0 <;> rw [h0] <;> simp
    simp only [this]
    exact Finset.sum_comm
  have lsum : ∀ (Ls : List ℕ) (f : ℕ → Matrix (Fin cols.length) (Fin cols.length) ℂ) (x y : Fin cols.length), (Ls.map f).sum x y = (Ls.map fun t => f t x y).sum := by
    intro Ls f x y
    induction Ls with
    | nil => rfl
    | cons t Ls ih => simp [ih]
  have lsum' : ∀ (Ls : List ℕ) (f : ℕ → Matrix (Fin N) (Fin N) ℂ) (x y : Fin N), (Ls.map f).sum x y = (Ls.map fun t => f t x y).sum := by
    intro Ls f x y
    induction Ls with
    | nil => rfl
    | cons t Ls ih => simp [ih]
  have unf : oldTotalTwo U c1 c2 nec b exponent R cols = Matrix.diagonal (fun k => ((cols.get k).1 : ℂ)) + ((oldSums exponent).map fun sum =>
      ((1 / R ^ (sum + 1) : ℝ) : ℂ) • ((colMat cols)ᴴ * oldPairMat U c1 c2 nec b sum * colMat cols)).sum := by
    unfold oldTotalTwo
    rw [T]
  rw [unf, Matrix.add_apply, lsum]
  congr 1
  · unfold oldInteraction
    simp only [lsum', Matrix.smul_apply, one, smul_eq_mul]
    generalize oldSums exponent = Ls
    induction Ls with
    | nil => simp
    | cons t Ls ih =>
      rw [List.map_cons, List.sum_cons, ih, Finset.mul_sum, ← Finset.sum_add_distrib]
      refine Finset.sum_congr rfl fun a _ => ?_
      rw [Finset.mul_sum, ← Finset.sum_add_distrib]
      refine Finset.sum_congr rfl fun c _ => ?_
      rw [List.map_cons, List.sum_cons]
      ring

/-- The total matrix over a list of pairs. -/
theorem total_of_cols (U : Units) (c1 c2 : Cells) {N : ℕ} (nec : Fin N → Bool) (b : Fin N → Old1 × Old1) (exponent : ℤ) (R : ℝ) {P : Type} [DecidableEq P]
    (L : List P) (hL : L.Nodup) (e : P → ℝ) (w : P → Fin N → ℂ) (hn : ∀ p ∈ L, ∀ i, w p i ≠ 0 → nec i = true) :
    (⟨_, oldTotalTwo U c1 c2 nec b exponent R (L.map fun p => (e p, w p))⟩ : Σ k, Matrix (Fin k) (Fin k) ℂ) =
    ⟨L.length, listMat (fun p q => (if p = q then (e p : ℂ) else 0) + ∑ i, ∑ j, star (w p i) * oldInteraction U c1 c2 (fun _ => true) b exponent R i j * w q j) L⟩ := by
  have len : (L.map fun p => (e p, w p)).length = L.length := by simp
  have g : ∀ k : Fin (L.map fun p => (e p, w p)).length, (L.map fun p => (e p, w p)).get k = (e (L.get (Fin.cast len k)), w (L.get (Fin.cast len k))) := by
    intro k
    simp
  refine sized_eq len _ _ fun i j => ?_
  rw [total_entry _ _ _ _ _ _ _ _ (by intro k i h; rw [g] at h; exact hn _ (List.get_mem _ _) i h), g, g]
  unfold listMat
  congr 1
  by_cases h : i = j
  · subst h; rw [if_pos rfl, if_pos rfl]
  · have : L.get (Fin.cast len i) ≠ L.get (Fin.cast len j) := by
      intro hpq
      have := (List.nodup_iff_injective_get.mp hL) hpq
      exact h (Fin.ext (by simpa [Fin.ext_iff] using this))
    rw [if_neg h, if_neg this]

/-- The Hamiltonian between products of basis vectors: their energies and an interaction. -/
noncomputable def pairG {n : ℕ} (A : OldOne n) (V : Matrix (Fin (n * n)) (Fin (n * n)) ℂ) (p q : Fin A.nb × Fin A.nb) : ℂ :=
  (if p = q then ((A.diag p.1 + A.diag p.2 : ℝ) : ℂ) else 0) + ∑ i, ∑ j, star (kronCol A A p i) * V i j * kronCol A A q j

/-- The Hamiltonian between the vectors of a block. -/
noncomputable def blockElem (sym : OldSym) {k : ℕ} (par : Fin k → ℤ) (G : Fin k × Fin k → Fin k × Fin k → ℂ) (p q : Fin k × Fin k) : ℂ :=
  open Classical in
  if sym.inversion ≠ none ∨ sym.permutation ≠ none then symElem (fun p => (sym.secSign par p : ℤ)) G p q else G p q

/-- The sign of the block, and the sign of the exchange. -/
noncomputable def OldSym.eps (sym : OldSym) : ℂ :=
  open Classical in if sym.inversion = some .even ∨ (sym.inversion = none ∧ sym.permutation = some .even) then -1 else 1

/-- The sign of the exchange: the product of the parities, or one. -/
noncomputable def OldSym.exch (sym : OldSym) {k : ℕ} (par : Fin k → ℤ) (p : Fin k × Fin k) : ℂ :=
  open Classical in if sym.inversion ≠ none then ((par p.1 * par p.2 : ℤ) : ℂ) else 1

theorem secSign_eq (sym : OldSym) {k : ℕ} (par : Fin k → ℤ) (p : Fin k × Fin k) : ((sym.secSign par p : ℤ) : ℂ) = sym.eps * sym.exch par p := by
  unfold OldSym.secSign OldSym.eps OldSym.exch OldSym.perSign
  rcases h : sym.inversion with _ | _ | _
  · by_cases h2 : sym.permutation = some .even
    · simp [h2]
    · simp [h2]
  · simp
  · simp

theorem eps_sign (sym : OldSym) : sym.eps = 1 ∨ sym.eps = -1 := by
  unfold OldSym.eps
  split_ifs
  · right; rfl
  · left; rfl

theorem exch_sign (sym : OldSym) {k : ℕ} (par : Fin k → ℤ) (hp : ∀ c, par c = 1 ∨ par c = -1) : PairSign (sym.exch par) where
  one p := by
    unfold OldSym.exch
    split_ifs
    · rcases hp p.1 with h | h <;> rcases hp p.2 with h' | h' <;> rw [h, h'] <;> simp
    · left; rfl
  swap p := by
    unfold OldSym.exch
    rw [Prod.fst_swap, Prod.snd_swap, mul_comm]
  diag p h := by
    unfold OldSym.exch
    rw [h]
    rcases hp p.2 with h' | h' <;> rw [h'] <;> simp

theorem kron_orth {n1 n2 : ℕ} (A : OldOne n1) (B : OldOne n2) (hA : A.basisᴴ * A.basis = 1) (hB : B.basisᴴ * B.basis = 1) (p q : Fin A.nb × Fin B.nb) :
    ∑ i, star (kronCol A B p i) * kronCol A B q i = if p = q then 1 else 0 := by
  have e : ∀ (c d : Fin A.nb), ∑ r, star (A.basis r c) * A.basis r d = if c = d then 1 else 0 := by
    intro c d
    have := congrFun (congrFun hA c) d
    rwa [mul_apply, one_apply] at this
  have e' : ∀ (c d : Fin B.nb), ∑ r, star (B.basis r c) * B.basis r d = if c = d then 1 else 0 := by
    intro c d
    have := congrFun (congrFun hB c) d
    rwa [mul_apply, one_apply] at this
  rw [← finProdFinEquiv.sum_comp, Fintype.sum_prod_type]
  unfold kronCol
  simp only [Equiv.symm_apply_apply]
  have : ∀ a b, star (A.basis a p.1 * B.basis b p.2) * (A.basis a q.1 * B.basis b q.2) = (star (A.basis a p.1) * A.basis a q.1) * (star (B.basis b p.2) * B.basis b q.2) := by
    intro a b
    rw [star_mul']
    ring
  simp only [this, ← Finset.mul_sum, ← Finset.sum_mul, e, e']
  by_cases h1 : p.1 = q.1 <;> by_cases h2 : p.2 = q.2 <;> simp [Prod.ext_iff, h1, h2]

/-- A bilinear form between linear combinations. -/
theorem form_combination {N : ℕ} {P : Type} [Fintype P] (V : Matrix (Fin N) (Fin N) ℂ) (K : P → Fin N → ℂ) (c d : P → ℂ) :
    ∑ i, ∑ j, star (∑ r, K r i * c r) * V i j * (∑ t, K t j * d t) = ∑ r, ∑ t, star (c r) * (∑ i, ∑ j, star (K r i) * V i j * K t j) * d t := by
  have l : ∀ i j, star (∑ r, K r i * c r) * V i j * (∑ t, K t j * d t) = ∑ r, ∑ t, star (c r) * (star (K r i) * V i j * K t j) * d t := by
    intro i j
    rw [star_sum, Finset.sum_mul, Finset.sum_mul]
    refine Finset.sum_congr rfl fun r _ => ?_
    rw [Finset.mul_sum]
    refine Finset.sum_congr rfl fun t _ => ?_
    rw [star_mul']
    ring
  have r : ∀ r t, star (c r) * (∑ i, ∑ j, star (K r i) * V i j * K t j) * d t = ∑ i, ∑ j, star (c r) * (star (K r i) * V i j * K t j) * d t := by
    intro r t
    simp only [Finset.mul_sum, Finset.sum_mul]
  simp only [l, r]
  have sw : ∀ i, ∑ j, ∑ r, ∑ t, star (c r) * (star (K r i) * V i j * K t j) * d t = ∑ r, ∑ t, ∑ j, star (c r) * (star (K r i) * V i j * K t j) * d t := by
    intro i
    rw [Finset.sum_comm]
    exact Finset.sum_congr rfl fun r _ => Finset.sum_comm
  simp only [sw]
  rw [Finset.sum_comm]
  exact Finset.sum_congr rfl fun r _ => Finset.sum_comm

theorem pairVec_symVec (sym : OldSym) {n : ℕ} (A : OldOne n) (par : Fin A.nb → ℤ) (p : Fin A.nb × Fin A.nb) (hs : sym.inversion ≠ none ∨ sym.permutation ≠ none) (i : Fin (n * n)) :
    pairVec sym A par p i = ∑ r, kronCol A A r i * oldSymVec (fun p => (sym.secSign par p : ℤ)) p r := by
  rw [sum_symVec]
  unfold pairVec
  by_cases h : p.1 = p.2
  · rw [if_neg (by simp [h]), if_pos h]
  · rw [if_pos ⟨hs, h⟩, if_neg h]

/-- For the pairs of a block the vectors are orthonormal. -/
theorem oldSymVec_block (sym : OldSym) {n : ℕ} (A : OldOne n) (deltaE : ℝ) (par mu : Fin A.nb → ℤ) (hp : ∀ c, par c = 1 ∨ par c = -1)
    (hs : sym.inversion ≠ none ∨ sym.permutation ≠ none) (p q : Fin A.nb × Fin A.nb) (kp : sym.keeps A deltaE par mu p) (kq : sym.keeps A deltaE par mu q) :
    ∑ r, oldSymVec (fun p => (sym.secSign par p : ℤ)) q r * oldSymVec (fun p => (sym.secSign par p : ℤ)) p r = if p = q then 1 else 0 := by
  have ord : ∀ p, sym.keeps A deltaE par mu p → p.2 ≤ p.1 ∧ (sym.eps = -1 → p.2 ≠ p.1) := by
    rintro p ⟨⟨h, -⟩, -⟩
    unfold OldSym.skips at h
    push Not at h
    obtain ⟨h1, h2, h3, h4⟩ := h
    constructor
    · rcases hs with hi | hi
      · rcases hx : sym.inversion with _ | _ | _
        · exact absurd hx hi
        · exact (Fin.lt_def.mpr (h1 hx)).le
        · exact Fin.le_def.mpr (h2 hx)
      · rcases hx : sym.permutation with _ | _ | _
        · exact absurd hx hi
        · exact (Fin.lt_def.mpr (h3 hx)).le
        · exact Fin.le_def.mpr (h4 hx)
    · intro he
      unfold OldSym.eps at he
      split_ifs at he with hc
      · rcases hc with hc | ⟨-, hc⟩
        · exact (Fin.lt_def.mpr (h1 hc)).ne
        · exact (Fin.lt_def.mpr (h3 hc)).ne
      · norm_num at he
  have e := oldSymVec_overlap (fun _ => True) (fun _ _ => trivial) (sym.exch par) (exch_sign sym par hp) sym.eps sym.eps (eps_sign sym) (eps_sign sym) p q trivial
    (ord p kp).1 (ord q kq).1 (ord p kp).2 (ord q kq).2
  simp only [and_true] at e
  rw [← e]
  have sec : (fun p => ((sym.secSign par p : ℤ) : ℂ)) = fun p => sym.eps * sym.exch par p := funext fun p => secSign_eq sym par p
  rw [sec]
  exact Finset.sum_subtype Finset.univ (by simp) fun r => oldSymVec (fun p => sym.eps * sym.exch par p) q r * oldSymVec (fun p => sym.eps * sym.exch par p) p r

theorem oldSymVec_real (sym : OldSym) {k : ℕ} (par : Fin k → ℤ) (p r : Fin k × Fin k) :
    star (oldSymVec (fun p => ((sym.secSign par p : ℤ) : ℂ)) p r) = oldSymVec (fun p => ((sym.secSign par p : ℤ) : ℂ)) p r :=
  oldSymVec_star _ (fun p => by simp) p r

/-- The elements of the total matrix between the vectors of a block. -/
theorem block_elem (sym : OldSym) {n : ℕ} (A : OldOne n) (deltaE : ℝ) (par mu : Fin A.nb → ℤ) (hp : ∀ c, par c = 1 ∨ par c = -1)
    (V : Matrix (Fin (n * n)) (Fin (n * n)) ℂ) (p q : Fin A.nb × Fin A.nb) (kp : sym.keeps A deltaE par mu p) (kq : sym.keeps A deltaE par mu q) :
    (if p = q then ((A.diag p.1 + A.diag p.2 : ℝ) : ℂ) else 0) + ∑ i, ∑ j, star (pairVec sym A par p i) * V i j * pairVec sym A par q j =
      blockElem sym par (pairG A V) p q := by
  unfold blockElem
  by_cases hs : sym.inversion ≠ none ∨ sym.permutation ≠ none
  · rw [if_pos hs]
    simp only [pairVec_symVec sym A par _ hs]
    rw [form_combination V (fun r => kronCol A A r)]
    unfold symElem pairG
    simp only [mul_add, add_mul, Finset.sum_add_distrib]
    congr 1
    have inner : ∀ r, ∑ t, star (oldSymVec (fun p => ((sym.secSign par p : ℤ) : ℂ)) p r) * (if r = t then ((A.diag r.1 + A.diag r.2 : ℝ) : ℂ) else 0) *
        oldSymVec (fun p => ((sym.secSign par p : ℤ) : ℂ)) q t =
        ((A.diag p.1 + A.diag p.2 : ℝ) : ℂ) * (oldSymVec (fun p => ((sym.secSign par p : ℤ) : ℂ)) q r * oldSymVec (fun p => ((sym.secSign par p : ℤ) : ℂ)) p r) := by
      intro r
      rw [Finset.sum_eq_single r (by intro t _ ht; rw [if_neg (Ne.symm ht)]; simp) (by simp), if_pos rfl, oldSymVec_real]
      by_cases hr : r = p ∨ r = p.swap
      · have : A.diag r.1 + A.diag r.2 = A.diag p.1 + A.diag p.2 := by
          rcases hr with rfl | rfl
          · rfl
          · exact add_comm _ _
        rw [this]
        ring
      · have : oldSymVec (fun p => ((sym.secSign par p : ℤ) : ℂ)) p r = 0 := by
          unfold oldSymVec
          rw [not_or] at hr
          simp [hr.1, hr.2]
        rw [this]
        ring
    simp only [inner, ← Finset.mul_sum]
    rw [oldSymVec_block sym A deltaE par mu hp hs p q kp kq]
    split_ifs <;> simp
  · rw [if_neg hs]
    have : ∀ p, pairVec sym A par p = kronCol A A p := by
      intro p
      funext i
      unfold pairVec
      rw [if_neg (fun h => hs h.1)]
    simp only [this]
    rfl

theorem pairVec_norm (sym : OldSym) {n : ℕ} (A : OldOne n) (hA : A.basisᴴ * A.basis = 1) (deltaE : ℝ) (par mu : Fin A.nb → ℤ) (hp : ∀ c, par c = 1 ∨ par c = -1)
    (p : Fin A.nb × Fin A.nb) (kp : sym.keeps A deltaE par mu p) : ∑ i, ‖pairVec sym A par p i‖ ^ 2 = 1 := by
  have c : ∑ i, star (pairVec sym A par p i) * pairVec sym A par p i = 1 := by
    by_cases hs : sym.inversion ≠ none ∨ sym.permutation ≠ none
    · have f := form_combination (1 : Matrix (Fin (n * n)) (Fin (n * n)) ℂ) (fun r => kronCol A A r) (oldSymVec (fun p => ((sym.secSign par p : ℤ) : ℂ)) p)
        (oldSymVec (fun p => ((sym.secSign par p : ℤ) : ℂ)) p)
      simp only [← pairVec_symVec sym A par _ hs, one_apply, mul_ite, mul_one, mul_zero, ite_mul, zero_mul, Finset.sum_ite_eq, Finset.mem_univ, if_true,
        kron_orth A A hA hA, oldSymVec_real] at f
      rw [f, oldSymVec_block sym A deltaE par mu hp hs p p kp kp, if_pos rfl]
    · have : ∀ i, pairVec sym A par p i = kronCol A A p i := by
        intro i
        unfold pairVec
        rw [if_neg (fun h => hs h.1)]
      simp only [this]
      rw [kron_orth A A hA hA, if_pos rfl]
  have : ((∑ i, ‖pairVec sym A par p i‖ ^ 2 : ℝ) : ℂ) = 1 := by
    rw [← c]
    push_cast
    refine Finset.sum_congr rfl fun i _ => ?_
    rw [Complex.star_def, Complex.conj_mul']
  exact_mod_cast this

theorem orth_ne {n : ℕ} (A : OldOne n) (hA : A.basisᴴ * A.basis = 1) (c : Fin A.nb) : ∃ r, A.basis r c ≠ 0 := by
  by_contra h
  push Not at h
  have := congrFun (congrFun hA c) c
  rw [mul_apply, one_apply_eq] at this
  simp [h] at this

/-- What is diagonalised in a block without reflection. -/
theorem block_spec (U : Units) (c1 c2 : Cells) (sym : OldSym) (hr : sym.reflection = none) {n : ℕ} (s : Fin n → Old1) (A : OldOne n) (hA : A.basisᴴ * A.basis = 1)
    (deltaE : ℝ) (par mu : Fin A.nb → ℤ) (hd : Definite sym s A par mu) (nec : Fin (n * n) → Bool) (exponent : ℤ) (R : ℝ)
    (hn : ∀ p, sym.keeps A deltaE par mu p → ∀ i, pairVec sym A par p i ≠ 0 → nec i = true) :
    oldBlock U c1 c2 sym s s A A deltaE nec exponent R = .ok ⟨_, listMat (blockElem sym par (pairG A (oldInteraction U c1 c2 (fun _ => true) (pairState s s) exponent R)))
      (sym.pairs A deltaE par mu)⟩ := by
  classical
  unfold oldBlock
  rw [combine_spec sym hr s A deltaE par mu hd (orth_ne A hA)]
  refine (Out.ok_bind _ _).trans ?_
  have pr : oldPrune ((sym.pairs A deltaE par mu).map fun p => (A.diag p.1 + A.diag p.2, pairVec sym A par p)) =
      (sym.pairs A deltaE par mu).map fun p => (A.diag p.1 + A.diag p.2, pairVec sym A par p) := by
    unfold oldPrune
    rw [List.filter_eq_self]
    intro c hc
    rw [List.mem_map] at hc
    obtain ⟨p, hp, rfl⟩ := hc
    rw [mem_pairs] at hp
    rw [decide_eq_true_eq]
    dsimp only
    rw [pairVec_norm sym A hA deltaE par mu hd.sign p hp]
    norm_num
  rw [pr]
  congr 1
  rw [total_of_cols U c1 c2 nec _ exponent R _ (pairs_nodup sym A deltaE par mu) _ _ (fun p hp => hn p ((mem_pairs sym A deltaE par mu p).mp hp))]
  refine sized_eq rfl _ _ fun i j => ?_
  exact block_elem sym A deltaE par mu hd.sign _ _ _ ((mem_pairs ..).mp (List.get_mem _ _)) ((mem_pairs ..).mp (List.get_mem _ _))

end PI
