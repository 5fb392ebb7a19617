import Verif.Legacy.Blocks
import Verif.Legacy.Exchange

/-!
# Legacy pair Hamiltonian: symmetry blocks and the spectrum (C89, C90)
-/

namespace PI

open Matrix

theorem kron_swap {n : ℕ} (A : OldOne n) (p : Fin A.nb × Fin A.nb) (i : Fin (n * n)) : kronCol A A p.swap (swapIdx i) = kronCol A A p i := by
  unfold kronCol swapIdx
  rw [Equiv.symm_apply_apply]
  exact mul_comm _ _

/-- The exchange as a permutation of the rows. -/
def swapPerm (n : ℕ) : Fin (n * n) ≃ Fin (n * n) := ⟨swapIdx, swapIdx, swapIdx_swapIdx, swapIdx_swapIdx⟩

theorem pairG_swap {n : ℕ} (A : OldOne n) (V : Matrix (Fin (n * n)) (Fin (n * n)) ℂ) (s : Fin A.nb × Fin A.nb → ℂ) (hs : PairSign s)
    (hV : ∀ p q i j, kronCol A A p i ≠ 0 → kronCol A A q j ≠ 0 → V (swapIdx i) (swapIdx j) = s p * s q * V i j) (p q : Fin A.nb × Fin A.nb) :
    pairG A V p.swap q.swap = s p * s q * pairG A V p q := by
  unfold pairG
  rw [mul_add]
  congr 1
  · by_cases h : p = q
    · subst h
      rw [if_pos rfl, if_pos rfl]
      have : s p * s p = 1 := by rcases hs.one p with h | h <;> rw [h] <;> norm_num
      rw [this, one_mul, Prod.fst_swap, Prod.snd_swap, add_comm]
    · rw [if_neg h, if_neg (fun h' => h (Prod.swap_injective h')), mul_zero]
  · rw [← (swapPerm n).sum_comp, Finset.mul_sum]
    refine Finset.sum_congr rfl fun i _ => ?_
    rw [← (swapPerm n).sum_comp, Finset.mul_sum]
    refine Finset.sum_congr rfl fun j _ => ?_
    show star (kronCol A A p.swap (swapIdx i)) * V (swapIdx i) (swapIdx j) * kronCol A A q.swap (swapIdx j) = _
    rw [kron_swap, kron_swap]
    by_cases h1 : kronCol A A p i = 0
    · rw [h1]; simp
    · by_cases h2 : kronCol A A q j = 0
      · rw [h2]; simp
      · rw [hV p q i j h1 h2]
        ring

theorem pairG_zero {n : ℕ} {α : Type} (A : OldOne n) (V : Matrix (Fin (n * n)) (Fin (n * n)) ℂ) (f : Fin (n * n) → α) (g : Fin A.nb × Fin A.nb → α)
    (hg : ∀ p i, kronCol A A p i ≠ 0 → f i = g p) (hV : ∀ i j, V i j ≠ 0 → f i = f j) (p q : Fin A.nb × Fin A.nb) (h : g p ≠ g q) : pairG A V p q = 0 := by
  unfold pairG
  rw [if_neg (fun h' => h (congrArg g h')), zero_add]
  refine Finset.sum_eq_zero fun i _ => Finset.sum_eq_zero fun j _ => ?_
  by_contra hne
  have h1 : kronCol A A p i ≠ 0 := by intro h0; rw [h0] at hne; simp at hne
  have h2 : kronCol A A q j ≠ 0 := by intro h0; rw [h0] at hne; simp at hne
  have h3 : V i j ≠ 0 := by intro h0; rw [h0] at hne; simp at hne
  exact h (by rw [← hg p i h1, ← hg q j h2, hV i j h3])

/-- The condition on a pair apart from the symmetry of the exchange. -/
def baseKeeps (rot : Option ℤ) {n : ℕ} (A : OldOne n) (deltaE : ℝ) (mu : Fin A.nb → ℤ) (p : Fin A.nb × Fin A.nb) : Prop :=
  inCutoff deltaE (A.diag p.1 + A.diag p.2) ∧ ∀ M, rot = some M → 2 * M = mu p.1 + mu p.2

theorem baseKeeps_swap (rot : Option ℤ) {n : ℕ} (A : OldOne n) (deltaE : ℝ) (mu : Fin A.nb → ℤ) (p : Fin A.nb × Fin A.nb) (h : baseKeeps rot A deltaE mu p) :
    baseKeeps rot A deltaE mu p.swap := by
  unfold baseKeeps at h ⊢
  rw [Prod.fst_swap, Prod.snd_swap]
  exact ⟨by rw [add_comm]; exact h.1, fun M hM => by rw [add_comm]; exact h.2 M hM⟩

/-- Pairs allowed by an order. -/
def orderOk : Option OldParity → {k : ℕ} → Fin k × Fin k → Prop
  | none, _, _ => True
  | some .even, _, p => p.2 < p.1
  | some .odd, _, p => p.2 ≤ p.1

theorem keeps_iff (inv per : Option OldParity) (rot : Option ℤ) {n : ℕ} (A : OldOne n) (deltaE : ℝ) (par mu : Fin A.nb → ℤ) (p : Fin A.nb × Fin A.nb) :
    OldSym.keeps ⟨inv, per, none, rot⟩ A deltaE par mu p ↔ baseKeeps rot A deltaE mu p ∧ orderOk inv p ∧ orderOk per p ∧
      (inv ≠ none → per ≠ none → p.1 ≠ p.2 → OldSym.secSign ⟨inv, per, none, rot⟩ par p = OldSym.perSign ⟨inv, per, none, rot⟩) := by
  unfold OldSym.keeps baseKeeps OldSym.inSector OldSym.skips
  rcases inv with _ | _ | _ <;> rcases per with _ | _ | _ <;> simp [orderOk] <;> tauto

section
variable {n : ℕ} (A : OldOne n) (deltaE : ℝ) (par mu : Fin A.nb → ℤ) (V : Matrix (Fin (n * n)) (Fin (n * n)) ℂ)

/-- The characteristic polynomial of a block. -/
noncomputable def blockPoly (sym : OldSym) : Polynomial ℂ := (listMat (blockElem sym par (pairG A V)) (sym.pairs A deltaE par mu)).charpoly

theorem blockPoly_eq (sym : OldSym) (K : Fin A.nb × Fin A.nb → Prop) [Fintype {p // K p}] (hK : ∀ p, sym.keeps A deltaE par mu p ↔ K p) (f : Fin A.nb × Fin A.nb → Fin A.nb × Fin A.nb → ℂ)
    (hf : blockElem sym par (pairG A V) = f) : blockPoly A deltaE par mu V sym = (subMat f K).charpoly := by
  classical
  unfold blockPoly
  rw [hf]
  exact listMat_charpoly f _ K (pairs_nodup ..) fun p => (mem_pairs ..).trans (hK p)

theorem blockElem_sym (sym : OldSym) (h : sym.inversion ≠ none ∨ sym.permutation ≠ none) (G : Fin A.nb × Fin A.nb → Fin A.nb × Fin A.nb → ℂ) (σ : Fin A.nb × Fin A.nb → ℂ)
    (hσ : ∀ p, sym.eps * sym.exch par p = σ p) : blockElem sym par G = symElem σ G := by
  funext p q
  unfold blockElem
  rw [if_pos h]
  have : (fun p => ((sym.secSign par p : ℤ) : ℂ)) = σ := funext fun p => (secSign_eq sym par p).trans (hσ p)
  rw [this]

theorem blockElem_none (sym : OldSym) (h : sym.inversion = none) (h' : sym.permutation = none) (G : Fin A.nb × Fin A.nb → Fin A.nb × Fin A.nb → ℂ) : blockElem sym par G = G := by
  funext p q
  unfold blockElem
  rw [if_neg (by simp [h, h'])]

/-- Products of parities. -/
def parSign (p : Fin A.nb × Fin A.nb) : ℂ := ((par p.1 * par p.2 : ℤ) : ℂ)

theorem parSign_sign (hp : ∀ c, par c = 1 ∨ par c = -1) : PairSign (parSign A par) where
  one p := by
    unfold parSign
    rcases hp p.1 with h | h <;> rcases hp p.2 with h' | h' <;> rw [h, h'] <;> simp
  swap p := by
    unfold parSign
    rw [Prod.fst_swap, Prod.snd_swap, mul_comm]
  diag p h := by
    unfold parSign
    rw [h]
    rcases hp p.2 with h' | h' <;> rw [h'] <;> simp

/-- The blocks of even and odd inversion parity. -/
theorem inversion_split (rot : Option ℤ) (hp : ∀ c, par c = 1 ∨ par c = -1)
    (hG : ∀ p q, pairG A V p.swap q.swap = parSign A par p * parSign A par q * pairG A V p q) :
    blockPoly A deltaE par mu V ⟨none, none, none, rot⟩ = blockPoly A deltaE par mu V ⟨some .even, none, none, rot⟩ * blockPoly A deltaE par mu V ⟨some .odd, none, none, rot⟩ := by
  classical
  rw [blockPoly_eq A deltaE par mu V ⟨none, none, none, rot⟩ (baseKeeps rot A deltaE mu) (fun p => by rw [keeps_iff]; simp [orderOk]) _ (blockElem_none A par _ rfl rfl _),
    blockPoly_eq A deltaE par mu V ⟨some .even, none, none, rot⟩ (fun p => baseKeeps rot A deltaE mu p ∧ p.2 < p.1) (fun p => by rw [keeps_iff]; simp [orderOk]) _
      (blockElem_sym A par _ (Or.inl (by simp)) _ (fun p => -parSign A par p) (fun p => by simp [OldSym.eps, OldSym.exch, parSign])),
    blockPoly_eq A deltaE par mu V ⟨some .odd, none, none, rot⟩ (fun p => baseKeeps rot A deltaE mu p ∧ p.2 ≤ p.1) (fun p => by rw [keeps_iff]; simp [orderOk]) _
      (blockElem_sym A par _ (Or.inl (by simp)) _ (fun p => parSign A par p) (fun p => by simp [OldSym.eps, OldSym.exch, parSign]))]
  exact pair_split _ (baseKeeps_swap rot A deltaE mu) _ (parSign_sign A par hp) _ fun p q _ _ => hG p q

/-- The blocks of even and odd permutation parity. -/
theorem permutation_split (rot : Option ℤ) (hG : ∀ p q, pairG A V p.swap q.swap = pairG A V p q) :
    blockPoly A deltaE par mu V ⟨none, none, none, rot⟩ = blockPoly A deltaE par mu V ⟨none, some .even, none, rot⟩ * blockPoly A deltaE par mu V ⟨none, some .odd, none, rot⟩ := by
  classical
  rw [blockPoly_eq A deltaE par mu V ⟨none, none, none, rot⟩ (baseKeeps rot A deltaE mu) (fun p => by rw [keeps_iff]; simp [orderOk]) _ (blockElem_none A par _ rfl rfl _),
    blockPoly_eq A deltaE par mu V ⟨none, some .even, none, rot⟩ (fun p => baseKeeps rot A deltaE mu p ∧ p.2 < p.1) (fun p => by rw [keeps_iff]; simp [orderOk]) _
      (blockElem_sym A par _ (Or.inr (by simp)) _ (fun _ => -1) (fun p => by simp [OldSym.eps, OldSym.exch])),
    blockPoly_eq A deltaE par mu V ⟨none, some .odd, none, rot⟩ (fun p => baseKeeps rot A deltaE mu p ∧ p.2 ≤ p.1) (fun p => by rw [keeps_iff]; simp [orderOk]) _
      (blockElem_sym A par _ (Or.inr (by simp)) _ (fun _ => 1) (fun p => by simp [OldSym.eps, OldSym.exch]))]
  exact pair_split _ (baseKeeps_swap rot A deltaE mu) (fun _ => 1) ⟨fun _ => Or.inl rfl, fun _ => rfl, fun _ _ => rfl⟩ _ fun p q _ _ => by rw [hG]; ring

theorem both_keeps (rot : Option ℤ) (hp : ∀ c, par c = 1 ∨ par c = -1) (i e : OldParity) (p : Fin A.nb × Fin A.nb) :
    OldSym.keeps ⟨some i, some e, none, rot⟩ A deltaE par mu p ↔
      (baseKeeps rot A deltaE mu p ∧ par p.1 * par p.2 = i.int * e.int) ∧ p.2 ≤ p.1 ∧ (i = .even → p.2 < p.1) := by
  rw [keeps_iff]
  have sec : par p.1 * par p.2 = 1 ∨ par p.1 * par p.2 = -1 := by
    rcases hp p.1 with h | h <;> rcases hp p.2 with h' | h' <;> rw [h, h'] <;> simp
  have diag : p.1 = p.2 → par p.1 * par p.2 = 1 := by
    intro h
    rw [h]
    rcases hp p.2 with h' | h' <;> rw [h'] <;> simp
  simp only [OldSym.secSign, OldSym.perSign]
  generalize par p.1 * par p.2 = χ at sec diag
  rcases lt_trichotomy p.1 p.2 with h | h | h
  · have h1 : ¬ p.2 ≤ p.1 := not_le.mpr h
    have h2 : ¬ p.2 < p.1 := fun h' => h1 h'.le
    cases i <;> cases e <;> simp [orderOk, h1, h2]
  · have := diag h
    subst this
    cases i <;> cases e <;> simp [orderOk, h, OldParity.int]
  · have h1 : p.1 ≠ p.2 := h.ne'
    have h2 : p.2 ≤ p.1 := h.le
    rcases sec with rfl | rfl <;> cases i <;> cases e <;> simp [orderOk, h, h1, h2, OldParity.int]

/-- The blocks of both parities. -/
theorem both_split (rot : Option ℤ) (hp : ∀ c, par c = 1 ∨ par c = -1)
    (hG : ∀ p q, pairG A V p.swap q.swap = parSign A par p * parSign A par q * pairG A V p q)
    (h0 : ∀ p q, par p.1 * par p.2 ≠ par q.1 * par q.2 → pairG A V p q = 0) :
    blockPoly A deltaE par mu V ⟨none, none, none, rot⟩ =
      (blockPoly A deltaE par mu V ⟨some .even, some .even, none, rot⟩ * blockPoly A deltaE par mu V ⟨some .odd, some .odd, none, rot⟩) *
      (blockPoly A deltaE par mu V ⟨some .even, some .odd, none, rot⟩ * blockPoly A deltaE par mu V ⟨some .odd, some .even, none, rot⟩) := by
  classical
  have sec : ∀ p : Fin A.nb × Fin A.nb, par p.1 * par p.2 = 1 ∨ par p.1 * par p.2 = -1 := by
    intro p
    rcases hp p.1 with h | h <;> rcases hp p.2 with h' | h' <;> rw [h, h'] <;> simp
  have diag : ∀ p : Fin A.nb × Fin A.nb, p.1 = p.2 → par p.1 * par p.2 = 1 := by
    intro p h
    rw [h]
    rcases hp p.2 with h' | h' <;> rw [h'] <;> simp
  rw [blockPoly_eq A deltaE par mu V ⟨none, none, none, rot⟩ (baseKeeps rot A deltaE mu) (fun p => by rw [keeps_iff]; simp [orderOk]) _ (blockElem_none A par _ rfl rfl _),
    blockPoly_eq A deltaE par mu V ⟨some .even, some .even, none, rot⟩ (fun p => (baseKeeps rot A deltaE mu p ∧ par p.1 * par p.2 = 1) ∧ p.2 < p.1) ?_ _
      (blockElem_sym A par _ (Or.inl (by simp)) _ (fun p => -parSign A par p) (fun p => by simp [OldSym.eps, OldSym.exch, parSign])),
    blockPoly_eq A deltaE par mu V ⟨some .odd, some .odd, none, rot⟩ (fun p => (baseKeeps rot A deltaE mu p ∧ par p.1 * par p.2 = 1) ∧ p.2 ≤ p.1) ?_ _
      (blockElem_sym A par _ (Or.inl (by simp)) _ (fun p => parSign A par p) (fun p => by simp [OldSym.eps, OldSym.exch, parSign])),
    blockPoly_eq A deltaE par mu V ⟨some .even, some .odd, none, rot⟩ (fun p => (baseKeeps rot A deltaE mu p ∧ par p.1 * par p.2 = -1) ∧ p.2 < p.1) ?_ _
      (blockElem_sym A par _ (Or.inl (by simp)) _ (fun p => -parSign A par p) (fun p => by simp [OldSym.eps, OldSym.exch, parSign])),
    blockPoly_eq A deltaE par mu V ⟨some .odd, some .even, none, rot⟩ (fun p => (baseKeeps rot A deltaE mu p ∧ par p.1 * par p.2 = -1) ∧ p.2 ≤ p.1) ?_ _
      (blockElem_sym A par _ (Or.inl (by simp)) _ (fun p => parSign A par p) (fun p => by simp [OldSym.eps, OldSym.exch, parSign]))]
  · rw [← pair_split (fun p => baseKeeps rot A deltaE mu p ∧ par p.1 * par p.2 = 1) (fun p h => ⟨baseKeeps_swap rot A deltaE mu p h.1, by rw [Prod.fst_swap, Prod.snd_swap, mul_comm]; exact h.2⟩)
      _ (parSign_sign A par hp) _ fun p q _ _ => hG p q,
      ← pair_split (fun p => baseKeeps rot A deltaE mu p ∧ par p.1 * par p.2 = -1) (fun p h => ⟨baseKeeps_swap rot A deltaE mu p h.1, by rw [Prod.fst_swap, Prod.snd_swap, mul_comm]; exact h.2⟩)
      _ (parSign_sign A par hp) _ fun p q _ _ => hG p q]
    rw [sector_split (pairG A V) (baseKeeps rot A deltaE mu) (fun p => par p.1 * par p.2) {1, -1} (fun p _ => by simpa using sec p) (fun p q _ _ h => h0 p q h),
      Finset.prod_pair (by norm_num)]
  · exact fun p => (both_keeps A deltaE par mu rot hp .odd .even p).trans (by simp [OldParity.int])
  · exact fun p => (both_keeps A deltaE par mu rot hp .even .odd p).trans (by simp only [OldParity.int]; have : p.2 < p.1 → p.2 ≤ p.1 := le_of_lt; simp; tauto)
  · exact fun p => (both_keeps A deltaE par mu rot hp .odd .odd p).trans (by simp [OldParity.int])
  · exact fun p => (both_keeps A deltaE par mu rot hp .even .even p).trans (by simp only [OldParity.int]; have : p.2 < p.1 → p.2 ≤ p.1 := le_of_lt; simp; tauto)

theorem blockElem_zero (sym : OldSym) (G : Fin A.nb × Fin A.nb → Fin A.nb × Fin A.nb → ℂ) (g : Fin A.nb × Fin A.nb → ℤ) (hg : ∀ p, g p.swap = g p)
    (hG : ∀ p q, g p ≠ g q → G p q = 0) (p q : Fin A.nb × Fin A.nb) (h : g p ≠ g q) : blockElem sym par G p q = 0 := by
  unfold blockElem
  split_ifs
  · unfold symElem
    refine Finset.sum_eq_zero fun r _ => Finset.sum_eq_zero fun t _ => ?_
    have z : ∀ p r : Fin A.nb × Fin A.nb, oldSymVec (fun p => ((sym.secSign par p : ℤ) : ℂ)) p r ≠ 0 → g r = g p := by
      intro p r hr
      unfold oldSymVec at hr
      by_cases h1 : r = p
      · rw [h1]
      · by_cases h2 : r = p.swap
        · rw [h2, hg]
        · simp [h1, h2] at hr
    by_contra hne
    have h1 : oldSymVec (fun p => ((sym.secSign par p : ℤ) : ℂ)) p r ≠ 0 := by intro h0; rw [h0] at hne; simp at hne
    have h2 : oldSymVec (fun p => ((sym.secSign par p : ℤ) : ℂ)) q t ≠ 0 := by intro h0; rw [h0] at hne; simp at hne
    have h3 : G r t ≠ 0 := by intro h0; rw [h0] at hne; simp at hne
    exact h3 (hG r t (by rw [z p r h1, z q t h2]; exact h))
  · exact hG p q h

/-- The blocks of all total momenta. -/
theorem rotation_split (inv per : Option OldParity) (hmu : ∀ c, mu c % 2 = 1) (S : Finset ℤ) (hS : ∀ p : Fin A.nb × Fin A.nb, (mu p.1 + mu p.2) / 2 ∈ S)
    (h0 : ∀ p q : Fin A.nb × Fin A.nb, mu p.1 + mu p.2 ≠ mu q.1 + mu q.2 → pairG A V p q = 0) :
    blockPoly A deltaE par mu V ⟨inv, per, none, none⟩ = ∏ M ∈ S, blockPoly A deltaE par mu V ⟨inv, per, none, some M⟩ := by
  classical
  set K := fun p : Fin A.nb × Fin A.nb => OldSym.keeps ⟨inv, per, none, none⟩ A deltaE par mu p with hK
  rw [blockPoly_eq A deltaE par mu V ⟨inv, per, none, none⟩ K (fun p => Iff.rfl) _ rfl]
  rw [sector_split _ K (fun p => (mu p.1 + mu p.2) / 2) S (fun p _ => hS p) (fun p q _ _ h => blockElem_zero A par _ _ (fun p => (mu p.1 + mu p.2) / 2)
    (fun p => by rw [Prod.fst_swap, Prod.snd_swap, add_comm]) (fun p q h => h0 p q (fun h' => h (by rw [h']))) p q h)]
  refine Finset.prod_congr rfl fun M _ => ?_
  refine (blockPoly_eq A deltaE par mu V ⟨inv, per, none, some M⟩ _ (fun p => ?_) _ rfl).symm
  rw [hK]
  dsimp only
  rw [keeps_iff, keeps_iff]
  have e : (baseKeeps (some M) A deltaE mu p ↔ baseKeeps none A deltaE mu p ∧ (mu p.1 + mu p.2) / 2 = M) := by
    unfold baseKeeps
    have := hmu p.1
    have := hmu p.2
    simp only [Option.some.injEq, forall_eq', reduceCtorEq, false_implies, implies_true, and_true]
    refine and_congr_right fun _ => ?_
    omega
  rw [e]
  have e2 : (OldSym.secSign ⟨inv, per, none, some M⟩ par p = OldSym.secSign ⟨inv, per, none, none⟩ par p) := rfl
  have e3 : OldSym.perSign ⟨inv, per, none, some M⟩ = OldSym.perSign ⟨inv, per, none, none⟩ := rfl
  rw [e2, e3]
  tauto

end

/-! ## The necessary states -/

theorem symmetries_mem (c : OldSymConf) (init : Old1 × Old1) (basis : List (Old1 × Old1)) (sym : OldSym) (h : sym ∈ oldSymmetries c init basis) :
    sym.inversion ∈ parityList c.inv ∧ sym.permutation ∈ parityList c.per ∧ sym.reflection ∈ parityList c.ref ∧
    (c.sametrafo = true → sym.inversion ≠ none → sym.permutation ≠ none →
      (sym.inversion.map OldParity.int).getD 0 * (sym.permutation.map OldParity.int).getD 0 = parityL init) ∧
    ∃ rot ∈ rotationList c init basis, sym.rotation = if sym.reflection ≠ none then rot.map (|·|) else rot := by
  unfold oldSymmetries at h
  rw [List.mem_dedup, List.mem_flatMap] at h
  obtain ⟨inv, hi, h⟩ := h
  split_ifs at h
  · simp at h
  rw [List.mem_flatMap] at h
  obtain ⟨per, hp, h⟩ := h
  split_ifs at h with h1 h2
  · simp at h
  · simp at h
  rw [List.mem_flatMap] at h
  obtain ⟨ref, hr, h⟩ := h
  rw [List.mem_map] at h
  obtain ⟨rot, hrot, rfl⟩ := h
  refine ⟨hi, hp, hr, fun a b d => ?_, rot, hrot, rfl⟩
  by_contra hne
  exact h2 ⟨b, d, a, hne⟩

theorem pairVec_support (sym : OldSym) {n : ℕ} (A : OldOne n) (par : Fin A.nb → ℤ) (p : Fin A.nb × Fin A.nb) (i : Fin (n * n)) (h : pairVec sym A par p i ≠ 0) :
    kronCol A A p i ≠ 0 ∨ kronCol A A p.swap i ≠ 0 := by
  by_contra hcon
  rw [not_or, not_not, not_not] at hcon
  apply h
  unfold pairVec
  rw [hcon.1, hcon.2]
  simp

theorem kron_parity {n : ℕ} (sym : OldSym) (s : Fin n → Old1) (A : OldOne n) (par mu : Fin A.nb → ℤ) (hd : Definite sym s A par mu) (hi : sym.inversion ≠ none)
    (p : Fin A.nb × Fin A.nb) (i : Fin (n * n)) (h : kronCol A A p i ≠ 0) : parityL (pairState s s i) = par p.1 * par p.2 := by
  unfold kronCol at h
  unfold parityL pairState
  rw [parityOf_add, hd.parity hi _ _ (left_ne_zero_of_mul h), hd.parity hi _ _ (right_ne_zero_of_mul h)]

theorem kron_moment {n : ℕ} (sym : OldSym) (s : Fin n → Old1) (A : OldOne n) (par mu : Fin A.nb → ℤ) (hd : Definite sym s A par mu) (hi : sym.rotation ≠ none)
    (p : Fin A.nb × Fin A.nb) (i : Fin (n * n)) (h : kronCol A A p i ≠ 0) : (pairState s s i).1.m + (pairState s s i).2.m = mu p.1 + mu p.2 := by
  unfold kronCol at h
  unfold pairState
  rw [hd.moment hi _ _ (left_ne_zero_of_mul h), hd.moment hi _ _ (right_ne_zero_of_mul h)]

/-- The necessary states contain every vector of every block. -/
theorem necessary_same (c : OldSymConf) (init : Old1 × Old1) (basis : List (Old1 × Old1)) (sym : OldSym) (hr : sym.reflection = none) {n : ℕ} (s : Fin n → Old1)
    (steps : List (OldOne n × OldOne n)) (A : OldOne n) (hs : (A, A) ∈ steps) (deltaE : ℝ) (par mu : Fin A.nb → ℤ) (hd : Definite sym s A par mu)
    (hm : sym ∈ oldSymmetries c init basis) (p : Fin A.nb × Fin A.nb) (kp : sym.keeps A deltaE par mu p) (i : Fin (n * n)) (hi : pairVec sym A par p i ≠ 0) :
    oldNecessary c (oldSymmetries c init basis) init (pairState s s) (oldCutoff steps deltaE) i = true := by
  have sup := pairVec_support sym A par p i hi
  rw [necessary_iff]
  refine ⟨?_, sym, hm, ?_, ?_⟩
  · rcases sup with h | h
    · exact cutoff_kron steps deltaE A A hs p kp.1.2 i h
    · exact cutoff_kron steps deltaE A A hs p.swap (by rw [Prod.fst_swap, Prod.snd_swap, add_comm]; exact kp.1.2) i h
  · rintro ⟨h1, h2, -⟩
    have e : (pairState s s i).1.m + (pairState s s i).2.m = mu p.1 + mu p.2 := by
      rcases sup with h | h
      · exact kron_moment sym s A par mu hd h1 p i h
      · rw [kron_moment sym s A par mu hd h1 p.swap i h, Prod.fst_swap, Prod.snd_swap, add_comm]
    rw [e] at h2
    rcases hM : sym.rotation with _ | M
    · exact h1 hM
    · rw [hM] at h2
      apply h2
      rw [← kp.2.2 M hM]
      rfl
  · rintro ⟨⟨h1, h2, h3⟩, h4⟩
    have e : parityL (pairState s s i) = par p.1 * par p.2 := by
      rcases sup with h | h
      · exact kron_parity sym s A par mu hd h1 p i h
      · rw [kron_parity sym s A par mu hd h1 p.swap i h, Prod.fst_swap, Prod.snd_swap, mul_comm]
    rw [e] at h3
    have q := (symmetries_mem c init basis sym hm).2.2.2.1 h4 h1 h2
    obtain ⟨inv, per, ref, rot⟩ := sym
    simp only at hr
    subst hr
    rcases inv with _ | iv
    · exact h1 rfl
    rcases per with _ | pe
    · exact h2 rfl
    have := ((both_keeps A deltaE par mu rot hd.sign iv pe p).mp kp).1.2
    apply h3
    rw [this, ← q]
    rfl

/-! ## All blocks together -/

theorem parityList_mem (f : Bool × Bool) (x : Option OldParity) (hx : x ∈ parityList f) (hf : f = (false, false) ∨ f = (true, true)) : x ≠ none → f = (true, true) := by
  intro h
  rcases hf with rfl | rfl
  · simp [parityList] at hx
    exact absurd hx h
  · rfl

theorem syms_prod (c : OldSymConf) (init : Old1 × Old1) (basis : List (Old1 × Old1)) (href : c.ref = (false, false)) (hsame : c.sametrafo = false) (F : OldSym → Polynomial ℂ) :
    ((oldSymmetries c init basis).map F).prod =
      ∏ inv ∈ (parityList c.inv).toFinset, ∏ per ∈ (parityList c.per).toFinset, ∏ rot ∈ (rotationList c init basis).toFinset, F ⟨inv, per, none, rot⟩ := by
  classical
  have hn : (oldSymmetries c init basis).Nodup := List.nodup_dedup _
  rw [← List.prod_toFinset F hn]
  have im : (oldSymmetries c init basis).toFinset = ((parityList c.inv).toFinset ×ˢ (parityList c.per).toFinset ×ˢ (rotationList c init basis).toFinset).image
      (fun x => (⟨x.1, x.2.1, none, x.2.2⟩ : OldSym)) := by
    ext sym
    unfold oldSymmetries
    simp only [hsame, Bool.false_eq_true, and_false, if_false, false_and, href]
    rw [List.mem_toFinset, List.mem_dedup]
    simp only [parityList, List.mem_flatMap, List.mem_map, Finset.mem_image, Finset.mem_product, List.mem_toFinset, Bool.false_eq_true, if_false, List.append_nil, if_true,
      List.mem_singleton, exists_eq_left, ne_eq, not_true_eq_false, Prod.exists]
    constructor
    · rintro ⟨inv, hi, per, hp, rot, hr, rfl⟩
      exact ⟨inv, per, rot, ⟨hi, hp, hr⟩, rfl⟩
    · rintro ⟨inv, per, rot, ⟨hi, hp, hr⟩, rfl⟩
      exact ⟨inv, hi, per, hp, rot, hr, rfl⟩
  rw [im, Finset.prod_image (by
    rintro ⟨a, b, d⟩ - ⟨a', b', d'⟩ - h
    simp only [OldSym.mk.injEq, true_and] at h
    obtain ⟨rfl, rfl, rfl⟩ := h
    rfl), Finset.prod_product]
  refine Finset.prod_congr rfl fun a _ => ?_
  rw [Finset.prod_product]

/-- No symmetries. -/
def OldSymConf.plain : OldSymConf := ⟨(false, false), (false, false), (false, false), false, false, false⟩

/-- **C89, C90.** For two atoms of the same species with the same, orthonormal, eigenvectors, all cutoffs, distances and steps: if both parities of the inversion, both parities of
the permutation, or both of both are requested, with or without conservation of the momentum, and every block is calculated, then the characteristic
polynomial of the matrix without symmetries is the product of those of the blocks: no eigenvalue is lost, added or shifted. The inversion needs eigenvectors of
definite parity (no electric field), the conservation of the momentum those of definite momentum (fields along z), the permutation an interaction of
dipoles only. -/
theorem C89_spectrum (U : Units) (c : Cells) {n : ℕ} (s : Fin n → Old1) (hs : ∀ i, OldValid (s i)) (A : OldOne n) (hA : A.basisᴴ * A.basis = 1) (exponent : ℤ)
    (hc : CellsHerm c (fun x => ∃ i, s i = x) (exponent - 2)) (R deltaE : ℝ) (steps : List (OldOne n × OldOne n)) (hst : (A, A) ∈ steps) (conf : OldSymConf)
    (hinv : conf.inv = (false, false) ∨ conf.inv = (true, true)) (hper : conf.per = (false, false) ∨ conf.per = (true, true)) (href : conf.ref = (false, false))
    (hsame : conf.sametrafo = false) (hpe : conf.per = (true, true) → exponent ≤ 3) (par mu : Fin A.nb → ℤ) (hp : ∀ c, par c = 1 ∨ par c = -1)
    (hpar : conf.inv = (true, true) → ∀ r c, A.basis r c ≠ 0 → parityOf (s r).l = par c) (hmu : conf.conserveM = true → ∀ r c, A.basis r c ≠ 0 → (s r).m = mu c)
    (init : Old1 × Old1) :
    ∃ blk : OldSym → Σ k, Matrix (Fin k) (Fin k) ℂ,
      (∀ sym ∈ oldSymmetries conf init (List.ofFn (pairState s s)), oldBlock U c c sym s s A A deltaE
        (oldNecessary conf (oldSymmetries conf init (List.ofFn (pairState s s))) init (pairState s s) (oldCutoff steps deltaE)) exponent R = .ok (blk sym)) ∧
      ∃ B, oldBlock U c c ⟨none, none, none, none⟩ s s A A deltaE
          (oldNecessary .plain (oldSymmetries .plain init (List.ofFn (pairState s s))) init (pairState s s) (oldCutoff steps deltaE)) exponent R = .ok B ∧
        B.2.charpoly = ((oldSymmetries conf init (List.ofFn (pairState s s))).map fun sym => (blk sym).2.charpoly).prod := by
  classical
  set basis := List.ofFn (pairState s s) with hbasis
  set V := oldInteraction U c c (fun _ => true) (pairState s s) exponent R with hV
  have sub : ∀ sym ∈ oldSymmetries conf init basis, sym.reflection = none ∧ Definite sym s A par mu := by
    intro sym hm
    obtain ⟨m1, m2, m3, -, rot, hrot, m5⟩ := symmetries_mem conf init basis sym hm
    have hr : sym.reflection = none := by
      rw [href] at m3
      simpa [parityList] using m3
    refine ⟨hr, hp, fun h => hpar (parityList_mem _ _ m1 hinv h), fun h => ?_⟩
    by_cases hcm : conf.conserveM = true
    · exact hmu hcm
    · exfalso
      unfold rotationList at hrot
      rw [if_neg hcm, List.mem_singleton] at hrot
      rw [hr, hrot] at m5
      exact h (by simpa using m5)
  refine ⟨fun sym => ⟨_, listMat (blockElem sym par (pairG A V)) (sym.pairs A deltaE par mu)⟩, fun sym hm => ?_, ⟨_, listMat (blockElem ⟨none, none, none, none⟩ par (pairG A V)) (OldSym.pairs ⟨none, none, none, none⟩ A deltaE par mu)⟩, ?_, ?_⟩
  · obtain ⟨hr, hd⟩ := sub sym hm
    exact block_spec U c c sym hr s A hA deltaE par mu hd _ exponent R (necessary_same conf init basis sym hr s steps A hst deltaE par mu hd hm)
  · have hd : Definite ⟨none, none, none, none⟩ s A par mu := ⟨hp, fun h => absurd rfl h, fun h => absurd rfl h⟩
    exact block_spec U c c ⟨none, none, none, none⟩ rfl s A hA deltaE par mu hd _ exponent R
      (necessary_same .plain init basis ⟨none, none, none, none⟩ rfl s steps A hst deltaE par mu hd (by simp [oldSymmetries, parityList, rotationList, OldSymConf.plain]))
  · show blockPoly A deltaE par mu V ⟨none, none, none, none⟩ = ((oldSymmetries conf init basis).map (blockPoly A deltaE par mu V)).prod
    rw [syms_prod conf init basis href hsame]
    have rotation : ∀ inv per, ∏ rot ∈ (rotationList conf init basis).toFinset, blockPoly A deltaE par mu V ⟨inv, per, none, rot⟩ = blockPoly A deltaE par mu V ⟨inv, per, none, none⟩ := by
      intro inv per
      unfold rotationList
      by_cases hcm : conf.conserveM = true
      · rw [if_pos hcm, if_pos (by simp [hsame])]
        have im : (basis.map fun x => some ((x.1.m + x.2.m).tdiv 2)).toFinset = (basis.map fun x => (x.1.m + x.2.m).tdiv 2).toFinset.image some := by
          ext x
          simp
        rw [im, Finset.prod_image (by intro a _ b _ h; exact Option.some.inj h)]
        have odd : ∀ c, mu c % 2 = 1 := by
          intro c
          obtain ⟨r, hr⟩ := orth_ne A hA c
          rw [← hmu hcm r c hr]
          exact (hs r).mpar
        refine (rotation_split A deltaE par mu V inv per odd _ (fun p => ?_) (fun p q hne => ?_)).symm
        · obtain ⟨r1, h1⟩ := orth_ne A hA p.1
          obtain ⟨r2, h2⟩ := orth_ne A hA p.2
          rw [List.mem_toFinset, List.mem_map]
          refine ⟨(s r1, s r2), ?_, ?_⟩
          · rw [hbasis, List.mem_ofFn]
            exact ⟨finProdFinEquiv (r1, r2), by unfold pairState; rw [Equiv.symm_apply_apply]⟩
          · have := odd p.1
            have := odd p.2
            rw [hmu hcm r1 p.1 h1, hmu hcm r2 p.2 h2]
            exact Int.tdiv_eq_ediv_of_dvd (by omega)
        · refine pairG_zero A V (fun i => (pairState s s i).1.m + (pairState s s i).2.m) (fun p => mu p.1 + mu p.2) ?_ ?_ p q hne
          · intro p i hi
            exact kron_moment ⟨none, none, none, some 0⟩ s A par mu ⟨hp, fun h => absurd rfl h, fun _ => hmu hcm⟩ (by simp) p i hi
          · intro i j hij
            exact (interaction_rules U c s hs exponent hc R s c hs hc i j hij).1
      · rw [if_neg hcm]
        simp
    simp only [rotation]
    have kp : conf.inv = (true, true) → ∀ p i, kronCol A A p i ≠ 0 → parityL (pairState s s i) = par p.1 * par p.2 := fun h p i hi =>
      kron_parity ⟨some .even, none, none, none⟩ s A par mu ⟨hp, fun _ => hpar h, fun h => absurd rfl h⟩ (by simp) p i hi
    have GI : conf.inv = (true, true) → ∀ p q, pairG A V p.swap q.swap = parSign A par p * parSign A par q * pairG A V p q := by
      intro h
      refine pairG_swap A V _ (parSign_sign A par hp) fun p q i j hi hj => ?_
      rw [hV, interaction_swap U c s hs exponent hc, kp h p i hi, kp h q j hj]
      rfl
    have GP : conf.per = (true, true) → ∀ p q, pairG A V p.swap q.swap = pairG A V p q := by
      intro h p q
      rw [pairG_swap A V (fun _ => 1) ⟨fun _ => Or.inl rfl, fun _ => rfl, fun _ _ => rfl⟩ (fun p q i j _ _ => ?_) p q]
      · ring
      · rw [hV, interaction_exchange U c s hs exponent hc R (hpe h)]
        ring
    have two : (parityList (true, true)).toFinset = {some .even, some .odd} := by decide
    have one : (parityList (false, false)).toFinset = {none} := by decide
    have ne : (some OldParity.even) ≠ some .odd := by decide
    rcases hinv with hi | hi <;> rcases hper with hq | hq <;> rw [hi, hq]
    · rw [one]; simp
    · rw [one, two, Finset.prod_singleton, Finset.prod_pair ne]
      exact permutation_split A deltaE par mu V none (GP hq)
    · rw [one, two, Finset.prod_pair ne, Finset.prod_singleton, Finset.prod_singleton]
      exact inversion_split A deltaE par mu V none hp (GI hi)
    · rw [two, Finset.prod_pair ne, Finset.prod_pair ne, Finset.prod_pair ne]
      rw [both_split A deltaE par mu V none hp (GI hi) ?_]
      · ring
      · intro p q hne
        exact pairG_zero A V (fun i => parityL (pairState s s i)) (fun p => par p.1 * par p.2) (kp hi)
          (fun i j hij => (interaction_rules U c s hs exponent hc R s c hs hc i j hij).2 (hpe hq)) p q hne

end PI
