import Mathlib.LinearAlgebra.Matrix.Charpoly.Basic
import Mathlib.Data.Complex.Basic
import Mathlib.Analysis.Real.Sqrt
import Mathlib.Data.List.NodupEquivFin
import Mathlib.LinearAlgebra.Matrix.ConjTranspose
import Mathlib.Tactic.LinearCombination
import Mathlib.Tactic.FieldSimp
import Mathlib.Tactic.Linarith

/-!
# Splitting a matrix over pairs into symmetric and antisymmetric parts
-/

namespace PI

open Matrix

/-- The matrix over the places of a list. -/
def listMat {P : Type} (f : P → P → ℂ) (L : List P) : Matrix (Fin L.length) (Fin L.length) ℂ := fun i j => f (L.get i) (L.get j)

/-- The matrix over the elements with a property. -/
def subMat {P : Type} (f : P → P → ℂ) (K : P → Prop) : Matrix {p // K p} {p // K p} ℂ := fun p q => f p q

theorem listMat_charpoly {P : Type} [DecidableEq P] (f : P → P → ℂ) (L : List P) (K : P → Prop) [Fintype {p // K p}] (hn : L.Nodup) (hK : ∀ p, p ∈ L ↔ K p) :
    (listMat f L).charpoly = (subMat f K).charpoly := by
  classical
  let e : Fin L.length ≃ {p // K p} := (hn.getEquiv L).trans (Equiv.subtypeEquivRight hK)
  rw [← Matrix.charpoly_reindex e (listMat f L)]
  congr 1
  ext p q
  simp only [reindex_apply, submatrix_apply, listMat, subMat]
  have h : ∀ p : {p // K p}, L.get (e.symm p) = p.1 := by
    intro p
    have := congrArg Subtype.val (e.apply_symm_apply p)
    exact this
  rw [h, h]

variable {k : ℕ}

/-- The vector of a pair: with the exchanged pair and a sign for two different indices. -/
noncomputable def oldSymVec (σ : Fin k × Fin k → ℂ) (p : Fin k × Fin k) (r : Fin k × Fin k) : ℂ :=
  if p.1 = p.2 then (if r = p then 1 else 0) else ((if r = p then 1 else 0) + σ p * (if r = p.swap then 1 else 0)) / (Real.sqrt 2 : ℝ)

/-- The matrix element between the vectors of two pairs. -/
noncomputable def symElem (σ : Fin k × Fin k → ℂ) (H : Fin k × Fin k → Fin k × Fin k → ℂ) (p q : Fin k × Fin k) : ℂ :=
  ∑ r, ∑ t, star (oldSymVec σ p r) * H r t * oldSymVec σ q t

/-- A sum against the vector of a pair. -/
theorem sum_symVec (σ : Fin k × Fin k → ℂ) (p : Fin k × Fin k) (g : Fin k × Fin k → ℂ) :
    ∑ r, g r * oldSymVec σ p r = if p.1 = p.2 then g p else (g p + σ p * g p.swap) / (Real.sqrt 2 : ℝ) := by
  unfold oldSymVec
  by_cases h : p.1 = p.2
  · simp [h]
  · simp only [h, if_false]
    have : ∀ r, g r * (((if r = p then (1 : ℂ) else 0) + σ p * (if r = p.swap then 1 else 0)) / (Real.sqrt 2 : ℝ)) =
        (if r = p then g r / (Real.sqrt 2 : ℝ) else 0) + (if r = p.swap then σ p * g r / (Real.sqrt 2 : ℝ) else 0) := by
      intro r
      split_ifs <;> ring
    simp only [this, Finset.sum_add_distrib, Finset.sum_ite_eq', Finset.mem_univ, if_true]
    ring

theorem sum_symVec_star (σ : Fin k × Fin k → ℂ) (hσ : ∀ p, star (σ p) = σ p) (p : Fin k × Fin k) (g : Fin k × Fin k → ℂ) :
    ∑ r, star (oldSymVec σ p r) * g r = if p.1 = p.2 then g p else (g p + σ p * g p.swap) / (Real.sqrt 2 : ℝ) := by
  have hs : ∀ r, star (oldSymVec σ p r) = oldSymVec σ p r := by
    intro r
    unfold oldSymVec
    have := hσ p
    simp only [Complex.star_def] at this ⊢
    split_ifs <;> simp [this]
  simp only [hs]
  rw [← sum_symVec]
  exact Finset.sum_congr rfl fun r _ => mul_comm _ _

theorem symElem_eq (σ : Fin k × Fin k → ℂ) (hσ : ∀ p, star (σ p) = σ p) (H : Fin k × Fin k → Fin k × Fin k → ℂ) (p q : Fin k × Fin k) :
    symElem σ H p q = if p.1 = p.2 then (if q.1 = q.2 then H p q else (H p q + σ q * H p q.swap) / (Real.sqrt 2 : ℝ))
      else ((if q.1 = q.2 then H p q else (H p q + σ q * H p q.swap) / (Real.sqrt 2 : ℝ)) +
        σ p * (if q.1 = q.2 then H p.swap q else (H p.swap q + σ q * H p.swap q.swap) / (Real.sqrt 2 : ℝ))) / (Real.sqrt 2 : ℝ) := by
  unfold symElem
  have : ∀ r, ∑ t, star (oldSymVec σ p r) * H r t * oldSymVec σ q t = star (oldSymVec σ p r) * (if q.1 = q.2 then H r q else (H r q + σ q * H r q.swap) / (Real.sqrt 2 : ℝ)) := by
    intro r
    rw [← sum_symVec, Finset.mul_sum]
    exact Finset.sum_congr rfl fun t _ => mul_assoc _ _ _
  simp only [this]
  rw [sum_symVec_star σ hσ]

theorem sum_sub (K : Fin k × Fin k → Prop) [Fintype {r // K r}] (σ : Fin k × Fin k → ℂ) (p : Fin k × Fin k) (hp : K p) (hs : K p.swap) (g : Fin k × Fin k → ℂ) :
    ∑ r : {r // K r}, g r * oldSymVec σ p r = if p.1 = p.2 then g p else (g p + σ p * g p.swap) / (Real.sqrt 2 : ℝ) := by
  classical
  have h := sum_symVec σ p fun r => if K r then g r else 0
  rw [if_pos hp, if_pos hs] at h
  rw [← h, ← Finset.sum_subtype (Finset.univ.filter K) (by simp) (fun r => g r * oldSymVec σ p r), Finset.sum_filter]
  exact Finset.sum_congr rfl fun r _ => by split_ifs <;> simp

theorem oldSymVec_star (σ : Fin k × Fin k → ℂ) (hσ : ∀ p, star (σ p) = σ p) (p r : Fin k × Fin k) : star (oldSymVec σ p r) = oldSymVec σ p r := by
  unfold oldSymVec
  have := hσ p
  simp only [Complex.star_def] at this ⊢
  split_ifs <;> simp [this]

/-- The signs for which the exchange of a pair is an involution. -/
structure PairSign (s : Fin k × Fin k → ℂ) : Prop where
  /-- signs -/
  one : ∀ p, s p = 1 ∨ s p = -1
  /-- symmetric -/
  swap : ∀ p, s p.swap = s p
  /-- one on the diagonal -/
  diag : ∀ p : Fin k × Fin k, p.1 = p.2 → s p = 1

theorem sqrt2_ne : ((Real.sqrt 2 : ℝ) : ℂ) ≠ 0 := by
  rw [Ne, Complex.ofReal_eq_zero]; positivity

theorem sqrt2_sq : ((Real.sqrt 2 : ℝ) : ℂ) * ((Real.sqrt 2 : ℝ) : ℂ) = 2 := by
  rw [← Complex.ofReal_mul, Real.mul_self_sqrt (by norm_num)]; norm_num

/-- The overlap of two of the vectors, for pairs with p.2 ≤ p.1. -/
theorem oldSymVec_overlap (K : Fin k × Fin k → Prop) [Fintype {r // K r}] (hK : ∀ p, K p → K p.swap) (s : Fin k × Fin k → ℂ) (hs : PairSign s) (ε δ : ℂ)
    (hε : ε = 1 ∨ ε = -1) (hδ : δ = 1 ∨ δ = -1) (p q : Fin k × Fin k) (hp : K p) (hp2 : p.2 ≤ p.1) (hq2 : q.2 ≤ q.1)
    (hpd : ε = -1 → p.2 ≠ p.1) (hqd : δ = -1 → q.2 ≠ q.1) :
    ∑ r : {r // K r}, oldSymVec (fun p => δ * s p) q r * oldSymVec (fun p => ε * s p) p r = if p = q ∧ ε = δ then 1 else 0 := by
  rw [sum_sub K _ p hp (hK p hp)]
  obtain ⟨p1, p2⟩ := p
  obtain ⟨q1, q2⟩ := q
  have e1 : ∀ a b : Fin k, ((a, b) : Fin k × Fin k).swap = (b, a) := fun _ _ => rfl
  dsimp only at *
  unfold oldSymVec
  simp only [e1, Prod.mk.injEq]
  have hne := sqrt2_ne
  have hsq := sqrt2_sq
  by_cases hq : q1 = q2
  · subst hq
    have hδ1 : δ = 1 := by
      rcases hδ with h | h
      · exact h
      · exact absurd rfl (hqd h)
    by_cases hpp : p1 = p2
    · subst hpp
      have hε1 : ε = 1 := by
        rcases hε with h | h
        · exact h
        · exact absurd rfl (hpd h)
      simp [hε1, hδ1]
    · have : ¬ (p1 = q1 ∧ p2 = q1) := fun h => hpp (h.1.trans h.2.symm)
      have t : ¬ (p2 = q1 ∧ p1 = q1) := fun h => hpp (h.2.trans h.1.symm)
      simp [hpp, this, t]
  · by_cases hpp : p1 = p2
    · subst hpp
      have : ¬ (p1 = q1 ∧ p1 = q2) := fun h => hq (h.1.symm.trans h.2)
      have t : ¬ (p1 = q2 ∧ p1 = q1) := fun h => hq (h.2.symm.trans h.1)
      simp [hq, this, t]
    · by_cases h : p1 = q1 ∧ p2 = q2
      · obtain ⟨rfl, rfl⟩ := h
        have t : ¬ (p1 = p2 ∧ p2 = p1) := fun h => hpp h.1
        have t' : ¬ (p2 = p1 ∧ p1 = p2) := fun h => hpp h.2
        simp only [hpp, if_false, and_self, if_true]
        have : s (p1, p2) * s (p1, p2) = 1 := by rcases hs.one (p1, p2) with h | h <;> rw [h] <;> norm_num
        rcases hε with rfl | rfl <;> rcases hδ with rfl | rfl
        · simp
          field_simp
          linear_combination this - hsq
        · have c : ¬ ((1 : ℂ) = -1) := by norm_num
          have c' : ¬ ((-1 : ℂ) = 1) := by norm_num
          simp [c, c']
          field_simp
          linear_combination -this
        · have c : ¬ ((1 : ℂ) = -1) := by norm_num
          have c' : ¬ ((-1 : ℂ) = 1) := by norm_num
          simp [c, c']
          field_simp
          linear_combination -this
        · simp
          field_simp
          linear_combination this - hsq
      · have t : ¬ (p2 = q1 ∧ p1 = q2) := by
          rintro ⟨rfl, rfl⟩
          exact hpp (le_antisymm hq2 hp2)
        have t1 : ¬ (p1 = q2 ∧ p2 = q1) := fun h => t ⟨h.2, h.1⟩
        have t2 : ¬ (p2 = q2 ∧ p1 = q1) := fun h' => h ⟨h'.2, h'.1⟩
        simp [hpp, hq, h, t, t1, t2]

/-- Antisymmetric and symmetric pairs together are as many as all pairs. -/
def pairSplit (K : Fin k × Fin k → Prop) (hK : ∀ p, K p → K p.swap) :
    {p : Fin k × Fin k // K p ∧ p.2 < p.1} ⊕ {p : Fin k × Fin k // K p ∧ p.2 ≤ p.1} ≃ {p // K p} where
  toFun
    | .inl p => ⟨p.1.swap, hK _ p.2.1⟩
    | .inr p => ⟨p.1, p.2.1⟩
  invFun p := if h : p.1.1 < p.1.2 then .inl ⟨p.1.swap, hK _ p.2, h⟩ else .inr ⟨p.1, p.2, not_lt.mp h⟩
  left_inv := by
    rintro (⟨p, h1, h2⟩ | ⟨p, h1, h2⟩)
    · have h2' := h2
      simp [h2']
    · simp [not_lt.mpr h2]
  right_inv := by
    rintro ⟨p, h⟩
    by_cases hp : p.1 < p.2
    · simp [hp]
    · simp [hp]

/-- A matrix over pairs that commutes with the signed exchange has the eigenvalues of its antisymmetric and its symmetric block together. -/
theorem pair_split (K : Fin k × Fin k → Prop) [Fintype {r // K r}] [Fintype {p : Fin k × Fin k // K p ∧ p.2 < p.1}] [Fintype {p : Fin k × Fin k // K p ∧ p.2 ≤ p.1}]
    (hK : ∀ p, K p → K p.swap) (s : Fin k × Fin k → ℂ) (hs : PairSign s)
    (H : Fin k × Fin k → Fin k × Fin k → ℂ) (hH : ∀ p q, K p → K q → H p.swap q.swap = s p * s q * H p q) :
    (subMat H K).charpoly = (subMat (symElem (fun p => -s p) H) fun p => K p ∧ p.2 < p.1).charpoly * (subMat (symElem s H) fun p => K p ∧ p.2 ≤ p.1).charpoly := by
  classical
  set e := pairSplit K hK with he
  set Q : Matrix {r // K r} ({p : Fin k × Fin k // K p ∧ p.2 < p.1} ⊕ {p : Fin k × Fin k // K p ∧ p.2 ≤ p.1}) ℂ :=
    of fun r => Sum.elim (fun p => oldSymVec (fun p => -1 * s p) p r) (fun p => oldSymVec (fun p => 1 * s p) p r) with hQ
  have hQl : ∀ r p, Q r (.inl p) = oldSymVec (fun p => -1 * s p) p r := fun _ _ => rfl
  have hQr : ∀ r p, Q r (.inr p) = oldSymVec (fun p => 1 * s p) p r := fun _ _ => rfl
  clear_value Q
  have star1 : ∀ ε : ℂ, (ε = 1 ∨ ε = -1) → ∀ p, star (ε * s p) = ε * s p := by
    intro ε hε p
    rcases hε with rfl | rfl <;> rcases hs.one p with h | h <;> rw [h] <;> simp
  have h1 : Qᴴ * Q = 1 := by
    ext a b
    rw [mul_apply]
    simp only [conjTranspose_apply]
    rcases a with a | a <;> rcases b with b | b <;> simp only [hQl, hQr]
    · simp only [oldSymVec_star _ (star1 (-1) (.inr rfl))]
      rw [oldSymVec_overlap K hK s hs (-1) (-1) (.inr rfl) (.inr rfl) b a b.2.1 b.2.2.le a.2.2.le (fun _ => b.2.2.ne) (fun _ => a.2.2.ne)]
      simp [one_apply, Subtype.ext_iff, eq_comm]
    · simp only [oldSymVec_star _ (star1 (-1) (.inr rfl))]
      rw [oldSymVec_overlap K hK s hs 1 (-1) (.inl rfl) (.inr rfl) b a b.2.1 b.2.2 a.2.2.le (fun h => absurd h (by norm_num)) (fun _ => a.2.2.ne)]
      rw [if_neg (by rintro ⟨-, h⟩; norm_num at h)]; simp
    · simp only [oldSymVec_star _ (star1 1 (.inl rfl))]
      rw [oldSymVec_overlap K hK s hs (-1) 1 (.inr rfl) (.inl rfl) b a b.2.1 b.2.2.le a.2.2 (fun _ => b.2.2.ne) (fun h => absurd h (by norm_num))]
      rw [if_neg (by rintro ⟨-, h⟩; norm_num at h)]; simp
    · simp only [oldSymVec_star _ (star1 1 (.inl rfl))]
      rw [oldSymVec_overlap K hK s hs 1 1 (.inl rfl) (.inl rfl) b a b.2.1 b.2.2 a.2.2 (fun h => absurd h (by norm_num)) (fun h => absurd h (by norm_num))]
      simp [one_apply, Subtype.ext_iff, eq_comm]
  have hc : Fintype.card ({p : Fin k × Fin k // K p ∧ p.2 < p.1} ⊕ {p : Fin k × Fin k // K p ∧ p.2 ≤ p.1}) = Fintype.card {r // K r} := Fintype.card_congr e
  have h2 : Q * Qᴴ = 1 := (mul_eq_one_comm_of_card_eq _ _ _ hc).mp h1
  have h3 : Qᴴ * subMat H K * Q = fromBlocks (subMat (symElem (fun p => -s p) H) fun p => K p ∧ p.2 < p.1) 0 0 (subMat (symElem s H) fun p => K p ∧ p.2 ≤ p.1) := by
    have key : ∀ (ε δ : ℂ), (ε = 1 ∨ ε = -1) → (δ = 1 ∨ δ = -1) → ∀ p q, K p → K q →
        ∑ t : {r // K r}, (∑ r : {r // K r}, star (oldSymVec (fun p => ε * s p) p r) * H r t) * oldSymVec (fun p => δ * s p) q t =
        if q.1 = q.2 then (if p.1 = p.2 then H p q else (H p q + ε * s p * H p.swap q) / (Real.sqrt 2 : ℝ))
        else ((if p.1 = p.2 then H p q else (H p q + ε * s p * H p.swap q) / (Real.sqrt 2 : ℝ)) +
          δ * s q * (if p.1 = p.2 then H p q.swap else (H p q.swap + ε * s p * H p.swap q.swap) / (Real.sqrt 2 : ℝ))) / (Real.sqrt 2 : ℝ) := by
      intro ε δ hε hδ p q hp hq
      have inner : ∀ t : Fin k × Fin k, ∑ r : {r // K r}, star (oldSymVec (fun p => ε * s p) p r) * H r t =
          if p.1 = p.2 then H p t else (H p t + ε * s p * H p.swap t) / (Real.sqrt 2 : ℝ) := by
        intro t
        rw [← sum_sub K (fun p => ε * s p) p hp (hK p hp) (fun r => H r t)]
        refine Finset.sum_congr rfl fun r _ => ?_
        rw [oldSymVec_star _ (star1 ε hε), mul_comm]
      simp only [inner]
      rw [sum_sub K (fun p => δ * s p) q hq (hK q hq) fun t => if p.1 = p.2 then H p t else (H p t + ε * s p * H p.swap t) / (Real.sqrt 2 : ℝ)]
    have diag : ∀ (ε : ℂ) (hε : ε = 1 ∨ ε = -1) p q, K p → K q →
        ∑ t : {r // K r}, (∑ r : {r // K r}, star (oldSymVec (fun p => ε * s p) p r) * H r t) * oldSymVec (fun p => ε * s p) q t = symElem (fun p => ε * s p) H p q := by
      intro ε hε p q hp hq
      rw [key ε ε hε hε p q hp hq, symElem_eq _ (star1 ε hε)]
      by_cases h : p.1 = p.2 <;> by_cases h' : q.1 = q.2 <;> simp only [h, h', if_true, if_false]
      ring
    have sq : ∀ p, s p * s p = 1 := by
      intro p
      rcases hs.one p with h | h <;> rw [h] <;> norm_num
    have off : ∀ (ε δ : ℂ) (hε : ε = 1 ∨ ε = -1) (hδ : δ = 1 ∨ δ = -1), ε * δ = -1 → ∀ p q, K p → K q → (ε = -1 → p.1 ≠ p.2) → (δ = -1 → q.1 ≠ q.2) →
        ∑ t : {r // K r}, (∑ r : {r // K r}, star (oldSymVec (fun p => ε * s p) p r) * H r t) * oldSymVec (fun p => δ * s p) q t = 0 := by
      intro ε δ hε hδ hεδ p q hp hq hpd hqd
      rw [key ε δ hε hδ p q hp hq]
      have c1 := hH p q hp hq
      have c2 := hH p q.swap hp (hK q hq)
      rw [Prod.swap_swap, hs.swap q] at c2
      have hε2 : ε * ε = 1 := by rcases hε with rfl | rfl <;> norm_num
      have hδ2 : δ * δ = 1 := by rcases hδ with rfl | rfl <;> norm_num
      have hne := sqrt2_ne
      by_cases h : p.1 = p.2 <;> by_cases h' : q.1 = q.2 <;> simp only [h, h', if_true, if_false]
      · exfalso
        rcases hε with rfl | rfl
        · exact hqd (by linear_combination hεδ) h'
        · exact hpd rfl h
      · have e1 : p.swap = p := by ext <;> simp [h]
        rw [e1, hs.diag p h] at c1 c2
        have hε1 : ε = 1 := by rcases hε with h1 | h1; exacts [h1, absurd h (hpd h1)]
        have hδ1 : δ = -1 := by rw [hε1] at hεδ; linear_combination hεδ
        rw [hδ1, div_eq_zero_iff]
        left
        linear_combination (-s q) * c1 - (H p q) * sq q
      · have e1 : q.swap = q := by ext <;> simp [h']
        rw [e1, hs.diag q h'] at c1 c2
        have hδ1 : δ = 1 := by rcases hδ with h1 | h1; exacts [h1, absurd h' (hqd h1)]
        have hε1 : ε = -1 := by rw [hδ1] at hεδ; linear_combination hεδ
        rw [hε1, div_eq_zero_iff]
        left
        linear_combination (-s p) * c1 - (H p q) * sq p
      · rw [c1, c2]
        rw [div_eq_zero_iff]
        left
        field_simp
        have hsum : ε + δ = 0 := by
          rcases hε with rfl | rfl
          · linear_combination hεδ
          · linear_combination -hεδ
        linear_combination (H p q) * ((s p * s p) * (s q * s q) * hεδ - sq p * (s q * s q) - sq q) + (H p q.swap) * s q * (ε * sq p) + (H p q.swap) * s q * hsum
    have mm : ∀ a b, (Qᴴ * subMat H K * Q) a b = ∑ t : {r // K r}, (∑ r : {r // K r}, star (Q r a) * H r t) * Q t b := by
      intro a b
      rw [mul_apply]
      refine Finset.sum_congr rfl fun t _ => ?_
      rw [mul_apply]
      rfl
    ext a b
    rw [mm]
    rcases a with a | a <;> rcases b with b | b <;> simp only [hQl, hQr]
    · rw [diag (-1) (.inr rfl) a b a.2.1 b.2.1, fromBlocks_apply₁₁]
      simp [subMat]
    · rw [off (-1) 1 (.inr rfl) (.inl rfl) (by norm_num) a b a.2.1 b.2.1 (fun _ => a.2.2.ne') (fun h => absurd h (by norm_num))]
      rfl
    · rw [off 1 (-1) (.inl rfl) (.inr rfl) (by norm_num) a b a.2.1 b.2.1 (fun h => absurd h (by norm_num)) (fun _ => b.2.2.ne')]
      rfl
    · rw [diag 1 (.inl rfl) a b a.2.1 b.2.1, fromBlocks_apply₂₂]
      simp [subMat]
  rw [← charpoly_fromBlocks_zero₂₁ _ 0, ← h3, Matrix.mul_assoc, charpoly_mul_comm_of_le _ _ hc.ge, hc, Nat.sub_self, pow_zero, one_mul, Matrix.mul_assoc, h2, Matrix.mul_one]

/-- A matrix that does not couple elements with different labels has the eigenvalues of its sectors together. -/
theorem sector_split {P α : Type} [LinearOrder α] [DecidableEq P] (H : P → P → ℂ) (K : P → Prop) [Fintype {p // K p}] (g : P → α) (S : Finset α)
    [∀ a, Fintype {p // K p ∧ g p = a}] (hS : ∀ p, K p → g p ∈ S) (hH : ∀ p q, K p → K q → g p ≠ g q → H p q = 0) :
    (subMat H K).charpoly = ∏ a ∈ S, (subMat H fun p => K p ∧ g p = a).charpoly := by
  classical
  have ht : (subMat H K).BlockTriangular fun p => g p.1 := fun p q h => hH p.1 q.1 p.2 q.2 h.ne'
  rw [ht.charpoly]
  have hsub : Finset.univ.image (fun p : {p // K p} => g p.1) ⊆ S := by
    intro a ha
    obtain ⟨p, -, rfl⟩ := Finset.mem_image.mp ha
    exact hS p.1 p.2
  rw [← Finset.prod_subset hsub]
  · refine Finset.prod_congr rfl fun a _ => ?_
    rw [← Matrix.charpoly_reindex (Equiv.subtypeSubtypeEquivSubtypeInter K fun p => g p = a)]
    congr 1
  · intro a _ ha
    have : IsEmpty {p // K p ∧ g p = a} := ⟨fun p => ha (Finset.mem_image.mpr ⟨⟨p.1, p.2.1⟩, Finset.mem_univ _, p.2.2⟩)⟩
    unfold Matrix.charpoly
    rw [Matrix.det_isEmpty]

end PI
