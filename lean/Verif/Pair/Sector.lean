import Verif.Pair.SectorModel
import Verif.Pair.BasisComplete
import Verif.Pair.SelectThm
import Verif.Legacy.BlockLemma
import Verif.Rot.PairThm

/-!
# Symmetry sectors of a pair system: the matrices of the sectors
-/

namespace PI

open Matrix

/-- The element of a pair operator between two pair states. -/
noncomputable def elemOf (F : QN × QN → QN × QN → ℂ) (x y : AState × AState) : ℂ := match qnPair x, qnPair y with
  | some a, some b => F a b
  | _, _ => 0

/-- The element between two vectors of coefficients. -/
noncomputable def between (S : OneSys) (f : AState × AState → AState × AState → ℂ) (u w : AState × AState → ℂ) : ℂ :=
  ∑ x ∈ S.sq, ∑ y ∈ S.sq, (starRingEnd ℂ) (u x) * f x y * w y

theorem sum_get {α : Type} [DecidableEq α] (L : List α) (hn : L.Nodup) (g : α → ℂ) : ∑ i : Fin L.length, g (L.get i) = ∑ x ∈ L.toFinset, g x := by
  rw [Finset.sum_subtype L.toFinset (p := fun x => x ∈ L) (by simp)]
  exact Fintype.sum_equiv (hn.getEquiv L) _ _ fun i => rfl

/-- The entries of the Hamiltonian, as sums over all pairs of one-atom states. -/
theorem hamiltonian_entry (C : FieldConsts) (radial : RadKey → ℝ) (me : Method) (S : OneSys) (B : PairBasis) (p : PairParams) (F : QN × QN → QN × QN → ℂ)
    (hF : pairH C radial me B.st p = fullPairs B.st F) (hn : B.states.Nodup) (hs : ∀ x ∈ B.states, x ∈ S.sq)
    (h0 : ∀ c ∈ B.cols, ∀ x, x ∉ B.states → c.2 x = 0) (i j : Fin B.cols.length) :
    B.hamiltonian C radial me p i j = (if i = j then (((B.cols.get i).1 : ℝ) : ℂ) else 0) + between S (elemOf F) (B.cols.get i).2 (B.cols.get j).2 := by
  unfold PairBasis.hamiltonian
  rw [Matrix.add_apply, Matrix.diagonal_apply, hF, Matrix.mul_apply]
  congr 1
  have hi := h0 _ (List.get_mem B.cols i)
  have hj := h0 _ (List.get_mem B.cols j)
  have e1 : ∀ y, (B.vecsᴴ * fullPairs B.st F) i y * B.vecs y j =
      (fun y => ∑ x ∈ S.sq, (starRingEnd ℂ) ((B.cols.get i).2 x) * elemOf F x y * (B.cols.get j).2 y) (B.states.get y) := by
    intro y
    rw [Matrix.mul_apply, Finset.sum_mul]
    have := sum_get B.states hn fun x => (starRingEnd ℂ) ((B.cols.get i).2 x) * elemOf F x (B.states.get y) * (B.cols.get j).2 (B.states.get y)
    refine Eq.trans (Finset.sum_congr rfl fun x _ => rfl) (this.trans ?_)
    refine Finset.sum_subset (fun x hx => hs x (List.mem_toFinset.1 hx)) fun x _ hx => ?_
    rw [hi x (by simpa using hx)]; simp
  rw [Finset.sum_congr rfl fun y _ => e1 y]
  refine (sum_get B.states hn (fun y => ∑ x ∈ S.sq, (starRingEnd ℂ) ((B.cols.get i).2 x) * elemOf F x y * (B.cols.get j).2 y)).trans ?_
  rw [Finset.sum_subset (s₂ := S.sq) (fun x hx => hs x (List.mem_toFinset.1 hx)) fun x _ hx => by
    rw [hj x (by simpa using hx)]; simp]
  unfold between
  exact Finset.sum_comm

/-- A matrix over the places of a list of pairs of numbers. -/
theorem charpoly_pairs {n : ℕ} (M : Matrix (Fin n) (Fin n) ℂ) (L : List (ℕ × ℕ)) (hn : L.Nodup) (hl : n = L.length) (f : ℕ × ℕ → ℕ × ℕ → ℂ)
    (hM : ∀ i j, M i j = f (L.get (i.cast hl)) (L.get (j.cast hl))) (k : ℕ) (R : Fin k × Fin k → Prop) [Fintype {p // R p}]
    (hL : ∀ p, p ∈ L ↔ ∃ h1 : p.1 < k, ∃ h2 : p.2 < k, R (⟨p.1, h1⟩, ⟨p.2, h2⟩)) :
    M.charpoly = (subMat (fun p q : Fin k × Fin k => f (p.1, p.2) (q.1, q.2)) R).charpoly := by
  classical
  subst hl
  have e : M = listMat f L := by ext i j; exact hM i j
  have : Fintype {p // p ∈ L} := Fintype.ofFinite _
  rw [e, listMat_charpoly f L (fun p => p ∈ L) hn fun _ => Iff.rfl]
  let E : {p // p ∈ L} ≃ {p : Fin k × Fin k // R p} :=
    { toFun := fun p => ⟨(⟨p.1.1, ((hL _).1 p.2).choose⟩, ⟨p.1.2, ((hL _).1 p.2).choose_spec.choose⟩), ((hL _).1 p.2).choose_spec.choose_spec⟩
      invFun := fun q => ⟨(q.1.1, q.1.2), (hL _).2 ⟨q.1.1.2, q.1.2.2, q.2⟩⟩
      left_inv := fun p => rfl
      right_inv := fun q => rfl }
  rw [← Matrix.charpoly_reindex E]
  rfl

/-! ## The Hamiltonian between products of one-atom vectors -/

variable {k : ℕ}

/-- The coefficients of a product of one-atom vectors. -/
noncomputable def prodOf (S : OneSys) (p : Fin k × Fin k) (x : AState × AState) : ℂ := coef1 (S.col p.1).2 x.1 * coef1 (S.col p.2).2 x.2

/-- The Hamiltonian between products of one-atom vectors. -/
noncomputable def prodH (S : OneSys) (f : AState × AState → AState × AState → ℂ) (p q : Fin k × Fin k) : ℂ :=
  (if p = q then (((S.col p.1).1 + (S.col p.2).1 : ℝ) : ℂ) else 0) + between S f (prodOf S p) (prodOf S q)

theorem between_sum {ι κ : Type} [Fintype ι] [Fintype κ] (S : OneSys) (f : AState × AState → AState × AState → ℂ) (c : ι → ℂ) (d : κ → ℂ)
    (u : ι → AState × AState → ℂ) (w : κ → AState × AState → ℂ) :
    between S f (fun x => ∑ r, u r x * c r) (fun x => ∑ t, w t x * d t) = ∑ r, ∑ t, star (c r) * between S f (u r) (w t) * d t := by
  unfold between
  have e : ∀ x ∈ S.sq, ∀ y ∈ S.sq, (starRingEnd ℂ) (∑ r, u r x * c r) * f x y * (∑ t, w t y * d t) =
      ∑ r, ∑ t, star (c r) * ((starRingEnd ℂ) (u r x) * f x y * w t y) * d t := by
    intro x _ y _
    rw [map_sum, Finset.sum_mul, Finset.sum_mul]
    refine Finset.sum_congr rfl fun r _ => ?_
    rw [Finset.mul_sum]
    refine Finset.sum_congr rfl fun t _ => ?_
    rw [map_mul]
    show _ = (starRingEnd ℂ) (c r) * _ * _
    ring
  rw [Finset.sum_congr rfl fun x hx => Finset.sum_congr rfl fun y hy => e x hx y hy]
  rw [Finset.sum_congr rfl fun x _ => Finset.sum_comm, Finset.sum_comm]
  refine Finset.sum_congr rfl fun r _ => ?_
  rw [Finset.sum_congr rfl fun x _ => Finset.sum_comm, Finset.sum_comm]
  refine Finset.sum_congr rfl fun t _ => ?_
  rw [Finset.mul_sum, Finset.sum_mul]
  refine Finset.sum_congr rfl fun x _ => ?_
  rw [Finset.mul_sum, Finset.sum_mul]

theorem symProd_sum (S : OneSys) (σ : Fin k × Fin k → ℂ) (sg : ℤ) (p : Fin k × Fin k) (h : σ p = (sg : ℂ)) :
    symProd S sg p.1 p.2 = fun x => ∑ r, prodOf S r x * oldSymVec σ p r := by
  funext x
  rw [sum_symVec]
  unfold symProd prodOf
  by_cases hp : p.1 = p.2
  · rw [if_pos (by rw [hp]), if_pos hp, hp]
  · rw [if_neg (fun h => hp (Fin.ext h)), if_neg hp, h]
    rfl

theorem sym_energy (σ : Fin k × Fin k → ℂ) (s : Fin k × Fin k → ℂ) (hs : PairSign s) (ε : ℂ) (hε : ε = 1 ∨ ε = -1) (hσ : σ = fun p => ε * s p)
    (e : Fin k × Fin k → ℂ) (he : ∀ p, e p.swap = e p) (p q : Fin k × Fin k) (hp : p.2 ≤ p.1) (hq : q.2 ≤ q.1) (hp' : ε = -1 → p.2 ≠ p.1) (hq' : ε = -1 → q.2 ≠ q.1) :
    ∑ r, ∑ t, star (oldSymVec σ p r) * (if r = t then e r else 0) * oldSymVec σ q t = if p = q then e p else 0 := by
  classical
  have hstar : ∀ p, star (σ p) = σ p := by
    intro p
    rw [hσ]
    dsimp only
    rcases hε with h | h <;> rcases hs.one p with h' | h' <;> rw [h, h'] <;> simp
  have e1 : ∀ r, ∑ t, star (oldSymVec σ p r) * (if r = t then e r else 0) * oldSymVec σ q t = e p * (oldSymVec σ p r * oldSymVec σ q r) := by
    intro r
    rw [Finset.sum_eq_single r (fun t _ h => by rw [if_neg (Ne.symm h)]; ring) (by simp), if_pos rfl, oldSymVec_star σ hstar]
    have : oldSymVec σ p r * e r = e p * oldSymVec σ p r := by
      unfold oldSymVec
      by_cases h1 : r = p
      · rw [h1]; ring
      · by_cases h2 : r = p.swap
        · rw [h2, he]; ring
        · simp [h1, h2]
    linear_combination oldSymVec σ q r * this
  rw [Finset.sum_congr rfl fun r _ => e1 r, ← Finset.mul_sum]
  have h := oldSymVec_overlap (fun _ : Fin k × Fin k => True) (fun _ _ => trivial) s hs ε ε hε hε q p trivial hq hp hq' hp'
  rw [← hσ] at h
  have h2 : ∑ r : {r : Fin k × Fin k // True}, oldSymVec σ p r * oldSymVec σ q r = ∑ r, oldSymVec σ p r * oldSymVec σ q r :=
    Fintype.sum_equiv (Equiv.subtypeUnivEquiv (fun _ => trivial)) _ _ fun _ => rfl
  rw [← h2, h]
  by_cases hpq : p = q
  · rw [if_pos hpq, if_pos ⟨hpq.symm, rfl⟩, mul_one]
  · rw [if_neg hpq, if_neg (fun h => hpq h.1.symm), mul_zero]

/-- The Hamiltonian of a sector: the matrix elements between the symmetrised products. -/
theorem sector_charpoly (C : FieldConsts) (radial : RadKey → ℝ) (me : Method) (S : OneSys) (B : PairBasis) (p : PairParams) (F : QN × QN → QN × QN → ℂ)
    (hF : pairH C radial me B.st p = fullPairs B.st F) (hn : B.states.Nodup) (hst : ∀ x ∈ B.states, x ∈ S.sq)
    (h0 : ∀ c ∈ B.cols, ∀ x, x ∉ B.states → c.2 x = 0) (diag : Bool) (sg : ℕ → ℕ → ℤ)
    (hc : B.cols = (swapPairs diag S.cols.length).map (fun ab => ((S.col ab.1).1 + (S.col ab.2).1, symProd S (sg ab.1 ab.2) ab.1 ab.2)))
    (s : Fin S.cols.length × Fin S.cols.length → ℂ) (hs : PairSign s) (ε : ℂ) (hε : (ε = 1 ∧ diag = true) ∨ (ε = -1 ∧ diag = false))
    (hsg : ∀ p : Fin S.cols.length × Fin S.cols.length, ε * s p = (sg p.1 p.2 : ℂ)) (R : Fin S.cols.length × Fin S.cols.length → Prop) [Fintype {p // R p}]
    (hR : ∀ p, R p ↔ (p.2 < p.1 ∨ (diag = true ∧ p.1 = p.2))) :
    (B.hamiltonian C radial me p).charpoly = (subMat (symElem (fun p => ε * s p) (prodH S (elemOf F))) R).charpoly := by
  classical
  have hl : B.cols.length = (swapPairs diag S.cols.length).length := by rw [hc, List.length_map]
  have hget : ∀ i : Fin B.cols.length, B.cols.get i = (fun ab : ℕ × ℕ => ((S.col ab.1).1 + (S.col ab.2).1, symProd S (sg ab.1 ab.2) ab.1 ab.2))
      ((swapPairs diag S.cols.length).get (i.cast hl)) := by
    intro i
    simp [hc]
  let f : ℕ × ℕ → ℕ × ℕ → ℂ := fun a b => (if a = b then (((S.col a.1).1 + (S.col a.2).1 : ℝ) : ℂ) else 0) +
    between S (elemOf F) (symProd S (sg a.1 a.2) a.1 a.2) (symProd S (sg b.1 b.2) b.1 b.2)
  rw [charpoly_pairs (B.hamiltonian C radial me p) (swapPairs diag S.cols.length) (swapPairs_nodup diag S.cols.length) hl f (by
      intro i j
      rw [hamiltonian_entry C radial me S B p F hF hn hst h0, hget i, hget j]
      congr 1
      by_cases hij : i = j
      · rw [if_pos hij, if_pos (by rw [hij])]
      · rw [if_neg hij, if_neg]
        intro h
        exact hij (Fin.cast_injective hl ((swapPairs_nodup diag S.cols.length).injective_get h))) S.cols.length R (by
      intro q
      rw [mem_swapPairs]
      constructor
      · rintro ⟨h1, h2⟩
        have h2' : q.2 < S.cols.length := by rcases h2 with h2 | h2 <;> omega
        refine ⟨h1, h2', (hR _).2 ?_⟩
        rcases h2 with h2 | h2
        · exact Or.inl h2
        · exact Or.inr ⟨h2.1, Fin.ext h2.2.symm⟩
      · rintro ⟨h1, h2, h3⟩
        refine ⟨h1, ?_⟩
        rcases (hR _).1 h3 with h | h
        · exact Or.inl h
        · exact Or.inr ⟨h.1, (congrArg Fin.val h.2).symm⟩)]
  congr 1
  ext a b
  show f _ _ = symElem _ _ _ _
  have ha := (hR a.1).1 a.2
  have hb := (hR b.1).1 b.2
  have ord : ∀ a : Fin S.cols.length × Fin S.cols.length, (a.2 < a.1 ∨ (diag = true ∧ a.1 = a.2)) → a.2 ≤ a.1 ∧ (ε = -1 → a.2 ≠ a.1) := by
    intro a h
    rcases h with h | h
    · exact ⟨h.le, fun _ => h.ne⟩
    · refine ⟨h.2.ge, fun he => ?_⟩
      rcases hε with h' | h'
      · rw [h'.1] at he; norm_num at he
      · rw [h'.2] at h; simp at h
  have hε' : ε = 1 ∨ ε = -1 := hε.imp And.left And.left
  simp only [f, symElem, prodH]
  rw [symProd_sum S (fun p => ε * s p) _ a.1 (hsg _), symProd_sum S (fun p => ε * s p) _ b.1 (hsg _), between_sum]
  have en := sym_energy (fun p => ε * s p) s hs ε hε' rfl (fun p => (((S.col p.1).1 + (S.col p.2).1 : ℝ) : ℂ))
    (by intro p; dsimp only [Prod.fst_swap, Prod.snd_swap]; rw [add_comm]) a.1 b.1 (ord _ ha).1 (ord _ hb).1 (ord _ ha).2 (ord _ hb).2
  have hab : (((a.1.1 : ℕ), (a.1.2 : ℕ)) = ((b.1.1 : ℕ), (b.1.2 : ℕ))) ↔ a.1 = b.1 := by
    constructor
    · intro h
      rw [Prod.mk.injEq] at h
      exact Prod.ext (Fin.ext h.1) (Fin.ext h.2)
    · intro h; rw [h]
  rw [show (if ((a.1.1 : ℕ), (a.1.2 : ℕ)) = ((b.1.1 : ℕ), (b.1.2 : ℕ)) then (((S.col a.1.1).1 + (S.col a.1.2).1 : ℝ) : ℂ) else 0)
      = if a.1 = b.1 then (((S.col a.1.1).1 + (S.col a.1.2).1 : ℝ) : ℂ) else 0 from if_congr hab rfl rfl, ← en, ← Finset.sum_add_distrib]
  refine Finset.sum_congr rfl fun r _ => ?_
  rw [← Finset.sum_add_distrib]
  refine Finset.sum_congr rfl fun t _ => ?_
  ring

end PI
