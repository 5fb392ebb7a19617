import Verif.Pair.SectorThm
import Mathlib.Analysis.Matrix.Spectrum
import Mathlib.Analysis.Matrix.PosDef

/-!
# Symmetry sectors of a pair system: when they are decoupled
-/

namespace PI

open Matrix

/-- The squares of the eigenvalues of a Hermitian matrix. -/
theorem herm_trace_sq {ι : Type} [Fintype ι] [DecidableEq ι] (M : Matrix ι ι ℂ) (h : M.IsHermitian) :
    (M * M).trace = (M.charpoly.roots.map fun z => z * z).sum := by
  rw [h.roots_charpoly_eq_eigenvalues, Multiset.map_map]
  conv_lhs => rw [h.spectral_theorem, ← map_mul, Matrix.diagonal_mul_diagonal, Unitary.conjStarAlgAut_apply, Matrix.trace_mul_cycle, Unitary.coe_star_mul_self,
    Matrix.one_mul, Matrix.trace_diagonal]
  rfl

variable {k : ℕ}

/-- The exchanged operator. -/
def exch (f : AState × AState → AState × AState → ℂ) : AState × AState → AState × AState → ℂ := fun x y => f x.swap y.swap

theorem between_add (S : OneSys) (f g : AState × AState → AState × AState → ℂ) (u w : AState × AState → ℂ) :
    between S (fun x y => f x y + g x y) u w = between S f u w + between S g u w := by
  unfold between
  simp only [mul_add, add_mul, Finset.sum_add_distrib]

theorem between_smul (S : OneSys) (c : ℂ) (f : AState × AState → AState × AState → ℂ) (u w : AState × AState → ℂ) :
    between S (fun x y => c * f x y) u w = c * between S f u w := by
  unfold between
  rw [Finset.mul_sum]
  refine Finset.sum_congr rfl fun x _ => ?_
  rw [Finset.mul_sum]
  exact Finset.sum_congr rfl fun y _ => by ring

theorem between_exch (S : OneSys) (f : AState × AState → AState × AState → ℂ) (p q : Fin k × Fin k) :
    between S (exch f) (prodOf S p) (prodOf S q) = between S f (prodOf S p.swap) (prodOf S q.swap) := by
  have sw : ∀ (p : Fin k × Fin k) x, prodOf S p.swap x = prodOf S p x.swap := fun p x => mul_comm _ _
  unfold between exch
  rw [← sum_sq_swap S]
  refine Finset.sum_congr rfl fun x hx => ?_
  rw [← sum_sq_swap S]
  refine Finset.sum_congr rfl fun y hy => ?_
  rw [sw, sw]
  rfl

theorem prodH_exch (S : OneSys) (f : AState × AState → AState × AState → ℂ) (p q : Fin k × Fin k) :
    prodH S (exch f) p q = prodH S f p.swap q.swap := by
  unfold prodH
  rw [between_exch]
  congr 1
  by_cases h : p = q
  · rw [if_pos h, if_pos (by rw [h])]
    dsimp only [Prod.fst_swap, Prod.snd_swap]
    rw [add_comm]
  · rw [if_neg h, if_neg (fun h' => h (Prod.swap_injective h'))]

/-- The part that does not change if the atoms are exchanged. -/
noncomputable def evenPart (f : AState × AState → AState × AState → ℂ) : AState × AState → AState × AState → ℂ := fun x y => (1 / 2) * f x y + (1 / 2) * exch f x y

/-- The part that changes its sign. -/
noncomputable def oddPart (f : AState × AState → AState × AState → ℂ) : AState × AState → AState × AState → ℂ := fun x y => (1 / 2) * f x y + (-1 / 2) * exch f x y

theorem prodH_even (S : OneSys) (f : AState × AState → AState × AState → ℂ) (p q : Fin k × Fin k) :
    prodH S (evenPart f) p q = (prodH S f p q + prodH S f p.swap q.swap) / 2 := by
  rw [← prodH_exch]
  unfold prodH evenPart
  rw [between_add, between_smul, between_smul]
  split_ifs <;> ring

theorem prodH_split (S : OneSys) (f : AState × AState → AState × AState → ℂ) (p q : Fin k × Fin k) :
    prodH S f p q = prodH S (evenPart f) p q + between S (oddPart f) (prodOf S p) (prodOf S q) := by
  rw [prodH_even, ← prodH_exch]
  unfold prodH oddPart
  rw [between_add, between_smul, between_smul]
  ring

theorem oldSymVec_swap (σ : ℂ) (hσ : σ * σ = 1) (p r : Fin k × Fin k) (h : σ = 1 ∨ p.1 ≠ p.2) : oldSymVec (fun _ => σ) p r.swap = σ * oldSymVec (fun _ => σ) p r := by
  have e1 : r.swap = p ↔ r = p.swap := by rw [← Prod.swap_inj, Prod.swap_swap]
  have e2 : r.swap = p.swap ↔ r = p := Prod.swap_inj
  unfold oldSymVec
  simp only [e1, e2]
  by_cases hp : p.1 = p.2
  · have hs : σ = 1 := h.resolve_right (fun h => h hp)
    have : p.swap = p := Prod.ext hp.symm hp
    rw [if_pos hp, if_pos hp, this, hs, one_mul]
  · rw [if_neg hp, if_neg hp]
    have : ∀ a b : ℂ, (a + σ * b) / (Real.sqrt 2 : ℝ) = σ * ((b + σ * a) / (Real.sqrt 2 : ℝ)) := by
      intro a b
      rw [mul_div_assoc', mul_add, ← mul_assoc, hσ, one_mul, add_comm]
    exact this _ _

theorem symElem_exch (σ : ℂ) (hσ : σ * σ = 1) (hst : star σ = σ) (H : Fin k × Fin k → Fin k × Fin k → ℂ) (p q : Fin k × Fin k) (hp : σ = 1 ∨ p.1 ≠ p.2)
    (hq : σ = 1 ∨ q.1 ≠ q.2) : symElem (fun _ => σ) (fun r t => H r.swap t.swap) p q = symElem (fun _ => σ) H p q := by
  unfold symElem
  have sw : ∀ g : Fin k × Fin k → ℂ, ∑ r : Fin k × Fin k, g r.swap = ∑ r, g r := fun g => Equiv.sum_comp (Equiv.prodComm _ _) g
  rw [← sw]
  refine Finset.sum_congr rfl fun r _ => ?_
  rw [← sw]
  refine Finset.sum_congr rfl fun t _ => ?_
  rw [oldSymVec_swap σ hσ p r hp, oldSymVec_swap σ hσ q t hq, star_mul', hst]
  dsimp only
  rw [Prod.swap_swap, Prod.swap_swap]
  linear_combination (star (oldSymVec (fun _ => σ) p r) * H r t * oldSymVec (fun _ => σ) q t) * hσ

theorem symElem_even (S : OneSys) (σ : ℂ) (hσ : σ * σ = 1) (hst : star σ = σ) (f : AState × AState → AState × AState → ℂ) (p q : Fin k × Fin k)
    (hp : σ = 1 ∨ p.1 ≠ p.2) (hq : σ = 1 ∨ q.1 ≠ q.2) :
    symElem (fun _ => σ) (prodH S (evenPart f)) p q = symElem (fun _ => σ) (prodH S f) p q := by
  have e := symElem_exch σ hσ hst (prodH S f) p q hp hq
  have : symElem (fun _ => σ) (prodH S (evenPart f)) p q = (symElem (fun _ => σ) (prodH S f) p q + symElem (fun _ => σ) (fun r t => prodH S f r.swap t.swap) p q) / 2 := by
    unfold symElem
    rw [← Finset.sum_add_distrib, Finset.sum_div]
    refine Finset.sum_congr rfl fun r _ => ?_
    rw [← Finset.sum_add_distrib, Finset.sum_div]
    refine Finset.sum_congr rfl fun t _ => ?_
    rw [prodH_even]
    ring
  rw [this, e]
  ring

/-- The products of the basis vectors are complete. -/
theorem prod_complete (S : OneSys) (hS : UnitarySys S) (x y : AState × AState) (hx : x ∈ S.sq) (hy : y ∈ S.sq) :
    ∑ p : Fin S.cols.length × Fin S.cols.length, prodOf S p x * (starRingEnd ℂ) (prodOf S p y) = if x = y then 1 else 0 := by
  unfold OneSys.sq at hx hy
  rw [Finset.mem_product, List.mem_toFinset, List.mem_toFinset] at hx hy
  have c1 := hS.complete y.1 hy.1 x.1 hx.1
  have c2 := hS.complete y.2 hy.2 x.2 hx.2
  rw [Finset.sum_range] at c1 c2
  rw [Fintype.sum_prod_type]
  unfold prodOf
  have : ∀ a b : Fin S.cols.length, coef1 (S.col a).2 x.1 * coef1 (S.col b).2 x.2 * (starRingEnd ℂ) (coef1 (S.col a).2 y.1 * coef1 (S.col b).2 y.2) =
      ((starRingEnd ℂ) (coef1 (S.col a).2 y.1) * coef1 (S.col a).2 x.1) * ((starRingEnd ℂ) (coef1 (S.col b).2 y.2) * coef1 (S.col b).2 x.2) := by
    intro a b
    rw [map_mul]; ring
  simp_rw [this]
  rw [← Finset.sum_mul_sum, c1, c2]
  by_cases h : x = y
  · rw [if_pos (by rw [h]), if_pos (by rw [h]), if_pos h, one_mul]
  · rw [if_neg h]
    by_cases h1 : y.1 = x.1
    · have h2 : ¬ y.2 = x.2 := fun h2 => h (Prod.ext h1.symm h2.symm)
      rw [if_neg h2, mul_zero]
    · rw [if_neg h1, zero_mul]

theorem between_zero (S : OneSys) (hS : UnitarySys S) (f : AState × AState → AState × AState → ℂ)
    (h : ∀ p q : Fin S.cols.length × Fin S.cols.length, between S f (prodOf S p) (prodOf S q) = 0) (x y : AState × AState) (hx : x ∈ S.sq) (hy : y ∈ S.sq) : f x y = 0 := by
  have : ∑ p : Fin S.cols.length × Fin S.cols.length, ∑ q : Fin S.cols.length × Fin S.cols.length,
      prodOf S p x * between S f (prodOf S p) (prodOf S q) * (starRingEnd ℂ) (prodOf S q y) = f x y := by
    have e : ∀ p q : Fin S.cols.length × Fin S.cols.length, prodOf S p x * between S f (prodOf S p) (prodOf S q) * (starRingEnd ℂ) (prodOf S q y) =
        ∑ u ∈ S.sq, ∑ w ∈ S.sq, f u w * (prodOf S p x * (starRingEnd ℂ) (prodOf S p u)) * (prodOf S q w * (starRingEnd ℂ) (prodOf S q y)) := by
      intro p q
      unfold between
      rw [Finset.mul_sum, Finset.sum_mul]
      refine Finset.sum_congr rfl fun u _ => ?_
      rw [Finset.mul_sum, Finset.sum_mul]
      exact Finset.sum_congr rfl fun w _ => by ring
    simp_rw [e]
    have c : ∀ p : Fin S.cols.length × Fin S.cols.length, ∑ q : Fin S.cols.length × Fin S.cols.length, ∑ u ∈ S.sq, ∑ w ∈ S.sq,
        f u w * (prodOf S p x * (starRingEnd ℂ) (prodOf S p u)) * (prodOf S q w * (starRingEnd ℂ) (prodOf S q y)) =
        ∑ u ∈ S.sq, f u y * (prodOf S p x * (starRingEnd ℂ) (prodOf S p u)) := by
      intro p
      rw [Finset.sum_comm]
      refine Finset.sum_congr rfl fun u _ => ?_
      rw [Finset.sum_comm]
      rw [Finset.sum_eq_single_of_mem y hy]
      · rw [← Finset.mul_sum, prod_complete S hS y y hy hy, if_pos rfl, mul_one]
      · intro w hw hne
        rw [← Finset.mul_sum, prod_complete S hS w y hw hy, if_neg hne, mul_zero]
    simp_rw [c]
    rw [Finset.sum_comm, Finset.sum_eq_single_of_mem x hx]
    · rw [← Finset.mul_sum, prod_complete S hS x x hx hx, if_pos rfl, mul_one]
    · intro u hu hne
      rw [← Finset.mul_sum, prod_complete S hS x u hx hu, if_neg (Ne.symm hne), mul_zero]
  rw [← this]
  simp [h]

theorem between_star (S : OneSys) (f : AState × AState → AState × AState → ℂ) (hf : ∀ x ∈ S.sq, ∀ y ∈ S.sq, f y x = (starRingEnd ℂ) (f x y)) (u w : AState × AState → ℂ) :
    between S f w u = (starRingEnd ℂ) (between S f u w) := by
  unfold between
  rw [Finset.sum_comm, map_sum]
  refine Finset.sum_congr rfl fun x hx => ?_
  rw [map_sum]
  refine Finset.sum_congr rfl fun y hy => ?_
  rw [map_mul, map_mul, hf x hx y hy]
  simp only [Complex.conj_conj]
  ring

/-- A Hermitian interaction has the eigenvalues of its part that is even under the exchange of the atoms only if there is no odd part. -/
theorem odd_zero (S : OneSys) (hS : UnitarySys S) (f : AState × AState → AState × AState → ℂ) (hf : ∀ x ∈ S.sq, ∀ y ∈ S.sq, f y x = (starRingEnd ℂ) (f x y))
    (h : (subMat (prodH S f : Fin S.cols.length × Fin S.cols.length → _ → ℂ) fun _ => True).charpoly =
      (subMat (prodH S (evenPart f) : Fin S.cols.length × Fin S.cols.length → _ → ℂ) fun _ => True).charpoly) :
    ∀ x ∈ S.sq, ∀ y ∈ S.sq, f x.swap y.swap = f x y := by
  set M := subMat (prodH S f : Fin S.cols.length × Fin S.cols.length → _ → ℂ) fun _ => True with hM
  set Me := subMat (prodH S (evenPart f) : Fin S.cols.length × Fin S.cols.length → _ → ℂ) fun _ => True with hMe
  have hfe : ∀ x ∈ S.sq, ∀ y ∈ S.sq, evenPart f y x = (starRingEnd ℂ) (evenPart f x y) := by
    intro x hx y hy
    have := hf x.swap ((sq_swap S x).2 hx) y.swap ((sq_swap S y).2 hy)
    unfold evenPart exch
    rw [hf x hx y hy, this]
    simp [Complex.conj_ofNat]
  have hfo : ∀ x ∈ S.sq, ∀ y ∈ S.sq, oddPart f y x = (starRingEnd ℂ) (oddPart f x y) := by
    intro x hx y hy
    have := hf x.swap ((sq_swap S x).2 hx) y.swap ((sq_swap S y).2 hy)
    unfold oddPart exch
    rw [hf x hx y hy, this]
    simp [Complex.conj_ofNat]
  have herm : ∀ g : AState × AState → AState × AState → ℂ, (∀ x ∈ S.sq, ∀ y ∈ S.sq, g y x = (starRingEnd ℂ) (g x y)) →
      (subMat (prodH S g : Fin S.cols.length × Fin S.cols.length → _ → ℂ) fun _ => True).IsHermitian := by
    intro g hg
    ext p q
    rw [Matrix.conjTranspose_apply]
    unfold subMat prodH
    rw [between_star S g hg (prodOf S p.1), star_add]
    congr 1
    · by_cases hpq : p = q
      · rw [if_pos (by rw [hpq]), if_pos (by rw [hpq]), hpq]
        exact Complex.conj_ofReal _
      · rw [if_neg (fun h => hpq (Subtype.ext h).symm), if_neg (fun h => hpq (Subtype.ext h)), star_zero]
    · exact Complex.conj_conj _
  have t1 := herm_trace_sq M (herm f hf)
  have t2 := herm_trace_sq Me (herm _ hfe)
  rw [h, ← t2] at t1
  set N : Matrix {p : Fin S.cols.length × Fin S.cols.length // True} {p : Fin S.cols.length × Fin S.cols.length // True} ℂ :=
    fun p q => between S (oddPart f) (prodOf S p.1) (prodOf S q.1) with hN
  have hMN : M = Me + N := by
    ext p q
    exact prodH_split S f p.1 q.1
  have hNh : Nᴴ = N := by
    ext p q
    rw [Matrix.conjTranspose_apply]
    show star (between S (oddPart f) _ _) = between S (oddPart f) _ _
    rw [between_star S _ hfo (prodOf S p.1)]
    exact Complex.conj_conj _
  have cross : (Me * N).trace = 0 := by
    have e : ∀ p q : Fin S.cols.length × Fin S.cols.length, prodH S (evenPart f) p.swap q.swap = prodH S (evenPart f) p q := by
      intro p q
      rw [prodH_even, prodH_even, Prod.swap_swap, Prod.swap_swap, add_comm]
    have o : ∀ p q : Fin S.cols.length × Fin S.cols.length, between S (oddPart f) (prodOf S p.swap) (prodOf S q.swap) = - between S (oddPart f) (prodOf S p) (prodOf S q) := by
      intro p q
      rw [← between_exch]
      have : exch (oddPart f) = fun x y => (-1) * oddPart f x y := by
        funext x y
        unfold exch oddPart exch
        rw [Prod.swap_swap, Prod.swap_swap]
        ring
      rw [this, between_smul]
      ring
    have tr : (Me * N).trace = ∑ p : Fin S.cols.length × Fin S.cols.length, ∑ q : Fin S.cols.length × Fin S.cols.length,
        prodH S (evenPart f) p q * between S (oddPart f) (prodOf S q) (prodOf S p) := by
      unfold Matrix.trace
      refine Fintype.sum_equiv (Equiv.subtypeUnivEquiv (fun _ => trivial)) _ _ fun p => ?_
      rw [Matrix.diag_apply, Matrix.mul_apply]
      exact Fintype.sum_equiv (Equiv.subtypeUnivEquiv (fun _ => trivial)) _ _ fun q => rfl
    have sw : ∀ g : Fin S.cols.length × Fin S.cols.length → ℂ, ∑ r : Fin S.cols.length × Fin S.cols.length, g r.swap = ∑ r, g r := fun g => Equiv.sum_comp (Equiv.prodComm _ _) g
    have : (Me * N).trace = -(Me * N).trace := by
      conv_lhs => rw [tr, ← sw]
      rw [tr, ← Finset.sum_neg_distrib]
      refine Finset.sum_congr rfl fun p _ => ?_
      rw [← sw, ← Finset.sum_neg_distrib]
      refine Finset.sum_congr rfl fun q _ => ?_
      rw [e, o]
      ring
    linear_combination (1 / 2) * this
  have hNN : (Nᴴ * N).trace = 0 := by
    rw [hMN, Matrix.add_mul, Matrix.mul_add, Matrix.mul_add, Matrix.trace_add, Matrix.trace_add, Matrix.trace_add, Matrix.trace_mul_comm N Me, cross] at t1
    rw [hNh]
    linear_combination t1
  open scoped ComplexOrder in
  have hN0 : N = 0 := Matrix.trace_conjTranspose_mul_self_eq_zero_iff.1 hNN
  intro x hx y hy
  have z := between_zero S hS (oddPart f) (fun p q => congrFun (congrFun hN0 ⟨p, trivial⟩) ⟨q, trivial⟩) x y hx hy
  unfold oddPart exch at z
  linear_combination (-2) * z

/-- The sectors of the permutation symmetry, for any interaction. -/
theorem perm_sectors (C : FieldConsts) (radial : RadKey → ℝ) (me : Method) (S : OneSys) (hS : UnitarySys S) (hk : 2 ≤ S.cols.length) (h1s : SameAtoms S)
    (p : PairParams) (F : QN × QN → QN × QN → ℂ) (hF : ∀ B : PairBasis, (∀ x ∈ B.states, x ∈ S.sq) → pairH C radial me B.st p = fullPairs B.st F)
    (thr : ℝ) (h0 : 0 ≤ thr) (h1 : thr < 1 / 4) (sp : String × String) (lt : AState → AState → Bool) (E : AState → ℝ) :
    ∃ A B D, pairBuild (plainSet thr sp) lt E S S = .ok A ∧ pairBuild (permSet .even thr sp) lt E S S = .ok B ∧
      pairBuild (permSet .odd thr sp) lt E S S = .ok D ∧
      ((A.hamiltonian C radial me p).charpoly = (B.hamiltonian C radial me p).charpoly * (D.hamiltonian C radial me p).charpoly ↔
        ∀ x ∈ S.sq, ∀ y ∈ S.sq, elemOf F x.swap y.swap = elemOf F x y) := by
  classical
  have hs : PairSign (k := S.cols.length) fun _ => 1 := ⟨fun _ => Or.inl rfl, fun _ => rfl, fun _ _ => rfl⟩
  obtain ⟨A, a1, a2, asq, a0, a4, a5⟩ := plain_build S hS hk h1s thr h0 (by linarith) sp lt E
  have hE := permSet_swap .even (by decide) thr h0 h1 sp S h1s.spin
  have hO := permSet_swap .odd (by decide) thr h0 h1 sp S h1s.spin
  obtain ⟨B, b1, b2, b3, b4, b5⟩ := hE.build hS lt E (swapPairs_ne _ _ hk)
  obtain ⟨D, d1, d2, d3, d4, d5⟩ := hO.build hS lt E (swapPairs_ne _ _ hk)
  refine ⟨A, B, D, a1, b1, d1, ?_⟩
  have asq' : ∀ x ∈ A.states, x ∈ S.sq := fun x hx => (asq x).1 hx
  have hf : ∀ x ∈ S.sq, ∀ y ∈ S.sq, elemOf F y x = (starRingEnd ℂ) (elemOf F x y) := by
    intro x hx y hy
    obtain ⟨i, rfl⟩ := List.get_of_mem ((asq x).2 hx)
    obtain ⟨j, rfl⟩ := List.get_of_mem ((asq y).2 hy)
    have := C44_hermitian C radial me A.st p
    rw [hF A asq'] at this
    exact (congrFun (congrFun this j) i).symm
  rw [plain_charpoly C radial me S A p F (hF A asq') a2 asq' a0 a4 a5,
    sector_charpoly C radial me S B p F (hF B b3) b2 b3 b5 false (fun _ _ => -1) (by rw [b4]; rfl) (fun _ => 1) hs (-1) (Or.inr ⟨rfl, rfl⟩) (by simp)
      (fun p => True ∧ p.2 < p.1) (by simp),
    sector_charpoly C radial me S D p F (hF D d3) d2 d3 d5 true (fun _ _ => 1) (by rw [d4]; rfl) (fun _ => 1) hs 1 (Or.inl ⟨rfl, rfl⟩) (by simp)
      (fun p => True ∧ p.2 ≤ p.1) (by
      intro p
      rw [le_iff_lt_or_eq]
      simp [eq_comm])]
  have he := pair_split (k := S.cols.length) (fun _ => True) (fun _ _ => trivial) (fun _ => 1) hs (prodH S (evenPart (elemOf F))) fun p q _ _ => by
    rw [prodH_even, prodH_even, Prod.swap_swap, Prod.swap_swap]; ring
  have e1 : subMat (symElem (fun p => -1 * (1 : ℂ)) (prodH S (elemOf F))) (fun p : Fin S.cols.length × Fin S.cols.length => True ∧ p.2 < p.1) =
      subMat (symElem (fun p => -(1 : ℂ)) (prodH S (evenPart (elemOf F)))) (fun p => True ∧ p.2 < p.1) := by
    ext q r
    unfold subMat
    rw [symElem_even S (-1) (by norm_num) (by simp) (elemOf F) q.1 r.1 (Or.inr q.2.2.ne') (Or.inr r.2.2.ne')]
    simp
  have e2 : subMat (symElem (fun p => 1 * (1 : ℂ)) (prodH S (elemOf F))) (fun p : Fin S.cols.length × Fin S.cols.length => True ∧ p.2 ≤ p.1) =
      subMat (symElem (fun p => (1 : ℂ)) (prodH S (evenPart (elemOf F)))) (fun p => True ∧ p.2 ≤ p.1) := by
    ext q r
    unfold subMat
    rw [symElem_even S 1 (by norm_num) (by simp) (elemOf F) q.1 r.1 (Or.inl rfl) (Or.inl rfl)]
    simp
  rw [e1, e2, ← he]
  constructor
  · exact odd_zero S hS (elemOf F) hf
  · intro h
    congr 1
    ext q r
    unfold subMat
    rw [prodH_even, prodH_swap S (elemOf F) (fun _ => 1) hs (fun _ => 1) (fun x hx y hy => by rw [h x hx y hy]; ring) (fun _ _ _ => rfl)]
    ring

/-! ## Orders -/

theorem multipoleTerm_sign (C : FieldConsts) (radial : RadKey → ℝ) (me : Method) (k1 k2 : ℕ) (a b : QN × QN) (ok : PairOK a b) :
    (sgnZ (a.1.l + a.2.l) : ℝ) * sgnZ (b.1.l + b.2.l) * multipoleTerm C radial me k1 k2 a b = (-1) ^ (k1 + k2) * multipoleTerm C radial me k1 k2 a b := by
  by_cases z1 : elem C radial me k1 a.1 b.1 = 0
  · unfold multipoleTerm; rw [z1]; ring
  by_cases z2 : elem C radial me k2 a.2 b.2 = 0
  · unfold multipoleTerm; rw [z2]; ring
  have p1 := elem_parity C radial me a.1 b.1 ok.a1 ok.b1 ok.sp1 ok.s1 k1 z1
  have p2 := elem_parity C radial me a.2 b.2 ok.a2 ok.b2 ok.sp2 ok.s2 k2 z2
  congr 1
  rcases Nat.even_or_odd (k1 + k2) with h | h
  · rw [h.neg_one_pow]
    rw [Nat.even_iff] at h
    unfold sgnZ
    split_ifs <;> first | (exfalso; omega) | norm_num
  · rw [h.neg_one_pow]
    rw [Nat.odd_iff] at h
    unfold sgnZ
    split_ifs <;> first | (exfalso; omega) | norm_num

/-- If the atoms are exchanged, the terms of even order change their sign. -/
theorem multipoleSpecPair_exchange (C : FieldConsts) (radial : RadKey → ℝ) (me : Method) (o : ℕ) (ho : 3 ≤ o) (a b : QN × QN) (ok : PairOK a b) :
    multipoleSpecPair C radial me o a.swap b.swap = (if o % 2 = 0 then -1 else 1) * multipoleSpecPair C radial me o a b := by
  rw [multipoleSpecPair_swap C radial me o a b ok]
  unfold multipoleSpecPair
  by_cases hm : a.1.m + a.2.m = b.1.m + b.2.m
  · rw [if_pos hm, Finset.mul_sum, Finset.mul_sum]
    refine Finset.sum_congr rfl fun i hi => ?_
    rw [Finset.mem_range] at hi
    rw [multipoleTerm_sign C radial me _ _ a b ok]
    congr 1
    by_cases h : o % 2 = 0
    · rw [if_pos h, Odd.neg_one_pow (by rw [Nat.odd_iff]; omega)]
    · rw [if_neg h, Even.neg_one_pow (by rw [Nat.even_iff]; omega)]
  · rw [if_neg hm, mul_zero, mul_zero]

/-- Specification: the part of the multipole interaction along z of even order in 1/R (dipole-quadrupole and so on). -/
noncomputable def evenOrders (C : FieldConsts) (radial : RadKey → ℝ) (me : Method) (p : PairParams) (a b : QN × QN) : ℝ :=
  ∑ o ∈ (Finset.Icc 3 p.order).filter (fun o => o % 2 = 0), 1 / p.dist ^ o * multipoleSpecPair C radial me o a b

theorem axisSpec_exchange (C : FieldConsts) (radial : RadKey → ℝ) (me : Method) (p : PairParams) (a b : QN × QN) (ok : PairOK a b) :
    axisSpec C radial me p a.swap b.swap = axisSpec C radial me p a b - 2 * (evenOrders C radial me p a b : ℂ) := by
  unfold axisSpec evenOrders
  rw [show ∀ u v : ℝ, (u : ℂ) - 2 * (v : ℂ) = ((u - 2 * v : ℝ) : ℂ) by intros; push_cast; ring]
  congr 1
  rw [Finset.sum_filter, Finset.mul_sum, ← Finset.sum_sub_distrib]
  refine Finset.sum_congr rfl fun o ho => ?_
  rw [Finset.mem_Icc] at ho
  rw [multipoleSpecPair_exchange C radial me o ho.1 a b ok]
  split_ifs <;> ring

/-- **C109.** Permutation symmetry with the multipole expansion along z, for every order: the two permutation sectors together have the eigenvalues of the whole system
exactly if the interactions of even order in 1/R (dipole-quadrupole and so on) vanish between all pair states. -/
theorem C109_permutation_orders (C : FieldConsts) (radial : RadKey → ℝ) (me : Method) (S : OneSys) (hS : UnitarySys S) (hk : 2 ≤ S.cols.length) (h1s : SameAtoms S)
    (p : PairParams) (hp : OnAxis p) (thr : ℝ) (h0 : 0 ≤ thr) (h1 : thr < 1 / 4) (sp : String × String) (lt : AState → AState → Bool) (E : AState → ℝ) :
    ∃ A B D, pairBuild (plainSet thr sp) lt E S S = .ok A ∧ pairBuild (permSet .even thr sp) lt E S S = .ok B ∧
      pairBuild (permSet .odd thr sp) lt E S S = .ok D ∧
      ((A.hamiltonian C radial me p).charpoly = (B.hamiltonian C radial me p).charpoly * (D.hamiltonian C radial me p).charpoly ↔
        ∀ x ∈ S.sq, ∀ y ∈ S.sq, ∀ a b, qnPair x = some a → qnPair y = some b → evenOrders C radial me p a b = 0) := by
  obtain ⟨A, B, D, a1, b1, d1, h⟩ := perm_sectors C radial me S hS hk h1s p (axisSpec C radial me p)
    (fun B hB => axis_pairH C radial me B.st (h1s.good B hB) p hp) thr h0 h1 sp lt E
  refine ⟨A, B, D, a1, b1, d1, h.trans ?_⟩
  have key : ∀ x ∈ S.sq, ∀ y ∈ S.sq, ∀ a b, qnPair x = some a → qnPair y = some b →
      (elemOf (axisSpec C radial me p) x.swap y.swap = elemOf (axisSpec C radial me p) x y ↔ evenOrders C radial me p a b = 0) := by
    intro x hx y hy a b ha hb
    unfold elemOf
    rw [qnPair_swap, qnPair_swap, ha, hb]
    dsimp only [Option.map_some]
    rw [axisSpec_exchange C radial me p a b (h1s.ok hx hy ha hb).1]
    constructor
    · intro h
      have : ((evenOrders C radial me p a b : ℝ) : ℂ) = 0 := by linear_combination (-1 / 2) * h
      exact_mod_cast this
    · intro h
      rw [h]; simp
  constructor
  · intro h x hx y hy a b ha hb
    exact (key x hx y hy a b ha hb).1 (h x hx y hy)
  · intro h x hx y hy
    obtain ⟨a, ha, -⟩ := h1s.pair hx
    obtain ⟨b, hb, -⟩ := h1s.pair hy
    exact (key x hx y hy a b ha hb).2 (h x hx y hy a b ha hb)

end PI
