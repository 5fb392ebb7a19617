import Verif.Pair.SectorMom

/-!
# Symmetry sectors of a pair system: the total momentum along z, theorems
-/

namespace PI

open Matrix

/-- The basis without symmetries, as products. -/
theorem plain_basis2 (S1 S2 : OneSys) (u1 : UnitarySys S1) (u2 : UnitarySys S2) (h : TwoAtoms S1 S2) (hn1 : S1.states ≠ []) (hn2 : S2.states ≠ [])
    (thr : ℝ) (h0 : 0 ≤ thr) (h1 : thr < 1) (sp : String × String) (lt : AState → AState → Bool) (E : AState → ℝ) :
    ∃ A, pairBuild (plainSet thr sp) lt E S1 S2 = .ok A ∧ A.states.Nodup ∧ (∀ x, x ∈ A.states ↔ x ∈ sq2 S1 S2) ∧
      A.cols = (allPairs S1.cols.length S2.cols.length).map (fun ab => ((S1.col ab.1).1 + (S2.col ab.2).1, prodVec S1 S2 ab)) := by
  have occ : ∀ p : AState × AState, occurs S1 S2 (allPairs S1.cols.length S2.cols.length) p = if p ∈ sq2 S1 S2 then 1 else 0 := by
    intro p
    have := sum_allPairs S1.cols.length S2.cols.length (fun _ => true) fun ab => Complex.normSq (prodVec S1 S2 ab p)
    rw [List.filter_true] at this
    unfold occurs
    rw [this]
    by_cases hp : p ∈ sq2 S1 S2
    · have hp' := mem_sq2.1 hp
      rw [if_pos hp]
      simp only [if_true]
      unfold prodVec
      simp_rw [Complex.normSq_mul]
      rw [← Finset.sum_mul_sum, row_weight S1 u1 _ hp'.1, row_weight S2 u2 _ hp'.2, one_mul]
    · rw [if_neg hp]
      refine Finset.sum_eq_zero fun a _ => Finset.sum_eq_zero fun b _ => ?_
      rw [prodVec_out u1 u2 _ p hp, map_zero, ite_self]
  have hK : pairsInside (plainSet thr sp).energyMin (plainSet thr sp).energyMax (plainSet thr sp).pairs S1 S2 = allPairs S1.cols.length S2.cols.length := by
    show pairsInside none none [] S1 S2 = _
    rw [pairsInside_none]
    rfl
  have hsel : SelOk (plainSet thr sp).pairs S1 S2 := ⟨u1.normed, u2.normed, (by intro ab hab; cases hab), fun s hs t ht _ _ => h.spin s hs t ht⟩
  obtain ⟨s, s1⟩ := List.exists_mem_of_ne_nil _ hn1
  obtain ⟨t, t1⟩ := List.exists_mem_of_ne_nil _ hn2
  obtain ⟨B, hB, hnd, hst, hc⟩ := (C100_products (plainSet thr sp) lt E S1 S2 hsel rfl rfl h0 h1).2
    ⟨(s, t), by rw [hK, occ, if_pos (mem_sq2.2 ⟨s1, t1⟩)]; exact h1⟩
  rw [hK] at hst hc
  have hst' : ∀ x, x ∈ B.states ↔ x ∈ sq2 S1 S2 := by
    intro x
    rw [hst, occ]
    by_cases hx : x ∈ sq2 S1 S2
    · rw [if_pos hx]; exact ⟨fun _ => hx, fun _ => h1⟩
    · rw [if_neg hx]; exact ⟨fun h' => absurd h' (not_lt.2 h0), fun h' => absurd h' hx⟩
  refine ⟨B, hB, hnd, hst', ?_⟩
  rw [hc]
  refine List.map_congr_left fun ab hab => ?_
  congr 1
  funext x
  by_cases hx : x ∈ B.states
  · rw [if_pos hx]
  · rw [if_neg hx]
    rw [hst'] at hx
    exact (prodVec_out u1 u2 ab x hx).symm

/-- Every pair of basis vectors has one of the momenta of the pair states. -/
theorem colM_mem (S1 S2 : OneSys) (u1 : UnitarySys S1) (u2 : UnitarySys S2) (m1 m2 : ℕ → ℤ) (d1 : OneMomentum S1 m1) (d2 : OneMomentum S2 m2) (ab : ℕ × ℕ)
    (b1 : ab.1 < S1.cols.length) (b2 : ab.2 < S2.cols.length) : colM m1 m2 ab ∈ momenta S1 S2 := by
  have hn := prodVec_norm u1.normed u2.normed ab b1 b2
  obtain ⟨p, hp, hz⟩ := Finset.exists_ne_zero_of_sum_ne_zero (by rw [hn]; exact one_ne_zero)
  refine Finset.mem_image.2 ⟨p, hp, ?_⟩
  exact prodVec_m d1 d2 b1 b2 p (fun h => hz (by rw [h, map_zero]))

/-! ## Completeness -/

theorem prod_complete2 (S1 S2 : OneSys) (u1 : UnitarySys S1) (u2 : UnitarySys S2) (x y : AState × AState) (hx : x ∈ sq2 S1 S2) (hy : y ∈ sq2 S1 S2) :
    ∑ p : Fin S1.cols.length × Fin S2.cols.length, prodVec S1 S2 (p.1, p.2) x * (starRingEnd ℂ) (prodVec S1 S2 (p.1, p.2) y) = if x = y then 1 else 0 := by
  rw [mem_sq2] at hx hy
  have c1 := u1.complete y.1 hy.1 x.1 hx.1
  have c2 := u2.complete y.2 hy.2 x.2 hx.2
  rw [Finset.sum_range] at c1 c2
  rw [Fintype.sum_prod_type]
  unfold prodVec
  have : ∀ (a : Fin S1.cols.length) (b : Fin S2.cols.length), coef1 (S1.col a).2 x.1 * coef1 (S2.col b).2 x.2 * (starRingEnd ℂ) (coef1 (S1.col a).2 y.1 * coef1 (S2.col b).2 y.2) =
      ((starRingEnd ℂ) (coef1 (S1.col a).2 y.1) * coef1 (S1.col a).2 x.1) * ((starRingEnd ℂ) (coef1 (S2.col b).2 y.2) * coef1 (S2.col b).2 x.2) := by
    intro a b
    rw [map_mul]; ring
  simp_rw [this]
  rw [← Finset.sum_mul_sum, c1, c2]
  by_cases h : x = y
  · rw [if_pos (by rw [h]), if_pos (by rw [h]), if_pos h, one_mul]
  · rw [if_neg h]
    by_cases h1 : y.1 = x.1
    · have h2 : ¬ y.2 = x.2 := fun h2 => h (Prod.ext h1.symm h2.symm)
      rw [if_neg h2, mul_zero]
    · rw [if_neg h1, zero_mul]

theorem between2_zero (S1 S2 : OneSys) (u1 : UnitarySys S1) (u2 : UnitarySys S2) (f : AState × AState → AState × AState → ℂ)
    (h : ∀ p q : Fin S1.cols.length × Fin S2.cols.length, between2 (sq2 S1 S2) f (prodVec S1 S2 (p.1, p.2)) (prodVec S1 S2 (q.1, q.2)) = 0) (x y : AState × AState)
    (hx : x ∈ sq2 S1 S2) (hy : y ∈ sq2 S1 S2) : f x y = 0 := by
  set Q := sq2 S1 S2 with hQ
  let P : Fin S1.cols.length × Fin S2.cols.length → AState × AState → ℂ := fun p => prodVec S1 S2 (p.1, p.2)
  have hP : ∀ x ∈ Q, ∀ y ∈ Q, ∑ p, P p x * (starRingEnd ℂ) (P p y) = if x = y then 1 else 0 := fun x hx y hy => prod_complete2 S1 S2 u1 u2 x y hx hy
  have : ∑ p, ∑ q, P p x * between2 Q f (P p) (P q) * (starRingEnd ℂ) (P q y) = f x y := by
    have e : ∀ p q, P p x * between2 Q f (P p) (P q) * (starRingEnd ℂ) (P q y) =
        ∑ u ∈ Q, ∑ w ∈ Q, f u w * (P p x * (starRingEnd ℂ) (P p u)) * (P q w * (starRingEnd ℂ) (P q y)) := by
      intro p q
      unfold between2
      rw [Finset.mul_sum, Finset.sum_mul]
      refine Finset.sum_congr rfl fun u _ => ?_
      rw [Finset.mul_sum, Finset.sum_mul]
      exact Finset.sum_congr rfl fun w _ => by ring
    simp_rw [e]
    have c : ∀ p, ∑ q, ∑ u ∈ Q, ∑ w ∈ Q,
        f u w * (P p x * (starRingEnd ℂ) (P p u)) * (P q w * (starRingEnd ℂ) (P q y)) =
        ∑ u ∈ Q, f u y * (P p x * (starRingEnd ℂ) (P p u)) := by
      intro p
      rw [Finset.sum_comm]
      refine Finset.sum_congr rfl fun u _ => ?_
      rw [Finset.sum_comm]
      rw [Finset.sum_eq_single_of_mem y hy]
      · rw [← Finset.mul_sum, hP y hy y hy, if_pos rfl, mul_one]
      · intro w hw hne
        rw [← Finset.mul_sum, hP w hw y hy, if_neg hne, mul_zero]
    simp_rw [c]
    rw [Finset.sum_comm, Finset.sum_eq_single_of_mem x hx]
    · rw [← Finset.mul_sum, hP x hx x hx, if_pos rfl, mul_one]
    · intro u hu hne
      rw [← Finset.mul_sum, hP x hx u hu, if_neg (Ne.symm hne), mul_zero]
  rw [← this]
  refine Finset.sum_eq_zero fun p _ => Finset.sum_eq_zero fun q _ => ?_
  rw [show between2 Q f (P p) (P q) = 0 from h p q]
  ring

theorem between2_star (Q : Finset (AState × AState)) (f : AState × AState → AState × AState → ℂ) (hf : ∀ x ∈ Q, ∀ y ∈ Q, f y x = (starRingEnd ℂ) (f x y)) (u w : AState × AState → ℂ) :
    between2 Q f w u = (starRingEnd ℂ) (between2 Q f u w) := by
  unfold between2
  rw [Finset.sum_comm, map_sum]
  refine Finset.sum_congr rfl fun x hx => ?_
  rw [map_sum]
  refine Finset.sum_congr rfl fun y hy => ?_
  rw [map_mul, map_mul, hf x hx y hy]
  simp only [Complex.conj_conj]
  ring

theorem prodH2_star (S1 S2 : OneSys) (f : AState × AState → AState × AState → ℂ) (hf : ∀ x ∈ sq2 S1 S2, ∀ y ∈ sq2 S1 S2, f y x = (starRingEnd ℂ) (f x y)) (p q : ℕ × ℕ) :
    star (prodH2 S1 S2 f q p) = prodH2 S1 S2 f p q := by
  unfold prodH2
  rw [between2_star _ f hf (prodVec S1 S2 p), star_add]
  congr 1
  · by_cases hpq : p = q
    · rw [if_pos hpq.symm, if_pos hpq, hpq]
      exact Complex.conj_ofReal _
    · rw [if_neg (fun h => hpq h.symm), if_neg hpq, star_zero]
  · exact Complex.conj_conj _

/-- A Hermitian matrix has the eigenvalues of its blocks only if there is nothing outside of the blocks. -/
theorem blocks_zero {P α : Type} [DecidableEq P] [LinearOrder α] (H : P → P → ℂ) (K : P → Prop) [Fintype {p // K p}] (g : P → α) (T : Finset α)
    [∀ a, Fintype {p // K p ∧ g p = a}] (hT : ∀ p, K p → g p ∈ T) (hH : ∀ p q, star (H q p) = H p q)
    (h : (subMat H K).charpoly = ∏ a ∈ T, (subMat H fun p => K p ∧ g p = a).charpoly) : ∀ p q, K p → K q → g p ≠ g q → H p q = 0 := by
  set H0 : P → P → ℂ := fun p q => if g p = g q then H p q else 0 with hH0
  have s0 := sector_split H0 K g T hT fun p q _ _ hg => if_neg hg
  have e : ∀ a ∈ T, (subMat H0 fun p => K p ∧ g p = a).charpoly = (subMat H fun p => K p ∧ g p = a).charpoly := by
    intro a _
    congr 1
    ext p q
    exact if_pos (p.2.2.trans q.2.2.symm)
  rw [Finset.prod_congr rfl e, ← h] at s0
  have hM : (subMat H K).IsHermitian := by ext p q; exact hH p.1 q.1
  have hM0 : (subMat H0 K).IsHermitian := by
    ext p q
    show star (if g q.1 = g p.1 then H q.1 p.1 else 0) = if g p.1 = g q.1 then H p.1 q.1 else 0
    by_cases hg : g p.1 = g q.1
    · rw [if_pos hg, if_pos hg.symm]; exact hH _ _
    · rw [if_neg hg, if_neg (fun h => hg h.symm), star_zero]
  have t1 := herm_trace_sq _ hM
  have t2 := herm_trace_sq _ hM0
  rw [s0, ← t1] at t2
  set M := subMat H K with hMd
  set M0 := subMat H0 K with hM0d
  set N := M - M0 with hN
  have hMN : M = M0 + N := by rw [hN]; abel
  have hNh : Nᴴ = N := by rw [hN, conjTranspose_sub, hM.eq, hM0.eq]
  have cross : (M0 * N).trace = 0 := by
    unfold Matrix.trace
    refine Finset.sum_eq_zero fun p _ => ?_
    rw [Matrix.diag_apply, Matrix.mul_apply]
    refine Finset.sum_eq_zero fun q _ => ?_
    show (if g p.1 = g q.1 then H p.1 q.1 else 0) * (H q.1 p.1 - if g q.1 = g p.1 then H q.1 p.1 else 0) = 0
    by_cases hg : g p.1 = g q.1
    · rw [if_pos hg.symm, sub_self, mul_zero]
    · rw [if_neg hg, zero_mul]
  have hNN : (Nᴴ * N).trace = 0 := by
    rw [hMN, Matrix.add_mul, Matrix.mul_add, Matrix.mul_add, Matrix.trace_add, Matrix.trace_add, Matrix.trace_add, Matrix.trace_mul_comm N M0, cross] at t2
    rw [hNh]
    linear_combination -t2
  open scoped ComplexOrder in
  have hN0 : N = 0 := Matrix.trace_conjTranspose_mul_self_eq_zero_iff.1 hNN
  intro p q hp hq hg
  have := congrFun (congrFun hN0 ⟨p, hp⟩) ⟨q, hq⟩
  have e : N ⟨p, hp⟩ ⟨q, hq⟩ = H p q - if g p = g q then H p q else 0 := rfl
  rw [e, if_neg hg, sub_zero] at this
  exact this

/-! ## The sectors -/

/-- The sectors of the total momentum, for any interaction. -/
theorem mom_sectors (C : FieldConsts) (radial : RadKey → ℝ) (me : Method) (S1 S2 : OneSys) (u1 : UnitarySys S1) (u2 : UnitarySys S2) (h : TwoAtoms S1 S2)
    (hn1 : S1.states ≠ []) (hn2 : S2.states ≠ []) (m1 m2 : ℕ → ℤ) (d1 : OneMomentum S1 m1) (d2 : OneMomentum S2 m2) (p : PairParams) (F : QN × QN → QN × QN → ℂ)
    (hF : ∀ B : PairBasis, (∀ x ∈ B.states, x ∈ sq2 S1 S2) → pairH C radial me B.st p = fullPairs B.st F)
    (thr : ℝ) (h0 : 0 ≤ thr) (h1 : thr < 1) (sp : String × String) (lt : AState → AState → Bool) (E : AState → ℝ) :
    ∃ (A : PairBasis) (B : ℤ → PairBasis), pairBuild (plainSet thr sp) lt E S1 S2 = .ok A ∧
      (∀ M ∈ momenta S1 S2, pairBuild (rotSet {M} thr sp) lt E S1 S2 = .ok (B M)) ∧
      ((A.hamiltonian C radial me p).charpoly = ∏ M ∈ momenta S1 S2, ((B M).hamiltonian C radial me p).charpoly ↔
        ∀ x ∈ sq2 S1 S2, ∀ y ∈ sq2 S1 S2, totalM x ≠ totalM y → elemOf F x y = 0) := by
  classical
  obtain ⟨A, a1, a2, a3, a4⟩ := plain_basis2 S1 S2 u1 u2 h hn1 hn2 thr h0 h1 sp lt E
  have hB : ∀ M, ∃ B, M ∈ momenta S1 S2 → (pairBuild (rotSet {M} thr sp) lt E S1 S2 = .ok B ∧ B.states.Nodup ∧ (∀ x, x ∈ B.states ↔ x ∈ sq2 S1 S2 ∧ totalM x ∈ ({M} : Finset ℤ)) ∧
      B.cols = (momPairs S1 S2 m1 m2 {M}).map (fun ab => ((S1.col ab.1).1 + (S2.col ab.2).1, prodVec S1 S2 ab))) := by
    intro M
    by_cases hM : M ∈ momenta S1 S2
    · obtain ⟨B, hB⟩ := mom_basis S1 S2 u1 u2 h m1 m2 d1 d2 {M} thr h0 h1 sp lt E ⟨M, hM, Finset.mem_singleton_self M⟩
      exact ⟨B, fun _ => hB⟩
    · exact ⟨A, fun h => absurd h hM⟩
  choose B hB using hB
  refine ⟨A, B, a1, fun M hM => (hB M hM).1, ?_⟩
  set L := allPairs S1.cols.length S2.cols.length with hL
  set K : ℕ × ℕ → Prop := fun ab => ab ∈ L with hKd
  set g := colM m1 m2 with hg
  let _ : Fintype {p // K p} := Fintype.subtype L.toFinset (by simp [hKd])
  let _ : ∀ a, Fintype {p // K p ∧ g p = a} := fun a => Fintype.subtype (L.toFinset.filter fun p => g p = a) (by simp [hKd])
  have mem : ∀ ab, K ab → ab.1 < S1.cols.length ∧ ab.2 < S2.cols.length := fun ab hab => (mem_allPairs _ _ _).1 hab
  have hT : ∀ ab, K ab → g ab ∈ momenta S1 S2 := fun ab hab => colM_mem S1 S2 u1 u2 m1 m2 d1 d2 ab (mem ab hab).1 (mem ab hab).2
  have asq : ∀ x ∈ A.states, x ∈ sq2 S1 S2 := fun x hx => (a3 x).1 hx
  have cA : (A.hamiltonian C radial me p).charpoly = (subMat (prodH2 S1 S2 (elemOf F)) K).charpoly := by
    refine products_charpoly C radial me S1 S2 A p F (hF A asq) a2 asq ?_ L (nodup_allPairs _ _) a4 K fun _ => Iff.rfl
    intro c hc x hx
    rw [a4] at hc
    obtain ⟨ab, -, rfl⟩ := List.mem_map.1 hc
    exact prodVec_out u1 u2 ab x (fun h => hx ((a3 x).2 h))
  have cB : ∀ M ∈ momenta S1 S2, ((B M).hamiltonian C radial me p).charpoly = (subMat (prodH2 S1 S2 (elemOf F)) fun ab => K ab ∧ g ab = M).charpoly := by
    intro M hM
    obtain ⟨b1, b2, b3, b4⟩ := hB M hM
    have bsq : ∀ x ∈ (B M).states, x ∈ sq2 S1 S2 := fun x hx => ((b3 x).1 hx).1
    refine products_charpoly C radial me S1 S2 (B M) p F (hF _ bsq) b2 bsq ?_ (momPairs S1 S2 m1 m2 {M}) ((nodup_allPairs _ _).filter _) b4 _ ?_
    · intro c hc x hx
      rw [b4] at hc
      obtain ⟨ab, hab, rfl⟩ := List.mem_map.1 hc
      have hab := List.mem_filter.1 hab
      by_contra hz
      apply hx
      rw [b3]
      refine ⟨by_contra fun hn => hz (prodVec_out u1 u2 ab x hn), ?_⟩
      have := mem ab hab.1
      rw [prodVec_m d1 d2 this.1 this.2 x hz]
      simpa using hab.2
    · intro ab
      unfold momPairs
      rw [List.mem_filter, decide_eq_true_eq, Finset.mem_singleton]
  have hf : ∀ x ∈ sq2 S1 S2, ∀ y ∈ sq2 S1 S2, elemOf F y x = (starRingEnd ℂ) (elemOf F x y) := by
    intro x hx y hy
    obtain ⟨i, rfl⟩ := List.get_of_mem ((a3 x).2 hx)
    obtain ⟨j, rfl⟩ := List.get_of_mem ((a3 y).2 hy)
    have := C44_hermitian C radial me A.st p
    rw [hF A asq] at this
    exact (congrFun (congrFun this j) i).symm
  rw [cA, Finset.prod_congr rfl cB]
  constructor
  · intro hc
    have z := blocks_zero (prodH2 S1 S2 (elemOf F)) K g (momenta S1 S2) hT (fun p q => prodH2_star S1 S2 _ hf p q) hc
    have z2 := between2_zero S1 S2 u1 u2 (fun x y => if totalM x = totalM y then 0 else elemOf F x y) (by
      intro a b
      have ha : K (a.1, a.2) := (mem_allPairs _ _ _).2 ⟨a.1.2, a.2.2⟩
      have hb : K (b.1, b.2) := (mem_allPairs _ _ _).2 ⟨b.1.2, b.2.2⟩
      by_cases hab : g (a.1, a.2) = g (b.1, b.2)
      · refine Finset.sum_eq_zero fun x _ => Finset.sum_eq_zero fun y _ => ?_
        by_cases hx : prodVec S1 S2 (a.1, a.2) x = 0
        · rw [hx]; simp
        by_cases hy : prodVec S1 S2 (b.1, b.2) y = 0
        · rw [hy]; simp
        have ex := prodVec_m d1 d2 (mem _ ha).1 (mem _ ha).2 x hx
        have ey := prodVec_m d1 d2 (mem _ hb).1 (mem _ hb).2 y hy
        dsimp only
        rw [if_pos (ex.trans (hab.trans ey.symm))]; simp
      · have zab := z _ _ ha hb hab
        unfold prodH2 at zab
        rw [if_neg (fun h => hab (by rw [h])), zero_add] at zab
        refine Eq.trans ?_ zab
        unfold between2
        refine Finset.sum_congr rfl fun x _ => Finset.sum_congr rfl fun y _ => ?_
        by_cases hx : prodVec S1 S2 (a.1, a.2) x = 0
        · rw [hx]; simp
        by_cases hy : prodVec S1 S2 (b.1, b.2) y = 0
        · rw [hy]; simp
        have ex := prodVec_m d1 d2 (mem _ ha).1 (mem _ ha).2 x hx
        have ey := prodVec_m d1 d2 (mem _ hb).1 (mem _ hb).2 y hy
        dsimp only
        rw [if_neg (fun h => hab (ex.symm.trans (h.trans ey)))])
    intro x hx y hy hxy
    have := z2 x y hx hy
    rwa [if_neg hxy] at this
  · intro hz
    refine sector_split (prodH2 S1 S2 (elemOf F)) K g (momenta S1 S2) hT ?_
    intro a b ha hb hab
    unfold prodH2
    rw [if_neg (fun h => hab (by rw [h])), zero_add]
    refine Finset.sum_eq_zero fun x hx => Finset.sum_eq_zero fun y hy => ?_
    by_cases hx0 : prodVec S1 S2 a x = 0
    · rw [hx0]; simp
    by_cases hy0 : prodVec S1 S2 b y = 0
    · rw [hy0]; simp
    have ex := prodVec_m d1 d2 (mem _ ha).1 (mem _ ha).2 x hx0
    have ey := prodVec_m d1 d2 (mem _ hb).1 (mem _ hb).2 y hy0
    rw [hz x hx y hy (fun h => hab (ex.symm.trans (h.trans ey)))]; simp

/-- **C109.** Conserved momenta: for all complete bases of two atoms (of equal or different species) whose vectors have a definite momentum along z, and for atoms along z with any order
of the multipole expansion: the systems of all the total momenta together have the eigenvalues (with multiplicities) of the system without symmetry. -/
theorem C109_momentum (C : FieldConsts) (radial : RadKey → ℝ) (me : Method) (S1 S2 : OneSys) (u1 : UnitarySys S1) (u2 : UnitarySys S2) (h : TwoAtoms S1 S2)
    (hn1 : S1.states ≠ []) (hn2 : S2.states ≠ []) (m1 m2 : ℕ → ℤ) (d1 : OneMomentum S1 m1) (d2 : OneMomentum S2 m2) (p : PairParams) (hp : OnAxis p)
    (thr : ℝ) (h0 : 0 ≤ thr) (h1 : thr < 1) (sp : String × String) (lt : AState → AState → Bool) (E : AState → ℝ) :
    ∃ (A : PairBasis) (B : ℤ → PairBasis), pairBuild (plainSet thr sp) lt E S1 S2 = .ok A ∧
      (∀ M ∈ momenta S1 S2, pairBuild (rotSet {M} thr sp) lt E S1 S2 = .ok (B M)) ∧
      (A.hamiltonian C radial me p).charpoly = ∏ M ∈ momenta S1 S2, ((B M).hamiltonian C radial me p).charpoly := by
  obtain ⟨A, B, a1, b1, hab⟩ := mom_sectors C radial me S1 S2 u1 u2 h hn1 hn2 m1 m2 d1 d2 p (axisSpec C radial me p)
    (fun B hB => axis_pairH C radial me B.st (h.good B hB) p hp) thr h0 h1 sp lt E
  refine ⟨A, B, a1, b1, hab.2 fun x hx y hy hxy => ?_⟩
  obtain ⟨a, ha, a1', a2'⟩ := h.pair hx
  obtain ⟨b, hb, b1', b2'⟩ := h.pair hy
  unfold elemOf
  rw [ha, hb]
  dsimp only
  unfold axisSpec
  rw [Finset.sum_eq_zero, Complex.ofReal_zero]
  intro o _
  unfold multipoleSpecPair
  rw [if_neg, mul_zero]
  intro hm
  apply hxy
  unfold totalM
  rw [(qn_l a1').2.2.1, (qn_l a2').2.2.1, (qn_l b1').2.2.1, (qn_l b2').2.2.1] at hm
  rw [hm]

/-- **C109.** Conserved momenta with the dipole-dipole interaction in any direction: the sectors are right exactly if the interaction vanishes between all pair states of different
total momentum (the code does not check the direction). -/
theorem C109_momentum_direction (C : FieldConsts) (radial : RadKey → ℝ) (me : Method) (S1 S2 : OneSys) (u1 : UnitarySys S1) (u2 : UnitarySys S2) (h : TwoAtoms S1 S2)
    (hn1 : S1.states ≠ []) (hn2 : S2.states ≠ []) (m1 m2 : ℕ → ℤ) (d1 : OneMomentum S1 m1) (d2 : OneMomentum S2 m2) (p : PairParams) (hp : DipoleSettings p)
    (thr : ℝ) (h0 : 0 ≤ thr) (h1 : thr < 1) (sp : String × String) (lt : AState → AState → Bool) (E : AState → ℝ) :
    ∃ (A : PairBasis) (B : ℤ → PairBasis), pairBuild (plainSet thr sp) lt E S1 S2 = .ok A ∧
      (∀ M ∈ momenta S1 S2, pairBuild (rotSet {M} thr sp) lt E S1 S2 = .ok (B M)) ∧
      ((A.hamiltonian C radial me p).charpoly = ∏ M ∈ momenta S1 S2, ((B M).hamiltonian C radial me p).charpoly ↔
        ∀ x ∈ sq2 S1 S2, ∀ y ∈ sq2 S1 S2, totalM x ≠ totalM y → ∀ a b, qnPair x = some a → qnPair y = some b → ddPairSpec C radial me p a b = 0) := by
  obtain ⟨A, B, a1, b1, hab⟩ := mom_sectors C radial me S1 S2 u1 u2 h hn1 hn2 m1 m2 d1 d2 p (ddPairSpec C radial me p)
    (fun B hB => hp.pairH C radial me B.st (h.good B hB)) thr h0 h1 sp lt E
  refine ⟨A, B, a1, b1, hab.trans ?_⟩
  constructor
  · intro hz x hx y hy hxy a b ha hb
    have := hz x hx y hy hxy
    unfold elemOf at this
    rwa [ha, hb] at this
  · intro hz x hx y hy hxy
    obtain ⟨a, ha, -⟩ := h.pair hx
    obtain ⟨b, hb, -⟩ := h.pair hy
    unfold elemOf
    rw [ha, hb]
    exact hz x hx y hy hxy a b ha hb

end PI
