import Verif.Pair.SectorReflEx

/-!
# C74: the bases of the reflection and of the momentum sectors
-/

namespace PI

open Matrix

theorem prod_ip2 (S1 S2 : OneSys) (u1 : UnitarySys S1) (u2 : UnitarySys S2) (ab cd : ℕ × ℕ) (a1 : ab.1 < S1.cols.length) (a2 : ab.2 < S2.cols.length)
    (c1 : cd.1 < S1.cols.length) (c2 : cd.2 < S2.cols.length) :
    ∑ p ∈ sq2 S1 S2, (starRingEnd ℂ) (prodVec S1 S2 ab p) * prodVec S1 S2 cd p = if ab = cd then 1 else 0 := by
  unfold sq2
  rw [Finset.sum_product]
  unfold prodVec
  have : ∀ s t, (starRingEnd ℂ) (coef1 (S1.col ab.1).2 s * coef1 (S2.col ab.2).2 t) * (coef1 (S1.col cd.1).2 s * coef1 (S2.col cd.2).2 t) =
      ((starRingEnd ℂ) (coef1 (S1.col ab.1).2 s) * coef1 (S1.col cd.1).2 s) * ((starRingEnd ℂ) (coef1 (S2.col ab.2).2 t) * coef1 (S2.col cd.2).2 t) := by
    intro s t
    rw [map_mul]; ring
  simp_rw [this]
  rw [← Finset.sum_mul_sum, u1.ortho _ a1 _ c1, u2.ortho _ a2 _ c2]
  by_cases h : ab = cd
  · rw [h]; simp
  · rw [if_neg h]
    by_cases h1 : ab.1 = cd.1
    · rw [if_neg (fun h2 => h (Prod.ext h1 h2)), mul_zero]
    · rw [if_neg h1, zero_mul]

/-- A basis of different products is orthonormal. -/
theorem products_ortho (S1 S2 : OneSys) (u1 : UnitarySys S1) (u2 : UnitarySys S2) (B : PairBasis) (K : List (ℕ × ℕ)) (hK : K.Nodup)
    (hm : ∀ ab ∈ K, ab.1 < S1.cols.length ∧ ab.2 < S2.cols.length) (hn : B.states.Nodup) (hs : ∀ x ∈ B.states, x ∈ sq2 S1 S2)
    (h0 : ∀ ab ∈ K, ∀ x, x ∉ B.states → prodVec S1 S2 ab x = 0)
    (hc : B.cols = K.map (fun ab => ((S1.col ab.1).1 + (S2.col ab.2).1, prodVec S1 S2 ab))) : B.Ortho := by
  intro i j c d hi hj
  rw [hc, List.getElem?_map, Option.map_eq_some_iff] at hi hj
  obtain ⟨ab, hab, rfl⟩ := hi
  obtain ⟨cd, hcd, rfl⟩ := hj
  have mab := List.mem_of_getElem? hab
  have mcd := List.mem_of_getElem? hcd
  dsimp only
  rw [sum_list_finset B.states hn (sq2 S1 S2) hs (fun p => (starRingEnd ℂ) (prodVec S1 S2 ab p) * prodVec S1 S2 cd p)
    (fun p _ hp => by rw [h0 ab mab p hp, map_zero, zero_mul]), prod_ip2 S1 S2 u1 u2 ab cd (hm _ mab).1 (hm _ mab).2 (hm _ mcd).1 (hm _ mcd).2]
  congr 1
  rw [eq_iff_iff]
  obtain ⟨hil, hie⟩ := List.getElem?_eq_some_iff.1 hab
  obtain ⟨hjl, hje⟩ := List.getElem?_eq_some_iff.1 hcd
  rw [← hie, ← hje]
  exact hK.getElem_inj_iff

theorem prod_complete_sum (S1 S2 : OneSys) (u1 : UnitarySys S1) (u2 : UnitarySys S2) (x y : AState × AState) (hx : x ∈ sq2 S1 S2) (hy : y ∈ sq2 S1 S2) :
    ∑ a ∈ Finset.range S1.cols.length, ∑ b ∈ Finset.range S2.cols.length, (starRingEnd ℂ) (prodVec S1 S2 (a, b) x) * prodVec S1 S2 (a, b) y = if x = y then 1 else 0 := by
  have := prod_complete2 S1 S2 u1 u2 y x hy hx
  rw [Fintype.sum_prod_type] at this
  rw [Finset.sum_range]
  simp_rw [Finset.sum_range]
  rw [show (if x = y then (1 : ℂ) else 0) = if y = x then 1 else 0 by simp only [eq_comm], ← this]
  exact Finset.sum_congr rfl fun a _ => Finset.sum_congr rfl fun b _ => mul_comm _ _

/-- **C74** for the reflection: for all complete bases of two atoms with half-integer momenta whose vectors are symmetric or antisymmetric under the reflection at the
xz-plane, EVEN and ODD give orthonormal pair bases of eigenvectors of the reflection, the two are orthogonal to each other, and together they span the pair space. -/
theorem C74_reflection_basis_partial (S1 S2 : OneSys) (u1 : UnitarySys S1) (u2 : UnitarySys S2) (h : TwoAtoms S1 S2) (r1 r2 : ℕ → ℤ) (g1 : ReflVecs S1 r1) (g2 : ReflVecs S2 r2)
    (hh1 : HalfSys S1) (hh2 : HalfSys S2) (hn1 : S1.states ≠ []) (hn2 : S2.states ≠ []) (thr : ℝ) (h0 : 0 ≤ thr) (h1 : thr < 1 / 2) (sp : String × String)
    (lt : AState → AState → Bool) (E : AState → ℝ) :
    ∃ B D, pairBuild (reflSet .even thr sp) lt E S1 S2 = .ok B ∧ pairBuild (reflSet .odd thr sp) lt E S1 S2 = .ok D ∧ B.Ortho ∧ D.Ortho ∧
      (∀ c ∈ B.cols, ∀ p ∈ sq2 S1 S2, (reflSignP p : ℂ) * c.2 (reflP p) = c.2 p) ∧ (∀ c ∈ D.cols, ∀ p ∈ sq2 S1 S2, (reflSignP p : ℂ) * c.2 (reflP p) = -c.2 p) ∧
      (∀ c ∈ B.cols, ∀ d ∈ D.cols, ∑ p ∈ sq2 S1 S2, (starRingEnd ℂ) (c.2 p) * d.2 p = 0) ∧
      (∀ p ∈ sq2 S1 S2, ∀ q ∈ sq2 S1 S2, (B.cols.map fun c => (starRingEnd ℂ) (c.2 p) * c.2 q).sum + (D.cols.map fun c => (starRingEnd ℂ) (c.2 p) * c.2 q).sum =
        if p = q then 1 else 0) := by
  obtain ⟨B, b1, b2, b3, b4⟩ := refl_basis u1 u2 h g1 g2 hh1 hh2 .even (by simp) hn1 hn2 thr h0 h1 sp lt E
  obtain ⟨D, d1, d2, d3, d4⟩ := refl_basis u1 u2 h g1 g2 hh1 hh2 .odd (by simp) hn1 hn2 thr h0 h1 sp lt E
  have mem : ∀ e, ∀ ab ∈ reflPairs S1 S2 r1 r2 e, (ab.1 < S1.cols.length ∧ ab.2 < S2.cols.length) ∧ r1 ab.1 * r2 ab.2 = -e.unit := by
    intro e ab hab
    have := List.mem_filter.1 hab
    exact ⟨(mem_allPairs _ _ _).1 this.1, of_decide_eq_true this.2⟩
  have nd : ∀ e, (reflPairs S1 S2 r1 r2 e).Nodup := fun e => (nodup_allPairs _ _).filter _
  have eig : ∀ e, ∀ ab ∈ reflPairs S1 S2 r1 r2 e, ∀ p ∈ sq2 S1 S2, (reflSignP p : ℂ) * prodVec S1 S2 ab (reflP p) = (e.unit : ℂ) * prodVec S1 S2 ab p := by
    intro e ab hab p hp
    obtain ⟨m, hr⟩ := mem e ab hab
    rw [prod_refl g1 g2 hh1 hh2 ab m.1 m.2 p hp, hr]
    push_cast
    ring
  refine ⟨B, D, b1, d1, ?_, ?_, ?_, ?_, ?_, ?_⟩
  · exact products_ortho S1 S2 u1 u2 B _ (nd .even) (fun ab hab => (mem _ ab hab).1) b2 (fun x hx => (b3 x).1 hx)
      (fun ab _ x hx => prodVec_out u1 u2 ab x (fun h => hx ((b3 x).2 h))) b4
  · exact products_ortho S1 S2 u1 u2 D _ (nd .odd) (fun ab hab => (mem _ ab hab).1) d2 (fun x hx => (d3 x).1 hx)
      (fun ab _ x hx => prodVec_out u1 u2 ab x (fun h => hx ((d3 x).2 h))) d4
  · intro c hc p hp
    rw [b4] at hc
    obtain ⟨ab, hab, rfl⟩ := List.mem_map.1 hc
    dsimp only
    rw [eig _ ab hab p hp, show (Par.even.unit : ℂ) = 1 by norm_num [Par.unit], one_mul]
  · intro c hc p hp
    rw [d4] at hc
    obtain ⟨ab, hab, rfl⟩ := List.mem_map.1 hc
    dsimp only
    rw [eig _ ab hab p hp, show (Par.odd.unit : ℂ) = -1 by simp [Par.unit], neg_one_mul]
  · intro c hc d hd
    rw [b4] at hc
    rw [d4] at hd
    obtain ⟨ab, hab, rfl⟩ := List.mem_map.1 hc
    obtain ⟨cd, hcd, rfl⟩ := List.mem_map.1 hd
    obtain ⟨m, hr⟩ := mem _ ab hab
    obtain ⟨m', hr'⟩ := mem _ cd hcd
    dsimp only
    rw [prod_ip2 S1 S2 u1 u2 ab cd m.1 m.2 m'.1 m'.2, if_neg]
    intro hac
    rw [hac, hr'] at hr
    simp [Par.unit] at hr
  · intro p hp q hq
    rw [b4, d4, List.map_map, List.map_map]
    unfold reflPairs
    rw [sum_allPairs S1.cols.length S2.cols.length (fun ab => decide (r1 ab.1 * r2 ab.2 = -Par.even.unit))
        ((fun c : ℝ × (AState × AState → ℂ) => (starRingEnd ℂ) (c.2 p) * c.2 q) ∘ fun ab => ((S1.col ab.1).1 + (S2.col ab.2).1, prodVec S1 S2 ab)),
      sum_allPairs S1.cols.length S2.cols.length (fun ab => decide (r1 ab.1 * r2 ab.2 = -Par.odd.unit))
        ((fun c : ℝ × (AState × AState → ℂ) => (starRingEnd ℂ) (c.2 p) * c.2 q) ∘ fun ab => ((S1.col ab.1).1 + (S2.col ab.2).1, prodVec S1 S2 ab)),
      ← Finset.sum_add_distrib, ← prod_complete_sum S1 S2 u1 u2 p q hp hq]
    refine Finset.sum_congr rfl fun a ha => ?_
    rw [← Finset.sum_add_distrib]
    refine Finset.sum_congr rfl fun b hb => ?_
    rw [Finset.mem_range] at ha hb
    rcases (g1 a ha).1 with h1 | h1 <;> rcases (g2 b hb).1 with h2 | h2 <;> simp [h1, h2, Par.unit]

example : ∃ B D, pairBuild (reflSet .even 0.05 ("Rb", "Rb")) (fun _ _ => false) (fun _ => 0) rSys rSys = .ok B ∧
    pairBuild (reflSet .odd 0.05 ("Rb", "Rb")) (fun _ _ => false) (fun _ => 0) rSys rSys = .ok D ∧ B.Ortho ∧ D.Ortho := by
  obtain ⟨B, D, h1, h2, h3, h4, -⟩ := C74_reflection_basis_partial rSys rSys rSys_unitary rSys_unitary rSys_atoms rEig rEig rSys_refl rSys_refl rSys_half rSys_half rSys_nonempty
    rSys_nonempty 0.05 (by norm_num) (by norm_num) ("Rb", "Rb") (fun _ _ => false) (fun _ => 0)
  exact ⟨B, D, h1, h2, h3, h4⟩

/-- **C74** for the momenta: for all complete bases of two atoms whose vectors have a definite momentum along z, every total momentum gives an orthonormal pair basis of vectors
with this momentum; different momenta are orthogonal to each other, and together they span the pair space. -/
theorem C74_rotation_basis (S1 S2 : OneSys) (u1 : UnitarySys S1) (u2 : UnitarySys S2) (h : TwoAtoms S1 S2) (m1 m2 : ℕ → ℤ) (d1 : OneMomentum S1 m1) (d2 : OneMomentum S2 m2)
    (thr : ℝ) (h0 : 0 ≤ thr) (h1 : thr < 1) (sp : String × String) (lt : AState → AState → Bool) (E : AState → ℝ) :
    ∃ B : ℤ → PairBasis, (∀ M ∈ momenta S1 S2, pairBuild (rotSet {M} thr sp) lt E S1 S2 = .ok (B M) ∧ (B M).Ortho ∧
        ∀ c ∈ (B M).cols, ∀ p, c.2 p ≠ 0 → totalM p = M) ∧
      (∀ M ∈ momenta S1 S2, ∀ N ∈ momenta S1 S2, M ≠ N → ∀ c ∈ (B M).cols, ∀ d ∈ (B N).cols, ∑ p ∈ sq2 S1 S2, (starRingEnd ℂ) (c.2 p) * d.2 p = 0) ∧
      (∀ p ∈ sq2 S1 S2, ∀ q ∈ sq2 S1 S2, ∑ M ∈ momenta S1 S2, ((B M).cols.map fun c => (starRingEnd ℂ) (c.2 p) * c.2 q).sum = if p = q then 1 else 0) := by
  have hB : ∀ M, ∃ B : PairBasis, M ∈ momenta S1 S2 → (pairBuild (rotSet {M} thr sp) lt E S1 S2 = .ok B ∧ B.states.Nodup ∧ (∀ x, x ∈ B.states ↔ x ∈ sq2 S1 S2 ∧ totalM x ∈ ({M} : Finset ℤ)) ∧
      B.cols = (momPairs S1 S2 m1 m2 {M}).map (fun ab => ((S1.col ab.1).1 + (S2.col ab.2).1, prodVec S1 S2 ab))) := by
    intro M
    by_cases hM : M ∈ momenta S1 S2
    · obtain ⟨B, hB⟩ := mom_basis S1 S2 u1 u2 h m1 m2 d1 d2 {M} thr h0 h1 sp lt E ⟨M, hM, Finset.mem_singleton_self M⟩
      exact ⟨B, fun _ => hB⟩
    · exact ⟨⟨[], []⟩, fun h => absurd h hM⟩
  choose B hB using hB
  have mem : ∀ M, ∀ ab ∈ momPairs S1 S2 m1 m2 {M}, (ab.1 < S1.cols.length ∧ ab.2 < S2.cols.length) ∧ colM m1 m2 ab = M := by
    intro M ab hab
    have := List.mem_filter.1 hab
    exact ⟨(mem_allPairs _ _ _).1 this.1, by simpa using this.2⟩
  refine ⟨B, fun M hM => ?_, fun M hM N hN hMN c hc d hd => ?_, fun p hp q hq => ?_⟩
  · obtain ⟨b1, b2, b3, b4⟩ := hB M hM
    have mom : ∀ ab ∈ momPairs S1 S2 m1 m2 {M}, ∀ p, prodVec S1 S2 ab p ≠ 0 → totalM p = M := by
      intro ab hab p hp
      obtain ⟨m, hm⟩ := mem M ab hab
      rw [prodVec_m d1 d2 m.1 m.2 p hp]
      exact hm
    refine ⟨b1, products_ortho S1 S2 u1 u2 (B M) _ ((nodup_allPairs _ _).filter _) (fun ab hab => (mem M ab hab).1) b2 (fun x hx => ((b3 x).1 hx).1) ?_ b4, ?_⟩
    · intro ab hab x hx
      by_contra hz
      apply hx
      rw [b3]
      exact ⟨by_contra fun hn => hz (prodVec_out u1 u2 ab x hn), Finset.mem_singleton.2 (mom ab hab x hz)⟩
    · intro c hc p hp
      rw [b4] at hc
      obtain ⟨ab, hab, rfl⟩ := List.mem_map.1 hc
      exact mom ab hab p hp
  · obtain ⟨b1, b2, b3, b4⟩ := hB M hM
    obtain ⟨c1, c2, c3, c4⟩ := hB N hN
    rw [b4] at hc
    rw [c4] at hd
    obtain ⟨ab, hab, rfl⟩ := List.mem_map.1 hc
    obtain ⟨cd, hcd, rfl⟩ := List.mem_map.1 hd
    obtain ⟨m, hr⟩ := mem _ ab hab
    obtain ⟨m', hr'⟩ := mem _ cd hcd
    dsimp only
    rw [prod_ip2 S1 S2 u1 u2 ab cd m.1 m.2 m'.1 m'.2, if_neg]
    intro hac
    rw [hac, hr'] at hr
    exact hMN hr.symm
  · have e : ∀ M ∈ momenta S1 S2, ((B M).cols.map fun c => (starRingEnd ℂ) (c.2 p) * c.2 q).sum =
        ∑ a ∈ Finset.range S1.cols.length, ∑ b ∈ Finset.range S2.cols.length, if colM m1 m2 (a, b) = M then (starRingEnd ℂ) (prodVec S1 S2 (a, b) p) * prodVec S1 S2 (a, b) q else 0 := by
      intro M hM
      obtain ⟨b1, b2, b3, b4⟩ := hB M hM
      rw [b4, List.map_map]
      unfold momPairs
      rw [sum_allPairs S1.cols.length S2.cols.length (fun ab => decide (colM m1 m2 ab ∈ ({M} : Finset ℤ)))
        ((fun c : ℝ × (AState × AState → ℂ) => (starRingEnd ℂ) (c.2 p) * c.2 q) ∘ fun ab => ((S1.col ab.1).1 + (S2.col ab.2).1, prodVec S1 S2 ab))]
      simp
    rw [Finset.sum_congr rfl e, Finset.sum_comm, ← prod_complete_sum S1 S2 u1 u2 p q hp hq]
    refine Finset.sum_congr rfl fun a ha => ?_
    rw [Finset.sum_comm]
    refine Finset.sum_congr rfl fun b hb => ?_
    rw [Finset.mem_range] at ha hb
    rw [Finset.sum_ite_eq, if_pos (colM_mem S1 S2 u1 u2 m1 m2 d1 d2 (a, b) ha hb)]

example : ∃ B : ℤ → PairBasis, ∀ M ∈ ({-2, -1, 0, 1, 2} : Finset ℤ), pairBuild (rotSet {M} 0.05 ("Sr1", "Sr1")) (fun _ _ => false) (fun _ => 0) spmSys spmSys = .ok (B M) ∧ (B M).Ortho := by
  obtain ⟨B, h1, -⟩ := C74_rotation_basis spmSys spmSys spm_unitary spm_unitary spm_atoms _ _ (pure_definite _ _) (pure_definite _ _) 0.05 (by norm_num) (by norm_num) ("Sr1", "Sr1")
    (fun _ _ => false) (fun _ => 0)
  rw [spm_momenta] at h1
  exact ⟨B, fun M hM => ⟨(h1 M hM).1, (h1 M hM).2.1⟩⟩

end PI
