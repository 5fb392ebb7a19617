import Verif.Pair.SectorReflThm

/-!
# Symmetry sectors of a pair system: reflection, theorems
-/

namespace PI

open Matrix

section
variable {S1 S2 : OneSys} (u1 : UnitarySys S1) (u2 : UnitarySys S2) {r1 r2 : ℕ → ℤ} (g1 : ReflVecs S1 r1) (g2 : ReflVecs S2 r2)
  (hh1 : HalfSys S1) (hh2 : HalfSys S2)
include u1 u2 g1 g2 hh1 hh2

theorem sum_reflP (f : AState × AState → ℂ) : ∑ x ∈ sq2 S1 S2, f (reflP x) = ∑ x ∈ sq2 S1 S2, f x :=
  Finset.sum_nbij' reflP reflP (fun x hx => sq2_refl u1 u2 g1 g2 hh1 hh2 x hx) (fun x hx => sq2_refl u1 u2 g1 g2 hh1 hh2 x hx)
    (fun x _ => reflP_reflP x) (fun x _ => reflP_reflP x) (fun _ _ => rfl)

/-- Matrix elements of a reflected operator between product vectors. -/
theorem between_refl (f : AState × AState → AState × AState → ℂ) (a b : ℕ × ℕ) (a1 : a.1 < S1.cols.length) (a2 : a.2 < S2.cols.length) (b1 : b.1 < S1.cols.length)
    (b2 : b.2 < S2.cols.length) :
    between2 (sq2 S1 S2) (fun x y => (reflSignP x : ℂ) * (reflSignP y : ℂ) * f (reflP x) (reflP y)) (prodVec S1 S2 a) (prodVec S1 S2 b) =
      ((r1 a.1 * r2 a.2 * (r1 b.1 * r2 b.2) : ℤ) : ℂ) * between2 (sq2 S1 S2) f (prodVec S1 S2 a) (prodVec S1 S2 b) := by
  unfold between2
  rw [← sum_reflP u1 u2 g1 g2 hh1 hh2, Finset.mul_sum]
  refine Finset.sum_congr rfl fun x hx => ?_
  rw [← sum_reflP u1 u2 g1 g2 hh1 hh2, Finset.mul_sum]
  refine Finset.sum_congr rfl fun y hy => ?_
  have hx' := mem_sq2.1 hx
  have hy' := mem_sq2.1 hy
  dsimp only
  rw [reflP_reflP, reflP_reflP, reflSignP_reflP x (hh1 _ hx'.1).2.2 (hh2 _ hx'.2).2.2, reflSignP_reflP y (hh1 _ hy'.1).2.2 (hh2 _ hy'.2).2.2]
  have ex := congrArg (starRingEnd ℂ) (prod_refl g1 g2 hh1 hh2 a a1 a2 x hx)
  have ey := prod_refl g1 g2 hh1 hh2 b b1 b2 y hy
  rw [map_mul, map_mul, map_neg] at ex
  rw [map_intCast, map_intCast] at ex
  push_cast at ex ey ⊢
  linear_combination (f x y * (reflSignP y : ℂ) * prodVec S1 S2 b (reflP y)) * ex + (-(r1 a.1 : ℂ) * (r2 a.2 : ℂ) * (starRingEnd ℂ) (prodVec S1 S2 a x) * f x y) * ey

end

/-- The sectors of the reflection, for any interaction. -/
theorem refl_sectors (C : FieldConsts) (radial : RadKey → ℝ) (me : Method) (S1 S2 : OneSys) (u1 : UnitarySys S1) (u2 : UnitarySys S2) (h : TwoAtoms S1 S2)
    (hn1 : S1.states ≠ []) (hn2 : S2.states ≠ []) (r1 r2 : ℕ → ℤ) (g1 : ReflVecs S1 r1) (g2 : ReflVecs S2 r2) (hh1 : HalfSys S1) (hh2 : HalfSys S2) (p : PairParams)
    (F : QN × QN → QN × QN → ℂ) (hF : ∀ B : PairBasis, (∀ x ∈ B.states, x ∈ sq2 S1 S2) → pairH C radial me B.st p = fullPairs B.st F)
    (thr : ℝ) (h0 : 0 ≤ thr) (h1 : thr < 1 / 2) (sp : String × String) (lt : AState → AState → Bool) (E : AState → ℝ) :
    ∃ A B D : PairBasis, pairBuild (plainSet thr sp) lt E S1 S2 = .ok A ∧ pairBuild (reflSet .even thr sp) lt E S1 S2 = .ok B ∧
      pairBuild (reflSet .odd thr sp) lt E S1 S2 = .ok D ∧
      ((A.hamiltonian C radial me p).charpoly = (B.hamiltonian C radial me p).charpoly * (D.hamiltonian C radial me p).charpoly ↔
        ∀ x ∈ sq2 S1 S2, ∀ y ∈ sq2 S1 S2, elemOf F (reflP x) (reflP y) = (reflSignP x : ℂ) * (reflSignP y : ℂ) * elemOf F x y) := by
  classical
  obtain ⟨A, a1, a2, a3, a4⟩ := plain_basis2 S1 S2 u1 u2 h hn1 hn2 thr h0 (by linarith) sp lt E
  obtain ⟨B, b1, b2, b3, b4⟩ := refl_basis u1 u2 h g1 g2 hh1 hh2 .even (by simp) hn1 hn2 thr h0 h1 sp lt E
  obtain ⟨D, d1, d2, d3, d4⟩ := refl_basis u1 u2 h g1 g2 hh1 hh2 .odd (by simp) hn1 hn2 thr h0 h1 sp lt E
  refine ⟨A, B, D, a1, b1, d1, ?_⟩
  set L := allPairs S1.cols.length S2.cols.length with hL
  set K : ℕ × ℕ → Prop := fun ab => ab ∈ L with hKd
  set g : ℕ × ℕ → ℤ := fun ab => r1 ab.1 * r2 ab.2 with hg
  let _ : Fintype {p // K p} := Fintype.subtype L.toFinset (by simp [hKd])
  let _ : ∀ a, Fintype {p // K p ∧ g p = a} := fun a => Fintype.subtype (L.toFinset.filter fun p => g p = a) (by simp [hKd])
  have mem : ∀ ab, K ab → ab.1 < S1.cols.length ∧ ab.2 < S2.cols.length := fun ab hab => (mem_allPairs _ _ _).1 hab
  have hpm : ∀ ab, K ab → g ab = 1 ∨ g ab = -1 := by
    intro ab hab
    rw [hg]
    dsimp only
    rcases (g1 _ (mem ab hab).1).1 with h | h <;> rcases (g2 _ (mem ab hab).2).1 with h' | h' <;> rw [h, h'] <;> norm_num
  have hT : ∀ ab, K ab → g ab ∈ ({-1, 1} : Finset ℤ) := by
    intro ab hab
    rcases hpm ab hab with h | h <;> rw [h] <;> simp
  have asq : ∀ x ∈ A.states, x ∈ sq2 S1 S2 := fun x hx => (a3 x).1 hx
  have cA : (A.hamiltonian C radial me p).charpoly = (subMat (prodH2 S1 S2 (elemOf F)) K).charpoly := by
    refine products_charpoly C radial me S1 S2 A p F (hF A asq) a2 asq ?_ L (nodup_allPairs _ _) a4 K fun _ => Iff.rfl
    intro c hc x hx
    rw [a4] at hc
    obtain ⟨ab, -, rfl⟩ := List.mem_map.1 hc
    exact prodVec_out u1 u2 ab x (fun h => hx ((a3 x).2 h))
  have cS : ∀ (e : Par) (B : PairBasis), B.states.Nodup → (∀ x, x ∈ B.states ↔ x ∈ sq2 S1 S2) →
      B.cols = (reflPairs S1 S2 r1 r2 e).map (fun ab => ((S1.col ab.1).1 + (S2.col ab.2).1, prodVec S1 S2 ab)) →
      (B.hamiltonian C radial me p).charpoly = (subMat (prodH2 S1 S2 (elemOf F)) fun ab => K ab ∧ g ab = -e.unit).charpoly := by
    intro e B b2 b3 b4
    have bsq : ∀ x ∈ B.states, x ∈ sq2 S1 S2 := fun x hx => (b3 x).1 hx
    refine products_charpoly C radial me S1 S2 B p F (hF _ bsq) b2 bsq ?_ (reflPairs S1 S2 r1 r2 e) ((nodup_allPairs _ _).filter _) b4 _ ?_
    · intro c hc x hx
      rw [b4] at hc
      obtain ⟨ab, -, rfl⟩ := List.mem_map.1 hc
      exact prodVec_out u1 u2 ab x (fun h => hx ((b3 x).2 h))
    · intro ab
      unfold reflPairs
      rw [List.mem_filter, decide_eq_true_eq]
  have cB : (B.hamiltonian C radial me p).charpoly = (subMat (prodH2 S1 S2 (elemOf F)) fun ab => K ab ∧ g ab = -1).charpoly := cS .even B b2 b3 b4
  have cD : (D.hamiltonian C radial me p).charpoly = (subMat (prodH2 S1 S2 (elemOf F)) fun ab => K ab ∧ g ab = 1).charpoly := cS .odd D d2 d3 d4
  have hf : ∀ x ∈ sq2 S1 S2, ∀ y ∈ sq2 S1 S2, elemOf F y x = (starRingEnd ℂ) (elemOf F x y) := by
    intro x hx y hy
    obtain ⟨i, rfl⟩ := List.get_of_mem ((a3 x).2 hx)
    obtain ⟨j, rfl⟩ := List.get_of_mem ((a3 y).2 hy)
    have := C44_hermitian C radial me A.st p
    rw [hF A asq] at this
    exact (congrFun (congrFun this j) i).symm
  have hprod : ∏ a ∈ ({-1, 1} : Finset ℤ), (subMat (prodH2 S1 S2 (elemOf F)) fun ab => K ab ∧ g ab = a).charpoly =
      (B.hamiltonian C radial me p).charpoly * (D.hamiltonian C radial me p).charpoly := by
    rw [Finset.prod_pair (by norm_num), cB, cD]
  rw [cA, ← hprod]
  constructor
  · intro hc
    have z := blocks_zero (prodH2 S1 S2 (elemOf F)) K g {-1, 1} hT (fun p q => prodH2_star S1 S2 _ hf p q) hc
    have z2 := between2_zero S1 S2 u1 u2 (fun x y => (reflSignP x : ℂ) * (reflSignP y : ℂ) * elemOf F (reflP x) (reflP y) - elemOf F x y) (by
      intro a b
      have ha : K (a.1, a.2) := (mem_allPairs _ _ _).2 ⟨a.1.2, a.2.2⟩
      have hb : K (b.1, b.2) := (mem_allPairs _ _ _).2 ⟨b.1.2, b.2.2⟩
      have e := between_refl u1 u2 g1 g2 hh1 hh2 (elemOf F) (a.1, a.2) (b.1, b.2) a.1.2 a.2.2 b.1.2 b.2.2
      have e2 : between2 (sq2 S1 S2) (fun x y => (reflSignP x : ℂ) * (reflSignP y : ℂ) * elemOf F (reflP x) (reflP y) - elemOf F x y) (prodVec S1 S2 (a.1, a.2))
          (prodVec S1 S2 (b.1, b.2)) = ((g (a.1, a.2) * g (b.1, b.2) : ℤ) : ℂ) * between2 (sq2 S1 S2) (elemOf F) (prodVec S1 S2 (a.1, a.2)) (prodVec S1 S2 (b.1, b.2)) -
            between2 (sq2 S1 S2) (elemOf F) (prodVec S1 S2 (a.1, a.2)) (prodVec S1 S2 (b.1, b.2)) := by
        rw [hg]
        dsimp only
        rw [← e]
        unfold between2
        rw [← Finset.sum_sub_distrib]
        refine Finset.sum_congr rfl fun x _ => ?_
        rw [← Finset.sum_sub_distrib]
        exact Finset.sum_congr rfl fun y _ => by ring
      rw [e2]
      by_cases hab : g (a.1, a.2) = g (b.1, b.2)
      · rw [hab]
        rcases hpm _ hb with h | h <;> rw [h] <;> norm_num
      · have zab := z _ _ ha hb hab
        unfold prodH2 at zab
        rw [if_neg (fun h => hab (by rw [h])), zero_add] at zab
        rw [zab]; ring)
    intro x hx y hy
    have e := z2 x y hx hy
    have sx : (reflSignP x : ℂ) * (reflSignP x : ℂ) = 1 := by exact_mod_cast reflSignP_sq x
    have sy : (reflSignP y : ℂ) * (reflSignP y : ℂ) = 1 := by exact_mod_cast reflSignP_sq y
    linear_combination (reflSignP x : ℂ) * (reflSignP y : ℂ) * e - elemOf F (reflP x) (reflP y) * (reflSignP y : ℂ) * (reflSignP y : ℂ) * sx - elemOf F (reflP x) (reflP y) * sy
  · intro hz
    refine sector_split (prodH2 S1 S2 (elemOf F)) K g {-1, 1} hT ?_
    intro a b ha hb hab
    unfold prodH2
    rw [if_neg (fun h => hab (by rw [h])), zero_add]
    have e := between_refl u1 u2 g1 g2 hh1 hh2 (elemOf F) a b (mem _ ha).1 (mem _ ha).2 (mem _ hb).1 (mem _ hb).2
    have e2 : between2 (sq2 S1 S2) (fun x y => (reflSignP x : ℂ) * (reflSignP y : ℂ) * elemOf F (reflP x) (reflP y)) (prodVec S1 S2 a) (prodVec S1 S2 b) =
        between2 (sq2 S1 S2) (elemOf F) (prodVec S1 S2 a) (prodVec S1 S2 b) := by
      unfold between2
      refine Finset.sum_congr rfl fun x hx => Finset.sum_congr rfl fun y hy => ?_
      dsimp only
      rw [hz x hx y hy]
      have sx : (reflSignP x : ℂ) * (reflSignP x : ℂ) = 1 := by exact_mod_cast reflSignP_sq x
      have sy : (reflSignP y : ℂ) * (reflSignP y : ℂ) = 1 := by exact_mod_cast reflSignP_sq y
      linear_combination ((starRingEnd ℂ) (prodVec S1 S2 a x) * elemOf F x y * prodVec S1 S2 b y) * ((reflSignP y : ℂ) * (reflSignP y : ℂ) * sx + sy)
    rw [e2] at e
    have hgm : r1 a.1 * r2 a.2 * (r1 b.1 * r2 b.2) = -1 := by
      have ha' := hpm _ ha
      have hb' := hpm _ hb
      rw [hg] at ha' hb' hab
      dsimp only at ha' hb' hab
      rcases ha' with ea | ea <;> rcases hb' with eb | eb <;> rw [ea, eb] at hab ⊢ <;> first | rfl | (exact absurd rfl hab)
    rw [hgm] at e
    push_cast at e
    linear_combination e / 2

end PI
