import Verif.Pair.SectorMomThm
import Verif.SysOne.Refl

/-!
# Symmetry sectors of a pair system: reflection
-/

namespace PI

open Matrix

/-- Every basis vector is an eigenvector of the reflection, with the given eigenvalue. -/
def ReflVecs (S : OneSys) (r : ℕ → ℤ) : Prop :=
  ∀ a < S.cols.length, (r a = 1 ∨ r a = -1) ∧ reflect (coef1 (S.col a).2) = fun s => (r a : ℂ) * coef1 (S.col a).2 s

/-- States with half-integer momenta. -/
def HalfSys (S : OneSys) : Prop := ∀ x ∈ S.states, x.isArt = false ∧ x.j % 2 = 1 ∧ x.m % 2 = 1

/-- Specification: the reflection of pair amplitudes, (R psi)(s, t) = (-1)^(l1 + l2 + j1 + j2 + m1 + m2) psi(s reflected, t reflected). -/
def reflSignP (p : AState × AState) : ℤ := sgnZ (p.1.l + p.2.l + (p.1.j + p.2.j) / 2 + (p.1.m + p.2.m) / 2)

theorem sgnZ_add (a b : ℤ) : sgnZ (a + b) = sgnZ a * sgnZ b := by
  unfold sgnZ
  split_ifs <;> first | rfl | omega

theorem parLJM_spec (p : AState × AState) (hm : (p.1.m + p.2.m) % 2 = 0) : parLJM p = reflSignP p := by
  unfold parLJM parL reflSignP totalM
  rw [Int.tdiv_eq_ediv_of_dvd (Int.dvd_of_emod_eq_zero hm), sgnZ_add (p.1.l + p.2.l + _), sgnZ_add (p.1.l + p.2.l)]

theorem reflSignP_sq (p : AState × AState) : reflSignP p * reflSignP p = 1 := sgnZ_sq _

theorem reflSignP_reflP (p : AState × AState) (h1 : p.1.m % 2 = 1) (h2 : p.2.m % 2 = 1) : reflSignP (reflP p) = reflSignP p := by
  unfold reflSignP reflP
  simp only [AState.refl_l, AState.refl_j, AState.refl_m]
  unfold sgnZ
  split_ifs <;> first | rfl | (exfalso; omega)

/-! ## One-atom vectors -/

theorem reflect_apply (f : AState → ℂ) (x : AState) (h : x.isArt = false) : reflect f x = reflPhase x.l x.j (-x.m) * f x.refl := by
  cases x with
  | phys sp n l j m => rfl
  | art a => cases h

theorem reflPhase_ne (l j m : ℤ) : reflPhase l j m ≠ 0 := by
  unfold reflPhase
  refine mul_ne_zero ?_ (zpow_ne_zero _ (by norm_num))
  split_ifs
  · exact one_ne_zero
  · exact Complex.I_ne_zero

theorem ReflVecs.refl {S : OneSys} {r : ℕ → ℤ} (h : ReflVecs S r) {a : ℕ} (ha : a < S.cols.length) (x : AState) (hx : x.isArt = false) :
    reflPhase x.l x.j (-x.m) * coef1 (S.col a).2 x.refl = (r a : ℂ) * coef1 (S.col a).2 x := by
  rw [← reflect_apply _ x hx, (h a ha).2]

theorem ReflVecs.closed {S : OneSys} {r : ℕ → ℤ} (h : ReflVecs S r) (u : UnitarySys S) (hh : HalfSys S) (x : AState) (hx : x ∈ S.states) : x.refl ∈ S.states := by
  by_contra hn
  have hc := row_weight S u x hx
  have : ∑ a ∈ Finset.range S.cols.length, Complex.normSq (coef1 (S.col a).2 x) = 0 := by
    refine Finset.sum_eq_zero fun a ha => ?_
    rw [Finset.mem_range] at ha
    have e := h.refl ha x (hh x hx).1
    rw [coef1_zero_of_not_mem S u a _ hn, mul_zero] at e
    have hr : (r a : ℂ) ≠ 0 := by rcases (h a ha).1 with h | h <;> rw [h] <;> norm_num
    rw [(mul_eq_zero.1 e.symm).resolve_left hr, map_zero]
  rw [this] at hc
  exact zero_ne_one hc

theorem phase_prod (x y : AState) (hx : x.j % 2 = 1 ∧ x.m % 2 = 1) (hy : y.j % 2 = 1 ∧ y.m % 2 = 1) :
    reflPhase x.l x.j (-x.m) * reflPhase y.l y.j (-y.m) = -(reflSignP (x, y) : ℂ) := by
  unfold reflPhase
  have e : ∀ k : ℤ, (-1 : ℂ) ^ k = (sgnZ k : ℂ) := signC_eq
  rw [if_neg (by omega), if_neg (by omega), e, e]
  have : sgnZ ((2 * x.l + x.j - -x.m) / 2) * sgnZ ((2 * y.l + y.j - -y.m) / 2) = reflSignP (x, y) := by
    unfold reflSignP
    rw [← sgnZ_add]
    congr 1
    dsimp only
    omega
  rw [← this]
  push_cast
  linear_combination ((sgnZ ((2 * x.l + x.j - -x.m) / 2) : ℂ) * (sgnZ ((2 * y.l + y.j - -y.m) / 2) : ℂ)) * Complex.I_mul_I

/-- A product of reflection eigenvectors is an eigenvector of the reflection of the pair. -/
theorem prod_refl {S1 S2 : OneSys} {r1 r2 : ℕ → ℤ} (g1 : ReflVecs S1 r1) (g2 : ReflVecs S2 r2) (hh1 : HalfSys S1) (hh2 : HalfSys S2) (ab : ℕ × ℕ)
    (b1 : ab.1 < S1.cols.length) (b2 : ab.2 < S2.cols.length) (p : AState × AState) (hp : p ∈ sq2 S1 S2) :
    (reflSignP p : ℂ) * prodVec S1 S2 ab (reflP p) = -((r1 ab.1 * r2 ab.2 : ℤ) : ℂ) * prodVec S1 S2 ab p := by
  rw [mem_sq2] at hp
  obtain ⟨i1, i2⟩ := hh1 _ hp.1
  obtain ⟨k1, k2⟩ := hh2 _ hp.2
  have e1 := g1.refl b1 p.1 i1
  have e2 := g2.refl b2 p.2 k1
  have e := phase_prod p.1 p.2 i2 k2
  unfold prodVec reflP
  dsimp only
  push_cast
  have : (reflSignP p : ℂ) = -(reflPhase p.1.l p.1.j (-p.1.m) * reflPhase p.2.l p.2.j (-p.2.m)) := by rw [e, neg_neg]
  rw [this]
  linear_combination (-(reflPhase p.2.l p.2.j (-p.2.m) * coef1 (S2.col ab.2).2 p.2.refl)) * e1 - ((r1 ab.1 : ℂ) * coef1 (S1.col ab.1).2 p.1) * e2

/-- Both parities occur. -/
theorem ReflVecs.both {S : OneSys} {r : ℕ → ℤ} (h : ReflVecs S r) (u : UnitarySys S) (hh : HalfSys S) (hne : S.states ≠ []) (e : ℤ) (he : e = 1 ∨ e = -1) :
    ∃ a < S.cols.length, r a = e := by
  by_contra hc
  push Not at hc
  obtain ⟨x, hx⟩ := List.exists_mem_of_ne_nil _ hne
  have hn : ∀ a < S.cols.length, r a = -e := by
    intro a ha
    have := hc a ha
    have h1 := (h a ha).1
    omega
  have hx' := h.closed u hh x hx
  have hw := row_weight S u x hx
  have hc := u.complete x hx x.refl hx'
  rw [if_neg (by
    intro hxr
    have := congrArg AState.m hxr
    rw [AState.refl_m] at this
    have := (hh x hx).2.2
    omega)] at hc
  have : ∑ a ∈ Finset.range S.cols.length, (starRingEnd ℂ) (coef1 (S.col a).2 x) * coef1 (S.col a).2 x.refl =
      (-e : ℂ) / reflPhase x.l x.j (-x.m) * ((∑ a ∈ Finset.range S.cols.length, Complex.normSq (coef1 (S.col a).2 x) : ℝ) : ℂ) := by
    rw [Complex.ofReal_sum, Finset.mul_sum]
    refine Finset.sum_congr rfl fun a ha => ?_
    rw [Finset.mem_range] at ha
    have e1 := h.refl ha x (hh x hx).1
    rw [hn a ha] at e1
    have e2 : coef1 (S.col a).2 x.refl = (-e : ℂ) / reflPhase x.l x.j (-x.m) * coef1 (S.col a).2 x := by
      rw [div_mul_eq_mul_div, eq_div_iff (reflPhase_ne _ _ _), mul_comm, e1]
      push_cast
      ring
    rw [e2, Complex.normSq_eq_conj_mul_self]
    ring
  rw [this, hw, Complex.ofReal_one, mul_one] at hc
  rw [div_eq_zero_iff] at hc
  rcases hc with hc | hc
  · rcases he with h2 | h2 <;> rw [h2] at hc <;> norm_num at hc
  · exact reflPhase_ne _ _ _ hc

/-! ## The columns -/

/-- The parity as a number. -/
def Par.unit (p : Par) : ℤ := if p = .even then 1 else -1

theorem refl_body (e : Par) (he : e ≠ .na) (d : Bool) (p : AState × AState) (v : ℂ) :
    pairBody ⟨.na, .na, e, none⟩ d p v = [(p, v / 2), (reflP p, v / 2 * ((e.unit * parLJM p : ℤ) : ℂ))] := by
  have hs2 : (Real.sqrt 2 : ℂ) * (Real.sqrt 2 : ℂ) = 2 := sqrt2_mul
  rw [pairBody_plain _ d p v (by simp) (by simp [PairSym.drops, PairSym.rotExcludes])]
  have h1 : PairSym.scale ⟨.na, .na, e, none⟩ d p v = v / 2 := by
    unfold PairSym.scale
    simp [PairSym.skipRefl, he, hs2]
  have h2 : PairSym.reflS ⟨.na, .na, e, none⟩ p = e.unit * parLJM p := by
    unfold PairSym.reflS Par.unit
    dsimp only
    split_ifs <;> ring
  rw [h1, if_pos he, h2]
  rfl

theorem refl_coef (e : Par) (he : e ≠ .na) (d : Bool) (u w : List (AState × ℂ)) (q : AState × AState) :
    coefP (pairColumn ⟨.na, .na, e, none⟩ d u w) q = (coef1 u q.1 * coef1 w q.2 + ((e.unit * parLJM q : ℤ) : ℂ) * (coef1 u q.1.refl * coef1 w q.2.refl)) / 2 := by
  rw [← trivial_coef d u w q.1 q.2, ← trivial_coef d u w q.1.refl q.2.refl]
  show _ = (coefP (pairColumn .trivial d u w) q + _ * coefP (pairColumn .trivial d u w) (reflP q)) / 2
  unfold pairColumn
  refine flatMap_projection u _ _ (fun q => ((e.unit * parLJM q : ℤ) : ℂ)) q fun e1 _ => flatMap_projection w _ _ (fun q => ((e.unit * parLJM q : ℤ) : ℂ)) q fun e2 _ => ?_
  rw [refl_body e he, trivial_body]
  simp only [coefP_cons, coefP_nil, add_zero]
  have r1 : (reflP (e1.1, e2.1) = q) ↔ ((e1.1, e2.1) = reflP q) := (reflP_eq _ _).symm
  by_cases h1 : (e1.1, e2.1) = q <;> by_cases h2 : reflP (e1.1, e2.1) = q
  · rw [if_pos h1, if_pos h2, if_pos h1, if_pos (r1.1 h2), h1]; ring
  · rw [if_pos h1, if_neg h2, if_pos h1, if_neg (fun h => h2 (r1.2 h))]; ring
  · rw [if_neg h1, if_pos h2, if_neg h1, if_pos (r1.1 h2), ← h2, parLJM_reflP]; ring
  · rw [if_neg h1, if_neg h2, if_neg h1, if_neg (fun h => h2 (r1.2 h))]; ring

theorem refl_weight (e : Par) (he : e ≠ .na) (d : Bool) (u w : List (AState × ℂ)) (q : AState × AState) :
    weightP (pairColumn ⟨.na, .na, e, none⟩ d u w) q = (weight1 u q.1 * weight1 w q.2 + weight1 u q.1.refl * weight1 w q.2.refl) / 4 := by
  rw [← trivial_weight d u w q.1 q.2, ← trivial_weight d u w q.1.refl q.2.refl]
  show _ = (weightP (pairColumn .trivial d u w) q + weightP (pairColumn .trivial d u w) (reflP q)) / 4
  have key : ∀ {α : Type} (L : List α) (f g : α → List PEntry), (∀ a ∈ L, weightP (f a) q = (weightP (g a) q + weightP (g a) (reflP q)) / 4) →
      weightP (L.flatMap f) q = (weightP (L.flatMap g) q + weightP (L.flatMap g) (reflP q)) / 4 := by
    intro α L f g h
    rw [weightP_flatMap, weightP_flatMap, weightP_flatMap]
    induction L with
    | nil => simp
    | cons a L ih =>
      simp only [List.map_cons, List.sum_cons]
      rw [h a List.mem_cons_self, ih fun b hb => h b (List.mem_cons_of_mem _ hb)]
      ring
  unfold pairColumn
  refine key u _ _ fun e1 _ => key w _ _ fun e2 _ => ?_
  rw [refl_body e he, trivial_body]
  simp only [weightP_cons, weightP_nil, add_zero]
  have n1 : ∀ z : ℂ, Complex.normSq (z / 2) = Complex.normSq z / 4 := by
    intro z; rw [Complex.normSq_div, Complex.normSq_ofNat]; norm_num
  have n2 : ((e.unit * parLJM (e1.1, e2.1) : ℤ)) * (e.unit * parLJM (e1.1, e2.1)) = 1 := by
    have := parLJM_sq (e1.1, e2.1)
    have h2 : e.unit * e.unit = 1 := by unfold Par.unit; split_ifs <;> rfl
    calc _ = (e.unit * e.unit) * (parLJM (e1.1, e2.1) * parLJM (e1.1, e2.1)) := by ring
      _ = 1 := by rw [this, h2, one_mul]
  rw [normSq_sign _ _ n2, n1]
  have r1 : (reflP (e1.1, e2.1) = q) ↔ ((e1.1, e2.1) = reflP q) := (reflP_eq _ _).symm
  by_cases h1 : (e1.1, e2.1) = q <;> by_cases h2 : (e1.1, e2.1) = reflP q
  · rw [if_pos h1, if_pos (r1.2 h2), if_pos h1, if_pos h2]; ring
  · rw [if_pos h1, if_neg (fun h => h2 (r1.1 h)), if_pos h1, if_neg h2]; ring
  · rw [if_neg h1, if_pos (r1.2 h2), if_neg h1, if_pos h2]; ring
  · rw [if_neg h1, if_neg (fun h => h2 (r1.1 h)), if_neg h1, if_neg h2]; ring

end PI
