import Verif.Pair.Model
import Verif.Field.Props
import Mathlib.Tactic.LinearCombination

/-!
# C42, C43, C44, C62, C71 and more: the interaction of two atoms
-/

namespace PI
open Matrix

variable {N : ℕ}

/-! ## C42 the operators read are initialised -/

theorem pairTerms_of_init (p : PairParams) (s s' : PairMaps) (h : initPair p s = (.ok (), s')) :
    (∀ t ∈ addPair p s', s'.stored t.1 = true) ∧ addPair p s' = pairTerms p ∧ ∀ k, s.stored k = true → s'.stored k = true := by
  unfold pairTerms
  unfold initPair at h ⊢
  by_cases hd : p.dist = dblMax
  · rw [if_pos hd] at h
    obtain ⟨-, rfl⟩ := Prod.mk.inj h
    refine ⟨?_, ?_, fun _ => id⟩
    · intro t ht; unfold addPair at ht; rw [if_pos hd] at ht; simp at ht
    · unfold addPair; rw [if_pos hd, if_pos hd]
  rw [if_neg hd] at h ⊢
  dsimp only at h ⊢
  by_cases hg : p.greenBranch
  · rw [if_pos hg] at h ⊢
    by_cases h1 : p.gt = false
    · rw [if_pos h1] at h; simp at h
    rw [if_neg h1] at h ⊢
    by_cases h2 : p.surf ≠ dblMax ∧ p.y ≠ 0
    · rw [if_pos h2] at h; simp at h
    rw [if_neg h2] at h ⊢
    rcases hgr : p.green with ⟨o, g⟩
    rw [hgr] at h
    have hgt : p.gt = true := by simpa using h1
    cases o with
    | ok u =>
      dsimp only at h ⊢
      by_cases h5 : p.order ≥ 5
      · rw [if_pos h5] at h; simp at h
      rw [if_neg h5] at h ⊢
      obtain ⟨-, rfl⟩ := Prod.mk.inj h
      refine ⟨?_, ?_, ?_⟩
      · intro t ht
        unfold addPair at ht
        rw [if_neg hd, if_pos hgt] at ht
        simp only [PairMaps.store, Bool.or_eq_true, decide_eq_true_eq]
        right
        simp only [PairMaps.store, List.mem_append, List.mem_map] at ht ⊢
        rcases ht with (⟨x, hx, rfl⟩ | ⟨x, hx, rfl⟩) | ⟨x, hx, rfl⟩
        · exact Or.inl (Or.inl ⟨x, hx, rfl⟩)
        · exact Or.inl (Or.inr ⟨x, hx, rfl⟩)
        · exact Or.inr ⟨x, hx, rfl⟩
      · unfold addPair
        rw [if_neg hd, if_pos hgt, if_neg hd, if_pos hgt]
        by_cases h3 : p.order ≥ 3 <;> by_cases h4 : p.order ≥ 4 <;> simp [PairMaps.store, h3, h4]
      · intro k hk
        simp only [PairMaps.store, Bool.or_eq_true]
        left
        by_cases h3 : p.order ≥ 3 <;> by_cases h4 : p.order ≥ 4 <;> simp [h3, h4, hk]
    | throw => simp at h
    | ub => simp at h
  · rw [if_neg hg] at h ⊢
    have hgt : p.gt = false := by
      by_contra hc
      exact hg (Or.inr (Or.inr (Or.inr (by simpa using hc))))
    by_cases hx : p.x ≠ 0
    · rw [if_pos hx] at h ⊢
      obtain ⟨-, rfl⟩ := Prod.mk.inj h
      refine ⟨?_, ?_, ?_⟩
      · intro t ht
        unfold addPair at ht
        rw [if_neg hd, hgt, if_neg (by simp), if_pos hx] at ht
        simp only [PairMaps.store, List.mem_map, Bool.or_eq_true, decide_eq_true_eq] at ht ⊢
        obtain ⟨x, hx', rfl⟩ := ht
        exact Or.inr ⟨x, hx', rfl⟩
      · unfold addPair
        rw [if_neg hd, hgt, if_neg (by simp), if_pos hx, if_neg hd, if_neg (by simp), if_pos hx]
        rfl
      · intro k hk; simp [PairMaps.store, hk]
    · rw [if_neg hx] at h ⊢
      obtain ⟨-, rfl⟩ := Prod.mk.inj h
      refine ⟨?_, ?_, ?_⟩
      · intro t ht
        unfold addPair at ht
        rw [if_neg hd, hgt, if_neg (by simp), if_neg hx] at ht
        simp only [PairMaps.store, List.mem_map, Bool.or_eq_true, decide_eq_true_eq] at ht ⊢
        obtain ⟨x, hx', rfl⟩ := ht
        exact Or.inr ⟨x, hx', rfl⟩
      · unfold addPair
        rw [if_neg hd, hgt, if_neg (by simp), if_neg hx, if_neg hd, if_neg (by simp), if_neg hx]
      · intro k hk; simp [PairMaps.store, hk]

/-- **C42.** For all settings and all contents of the maps left by earlier calls: after an `initializeInteraction` that does not throw, every
operator that `addInteraction` reads is stored, the factors depend on the current settings only, and no stored operator is lost. -/
theorem C42_operators_initialised (p : PairParams) (s s' : PairMaps) (h : initPair p s = (.ok (), s')) :
    (∀ t ∈ addPair p s', s'.stored t.1 = true) ∧ addPair p s' = pairTerms p ∧ ∀ k, s.stored k = true → s'.stored k = true :=
  pairTerms_of_init p s s' h

/-- **C42.** Which settings are accepted: an unset distance; without Green tensor, a vector in the xz-plane with order at most 3 if it is tilted,
without a surface; with Green tensor, an order below five and, near a surface, both atoms above it in the xz-plane. -/
theorem C42_accepted_settings (p : PairParams) (s : PairMaps) :
    (initPair p s).1 = .ok () ↔
      p.dist = dblMax ∨
      (p.gt = false ∧ p.y = 0 ∧ p.surf = dblMax ∧ (p.x = 0 ∨ p.order ≤ 3)) ∨
      (p.gt = true ∧ p.order < 5 ∧
        (p.surf = dblMax ∨ (p.y = 0 ∧ 0 ≤ (surfaceHeights p.x p.z p.surf).1 ∧ 0 ≤ (surfaceHeights p.x p.z p.surf).2))) := by
  unfold initPair
  by_cases hd : p.dist = dblMax
  · rw [if_pos hd]; simp [hd]
  rw [if_neg hd]
  dsimp only
  by_cases hg : p.greenBranch
  · rw [if_pos hg]
    by_cases h1 : p.gt = false
    · rw [if_pos h1]
      have : ¬ (p.y = 0 ∧ p.surf = dblMax ∧ (p.x = 0 ∨ p.order ≤ 3)) := by
        rintro ⟨ha, hb, hc⟩
        rcases hg with h | h | ⟨h, h'⟩ | h
        · exact h ha
        · exact h hb
        · rcases hc with hc | hc
          · exact h hc
          · omega
        · simp [h1] at h
      simp [hd, h1, this]
    · rw [if_neg h1]
      have hgt : p.gt = true := by simpa using h1
      by_cases h2 : p.surf ≠ dblMax ∧ p.y ≠ 0
      · rw [if_pos h2]; simp [hd, hgt, h2.1, h2.2]
      · rw [if_neg h2]
        by_cases hs : p.surf = dblMax
        · have hgr : p.green = (.ok (), GT.new p.x p.y p.z) := by unfold PairParams.green; rw [if_neg (by simpa using hs)]
          rw [hgr]
          dsimp only
          by_cases h5 : p.order ≥ 5
          · rw [if_pos h5]; simp [hd, hgt]; omega
          · rw [if_neg h5]; simp [hgt, hs]; right; omega
        · have hy : p.y = 0 := by by_contra hc; exact h2 ⟨hs, hc⟩
          by_cases hh : (surfaceHeights p.x p.z p.surf).1 < 0 ∨ (surfaceHeights p.x p.z p.surf).2 < 0
          · have hgr : p.green.1 = .throw := by
              unfold PairParams.green
              rw [if_pos hs]
              simp only [GT.addSurface, GT.new, hy, ne_eq, not_true_eq_false, if_false]
              rw [if_pos hh]
            rcases hp : p.green with ⟨o, g⟩
            rw [hp] at hgr
            dsimp only at hgr ⊢
            subst hgr
            dsimp only
            simp only [reduceCtorEq, hd, hgt, hs, hy, false_or, Bool.true_eq_false, false_and, true_and, false_iff, not_and, not_le]
            intro _ h0
            rcases hh with hh | hh
            · linarith
            · exact hh
          · have hgr : p.green.1 = .ok () := by
              unfold PairParams.green
              rw [if_pos hs]
              simp only [GT.addSurface, GT.new, hy, ne_eq, not_true_eq_false, if_false]
              rw [if_neg hh]
            rcases hp : p.green with ⟨o, g⟩
            rw [hp] at hgr
            dsimp only at hgr ⊢
            subst hgr
            dsimp only
            push Not at hh
            by_cases h5 : p.order ≥ 5
            · rw [if_pos h5]; simp [hd, hgt]; omega
            · rw [if_neg h5]; simp [hgt, hy, hh.1, hh.2]; right; omega
  · rw [if_neg hg]
    unfold PairParams.greenBranch at hg
    push Not at hg
    obtain ⟨g1, g2, g3, g4⟩ := hg
    have : p.x = 0 ∨ p.order ≤ 3 := by
      by_cases hx : p.x = 0
      · exact Or.inl hx
      · exact Or.inr (g3 hx)
    have hgt : p.gt = false := by simpa using g4
    split_ifs <;> simp [hgt, g1, g2, this]

/-! ## The entry of all terms together -/

theorem msum_apply (L : List (Matrix (Fin N) (Fin N) ℂ)) (r c : Fin N) : L.sum r c = (L.map fun M => M r c).sum := by
  induction L with
  | nil => rfl
  | cons A L ih => rw [List.sum_cons, Matrix.add_apply, ih, List.map_cons, List.sum_cons]

/-- The entry of the operator of a key, before mirroring. -/
noncomputable def pairEntry (C : FieldConsts) (radial : RadKey → ℝ) (me : Method) : PKey → QN × QN → QN × QN → ℂ
  | .ang key => angEntry C radial me key
  | .mul o => mulEntry C radial me o
  | .dd k => ddEntry C radial me (unkey2 k)
  | .dq k => dqEntry C radial me (unkey3 k)
  | .qd k => qdEntry C radial me (unkey3 k)

theorem pairOper_eq (C : FieldConsts) (radial : RadKey → ℝ) (me : Method) (st : Fin N → Option (QN × QN)) (k : PKey) :
    pairOper C radial me st k = lowerView (pairMat st (pairEntry C radial me k)) := by
  cases k <;> rfl

/-- All terms of a setting for one pair of pair states. -/
noncomputable def pairTotal (C : FieldConsts) (radial : RadKey → ℝ) (me : Method) (p : PairParams) (a b : QN × QN) : ℂ :=
  ((pairTerms p).map fun t => (t.2 : ℂ) * pairEntry C radial me t.1 a b).sum

theorem lowerView_list (st : Fin N → Option (QN × QN)) (L : List (PKey × ℝ)) (e : PKey → QN × QN → QN × QN → ℂ) :
    (L.map fun t => (t.2 : ℂ) • lowerView (pairMat st (e t.1))).sum
      = lowerView (pairMat st fun a b => (L.map fun t => (t.2 : ℂ) * e t.1 a b).sum) := by
  induction L with
  | nil =>
    ext r c
    simp only [List.map_nil, List.sum_nil, Matrix.zero_apply, lowerView, pairMat]
    split_ifs <;> (try split) <;> simp
  | cons t L ih =>
    rw [List.map_cons, List.sum_cons, ih]
    ext r c
    rw [Matrix.add_apply, Matrix.smul_apply]
    simp only [lowerView, pairMat, List.map_cons, List.sum_cons, smul_eq_mul]
    split_ifs <;> (try split) <;> simp

/-- All pair states have physical quantum numbers; first atoms share species and spin, second atoms, too. -/
def GoodPairs (st : Fin N → Option (QN × QN)) : Prop :=
  ∀ i a, st i = some a → a.1.Physical ∧ a.2.Physical ∧
    ∀ j b, st j = some b → a.1.species = b.1.species ∧ a.1.s = b.1.s ∧ a.2.species = b.2.species ∧ a.2.s = b.2.s

/-- Two pair states that occur in one system. -/
structure PairOK (a b : QN × QN) : Prop where
  a1 : a.1.Physical
  a2 : a.2.Physical
  b1 : b.1.Physical
  b2 : b.2.Physical
  sp1 : a.1.species = b.1.species
  s1 : a.1.s = b.1.s
  sp2 : a.2.species = b.2.species
  s2 : a.2.s = b.2.s

theorem PairOK.symm {a b : QN × QN} (h : PairOK a b) : PairOK b a :=
  ⟨h.b1, h.b2, h.a1, h.a2, h.sp1.symm, h.s1.symm, h.sp2.symm, h.s2.symm⟩

theorem GoodPairs.ok {st : Fin N → Option (QN × QN)} (hst : GoodPairs st) {r c : Fin N} {a b : QN × QN} (hr : st r = some a)
    (hc : st c = some b) : PairOK a b := by
  obtain ⟨h1, h2, h3⟩ := hst r a hr
  obtain ⟨h4, h5, -⟩ := hst c b hc
  obtain ⟨h6, h7, h8, h9⟩ := h3 c b hc
  exact ⟨h1, h2, h4, h5, h6, h7, h8, h9⟩

/-- The pair states of a system. -/
def InSt (st : Fin N → Option (QN × QN)) (a : QN × QN) : Prop := ∃ i, st i = some a

/-- If the entries satisfy F(b,a) = conj F(a,b), mirroring the lower triangle gives the full matrix. -/
theorem lowerView_full (st : Fin N → Option (QN × QN)) (hst : GoodPairs st) (F : QN × QN → QN × QN → ℂ)
    (hF : ∀ a b, InSt st a → InSt st b → PairOK a b → F b a = (starRingEnd ℂ) (F a b)) (r c : Fin N) :
    lowerView (pairMat st F) r c = match st r, st c with
      | some a, some b => F a b
      | _, _ => 0 := by
  unfold lowerView pairMat
  cases hr : st r with
  | none => cases hc : st c <;> simp
  | some a =>
    cases hc : st c with
    | none => simp
    | some b =>
      have ok := hst.ok hr hc
      rcases lt_trichotomy c r with h | h | h
      · simp [h, h.le]
      · subst h
        rw [hr] at hc
        obtain rfl := Option.some.inj hc
        have := hF a a ⟨_, hr⟩ ⟨_, hr⟩ ok
        have h2 : ((F a a).re : ℂ) = F a a := by
          apply Complex.ext <;> simp
          have := congrArg Complex.im this
          simp at this
          linarith
        simp [h2]
      · have h1 : ¬ c < r := not_lt.mpr h.le
        have h2 : r ≠ c := ne_of_lt h
        simp only [h1, if_false, h2]
        rw [hF a b ⟨_, hr⟩ ⟨_, hc⟩ ok]; simp

theorem pairH_eq_in (C : FieldConsts) (radial : RadKey → ℝ) (me : Method) (st : Fin N → Option (QN × QN)) (hst : GoodPairs st)
    (p : PairParams) (S : QN × QN → QN × QN → ℂ) (hS : ∀ a b, InSt st a → InSt st b → PairOK a b → pairTotal C radial me p a b = S a b)
    (hh : ∀ a b, PairOK a b → S b a = (starRingEnd ℂ) (S a b)) (r c : Fin N) :
    pairH C radial me st p r c = match st r, st c with
      | some a, some b => S a b
      | _, _ => 0 := by
  unfold pairH
  simp only [pairOper_eq]
  rw [lowerView_list st (pairTerms p) (pairEntry C radial me)]
  have := lowerView_full st hst (pairTotal C radial me p) (fun a b ia ib hab => by rw [hS b a ib ia hab.symm, hS a b ia ib hab, hh a b hab]) r c
  unfold pairTotal at this
  rw [this]
  cases hr : st r with
  | none => rfl
  | some a =>
    cases hc : st c with
    | none => rfl
    | some b => exact hS a b ⟨_, hr⟩ ⟨_, hc⟩ (hst.ok hr hc)

theorem pairH_eq (C : FieldConsts) (radial : RadKey → ℝ) (me : Method) (st : Fin N → Option (QN × QN)) (hst : GoodPairs st)
    (p : PairParams) (S : QN × QN → QN × QN → ℂ) (hS : ∀ a b, PairOK a b → pairTotal C radial me p a b = S a b)
    (hh : ∀ a b, PairOK a b → S b a = (starRingEnd ℂ) (S a b)) (r c : Fin N) :
    pairH C radial me st p r c = match st r, st c with
      | some a, some b => S a b
      | _, _ => 0 := pairH_eq_in C radial me st hst p S (fun a b _ _ => hS a b) hh r c

/-! ## Elements -/

theorem mDiff_spec (a b : QN) (ha : a.Physical) (hb : b.Physical) (hs : a.s = b.s) : a.m - b.m = 2 * mDiff a b := by
  obtain ⟨-, -, -, -, h1, -, h2⟩ := ha
  obtain ⟨-, -, -, -, h3, -, h4⟩ := hb
  unfold mDiff
  obtain ⟨k, hk⟩ : ∃ k, a.m - b.m = 2 * k := ⟨(a.m - b.m) / 2, by omega⟩
  rw [hk, Int.mul_tdiv_cancel_left _ (by norm_num)]

theorem mDiff_swap (a b : QN) : mDiff b a = -mDiff a b := by
  unfold mDiff
  rw [← neg_sub, Int.neg_tdiv]

theorem selMultipole_swap (a b : QN) (k : ℤ) : selMultipole b a k = selMultipole a b k := by
  unfold selMultipole
  dsimp only
  rw [abs_sub_comm b.l a.l, abs_sub_comm b.j a.j, abs_sub_comm b.m a.m, add_comm b.j a.j]
  congr 2
  by_cases h1 : k = 2 <;> by_cases h2 : a.j = b.j <;> by_cases h3 : b.j = 3 <;> by_cases h4 : a.m = -b.m <;>
    simp_all <;> omega

theorem selMultipole_m (a b : QN) (ha : a.Physical) (hb : b.Physical) (hs : a.s = b.s) (k : ℤ)
    (h : selMultipole a b k = true) : |mDiff a b| ≤ k := by
  simp only [selMultipole, Bool.and_eq_true, decide_eq_true_eq] at h
  have h1 := h.1.2
  rw [mDiff_spec a b ha hb hs, abs_mul] at h1
  norm_num at h1
  exact h1

theorem elem_zero (C : FieldConsts) (radial : RadKey → ℝ) (me : Method) (a b : QN) (ha : a.Physical) (hb : b.Physical)
    (hs : a.species = b.species) (hss : a.s = b.s) (k : ℤ) (hk : 0 ≤ k) (h : selMultipole a b k = false) :
    elem C radial me k a b = 0 := by
  have := (C20_selection_rules_sound a b k (mDiff a b) hk).2.1 h
  unfold elem
  rw [electricMultipole_eq C.elem radial me a b k k ha hb hs hss]
  have e : angularSpec k a.j b.j a.m b.m * commutesSSpec a.s k a.l b.l a.j b.j * multipoleSpec k a.l b.l
      = multipoleAngular a b k (mDiff a b) := by
    unfold multipoleAngular angularSpec
    rw [mDiff_spec a b ha hb hss]
  rw [e, this]; simp [outVal]

theorem elem_swap (C : FieldConsts) (radial : RadKey → ℝ) (me : Method) (a b : QN) (ha : a.Physical) (hb : b.Physical)
    (hs : a.species = b.species) (hss : a.s = b.s) (k : ℤ) (hk : 0 ≤ k) :
    elem C radial me k b a = sgn (mDiff a b) * elem C radial me k a b := by
  have := (multipole_tensorOK C.elem radial me a b k k hk ha hb hs hss).herm
  unfold elem
  rw [this, mDiff_spec a b ha hb hss]
  simp

theorem elem_m (C : FieldConsts) (radial : RadKey → ℝ) (me : Method) (a b : QN) (ha : a.Physical) (hb : b.Physical)
    (hs : a.species = b.species) (hss : a.s = b.s) (k : ℤ) (hk : 0 ≤ k) (h : ¬ |mDiff a b| ≤ k) :
    elem C radial me k a b = 0 := by
  apply elem_zero C radial me a b ha hb hs hss k hk
  by_contra hc
  exact h (selMultipole_m a b ha hb hss k (by simpa using hc))

/-! ## Specification: Cartesian components -/

/-- Racah's solid harmonics of rank one, r C_{1q}(r). -/
noncomputable def solid1 (r : Vec3) (q : ℤ) : ℂ :=
  if q = 1 then -((r.x : ℂ) + Complex.I * r.y) / (Real.sqrt 2 : ℝ)
  else if q = -1 then ((r.x : ℂ) - Complex.I * r.y) / (Real.sqrt 2 : ℝ)
  else r.z

/-- Component i of a vector. -/
def Vec3.get (r : Vec3) (i : Fin 3) : ℝ := ![r.x, r.y, r.z] i

/-- The coefficient of the spherical component q in the Cartesian component i of a vector. -/
noncomputable def dipCoef (i : Fin 3) (q : ℤ) : ℂ :=
  if i = 0 then (if q = 1 then -1 / (Real.sqrt 2 : ℝ) else if q = -1 then 1 / (Real.sqrt 2 : ℝ) else 0)
  else if i = 1 then (if q = 1 ∨ q = -1 then Complex.I / (Real.sqrt 2 : ℝ) else 0)
  else if q = 0 then 1 else 0

/-- The coefficient of the spherical component q in the traceless Cartesian quadrupole r_j r_k − δ_jk r²/3. -/
noncomputable def quadCoef (j k : Fin 3) (q : ℤ) : ℂ :=
  if j = 0 ∧ k = 0 then (if q = 2 ∨ q = -2 then 1 / (Real.sqrt 6 : ℝ) else if q = 0 then -1 / 3 else 0)
  else if (j = 0 ∧ k = 1) ∨ (j = 1 ∧ k = 0) then
    (if q = 2 then -Complex.I / (Real.sqrt 6 : ℝ) else if q = -2 then Complex.I / (Real.sqrt 6 : ℝ) else 0)
  else if (j = 0 ∧ k = 2) ∨ (j = 2 ∧ k = 0) then
    (if q = 1 then -1 / (Real.sqrt 6 : ℝ) else if q = -1 then 1 / (Real.sqrt 6 : ℝ) else 0)
  else if j = 1 ∧ k = 1 then (if q = 2 ∨ q = -2 then -1 / (Real.sqrt 6 : ℝ) else if q = 0 then -1 / 3 else 0)
  else if (j = 1 ∧ k = 2) ∨ (j = 2 ∧ k = 1) then (if q = 1 ∨ q = -1 then Complex.I / (Real.sqrt 6 : ℝ) else 0)
  else if q = 0 then 2 / 3 else 0

theorem csqrt2_ne : ((Real.sqrt 2 : ℝ) : ℂ) ≠ 0 := by exact_mod_cast fsqrt2_ne

theorem csqrt2_sq : ((Real.sqrt 2 : ℝ) : ℂ) ^ 2 = 2 := by
  rw [← Complex.ofReal_pow, Real.sq_sqrt (by norm_num)]; norm_num

theorem csqrt6_ne : ((Real.sqrt 6 : ℝ) : ℂ) ≠ 0 := by
  have : Real.sqrt 6 ≠ 0 := (Real.sqrt_pos.mpr (by norm_num)).ne'
  exact_mod_cast this

theorem csqrt6_sq : ((Real.sqrt 6 : ℝ) : ℂ) ^ 2 = 6 := by
  rw [← Complex.ofReal_pow, Real.sq_sqrt (by norm_num)]; norm_num

/-- The coefficients are the right ones: for every vector, Σ_q dipCoef i q · r C_{1q}(r) = r_i. -/
theorem dipCoef_spec (r : Vec3) (i : Fin 3) :
    dipCoef i (-1) * solid1 r (-1) + dipCoef i 0 * solid1 r 0 + dipCoef i 1 * solid1 r 1 = (r.get i : ℂ) := by
  have h0 := csqrt2_ne
  have h2 := csqrt2_sq
  have hI := Complex.I_sq
  fin_cases i <;> simp [dipCoef, solid1, Vec3.get] <;> field_simp <;> (try rw [h2]) <;> (try ring_nf) <;> (try rw [hI]) <;> (try ring)

theorem sqrt38 : Real.sqrt (3 / 8) = Real.sqrt 6 / 4 := by
  rw [show (3 / 8 : ℝ) = 6 / 4 ^ 2 by norm_num, Real.sqrt_div (by norm_num), Real.sqrt_sq (by norm_num)]

theorem sqrt32 : Real.sqrt (3 / 2) = Real.sqrt 6 / 2 := by
  rw [show (3 / 2 : ℝ) = 6 / 2 ^ 2 by norm_num, Real.sqrt_div (by norm_num), Real.sqrt_sq (by norm_num)]

/-- For every vector, Σ_q quadCoef j k q · r² C_{2q}(r) = r_j r_k − δ_jk r²/3. -/
theorem quadCoef_spec (r : Vec3) (j k : Fin 3) :
    quadCoef j k (-2) * solidC r 2 (-2) + quadCoef j k (-1) * solidC r 2 (-1) + quadCoef j k 0 * solidC r 2 0
      + quadCoef j k 1 * solidC r 2 1 + quadCoef j k 2 * solidC r 2 2
      = ((r.get j * r.get k - (if j = k then (r.x ^ 2 + r.y ^ 2 + r.z ^ 2) / 3 else 0) : ℝ) : ℂ) := by
  have h0 := csqrt6_ne
  have h2 := csqrt6_sq
  have hI := Complex.I_sq
  have hI3 : Complex.I ^ 3 = -Complex.I := by rw [pow_succ, hI]; ring
  fin_cases j <;> fin_cases k <;>
    simp only [quadCoef, solidC, Vec3.get, sqrt38, sqrt32, Fin.zero_eta, Fin.mk_one, Fin.reduceFinMk, Fin.reduceEq, and_true, and_false,
      true_and, false_and, or_false, or_true, if_true, if_false, and_self, Int.reduceNeg, Int.reduceEq, OfNat.ofNat_ne_zero,
      Matrix.cons_val_zero, Matrix.cons_val_one, Matrix.cons_val, zero_mul, add_zero, zero_add, or_self] <;>
    push_cast <;> field_simp <;> ring_nf <;> (try simp only [hI, hI3]) <;> (try ring)

/-- The Cartesian component i of the dipole between two states, from its spherical component q = m_a − m_b. -/
noncomputable def cartDip (C : FieldConsts) (radial : RadKey → ℝ) (me : Method) (a b : QN) (i : Fin 3) : ℂ :=
  dipCoef i ((a.m - b.m) / 2) * elem C radial me 1 a b

/-- The Cartesian components of the traceless quadrupole between two states. -/
noncomputable def cartQuad (C : FieldConsts) (radial : RadKey → ℝ) (me : Method) (a b : QN) (j k : Fin 3) : ℂ :=
  quadCoef j k ((a.m - b.m) / 2) * elem C radial me 2 a b

theorem mDiff_div (a b : QN) (ha : a.Physical) (hb : b.Physical) (hs : a.s = b.s) : (a.m - b.m) / 2 = mDiff a b := by
  rw [mDiff_spec a b ha hb hs]; simp

theorem sgn_zero' : sgn 0 = 1 := by simp [sgn]

theorem dipCoef_conj (i : Fin 3) (q : ℤ) : dipCoef i (-q) * (sgn q : ℂ) = (starRingEnd ℂ) (dipCoef i q) := by
  by_cases h1 : q = 1
  · subst h1; fin_cases i <;> simp [dipCoef, sgn, neg_div]
  by_cases h2 : q = -1
  · subst h2; fin_cases i <;> simp [dipCoef, sgn, neg_div]
  by_cases h3 : q = 0
  · subst h3; fin_cases i <;> simp [dipCoef, sgn]
  have h1' : ¬ -q = 1 := by omega
  have h3' : ¬ -q = 0 := by omega
  have h2' : ¬ -q = -1 := by omega
  fin_cases i <;> simp [dipCoef, h1, h2, h3, h1', h2', h3']

theorem quadCoef_conj (j k : Fin 3) (q : ℤ) : quadCoef j k (-q) * (sgn q : ℂ) = (starRingEnd ℂ) (quadCoef j k q) := by
  have key : q = 0 ∨ q = 1 ∨ q = -1 ∨ q = 2 ∨ q = -2 ∨ (q ≠ 0 ∧ q ≠ 1 ∧ q ≠ -1 ∧ q ≠ 2 ∧ q ≠ -2) := by omega
  rcases key with rfl | rfl | rfl | rfl | rfl | ⟨h0, h1, h2, h3, h4⟩
  · fin_cases j <;> fin_cases k <;> simp [quadCoef, sgn, Complex.conj_ofNat, neg_div, map_div₀]
  · fin_cases j <;> fin_cases k <;> simp [quadCoef, sgn, neg_div]
  · fin_cases j <;> fin_cases k <;> simp [quadCoef, sgn, neg_div]
  · fin_cases j <;> fin_cases k <;> simp [quadCoef, sgn, neg_div]
  · fin_cases j <;> fin_cases k <;> simp [quadCoef, sgn, neg_div]
  · have a0 : ¬ -q = 0 := by omega
    have a1 : ¬ -q = 1 := by omega
    have a2 : ¬ -q = -1 := by omega
    have a3 : ¬ -q = 2 := by omega
    have a4 : ¬ -q = -2 := by omega
    unfold quadCoef
    simp only [h0, h1, h2, h3, h4, a0, a1, a2, a3, a4, or_self, if_false, ite_self, zero_mul, map_zero]

/-- The Cartesian components are Hermitian operators. -/
theorem cartDip_herm (C : FieldConsts) (radial : RadKey → ℝ) (me : Method) (a b : QN) (ha : a.Physical) (hb : b.Physical)
    (hs : a.species = b.species) (hss : a.s = b.s) (i : Fin 3) :
    cartDip C radial me b a i = (starRingEnd ℂ) (cartDip C radial me a b i) := by
  unfold cartDip
  rw [mDiff_div a b ha hb hss, mDiff_div b a hb ha hss.symm, mDiff_swap a b, elem_swap C radial me a b ha hb hs hss 1 (by norm_num),
    map_mul, ← dipCoef_conj]
  push_cast
  rw [Complex.conj_ofReal]; ring

theorem cartQuad_herm (C : FieldConsts) (radial : RadKey → ℝ) (me : Method) (a b : QN) (ha : a.Physical) (hb : b.Physical)
    (hs : a.species = b.species) (hss : a.s = b.s) (j k : Fin 3) :
    cartQuad C radial me b a j k = (starRingEnd ℂ) (cartQuad C radial me a b j k) := by
  unfold cartQuad
  rw [mDiff_div a b ha hb hss, mDiff_div b a hb ha hss.symm, mDiff_swap a b, elem_swap C radial me a b ha hb hs hss 2 (by norm_num),
    map_mul, ← quadCoef_conj]
  push_cast
  rw [Complex.conj_ofReal]; ring

/-! ## C43 dipole-dipole interaction -/

/-- Specification: k (d₁·d₂ − 3 (d₁·n)(d₂·n)) / R³ for the distance vector R n = (x, y, z). -/
noncomputable def dipoleDipole (k x y z : ℝ) (D1 D2 : Fin 3 → ℂ) : ℂ :=
  let R : ℝ := Real.sqrt (x ^ 2 + y ^ 2 + z ^ 2)
  let n : Fin 3 → ℂ := fun i => ((![x / R, y / R, z / R] i : ℝ) : ℂ)
  (k : ℂ) / (R : ℂ) ^ 3 * (D1 0 * D2 0 + D1 1 * D2 1 + D1 2 * D2 2
    - 3 * (D1 0 * n 0 + D1 1 * n 1 + D1 2 * n 2) * (D2 0 * n 0 + D2 1 * n 1 + D2 2 * n 2))

theorem dipoleDipole_conj (k x y z : ℝ) (D1 D2 : Fin 3 → ℂ) :
    dipoleDipole k x y z (fun i => (starRingEnd ℂ) (D1 i)) (fun i => (starRingEnd ℂ) (D2 i)) = (starRingEnd ℂ) (dipoleDipole k x y z D1 D2) := by
  unfold dipoleDipole
  simp [Complex.conj_ofReal, Complex.conj_ofNat]

/-- The dipole-dipole element between two pair states. -/
noncomputable def ddPairSpec (C : FieldConsts) (radial : RadKey → ℝ) (me : Method) (p : PairParams) (a b : QN × QN) : ℂ :=
  dipoleDipole C.ke p.x p.y p.z (cartDip C radial me a.1 b.1) (cartDip C radial me a.2 b.2)

theorem ddPairSpec_herm (C : FieldConsts) (radial : RadKey → ℝ) (me : Method) (p : PairParams) (a b : QN × QN) (h : PairOK a b) :
    ddPairSpec C radial me p b a = (starRingEnd ℂ) (ddPairSpec C radial me p a b) := by
  unfold ddPairSpec
  rw [← dipoleDipole_conj]
  congr 1
  · funext i; exact cartDip_herm C radial me a.1 b.1 h.a1 h.b1 h.sp1 h.s1 i
  · funext i; exact cartDip_herm C radial me a.2 b.2 h.a2 h.b2 h.sp2 h.s2 i

theorem dip_zero {C : FieldConsts} {radial : RadKey → ℝ} {me : Method} {a b : QN} (h : elem C radial me 1 a b = 0) :
    cartDip C radial me a b = 0 := by
  funext i; simp [cartDip, h]

theorem dipoleDipole_zero1 (k x y z : ℝ) (D : Fin 3 → ℂ) : dipoleDipole k x y z 0 D = 0 := by simp [dipoleDipole]
theorem dipoleDipole_zero2 (k x y z : ℝ) (D : Fin 3 → ℂ) : dipoleDipole k x y z D 0 = 0 := by simp [dipoleDipole]

theorem q_cases (q : ℤ) (h : |q| ≤ 1) : q = -1 ∨ q = 0 ∨ q = 1 := by
  rw [abs_le] at h; omega

/-- No factor lies in (0, tolerance]. -/
def NoTinyTerm (v : ℝ) : Prop := v = 0 ∨ overTol v = true

theorem filterTol_sum {α : Type} (L : List α) (v : α → ℝ) (g : α → ℂ) (h : ∀ x ∈ L, NoTinyTerm (v x)) :
    ((L.filter fun x => overTol (v x)).map fun x => (v x : ℂ) * g x).sum = (L.map fun x => (v x : ℂ) * g x).sum := by
  induction L with
  | nil => rfl
  | cons a L ih =>
    have ih := ih fun x hx => h x (List.mem_cons_of_mem _ hx)
    rw [List.filter_cons]
    rcases h a List.mem_cons_self with h0 | h0
    · rw [List.map_cons, List.sum_cons, h0]
      split_ifs <;> simp [ih, h0]
    · rw [if_pos h0, List.map_cons, List.sum_cons, ih, List.map_cons, List.sum_cons]

theorem angleSum (a k d1 d2 : ℝ) (q1 q2 : ℤ) (h1 : |q1| ≤ 1) (h2 : |q2| ≤ 1) :
    ((angleTerms a).map fun t => (t.2 : ℂ) * (if angKey q1 q2 = t.1 then ((k * d1 * d2 : ℝ) : ℂ) else 0)).sum
    = k * (dipCoef 0 q1 * d1 * (dipCoef 0 q2 * d2) + dipCoef 1 q1 * d1 * (dipCoef 1 q2 * d2) + dipCoef 2 q1 * d1 * (dipCoef 2 q2 * d2)
      - 3 * (dipCoef 0 q1 * d1 * Real.sin a + dipCoef 2 q1 * d1 * Real.cos a) * (dipCoef 0 q2 * d2 * Real.sin a + dipCoef 2 q2 * d2 * Real.cos a)) := by
  have h0 := csqrt2_ne
  have hs := csqrt2_sq
  have hI := Complex.I_sq
  have hs' : ((Real.sqrt 2 : ℝ) : ℂ)⁻¹ * ((Real.sqrt 2 : ℝ) : ℂ)⁻¹ = 1 / 2 := by
    rw [← mul_inv, ← sq, hs]; norm_num
  rcases q_cases q1 h1 with rfl | rfl | rfl <;> rcases q_cases q2 h2 with rfl | rfl | rfl <;>
    simp [angleTerms, angKey, dipCoef] <;> field_simp <;> (try simp only [hs, hI]) <;> (try ring_nf) <;> (try simp only [hs, hI]) <;> (try ring)

/-! The terms of the three branches. -/

/-- The settings under which the angular dipole-dipole operators are used. -/
structure Tilted (p : PairParams) : Prop where
  dist : p.dist ≠ dblMax
  gt : p.gt = false
  y : p.y = 0
  surf : p.surf = dblMax
  x : p.x ≠ 0
  order : p.order ≤ 3

/-- The settings under which the multipole operators are used. -/
structure OnAxis (p : PairParams) : Prop where
  dist : p.dist ≠ dblMax
  gt : p.gt = false
  y : p.y = 0
  surf : p.surf = dblMax
  x : p.x = 0

/-- The settings under which the vacuum Green tensor is used. -/
structure GreenVac (p : PairParams) : Prop where
  dist : p.dist ≠ dblMax
  gt : p.gt = true
  surf : p.surf = dblMax
  order : p.order < 5

theorem pairTerms_tilted (p : PairParams) (h : Tilted p) :
    pairTerms p = ((angleTerms (atan2 p.x p.z)).filter fun t => overTol t.2).map fun t => (.ang t.1, t.2 * (1 / p.dist ^ 3)) := by
  have hg : ¬ p.greenBranch := by
    have h1 := h.order
    rintro (hc | hc | ⟨-, hc⟩ | hc)
    · exact hc h.y
    · exact hc h.surf
    · omega
    · rw [h.gt] at hc; simp at hc
  unfold pairTerms initPair addPair
  rw [if_neg h.dist, if_neg h.dist, if_neg hg, h.gt, if_neg (by simp), if_pos h.x, if_pos h.x]
  rfl

theorem pairTerms_axis (p : PairParams) (h : OnAxis p) :
    pairTerms p = (mulOrders p.order).map fun o => (.mul o, 1 / p.dist ^ o) := by
  unfold pairTerms addPair
  rw [if_neg h.dist, h.gt, if_neg (by simp), if_neg (by simp [h.x])]

theorem pairTerms_green (p : PairParams) (h : GreenVac p) :
    pairTerms p =
      (if p.order ≥ 3 then (ddTerms (ddVacuum p.x p.y p.z)).map fun t => (PKey.dd t.1, t.2) else []) ++
      (if p.order ≥ 4 then (dqTerms (dqVacuum p.x p.y p.z)).map fun t => (PKey.dq t.1, t.2) else []) ++
      (if p.order ≥ 4 then (dqTerms (qdVacuum p.x p.y p.z)).map fun t => (PKey.qd t.1, t.2) else []) := by
  have hg : p.greenBranch := Or.inr (Or.inr (Or.inr h.gt))
  have hgr : p.green = (.ok (), GT.new p.x p.y p.z) := by unfold PairParams.green; rw [if_neg (by simpa using h.surf)]
  have h5 := h.order
  unfold pairTerms initPair addPair
  rw [if_neg h.dist, if_neg h.dist, if_pos hg, if_pos h.gt, if_neg (by simp [h.gt]), if_neg (by simp [h.surf]), hgr]
  dsimp only
  rw [if_neg (by omega)]
  have e1 : (GT.new p.x p.y p.z).getDD.1 = ddVacuum p.x p.y p.z := rfl
  have e2 : (GT.new p.x p.y p.z).getDQ.1 = dqVacuum p.x p.y p.z := rfl
  have e3 : (GT.new p.x p.y p.z).getQD.1 = qdVacuum p.x p.y p.z := rfl
  rw [e1, e2, e3]
  by_cases h3 : p.order ≥ 3 <;> by_cases h4 : p.order ≥ 4 <;> simp [PairMaps.store, h3, h4]

theorem norm_zx (x z : ℝ) : ‖(⟨z, x⟩ : ℂ)‖ = Real.sqrt (x ^ 2 + 0 ^ 2 + z ^ 2) := by
  rw [Complex.norm_def, Complex.normSq_mk]
  congr 1; ring

theorem ang_total (C : FieldConsts) (radial : RadKey → ℝ) (me : Method) (p : PairParams) (h : Tilted p)
    (hd : p.dist = Real.sqrt (p.x ^ 2 + p.y ^ 2 + p.z ^ 2)) (ht : ∀ t ∈ angleTerms (atan2 p.x p.z), NoTinyTerm t.2)
    (a b : QN × QN) (ok : PairOK a b) : pairTotal C radial me p a b = ddPairSpec C radial me p a b := by
  unfold pairTotal
  rw [pairTerms_tilted p h, List.map_map]
  have e : ((fun t : PKey × ℝ => (t.2 : ℂ) * pairEntry C radial me t.1 a b) ∘ fun t : ℤ × ℝ => (PKey.ang t.1, t.2 * (1 / p.dist ^ 3)))
      = fun t => (t.2 : ℂ) * (((1 / p.dist ^ 3 : ℝ) : ℂ) * angEntry C radial me t.1 a b) := by
    funext t; simp only [Function.comp, pairEntry]; push_cast; ring
  rw [e, filterTol_sum _ (fun t : ℤ × ℝ => t.2) _ ht]
  by_cases s1 : selMultipole a.1 b.1 1 = true
  · by_cases s2 : selMultipole a.2 b.2 1 = true
    · have m1 := selMultipole_m a.1 b.1 ok.a1 ok.b1 ok.s1 1 s1
      have m2 := selMultipole_m a.2 b.2 ok.a2 ok.b2 ok.s2 1 s2
      have := angleSum (atan2 p.x p.z) C.ke (elem C radial me 1 a.1 b.1) (elem C radial me 1 a.2 b.2) _ _ m1 m2
      have e2 : ((angleTerms (atan2 p.x p.z)).map fun t => (t.2 : ℂ) * (((1 / p.dist ^ 3 : ℝ) : ℂ) * angEntry C radial me t.1 a b)).sum
          = ((1 / p.dist ^ 3 : ℝ) : ℂ) * ((angleTerms (atan2 p.x p.z)).map fun t => (t.2 : ℂ) *
            (if angKey (mDiff a.1 b.1) (mDiff a.2 b.2) = t.1 then ((C.ke * elem C radial me 1 a.1 b.1 * elem C radial me 1 a.2 b.2 : ℝ) : ℂ) else 0)).sum := by
        rw [← List.sum_map_mul_left]
        congr 1
        apply List.map_congr_left
        intro t _
        unfold angEntry
        rw [s1, s2]
        simp only [Bool.and_self, Bool.true_and, decide_eq_true_eq]
        ring
      rw [e2, this]
      have hne : (⟨p.z, p.x⟩ : ℂ) ≠ 0 := by
        intro hc
        exact h.x (congrArg Complex.im hc)
      have hc : Real.cos (atan2 p.x p.z) = p.z / p.dist := by
        unfold atan2
        rw [Complex.cos_arg hne, norm_zx, hd, h.y]
      have hsn : Real.sin (atan2 p.x p.z) = p.x / p.dist := by
        unfold atan2
        rw [Complex.sin_arg, norm_zx, hd, h.y]
      rw [hc, hsn]
      unfold ddPairSpec dipoleDipole cartDip
      rw [mDiff_div a.1 b.1 ok.a1 ok.b1 ok.s1, mDiff_div a.2 b.2 ok.a2 ok.b2 ok.s2, ← hd, h.y]
      simp only [Matrix.cons_val_zero, Matrix.cons_val_one, Matrix.cons_val, zero_div]
      push_cast
      ring
    · have z := elem_zero C radial me a.2 b.2 ok.a2 ok.b2 ok.sp2 ok.s2 1 (by norm_num) (by simpa using s2)
      unfold ddPairSpec
      rw [dip_zero z, dipoleDipole_zero2]
      apply List.sum_eq_zero
      intro x hx
      obtain ⟨t, -, rfl⟩ := List.mem_map.mp hx
      simp [angEntry, s2]
  · have z := elem_zero C radial me a.1 b.1 ok.a1 ok.b1 ok.sp1 ok.s1 1 (by norm_num) (by simpa using s1)
    unfold ddPairSpec
    rw [dip_zero z, dipoleDipole_zero1]
    apply List.sum_eq_zero
    intro x hx
    obtain ⟨t, -, rfl⟩ := List.mem_map.mp hx
    simp [angEntry, s1]

theorem vecEntry_spec (i : Fin 3) (q : ℤ) (d : ℝ) (hq : |q| ≤ 1) :
    (((vecEntry i q d).getD 0 : ℝ) : ℂ) * (if i = 1 then Complex.I else 1) = dipCoef i q * d := by
  rcases q_cases q hq with rfl | rfl | rfl <;> fin_cases i <;> simp [vecEntry, dipCoef] <;> ring

theorem ddEntry_spec (C : FieldConsts) (radial : RadKey → ℝ) (me : Method) (i : Fin 3 × Fin 3) (a b : QN × QN) (ok : PairOK a b) :
    ddEntry C radial me i a b = -(C.ke : ℂ) * cartDip C radial me a.1 b.1 i.1 * cartDip C radial me a.2 b.2 i.2 := by
  unfold ddEntry
  by_cases s1 : selMultipole a.1 b.1 1 = true
  · by_cases s2 : selMultipole a.2 b.2 1 = true
    · have m1 := selMultipole_m a.1 b.1 ok.a1 ok.b1 ok.s1 1 s1
      have m2 := selMultipole_m a.2 b.2 ok.a2 ok.b2 ok.s2 1 s2
      rw [s1, s2]
      have v1 := vecEntry_spec i.1 _ (elem C radial me 1 a.1 b.1) m1
      have v2 := vecEntry_spec i.2 _ (elem C radial me 1 a.2 b.2) m2
      unfold cartDip
      rw [mDiff_div a.1 b.1 ok.a1 ok.b1 ok.s1, mDiff_div a.2 b.2 ok.a2 ok.b2 ok.s2]
      simp only [Bool.and_self, if_true]
      rw [← v1, ← v2]
      cases e1 : vecEntry i.1 (mDiff a.1 b.1) (elem C radial me 1 a.1 b.1) with
      | none => simp
      | some w1 =>
        cases e2 : vecEntry i.2 (mDiff a.2 b.2) (elem C radial me 1 a.2 b.2) with
        | none => simp
        | some w2 =>
          obtain ⟨i1, i2⟩ := i
          dsimp only
          clear v1 v2 e1 e2
          have hI : Complex.I * Complex.I = -1 := Complex.I_mul_I
          fin_cases i1 <;> fin_cases i2 <;> simp [key2] <;>
            first
            | done
            | (rw [show (C.ke : ℂ) * (w1 * Complex.I) * (w2 * Complex.I) = C.ke * w1 * w2 * (Complex.I * Complex.I) by ring, hI]; ring)
            | ring
    · have z := elem_zero C radial me a.2 b.2 ok.a2 ok.b2 ok.sp2 ok.s2 1 (by norm_num) (by simpa using s2)
      simp [s2, dip_zero z]
  · have z := elem_zero C radial me a.1 b.1 ok.a1 ok.b1 ok.sp1 ok.s1 1 (by norm_num) (by simpa using s1)
    simp [s1, dip_zero z]

theorem unkey2_key2 (i : Fin 3 × Fin 3) : unkey2 (key2 i) = i := by
  revert i; decide

theorem unkey3_key3 (i : Fin 3 × Fin 3 × Fin 3) : unkey3 (key3 i) = i := by
  revert i; decide

theorem idx2_sum (f : Fin 3 → Fin 3 → ℂ) : (idx2.map fun i => f i.1 i.2).sum = ∑ i, ∑ j, f i j := by
  simp [idx2, List.finRange_succ, Fin.sum_univ_three]
  ring

theorem idx3_sum (f : Fin 3 → Fin 3 → Fin 3 → ℂ) : (idx3.map fun i => f i.1 i.2.1 i.2.2).sum = ∑ i, ∑ j, ∑ k, f i j k := by
  simp [idx3, List.finRange_succ, Fin.sum_univ_three]
  ring

/-- The dipole-dipole terms of an arbitrary Green tensor. -/
theorem ddTerms_total (C : FieldConsts) (radial : RadKey → ℝ) (me : Method) (G : Fin 3 → Fin 3 → ℝ) (hG : ∀ i j, NoTinyTerm (G i j))
    (a b : QN × QN) (ok : PairOK a b) :
    (((ddTerms G).map fun t => (PKey.dd t.1, t.2)).map fun t => (t.2 : ℂ) * pairEntry C radial me t.1 a b).sum
      = -(C.ke : ℂ) * ∑ i, ∑ j, (G i j : ℂ) * cartDip C radial me a.1 b.1 i * cartDip C radial me a.2 b.2 j := by
  unfold ddTerms
  rw [List.map_map, List.map_map]
  have e : (((fun t : PKey × ℝ => (t.2 : ℂ) * pairEntry C radial me t.1 a b) ∘ fun t : ℕ × ℝ => (PKey.dd t.1, t.2)) ∘
      fun i : Fin 3 × Fin 3 => (key2 i, G i.1 i.2)) = fun i => (G i.1 i.2 : ℂ) * ddEntry C radial me i a b := by
    funext i; simp only [Function.comp, pairEntry, unkey2_key2]
  rw [e, filterTol_sum idx2 (fun i => G i.1 i.2) _ (fun i _ => hG i.1 i.2)]
  simp only [ddEntry_spec C radial me _ a b ok]
  rw [idx2_sum fun i j => (G i j : ℂ) * (-(C.ke : ℂ) * cartDip C radial me a.1 b.1 i * cartDip C radial me a.2 b.2 j)]
  simp only [Finset.mul_sum]
  refine Finset.sum_congr rfl fun i _ => Finset.sum_congr rfl fun j _ => by ring

theorem norm3_eq (x y z : ℝ) : norm3 ![x, y, z] = Real.sqrt (x ^ 2 + y ^ 2 + z ^ 2) := by
  unfold norm3; congr 1; simp; ring

theorem dd_vacuum_total (k x y z : ℝ) (h : x ≠ 0 ∨ y ≠ 0 ∨ z ≠ 0) (D1 D2 : Fin 3 → ℂ) :
    -(k : ℂ) * ∑ i, ∑ j, (ddVacuum x y z i j : ℂ) * D1 i * D2 j = dipoleDipole k x y z D1 D2 := by
  have hR : Real.sqrt (x ^ 2 + y ^ 2 + z ^ 2) ≠ 0 := by
    apply (Real.sqrt_pos.mpr _).ne'
    rcases h with h | h | h <;> positivity
  unfold ddVacuum dipoleDipole
  simp only [norm3_eq]
  set R := Real.sqrt (x ^ 2 + y ^ 2 + z ^ 2)
  have hRc : (R : ℂ) ≠ 0 := by exact_mod_cast hR
  simp only [Fin.sum_univ_three, eye, Matrix.cons_val_zero, Matrix.cons_val_one, Matrix.cons_val, Fin.reduceEq, if_true, if_false]
  push_cast
  field_simp
  ring

theorem green_total (C : FieldConsts) (radial : RadKey → ℝ) (me : Method) (p : PairParams) (h : GreenVac p) (h3 : p.order = 3)
    (hr : p.x ≠ 0 ∨ p.y ≠ 0 ∨ p.z ≠ 0) (ht : ∀ i j, NoTinyTerm (ddVacuum p.x p.y p.z i j))
    (a b : QN × QN) (ok : PairOK a b) : pairTotal C radial me p a b = ddPairSpec C radial me p a b := by
  unfold pairTotal
  rw [pairTerms_green p h, if_pos (by omega), if_neg (by omega), if_neg (by omega), List.append_nil, List.append_nil,
    ddTerms_total C radial me _ ht a b ok, dd_vacuum_total _ _ _ _ hr]
  rfl

theorem mulEntry_order3 (C : FieldConsts) (radial : RadKey → ℝ) (me : Method) (a b : QN × QN) (ok : PairOK a b) :
    mulEntry C radial me 3 a b = C.ke * (cartDip C radial me a.1 b.1 0 * cartDip C radial me a.2 b.2 0
      + cartDip C radial me a.1 b.1 1 * cartDip C radial me a.2 b.2 1 - 2 * (cartDip C radial me a.1 b.1 2 * cartDip C radial me a.2 b.2 2)) := by
  unfold mulEntry
  simp only [show 3 - 2 = 1 from rfl, List.range_one, List.map_cons, List.map_nil, List.sum_cons, List.sum_nil, add_zero, mulTerm,
    Nat.cast_zero, zero_add]
  norm_num only
  by_cases s1 : selMultipole a.1 b.1 1 = true
  · by_cases s2 : selMultipole a.2 b.2 1 = true
    · have m1 := selMultipole_m a.1 b.1 ok.a1 ok.b1 ok.s1 1 s1
      have m2 := selMultipole_m a.2 b.2 ok.a2 ok.b2 ok.s2 1 s2
      rw [s1, s2]
      unfold cartDip
      rw [mDiff_div a.1 b.1 ok.a1 ok.b1 ok.s1, mDiff_div a.2 b.2 ok.a2 ok.b2 ok.s2]
      have h0 := csqrt2_ne
      have hs := csqrt2_sq
      have hI := Complex.I_sq
      have s4 : Real.sqrt (2 * 2) = 2 := by rw [show (2 * 2 : ℝ) = 2 ^ 2 by norm_num]; exact Real.sqrt_sq (by norm_num)
      rcases q_cases _ m1 with e1 | e1 | e1 <;> rcases q_cases _ m2 with e2 | e2 | e2 <;> rw [e1, e2] <;>
        simp [dipCoef, binom, sgn, Nat.choose, s4] <;> field_simp <;> (try simp only [hs, hI]) <;> (try ring) <;> (try simp)
    · have z := elem_zero C radial me a.2 b.2 ok.a2 ok.b2 ok.sp2 ok.s2 1 (by norm_num) (by simpa using s2)
      simp [s2, dip_zero z]
  · have z := elem_zero C radial me a.1 b.1 ok.a1 ok.b1 ok.sp1 ok.s1 1 (by norm_num) (by simpa using s1)
    simp [s1, dip_zero z]

theorem axis_total (C : FieldConsts) (radial : RadKey → ℝ) (me : Method) (p : PairParams) (h : OnAxis p) (h3 : p.order = 3)
    (hz : p.z ≠ 0) (hd : p.dist = Real.sqrt (p.x ^ 2 + p.y ^ 2 + p.z ^ 2))
    (a b : QN × QN) (ok : PairOK a b) : pairTotal C radial me p a b = ddPairSpec C radial me p a b := by
  unfold pairTotal
  rw [pairTerms_axis p h, h3]
  simp only [mulOrders, show 3 - 2 = 1 from rfl, List.range_one, List.map_cons, List.map_nil, zero_add, List.sum_cons, List.sum_nil, add_zero, pairEntry]
  rw [mulEntry_order3 C radial me a b ok]
  unfold ddPairSpec dipoleDipole
  rw [← hd, h.x, h.y]
  have hdn : p.dist ≠ 0 := by
    rw [hd, h.x, h.y]
    exact (Real.sqrt_pos.mpr (by positivity)).ne'
  have hzz : (p.z : ℂ) ^ 2 = (p.dist : ℂ) ^ 2 := by
    rw [← Complex.ofReal_pow, ← Complex.ofReal_pow, hd, h.x, h.y, Real.sq_sqrt (by positivity)]; simp
  have hc : (p.dist : ℂ) ≠ 0 := by exact_mod_cast hdn
  simp only [Matrix.cons_val_zero, Matrix.cons_val_one, Matrix.cons_val, zero_div]
  push_cast
  field_simp
  linear_combination (3 * (C.ke : ℂ) * cartDip C radial me a.1 b.1 2 * cartDip C radial me a.2 b.2 2) * hzz

/-- **C43.** For every distance vector in the xz-plane that is not along z, with order at most 3 and without Green tensor: between any two pair states, in both triangles, the
interaction that is added is k (d₁·d₂ − 3 (d₁·n)(d₂·n)) / R³ (no factor between 0 and the tolerance 1e-16). -/
theorem C43_angular (C : FieldConsts) (radial : RadKey → ℝ) (me : Method) (st : Fin N → Option (QN × QN)) (hst : GoodPairs st)
    (p : PairParams) (h : Tilted p) (hd : p.dist = Real.sqrt (p.x ^ 2 + p.y ^ 2 + p.z ^ 2))
    (ht : ∀ t ∈ angleTerms (atan2 p.x p.z), NoTinyTerm t.2) (r c : Fin N) :
    pairH C radial me st p r c = match st r, st c with
      | some a, some b => dipoleDipole C.ke p.x p.y p.z (cartDip C radial me a.1 b.1) (cartDip C radial me a.2 b.2)
      | _, _ => 0 :=
  pairH_eq C radial me st hst p (ddPairSpec C radial me p) (ang_total C radial me p h hd ht) (ddPairSpec_herm C radial me p) r c

/-- **C43.** The special case used for atoms along z (multipole operator of order 3) gives the same formula. -/
theorem C43_axis (C : FieldConsts) (radial : RadKey → ℝ) (me : Method) (st : Fin N → Option (QN × QN)) (hst : GoodPairs st)
    (p : PairParams) (h : OnAxis p) (h3 : p.order = 3) (hz : p.z ≠ 0) (hd : p.dist = Real.sqrt (p.x ^ 2 + p.y ^ 2 + p.z ^ 2)) (r c : Fin N) :
    pairH C radial me st p r c = match st r, st c with
      | some a, some b => dipoleDipole C.ke p.x p.y p.z (cartDip C radial me a.1 b.1) (cartDip C radial me a.2 b.2)
      | _, _ => 0 :=
  pairH_eq C radial me st hst p (ddPairSpec C radial me p) (axis_total C radial me p h h3 hz hd) (ddPairSpec_herm C radial me p) r c

/-- **C43.** So does the Green tensor approach in vacuum, for every distance vector. -/
theorem C43_green (C : FieldConsts) (radial : RadKey → ℝ) (me : Method) (st : Fin N → Option (QN × QN)) (hst : GoodPairs st)
    (p : PairParams) (h : GreenVac p) (h3 : p.order = 3) (hr : p.x ≠ 0 ∨ p.y ≠ 0 ∨ p.z ≠ 0)
    (ht : ∀ i j, NoTinyTerm (ddVacuum p.x p.y p.z i j)) (r c : Fin N) :
    pairH C radial me st p r c = match st r, st c with
      | some a, some b => dipoleDipole C.ke p.x p.y p.z (cartDip C radial me a.1 b.1) (cartDip C radial me a.2 b.2)
      | _, _ => 0 :=
  pairH_eq C radial me st hst p (ddPairSpec C radial me p) (green_total C radial me p h h3 hr ht) (ddPairSpec_herm C radial me p) r c

/-- **C43.** The formula, and with it the interaction, does not change when the atoms are exchanged or the distance vector is reversed. -/
theorem C43_exchange (k x y z : ℝ) (D1 D2 : Fin 3 → ℂ) :
    dipoleDipole k x y z D1 D2 = dipoleDipole k x y z D2 D1 ∧ dipoleDipole k (-x) (-y) (-z) D1 D2 = dipoleDipole k x y z D1 D2 := by
  unfold dipoleDipole
  constructor
  · dsimp only; ring
  · simp only [neg_sq, Matrix.cons_val_zero, Matrix.cons_val_one, Matrix.cons_val, neg_div, Complex.ofReal_neg]
    ring

/-- **C43.** The factor stored for each of the six keys is the spherical component of 1 − 3 n nᵀ at that angle: for all components q₁, q₂ of two dipoles,
the sum over the keys picks Σ_ij (δ_ij − 3 n_i n_j) e_i(q₁) e_j(q₂), n = (sin θ, 0, cos θ). -/
theorem C43_angle_terms (a : ℝ) (q1 q2 : ℤ) (h1 : |q1| ≤ 1) (h2 : |q2| ≤ 1) :
    ((angleTerms a).map fun t => if angKey q1 q2 = t.1 then (t.2 : ℂ) else 0).sum
      = ∑ i, ∑ j, ((if i = j then 1 else 0) - 3 * ((![Real.sin a, 0, Real.cos a] i : ℝ) : ℂ) * ((![Real.sin a, 0, Real.cos a] j : ℝ) : ℂ))
          * dipCoef i q1 * dipCoef j q2 := by
  have := angleSum a 1 1 1 q1 q2 h1 h2
  have e : ((angleTerms a).map fun t => if angKey q1 q2 = t.1 then (t.2 : ℂ) else 0)
      = (angleTerms a).map fun t => (t.2 : ℂ) * (if angKey q1 q2 = t.1 then ((1 * 1 * 1 : ℝ) : ℂ) else 0) := by
    apply List.map_congr_left
    intro t _
    split_ifs <;> simp
  rw [e, this]
  simp only [Fin.sum_univ_three, Matrix.cons_val_zero, Matrix.cons_val_one, Matrix.cons_val, Fin.reduceEq, if_true, if_false]
  push_cast
  ring

/-! Non-vacuity. -/

theorem dblMax_big : (100 : ℝ) < dblMax := by
  unfold dblMax
  have h1 : (2⁻¹ : ℝ) ^ 52 ≤ 1 := pow_le_one₀ (by norm_num) (by norm_num)
  have h2 : (128 : ℝ) ≤ 2 ^ 1023 := by
    have : (2 : ℝ) ^ 7 ≤ 2 ^ 1023 := pow_le_pow_right₀ (by norm_num) (by norm_num)
    rwa [show (2 : ℝ) ^ 7 = 128 by norm_num] at this
  generalize (2⁻¹ : ℝ) ^ 52 = u at h1 ⊢
  generalize (2 : ℝ) ^ 1023 = v at h2 ⊢
  nlinarith

/-- The settings after `setDistanceVector({3, 0, 4})`. -/
noncomputable def tiltedEx : PairParams := PairParams.fresh.setVector ![3, 0, 4]

theorem sqrt25 : Real.sqrt 25 = 5 := by rw [show (25 : ℝ) = 5 ^ 2 by norm_num]; exact Real.sqrt_sq (by norm_num)

theorem tiltedEx_dist : tiltedEx.dist = 5 := by
  simp [tiltedEx, PairParams.setVector]
  rw [show (3 * 3 + 4 * 4 : ℝ) = 25 by norm_num, sqrt25]

theorem tiltedEx_angle : Real.cos (atan2 tiltedEx.x tiltedEx.z) = 4 / 5 ∧ Real.sin (atan2 tiltedEx.x tiltedEx.z) = 3 / 5 := by
  have hx : tiltedEx.x = 3 := by simp [tiltedEx, PairParams.setVector]
  have hz : tiltedEx.z = 4 := by simp [tiltedEx, PairParams.setVector]
  have hn : ‖(⟨4, 3⟩ : ℂ)‖ = 5 := by rw [norm_zx, show (3 ^ 2 + 0 ^ 2 + 4 ^ 2 : ℝ) = 25 by norm_num, sqrt25]
  have hne : (⟨4, 3⟩ : ℂ) ≠ 0 := by
    intro hc; have := congrArg Complex.im hc; simp at this
  unfold atan2
  rw [hx, hz, Complex.cos_arg hne, Complex.sin_arg, hn]
  exact ⟨rfl, rfl⟩

theorem fsqrt2_bounds : 1 ≤ Real.sqrt 2 ∧ Real.sqrt 2 ≤ 2 := by
  constructor
  · rw [Real.le_sqrt (by norm_num) (by norm_num)]; norm_num
  · rw [Real.sqrt_le_left (by norm_num)]; norm_num

theorem tiltedEx_noTiny : ∀ t ∈ angleTerms (atan2 tiltedEx.x tiltedEx.z), NoTinyTerm t.2 := by
  obtain ⟨hc, hs⟩ := tiltedEx_angle
  intro t ht
  right
  unfold angleTerms at ht
  rw [hc, hs] at ht
  obtain ⟨b1, b2⟩ := fsqrt2_bounds
  have b3 : (36 / 50 : ℝ) ≤ 3 / Real.sqrt 2 * (3 / 5) * (4 / 5) := by
    rw [div_mul_eq_mul_div, div_mul_eq_mul_div, le_div_iff₀ (by linarith)]
    linarith
  simp only [List.mem_cons, List.not_mem_nil, or_false] at ht
  unfold overTol
  rw [decide_eq_true_eq]
  rcases ht with rfl | rfl | rfl | rfl | rfl | rfl
  · rw [gt_iff_lt, lt_abs]; right; norm_num
  · rw [gt_iff_lt, lt_abs]; right; norm_num
  · rw [gt_iff_lt, lt_abs]; left
    show (1e-16 : ℝ) < 3 / Real.sqrt 2 * (3 / 5) * (4 / 5)
    refine lt_of_lt_of_le ?_ b3; norm_num
  · rw [gt_iff_lt, lt_abs]; right
    show (1e-16 : ℝ) < -(-3 / Real.sqrt 2 * (3 / 5) * (4 / 5))
    have : -(-3 / Real.sqrt 2 * (3 / 5) * (4 / 5)) = 3 / Real.sqrt 2 * (3 / 5) * (4 / 5) := by ring
    rw [this]
    refine lt_of_lt_of_le ?_ b3; norm_num
  · rw [gt_iff_lt, lt_abs]; right; norm_num
  · rw [gt_iff_lt, lt_abs]; right; norm_num

/-- Two pair states: sp and ps. -/
def stEx : Fin 2 → Option (QN × QN) := ![some (qnS, qnP), some (qnP, qnS)]

theorem stEx_good : GoodPairs stEx := by
  intro i a ha
  have hs : qnS.Physical := by norm_num [QN.Physical, qnS]
  have hp : qnP.Physical := by norm_num [QN.Physical, qnP]
  fin_cases i <;> simp [stEx] at ha <;> subst ha
  all_goals
    refine ⟨by assumption, by assumption, ?_⟩
    intro j b hb
    fin_cases j <;> simp [stEx] at hb <;> subst hb <;> refine ⟨rfl, rfl, rfl, rfl⟩

theorem tiltedEx_tilted : Tilted tiltedEx := by
  refine ⟨?_, ?_, ?_, ?_, ?_, ?_⟩
  · rw [tiltedEx_dist]; have := dblMax_big; linarith
  · simp [tiltedEx, PairParams.setVector, PairParams.fresh]
  · simp [tiltedEx, PairParams.setVector]
  · simp [tiltedEx, PairParams.setVector, PairParams.fresh]
  · simp [tiltedEx, PairParams.setVector]
  · simp [tiltedEx, PairParams.setVector, PairParams.fresh]

example (C : FieldConsts) (radial : RadKey → ℝ) (me : Method) (r c : Fin 2) :=
  C43_angular C radial me stEx stEx_good tiltedEx tiltedEx_tilted
    (by rw [tiltedEx_dist]; simp [tiltedEx, PairParams.setVector]
        rw [show (3 ^ 2 + 4 ^ 2 : ℝ) = 25 by norm_num, sqrt25]) tiltedEx_noTiny r c

example (C : FieldConsts) (radial : RadKey → ℝ) (me : Method) (r c : Fin 2) :=
  C43_axis C radial me stEx stEx_good ⟨0, 0, 5, 5, false, dblMax, 3⟩
    ⟨by have := dblMax_big; intro h; dsimp only at h; linarith, rfl, rfl, rfl, rfl⟩ rfl (by norm_num)
    (by norm_num; rw [sqrt25]) r c


theorem norm3_034 : norm3 ![0, 3, 4] = 5 := by
  rw [norm3_eq, show (0 ^ 2 + 3 ^ 2 + 4 ^ 2 : ℝ) = 25 by norm_num, sqrt25]

theorem noTiny_034 (i j : Fin 3) : NoTinyTerm (ddVacuum 0 3 4 i j) := by
  unfold NoTinyTerm overTol
  rw [decide_eq_true_eq, gt_iff_lt, lt_abs]
  unfold ddVacuum
  dsimp only
  rw [norm3_034]
  fin_cases i <;> fin_cases j <;> norm_num [eye]

example (C : FieldConsts) (radial : RadKey → ℝ) (me : Method) (r c : Fin 2) :=
  C43_green C radial me stEx stEx_good ⟨0, 3, 4, 5, true, dblMax, 3⟩
    ⟨by have := dblMax_big; intro h; dsimp only at h; linarith, rfl, rfl, by norm_num⟩ rfl (by norm_num) noTiny_034 r c

end PI
