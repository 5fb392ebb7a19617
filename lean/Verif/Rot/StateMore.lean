import Verif.Rot.PairState
import Mathlib.Analysis.Real.Pi.Bounds

/-!
# C78: composition, identity, inverse, the real type, overlaps with rotated states, limits
-/

namespace PI

open Matrix

variable {N : ℕ}

/-! ## Composition -/

theorem rotSymMat_mul (st : Fin N → Option QN) (hst : RotStates st) (hz : AllZeeman st) (g h : M2) :
    rotSymMat st g * rotSymMat st h = rotSymMat st (h.mul g) := by
  ext r c
  rw [Matrix.mul_apply]
  obtain ⟨a, ha⟩ := hst.all r
  obtain ⟨b, hb⟩ := hst.all c
  obtain ⟨a0, a1, am⟩ := hst.isM r a ha
  obtain ⟨b0, b1, bm⟩ := hst.isM c b hb
  have e : ∀ k, rotSymMat st g r k * rotSymMat st h k c = (match st k with
      | some d => if d = { a with m := d.m } then g.sym a.j.toNat a.idx d.idx * rotSym h d b else 0
      | none => 0) := by
    intro k
    unfold rotSymMat
    rw [ha, hb]
    cases hk : st k with
    | none => simp
    | some d =>
      dsimp only
      by_cases h' : d = { a with m := d.m }
      · rw [if_pos h']
        have e1 : rotSym g a d = g.sym a.j.toNat a.idx d.idx := by
          unfold rotSym; rw [if_pos (same_level_symm h')]
          have : d.j = a.j := by rw [h']
          rw [this]
        rw [e1]
      · rw [if_neg h']
        have : rotSym g a d = 0 := by unfold rotSym; rw [if_neg fun h2 => h' (same_level_symm h2)]
        rw [this, zero_mul]
  refine Eq.trans (Finset.sum_congr rfl fun k _ => (e k).trans ?_) ((sum_multiplet st hst hz r a ha fun d => g.sym a.j.toNat a.idx d.idx * rotSym h d b).trans ?_)
  · cases st k <;> rfl
  simp only [idx_level]
  have rhs : rotSymMat st (h.mul g) r c = rotSym (h.mul g) a b := by unfold rotSymMat; rw [ha, hb]
  rw [rhs]
  by_cases hab : a = { b with m := a.m }
  · have hj : a.j = b.j := by rw [hab]
    rw [Finset.sum_congr rfl fun l _ => by rw [rotSym_level h a b hab l]]
    rw [sym_mul g h a.j.toNat a.idx b.idx (by rw [hj]; exact (QN.idx_spec b0 bm).1)]
    unfold rotSym
    rw [if_pos hab, hj]
  · have : rotSym (h.mul g) a b = 0 := by unfold rotSym; rw [if_neg hab]
    rw [this]
    exact Finset.sum_eq_zero fun l _ => by rw [rotSym_level_ne h a b hab, mul_zero]

theorem rotSymMat_one (st : Fin N → Option QN) (hst : RotStates st) : rotSymMat st ⟨1, 0, 0, 1⟩ = 1 := by
  ext r c
  obtain ⟨a, ha⟩ := hst.all r
  obtain ⟨b, hb⟩ := hst.all c
  obtain ⟨a0, a1, am⟩ := hst.isM r a ha
  obtain ⟨b0, b1, bm⟩ := hst.isM c b hb
  have lhs : rotSymMat st ⟨1, 0, 0, 1⟩ r c = rotSym ⟨1, 0, 0, 1⟩ a b := by unfold rotSymMat; rw [ha, hb]
  rw [lhs]
  unfold rotSym
  by_cases hrc : r = c
  · subst hrc
    rw [ha, Option.some.injEq] at hb
    subst hb
    rw [if_pos rfl, sym_diag 1 1 _ _ _ (QN.idx_spec a0 am).1]
    simp
  · rw [Matrix.one_apply_ne hrc]
    by_cases hab : a = { b with m := a.m }
    · rw [if_pos hab, sym_diag 1 1 _ _ _ (QN.idx_spec b0 bm).1, if_neg]
      intro h
      exact hrc (hst.inj r c (by rw [ha, hb, idx_inj a0 am bm hab h]))
    · rw [if_neg hab]

theorem ePh_neg (θ : ℝ) : ePh (-θ) = fPh θ := by
  unfold ePh fPh
  congr 1
  push_cast; ring

theorem fPh_neg (θ : ℝ) : fPh (-θ) = ePh θ := by
  unfold ePh fPh
  congr 1
  push_cast; ring

theorem ePh_zero : ePh 0 = 1 := by unfold ePh; simp
theorem fPh_zero : fPh 0 = 1 := by unfold fPh; simp

theorem M2.mul_assoc (a b c : M2) : (a.mul b).mul c = a.mul (b.mul c) := by
  unfold M2.mul
  rw [M2.mk.injEq]
  refine ⟨by ring, by ring, by ring, by ring⟩

theorem M2.one_mul (a : M2) : (⟨1, 0, 0, 1⟩ : M2).mul a = a := by
  unfold M2.mul; simp

theorem rotZ2_add (x y : ℝ) : (rotZ2 x).mul (rotZ2 y) = rotZ2 (x + y) := by
  unfold rotZ2 M2.mul
  simp only [mul_zero, zero_mul, add_zero, zero_add, M2.mk.injEq, and_true, true_and]
  unfold ePh fPh
  rw [← Complex.exp_add, ← Complex.exp_add]
  constructor <;> · congr 1; push_cast; ring

theorem rotZ2_zero : rotZ2 0 = ⟨1, 0, 0, 1⟩ := by unfold rotZ2; rw [ePh_zero, fPh_zero]

theorem euler2_inv (α β γ : ℝ) : (euler2 (-γ) (-β) (-α)).mul (euler2 α β γ) = ⟨1, 0, 0, 1⟩ := by
  unfold euler2
  rw [M2.mul_assoc, M2.mul_assoc, ← M2.mul_assoc (rotZ2 (-γ)), rotZ2_add, neg_add_cancel, rotZ2_zero, M2.one_mul,
    ← M2.mul_assoc (rotY (-β)), ← rotY_add, add_neg_cancel, rotY_zero, M2.one_mul, rotZ2_add, neg_add_cancel, rotZ2_zero]

/-- The angle is not so close to π/2 that the code replaces it. -/
def PlainAngle (x : ℝ) : Prop := |x - Real.pi / 2| < 1e-16 → x = Real.pi / 2

theorem rotator1_plain (st : Fin N → Option QN) (hst : RotStates st) (α β γ : ℝ) (hp : PlainAngle (-β)) :
    rotator1 false st α β γ = .ok (rotSymMat st (euler2 (-γ) (-β) (-α))) := by
  obtain ⟨β', h1, h2⟩ := rotator1_sym st hst α β γ
  rcases h1 with rfl | ⟨rfl, h3⟩
  · exact h2
  · rw [hp h3]; exact h2

/-- **C78**: rotation by zero angles changes nothing, for every set of states. -/
theorem C78_identity (st : Fin N → Option QN) (hst : RotStates st) : rotator1 false st 0 0 0 = .ok 1 := by
  rw [rotator1_plain st hst 0 0 0, ← rotSymMat_one st hst]
  · unfold euler2
    rw [neg_zero, rotZ2_zero, rotY_zero, M2.one_mul, M2.one_mul]
  · intro h
    rw [neg_zero, zero_sub, abs_neg, abs_of_pos (by positivity)] at h
    have := Real.pi_gt_three
    norm_num at h
    linarith

/-- **C78**: the rotation by (−γ, −β, −α) undoes the rotation by (α, β, γ). -/
theorem C78_inverse (st : Fin N → Option QN) (hst : RotStates st) (hz : AllZeeman st) (α β γ : ℝ) (h1 : PlainAngle β) (h2 : PlainAngle (-β)) :
    ∃ M M', rotator1 false st α β γ = .ok M ∧ rotator1 false st (-γ) (-β) (-α) = .ok M' ∧ M' * M = 1 := by
  refine ⟨_, _, rotator1_plain st hst α β γ h2, rotator1_plain st hst (-γ) (-β) (-α) (by rw [neg_neg]; exact h1), ?_⟩
  rw [rotSymMat_mul st hst hz, neg_neg, neg_neg, neg_neg, euler2_inv, rotSymMat_one st hst]

/-! ## The real type and artificial states -/

/-- **C78**: a system with at least one state of the real type refuses all angles α, γ that are not multiples of 2π, instead of
dropping the imaginary part. -/
theorem C78_real_rejects (st : Fin N → Option QN) (α β γ : ℝ) (hN : 0 < N) (h : badAngle α ∨ badAngle γ) : rotator1 true st α β γ = .throw := by
  obtain ⟨M, rfl⟩ : ∃ M, N = M + 1 := ⟨N - 1, by omega⟩
  have e : ∀ s, addRotated1 true st α β γ s = .throw := by
    intro s
    unfold addRotated1
    by_cases h1 : badAngle α
    · rw [if_pos ⟨rfl, h1⟩]
    · rw [if_neg fun h' => h1 h'.2, if_pos ⟨rfl, h.resolve_left h1⟩]
  unfold rotator1 staterotator rotateCols
  rw [List.ofFn_succ]
  unfold mapOut
  rw [e]; rfl

theorem cos_sin_real (m k : ℤ) (x : ℝ) (hx : x = 2 * Real.pi * k) : ∃ y : ℝ, (⟨Real.cos (-((m : ℝ) / 2) * (-x)), Real.sin (-((m : ℝ) / 2) * (-x))⟩ : ℂ) = y := by
  refine ⟨Real.cos (-((m : ℝ) / 2) * (-x)), Complex.ext rfl ?_⟩
  dsimp only
  rw [Complex.ofReal_im]
  have : -((m : ℝ) / 2) * (-x) = ((m * k : ℤ) : ℝ) * Real.pi := by rw [hx]; push_cast; ring
  rw [this, Real.sin_int_mul_pi]

/-- **C78**: if α and γ are multiples of 2π, the real type performs the same rotation as the complex type. -/
theorem C78_real_exact (st : Fin N → Option QN) (hst : RotStates st) (α β γ : ℝ) (k l : ℤ) (ha : α = 2 * Real.pi * k) (hg : γ = 2 * Real.pi * l) :
    ∃ M, rotator1 true st α β γ = .ok M ∧ rotator1 false st α β γ = .ok M := by
  have good : ∀ (x : ℝ) (k : ℤ), x = 2 * Real.pi * k → ¬ badAngle x := by
    intro x k hx
    unfold badAngle
    have hp : 2 * Real.pi ≠ 0 := by positivity
    rw [hx, mul_div_cancel_left₀ _ hp, round_intCast, sub_self, abs_zero]
    norm_num
  obtain ⟨M, h1, h2⟩ := C78_elements true st hst α β γ (fun _ => ⟨good α k ha, good γ l hg⟩)
  obtain ⟨M', h3, h4⟩ := C78_elements false st hst α β γ (by simp)
  refine ⟨M, h1, ?_⟩
  rw [h3]
  congr 1
  funext r c
  obtain ⟨a, ha'⟩ := hst.all r
  obtain ⟨b, hb'⟩ := hst.all c
  rw [h2 r c a b ha' hb', h4 r c a b ha' hb']
  have : ∃ y : ℝ, rotElem α β γ a b = y := by
    unfold rotElem
    by_cases h : a = { b with m := a.m }
    · rw [if_pos h]
      unfold wignerD
      cases wignerd b.j a.m b.m (-β) with
      | ub => exact ⟨0, by simp [retVal]⟩
      | throw => exact ⟨0, by simp [retVal]⟩
      | ok d =>
        obtain ⟨y1, e1⟩ := cos_sin_real a.m l γ hg
        obtain ⟨y2, e2⟩ := cos_sin_real b.m k α ha
        rw [e1, e2]
        exact ⟨y1 * d * y2, by simp [retVal]⟩
    · rw [if_neg h]; exact ⟨0, by simp⟩
  obtain ⟨y, hy⟩ := this
  rw [hy]; simp [convertT]

/-- **C78**: a system that contains an artificial state cannot be rotated. -/
theorem C78_artificial (real : Bool) (st : Fin N → Option QN) (h : ∃ i, st i = none) (α β γ : ℝ)
    (hok : ∀ i a, st i = some a → 0 ≤ a.j ∧ a.j ≤ 170 ∧ IsM a.j a.m) : rotator1 real st α β γ = .throw := by
  obtain ⟨i, hi⟩ := h
  unfold rotator1 staterotator rotateCols
  rw [mapOut_throw]
  · rfl
  · intro s hs
    have nub : ∀ s, s ∈ List.ofFn st → addRotated1 real st α β γ s ≠ .ub := by
      intro s hs
      unfold addRotated1
      split_ifs
      · simp
      · simp
      · cases s with
        | none => simp
        | some a =>
          dsimp only
          rw [List.mem_ofFn'] at hs
          obtain ⟨k, hk⟩ := hs
          obtain ⟨h0, h1, hm⟩ := hok k a hk
          rw [mapOut_ok _ (fun m => match findSt st { a with m := m } with
            | some i => [(i, convertT real (retVal (wignerD a.j m a.m (-γ) (-β) (-α))))]
            | none => [])]
          · simp
          · intro m hm'
            cases findSt st { a with m := m } with
            | none => rfl
            | some i =>
              dsimp only
              conv_lhs => rw [wignerD_ok a.j m a.m (-γ) (-β) (-α) h0 h1 ((mem_mLoop h0).1 hm') hm]
              rfl
    have := nub s hs
    cases h : addRotated1 real st α β γ s with
    | ub => exact absurd h this
    | throw => simp
    | ok L => simp
  · refine ⟨none, ?_, ?_⟩
    · rw [List.mem_ofFn']; exact ⟨i, hi⟩
    · have : addRotated1 real st α β γ none = .throw := by
        unfold addRotated1
        split_ifs <;> rfl
      rw [this]; rfl

/-! ## Overlaps -/

theorem rotateCols_ok {σ : Type} (add : Option σ → Out (List (Fin N × ℂ))) (st : Fin N → Option σ) (M : Matrix (Fin N) (Fin N) ℂ)
    (h : ∀ c, ∃ L, add (st c) = .ok L ∧ columnOf L = fun r => M r c) (idx : List (Fin N)) :
    rotateCols add (idx.map st) = .ok (idx.map fun c r => M r c) := by
  unfold rotateCols
  have : ∀ s ∈ idx.map st, (add s >>= fun L => Out.ok (columnOf L)) = .ok (colVal (add s)) := by
    intro s hs
    rw [List.mem_map] at hs
    obtain ⟨c, _, rfl⟩ := hs
    obtain ⟨L, hL, _⟩ := h c
    rw [hL]; rfl
  rw [mapOut_ok _ _ _ this, List.map_map]
  congr 1
  refine List.map_congr_left fun c _ => ?_
  obtain ⟨L, hL, hc⟩ := h c
  simp only [Function.comp_def]
  rw [hL, ← hc]; rfl

/-- The columns of the rotated states are columns of the rotator. -/
theorem rotateCols_rotator (st : Fin N → Option QN) (hst : RotStates st) (α β γ : ℝ) (M : Matrix (Fin N) (Fin N) ℂ)
    (hM : rotator1 false st α β γ = .ok M) (idx : List (Fin N)) :
    rotateCols (addRotated1 false st α β γ) (idx.map st) = .ok (idx.map fun c r => M r c) := by
  obtain ⟨M', h1, h2⟩ := C78_elements false st hst α β γ (by simp)
  rw [hM] at h1
  rw [Out.ok.injEq] at h1
  subst h1
  refine rotateCols_ok _ _ _ (fun c => ?_) idx
  obtain ⟨b, hb⟩ := hst.all c
  obtain ⟨L, h3, h4⟩ := addRotated1_ok false st α β γ hst (by simp) c b hb
  refine ⟨L, h3, ?_⟩
  funext r
  obtain ⟨a, ha⟩ := hst.all r
  rw [h4 r a ha, h2 r c a b ha hb]

/-- **C78**: the special treatment of zero angles in getOverlap gives what the rotation would give. -/
theorem C78_overlap_zero (st : Fin N → Option QN) (hst : RotStates st) (idx : List (Fin N)) :
    overlapCols (addRotated1 false st) st idx 0 0 0 = rotateCols (addRotated1 false st 0 0 0) (idx.map st) := by
  rw [rotateCols_rotator st hst 0 0 0 1 (C78_identity st hst)]
  unfold overlapCols
  rw [if_pos ⟨rfl, rfl, rfl⟩]
  congr 1

theorem level_closed_sum (st : Fin N → Option QN) (hst : RotStates st) (hz : AllZeeman st) {g : M2} (hg : g.SU) (S : Finset (Fin N))
    (hS : ∀ i ∈ S, ∀ k a b, st i = some a → st k = some b → b = { a with m := b.m } → k ∈ S) (x : Fin N → ℂ) :
    ∑ c ∈ S, ‖∑ r, (starRingEnd ℂ) (x r) * rotSymMat st g r c‖ ^ 2 = ∑ c ∈ S, ‖x c‖ ^ 2 := by
  have hM := rotSymMat_row st hst hz hg
  set M := rotSymMat st g with hMd
  have out : ∀ r c, c ∈ S → r ∉ S → M r c = 0 := by
    intro r c hc hr
    obtain ⟨a, ha⟩ := hst.all r
    obtain ⟨b, hb⟩ := hst.all c
    rw [hMd]
    unfold rotSymMat
    rw [ha, hb]
    dsimp only
    unfold rotSym
    rw [if_neg]
    intro h
    exact hr (hS c hc r b a hb ha h)
  have out2 : ∀ r c, r ∈ S → c ∉ S → M r c = 0 := by
    intro r c hr hc
    obtain ⟨a, ha⟩ := hst.all r
    obtain ⟨b, hb⟩ := hst.all c
    rw [hMd]
    unfold rotSymMat
    rw [ha, hb]
    dsimp only
    unfold rotSym
    rw [if_neg]
    intro h
    exact hc (hS r hr c a b ha hb (same_level_symm h))
  have e1 : ∀ c ∈ S, ∑ r, (starRingEnd ℂ) (x r) * M r c = ∑ r ∈ S, (starRingEnd ℂ) (x r) * M r c := by
    intro c hc
    symm
    apply Finset.sum_subset (Finset.subset_univ S)
    intro r _ hr
    rw [out r c hc hr, mul_zero]
  have ortho : ∀ r ∈ S, ∀ r' ∈ S, ∑ c ∈ S, M r c * (starRingEnd ℂ) (M r' c) = if r = r' then 1 else 0 := by
    intro r hr r' hr'
    have := congrFun (congrFun hM r) r'
    rw [Matrix.mul_apply, Matrix.one_apply] at this
    rw [← this]
    apply Finset.sum_subset (Finset.subset_univ S)
    intro c _ hc
    rw [out2 r c hr hc, zero_mul]
  have cplx : ((∑ c ∈ S, ‖∑ r, (starRingEnd ℂ) (x r) * M r c‖ ^ 2 : ℝ) : ℂ) = ((∑ c ∈ S, ‖x c‖ ^ 2 : ℝ) : ℂ) := by
    push_cast
    have sq : ∀ z : ℂ, ((‖z‖ : ℝ) : ℂ) ^ 2 = z * (starRingEnd ℂ) z := fun z => (Complex.mul_conj' z).symm
    rw [Finset.sum_congr rfl fun c hc => by rw [sq, e1 c hc, map_sum, Finset.sum_mul_sum]]
    rw [Finset.sum_comm]
    refine Finset.sum_congr rfl fun r hr => ?_
    rw [Finset.sum_comm]
    have : ∀ r' ∈ S, ∑ c ∈ S, (starRingEnd ℂ) (x r) * M r c * (starRingEnd ℂ) ((starRingEnd ℂ) (x r') * M r' c) =
        if r = r' then (starRingEnd ℂ) (x r) * x r' else 0 := by
      intro r' hr'
      have e : ∀ c ∈ S, (starRingEnd ℂ) (x r) * M r c * (starRingEnd ℂ) ((starRingEnd ℂ) (x r') * M r' c) =
          (starRingEnd ℂ) (x r) * x r' * (M r c * (starRingEnd ℂ) (M r' c)) := by
        intro c _
        rw [map_mul, Complex.conj_conj]; ring
      rw [Finset.sum_congr rfl e, ← Finset.mul_sum, ortho r hr r' hr']
      split_ifs <;> simp
    rw [Finset.sum_congr rfl this, Finset.sum_ite_eq, if_pos hr, sq]; ring
  exact_mod_cast cplx

theorem list_sum_finset {α : Type} [DecidableEq α] (L : List α) (hL : L.Nodup) (f : α → ℝ) : (L.map f).sum = ∑ x ∈ L.toFinset, f x := by
  rw [List.sum_toFinset f hL]

/-- **C78**: the overlap with complete levels (all magnetic quantum numbers, as for a state with m = ARB) does not depend on the orientation of the
quantisation axis. -/
theorem C78_overlap_levels {k : Type} (st : Fin N → Option QN) (hst : RotStates st) (hz : AllZeeman st) (V : Matrix (Fin N) k ℂ)
    (idx : List (Fin N)) (hnd : idx.Nodup)
    (hS : ∀ i ∈ idx, ∀ j a b, st i = some a → st j = some b → b = { a with m := b.m } → j ∈ idx) (α β γ : ℝ) :
    ∃ o, getOverlapRot (addRotated1 false st) st V idx α β γ = .ok o ∧ ∀ v, o v = (idx.map fun i => ‖V i v‖ ^ 2).sum := by
  by_cases h0 : α = 0 ∧ β = 0 ∧ γ = 0
  · unfold getOverlapRot overlapCols
    rw [if_pos h0, Out.ok_bind]
    refine ⟨_, rfl, fun v => ?_⟩
    rw [List.map_map]
    congr 1
    refine List.map_congr_left fun i _ => ?_
    simp only [Function.comp_def, mul_ite, mul_one, mul_zero]
    rw [Finset.sum_ite_eq' Finset.univ i, if_pos (Finset.mem_univ i), RCLike.norm_conj]
  · obtain ⟨β', _, hM⟩ := rotator1_sym st hst α β γ
    unfold getOverlapRot overlapCols
    rw [if_neg h0, rotateCols_rotator st hst α β γ _ hM, Out.ok_bind]
    refine ⟨_, rfl, fun v => ?_⟩
    rw [List.map_map]
    simp only [Function.comp_def]
    rw [list_sum_finset idx hnd, list_sum_finset idx hnd]
    exact level_closed_sum st hst hz (euler2_su _ _ _) idx.toFinset (by
      intro i hi j a b ha hb hab
      rw [List.mem_toFinset] at hi ⊢
      exact hS i hi j a b ha hb hab) fun r => V r v

/-! ## Examples and limits -/

/-- The two levels of S1/2. -/
def exS : Fin 2 → Option QN := fun i => some ⟨"Rb", 30, 0, 1, if i = 0 then 1 else -1, 1⟩

theorem exS_rot : RotStates exS := by
  refine ⟨fun i => ⟨_, rfl⟩, ?_, ?_⟩
  · intro i a h
    simp only [exS, Option.some.injEq] at h
    subst h
    dsimp only
    refine ⟨by decide, by decide, ?_⟩
    fin_cases i <;> constructor <;> decide
  · intro i k h
    fin_cases i <;> fin_cases k <;> simp [exS] at h ⊢

theorem exS_all : AllZeeman exS := by
  intro i a h m hm
  simp only [exS, Option.some.injEq] at h
  subst h
  obtain ⟨h1, h2, h3⟩ := hm
  dsimp only at h1 h2 h3
  have : m = 1 ∨ m = -1 := by omega
  rcases this with rfl | rfl
  · exact ⟨0, rfl⟩
  · exact ⟨1, rfl⟩

/-- The hypotheses of the C78 theorems are met. -/
example (α β γ : ℝ) : ∃ M, rotator1 false exS α β γ = .ok M ∧ Mᴴ * M = 1 ∧ M * Mᴴ = 1 := C78_unitary exS exS_rot exS_all α β γ

example : ∃ M M', rotator1 false exS 1 0 2 = .ok M ∧ rotator1 false exS (-2) (-0) (-1) = .ok M' ∧ M' * M = 1 :=
  C78_inverse exS exS_rot exS_all 1 0 2 (fun h => by
    have := Real.pi_gt_three
    rw [zero_sub, abs_neg, abs_of_pos (by positivity)] at h
    norm_num at h; linarith) (fun h => by
    have := Real.pi_gt_three
    rw [neg_zero, zero_sub, abs_neg, abs_of_pos (by positivity)] at h
    norm_num at h; linarith)

example : ∃ M, rotator1 true exS (2 * Real.pi * (1 : ℤ)) 5 (2 * Real.pi * (0 : ℤ)) = .ok M ∧ rotator1 false exS (2 * Real.pi * (1 : ℤ)) 5 (2 * Real.pi * (0 : ℤ)) = .ok M :=
  C78_real_exact exS exS_rot _ _ _ 1 0 rfl rfl

example : badAngle 1 := by
  unfold badAngle
  have h := Real.pi_gt_three
  have h0 : round (1 / (2 * Real.pi)) = 0 := by
    rw [round_eq_zero_iff]
    constructor
    · have : (0 : ℝ) < 1 / (2 * Real.pi) := by positivity
      linarith
    · rw [div_lt_div_iff₀ (by positivity) (by norm_num)]; linarith
  rw [h0]; norm_num

example : ∃ o, getOverlapRot (addRotated1 false exS) exS (1 : Matrix (Fin 2) (Fin 2) ℂ) [0, 1] 1 2 3 = .ok o ∧ ∀ v, o v = ([0, 1].map fun i => ‖(1 : Matrix (Fin 2) (Fin 2) ℂ) i v‖ ^ 2).sum :=
  C78_overlap_levels exS exS_rot exS_all 1 [0, 1] (by decide) (by intro i _ j; fin_cases j <;> simp) 1 2 3

/-- A pair state with both atoms in S1/2 (m = 1/2, -1/2). -/
def exSS : Fin 4 → Option (QN × QN) := fun i =>
  some (⟨"Rb", 30, 0, 1, if i = 0 ∨ i = 1 then 1 else -1, 1⟩, ⟨"Rb", 30, 0, 1, if i = 0 ∨ i = 2 then 1 else -1, 1⟩)

theorem exSS_rot : RotPairs exSS := by
  refine ⟨fun i => ⟨_, rfl⟩, ?_, ?_⟩
  · intro i a h
    simp only [exSS, Option.some.injEq] at h
    subst h
    dsimp only
    refine ⟨⟨by decide, by decide, ?_⟩, ⟨by decide, by decide, ?_⟩⟩ <;>
    · fin_cases i <;> constructor <;> decide
  · intro i k h
    fin_cases i <;> fin_cases k <;> simp [exSS] at h ⊢

theorem exSS_all : AllZeemanPairs exSS := by
  intro i a h m m2 hm hm2
  simp only [exSS, Option.some.injEq] at h
  subst h
  obtain ⟨h1, h2, h3⟩ := hm
  obtain ⟨g1, g2, g3⟩ := hm2
  dsimp only at h1 h2 h3 g1 g2 g3
  have c1 : m = 1 ∨ m = -1 := by omega
  have c2 : m2 = 1 ∨ m2 = -1 := by omega
  rcases c1 with rfl | rfl <;> rcases c2 with rfl | rfl
  · exact ⟨0, rfl⟩
  · exact ⟨1, rfl⟩
  · exact ⟨2, rfl⟩
  · exact ⟨3, rfl⟩

example (α β γ : ℝ) : ∃ M, rotator2 false exSS α β γ = .ok M ∧ Mᴴ * M = 1 ∧ M * Mᴴ = 1 := C78_pair_unitary exSS exSS_rot exSS_all α β γ

/-- **C78** fails for a basis without all Zeeman levels: the components outside of it are dropped silently. Rotating S1/2, m=1/2 alone by β = π gives
the zero vector. -/
theorem C78_incomplete_fails : ∃ (st : Fin 1 → Option QN) (β : ℝ) (M : Matrix (Fin 1) (Fin 1) ℂ), RotStates st ∧
    rotator1 false st 0 β 0 = .ok M ∧ M = 0 := by
  let st : Fin 1 → Option QN := fun _ => some ⟨"Rb", 30, 0, 1, 1, 1⟩
  have hst : RotStates st := by
    refine ⟨fun i => ⟨_, rfl⟩, ?_, fun i k _ => Subsingleton.elim i k⟩
    intro i a h
    simp only [st, Option.some.injEq] at h
    subst h
    exact ⟨by decide, by decide, by constructor <;> decide⟩
  have hp : PlainAngle (-Real.pi) := by
    intro h
    exfalso
    have := Real.pi_gt_three
    rw [abs_of_neg (by linarith)] at h
    norm_num at h; linarith
  refine ⟨st, Real.pi, _, hst, rotator1_plain st hst 0 Real.pi 0 hp, ?_⟩
  ext i k
  have : rotSymMat st (euler2 (-0) (-Real.pi) (-0)) i k = (euler2 (-0) (-Real.pi) (-0)).sym 1 0 0 := by
    unfold rotSymMat rotSym
    simp only [st]
    rfl
  rw [this]
  unfold euler2
  rw [neg_zero, rotZ2_zero, M2.one_mul]
  have e : (rotY (-Real.pi)).mul ⟨1, 0, 0, 1⟩ = rotY (-Real.pi) := by unfold M2.mul; simp
  rw [e]
  unfold M2.sym M2.poly rotY
  have hc : Real.cos (-Real.pi / 2) = 0 := by rw [neg_div, Real.cos_neg, Real.cos_pi_div_two]
  simp [hc]

end PI
