import Verif.Rot.StateModel
import Verif.Rot.Tensor

/-!
# C78: the state rotator
-/

namespace PI

open Matrix

variable {N : ℕ}

/-! ## Specification -/

/-- The states of a SystemOne that can be rotated: no artificial states, each state once, angular momenta up to 85. -/
structure RotStates (st : Fin N → Option QN) : Prop where
  all : ∀ i, ∃ a, st i = some a
  isM : ∀ i a, st i = some a → 0 ≤ a.j ∧ a.j ≤ 170 ∧ IsM a.j a.m
  inj : ∀ i k, st i = st k → i = k

/-- With a state all its Zeeman levels are in the basis. -/
def AllZeeman (st : Fin N → Option QN) : Prop := ∀ i a, st i = some a → ∀ m, IsM a.j m → ∃ k, st k = some { a with m := m }

/-- The states of a SystemTwo that can be rotated. -/
structure RotPairs (st : Fin N → Option (QN × QN)) : Prop where
  all : ∀ i, ∃ a, st i = some a
  isM : ∀ i a, st i = some a → (0 ≤ a.1.j ∧ a.1.j ≤ 170 ∧ IsM a.1.j a.1.m) ∧ (0 ≤ a.2.j ∧ a.2.j ≤ 170 ∧ IsM a.2.j a.2.m)
  inj : ∀ i k, st i = st k → i = k

/-- With a pair state all combinations of Zeeman levels are in the basis. -/
def AllZeemanPairs (st : Fin N → Option (QN × QN)) : Prop := ∀ i a, st i = some a → ∀ m1 m2, IsM a.1.j m1 → IsM a.2.j m2 →
  ∃ k, st k = some ({ a.1 with m := m1 }, { a.2 with m := m2 })

/-- The element of the rotation `D(-γ, -β, -α)` between two states: zero unless they differ in `m` only. -/
noncomputable def rotElem (α β γ : ℝ) (a b : QN) : ℂ :=
  if a = { b with m := a.m } then retVal (wignerD b.j a.m b.m (-γ) (-β) (-α)) else 0

/-! ## Loops -/

theorem mapOut_ok {α β : Type} (f : α → Out β) (g : α → β) (L : List α) (h : ∀ x ∈ L, f x = .ok (g x)) : mapOut f L = .ok (L.map g) := by
  induction L with
  | nil => rfl
  | cons x xs ih =>
    unfold mapOut
    rw [h x (by simp), ih fun y hy => h y (by simp [hy])]
    simp

theorem mapOut_throw {α β : Type} (f : α → Out β) (L : List α) (h : ∀ x ∈ L, f x ≠ .ub) (h2 : ∃ x ∈ L, f x = .throw) : mapOut f L = .throw := by
  induction L with
  | nil => obtain ⟨x, hx, _⟩ := h2; simp at hx
  | cons x xs ih =>
    unfold mapOut
    cases hx : f x with
    | ub => exact absurd hx (h x (by simp))
    | throw => rfl
    | ok y =>
      obtain ⟨z, hz, hzt⟩ := h2
      rcases List.mem_cons.1 hz with rfl | hz
      · rw [hx] at hzt; simp at hzt
      · rw [Out.ok_bind, ih (fun y hy => h y (by simp [hy])) ⟨z, hz, hzt⟩]; rfl

theorem mem_mLoop {J m : ℤ} (hJ : 0 ≤ J) : m ∈ mLoop J ↔ IsM J m := by
  unfold mLoop
  simp only [List.mem_map, List.mem_range]
  constructor
  · rintro ⟨t, ht, rfl⟩
    constructor <;> omega
  · rintro ⟨h1, h2, h3⟩
    exact ⟨((J + m) / 2).toNat, by omega, by omega⟩

theorem mLoop_nodup (J : ℤ) : (mLoop J).Nodup := by
  unfold mLoop
  refine List.Nodup.map ?_ List.nodup_range
  intro a b h
  simp only at h
  omega

theorem findSt_iff {σ : Type} [DecidableEq σ] (st : Fin N → Option σ) (hinj : ∀ i k, st i = st k → i = k) (a : σ) (r : Fin N) :
    findSt st a = some r ↔ st r = some a := by
  unfold findSt
  constructor
  · intro h
    have := List.find?_some h
    simpa using this
  · intro h
    cases hf : (List.finRange N).find? fun i => decide (st i = some a) with
    | none =>
      rw [List.find?_eq_none] at hf
      have := hf r (List.mem_finRange r)
      simp [h] at this
    | some k =>
      have := List.find?_some hf
      have hk : st k = some a := by simpa using this
      rw [hinj k r (by rw [hk, h])]

theorem columnOf_append (L M : List (Fin N × ℂ)) (r : Fin N) : columnOf (L ++ M) r = columnOf L r + columnOf M r := by
  unfold columnOf; simp

theorem columnOf_flatten (L : List (List (Fin N × ℂ))) (r : Fin N) : columnOf L.flatten r = (L.map fun x => columnOf x r).sum := by
  induction L with
  | nil => rfl
  | cons x xs ih => rw [List.flatten_cons, columnOf_append, ih]; simp

theorem columnOf_find (o : Option (Fin N)) (v : ℂ) (r : Fin N) :
    columnOf (match o with | some i => [(i, v)] | none => []) r = if o = some r then v else 0 := by
  cases o with
  | none => rfl
  | some i =>
    by_cases h : i = r
    · subst h; simp [columnOf]
    · simp [columnOf, h]

theorem sum_map_single {α : Type} [DecidableEq α] (L : List α) (hL : L.Nodup) (x : α) (hx : x ∈ L) (f : α → ℂ) (h : ∀ y ∈ L, y ≠ x → f y = 0) :
    (L.map f).sum = f x := by
  induction L with
  | nil => simp at hx
  | cons y ys ih =>
    rw [List.map_cons, List.sum_cons]
    rw [List.nodup_cons] at hL
    rcases List.mem_cons.1 hx with rfl | hx'
    · have : (ys.map f).sum = 0 := by
        apply List.sum_eq_zero
        intro z hz
        rw [List.mem_map] at hz
        obtain ⟨w, hw, rfl⟩ := hz
        exact h w (by simp [hw]) (by rintro rfl; exact hL.1 hw)
      rw [this, add_zero]
    · have hne : y ≠ x := by rintro rfl; exact hL.1 hx'
      rw [h y (by simp) hne, zero_add, ih hL.2 hx' fun z hz hzx => h z (by simp [hz]) hzx]

theorem wignerD_ok (J m mp : ℤ) (α β γ : ℝ) (h0 : 0 ≤ J) (h1 : J ≤ 170) (hm : IsM J m) (hp : IsM J mp) :
    wignerD J m mp α β γ = .ok (retVal (wignerD J m mp α β γ)) := by
  obtain ⟨x, hx⟩ := (C61_real J m mp β h0 h1 hm hp).1
  unfold wignerD
  rw [hx]; rfl

theorem qn_eq_m (a b : QN) (m : ℤ) : a = { b with m := m } ↔ (a = { b with m := a.m } ∧ m = a.m) := by
  constructor
  · intro h
    have hm : a.m = m := by rw [h]
    exact ⟨by rw [hm]; exact h, hm.symm⟩
  · rintro ⟨h, rfl⟩; exact h

theorem addRotated1_ok (real : Bool) (st : Fin N → Option QN) (α β γ : ℝ) (hst : RotStates st) (hr : real = true → ¬ badAngle α ∧ ¬ badAngle γ)
    (c : Fin N) (b : QN) (hc : st c = some b) : ∃ L, addRotated1 real st α β γ (st c) = .ok L ∧
      ∀ r a, st r = some a → columnOf L r = convertT real (rotElem α β γ a b) := by
  obtain ⟨hj0, hj1, hbm⟩ := hst.isM c b hc
  unfold addRotated1
  rw [if_neg (by rintro ⟨h1, h2⟩; exact (hr h1).1 h2), if_neg (by rintro ⟨h1, h2⟩; exact (hr h1).2 h2), hc]
  dsimp only
  rw [mapOut_ok _ (fun m => match findSt st { b with m := m } with
    | some i => [(i, convertT real (retVal (wignerD b.j m b.m (-γ) (-β) (-α))))]
    | none => [])]
  swap
  · intro m hm
    have hm' := (mem_mLoop hj0).1 hm
    cases findSt st { b with m := m } with
    | none => rfl
    | some i =>
      dsimp only
      conv_lhs => rw [wignerD_ok b.j m b.m (-γ) (-β) (-α) hj0 hj1 hm' hbm]
      rfl
  refine ⟨_, rfl, ?_⟩
  intro r a ha
  rw [columnOf_flatten, List.map_map]
  simp only [Function.comp_def, columnOf_find]
  obtain ⟨-, -, ham⟩ := hst.isM r a ha
  have key : ∀ m, findSt st { b with m := m } = some r ↔ (a = { b with m := a.m } ∧ m = a.m) := by
    intro m
    rw [findSt_iff st hst.inj, ha, Option.some.injEq, qn_eq_m]
  unfold rotElem
  by_cases hab : a = { b with m := a.m }
  · rw [if_pos hab]
    have hj : a.j = b.j := by rw [hab]
    rw [sum_map_single (mLoop b.j) (mLoop_nodup _) a.m ((mem_mLoop hj0).2 (hj ▸ ham))]
    · rw [if_pos ((key a.m).2 ⟨hab, rfl⟩)]
    · intro m _ hne
      rw [if_neg (fun h => hne ((key m).1 h).2)]
  · rw [if_neg hab]
    have : ((mLoop b.j).map fun m => if findSt st { b with m := m } = some r then convertT real (retVal (wignerD b.j m b.m (-γ) (-β) (-α))) else 0).sum = 0 := by
      apply List.sum_eq_zero
      intro x hx
      rw [List.mem_map] at hx
      obtain ⟨m, _, rfl⟩ := hx
      rw [if_neg (fun h => hab ((key m).1 h).1)]
    rw [this]
    unfold convertT
    split_ifs <;> simp

/-- The column in an outcome. -/
noncomputable def colVal (o : Out (List (Fin N × ℂ))) : Fin N → ℂ := match o with | .ok L => columnOf L | _ => fun _ => 0

theorem staterotator_ok {σ : Type} (add : Option σ → Out (List (Fin N × ℂ))) (st : Fin N → Option σ) (L : Fin N → List (Fin N × ℂ))
    (h : ∀ c, add (st c) = .ok (L c)) : staterotator add st = .ok fun r c => columnOf (L c) r := by
  unfold staterotator rotateCols
  have e : mapOut (fun s => add s >>= fun L => .ok (columnOf L)) (List.ofFn st) = .ok (List.ofFn fun c => columnOf (L c)) := by
    have : ∀ s ∈ List.ofFn st, (add s >>= fun L => Out.ok (columnOf L)) = .ok (colVal (add s)) := by
      intro s hs
      rw [List.mem_ofFn'] at hs
      obtain ⟨c, rfl⟩ := hs
      rw [h c]; rfl
    rw [mapOut_ok _ _ _ this, List.map_ofFn]
    congr 2
    funext c
    simp only [Function.comp_def]
    rw [h c]; rfl
  rw [e, Out.ok_bind]
  congr 1
  funext r c
  rw [List.getD_eq_getElem?_getD, List.getElem?_ofFn]
  simp

/-- **C78**: for all angles and all states without artificial ones the complex rotator exists, and its element between two states is that of the
spin rotation `D(-γ, -β, -α)` if they differ in the magnetic quantum number only, else zero. For the real type the same holds with real parts, if
both angles are accepted. -/
theorem C78_elements (real : Bool) (st : Fin N → Option QN) (hst : RotStates st) (α β γ : ℝ) (hr : real = true → ¬ badAngle α ∧ ¬ badAngle γ) :
    ∃ M, rotator1 real st α β γ = .ok M ∧ ∀ r c a b, st r = some a → st c = some b → M r c = convertT real (rotElem α β γ a b) := by
  have h : ∀ c, ∃ L, addRotated1 real st α β γ (st c) = .ok L ∧ ∀ r a b, st r = some a → st c = some b → columnOf L r = convertT real (rotElem α β γ a b) := by
    intro c
    obtain ⟨b, hb⟩ := hst.all c
    obtain ⟨L, h1, h2⟩ := addRotated1_ok real st α β γ hst hr c b hb
    refine ⟨L, h1, fun r a b' ha hb' => ?_⟩
    rw [hb] at hb'
    rw [Option.some.injEq] at hb'
    rw [← hb']; exact h2 r a ha
  choose L hL1 hL2 using h
  exact ⟨_, staterotator_ok _ st L hL1, fun r c a b ha hb => hL2 c r a b ha hb⟩

/-! ## Rotations of the spin 1/2 -/

/-- Rotation about the z axis. -/
noncomputable def rotZ2 (θ : ℝ) : M2 := ⟨ePh θ, 0, 0, fPh θ⟩

/-- The rotation with Euler angles `α`, `β`, `γ`. -/
noncomputable def euler2 (α β γ : ℝ) : M2 := (rotZ2 γ).mul ((rotY β).mul (rotZ2 α))

theorem fPh_conj (θ : ℝ) : fPh θ = (starRingEnd ℂ) (ePh θ) := by
  unfold fPh ePh
  rw [← Complex.exp_conj]
  congr 1
  rw [map_mul, map_neg, Complex.conj_ofReal, Complex.conj_I]
  ring

theorem ePh_norm (θ : ℝ) : ePh θ * fPh θ = 1 := by
  unfold ePh fPh
  rw [← Complex.exp_add]
  rw [show -((θ / 2 : ℝ) : ℂ) * Complex.I + ((θ / 2 : ℝ) : ℂ) * Complex.I = 0 by ring, Complex.exp_zero]

theorem rotZ2_su (θ : ℝ) : (rotZ2 θ).SU := by
  refine ⟨fPh_conj θ, by simp [rotZ2], ?_⟩
  unfold rotZ2
  rw [← fPh_conj]
  simpa using ePh_norm θ

theorem rotY_su (β : ℝ) : (rotY β).SU := by
  unfold rotY
  refine ⟨(Complex.conj_ofReal _).symm, ?_, ?_⟩
  · dsimp only; rw [Complex.conj_ofReal]
  simp only [Complex.conj_ofReal]
  have := Real.cos_sq_add_sin_sq (β / 2)
  exact_mod_cast (by nlinarith : Real.cos (β / 2) * Real.cos (β / 2) + Real.sin (β / 2) * Real.sin (β / 2) = 1)

theorem euler2_su (α β γ : ℝ) : (euler2 α β γ).SU := (rotZ2_su γ).mul ((rotY_su β).mul (rotZ2_su α))

/-- The matrix that `wignerD` returns. -/
theorem wignerD_sym (n i l : ℕ) (α β γ β' : ℝ) (hn : n ≤ 170) (hi : i ≤ n) (hl : l ≤ n)
    (hb : ∀ J m mp : ℤ, 0 ≤ J → J ≤ 170 → IsM J m → IsM J mp → wignerd J m mp β = fullD J m mp β') :
    wignerD n ((n : ℤ) - 2 * i) ((n : ℤ) - 2 * l) α β γ = .ok ((euler2 α β' γ).sym n i l) := by
  unfold wignerD
  rw [hb n _ _ (by omega) (by omega) (by constructor <;> omega) (by constructor <;> omega), fullD_value n i l β' hn hi hl, Out.ok_bind,
    rotY_sym_re, ePh_pow α n i hi, ePh_pow γ n l hl]
  unfold euler2 rotZ2
  rw [sym_diag_right _ _ _ n i l hl, sym_diag_left _ _ _ n i l hi hl]

/-- Index of the magnetic quantum number in the basis of a multiplet. -/
def QN.idx (a : QN) : ℕ := ((a.j - a.m) / 2).toNat

theorem QN.idx_spec {a : QN} (h0 : 0 ≤ a.j) (hm : IsM a.j a.m) : a.idx ≤ a.j.toNat ∧ a.m = (a.j.toNat : ℤ) - 2 * a.idx := by
  obtain ⟨h1, h2, h3⟩ := hm
  unfold QN.idx
  constructor <;> omega

/-- The action of a spin rotation on states. -/
noncomputable def rotSym (g : M2) (a b : QN) : ℂ := if a = { b with m := a.m } then g.sym b.j.toNat a.idx b.idx else 0

theorem rotElem_sym (α β γ β' : ℝ)
    (hb : ∀ J m mp : ℤ, 0 ≤ J → J ≤ 170 → IsM J m → IsM J mp → wignerd J m mp (-β) = fullD J m mp β') (a b : QN)
    (ha : 0 ≤ a.j ∧ a.j ≤ 170 ∧ IsM a.j a.m) (hbm : 0 ≤ b.j ∧ b.j ≤ 170 ∧ IsM b.j b.m) :
    rotElem α β γ a b = rotSym (euler2 (-γ) β' (-α)) a b := by
  unfold rotElem rotSym
  by_cases h : a = { b with m := a.m }
  · rw [if_pos h, if_pos h]
    have hj : a.j = b.j := by rw [h]
    obtain ⟨i1, i2⟩ := QN.idx_spec ha.1 ha.2.2
    obtain ⟨l1, l2⟩ := QN.idx_spec hbm.1 hbm.2.2
    rw [hj] at i1 i2
    rw [i2, l2]
    have := wignerD_sym b.j.toNat a.idx b.idx (-γ) (-β) (-α) β' (by omega) i1 l1 hb
    rw [show ((b.j.toNat : ℕ) : ℤ) = b.j by omega] at this ⊢
    rw [this]; rfl
  · rw [if_neg h, if_neg h]

/-- The matrix of a spin rotation between the states. -/
noncomputable def rotSymMat (st : Fin N → Option QN) (g : M2) : Matrix (Fin N) (Fin N) ℂ := fun r c =>
  match st r, st c with
  | some a, some b => rotSym g a b
  | _, _ => 0

/-- Which spin rotation the code performs for given angles. -/
theorem rotator1_sym (st : Fin N → Option QN) (hst : RotStates st) (α β γ : ℝ) :
    ∃ β', (β' = -β ∨ (β' = Real.pi / 2 ∧ |-β - β'| < 1e-16)) ∧ rotator1 false st α β γ = .ok (rotSymMat st (euler2 (-γ) β' (-α))) := by
  obtain ⟨β', h1, h2⟩ := C61_operator (-β)
  refine ⟨β', h1, ?_⟩
  obtain ⟨M, hM, he⟩ := C78_elements false st hst α β γ (by simp)
  rw [hM]
  congr 1
  funext r c
  obtain ⟨a, ha⟩ := hst.all r
  obtain ⟨b, hb⟩ := hst.all c
  rw [he r c a b ha hb]
  unfold rotSymMat
  rw [ha, hb]
  dsimp only
  rw [rotElem_sym α β γ β' h2 a b (hst.isM r a ha) (hst.isM c b hb)]
  simp [convertT]

/-! ## Sums over a multiplet -/

theorem sum_multiplet (st : Fin N → Option QN) (hst : RotStates st) (hz : AllZeeman st) (i : Fin N) (a : QN) (hi : st i = some a) (G : QN → ℂ) :
    ∑ r, (match st r with | some b => if b = { a with m := b.m } then G b else 0 | none => 0) =
      ∑ l ∈ Finset.range (a.j.toNat + 1), G { a with m := a.j - 2 * l } := by
  obtain ⟨h0, h1, hm⟩ := hst.isM i a hi
  have hk : ∀ l : ℕ, ∃ k : Fin N, l ∈ Finset.range (a.j.toNat + 1) → st k = some { a with m := a.j - 2 * l } := by
    intro l
    by_cases hl : l ∈ Finset.range (a.j.toNat + 1)
    · obtain ⟨k, hk⟩ := hz i a hi (a.j - 2 * l) (isM_of_index hl h0)
      exact ⟨k, fun _ => hk⟩
    · exact ⟨i, fun h => absurd h hl⟩
  choose k hk using hk
  symm
  refine Finset.sum_of_injOn k ?_ ?_ ?_ ?_
  · intro l hl l' hl' h
    have e1 := hk l hl
    have e2 := hk l' hl'
    rw [h, e2] at e1
    simp only [Option.some.injEq, QN.mk.injEq, true_and, and_true] at e1
    omega
  · intro l _; simp
  · intro r _ hr
    cases hs : st r with
    | none => rfl
    | some b =>
      dsimp only
      rw [if_neg]
      intro hb
      apply hr
      obtain ⟨_, _, hbm⟩ := hst.isM r b hs
      have hj : b.j = a.j := by rw [hb]
      obtain ⟨q1, q2⟩ := QN.idx_spec (by omega : 0 ≤ b.j) hbm
      have hmem : b.idx ∈ Finset.range (a.j.toNat + 1) := Finset.mem_range.2 (by rw [← hj]; omega)
      refine ⟨b.idx, hmem, ?_⟩
      apply hst.inj
      rw [hk b.idx hmem, hs, Option.some.injEq]
      conv_rhs => rw [hb]
      rw [QN.mk.injEq]
      refine ⟨rfl, rfl, rfl, rfl, ?_, rfl⟩
      omega
  · intro l hl
    rw [hk l hl]
    dsimp only
    rw [if_pos rfl]

theorem same_level_trans {a b c : QN} (h1 : a = { b with m := a.m }) (h2 : c = { b with m := c.m }) : a = { c with m := a.m } := by
  rw [h2]; exact h1

theorem same_level_symm {a b : QN} (h1 : a = { b with m := a.m }) : b = { a with m := b.m } := by
  rw [h1]

theorem idx_level (a : QN) (l : ℕ) : ({ a with m := a.j - 2 * l } : QN).idx = l := by
  unfold QN.idx; dsimp only; omega

theorem idx_inj {a b : QN} (h0 : 0 ≤ a.j) (ha : IsM a.j a.m) (hb : IsM b.j b.m) (h : a = { b with m := a.m }) (hi : a.idx = b.idx) : a = b := by
  have hj : a.j = b.j := by rw [h]
  obtain ⟨_, e1⟩ := QN.idx_spec h0 ha
  obtain ⟨_, e2⟩ := QN.idx_spec (by omega : 0 ≤ b.j) hb
  rw [h]
  have : a.m = b.m := by rw [e1, e2, hi, hj]
  rw [this]

/-- A spin rotation of complete multiplets is unitary (columns). -/
theorem rotSymMat_col (st : Fin N → Option QN) (hst : RotStates st) (hz : AllZeeman st) {g : M2} (hg : g.SU) :
    (rotSymMat st g)ᴴ * rotSymMat st g = 1 := by
  ext r c
  rw [Matrix.mul_apply]
  obtain ⟨a, ha⟩ := hst.all r
  obtain ⟨b, hb⟩ := hst.all c
  obtain ⟨a0, a1, am⟩ := hst.isM r a ha
  obtain ⟨b0, b1, bm⟩ := hst.isM c b hb
  have e : ∀ k, (rotSymMat st g)ᴴ r k * rotSymMat st g k c = (match st k with
      | some d => if d = { a with m := d.m } then (starRingEnd ℂ) (g.sym a.j.toNat d.idx a.idx) * rotSym g d b else 0
      | none => 0) := by
    intro k
    rw [Matrix.conjTranspose_apply]
    unfold rotSymMat
    rw [ha, hb]
    cases hk : st k with
    | none => simp
    | some d =>
      dsimp only
      by_cases h : d = { a with m := d.m }
      · rw [if_pos h]; unfold rotSym; rw [if_pos h]; rfl
      · rw [if_neg h]
        have : rotSym g d a = 0 := by unfold rotSym; rw [if_neg h]
        rw [this]; simp
  rw [Finset.sum_congr rfl fun k _ => e k, sum_multiplet st hst hz r a ha fun d => (starRingEnd ℂ) (g.sym a.j.toNat d.idx a.idx) * rotSym g d b]
  simp only [idx_level]
  by_cases hab : a = { b with m := a.m }
  · have hj : a.j = b.j := by rw [hab]
    have e2 : ∀ l ∈ Finset.range (a.j.toNat + 1), (starRingEnd ℂ) (g.sym a.j.toNat l a.idx) * rotSym g { a with m := a.j - 2 * l } b =
        (starRingEnd ℂ) (g.sym a.j.toNat l a.idx) * g.sym a.j.toNat l b.idx := by
      intro l _
      unfold rotSym
      rw [if_pos (by rw [hab]), idx_level, hj]
    rw [Finset.sum_congr rfl e2, sym_unitary_col hg a.j.toNat a.idx b.idx (QN.idx_spec a0 am).1 (by rw [hj]; exact (QN.idx_spec b0 bm).1)]
    by_cases hrc : r = c
    · subst hrc
      rw [ha] at hb
      rw [Option.some.injEq] at hb
      subst hb
      rw [if_pos rfl, Matrix.one_apply_eq]
    · rw [Matrix.one_apply_ne hrc, if_neg]
      intro h
      exact hrc (hst.inj r c (by rw [ha, hb, idx_inj a0 am bm hab h]))
  · have hrc : r ≠ c := by
      rintro rfl
      rw [ha] at hb
      rw [Option.some.injEq] at hb
      subst hb
      exact hab rfl
    rw [Matrix.one_apply_ne hrc]
    refine Finset.sum_eq_zero fun l _ => ?_
    unfold rotSym
    rw [if_neg, mul_zero]
    intro h
    apply hab
    have := same_level_symm h
    have h2 : ({ a with m := a.j - 2 * l } : QN) = { b with m := a.j - 2 * l } := h
    rw [QN.mk.injEq] at h2
    obtain ⟨q1, q2, q3, q4, _, q6⟩ := h2
    cases a; cases b
    dsimp only at q1 q2 q3 q4 q6 ⊢
    subst q1 q2 q3 q4 q6
    rfl

theorem rotSymMat_row (st : Fin N → Option QN) (hst : RotStates st) (hz : AllZeeman st) {g : M2} (hg : g.SU) :
    rotSymMat st g * (rotSymMat st g)ᴴ = 1 := mul_eq_one_comm.1 (rotSymMat_col st hst hz hg)

/-- **C78**: for all angles, the rotator of a system that contains all Zeeman levels is unitary. -/
theorem C78_unitary (st : Fin N → Option QN) (hst : RotStates st) (hz : AllZeeman st) (α β γ : ℝ) :
    ∃ M, rotator1 false st α β γ = .ok M ∧ Mᴴ * M = 1 ∧ M * Mᴴ = 1 := by
  obtain ⟨β', _, h⟩ := rotator1_sym st hst α β γ
  exact ⟨_, h, rotSymMat_col st hst hz (euler2_su _ _ _), rotSymMat_row st hst hz (euler2_su _ _ _)⟩

end PI
