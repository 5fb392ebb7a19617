import Verif.Rot.State

/-!
# C78: the state rotator of pair systems
-/

namespace PI

open Matrix

variable {N : ℕ}

theorem columnOf_flatMap {α : Type} (L : List α) (f : α → List (Fin N × ℂ)) (r : Fin N) :
    columnOf (L.flatMap f) r = (L.map fun x => columnOf (f x) r).sum := by
  induction L with
  | nil => rfl
  | cons x xs ih => rw [List.flatMap_cons, columnOf_append, ih]; simp

theorem zip_map_self {α β : Type} (L : List α) (f : α → β) : L.zip (L.map f) = L.map fun x => (x, f x) := by
  induction L with
  | nil => rfl
  | cons x xs ih => simp [ih]

theorem convertT_zero (real : Bool) : convertT real 0 = 0 := by unfold convertT; split_ifs <;> simp

theorem sum_map_double {α β : Type} [DecidableEq α] [DecidableEq β] (L : List α) (M : List β) (hL : L.Nodup) (hM : M.Nodup) (f : α → β → ℂ)
    (P : Prop) [Decidable P] (x : α) (y : β) (hx : P → x ∈ L) (hy : P → y ∈ M) (Q : α → β → Prop) [∀ a b, Decidable (Q a b)]
    (hQ : ∀ a b, Q a b ↔ (P ∧ a = x ∧ b = y)) :
    (L.map fun a => (M.map fun b => if Q a b then f a b else 0).sum).sum = if P then f x y else 0 := by
  by_cases hP : P
  · rw [if_pos hP, sum_map_single L hL x (hx hP)]
    · rw [sum_map_single M hM y (hy hP)]
      · rw [if_pos ((hQ x y).2 ⟨hP, rfl, rfl⟩)]
      · intro b _ hb
        rw [if_neg fun h => hb ((hQ x b).1 h).2.2]
    · intro a _ ha
      apply List.sum_eq_zero
      intro z hz
      rw [List.mem_map] at hz
      obtain ⟨b, _, rfl⟩ := hz
      rw [if_neg fun h => ha ((hQ a b).1 h).2.1]
  · rw [if_neg hP]
    apply List.sum_eq_zero
    intro z hz
    rw [List.mem_map] at hz
    obtain ⟨a, _, rfl⟩ := hz
    apply List.sum_eq_zero
    intro w hw
    rw [List.mem_map] at hw
    obtain ⟨b, _, rfl⟩ := hw
    rw [if_neg fun h => hP ((hQ a b).1 h).1]

theorem addRotated2_ok (real : Bool) (st : Fin N → Option (QN × QN)) (α β γ : ℝ) (hst : RotPairs st)
    (hr : real = true → ¬ badAngle α ∧ ¬ badAngle γ) (c : Fin N) (b : QN × QN) (hc : st c = some b) :
    ∃ L, addRotated2 real st α β γ (st c) = .ok L ∧
      ∀ r a, st r = some a → columnOf L r = convertT real (rotElem α β γ a.1 b.1) * convertT real (rotElem α β γ a.2 b.2) := by
  obtain ⟨b1, b2⟩ := b
  obtain ⟨⟨hj0, hj1, hbm⟩, ⟨hk0, hk1, hbm2⟩⟩ := hst.isM c _ hc
  dsimp only at hj0 hj1 hbm hk0 hk1 hbm2
  unfold addRotated2
  rw [if_neg (by rintro ⟨h1, h2⟩; exact (hr h1).1 h2), if_neg (by rintro ⟨h1, h2⟩; exact (hr h1).2 h2), hc]
  dsimp only
  rw [mapOut_ok _ (fun m => convertT real (retVal (wignerD b2.j m b2.m (-γ) (-β) (-α)))) (mLoop b2.j)]
  swap
  · intro m hm
    conv_lhs => rw [wignerD_ok b2.j m b2.m (-γ) (-β) (-α) hk0 hk1 ((mem_mLoop hk0).1 hm) hbm2]
    rfl
  rw [Out.ok_bind, zip_map_self]
  rw [mapOut_ok _ (fun m1 => ((mLoop b2.j).map fun x => (x, convertT real (retVal (wignerD b2.j x b2.m (-γ) (-β) (-α))))).flatMap fun p =>
    match findSt st ({ b1 with m := m1 }, { b2 with m := p.1 }) with
    | some i => [(i, convertT real (retVal (wignerD b1.j m1 b1.m (-γ) (-β) (-α))) * p.2)]
    | none => []) (mLoop b1.j)]
  swap
  · intro m hm
    conv_lhs => rw [wignerD_ok b1.j m b1.m (-γ) (-β) (-α) hj0 hj1 ((mem_mLoop hj0).1 hm) hbm]
    rfl
  refine ⟨_, rfl, ?_⟩
  rintro r ⟨a1, a2⟩ ha
  obtain ⟨⟨-, -, ham⟩, ⟨-, -, ham2⟩⟩ := hst.isM r _ ha
  dsimp only at ham ham2 ⊢
  rw [columnOf_flatten, List.map_map]
  simp only [Function.comp_def, List.flatMap_map, columnOf_flatMap, columnOf_find]
  have key : ∀ m m2, findSt st ({ b1 with m := m }, { b2 with m := m2 }) = some r ↔
      ((a1 = { b1 with m := a1.m } ∧ a2 = { b2 with m := a2.m }) ∧ m = a1.m ∧ m2 = a2.m) := by
    intro m m2
    rw [findSt_iff st hst.inj, ha, Option.some.injEq, Prod.mk.injEq, qn_eq_m a1, qn_eq_m a2]
    tauto
  refine Eq.trans (congrArg List.sum (List.map_congr_left (g := fun m => ((mLoop b2.j).map fun m2 =>
    if findSt st ({ b1 with m := m }, { b2 with m := m2 }) = some r then convertT real (retVal (wignerD b1.j m b1.m (-γ) (-β) (-α))) *
      convertT real (retVal (wignerD b2.j m2 b2.m (-γ) (-β) (-α))) else 0).sum) fun m _ => congrArg List.sum (List.map_congr_left fun m2 _ => ?_))) ?_
  · exact columnOf_find (findSt st ({ b1 with m := m }, { b2 with m := m2 })) _ r
  rw [sum_map_double (mLoop b1.j) (mLoop b2.j) (mLoop_nodup _) (mLoop_nodup _)
    (fun m m2 => convertT real (retVal (wignerD b1.j m b1.m (-γ) (-β) (-α))) * convertT real (retVal (wignerD b2.j m2 b2.m (-γ) (-β) (-α))))
    (a1 = { b1 with m := a1.m } ∧ a2 = { b2 with m := a2.m }) a1.m a2.m
    (fun h => (mem_mLoop hj0).2 (by have : a1.j = b1.j := by rw [h.1]
                                    exact this ▸ ham))
    (fun h => (mem_mLoop hk0).2 (by have : a2.j = b2.j := by rw [h.2]
                                    exact this ▸ ham2)) _ key]
  unfold rotElem
  by_cases h1 : a1 = { b1 with m := a1.m }
  · by_cases h2 : a2 = { b2 with m := a2.m }
    · rw [if_pos ⟨h1, h2⟩, if_pos h1, if_pos h2]
    · rw [if_neg (fun h => h2 h.2), if_neg h2, convertT_zero, mul_zero]
  · rw [if_neg (fun h => h1 h.1), if_neg h1, convertT_zero, zero_mul]

/-- **C78** for pairs: the element of the rotator is the product of the elements of the two atoms. -/
theorem C78_pair_elements (real : Bool) (st : Fin N → Option (QN × QN)) (hst : RotPairs st) (α β γ : ℝ)
    (hr : real = true → ¬ badAngle α ∧ ¬ badAngle γ) : ∃ M, rotator2 real st α β γ = .ok M ∧
      ∀ r c a b, st r = some a → st c = some b → M r c = convertT real (rotElem α β γ a.1 b.1) * convertT real (rotElem α β γ a.2 b.2) := by
  have h : ∀ c, ∃ L, addRotated2 real st α β γ (st c) = .ok L ∧ ∀ r a b, st r = some a → st c = some b →
      columnOf L r = convertT real (rotElem α β γ a.1 b.1) * convertT real (rotElem α β γ a.2 b.2) := by
    intro c
    obtain ⟨b, hb⟩ := hst.all c
    obtain ⟨L, h1, h2⟩ := addRotated2_ok real st α β γ hst hr c b hb
    refine ⟨L, h1, fun r a b' ha hb' => ?_⟩
    rw [hb] at hb'
    rw [Option.some.injEq] at hb'
    rw [← hb']; exact h2 r a ha
  choose L hL1 hL2 using h
  exact ⟨_, staterotator_ok _ st L hL1, fun r c a b ha hb => hL2 c r a b ha hb⟩

/-- The matrix of a spin rotation between pair states. -/
noncomputable def rotSymPairs (st : Fin N → Option (QN × QN)) (g : M2) : Matrix (Fin N) (Fin N) ℂ := fun r c =>
  match st r, st c with
  | some a, some b => rotSym g a.1 b.1 * rotSym g a.2 b.2
  | _, _ => 0

theorem rotator2_sym (st : Fin N → Option (QN × QN)) (hst : RotPairs st) (α β γ : ℝ) :
    ∃ β', (β' = -β ∨ (β' = Real.pi / 2 ∧ |-β - β'| < 1e-16)) ∧ rotator2 false st α β γ = .ok (rotSymPairs st (euler2 (-γ) β' (-α))) := by
  obtain ⟨β', h1, h2⟩ := C61_operator (-β)
  refine ⟨β', h1, ?_⟩
  obtain ⟨M, hM, he⟩ := C78_pair_elements false st hst α β γ (by simp)
  rw [hM]
  congr 1
  funext r c
  obtain ⟨a, ha⟩ := hst.all r
  obtain ⟨b, hb⟩ := hst.all c
  rw [he r c a b ha hb]
  unfold rotSymPairs
  rw [ha, hb]
  dsimp only
  rw [rotElem_sym α β γ β' h2 a.1 b.1 (hst.isM r a ha).1 (hst.isM c b hb).1, rotElem_sym α β γ β' h2 a.2 b.2 (hst.isM r a ha).2 (hst.isM c b hb).2]
  simp [convertT]

/-- Sums over the levels of a pair of multiplets. -/
theorem sum_multiplet_pair (st : Fin N → Option (QN × QN)) (hst : RotPairs st) (hz : AllZeemanPairs st) (i : Fin N) (a : QN × QN)
    (hi : st i = some a) (G : QN × QN → ℂ) :
    ∑ r, (match st r with | some b => if b.1 = { a.1 with m := b.1.m } ∧ b.2 = { a.2 with m := b.2.m } then G b else 0 | none => 0) =
      ∑ p ∈ Finset.range (a.1.j.toNat + 1) ×ˢ Finset.range (a.2.j.toNat + 1),
        G ({ a.1 with m := a.1.j - 2 * p.1 }, { a.2 with m := a.2.j - 2 * p.2 }) := by
  obtain ⟨⟨h0, h1, hm⟩, ⟨g0, g1, gm⟩⟩ := hst.isM i a hi
  have hk : ∀ p : ℕ × ℕ, ∃ k : Fin N, p ∈ Finset.range (a.1.j.toNat + 1) ×ˢ Finset.range (a.2.j.toNat + 1) →
      st k = some ({ a.1 with m := a.1.j - 2 * p.1 }, { a.2 with m := a.2.j - 2 * p.2 }) := by
    intro p
    by_cases hl : p ∈ Finset.range (a.1.j.toNat + 1) ×ˢ Finset.range (a.2.j.toNat + 1)
    · rw [Finset.mem_product] at hl
      obtain ⟨k, hk⟩ := hz i a hi (a.1.j - 2 * p.1) (a.2.j - 2 * p.2) (isM_of_index hl.1 h0) (isM_of_index hl.2 g0)
      exact ⟨k, fun _ => hk⟩
    · exact ⟨i, fun h => absurd h hl⟩
  choose k hk using hk
  symm
  refine Finset.sum_of_injOn k ?_ ?_ ?_ ?_
  · intro l hl l' hl' h
    have e1 := hk l hl
    have e2 := hk l' hl'
    rw [h, e2] at e1
    simp only [Option.some.injEq, Prod.mk.injEq, QN.mk.injEq, true_and, and_true] at e1
    ext <;> omega
  · intro l _; simp
  · intro r _ hr
    cases hs : st r with
    | none => rfl
    | some b =>
      dsimp only
      rw [if_neg]
      rintro ⟨hb, hb2⟩
      apply hr
      obtain ⟨⟨_, _, hbm⟩, ⟨_, _, hbm2⟩⟩ := hst.isM r b hs
      have hj : b.1.j = a.1.j := by rw [hb]
      have hj2 : b.2.j = a.2.j := by rw [hb2]
      obtain ⟨q1, q2⟩ := QN.idx_spec (by omega : 0 ≤ b.1.j) hbm
      obtain ⟨p1, p2⟩ := QN.idx_spec (by omega : 0 ≤ b.2.j) hbm2
      have hmem : (b.1.idx, b.2.idx) ∈ Finset.range (a.1.j.toNat + 1) ×ˢ Finset.range (a.2.j.toNat + 1) :=
        Finset.mem_product.2 ⟨Finset.mem_range.2 (by rw [← hj]; dsimp only; omega), Finset.mem_range.2 (by rw [← hj2]; dsimp only; omega)⟩
      refine ⟨(b.1.idx, b.2.idx), hmem, ?_⟩
      apply hst.inj
      rw [hk _ hmem, hs, Option.some.injEq]
      have e1 : ({ a.1 with m := a.1.j - 2 * (b.1.idx : ℤ) } : QN) = b.1 := by
        rw [show a.1.j - 2 * (b.1.idx : ℤ) = b.1.m by omega]; exact hb.symm
      have e2 : ({ a.2 with m := a.2.j - 2 * (b.2.idx : ℤ) } : QN) = b.2 := by
        rw [show a.2.j - 2 * (b.2.idx : ℤ) = b.2.m by omega]; exact hb2.symm
      dsimp only
      rw [e1, e2]
  · intro l hl
    rw [hk l hl]
    dsimp only
    rw [if_pos ⟨rfl, rfl⟩]

theorem rotSym_level (g : M2) (a b : QN) (hab : a = { b with m := a.m }) (l : ℕ) :
    rotSym g { a with m := a.j - 2 * l } b = g.sym a.j.toNat l b.idx := by
  have hj : a.j = b.j := by rw [hab]
  unfold rotSym
  rw [if_pos (by rw [hab]), idx_level, hj]

theorem rotSym_level_ne (g : M2) (a b : QN) (hab : ¬ a = { b with m := a.m }) (l : ℕ) : rotSym g { a with m := a.j - 2 * l } b = 0 := by
  unfold rotSym
  rw [if_neg]
  intro h
  apply hab
  have h2 : ({ a with m := a.j - 2 * l } : QN) = { b with m := a.j - 2 * l } := h
  rw [QN.mk.injEq] at h2
  obtain ⟨q1, q2, q3, q4, _, q6⟩ := h2
  cases a; cases b
  dsimp only at q1 q2 q3 q4 q6 ⊢
  subst q1 q2 q3 q4 q6
  rfl

/-- The overlap of two columns of one atom. -/
theorem rotSym_overlap {g : M2} (hg : g.SU) (a b : QN) (a0 : 0 ≤ a.j) (am : IsM a.j a.m) (bm : IsM b.j b.m) :
    ∑ l ∈ Finset.range (a.j.toNat + 1), (starRingEnd ℂ) (g.sym a.j.toNat l a.idx) * rotSym g { a with m := a.j - 2 * l } b = if a = b then 1 else 0 := by
  by_cases hab : a = { b with m := a.m }
  · have hj : a.j = b.j := by rw [hab]
    rw [Finset.sum_congr rfl fun l _ => by rw [rotSym_level g a b hab l]]
    rw [sym_unitary_col hg a.j.toNat a.idx b.idx (QN.idx_spec a0 am).1 (by rw [hj]; exact (QN.idx_spec (by omega : 0 ≤ b.j) bm).1)]
    by_cases h : a = b
    · rw [if_pos h, if_pos (by rw [h])]
    · rw [if_neg h, if_neg fun h' => h (idx_inj a0 am bm hab h')]
  · rw [if_neg (by rintro rfl; exact hab rfl)]
    refine Finset.sum_eq_zero fun l _ => ?_
    rw [rotSym_level_ne g a b hab, mul_zero]

theorem rotSymPairs_col (st : Fin N → Option (QN × QN)) (hst : RotPairs st) (hz : AllZeemanPairs st) {g : M2} (hg : g.SU) :
    (rotSymPairs st g)ᴴ * rotSymPairs st g = 1 := by
  ext r c
  rw [Matrix.mul_apply]
  obtain ⟨a, ha⟩ := hst.all r
  obtain ⟨b, hb⟩ := hst.all c
  obtain ⟨⟨a0, a1, am⟩, ⟨a0', a1', am'⟩⟩ := hst.isM r a ha
  obtain ⟨⟨b0, b1, bm⟩, ⟨b0', b1', bm'⟩⟩ := hst.isM c b hb
  have e : ∀ k, (rotSymPairs st g)ᴴ r k * rotSymPairs st g k c = (match st k with
      | some d => if d.1 = { a.1 with m := d.1.m } ∧ d.2 = { a.2 with m := d.2.m } then
          (starRingEnd ℂ) (g.sym a.1.j.toNat d.1.idx a.1.idx) * rotSym g d.1 b.1 * ((starRingEnd ℂ) (g.sym a.2.j.toNat d.2.idx a.2.idx) * rotSym g d.2 b.2)
          else 0
      | none => 0) := by
    intro k
    rw [Matrix.conjTranspose_apply]
    unfold rotSymPairs
    rw [ha, hb]
    cases hk : st k with
    | none => simp
    | some d =>
      dsimp only
      rw [star_mul']
      by_cases h : d.1 = { a.1 with m := d.1.m }
      · by_cases h2 : d.2 = { a.2 with m := d.2.m }
        · rw [if_pos ⟨h, h2⟩]
          have e1 : rotSym g d.1 a.1 = g.sym a.1.j.toNat d.1.idx a.1.idx := by unfold rotSym; rw [if_pos h]
          have e2 : rotSym g d.2 a.2 = g.sym a.2.j.toNat d.2.idx a.2.idx := by unfold rotSym; rw [if_pos h2]
          rw [e1, e2]
          show (starRingEnd ℂ) _ * (starRingEnd ℂ) _ * _ = _
          ring
        · rw [if_neg fun h => h2 h.2]
          have : rotSym g d.2 a.2 = 0 := by unfold rotSym; rw [if_neg h2]
          rw [this]; simp
      · rw [if_neg fun h' => h h'.1]
        have : rotSym g d.1 a.1 = 0 := by unfold rotSym; rw [if_neg h]
        rw [this]; simp
  rw [Finset.sum_congr rfl fun k _ => e k, sum_multiplet_pair st hst hz r a ha fun d => (starRingEnd ℂ) (g.sym a.1.j.toNat d.1.idx a.1.idx) * rotSym g d.1 b.1 *
    ((starRingEnd ℂ) (g.sym a.2.j.toNat d.2.idx a.2.idx) * rotSym g d.2 b.2)]
  simp only [idx_level]
  rw [Finset.sum_product]
  simp only [← Finset.mul_sum]
  rw [← Finset.sum_mul, rotSym_overlap hg a.1 b.1 a0 am bm, rotSym_overlap hg a.2 b.2 a0' am' bm']
  by_cases hrc : r = c
  · subst hrc
    rw [ha, Option.some.injEq] at hb
    subst hb
    simp
  · rw [Matrix.one_apply_ne hrc]
    have hne : a ≠ b := by
      rintro rfl
      exact hrc (hst.inj r c (by rw [ha, hb]))
    by_cases h1 : a.1 = b.1
    · rw [if_neg fun h2 : a.2 = b.2 => hne (Prod.ext h1 h2), mul_zero]
    · rw [if_neg h1, zero_mul]

/-- **C78** for pairs: for all angles, the rotator of a pair system that contains all combinations of Zeeman levels is unitary. -/
theorem C78_pair_unitary (st : Fin N → Option (QN × QN)) (hst : RotPairs st) (hz : AllZeemanPairs st) (α β γ : ℝ) :
    ∃ M, rotator2 false st α β γ = .ok M ∧ Mᴴ * M = 1 ∧ M * Mᴴ = 1 := by
  obtain ⟨β', _, h⟩ := rotator2_sym st hst α β γ
  have := rotSymPairs_col st hst hz (euler2_su (-γ) β' (-α))
  exact ⟨_, h, this, mul_eq_one_comm.1 this⟩

end PI
