import Verif.Sys.Combine

/-! # Property C94: what `add` accepts, settings that are not compared, symmetries -/

namespace PI
open Matrix

variable {n k k' : Type} [Fintype n] [DecidableEq n] [Fintype k] [DecidableEq k] [Fintype k'] [DecidableEq k']
variable {P κ : Type} [DecidableEq κ]

/-- For two systems with any histories, `add` accepts exactly if the compared settings and the flags agree and the
basis vectors are orthogonal (to 1e-12), and refuses without damage if settings or flags differ. -/
theorem C94_accepts (I : Inter P κ n) (s0 s : CSys P κ n k) (t0 t : CSys P κ n k') (hs0 : s0.Fresh I) (ht0 : t0.Fresh I)
    (hs : Hist I s0 s) (ht : Hist I t0 t) (agree : P → P → Bool) :
    ((∃ u, s.add agree t = .ok u) ↔ agree s.p t.p = true ∧ s.mem = t.mem ∧ s.contained = t.contained ∧
      s.needNew = t.needNew ∧ ∀ i j, ‖(s.Vᴴ * t.V) i j‖ ≤ 1 / 10 ^ 12) ∧
    (s.add agree t = .broken → ∃ i j, 1 / 10 ^ 12 < ‖(s.Vᴴ * t.V) i j‖) := by
  obtain ⟨A, X, hA⟩ := param_hist_inv I s0 s hs0 hs
  obtain ⟨B, Y, hB⟩ := param_hist_inv I t0 t ht0 ht
  have hcache : s.mem = t.mem → s.contained = t.contained → s.Vc.isSome = t.Vc.isSome ∧ s.Hc.isSome = t.Hc.isSome := by
    intro hm hc
    cases h1 : s.contained with
    | false =>
      obtain ⟨-, -, a3, a4, -⟩ := hA.no h1
      obtain ⟨-, -, b3, b4, -⟩ := hB.no (hc ▸ h1)
      rw [a3, a4, b3, b4]; exact ⟨rfl, rfl⟩
    | true =>
      obtain ⟨y1, y2, -⟩ := hA.yes h1
      obtain ⟨z1, z2, -⟩ := hB.yes (hc ▸ h1)
      cases h2 : s.mem with
      | false =>
        rw [(y1 h2).1, (y1 h2).2, (z1 (hm ▸ h2)).1, (z1 (hm ▸ h2)).2]; exact ⟨rfl, rfl⟩
      | true =>
        rw [(y2 h2).1, (y2 h2).2.1, (z2 (hm ▸ h2)).1, (z2 (hm ▸ h2)).2.1]; exact ⟨rfl, rfl⟩
  unfold CSys.add
  by_cases c1 : agree s.p t.p = true
  · rw [if_neg (by simpa using c1)]
    by_cases c2 : s.mem ≠ t.mem ∨ s.contained ≠ t.contained ∨ s.needNew ≠ t.needNew
    · rw [if_pos c2]
      refine ⟨⟨fun ⟨u, h⟩ => (by cases h), fun h => ?_⟩, fun h => by cases h⟩
      rcases c2 with c | c | c
      · exact absurd h.2.1 c
      · exact absurd h.2.2.1 c
      · exact absurd h.2.2.2.1 c
    · rw [if_neg c2]
      push Not at c2
      obtain ⟨d1, d2⟩ := hcache c2.1 c2.2.1
      rw [if_neg (by simpa using d1)]
      by_cases c3 : ∀ i j, ‖(s.Vᴴ * t.V) i j‖ ≤ 1 / 10 ^ 12
      · rw [if_neg (not_not.mpr c3), if_neg (by simpa using d2)]
        exact ⟨⟨fun _ => ⟨c1, c2.1, c2.2.1, c2.2.2, c3⟩, fun _ => ⟨_, rfl⟩⟩, fun h => by cases h⟩
      · rw [if_pos c3]
        refine ⟨⟨fun ⟨u, h⟩ => (by cases h), fun h => absurd h.2.2.2.2 c3⟩, fun _ => ?_⟩
        push Not at c3
        exact c3
  · rw [if_pos c1]
    exact ⟨⟨fun ⟨u, h⟩ => (by cases h), fun h => absurd h.1 c1⟩, fun h => by cases h⟩

/-- Which settings are compared: for one atom all but those of the ion, for two atoms all but those of the Green
tensor. -/
theorem C94_compared_settings_partial :
    (∀ p q : OneSettings, p.agree q = true ↔ q = { p with charge := q.charge, ordermax := q.ordermax, distance := q.distance }) ∧
    (∀ p q : TwoSettings, p.agree q = true ↔ q = { p with green := q.green, surface := q.surface }) := by
  constructor
  · rintro ⟨a, b, c, d, e, f, g⟩ ⟨a', b', c', d', e', f', g'⟩
    simp only [OneSettings.agree, Bool.and_eq_true, decide_eq_true_eq, OneSettings.mk.injEq]
    constructor
    · rintro ⟨⟨⟨rfl, rfl⟩, rfl⟩, rfl⟩; simp
    · rintro ⟨rfl, rfl, rfl, rfl, -⟩; simp
  · rintro ⟨a, b, c, d, e, f⟩ ⟨a', b', c', d', e', f'⟩
    simp only [TwoSettings.agree, Bool.and_eq_true, decide_eq_true_eq, TwoSettings.mk.injEq]
    constructor
    · rintro ⟨⟨⟨rfl, rfl⟩, rfl⟩, rfl⟩; simp
    · rintro ⟨rfl, rfl, rfl, -, -, rfl⟩; simp

/-! ## Witnesses -/

/-- A system with the single basis vector `i` of two states. -/
noncomputable def oneVec (κ : Type) (p : P) (i : Fin 2) : CSys P κ (Fin 2) Unit :=
  ⟨p, Matrix.of fun a _ => if a = i then 1 else 0, 0, none, none, fun _ => none, false, false, false, false⟩

omit [DecidableEq κ] in
theorem oneVec_fresh (I : Inter P κ (Fin 2)) (p : P) (h : I.need p = []) (i : Fin 2) : (oneVec κ p i).Fresh I := by
  refine ⟨rfl, rfl, fun _ => rfl, rfl, rfl, rfl, h, ?_⟩
  ext a b
  fin_cases i <;> simp [oneVec, Matrix.mul_apply, Fin.sum_univ_two]

/-- It is given parameters and its Hamiltonian is built. -/
noncomputable def oneVecBuilt (I : Inter P κ (Fin 2)) (p0 p : P) (i : Fin 2) : CSys P κ (Fin 2) Unit :=
  { (oneVec κ p0 i) with p := p, needNew := true, Vc := some (oneVec κ p0 i).V, Hc := some (oneVec κ p0 i).H }.finish I

theorem oneVecBuilt_hist (I : Inter P κ (Fin 2)) (p0 p : P) (i : Fin 2) : Hist I (oneVec κ p0 i) (oneVecBuilt I p0 p i) := by
  have h1 : (oneVec κ p0 i).setParams p = .ok { (oneVec κ p0 i) with p := p, needNew := true } := by
    simp [CSys.setParams, oneVec]
  refine Hist.build (Hist.set p Hist.start h1) ?_
  unfold CSys.build
  rw [if_pos rfl, if_neg (by simp [oneVec]), if_neg (by simp [oneVec])]
  rfl

theorem oneVec_add (I : Inter P κ (Fin 2)) (agree : P → P → Bool) (p0 q0 p q : P) (hp : I.need p0 = []) (hq : I.need q0 = [])
    (h : agree p q = true) : ∃ u, (oneVecBuilt I p0 p 0).add agree (oneVecBuilt I q0 q 1) = .ok u := by
  rw [(C94_accepts I (oneVec κ p0 0) _ (oneVec κ q0 1) _ (oneVec_fresh I p0 hp 0) (oneVec_fresh I q0 hq 1)
    (oneVecBuilt_hist I p0 p 0) (oneVecBuilt_hist I q0 q 1) agree).1]
  refine ⟨h, rfl, rfl, rfl, ?_⟩
  intro a b
  have : (oneVecBuilt I p0 p 0).Vᴴ * (oneVecBuilt I q0 q 1).V = 0 := by
    ext a b
    change ((oneVec κ p0 0).Vᴴ * (oneVec κ q0 1).V) a b = 0
    simp [oneVec, Matrix.mul_apply, Fin.sum_univ_two]
  rw [this]; simp

omit [DecidableEq κ] in
theorem oneVec_orth (p0 q0 : P) : (oneVec κ p0 0).Vᴴ * (oneVec κ q0 1).V = 0 := by
  ext a b
  simp [oneVec, Matrix.mul_apply, Fin.sum_univ_two]

omit [DecidableEq κ] in
theorem oneVec_proj (p0 : P) (i : Fin 2) : (oneVec κ p0 i).V * (oneVec κ p0 i).Vᴴ = Matrix.single i i 1 := by
  ext a b
  fin_cases i <;> fin_cases a <;> fin_cases b <;> simp [oneVec, Matrix.mul_apply, Matrix.single]

/-- **The order matters.** Two states coupled by a field: if the Hamiltonians are built first and the systems are combined then,
the coupling is missing; setting the field again, to the value it has, makes it appear. -/
theorem C94_order_fails : ∃ u u1 u2 : CSys ℕ Bool (Fin 2) (Unit ⊕ Unit),
    (oneVecBuilt exInter 0 1 0).add (fun p q => decide (p = q)) (oneVecBuilt exInter 0 1 1) = .ok u ∧
    u.build exInter = .ok u ∧ (u.V * u.H * u.Vᴴ) 0 1 = 0 ∧
    u.setParams u.p = .ok u1 ∧ u1.build exInter = .ok u2 ∧ (u2.V * u2.H * u2.Vᴴ) 0 1 = 1 := by
  obtain ⟨u, hu⟩ := oneVec_add exInter (fun p q => decide (p = q)) 0 0 1 1 rfl rfl rfl
  have f0 := oneVec_fresh exInter 0 rfl 0
  have f1 := oneVec_fresh exInter 0 rfl 1
  have g0 := oneVecBuilt_hist exInter 0 1 0
  have g1 := oneVecBuilt_hist exInter 0 1 1
  obtain ⟨A, X, hA⟩ := param_hist_inv exInter _ _ f0 g0
  obtain ⟨B, Y, hB⟩ := param_hist_inv exInter _ _ f1 g1
  obtain ⟨e1, -, e3, e4, e5, -, -, -, e9⟩ := add_oper hA hB hu
  have hset : ∃ u1, u.setParams u.p = .ok u1 := by
    unfold CSys.add at hu
    split_ifs at hu
    injection hu with hu
    subst hu
    exact ⟨_, rfl⟩
  obtain ⟨u1, hu1⟩ := hset
  obtain ⟨u2, hb, hp2, hop⟩ := C94_after_setter exInter _ _ _ _ f0 f1 g0 g1 (oneVec_orth 0 0) _ u u1 u1 hu u.p hu1 Hist.start
  have hp1 : u1.p = 1 := by
    unfold CSys.setParams at hu1
    split_ifs at hu1
    injection hu1 with hu1
    rw [← hu1]; exact e1
  refine ⟨u, u1, u2, hu, (C94_built_first_fails exInter _ _ _ _ f0 f1 g0 g1 _ u hu rfl rfl rfl).1, ?_, hu1, hb, ?_⟩
  · rw [e9 rfl rfl]
    unfold freshOper
    rw [oneVec_proj, oneVec_proj]
    simp [oneVec, oneVecBuilt, CSys.finish, CSys.addInter, CSys.initInter, exInter, Matrix.mul_apply, Matrix.single, Fin.sum_univ_two]
  · rw [hop, hp1]
    unfold unionOper freshOper
    rw [oneVec_proj, oneVec_proj]
    simp [oneVec, exInter, Matrix.mul_apply, Matrix.single, Fin.sum_univ_two, Matrix.add_apply]

/-- An ion that shifts both states by its charge. -/
noncomputable def ionInter : Inter OneSettings Unit (Fin 2) where
  op := fun _ => 1
  need := fun p => if p.charge = 0 then [] else [()]
  coef := fun p _ => (p.charge : ℂ)

/-- Settings with an ion of the given charge. -/
def ionSettings (c : ℤ) : OneSettings := ⟨"Rb", (0, 0, 0), (0, 0, 0), true, c, 4, 5⟩

/-- **Settings that are not compared.** Two one-atom systems with ions of different charge are combined; the second part
of the Hamiltonian has its own ion until a setter is called, even with the value the system has, and then that of the
first. -/
theorem C94_settings_fails : ∃ u u1 u2 : CSys OneSettings Unit (Fin 2) (Unit ⊕ Unit),
    (oneVecBuilt ionInter (ionSettings 0) (ionSettings 0) 0).add OneSettings.agree
      (oneVecBuilt ionInter (ionSettings 0) (ionSettings 1) 1) = .ok u ∧
    (u.V * u.H * u.Vᴴ) 1 1 = 1 ∧
    u.setParams u.p = .ok u1 ∧ u1.build ionInter = .ok u2 ∧ (u2.V * u2.H * u2.Vᴴ) 1 1 = 0 := by
  obtain ⟨u, hu⟩ := oneVec_add ionInter OneSettings.agree (ionSettings 0) (ionSettings 0) (ionSettings 0) (ionSettings 1) rfl rfl
    (by decide)
  have f0 := oneVec_fresh ionInter (ionSettings 0) rfl 0
  have f1 := oneVec_fresh ionInter (ionSettings 0) rfl 1
  have g0 := oneVecBuilt_hist ionInter (ionSettings 0) (ionSettings 0) 0
  have g1 := oneVecBuilt_hist ionInter (ionSettings 0) (ionSettings 1) 1
  obtain ⟨A, X, hA⟩ := param_hist_inv ionInter _ _ f0 g0
  obtain ⟨B, Y, hB⟩ := param_hist_inv ionInter _ _ f1 g1
  obtain ⟨e1, -, e3, e4, e5, -, -, -, e9⟩ := add_oper hA hB hu
  have hset : ∃ u1, u.setParams u.p = .ok u1 := by
    unfold CSys.add at hu
    split_ifs at hu
    injection hu with hu
    subst hu
    exact ⟨_, rfl⟩
  obtain ⟨u1, hu1⟩ := hset
  obtain ⟨u2, hb, hp2, hop⟩ := C94_after_setter ionInter _ _ _ _ f0 f1 g0 g1 (oneVec_orth _ _) _ u u1 u1 hu u.p hu1 Hist.start
  have hp1 : u1.p = ionSettings 0 := by
    unfold CSys.setParams at hu1
    split_ifs at hu1
    injection hu1 with hu1
    rw [← hu1]; exact e1
  refine ⟨u, u1, u2, hu, ?_, hu1, hb, ?_⟩
  · rw [e9 rfl rfl]
    unfold freshOper
    rw [oneVec_proj, oneVec_proj]
    simp [oneVec, oneVecBuilt, CSys.finish, CSys.addInter, CSys.initInter, ionInter, ionSettings, Matrix.mul_apply, Matrix.single, Fin.sum_univ_two]
  · rw [hop, hp1]
    unfold unionOper freshOper
    rw [oneVec_proj, oneVec_proj]
    simp [oneVec, ionInter, ionSettings]

/-- Two states that no field couples, combined after their Hamiltonians were built: all hypotheses of
`C94_combined_partial` hold. -/
example : (oneVec Bool 0 0).Fresh exInter ∧ (oneVec Bool 0 1).Fresh exInter ∧
    Hist exInter (oneVec Bool 0 0) (oneVecBuilt exInter 0 2 0) ∧ Hist exInter (oneVec Bool 0 1) (oneVecBuilt exInter 0 2 1) ∧
    (oneVec Bool 0 0).Vᴴ * (oneVec Bool 0 1).V = 0 ∧
    (∃ u, (oneVecBuilt exInter 0 2 0).add (fun p q => decide (p = q)) (oneVecBuilt exInter 0 2 1) = .ok u) ∧
    crossOper exInter (oneVec Bool 0 0) (oneVec Bool 0 1) 2 = 0 := by
  refine ⟨oneVec_fresh _ _ rfl _, oneVec_fresh _ _ rfl _, oneVecBuilt_hist _ _ _ _, oneVecBuilt_hist _ _ _ _, oneVec_orth _ _,
    oneVec_add _ _ _ _ _ _ rfl rfl rfl, ?_⟩
  unfold crossOper
  rw [oneVec_proj, oneVec_proj]
  ext a b
  fin_cases a <;> fin_cases b <;>
    simp [exInter, Matrix.mul_apply, Matrix.single, Fin.sum_univ_two]

/-! ## Symmetries -/

/-- Specification: a basis vector has the recorded symmetries.  `hasPar i b w`: the vector has parity `b` under the
operation `i`; `hasMom m w`: it has the (doubled) momentum `m`. -/
def SymRec.Holds {ι W : Type} (hasPar : ι → Bool → W → Prop) (hasMom : ℤ → W → Prop) (s : SymRec ι) (w : W) : Prop :=
  (∀ i b, s.par i = some b → hasPar i b w) ∧ (none ∈ s.rot ∨ ∃ m, some m ∈ s.rot ∧ hasMom m w)

/-- The symmetries recorded for the combined system hold for every basis vector of both systems, and a parity that both have
recorded alike is kept. -/
theorem C94_symmetries {ι W : Type} (hasPar : ι → Bool → W → Prop) (hasMom : ℤ → W → Prop) (s t : SymRec ι) :
    (∀ w, s.Holds hasPar hasMom w → (s.combine t).Holds hasPar hasMom w) ∧
    (∀ w, t.Holds hasPar hasMom w → (s.combine t).Holds hasPar hasMom w) ∧
    (∀ i, s.par i = t.par i → (s.combine t).par i = s.par i) ∧
    (s.rot = t.rot → (s.combine t).rot = s.rot) := by
  have hrot : ∀ r : Finset (Option ℤ), (r = s.rot ∨ r = t.rot) → ∀ w, (none ∈ r ∨ ∃ m, some m ∈ r ∧ hasMom m w) →
      none ∈ (s.combine t).rot ∨ ∃ m, some m ∈ (s.combine t).rot ∧ hasMom m w := by
    intro r hr w h
    simp only [SymRec.combine]
    by_cases h1 : s.rot = t.rot
    · rw [if_pos h1]
      rcases hr with rfl | rfl
      · exact h
      · rw [h1]; exact h
    · rw [if_neg h1]
      by_cases h2 : none ∈ s.rot ∨ none ∈ t.rot
      · rw [if_pos h2]; left; simp
      · rw [if_neg h2]
        rcases h with h | ⟨m, h, hm⟩
        · rcases hr with rfl | rfl
          · exact absurd (Or.inl h) h2
          · exact absurd (Or.inr h) h2
        · right
          refine ⟨m, ?_, hm⟩
          rcases hr with rfl | rfl
          · exact Finset.mem_union_left _ h
          · exact Finset.mem_union_right _ h
  refine ⟨fun w h => ⟨?_, hrot _ (Or.inl rfl) w h.2⟩, fun w h => ⟨?_, hrot _ (Or.inr rfl) w h.2⟩, ?_, ?_⟩
  · intro i b hb
    simp only [SymRec.combine] at hb
    split_ifs at hb with h1
    exact h.1 i b hb
  · intro i b hb
    simp only [SymRec.combine] at hb
    by_cases h1 : s.par i = t.par i
    · rw [if_neg (not_not.mpr h1), h1] at hb
      exact h.1 i b hb
    · rw [if_pos h1] at hb; cases hb
  · intro i hi
    simp [SymRec.combine, hi]
  · intro h
    simp [SymRec.combine, h]

example : let s : SymRec Unit := ⟨fun _ => some true, {some 1}⟩
    let t : SymRec Unit := ⟨fun _ => some true, {some 3}⟩
    (s.combine t).par () = some true ∧ (s.combine t).rot = {some 1, some 3} := by decide

end PI
