import Verif.Sys.Ham
import Verif.Sys.Props

/-! # C35 the Hamiltonian depends only on the current parameters -/

namespace PI
open Matrix

variable {n k : Type} [Fintype n] [DecidableEq n] [Fintype k] [DecidableEq k] {P κ : Type} [DecidableEq κ]

/-- Specification: the operator that a fresh system with parameters `p` represents, given the unperturbed operator and the
projector onto the basis vectors. -/
noncomputable def freshOper (I : Inter P κ n) (op0 proj : Matrix n n ℂ) (p : P) : Matrix n n ℂ :=
  op0 + ((I.need p).map fun key => I.coef p key • (proj * I.op key * proj)).sum

/-- A freshly built basis: no interaction, no caches, parameters that need no interaction, orthonormal
vectors. -/
structure CSys.Fresh (I : Inter P κ n) (s : CSys P κ n k) : Prop where
  noVc : s.Vc = none
  noHc : s.Hc = none
  noInter : ∀ key, s.inter key = none
  notContained : s.contained = false
  noNew : s.needNew = false
  noArt : s.art = false
  noNeed : I.need s.p = []
  orth : s.Vᴴ * s.V = 1

/-- All histories of setters, Hamiltonian builds and diagonalizations (with whatever eigenvectors the solver
returns). -/
inductive Hist (I : Inter P κ n) (s0 : CSys P κ n k) : CSys P κ n k → Prop
  | start : Hist I s0 s0
  | set {s s' : CSys P κ n k} (p : P) : Hist I s0 s → s.setParams p = .ok s' → Hist I s0 s'
  | build {s s' : CSys P κ n k} : Hist I s0 s → s.build I = .ok s' → Hist I s0 s'
  | diag {s s' : CSys P κ n k} (U : Matrix k k ℂ) (d : k → ℝ) : Hist I s0 s → s.build I = .ok s' → Uᴴ * U = 1 →
      s'.H * U = U * Matrix.diagonal (fun i => (d i : ℂ)) → Hist I s0 (s'.diagonalize U d)

/-- The invariant. -/
structure PInv (I : Inter P κ n) (s0 s : CSys P κ n k) (Vb : Matrix n k ℂ) (Hb : Matrix k k ℂ) : Prop where
  orth : Vbᴴ * Vb = 1
  proj : Vb * Vbᴴ = s0.V * s0.Vᴴ
  op : Vb * Hb * Vbᴴ = s0.V * s0.H * s0.Vᴴ
  inter : ∀ key M, s.inter key = some M → M = Vbᴴ * I.op key * Vb
  art : s.art = false
  mem : s.mem = s0.mem
  yes : s.contained = true →
    (s.mem = false → s.Vc = some Vb ∧ s.Hc = some Hb) ∧
    (s.mem = true → s.Vc = none ∧ s.Hc = none ∧ s.needNew = false) ∧
    (s.needNew = false → s.V * s.H * s.Vᴴ = freshOper I (s0.V * s0.H * s0.Vᴴ) (s0.V * s0.Vᴴ) s.p)
  no : s.contained = false → s.V = Vb ∧ s.H = Hb ∧ s.Vc = none ∧ s.Hc = none ∧
    (s.needNew = false → s.p = s0.p ∧ ∀ key, s.inter key = none)

theorem sum_conj (Vb : Matrix n k ℂ) (L : List κ) (c : κ → ℂ) (op : κ → Matrix n n ℂ) :
    Vb * (L.map fun key => c key • (Vbᴴ * op key * Vb)).sum * Vbᴴ =
      (L.map fun key => c key • ((Vb * Vbᴴ) * op key * (Vb * Vbᴴ))).sum := by
  induction L with
  | nil => simp
  | cons a L ih =>
    rw [List.map_cons, List.map_cons, List.sum_cons, List.sum_cons, Matrix.mul_add, Matrix.add_mul, ih]
    congr 1
    rw [Matrix.mul_smul, Matrix.smul_mul]
    simp only [Matrix.mul_assoc]

/-- The result of one build from the base matrices. -/
theorem build_oper (I : Inter P κ n) (s0 s : CSys P κ n k) (Vb : Matrix n k ℂ) (Hb : Matrix k k ℂ) (h : PInv I s0 s Vb Hb)
    (s1 : CSys P κ n k) (hV : s1.V = Vb) (hH : s1.H = Hb) (hi : s1.inter = s.inter) (ha : s1.art = false) (hp : s1.p = s.p) :
    ((s1.initInter I).addInter I).V * ((s1.initInter I).addInter I).H * ((s1.initInter I).addInter I).Vᴴ =
      freshOper I (s0.V * s0.H * s0.Vᴴ) (s0.V * s0.Vᴴ) s.p ∧
    ∀ key M, ((s1.initInter I).addInter I).inter key = some M → M = Vbᴴ * I.op key * Vb := by
  have hint : ∀ key M, (s1.initInter I).inter key = some M → M = Vbᴴ * I.op key * Vb := by
    intro key M hM
    unfold CSys.initInter at hM
    dsimp only at hM
    cases hk : s1.inter key with
    | some M' =>
      rw [hk] at hM
      injection hM with hM
      subst hM
      exact h.inter key M' (by rw [← hi]; exact hk)
    | none =>
      rw [hk] at hM
      dsimp only at hM
      split_ifs at hM with h1
      · rename_i h2
        rw [ha] at h2; cases h2
      · injection hM with hM
        rw [← hM, hV]
  have hsome : ∀ key ∈ I.need s.p, ((s1.initInter I).inter key).getD 0 = Vbᴴ * I.op key * Vb := by
    intro key hkey
    cases hk : (s1.initInter I).inter key with
    | some M => rw [hint key M hk]; rfl
    | none =>
      exfalso
      unfold CSys.initInter at hk
      dsimp only at hk
      cases hk2 : s1.inter key with
      | some M => rw [hk2] at hk; cases hk
      | none =>
        rw [hk2] at hk
        dsimp only at hk
        rw [hp, if_pos hkey] at hk
        cases hk
  refine ⟨?_, hint⟩
  change s1.V * (s1.H + ((I.need s1.p).map fun key => I.coef s1.p key • ((s1.initInter I).inter key).getD 0).sum) * s1.Vᴴ = _
  rw [hV, hH, hp, Matrix.mul_add, Matrix.add_mul, h.op]
  unfold freshOper
  congr 1
  have : ((I.need s.p).map fun key => I.coef s.p key • ((s1.initInter I).inter key).getD 0) =
      (I.need s.p).map fun key => I.coef s.p key • (Vbᴴ * I.op key * Vb) := by
    apply List.map_congr_left
    intro key hkey
    rw [hsome key hkey]
  rw [this, sum_conj, h.proj]

/-- Building from a state with the invariant. -/
theorem build_inv (I : Inter P κ n) (s0 s : CSys P κ n k) (h0 : s0.Fresh I) (Vb : Matrix n k ℂ) (Hb : Matrix k k ℂ)
    (h : PInv I s0 s Vb Hb) :
    ∃ s', s.build I = .ok s' ∧ PInv I s0 s' Vb Hb ∧ s'.needNew = false ∧ s'.p = s.p ∧
      s'.V * s'.H * s'.Vᴴ = freshOper I (s0.V * s0.H * s0.Vᴴ) (s0.V * s0.Vᴴ) s.p := by
  have fin : ∀ s1 : CSys P κ n k, s1.V = Vb → s1.H = Hb → s1.inter = s.inter → s1.art = false → s1.p = s.p → s1.mem = s.mem →
      (s.mem = false → s1.Vc = some Vb ∧ s1.Hc = some Hb) → (s.mem = true → s1.Vc = none ∧ s1.Hc = none) →
      PInv I s0 (s1.finish I) Vb Hb ∧ (s1.finish I).needNew = false ∧ (s1.finish I).p = s.p ∧
      (s1.finish I).V * (s1.finish I).H * (s1.finish I).Vᴴ = freshOper I (s0.V * s0.H * s0.Vᴴ) (s0.V * s0.Vᴴ) s.p := by
    intro s1 a1 a2 a3 a4 a5 a6 a7 a8
    obtain ⟨b1, b2⟩ := build_oper I s0 s Vb Hb h s1 a1 a2 a3 a4 a5
    refine ⟨⟨h.orth, h.proj, h.op, ?_, a4, a6.trans h.mem, ?_, (fun hc => by cases hc)⟩, rfl, a5, b1⟩
    · intro key M hM
      change (if s1.mem = true then fun _ => none else ((s1.initInter I).addInter I).inter) key = some M at hM
      by_cases hm : s1.mem = true
      · rw [if_pos hm] at hM; cases hM
      · rw [if_neg hm] at hM; exact b2 key M hM
    · intro _
      refine ⟨fun hm => a7 (a6 ▸ hm), fun hm => ⟨(a8 (a6 ▸ hm)).1, (a8 (a6 ▸ hm)).2, rfl⟩, fun _ => ?_⟩
      rw [show (s1.finish I).p = s.p from a5]
      exact b1
  unfold CSys.build
  by_cases hn : s.needNew = true
  · rw [if_pos hn]
    by_cases hc : s.contained = true
    · obtain ⟨y1, y2, y3⟩ := h.yes hc
      have hmem : s.mem = false := by
        by_contra hm
        have := (y2 (by simpa using hm)).2.2
        rw [hn] at this; cases this
      obtain ⟨c1, c2⟩ := y1 hmem
      rw [if_pos hc, if_neg (by rw [hmem, c1, c2]; simp)]
      exact ⟨_, rfl, fin _ (by rw [c1]; rfl) (by rw [c2]; rfl) rfl h.art rfl rfl (fun _ => ⟨c1, c2⟩)
        (fun hm => by rw [hmem] at hm; cases hm)⟩
    · rw [if_neg hc]
      obtain ⟨n1, n2, n3, n4, n5⟩ := h.no (by simpa using hc)
      by_cases hm : s.mem = true
      · rw [if_pos hm]
        exact ⟨_, rfl, fin _ n1 n2 rfl h.art rfl rfl (fun hm' => by rw [hm] at hm'; cases hm') (fun _ => ⟨n3, n4⟩)⟩
      · rw [if_neg hm]
        exact ⟨_, rfl, fin _ n1 n2 rfl h.art rfl rfl (fun _ => ⟨by rw [← n1], by rw [← n2]⟩) (fun hm' => absurd hm' hm)⟩
  · rw [if_neg hn]
    have hn' : s.needNew = false := by simpa using hn
    refine ⟨s, rfl, h, hn', rfl, ?_⟩
    cases hc : s.contained with
    | true => exact (h.yes hc).2.2 hn'
    | false =>
      obtain ⟨n1, n2, n3, n4, n5⟩ := h.no hc
      obtain ⟨p1, p2⟩ := n5 hn'
      rw [n1, n2, h.op, p1]
      unfold freshOper
      rw [h0.noNeed]
      simp

theorem param_hist_from (I : Inter P κ n) (s0 s1 s : CSys P κ n k) (h0 : s0.Fresh I) (h1 : ∃ Vb Hb, PInv I s0 s1 Vb Hb)
    (hs : Hist I s1 s) : ∃ Vb Hb, PInv I s0 s Vb Hb := by
  induction hs with
  | start => exact h1
  | @set s s' p _ hset ih =>
    obtain ⟨Vb, Hb, h⟩ := ih
    unfold CSys.setParams at hset
    split_ifs at hset with h1 h2
    injection hset with hset
    subst hset
    refine ⟨Vb, Hb, h.orth, h.proj, h.op, h.inter, h.art, h.mem, ?_, ?_⟩
    · intro hc
      obtain ⟨y1, y2, y3⟩ := h.yes hc
      refine ⟨y1, ?_, (fun hn => by cases hn)⟩
      intro hm
      exfalso
      apply h2
      refine ⟨hc, ?_⟩
      rw [(y2 hm).1]; rfl
    · intro hc
      obtain ⟨n1, n2, n3, n4, n5⟩ := h.no hc
      exact ⟨n1, n2, n3, n4, (fun hn => by cases hn)⟩
  | @build s s' _ hb ih =>
    obtain ⟨Vb, Hb, h⟩ := ih
    obtain ⟨s'', hb', hi, -⟩ := build_inv I s0 s h0 Vb Hb h
    rw [hb] at hb'
    injection hb' with hb'
    subst hb'
    exact ⟨Vb, Hb, hi⟩
  | @diag s s' U d _ hb hU hd ih =>
    obtain ⟨Vb, Hb, h⟩ := ih
    obtain ⟨s'', hb', hi, hnew, -, hop⟩ := build_inv I s0 s h0 Vb Hb h
    rw [hb] at hb'
    injection hb' with hb'
    subst hb'
    have hU' : U * Uᴴ = 1 := mul_eq_one_comm.mp hU
    have hpres : s'.V * U * Matrix.diagonal (fun i => (d i : ℂ)) * (s'.V * U)ᴴ = s'.V * s'.H * s'.Vᴴ := by
      rw [Matrix.conjTranspose_mul]
      calc s'.V * U * Matrix.diagonal (fun i => (d i : ℂ)) * (Uᴴ * s'.Vᴴ)
          = s'.V * (U * Matrix.diagonal (fun i => (d i : ℂ))) * Uᴴ * s'.Vᴴ := by simp only [Matrix.mul_assoc]
        _ = s'.V * (s'.H * (U * Uᴴ)) * s'.Vᴴ := by rw [← hd]; simp only [Matrix.mul_assoc]
        _ = s'.V * s'.H * s'.Vᴴ := by rw [hU', Matrix.mul_one]
    cases hc : s'.contained with
    | true =>
      obtain ⟨y1, y2, y3⟩ := hi.yes hc
      refine ⟨Vb, Hb, hi.orth, hi.proj, hi.op, hi.inter, hi.art, hi.mem, ?_, ?_⟩
      · intro _
        exact ⟨y1, y2, fun hn => hpres.trans (y3 hn)⟩
      · intro hc2
        have : s'.contained = false := hc2
        rw [hc] at this; cases this
    | false =>
      obtain ⟨n1, n2, n3, n4, n5⟩ := hi.no hc
      obtain ⟨p1, p2⟩ := n5 hnew
      refine ⟨s'.V * U, Matrix.diagonal (fun i => (d i : ℂ)), ?_, ?_, ?_, ?_, hi.art, hi.mem, ?_, ?_⟩
      · rw [Matrix.conjTranspose_mul, n1]
        calc Uᴴ * Vbᴴ * (Vb * U) = Uᴴ * (Vbᴴ * Vb) * U := by simp only [Matrix.mul_assoc]
          _ = 1 := by rw [hi.orth, Matrix.mul_one, hU]
      · rw [Matrix.conjTranspose_mul, n1, ← hi.proj]
        calc Vb * U * (Uᴴ * Vbᴴ) = Vb * (U * Uᴴ) * Vbᴴ := by simp only [Matrix.mul_assoc]
          _ = Vb * Vbᴴ := by rw [hU', Matrix.mul_one]
      · rw [hpres, n1, n2, hi.op]
      · intro key M hM
        have : s'.inter key = some M := hM
        rw [p2] at this; cases this
      · intro hc2
        have : s'.contained = true := hc2
        rw [hc] at this; cases this
      · intro _
        exact ⟨rfl, rfl, n3, n4, fun _ => ⟨p1, p2⟩⟩

theorem param_hist_inv (I : Inter P κ n) (s0 s : CSys P κ n k) (h0 : s0.Fresh I) (hs : Hist I s0 s) : ∃ Vb Hb, PInv I s0 s Vb Hb := by
  refine param_hist_from I s0 s0 s h0 ?_ hs
  refine ⟨s0.V, s0.H, h0.orth, rfl, rfl, ?_, h0.noArt, rfl, ?_, ?_⟩
  · intro key M hM; rw [h0.noInter] at hM; cases hM
  · intro hc; rw [h0.notContained] at hc; cases hc
  · intro _; exact ⟨rfl, rfl, h0.noVc, h0.noHc, fun _ => ⟨rfl, h0.noInter⟩⟩

/-- **C35 (partial).** For all interactions, all fresh systems, and all histories of setters, Hamiltonian builds and diagonalizations:
building the Hamiltonian never throws and the represented operator is that of a fresh system with the current
parameters; without memory saving no setter throws, with memory saving a setter throws exactly after interaction was added.
Missing: histories with buildInteraction after diagonalize, rotate after diagonalize, unitarize
without interaction and constrainBasisvectors after diagonalize, for which the claim is false (`C35_*_fails`). -/
theorem C35_current_parameters_partial (I : Inter P κ n) (s0 s : CSys P κ n k) (h0 : s0.Fresh I) (hs : Hist I s0 s) :
    (∃ s', s.build I = .ok s' ∧ s'.p = s.p ∧
      s'.V * s'.H * s'.Vᴴ = freshOper I (s0.V * s0.H * s0.Vᴴ) (s0.V * s0.Vᴴ) s.p) ∧
    (∀ p, s.setParams p = .throw ↔ s0.mem = true ∧ s.contained = true) := by
  obtain ⟨Vb, Hb, h⟩ := param_hist_inv I s0 s h0 hs
  obtain ⟨s', hb, -, -, hp, hop⟩ := build_inv I s0 s h0 Vb Hb h
  refine ⟨⟨s', hb, hp, hop⟩, ?_⟩
  intro p
  unfold CSys.setParams
  rw [← h.mem]
  cases hc : s.contained with
  | false =>
    obtain ⟨n1, n2, n3, n4, n5⟩ := h.no hc
    rw [n3, n4]
    simp
  | true =>
    obtain ⟨y1, y2, y3⟩ := h.yes hc
    cases hm : s.mem with
    | false =>
      obtain ⟨c1, c2⟩ := y1 hm
      rw [c1, c2]
      simp
    | true =>
      obtain ⟨c1, c2, -⟩ := y2 hm
      rw [c1, c2]
      simp

/-! ### The histories for which the claim is false -/

/-- Two states, two interaction operators σx and σz; parameter 0 needs nothing, 1 needs σx, 2 needs σz. -/
noncomputable def exInter : Inter ℕ Bool (Fin 2) where
  op := fun b => if b then !![1, 0; 0, -1] else !![0, 1; 1, 0]
  need := fun p => if p = 0 then [] else if p = 1 then [false] else [true]
  coef := fun _ _ => 1

/-- The fresh system with zero unperturbed Hamiltonian. -/
noncomputable def exC : CSys ℕ Bool (Fin 2) (Fin 2) := ⟨0, 1, 0, none, none, fun _ => none, false, false, false, false⟩

theorem exC_fresh : exC.Fresh exInter := ⟨rfl, rfl, fun _ => rfl, rfl, rfl, rfl, rfl, by simp [exC]⟩

/-- After setting parameter 1 and building: the Hamiltonian is σx. -/
noncomputable def exC1 : CSys ℕ Bool (Fin 2) (Fin 2) :=
  ⟨1, 1, !![0, 1; 1, 0], some 1, some 0, fun b => if b then none else some !![0, 1; 1, 0], true, false, false, false⟩

theorem exC1_reach : ∃ s, exC.setParams 1 = .ok s ∧ s.build exInter = .ok exC1 := by
  refine ⟨{ exC with p := 1, needNew := true }, by simp [CSys.setParams, exC], ?_⟩
  unfold CSys.build
  rw [if_pos rfl, if_neg (by simp [exC]), if_neg (by simp [exC])]
  congr 1
  simp only [CSys.finish, exC1, CSys.mk.injEq]
  refine ⟨rfl, rfl, ?_, rfl, rfl, ?_, trivial, trivial, rfl, rfl⟩
  · simp [CSys.addInter, CSys.initInter, exInter, exC]
  · funext b
    cases b <;> simp [CSys.addInter, CSys.initInter, exInter, exC]

/-- The eigenvectors of σx. -/
noncomputable def exU : Matrix (Fin 2) (Fin 2) ℂ := ((1 / Real.sqrt 2 : ℝ) : ℂ) • !![1, 1; 1, -1]

omit [Fintype n] [DecidableEq n] [Fintype k] [DecidableEq k] [DecidableEq κ] in
theorem setParams_ok (s : CSys P κ n k) (p : P) (A : Matrix n k ℂ) (B : Matrix k k ℂ) (h1 : s.Vc = some A) (h2 : s.Hc = some B) :
    s.setParams p = .ok { s with p := p, needNew := true } := by
  unfold CSys.setParams
  rw [h1, h2]
  simp

omit [DecidableEq n] [DecidableEq k] in
theorem build_ok (I : Inter P κ n) (s : CSys P κ n k) (A : Matrix n k ℂ) (B : Matrix k k ℂ) (h0 : s.needNew = true) (hc : s.contained = true)
    (hm : s.mem = false) (h1 : s.Vc = some A) (h2 : s.Hc = some B) :
    s.build I = .ok ({ s with V := A, H := B }.finish I) := by
  unfold CSys.build
  rw [if_pos h0, if_pos hc, if_neg (by rw [hm, h1, h2]; simp), h1, h2]
  rfl

theorem half_sq : ((1 / Real.sqrt 2 : ℝ) : ℂ) * ((1 / Real.sqrt 2 : ℝ) : ℂ) = 1 / 2 := by
  rw [← Complex.ofReal_mul]
  have : (1 / Real.sqrt 2) * (1 / Real.sqrt 2) = 1 / 2 := by
    rw [div_mul_div_comm, Real.mul_self_sqrt (by norm_num)]; norm_num
  rw [this]; norm_num

theorem exU_conj (M : Matrix (Fin 2) (Fin 2) ℂ) : exUᴴ * M * exU = (1 / 2 : ℂ) • (!![1, 1; 1, -1] * M * !![1, 1; 1, -1]) := by
  have h1 : exUᴴ = exU := by
    unfold exU
    rw [Matrix.conjTranspose_smul]
    congr 1
    · rw [← starRingEnd_apply, Complex.conj_ofReal]
    · ext i j
      fin_cases i <;> fin_cases j <;> simp
  rw [h1]
  unfold exU
  rw [Matrix.smul_mul, Matrix.smul_mul, Matrix.mul_smul, smul_smul, half_sq]

theorem exU_unitary : exUᴴ * exU = 1 := by
  have := exU_conj 1
  rw [Matrix.mul_one, Matrix.mul_one] at this
  rw [this]
  ext i j
  fin_cases i <;> fin_cases j <;> simp [Matrix.mul_apply, Fin.sum_univ_two] <;> norm_num

/-- The eigenvalues of σx. -/
def exD : Fin 2 → ℝ := ![1, -1]

/-- The example after set, build and diagonalize is a history covered by `C35_current_parameters_partial`. -/
theorem exDiag_hist : Hist exInter exC (exC1.diagonalize exU exD) := by
  obtain ⟨s, h1, h2⟩ := exC1_reach
  apply Hist.diag (s' := exC1) exU exD (Hist.set 1 Hist.start h1) h2 exU_unitary
  unfold exU exC1
  ext i j
  fin_cases i <;> fin_cases j <;> simp [Matrix.mul_apply, Fin.sum_univ_two, Matrix.diagonal, exD]

example : ∃ s', (exC1.diagonalize exU exD).build exInter = .ok s' ∧ s'.V * s'.H * s'.Vᴴ = !![0, 1; 1, 0] := by
  obtain ⟨⟨s', h1, -, h2⟩, -⟩ := C35_current_parameters_partial exInter exC _ exC_fresh exDiag_hist
  refine ⟨s', h1, h2.trans ?_⟩
  simp [freshOper, exInter, exC, exC1, CSys.diagonalize]

/-- buildInteraction after a diagonalization and a parameter change computes the new operator in the wrong basis: the
next Hamiltonian is wrong ((0,0) entry 0 instead of 1). -/
theorem C35_build_interaction_fails : ∃ s3 s4, (exC1.diagonalize exU exD).setParams 2 = .ok s3 ∧
    (s3.buildInteraction exInter).build exInter = .ok s4 ∧ (s4.V * s4.H * s4.Vᴴ) 0 0 = 0 ∧
    freshOper exInter (exC.V * exC.H * exC.Vᴴ) (exC.V * exC.Vᴴ) s4.p 0 0 = 1 := by
  refine ⟨_, _, setParams_ok _ 2 1 0 rfl rfl, build_ok exInter _ 1 0 rfl rfl rfl rfl rfl, ?_, ?_⟩
  · have hz : exUᴴ * !![1, 0; 0, -1] * exU = !![0, 1; 1, 0] := by
      rw [exU_conj]
      ext i j
      fin_cases i <;> fin_cases j <;> simp [Matrix.mul_apply, Fin.sum_univ_two] <;> norm_num
    simp [CSys.finish, CSys.buildInteraction, CSys.addInter, CSys.initInter, exC1, CSys.diagonalize, exInter]
    have := congrFun (congrFun hz 0) 0
    simpa using this
  · simp [CSys.finish, CSys.buildInteraction, CSys.addInter, CSys.initInter, CSys.diagonalize, freshOper, exInter, exC]

/-- The rotation about the z axis by π (spin 1/2). -/
noncomputable def exT : Matrix (Fin 2) (Fin 2) ℂ := !![-Complex.I, 0; 0, Complex.I]

theorem exT_unitary : exT * exTᴴ = 1 := by
  unfold exT
  ext i j
  fin_cases i <;> fin_cases j <;> simp [Matrix.mul_apply, Fin.sum_univ_two]

/-- `rotate` after `diagonalize` transforms the cached interaction with the wrong vectors: after the same parameter is set again
the Hamiltonian is wrong ((0,1) entry -1 instead of 1). -/
theorem C35_rotate_fails : ∃ s3 s4 : CSys ℕ Bool (Fin 2) (Fin 2),
    ((exC1.diagonalize exU exD).rotate exT).setParams 1 = .ok s3 ∧
    s3.build exInter = .ok s4 ∧ (s4.V * s4.H * s4.Vᴴ) 0 1 = -1 ∧
    freshOper exInter (exC.V * exC.H * exC.Vᴴ) (exC.V * exC.Vᴴ) s4.p 0 1 = 1 := by
  refine ⟨_, _, setParams_ok _ 1 (exT * 1) 0 rfl rfl, build_ok exInter _ (exT * 1) 0 rfl rfl rfl rfl rfl, ?_, ?_⟩
  · have hx : (exT * exU)ᴴ * (exU * !![0, 1; 1, 0] * exUᴴ) * (exT * exU) = !![0, 1; 1, 0] := by
      have h1 : exU * !![0, 1; 1, 0] * exUᴴ = !![1, 0; 0, -1] := by
        have hs : exUᴴ = exU := by
          unfold exU
          rw [Matrix.conjTranspose_smul]
          congr 1
          · rw [← starRingEnd_apply, Complex.conj_ofReal]
          · ext i j
            fin_cases i <;> fin_cases j <;> simp
        have := exU_conj !![0, 1; 1, 0]
        rw [hs] at this ⊢
        rw [this]
        ext i j
        fin_cases i <;> fin_cases j <;> simp [Matrix.mul_apply, Fin.sum_univ_two] <;> norm_num
      rw [h1, Matrix.conjTranspose_mul]
      have h2 : exUᴴ * exTᴴ * !![1, 0; 0, -1] * (exT * exU) = exUᴴ * (exTᴴ * !![1, 0; 0, -1] * exT) * exU := by
        simp only [Matrix.mul_assoc]
      rw [h2]
      have h3 : exTᴴ * !![1, 0; 0, -1] * exT = !![1, 0; 0, -1] := by
        unfold exT
        ext i j
        fin_cases i <;> fin_cases j <;> simp [Matrix.mul_apply, Fin.sum_univ_two]
      rw [h3, exU_conj]
      ext i j
      fin_cases i <;> fin_cases j <;> simp [Matrix.mul_apply, Fin.sum_univ_two] <;> norm_num
    have hT : exT * !![0, 1; 1, 0] * exTᴴ = !![0, -1; -1, 0] := by
      unfold exT
      ext i j
      fin_cases i <;> fin_cases j <;> simp [Matrix.mul_apply, Fin.sum_univ_two]
    simp only [CSys.finish, CSys.rotate, CSys.addInter, CSys.initInter, exC1, CSys.diagonalize, exInter, Matrix.one_mul, Matrix.mul_one]
    simp only [Bool.false_eq_true, if_false, Option.map_some, one_ne_zero, if_true, List.map_cons, List.map_nil, List.sum_cons,
      List.sum_nil, add_zero, zero_add, Option.getD_some, one_smul, hx, hT]
    rfl
  · simp [CSys.finish, CSys.rotate, CSys.addInter, CSys.initInter, CSys.diagonalize, freshOper, exInter, exC]

/-- After `unitarize` of a system without interaction the setters are accepted but the interaction is silently ignored (the states
are artificial): entry (0,1) is 0 instead of 1. -/
theorem C35_unitarize_fails : ∃ s3 s4, (exC.unitarize).setParams 1 = .ok s3 ∧ s3.build exInter = .ok s4 ∧
    (s4.V * s4.H * s4.Vᴴ) 0 1 = 0 ∧ freshOper exInter (exC.V * exC.H * exC.Vᴴ) (exC.V * exC.Vᴴ) s4.p 0 1 = 1 := by
  have h1 : (exC.unitarize).setParams 1 = .ok { exC.unitarize with p := 1, needNew := true } := by
    simp [CSys.setParams, exC, CSys.unitarize]
  have h2 : ({ exC.unitarize with p := 1, needNew := true } : CSys ℕ Bool (Fin 2) (Fin 2)).build exInter =
      .ok (CSys.finish exInter { ({ exC.unitarize with p := 1, needNew := true } : CSys ℕ Bool (Fin 2) (Fin 2)) with
        Vc := some 1, Hc := some 0 }) := by
    unfold CSys.build
    rw [if_pos rfl, if_neg (by simp [exC, CSys.unitarize]), if_neg (by simp [exC, CSys.unitarize])]
    rfl
  refine ⟨_, _, h1, h2, ?_, ?_⟩
  · simp [CSys.finish, CSys.unitarize, CSys.addInter, CSys.initInter, exC, exInter]
  · simp [CSys.finish, CSys.unitarize, CSys.addInter, CSys.initInter, exC, exInter, freshOper]

/-- Two states after diagonalization of σx: the vectors (1,1)/√2 and (1,-1)/√2; the cache holds the unmixed vectors. -/
noncomputable def exDiagSys : SysB String :=
  ⟨[(0, "a"), (1, "b")],
   ⟨2, 2, fun i j => ((1 / Real.sqrt 2 : ℝ) : ℂ) * if i = 1 ∧ j = 1 then -1 else 1⟩,
   ⟨2, 2, fun i j => if i = j then (if i = 0 then 1 else -1) else 0⟩,
   some ⟨2, 2, fun i j => if i = j then 1 else 0⟩, some ⟨2, 2, fun _ _ => 0⟩⟩

/-- constrainBasisvectors after `diagonalize` takes the same column numbers out of the cached, undiagonalized vectors: keeping only the
eigenvector (1,-1)/√2 of σx keeps the state "b" in the cache, so after the next parameter change the system has another basis vector, one
without any coefficient on "a". -/
theorem C35_constrain_fails :
    ∃ s' A', exDiagSys.constrain [1] = .ok s' ∧ s'.Vc = some A' ∧ A'.val 0 0 = 0 ∧ s'.V.val 0 0 ≠ 0 := by
  have h1 : exDiagSys.constrain [1] = .ok (exDiagSys.keepCols [1]) := by
    unfold SysB.constrain
    simp [signed64, exDiagSys]
  refine ⟨_, Mat.mul ⟨2, 2, fun i j => if i = j then 1 else 0⟩ _, h1, rfl, ?_, ?_⟩
  · refine (mul_sel_val ⟨2, 2, fun i j => if i = j then 1 else 0⟩ [1] _ 0 0 1 rfl (by norm_num)).trans ?_
    simp
  · change (exDiagSys.V.mul _).val 0 0 ≠ 0
    rw [mul_sel_val _ [1] _ 0 0 1 rfl (by norm_num [exDiagSys])]
    simp [exDiagSys]

end PI
