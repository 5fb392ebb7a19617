import Verif.Sys.CombineModel
import Verif.Sys.Param

/-! # Property C94: the Hamiltonian of a combined system -/

namespace PI
open Matrix

variable {n k k' : Type} [Fintype n] [DecidableEq n] [Fintype k] [DecidableEq k] [Fintype k'] [DecidableEq k']
variable {P κ : Type} [DecidableEq κ]

/-- Specification: the operator that a fresh system with the basis vectors of both systems and the parameters `p`
represents. -/
noncomputable def unionOper (I : Inter P κ n) (s0 : CSys P κ n k) (t0 : CSys P κ n k') (p : P) : Matrix n n ℂ :=
  freshOper I (s0.V * s0.H * s0.Vᴴ + t0.V * t0.H * t0.Vᴴ) (s0.V * s0.Vᴴ + t0.V * t0.Vᴴ) p

/-- Specification: the interaction between the two bases. -/
noncomputable def crossOper (I : Inter P κ n) (s0 : CSys P κ n k) (t0 : CSys P κ n k') (p : P) : Matrix n n ℂ :=
  ((I.need p).map fun key => I.coef p key •
    (s0.V * s0.Vᴴ * I.op key * (t0.V * t0.Vᴴ) + t0.V * t0.Vᴴ * I.op key * (s0.V * s0.Vᴴ))).sum

theorem union_split (I : Inter P κ n) (s0 : CSys P κ n k) (t0 : CSys P κ n k') (p : P) :
    unionOper I s0 t0 p = freshOper I (s0.V * s0.H * s0.Vᴴ) (s0.V * s0.Vᴴ) p +
      freshOper I (t0.V * t0.H * t0.Vᴴ) (t0.V * t0.Vᴴ) p + crossOper I s0 t0 p := by
  unfold unionOper freshOper crossOper
  have : ∀ L : List κ, (L.map fun key => I.coef p key • ((s0.V * s0.Vᴴ + t0.V * t0.Vᴴ) * I.op key * (s0.V * s0.Vᴴ + t0.V * t0.Vᴴ))).sum =
      (L.map fun key => I.coef p key • (s0.V * s0.Vᴴ * I.op key * (s0.V * s0.Vᴴ))).sum +
      (L.map fun key => I.coef p key • (t0.V * t0.Vᴴ * I.op key * (t0.V * t0.Vᴴ))).sum +
      (L.map fun key => I.coef p key •
        (s0.V * s0.Vᴴ * I.op key * (t0.V * t0.Vᴴ) + t0.V * t0.Vᴴ * I.op key * (s0.V * s0.Vᴴ))).sum := by
    intro L
    induction L with
    | nil => simp
    | cons a L ih =>
      simp only [List.map_cons, List.sum_cons]
      rw [ih]
      simp only [Matrix.add_mul, Matrix.mul_add, smul_add]
      abel
  rw [this]
  abel

/-- The fresh system with the basis vectors of both. -/
noncomputable def combinedFresh (s0 : CSys P κ n k) (t0 : CSys P κ n k') : CSys P κ n (k ⊕ k') :=
  ⟨s0.p, fromCols s0.V t0.V, fromBlocks s0.H 0 0 t0.H, none, none, fun _ => none, false, false, s0.mem, false⟩

theorem cols_oper (A : Matrix n k ℂ) (B : Matrix n k' ℂ) (X : Matrix k k ℂ) (Y : Matrix k' k' ℂ) :
    fromCols A B * fromBlocks X 0 0 Y * (fromCols A B)ᴴ = A * X * Aᴴ + B * Y * Bᴴ := by
  rw [fromCols_mul_fromBlocks, conjTranspose_fromCols_eq_fromRows_conjTranspose, fromCols_mul_fromRows]
  simp

theorem cols_proj (A : Matrix n k ℂ) (B : Matrix n k' ℂ) : fromCols A B * (fromCols A B)ᴴ = A * Aᴴ + B * Bᴴ := by
  rw [conjTranspose_fromCols_eq_fromRows_conjTranspose, fromCols_mul_fromRows]

theorem cols_orth (A : Matrix n k ℂ) (B : Matrix n k' ℂ) (hA : Aᴴ * A = 1) (hB : Bᴴ * B = 1) (h : Aᴴ * B = 0) :
    (fromCols A B)ᴴ * fromCols A B = 1 := by
  have h' : Bᴴ * A = 0 := by
    have := congrArg conjTranspose h
    simpa using this
  rw [conjTranspose_fromCols_eq_fromRows_conjTranspose, fromRows_mul_fromCols, hA, hB, h, h', fromBlocks_one]

theorem combinedFresh_fresh (I : Inter P κ n) (s0 : CSys P κ n k) (t0 : CSys P κ n k') (hs : s0.Fresh I) (ht : t0.Fresh I)
    (horth : s0.Vᴴ * t0.V = 0) : (combinedFresh s0 t0).Fresh I :=
  ⟨rfl, rfl, fun _ => rfl, rfl, rfl, rfl, hs.noNeed, cols_orth _ _ hs.orth ht.orth horth⟩

theorem fresh_combined (I : Inter P κ n) (s0 : CSys P κ n k) (t0 : CSys P κ n k') (p : P) :
    freshOper I ((combinedFresh s0 t0).V * (combinedFresh s0 t0).H * (combinedFresh s0 t0).Vᴴ)
      ((combinedFresh s0 t0).V * (combinedFresh s0 t0).Vᴴ) p = unionOper I s0 t0 p := by
  unfold combinedFresh unionOper
  dsimp only
  rw [cols_oper, cols_proj]

/-- Base vectors of both systems stay orthogonal. -/
theorem base_orth {I : Inter P κ n} {s0 s : CSys P κ n k} {t0 t : CSys P κ n k'} {A : Matrix n k ℂ} {B : Matrix n k' ℂ}
    {X : Matrix k k ℂ} {Y : Matrix k' k' ℂ} (hs : PInv I s0 s A X) (ht : PInv I t0 t B Y)
    (horth : s0.Vᴴ * t0.V = 0) : Aᴴ * B = 0 := by
  have h1 : A * Aᴴ * (B * Bᴴ) = 0 := by
    rw [hs.proj, ht.proj]
    calc s0.V * s0.Vᴴ * (t0.V * t0.Vᴴ) = s0.V * (s0.Vᴴ * t0.V) * t0.Vᴴ := by simp only [Matrix.mul_assoc]
      _ = 0 := by rw [horth]; simp
  calc Aᴴ * B = (Aᴴ * A) * (Aᴴ * B) * (Bᴴ * B) := by rw [hs.orth, ht.orth, Matrix.one_mul, Matrix.mul_one]
    _ = Aᴴ * (A * Aᴴ * (B * Bᴴ)) * B := by simp only [Matrix.mul_assoc]
    _ = 0 := by rw [h1]; simp

/-- The invariant of the combined system. -/
theorem combine_inv {I : Inter P κ n} {s0 s : CSys P κ n k} {t0 t : CSys P κ n k'} {A : Matrix n k ℂ} {B : Matrix n k' ℂ}
    {X : Matrix k k ℂ} {Y : Matrix k' k' ℂ} (hs : PInv I s0 s A X) (ht : PInv I t0 t B Y)
    (horth : s0.Vᴴ * t0.V = 0) {agree : P → P → Bool} {u : CSys P κ n (k ⊕ k')} (hu : s.add agree t = .ok u)
    (p : P) (nn : Bool)
    (h1 : s.contained = true → s.mem = true → nn = false)
    (h2 : s.contained = true → nn = false → u.V * u.H * u.Vᴴ = unionOper I s0 t0 p)
    (h3 : s.contained = false → nn = false → p = s0.p) :
    PInv I (combinedFresh s0 t0) { u with p := p, needNew := nn } (fromCols A B) (fromBlocks X 0 0 Y) := by
  unfold CSys.add at hu
  split_ifs at hu with c1 c2 c3 c4 c5
  push Not at c2
  obtain ⟨cm, cc, cn⟩ := c2
  injection hu with hu
  subst hu
  dsimp only at h2
  refine ⟨cols_orth _ _ hs.orth ht.orth (base_orth hs ht horth), ?_, ?_, ?_, hs.art, hs.mem, ?_, ?_⟩
  · unfold combinedFresh
    dsimp only
    rw [cols_proj, cols_proj, hs.proj, ht.proj]
  · unfold combinedFresh
    dsimp only
    rw [cols_oper, cols_oper, hs.op, ht.op]
  · intro key M hM; cases hM
  · intro hc
    have hc : s.contained = true := hc
    obtain ⟨y1, y2, y3⟩ := hs.yes hc
    obtain ⟨z1, z2, z3⟩ := ht.yes (cc ▸ hc)
    refine ⟨fun hm => ?_, fun hm => ?_, fun hn => ?_⟩
    · have hm : s.mem = false := hm
      obtain ⟨e1, e2⟩ := y1 hm
      obtain ⟨e3, e4⟩ := z1 (cm ▸ hm)
      dsimp only
      rw [e1, e2, e3, e4]
      exact ⟨rfl, rfl⟩
    · have hm : s.mem = true := hm
      obtain ⟨e1, e2, -⟩ := y2 hm
      dsimp only
      rw [e1, e2]
      exact ⟨rfl, rfl, h1 hc hm⟩
    · rw [fresh_combined]
      exact h2 hc hn
  · intro hc
    have hc : s.contained = false := hc
    obtain ⟨a1, a2, a3, a4, -⟩ := hs.no hc
    obtain ⟨b1, b2, b3, b4, -⟩ := ht.no (cc ▸ hc)
    dsimp only
    rw [a1, a2, a3, a4, b1, b2]
    exact ⟨rfl, rfl, rfl, rfl, fun hn => ⟨h3 hc hn, fun _ => rfl⟩⟩

/-- The flags and the operator right after `add`. -/
theorem add_oper {I : Inter P κ n} {s0 s : CSys P κ n k} {t0 t : CSys P κ n k'} {A : Matrix n k ℂ} {B : Matrix n k' ℂ}
    {X : Matrix k k ℂ} {Y : Matrix k' k' ℂ} (hs : PInv I s0 s A X) (ht : PInv I t0 t B Y)
    {agree : P → P → Bool} {u : CSys P κ n (k ⊕ k')} (hu : s.add agree t = .ok u) :
    u.p = s.p ∧ agree s.p t.p = true ∧ u.contained = s.contained ∧ u.needNew = s.needNew ∧ u.mem = s.mem ∧
    t.contained = s.contained ∧ t.needNew = s.needNew ∧ t.mem = s.mem ∧
    (s.contained = true → s.needNew = false → u.V * u.H * u.Vᴴ = freshOper I (s0.V * s0.H * s0.Vᴴ) (s0.V * s0.Vᴴ) s.p +
      freshOper I (t0.V * t0.H * t0.Vᴴ) (t0.V * t0.Vᴴ) t.p) := by
  unfold CSys.add at hu
  split_ifs at hu with c1 c2 c3 c4 c5
  push Not at c2
  obtain ⟨cm, cc, cn⟩ := c2
  injection hu with hu
  subst hu
  refine ⟨rfl, by simpa using c1, rfl, rfl, rfl, cc.symm, cn.symm, cm.symm, fun hc hn => ?_⟩
  dsimp only
  rw [cols_oper, (hs.yes hc).2.2 hn, (ht.yes (cc ▸ hc)).2.2 (cn ▸ hn)]

/-- **C94 (partial).** Let two systems have any histories of setters, Hamiltonian builds and diagonalizations, over
orthogonal fresh bases, and let `add` accept them.  If their Hamiltonians were not built, or are to be
rebuilt, or if they have the same parameters and the interaction does not couple the two bases, then after any
further history of the combined system its Hamiltonian is the one of a fresh system with the basis vectors of both and
the current parameters.  Missing: bases coupled by the interaction whose Hamiltonians were built before (`C94_built_first_fails`),
and settings that are not compared (`C94_settings_fails`). -/
theorem C94_combined_partial (I : Inter P κ n) (s0 s : CSys P κ n k) (t0 t : CSys P κ n k') (hs0 : s0.Fresh I) (ht0 : t0.Fresh I)
    (hs : Hist I s0 s) (ht : Hist I t0 t) (horth : s0.Vᴴ * t0.V = 0) (agree : P → P → Bool)
    (u u' : CSys P κ n (k ⊕ k')) (hu : s.add agree t = .ok u)
    (hcase : s.contained = false ∨ s.needNew = true ∨ (t.p = s.p ∧ crossOper I s0 t0 s.p = 0)) (hu' : Hist I u u') :
    ∃ r, u'.build I = .ok r ∧ r.p = u'.p ∧ r.V * r.H * r.Vᴴ = unionOper I s0 t0 u'.p := by
  obtain ⟨A, X, hA⟩ := param_hist_inv I s0 s hs0 hs
  obtain ⟨B, Y, hB⟩ := param_hist_inv I t0 t ht0 ht
  obtain ⟨e1, -, e3, e4, -, -, -, -, e9⟩ := add_oper hA hB hu
  have hf := combinedFresh_fresh I s0 t0 hs0 ht0 horth
  have hinv := combine_inv hA hB horth hu u.p u.needNew
    (fun hc hm => by rw [e4]; exact ((hA.yes hc).2.1 hm).2.2)
    (fun hc hn => by
      rw [e4] at hn
      rcases hcase with h | h | ⟨h1, h2⟩
      · rw [hc] at h; cases h
      · rw [hn] at h; cases h
      · rw [e9 hc hn, e1, union_split, h1, h2, add_zero])
    (fun hc hn => by rw [e1]; exact ((hA.no hc).2.2.2.2 (e4 ▸ hn)).1)
  obtain ⟨Vb, Hb, hb⟩ := param_hist_from I (combinedFresh s0 t0) u u' hf ⟨_, _, hinv⟩ hu'
  obtain ⟨r, hr, -, -, hp, hop⟩ := build_inv I (combinedFresh s0 t0) u' hf Vb Hb hb
  exact ⟨r, hr, hp, hop.trans (fresh_combined I s0 t0 u'.p)⟩

/-- Once a setter has been called on the combined system, the claim holds whatever was built before. -/
theorem C94_after_setter (I : Inter P κ n) (s0 s : CSys P κ n k) (t0 t : CSys P κ n k') (hs0 : s0.Fresh I) (ht0 : t0.Fresh I)
    (hs : Hist I s0 s) (ht : Hist I t0 t) (horth : s0.Vᴴ * t0.V = 0) (agree : P → P → Bool)
    (u u1 u' : CSys P κ n (k ⊕ k')) (hu : s.add agree t = .ok u) (p : P) (h1 : u.setParams p = .ok u1) (hu' : Hist I u1 u') :
    ∃ r, u'.build I = .ok r ∧ r.p = u'.p ∧ r.V * r.H * r.Vᴴ = unionOper I s0 t0 u'.p := by
  obtain ⟨A, X, hA⟩ := param_hist_inv I s0 s hs0 hs
  obtain ⟨B, Y, hB⟩ := param_hist_inv I t0 t ht0 ht
  have hf := combinedFresh_fresh I s0 t0 hs0 ht0 horth
  have hm : s.contained = true → s.mem = true → False := by
    intro hc hm
    obtain ⟨v1, v2, -⟩ := (hA.yes hc).2.1 hm
    unfold CSys.setParams at h1
    split_ifs at h1 with d1 d2
    apply d2
    unfold CSys.add at hu
    split_ifs at hu
    injection hu with hu
    subst hu
    refine ⟨hc, ?_⟩
    dsimp only
    rw [v1]; rfl
  have hinv := combine_inv hA hB horth hu p true (fun hc h => (hm hc h).elim) (fun _ h => by cases h) (fun _ h => by cases h)
  have e : u1 = { u with p := p, needNew := true } := by
    unfold CSys.setParams at h1
    split_ifs at h1
    injection h1 with h1
    exact h1.symm
  rw [e] at hu'
  obtain ⟨Vb, Hb, hb⟩ := param_hist_from I (combinedFresh s0 t0) _ u' hf ⟨_, _, hinv⟩ hu'
  obtain ⟨r, hr, -, -, hp, hop⟩ := build_inv I (combinedFresh s0 t0) u' hf Vb Hb hb
  exact ⟨r, hr, hp, hop.trans (fresh_combined I s0 t0 u'.p)⟩

/-- **C94, violated for coupled bases.** If the Hamiltonians were built before `add`, with the same parameters, the next
Hamiltonian is the one of the union if and only if the interaction does not couple the two bases: the coupling is left
out silently. -/
theorem C94_built_first_fails (I : Inter P κ n) (s0 s : CSys P κ n k) (t0 t : CSys P κ n k') (hs0 : s0.Fresh I) (ht0 : t0.Fresh I)
    (hs : Hist I s0 s) (ht : Hist I t0 t) (agree : P → P → Bool) (u : CSys P κ n (k ⊕ k')) (hu : s.add agree t = .ok u)
    (hc : s.contained = true) (hn : s.needNew = false) (hp : t.p = s.p) :
    u.build I = .ok u ∧ (u.V * u.H * u.Vᴴ = unionOper I s0 t0 u.p ↔ crossOper I s0 t0 u.p = 0) := by
  obtain ⟨A, X, hA⟩ := param_hist_inv I s0 s hs0 hs
  obtain ⟨B, Y, hB⟩ := param_hist_inv I t0 t ht0 ht
  obtain ⟨e1, -, e3, e4, -, -, -, -, e9⟩ := add_oper hA hB hu
  refine ⟨?_, ?_⟩
  · unfold CSys.build
    rw [if_neg (by rw [e4, hn]; simp)]
  · rw [e9 hc hn, e1, union_split, hp]
    constructor
    · intro h
      have := left_eq_add.mp h
      exact this
    · intro h; rw [h, add_zero]

/-- A call that is refused because settings or flags differ does no harm: the first system behaves like before. -/
theorem C94_refused (I : Inter P κ n) (s0 s : CSys P κ n k) (t : CSys P κ n k') (hs0 : s0.Fresh I)
    (hs : Hist I s0 s) (agree : P → P → Bool) (s1 s' : CSys P κ n k) (hr : s.add agree t = .refused s1) (hs' : Hist I s1 s') :
    ∃ r, s'.build I = .ok r ∧ r.p = s'.p ∧
      r.V * r.H * r.Vᴴ = freshOper I (s0.V * s0.H * s0.Vᴴ) (s0.V * s0.Vᴴ) s'.p := by
  obtain ⟨A, X, hA⟩ := param_hist_inv I s0 s hs0 hs
  have hinv : PInv I s0 s1 A X := by
    unfold CSys.add at hr
    split_ifs at hr with c1 c2
    rotate_left
    · injection hr with hr; subst hr; exact hA
    · injection hr with hr; subst hr
      refine ⟨hA.orth, hA.proj, hA.op, (fun key M h => by cases h), hA.art, hA.mem, hA.yes, ?_⟩
      intro hc
      obtain ⟨a1, a2, a3, a4, a5⟩ := hA.no hc
      exact ⟨a1, a2, a3, a4, fun hn => ⟨(a5 hn).1, fun _ => rfl⟩⟩
  obtain ⟨Vb, Hb, hb⟩ := param_hist_from I s0 s1 s' hs0 ⟨_, _, hinv⟩ hs'
  obtain ⟨r, hr, -, -, hp, hop⟩ := build_inv I s0 s' hs0 Vb Hb hb
  exact ⟨r, hr, hp, hop⟩

end PI
