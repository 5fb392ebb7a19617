import Mathlib.Data.Fin.Tuple.Sort
import Verif.Rot.Kramers
import Verif.Sys.LevelCount
import Verif.Pair.Settings

/-!
# C114: levels when the basis is enlarged

The Hamiltonian of a system with fewer states or basis vectors is the compression of the one of a system with more.
-/

namespace PI

open Matrix

section general
variable {P κ n n' k k' : Type} [DecidableEq κ] [Fintype n] [DecidableEq n] [Fintype n'] [DecidableEq n'] [Fintype k] [DecidableEq k]
  [Fintype k'] [DecidableEq k']

/-- The basis vectors span the same space in every history. -/
theorem hist_span (I : Inter P κ n) (s0 s : CSys P κ n k)
    (h0 : s0.Fresh I) (hs : Hist I s0 s) : s.V * s.Vᴴ = s0.V * s0.Vᴴ ∧ ∀ A, s.Vc = some A → A * Aᴴ = s0.V * s0.Vᴴ := by
  have bld : ∀ s s' : CSys P κ n k, (s.V * s.Vᴴ = s0.V * s0.Vᴴ ∧ ∀ A, s.Vc = some A → A * Aᴴ = s0.V * s0.Vᴴ) → s.build I = .ok s' →
      s'.V * s'.Vᴴ = s0.V * s0.Vᴴ ∧ ∀ A, s'.Vc = some A → A * Aᴴ = s0.V * s0.Vᴴ := by
    intro s s' h hb
    have fin : ∀ s1 : CSys P κ n k, (s1.V * s1.Vᴴ = s0.V * s0.Vᴴ ∧ ∀ A, s1.Vc = some A → A * Aᴴ = s0.V * s0.Vᴴ) →
        (s1.finish I).V * (s1.finish I).Vᴴ = s0.V * s0.Vᴴ ∧ ∀ A, (s1.finish I).Vc = some A → A * Aᴴ = s0.V * s0.Vᴴ := fun s1 h1 => h1
    unfold CSys.build at hb
    split_ifs at hb
    · rename_i h1 h2 h3
      rw [Out.ok.injEq] at hb
      subst hb
      apply fin
      push Not at h3
      obtain ⟨-, h4, -⟩ := h3
      cases hv : s.Vc with
      | none => rw [hv] at h4; simp at h4
      | some A =>
        refine ⟨?_, ?_⟩
        · simpa using h.2 A hv
        · intro B hB
          exact h.2 B (by simpa [hv] using hB)
    · rw [Out.ok.injEq] at hb
      subst hb
      exact fin s h
    · rw [Out.ok.injEq] at hb
      subst hb
      apply fin
      refine ⟨h.1, ?_⟩
      intro A hA
      simp only [Option.some.injEq] at hA
      subst hA
      exact h.1
    · rw [Out.ok.injEq] at hb
      subst hb
      exact h
  induction hs with
  | start => exact ⟨rfl, fun A hA => by rw [h0.noVc] at hA; cases hA⟩
  | set p _ hset ih =>
    unfold CSys.setParams at hset
    split_ifs at hset
    all_goals first
      | (rw [Out.ok.injEq] at hset; subst hset; exact ih)
      | cases hset
  | build _ hb ih => exact bld _ _ ih hb
  | diag U d _ hb hU _ ih =>
    have := bld _ _ ih hb
    refine ⟨?_, this.2⟩
    unfold CSys.diagonalize
    dsimp only
    rw [Matrix.conjTranspose_mul, Matrix.mul_assoc, ← Matrix.mul_assoc U, mul_eq_one_comm.1 hU, Matrix.one_mul, this.1]

/-- The operator between all states that belongs to the parameters `p`: unperturbed operator plus interaction, without any basis. -/
noncomputable def stateOper (I : Inter P κ n) (D : Matrix n n ℂ) (p : P) : Matrix n n ℂ :=
  D + ((I.need p).map fun key => I.coef p key • I.op key).sum

theorem freshOper_proj (I : Inter P κ n) (D Q : Matrix n n ℂ) (p : P) : freshOper I (Q * D * Q) Q p = Q * stateOper I D p * Q := by
  unfold freshOper stateOper
  rw [Matrix.mul_add, Matrix.add_mul]
  congr 1
  induction I.need p with
  | nil => simp
  | cons a L ih =>
    rw [List.map_cons, List.sum_cons, List.map_cons, List.sum_cons, Matrix.mul_add, Matrix.add_mul, ih, Matrix.mul_smul, Matrix.smul_mul]

/-- The Hamiltonian built after any history is the operator between the states, taken between the current basis vectors. -/
theorem built_compress (I : Inter P κ n) (D : Matrix n n ℂ) (s0 s s' : CSys P κ n k) (h0 : s0.Fresh I) (hD : s0.H = s0.Vᴴ * D * s0.V) (hs : Hist I s0 s)
    (hb : s.build I = .ok s') : s'.Vᴴ * s'.V = 1 ∧ s'.V * s'.Vᴴ = s0.V * s0.Vᴴ ∧ s'.H = s'.Vᴴ * stateOper I D s.p * s'.V := by
  have o := built_orth I s0 s s' h0 hs hb
  have q := (hist_span I s0 s' h0 (.build hs hb)).1
  refine ⟨o, q, ?_⟩
  obtain ⟨⟨t, h1, -, h3⟩, -⟩ := C35_current_parameters_partial I s0 s h0 hs
  rw [hb, Out.ok.injEq] at h1
  subst h1
  have e : s0.V * s0.H * s0.Vᴴ = (s0.V * s0.Vᴴ) * D * (s0.V * s0.Vᴴ) := by rw [hD]; simp only [Matrix.mul_assoc]
  rw [e, freshOper_proj, ← q] at h3
  have e2 : s'.H = s'.Vᴴ * (s'.V * s'.H * s'.Vᴴ) * s'.V := by
    have : s'.Vᴴ * (s'.V * s'.H * s'.Vᴴ) * s'.V = (s'.Vᴴ * s'.V) * s'.H * (s'.Vᴴ * s'.V) := by simp only [Matrix.mul_assoc]
    rw [this, o, Matrix.one_mul, Matrix.mul_one]
  rw [e2, h3]
  have : s'.Vᴴ * (s'.V * s'.Vᴴ * stateOper I D s.p * (s'.V * s'.Vᴴ)) * s'.V = (s'.Vᴴ * s'.V) * s'.Vᴴ * stateOper I D s.p * (s'.V * (s'.Vᴴ * s'.V)) := by
    simp only [Matrix.mul_assoc]
  rw [this, o, Matrix.one_mul, Matrix.mul_one]

/-- The matrix that writes a vector over the states of a small system as a vector over the states of a large one. -/
def embed (f : n → n') : Matrix n' n ℂ := fun i j => if i = f j then 1 else 0

theorem embed_isometry (f : n → n') (hf : Function.Injective f) : (embed f)ᴴ * embed f = 1 := by
  ext i j
  rw [Matrix.mul_apply]
  simp only [conjTranspose_apply, embed, Matrix.one_apply]
  rw [Finset.sum_eq_single (f j)]
  · by_cases h : i = j
    · simp [h]
    · have : f j ≠ f i := fun e => h (hf e).symm
      simp [h, this]
  · intro b _ hb
    simp [hb]
  · simp

theorem embed_conj (f : n → n') (A : Matrix n' n' ℂ) : (embed f)ᴴ * A * embed f = A.submatrix f f := by
  ext i j
  rw [Matrix.mul_apply]
  rw [Finset.sum_eq_single (f j)]
  · rw [Matrix.mul_apply, Finset.sum_eq_single (f i)]
    · simp [embed]
    · intro b _ hb
      simp [embed, hb]
    · simp
  · intro b _ hb
    simp [embed, hb]
  · simp

theorem stateOper_submatrix (I : Inter P κ n) (I' : Inter P κ n') (f : n → n') (D : Matrix n n ℂ) (D' : Matrix n' n' ℂ) (hD : D = D'.submatrix f f) (p : P)
    (hneed : I.need p = I'.need p) (hcoef : ∀ key ∈ I.need p, I.coef p key = I'.coef p key)
    (hop : ∀ key ∈ I.need p, I.op key = (I'.op key).submatrix f f) : stateOper I D p = (stateOper I' D' p).submatrix f f := by
  unfold stateOper
  rw [hD, ← hneed, Matrix.submatrix_add]
  simp only [Pi.add_apply]
  congr 1
  generalize I.need p = L at hcoef hop
  induction L with
  | nil => simp
  | cons a L ih =>
    rw [List.map_cons, List.sum_cons, List.map_cons, List.sum_cons, Matrix.submatrix_add]
    simp only [Pi.add_apply]
    rw [← ih (fun key hk => hcoef key (List.mem_cons_of_mem _ hk)) (fun key hk => hop key (List.mem_cons_of_mem _ hk)), hcoef a (by simp), hop a (by simp)]
    rfl

/-- **C114 (systems).** Two systems of the same kind, of which the second has more states (`f` tells which of its states are those of the first one) and more basis
vectors (the vectors of the first are combinations of its vectors).  After any histories that end with the same parameters, for every energy `E` the larger system has
at least as many levels up to `E`, and at most as many more as it has more basis vectors. -/
theorem C114_larger_basis (I : Inter P κ n) (I' : Inter P κ n') (f : n → n') (hf : Function.Injective f) (D : Matrix n n ℂ) (D' : Matrix n' n' ℂ)
    (hDD : D = D'.submatrix f f)
    (s0 s s' : CSys P κ n k) (h0 : s0.Fresh I) (hD : s0.H = s0.Vᴴ * D * s0.V) (hs : Hist I s0 s) (hb : s.build I = .ok s')
    (t0 t t' : CSys P κ n' k') (g0 : t0.Fresh I') (gD : t0.H = t0.Vᴴ * D' * t0.V) (ht : Hist I' t0 t) (gb : t.build I' = .ok t')
    (hsub : t0.V * t0.Vᴴ * (embed f * s0.V) = embed f * s0.V)
    (hp : t.p = s.p) (hneed : I.need s.p = I'.need s.p) (hcoef : ∀ key ∈ I.need s.p, I.coef s.p key = I'.coef s.p key)
    (hop : ∀ key ∈ I.need s.p, I.op key = (I'.op key).submatrix f f)
    (X : Matrix k k ℂ) (e : k → ℝ) (hX : Diagonalizes s'.H X e) (U : Matrix k' k' ℂ) (d : k' → ℝ) (hU : Diagonalizes t'.H U d) (E : ℝ) :
    levelsUpTo e E ≤ levelsUpTo d E ∧ levelsUpTo d E + Fintype.card k ≤ levelsUpTo e E + Fintype.card k' := by
  obtain ⟨o1, q1, c1⟩ := built_compress I D s0 s s' h0 hD hs hb
  obtain ⟨o2, q2, c2⟩ := built_compress I' D' t0 t t' g0 gD ht gb
  rw [stateOper_submatrix I I' f D D' hDD s.p hneed hcoef hop, ← embed_conj] at c1
  rw [hp] at c2
  generalize stateOper I' D' s.p = T at c1 c2
  have J := embed_isometry f hf
  generalize embed f = F at J hsub c1
  -- the current vectors of the small system lie in the span of the large one
  have hV : s'.V = s0.V * s0.Vᴴ * s'.V := by rw [← q1, Matrix.mul_assoc, o1, Matrix.mul_one]
  have hsub' : t'.V * t'.Vᴴ * (F * s'.V) = F * s'.V := by
    rw [q2]
    have : F * s'.V = (F * s0.V) * (s0.Vᴴ * s'.V) := by
      conv_lhs => rw [hV]
      simp only [Matrix.mul_assoc]
    rw [this, ← Matrix.mul_assoc, hsub]
  have ad : (F * s'.V)ᴴ * (t'.V * t'.Vᴴ) = (F * s'.V)ᴴ := by
    have := congrArg Matrix.conjTranspose hsub'
    rwa [Matrix.conjTranspose_mul, Matrix.conjTranspose_mul t'.V, Matrix.conjTranspose_conjTranspose] at this
  apply levels_interlace hU hX (t'.Vᴴ * (F * s'.V))
  · rw [Matrix.conjTranspose_mul, Matrix.conjTranspose_conjTranspose]
    have : (F * s'.V)ᴴ * t'.V * (t'.Vᴴ * (F * s'.V)) = (F * s'.V)ᴴ * (t'.V * t'.Vᴴ * (F * s'.V)) := by simp only [Matrix.mul_assoc]
    rw [this, hsub', Matrix.conjTranspose_mul]
    have : s'.Vᴴ * Fᴴ * (F * s'.V) = s'.Vᴴ * (Fᴴ * F) * s'.V := by simp only [Matrix.mul_assoc]
    rw [this, J, Matrix.mul_one, o1]
  · rw [c1, c2, Matrix.conjTranspose_mul, Matrix.conjTranspose_conjTranspose]
    have : (F * s'.V)ᴴ * t'.V * (t'.Vᴴ * T * t'.V) * (t'.Vᴴ * (F * s'.V)) = (F * s'.V)ᴴ * (t'.V * t'.Vᴴ) * T * (t'.V * t'.Vᴴ * (F * s'.V)) := by
      simp only [Matrix.mul_assoc]
    rw [this, ad, hsub', Matrix.conjTranspose_mul]
    simp only [Matrix.mul_assoc]

end general

/-! ## One atom -/

variable {N M : ℕ}

theorem tensorMat_submatrix (st : Fin N → Option QN) (st' : Fin M → Option QN) (g : Fin M → Fin N) (h : ∀ i, st' i = st (g i)) (f : QN → QN → ℝ) (q : ℤ) :
    tensorMat st' f q = (tensorMat st f q).submatrix g g := by
  ext i j
  rw [Matrix.submatrix_apply]
  unfold tensorMat
  rw [h i, h j]

/-- The operators between some of the states are those between all states. -/
theorem fieldOp_submatrix (C : FieldConsts) (radial : RadKey → ℝ) (me : Method) (st : Fin N → Option QN) (st' : Fin M → Option QN) (g : Fin M → Fin N)
    (h : ∀ i, st' i = st (g i)) (hst : GoodStates st) (p : FieldParams) (key : FKey) (hk : key ∈ addKeys p) :
    fieldOp C radial me st' key = (fieldOp C radial me st key).submatrix g g := by
  have hst' : GoodStates st' := by
    intro i a ha
    rw [h i] at ha
    refine ⟨(hst _ a ha).1, fun j b hb => ?_⟩
    rw [h j] at hb
    exact (hst _ a ha).2 _ b hb
  cases key with
  | e q => rw [(C37_operators C radial me st hst q).1, (C37_operators C radial me st' hst' q).1]; exact tensorMat_submatrix st st' g h _ _
  | b q => rw [(C37_operators C radial me st hst q).2.1, (C37_operators C radial me st' hst' q).2.1]; exact tensorMat_submatrix st st' g h _ _
  | d k q =>
    rw [(C37_operators C radial me st hst q).2.2.1 k (addKeys_d p k q hk).1, (C37_operators C radial me st' hst' q).2.2.1 k (addKeys_d p k q hk).1]
    exact tensorMat_submatrix st st' g h _ _
  | ion o => rw [(C37_operators C radial me st hst 0).2.2.2 o, (C37_operators C radial me st' hst' 0).2.2.2 o]; exact tensorMat_submatrix st st' g h _ _

/-- **C114 (one atom).** Two SystemOne, the states of the first are among those of the second (in any order), all states are basis vectors at the start.  After any histories
of setters, builds and diagonalizations that end with the same fields: up to every energy the larger system has at least as many levels, and at most N − M more. -/
theorem C114_one_atom (C : FieldConsts) (radial : RadKey → ℝ) (me : Method) (st : Fin N → Option QN) (hst : GoodStates st) (st' : Fin M → Option QN)
    (g : Fin M → Fin N) (hg : Function.Injective g) (h : ∀ i, st' i = st (g i)) (en : Fin N → ℝ)
    (s0 s s' : CSys FieldParams FKey (Fin M) (Fin M)) (h0 : s0.Fresh (fieldInter C radial me st')) (hV : s0.V = 1)
    (hH : s0.H = Matrix.diagonal fun i => (en (g i) : ℂ)) (hs : Hist (fieldInter C radial me st') s0 s) (hb : s.build (fieldInter C radial me st') = .ok s')
    (t0 t t' : CSys FieldParams FKey (Fin N) (Fin N)) (g0 : t0.Fresh (fieldInter C radial me st)) (gV : t0.V = 1)
    (gH : t0.H = Matrix.diagonal fun i => (en i : ℂ)) (ht : Hist (fieldInter C radial me st) t0 t) (gb : t.build (fieldInter C radial me st) = .ok t')
    (hp : t.p = s.p)
    (X : Matrix (Fin M) (Fin M) ℂ) (e : Fin M → ℝ) (hX : Diagonalizes s'.H X e) (U : Matrix (Fin N) (Fin N) ℂ) (d : Fin N → ℝ) (hU : Diagonalizes t'.H U d) (E : ℝ) :
    levelsUpTo e E ≤ levelsUpTo d E ∧ levelsUpTo d E + M ≤ levelsUpTo e E + N := by
  have := C114_larger_basis (fieldInter C radial me st') (fieldInter C radial me st) g hg (Matrix.diagonal fun i => (en (g i) : ℂ)) (Matrix.diagonal fun i => (en i : ℂ))
    (by
      ext i j
      rw [Matrix.submatrix_apply, Matrix.diagonal_apply, Matrix.diagonal_apply]
      by_cases hij : i = j
      · simp [hij]
      · rw [if_neg hij, if_neg (fun e => hij (hg e))])
    s0 s s' h0 (by rw [hV, hH]; simp) hs hb t0 t t' g0 (by rw [gV, gH]; simp) ht gb (by rw [gV]; simp) hp rfl (fun _ _ => rfl)
    (fun key hk => fieldOp_submatrix C radial me st st' g h hst s.p key hk) X e hX U d hU E
  simpa using this

/-- Sorted energies: what the counts say about the i-th level. -/
theorem levels_sorted {M N : ℕ} (e : Fin M → ℝ) (d : Fin N → ℝ) (he : Monotone e) (hd : Monotone d)
    (h : ∀ E, levelsUpTo e E ≤ levelsUpTo d E ∧ levelsUpTo d E + M ≤ levelsUpTo e E + N) (i : Fin M) :
    ∃ (h1 : i.val < N) (h2 : i.val + (N - M) < N), d ⟨i.val, h1⟩ ≤ e i ∧ e i ≤ d ⟨i.val + (N - M), h2⟩ := by
  have low : ∀ {K : ℕ} (f : Fin K → ℝ), Monotone f → ∀ j : Fin K, j.val + 1 ≤ levelsUpTo f (f j) := by
    intro K f hf j
    unfold levelsUpTo
    have : (Finset.Iic j) ⊆ Finset.univ.filter fun i => f i ≤ f j := fun x hx => Finset.mem_filter.2 ⟨Finset.mem_univ _, hf (Finset.mem_Iic.1 hx)⟩
    have := Finset.card_le_card this
    rwa [Fin.card_Iic] at this
  have up : ∀ {K : ℕ} (f : Fin K → ℝ), Monotone f → ∀ (j : Fin K) (E : ℝ), E < f j → levelsUpTo f E ≤ j.val := by
    intro K f hf j E hE
    unfold levelsUpTo
    have : (Finset.univ.filter fun i => f i ≤ E) ⊆ Finset.Iio j := by
      intro x hx
      rw [Finset.mem_filter] at hx
      rw [Finset.mem_Iio]
      by_contra hc
      have := hf (not_lt.1 hc)
      linarith [hx.2]
    have := Finset.card_le_card this
    rwa [Fin.card_Iio] at this
  have tot : ∀ {K : ℕ} (f : Fin K → ℝ) (E : ℝ), levelsUpTo f E ≤ K := by
    intro K f E
    unfold levelsUpTo
    have := Finset.card_le_univ (Finset.univ.filter fun i => f i ≤ E)
    rwa [Fintype.card_fin] at this
  have hi := i.isLt
  have l1 := low e he i
  have h1 := (h (e i)).1
  have hNM : M ≤ N := by
    have hlast := low e he ⟨M - 1, by omega⟩
    have := (h (e ⟨M - 1, by omega⟩)).1
    have := tot d (e ⟨M - 1, by omega⟩)
    simp only at hlast
    omega
  refine ⟨by omega, by omega, ?_, ?_⟩
  · by_contra hc
    have := up d hd ⟨i.val, by omega⟩ (e i) (not_le.1 hc)
    simp only at this
    omega
  · by_contra hc
    have a := up e he i _ (not_le.1 hc)
    have b := low d hd ⟨i.val + (N - M), by omega⟩
    have := (h (d ⟨i.val + (N - M), by omega⟩)).2
    simp only at b
    omega

/-- **C114 (sorted energies).** In the situation of `C114_one_atom`, with energies in ascending order as the eigensolver returns them: the i-th energy of the larger system is not above the
i-th energy of the smaller one, which is not above the (i + N − M)-th energy of the larger one. -/
theorem C114_sorted (C : FieldConsts) (radial : RadKey → ℝ) (me : Method) (st : Fin N → Option QN) (hst : GoodStates st) (st' : Fin M → Option QN)
    (g : Fin M → Fin N) (hg : Function.Injective g) (h : ∀ i, st' i = st (g i)) (en : Fin N → ℝ)
    (s0 s s' : CSys FieldParams FKey (Fin M) (Fin M)) (h0 : s0.Fresh (fieldInter C radial me st')) (hV : s0.V = 1)
    (hH : s0.H = Matrix.diagonal fun i => (en (g i) : ℂ)) (hs : Hist (fieldInter C radial me st') s0 s) (hb : s.build (fieldInter C radial me st') = .ok s')
    (t0 t t' : CSys FieldParams FKey (Fin N) (Fin N)) (g0 : t0.Fresh (fieldInter C radial me st)) (gV : t0.V = 1)
    (gH : t0.H = Matrix.diagonal fun i => (en i : ℂ)) (ht : Hist (fieldInter C radial me st) t0 t) (gb : t.build (fieldInter C radial me st) = .ok t')
    (hp : t.p = s.p)
    (X : Matrix (Fin M) (Fin M) ℂ) (e : Fin M → ℝ) (hX : Diagonalizes s'.H X e) (he : Monotone e)
    (U : Matrix (Fin N) (Fin N) ℂ) (d : Fin N → ℝ) (hU : Diagonalizes t'.H U d) (hd : Monotone d) (i : Fin M) :
    ∃ (h1 : i.val < N) (h2 : i.val + (N - M) < N), d ⟨i.val, h1⟩ ≤ e i ∧ e i ≤ d ⟨i.val + (N - M), h2⟩ :=
  levels_sorted e d he hd (C114_one_atom C radial me st hst st' g hg h en s0 s s' h0 hV hH hs hb t0 t t' g0 gV gH ht gb hp X e hX U d hU) i

/-! ## Two atoms -/

/-- The pair operators between some of the pair states, in the same order, are those between all pair states. -/
theorem pairOper_submatrix (C : FieldConsts) (radial : RadKey → ℝ) (me : Method) (st : Fin N → Option (QN × QN)) (st' : Fin M → Option (QN × QN))
    (g : Fin M → Fin N) (hg : StrictMono g) (h : ∀ i, st' i = st (g i)) (key : PKey) :
    pairOper C radial me st' key = (pairOper C radial me st key).submatrix g g := by
  have P : ∀ f i j, pairMat st' f i j = pairMat st f (g i) (g j) := by
    intro f i j
    unfold pairMat
    rw [h i, h j]
    by_cases hij : i < j
    · rw [if_pos hij, if_pos (hg hij)]
    · rw [if_neg hij, if_neg (fun e => hij (hg.lt_iff_lt.1 e))]
  have L : ∀ f, lowerView (pairMat st' f) = (lowerView (pairMat st f)).submatrix g g := by
    intro f
    ext i j
    rw [Matrix.submatrix_apply]
    unfold lowerView
    simp only [P, hg.lt_iff_lt, hg.injective.eq_iff]
  cases key <;> exact L _

/-- **C114 (two atoms).** Two SystemTwo, the pair states of the first are a part of those of the second, in the same order, and the basis vectors of the first (e.g. a symmetry sector, or the
pairs within an energy window) are combinations of those of the second.  After any histories that end with the same settings the larger system has up to every energy at least
as many levels, and at most as many more as it has more basis vectors. -/
theorem C114_two_atoms {k k' : Type} [Fintype k] [DecidableEq k] [Fintype k'] [DecidableEq k']
    (C : FieldConsts) (radial : RadKey → ℝ) (me : Method) (st : Fin N → Option (QN × QN)) (st' : Fin M → Option (QN × QN))
    (g : Fin M → Fin N) (hg : StrictMono g) (h : ∀ i, st' i = st (g i)) (en : Fin N → ℝ)
    (s0 s s' : CSys OKPair PKey (Fin M) k) (h0 : s0.Fresh (pairInter C radial me st'))
    (hH : s0.H = s0.Vᴴ * (Matrix.diagonal fun i => (en (g i) : ℂ)) * s0.V) (hs : Hist (pairInter C radial me st') s0 s) (hb : s.build (pairInter C radial me st') = .ok s')
    (t0 t t' : CSys OKPair PKey (Fin N) k') (g0 : t0.Fresh (pairInter C radial me st))
    (gH : t0.H = t0.Vᴴ * (Matrix.diagonal fun i => (en i : ℂ)) * t0.V) (ht : Hist (pairInter C radial me st) t0 t) (gb : t.build (pairInter C radial me st) = .ok t')
    (hsub : t0.V * t0.Vᴴ * (embed g * s0.V) = embed g * s0.V) (hp : t.p = s.p)
    (X : Matrix k k ℂ) (e : k → ℝ) (hX : Diagonalizes s'.H X e) (U : Matrix k' k' ℂ) (d : k' → ℝ) (hU : Diagonalizes t'.H U d) (E : ℝ) :
    levelsUpTo e E ≤ levelsUpTo d E ∧ levelsUpTo d E + Fintype.card k ≤ levelsUpTo e E + Fintype.card k' :=
  C114_larger_basis (pairInter C radial me st') (pairInter C radial me st) g hg.injective (Matrix.diagonal fun i => (en (g i) : ℂ)) (Matrix.diagonal fun i => (en i : ℂ))
    (by
      ext i j
      rw [Matrix.submatrix_apply, Matrix.diagonal_apply, Matrix.diagonal_apply]
      by_cases hij : i = j
      · simp [hij]
      · rw [if_neg hij, if_neg (fun e => hij (hg.injective e))])
    s0 s s' h0 hH hs hb t0 t t' g0 gH ht gb hsub hp rfl (fun _ _ => rfl) (fun key _ => pairOper_submatrix C radial me st st' g hg h key) X e hX U d hU E

/-! ## The hypotheses can be met -/

/-- Every Hermitian matrix has a diagonalization, with the energies in any order. -/
theorem diagonalizes_exists {n : Type} [Fintype n] [DecidableEq n] (A : Matrix n n ℂ) (h : A.IsHermitian) : ∃ U d, Diagonalizes A U d := by
  refine ⟨(h.eigenvectorUnitary : Matrix n n ℂ), h.eigenvalues, Unitary.coe_star_mul_self _, ?_⟩
  have u1 : (h.eigenvectorUnitary : Matrix n n ℂ)ᴴ * (h.eigenvectorUnitary : Matrix n n ℂ) = 1 := Unitary.coe_star_mul_self _
  have sp : A = (h.eigenvectorUnitary : Matrix n n ℂ) * (Matrix.diagonal fun i => (h.eigenvalues i : ℂ)) * (h.eigenvectorUnitary : Matrix n n ℂ)ᴴ := by
    have := h.spectral_theorem
    rw [Unitary.conjStarAlgAut_apply] at this
    exact this
  have := congrArg (· * (h.eigenvectorUnitary : Matrix n n ℂ)) sp
  rw [Matrix.mul_assoc _ _ (h.eigenvectorUnitary : Matrix n n ℂ), u1, Matrix.mul_one] at this
  exact this

/-- … in ascending order. -/
theorem diagonalizes_sorted (A : Matrix (Fin N) (Fin N) ℂ) (h : A.IsHermitian) : ∃ U d, Diagonalizes A U d ∧ Monotone d := by
  obtain ⟨U, d, h1, h2⟩ := diagonalizes_exists A h
  refine ⟨U.submatrix id (Tuple.sort d), d ∘ Tuple.sort d, ⟨?_, ?_⟩, Tuple.monotone_sort d⟩
  · have : (U.submatrix id (Tuple.sort d))ᴴ * U.submatrix id (Tuple.sort d) = (Uᴴ * U).submatrix (Tuple.sort d) (Tuple.sort d) := by
      ext i j; simp [Matrix.mul_apply]
    rw [this, h1]
    ext i j
    simp [Matrix.one_apply]
  · have e1 : A * U.submatrix id (Tuple.sort d) = (A * U).submatrix id (Tuple.sort d) := by ext i j; simp [Matrix.mul_apply]
    rw [e1, h2]
    ext i j
    simp [Matrix.mul_diagonal]

/-- A newly made SystemOne without fields and with all states as basis vectors can be set to any fields and diagonalized: the hypotheses of `C114_one_atom` and `C114_sorted` can be met. -/
theorem one_atom_run (C : FieldConsts) (radial : RadKey → ℝ) (me : Method) (st : Fin N → Option QN) (hst : GoodStates st) (en : Fin N → ℝ) (p : FieldParams) :
    ∃ s0 s s' : CSys FieldParams FKey (Fin N) (Fin N), s0.Fresh (fieldInter C radial me st) ∧ s0.V = 1 ∧ s0.H = (Matrix.diagonal fun i => (en i : ℂ)) ∧
      Hist (fieldInter C radial me st) s0 s ∧ s.build (fieldInter C radial me st) = .ok s' ∧ s.p = p ∧ ∃ X e, Diagonalizes s'.H X e ∧ Monotone e := by
  let s0 : CSys FieldParams FKey (Fin N) (Fin N) := ⟨⟨⟨0, 0, 0⟩, ⟨0, 0, 0⟩, false, 0, 0, none⟩, 1, Matrix.diagonal fun i => (en i : ℂ), none, none, fun _ => none, false, false, false, false⟩
  have h0 : s0.Fresh (fieldInter C radial me st) := by
    constructor <;> simp [s0, fieldInter, addKeys, sph, isBig]
    rw [show (⟨0, 0⟩ : ℂ) = 0 from rfl, norm_zero]
    norm_num
  have hset : s0.setParams p = .ok { s0 with p := p, needNew := true } := by
    simp [CSys.setParams, s0]
  have hs := Hist.set p (Hist.start (I := fieldInter C radial me st) (s0 := s0)) hset
  obtain ⟨⟨s', hb, -, -⟩, -⟩ := C35_current_parameters_partial _ _ _ h0 hs
  refine ⟨s0, _, s', h0, rfl, rfl, hs, hb, rfl, diagonalizes_sorted _ ?_⟩
  obtain ⟨-, -, c⟩ := built_compress _ (Matrix.diagonal fun i => (en i : ℂ)) _ _ _ h0 (by simp [s0]) hs hb
  rw [c]
  apply Matrix.isHermitian_conjTranspose_mul_mul
  have := C37_hermitian C radial me st hst (Matrix.diagonal fun i => (en i : ℂ)) 1 (by
    rw [Matrix.IsHermitian, Matrix.diagonal_conjTranspose]; congr 1; funext i; simp) Matrix.isHermitian_one p
  simpa [freshOper, stateOper] using this

/-- The two Zeeman levels of 30 S1/2 contain the single level m = 1/2. -/
example : GoodStates exS ∧ Function.Injective (fun _ : Fin 1 => (1 : Fin 2)) ∧ ∀ i : Fin 1, exS ((fun _ => 1) i) = exS 1 :=
  ⟨exS_good, fun a b _ => Subsingleton.elim a b, fun _ => rfl⟩

end PI
