import Verif.Rot.Trace

/-!
# C121: an interaction that shifts no level in first order spreads the levels

When the expectation value of the interaction vanishes in every basis vector (definite parity: electric field, dipole-dipole and dipole-quadrupole interaction), the lowest energies can only
fall and the highest can only rise, and the sum of the squared energies grows by the sum of the squared couplings; it falls off with the sixth power of the distance.
-/

namespace PI

open Matrix

section general
variable {P κ n k : Type} [DecidableEq κ] [Fintype n] [DecidableEq n] [Fintype k] [DecidableEq k]

/-- The energies are those of the operator between the basis vectors the history started with. -/
theorem diagonalizes_start (I : Inter P κ n) (D : Matrix n n ℂ) (s0 s s' : CSys P κ n k) (h0 : s0.Fresh I) (hD : s0.H = s0.Vᴴ * D * s0.V) (hs : Hist I s0 s) (hb : s.build I = .ok s')
    (X : Matrix k k ℂ) (e : k → ℝ) (hX : Diagonalizes s'.H X e) : ∃ Y, Diagonalizes (s0.Vᴴ * stateOper I D s.p * s0.V) Y e := by
  obtain ⟨o, q, c⟩ := built_compress I D s0 s s' h0 hD hs hb
  have w : s0.V * (s0.Vᴴ * s'.V) = s'.V := by rw [← Matrix.mul_assoc, ← q, Matrix.mul_assoc, o, Matrix.mul_one]
  have u : (s0.Vᴴ * s'.V)ᴴ * (s0.Vᴴ * s'.V) = 1 := by
    rw [Matrix.conjTranspose_mul, Matrix.conjTranspose_conjTranspose, Matrix.mul_assoc, w, o]
  have u' : (s0.Vᴴ * s'.V) * (s0.Vᴴ * s'.V)ᴴ = 1 := mul_eq_one_comm.1 u
  set W := s0.Vᴴ * s'.V with hW
  refine ⟨W * X, ?_, ?_⟩
  · rw [Matrix.conjTranspose_mul, Matrix.mul_assoc, ← Matrix.mul_assoc Wᴴ, u, Matrix.one_mul, hX.1]
  · have a : Wᴴ * (s0.Vᴴ * stateOper I D s.p * s0.V) * W = s'.H := by
      have : Wᴴ * s0.Vᴴ = s'.Vᴴ := by rw [← Matrix.conjTranspose_mul, w]
      calc Wᴴ * (s0.Vᴴ * stateOper I D s.p * s0.V) * W = (Wᴴ * s0.Vᴴ) * stateOper I D s.p * (s0.V * W) := by simp only [Matrix.mul_assoc]
        _ = s'.H := by rw [this, w, c]
    calc s0.Vᴴ * stateOper I D s.p * s0.V * (W * X) = (W * Wᴴ) * (s0.Vᴴ * stateOper I D s.p * s0.V) * (W * X) := by rw [u', Matrix.one_mul]
      _ = W * ((Wᴴ * (s0.Vᴴ * stateOper I D s.p * s0.V) * W) * X) := by simp only [Matrix.mul_assoc]
      _ = W * X * Matrix.diagonal fun i => (e i : ℂ) := by rw [a, hX.2]; exact (Matrix.mul_assoc W X _).symm

theorem diagonalizes_entry {A Y : Matrix k k ℂ} {e : k → ℝ} (h : Diagonalizes A Y e) (c : k) : (A c c).re = ∑ i, ‖Y c i‖ ^ 2 * e i := by
  have h1 : Y * Yᴴ = 1 := mul_eq_one_comm.1 h.1
  have : A = Y * (Matrix.diagonal fun i => (e i : ℂ)) * Yᴴ := by rw [← h.2, Matrix.mul_assoc, h1, Matrix.mul_one]
  rw [this, Matrix.mul_apply, Complex.re_sum]
  refine Finset.sum_congr rfl fun i _ => ?_
  rw [Matrix.mul_diagonal, Matrix.conjTranspose_apply, ← Complex.normSq_eq_norm_sq]
  have : Y c i * (e i : ℂ) * star (Y c i) = ((Complex.normSq (Y c i) * e i : ℝ) : ℂ) := by
    rw [Complex.star_def, mul_right_comm, Complex.mul_conj]; push_cast; ring
  rw [this, Complex.ofReal_re]

theorem unitary_rows {Y : Matrix k k ℂ} (h : Yᴴ * Y = 1) : (∀ c, ∑ i, ‖Y c i‖ ^ 2 = 1) ∧ ∀ i, ∑ c, ‖Y c i‖ ^ 2 = 1 := by
  have h1 : Y * Yᴴ = 1 := mul_eq_one_comm.1 h
  have n : ∀ z : ℂ, z * star z = ((‖z‖ ^ 2 : ℝ) : ℂ) := by
    intro z; rw [Complex.star_def, Complex.mul_conj, Complex.normSq_eq_norm_sq]
  constructor
  · intro c
    have := congrFun (congrFun h1 c) c
    rw [Matrix.mul_apply, Matrix.one_apply_eq] at this
    simp only [Matrix.conjTranspose_apply, n] at this
    exact_mod_cast this
  · intro i
    have := congrFun (congrFun h i) i
    rw [Matrix.mul_apply, Matrix.one_apply_eq] at this
    simp only [Matrix.conjTranspose_apply, mul_comm (star _), n] at this
    exact_mod_cast this

/-- Weights between 0 and 1 that add up to m: the weighted sum of sorted numbers is at least the sum of the m smallest. -/
theorem weights_lowest {k : ℕ} (e : Fin k → ℝ) (he : Monotone e) (w : Fin k → ℝ) (h0 : ∀ i, 0 ≤ w i) (h1 : ∀ i, w i ≤ 1) (m : ℕ) (hm : ∑ i, w i = m) :
    ∑ i ∈ Finset.univ.filter (fun i : Fin k => i.val < m), e i ≤ ∑ i, w i * e i := by
  by_cases hk : k ≤ m
  · have w1 : ∀ i ∈ Finset.univ, w i = 1 := by
      have : ∑ i, (1 - w i) ≤ 0 := by
        rw [Finset.sum_sub_distrib, hm]
        simp
        exact_mod_cast hk
      intro i hi
      have z := (Finset.sum_eq_zero_iff_of_nonneg (fun i _ => by linarith [h1 i])).1 (le_antisymm this (Finset.sum_nonneg fun i _ => by linarith [h1 i])) i hi
      linarith
    rw [Finset.filter_true_of_mem (fun i _ => lt_of_lt_of_le i.2 hk)]
    exact le_of_eq (Finset.sum_congr rfl fun i hi => by rw [w1 i hi, one_mul])
  · push Not at hk
    set t := e ⟨m, hk⟩ with ht
    have c : ∑ i ∈ Finset.univ.filter (fun i : Fin k => i.val < m), (1 : ℝ) = m := by
      rw [Finset.sum_const, nsmul_eq_mul, mul_one]
      congr 1
      have : (Finset.univ.filter fun i : Fin k => i.val < m) = (Finset.univ : Finset (Fin m)).map (Fin.castLEEmb hk.le) := by
        ext i
        simp only [Finset.mem_filter, Finset.mem_univ, true_and, Finset.mem_map]
        constructor
        · intro h; exact ⟨⟨i.val, h⟩, rfl⟩
        · rintro ⟨a, rfl⟩; exact a.2
      rw [this, Finset.card_map, Finset.card_univ, Fintype.card_fin]
    have key : ∀ i : Fin k, (if i.val < m then (e i - t) else 0) ≤ w i * (e i - t) := by
      intro i
      by_cases h : i.val < m
      · rw [if_pos h]
        have : e i ≤ t := he (show i ≤ ⟨m, hk⟩ from h.le)
        nlinarith [h1 i]
      · rw [if_neg h]
        have : t ≤ e i := he (show (⟨m, hk⟩ : Fin k) ≤ i from not_lt.1 h)
        exact mul_nonneg (h0 i) (by linarith)
    have s := Finset.sum_le_sum fun i (_ : i ∈ Finset.univ) => key i
    rw [← Finset.sum_filter, Finset.sum_sub_distrib] at s
    simp only [mul_sub, Finset.sum_sub_distrib] at s
    rw [← Finset.sum_mul, hm] at s
    have c' : ∑ i ∈ Finset.univ.filter (fun i : Fin k => i.val < m), t = m * t := by
      rw [← c, Finset.sum_mul]; simp
    linarith

theorem weights_highest {k : ℕ} (e : Fin k → ℝ) (he : Monotone e) (w : Fin k → ℝ) (h0 : ∀ i, 0 ≤ w i) (h1 : ∀ i, w i ≤ 1) (m : ℕ) (hm : ∑ i, w i = m) :
    ∑ i, w i * e i ≤ ∑ i ∈ Finset.univ.filter (fun i : Fin k => k ≤ i.val + m), e i := by
  have := weights_lowest (fun i => -e i.rev) (by
    intro i j h
    have := he (Fin.rev_le_rev.2 h)
    dsimp only
    linarith) (fun i => w i.rev) (fun i => h0 _) (fun i => h1 _) m (by
      rw [← hm]; exact Equiv.sum_comp Fin.revPerm w)
  have a : ∑ i : Fin k, w i.rev * -e i.rev = -∑ i, w i * e i := by
    rw [← Finset.sum_neg_distrib]
    exact (Equiv.sum_comp Fin.revPerm fun i => w i * -e i).trans (Finset.sum_congr rfl fun i _ => by ring)
  have b : ∑ i ∈ Finset.univ.filter (fun i : Fin k => i.val < m), -e i.rev = -∑ i ∈ Finset.univ.filter (fun i : Fin k => k ≤ i.val + m), e i := by
    rw [← Finset.sum_neg_distrib, Finset.sum_filter, Finset.sum_filter]
    refine (Finset.sum_congr rfl fun i _ => ?_).trans (Equiv.sum_comp Fin.revPerm fun i : Fin k => if k ≤ i.val + m then -e i else 0)
    have : (i.val < m) = (k ≤ (Fin.revPerm i).val + m) := by
      rw [Fin.revPerm_apply, Fin.val_rev]
      apply propext
      have := i.2
      omega
    simp only [this]
    rfl
  rw [a, b] at this
  linarith

/-- The sums of the lowest and highest eigenvalues bound the sums of diagonal entries. -/
theorem diagonal_between {k : ℕ} {A Y : Matrix (Fin k) (Fin k) ℂ} {e : Fin k → ℝ} (h : Diagonalizes A Y e) (he : Monotone e) (S : Finset (Fin k)) :
    ∑ i ∈ Finset.univ.filter (fun i : Fin k => i.val < S.card), e i ≤ ∑ c ∈ S, (A c c).re ∧
    ∑ c ∈ S, (A c c).re ≤ ∑ i ∈ Finset.univ.filter (fun i : Fin k => k ≤ i.val + S.card), e i := by
  obtain ⟨r, cl⟩ := unitary_rows h.1
  have e1 : ∑ c ∈ S, (A c c).re = ∑ i, (∑ c ∈ S, ‖Y c i‖ ^ 2) * e i := by
    rw [Finset.sum_congr rfl fun c _ => diagonalizes_entry h c, Finset.sum_comm]
    exact Finset.sum_congr rfl fun i _ => (Finset.sum_mul _ _ _).symm
  have p0 : ∀ i, 0 ≤ ∑ c ∈ S, ‖Y c i‖ ^ 2 := fun i => Finset.sum_nonneg fun c _ => by positivity
  have p1 : ∀ i, ∑ c ∈ S, ‖Y c i‖ ^ 2 ≤ 1 := fun i => by
    rw [← cl i]
    exact Finset.sum_le_sum_of_subset_of_nonneg (Finset.subset_univ S) fun c _ _ => by positivity
  have pm : ∑ i, ∑ c ∈ S, ‖Y c i‖ ^ 2 = (S.card : ℝ) := by
    rw [Finset.sum_comm, Finset.sum_congr rfl fun c _ => r c, Finset.sum_const, nsmul_eq_mul, mul_one]
  rw [e1]
  exact ⟨weights_lowest e he _ p0 p1 _ pm, weights_highest e he _ p0 p1 _ pm⟩

/-- The operator of an interaction key has no expectation value in the basis vectors. -/
def NoFirstOrder (I : Inter P κ n) (s0 : CSys P κ n k) (p : P) : Prop := ∀ key ∈ I.need p, ∀ c, (s0.Vᴴ * I.op key * s0.V) c c = 0

omit [DecidableEq κ] [DecidableEq n] [Fintype k] [DecidableEq k] in
theorem start_oper (I : Inter P κ n) (D : Matrix n n ℂ) (s0 : CSys P κ n k) (hD : s0.H = s0.Vᴴ * D * s0.V) (p : P) :
    s0.Vᴴ * stateOper I D p * s0.V = s0.H + ((I.need p).map fun key => I.coef p key • (s0.Vᴴ * I.op key * s0.V)).sum := by
  unfold stateOper
  rw [Matrix.mul_add, Matrix.add_mul, ← hD]
  congr 1
  induction I.need p with
  | nil => simp
  | cons x L ih => simp only [List.map_cons, List.sum_cons, Matrix.mul_add, Matrix.add_mul, ih, Matrix.mul_smul, Matrix.smul_mul]

theorem no_first_order (I : Inter P κ n) (D : Matrix n n ℂ) (s0 : CSys P κ n k) (hD : s0.H = s0.Vᴴ * D * s0.V) (p : P) (h : NoFirstOrder I s0 p) (c : k) :
    (s0.Vᴴ * stateOper I D p * s0.V) c c = s0.H c c := by
  rw [start_oper I D s0 hD, Matrix.add_apply]
  have : ∀ L : List κ, (∀ key ∈ L, (s0.Vᴴ * I.op key * s0.V) c c = 0) → (L.map fun key => I.coef p key • (s0.Vᴴ * I.op key * s0.V)).sum c c = 0 := by
    intro L
    induction L with
    | nil => intro _; rfl
    | cons x L ih =>
      intro hL
      rw [List.map_cons, List.sum_cons, Matrix.add_apply, Matrix.smul_apply, hL x (by simp), smul_zero, zero_add]
      exact ih fun key hk => hL key (List.mem_cons_of_mem _ hk)
  rw [this _ fun key hk => h key hk c, add_zero]

/-- **C121 (systems).** After any history with an interaction without expectation values in the basis vectors: for every selection S of basis vectors the |S| lowest energies add up to at most the
energies of S without interaction, and the |S| highest to at least those. -/
theorem C121_spread {k : ℕ} (I : Inter P κ n) (D : Matrix n n ℂ) (s0 s s' : CSys P κ n (Fin k)) (h0 : s0.Fresh I) (hD : s0.H = s0.Vᴴ * D * s0.V) (hs : Hist I s0 s) (hb : s.build I = .ok s')
    (hz : NoFirstOrder I s0 s.p) (X : Matrix (Fin k) (Fin k) ℂ) (e : Fin k → ℝ) (hX : Diagonalizes s'.H X e) (he : Monotone e) (S : Finset (Fin k)) :
    ∑ i ∈ Finset.univ.filter (fun i : Fin k => i.val < S.card), e i ≤ ∑ c ∈ S, (s0.H c c).re ∧
    ∑ c ∈ S, (s0.H c c).re ≤ ∑ i ∈ Finset.univ.filter (fun i : Fin k => k ≤ i.val + S.card), e i := by
  obtain ⟨Y, hY⟩ := diagonalizes_start I D s0 s s' h0 hD hs hb X e hX
  have := diagonal_between hY he S
  simp only [no_first_order I D s0 hD s.p hz] at this
  exact this

theorem square_sum {A Y : Matrix k k ℂ} {e : k → ℝ} (h : Diagonalizes A Y e) : ∑ i, e i ^ 2 = ∑ c, ∑ d, ‖A c d‖ ^ 2 := by
  have h1 : Y * Yᴴ = 1 := mul_eq_one_comm.1 h.1
  have hA : A = Y * (Matrix.diagonal fun i => (e i : ℂ)) * Yᴴ := by rw [← h.2, Matrix.mul_assoc, h1, Matrix.mul_one]
  have hd : (Matrix.diagonal fun i => (e i : ℂ))ᴴ = Matrix.diagonal fun i => (e i : ℂ) := by
    rw [Matrix.diagonal_conjTranspose]; congr 1; funext i; simp
  have t : (A * Aᴴ).trace = ((∑ i, e i ^ 2 : ℝ) : ℂ) := by
    have : A * Aᴴ = Y * ((Matrix.diagonal fun i => (e i : ℂ)) * (Matrix.diagonal fun i => (e i : ℂ))) * Yᴴ := by
      rw [hA]
      simp only [Matrix.conjTranspose_mul, Matrix.conjTranspose_conjTranspose, hd]
      calc Y * (Matrix.diagonal fun i => (e i : ℂ)) * Yᴴ * (Y * ((Matrix.diagonal fun i => (e i : ℂ)) * Yᴴ))
          = Y * (Matrix.diagonal fun i => (e i : ℂ)) * (Yᴴ * Y) * ((Matrix.diagonal fun i => (e i : ℂ)) * Yᴴ) := by simp only [Matrix.mul_assoc]
        _ = _ := by rw [h.1, Matrix.mul_one]; simp only [Matrix.mul_assoc]
    rw [this, Matrix.trace_mul_comm, ← Matrix.mul_assoc, h.1, Matrix.one_mul, Matrix.diagonal_mul_diagonal, Matrix.trace_diagonal]
    push_cast
    exact Finset.sum_congr rfl fun i _ => by ring
  have t2 : (A * Aᴴ).trace = ((∑ c, ∑ d, ‖A c d‖ ^ 2 : ℝ) : ℂ) := by
    push_cast
    unfold Matrix.trace
    refine Finset.sum_congr rfl fun c _ => ?_
    rw [Matrix.diag_apply, Matrix.mul_apply]
    refine Finset.sum_congr rfl fun d _ => ?_
    rw [Matrix.conjTranspose_apply, Complex.star_def, Complex.mul_conj, Complex.normSq_eq_norm_sq]
    push_cast; rfl
  exact_mod_cast t.symm.trans t2

/-- **C121 (squares).** If moreover the Hamiltonian without interaction is diagonal, the sum of the squared energies grows exactly by the sum of the squared couplings between the basis vectors. -/
theorem C121_squares (I : Inter P κ n) (D : Matrix n n ℂ) (s0 s s' : CSys P κ n k) (h0 : s0.Fresh I) (hD : s0.H = s0.Vᴴ * D * s0.V) (hs : Hist I s0 s) (hb : s.build I = .ok s')
    (hz : NoFirstOrder I s0 s.p) (hd : ∀ c d, c ≠ d → s0.H c d = 0) (hr : ∀ c, (s0.H c c).im = 0) (X : Matrix k k ℂ) (e : k → ℝ) (hX : Diagonalizes s'.H X e) :
    ∑ i, e i ^ 2 = ∑ c, (s0.H c c).re ^ 2 + ∑ c, ∑ d, ‖((I.need s.p).map fun key => I.coef s.p key • (s0.Vᴴ * I.op key * s0.V)).sum c d‖ ^ 2 := by
  obtain ⟨Y, hY⟩ := diagonalizes_start I D s0 s s' h0 hD hs hb X e hX
  have z := no_first_order I D s0 hD s.p hz
  rw [square_sum hY]
  rw [start_oper I D s0 hD] at z ⊢
  set W := ((I.need s.p).map fun key => I.coef s.p key • (s0.Vᴴ * I.op key * s0.V)).sum
  have hW : ∀ c, W c c = 0 := by
    intro c
    have := z c
    rw [Matrix.add_apply, add_eq_left] at this
    exact this
  rw [← Finset.sum_add_distrib]
  refine Finset.sum_congr rfl fun c _ => ?_
  have p : ∀ d, ‖(s0.H + W) c d‖ ^ 2 = (if d = c then (s0.H c c).re ^ 2 else 0) + ‖W c d‖ ^ 2 := by
    intro d
    rw [Matrix.add_apply]
    by_cases h : d = c
    · rw [h, hW, if_pos rfl, add_zero, norm_zero, ← Complex.normSq_eq_norm_sq, Complex.normSq_apply, hr]; ring
    · rw [if_neg h, hd c d (Ne.symm h), zero_add, zero_add]
  rw [Finset.sum_congr rfl fun d _ => p d, Finset.sum_add_distrib, Finset.sum_ite_eq' Finset.univ c, if_pos (Finset.mem_univ c)]

omit [DecidableEq n] [Fintype k] [DecidableEq k] in
theorem column_zero (V : Matrix n k ℂ) (A : Matrix n n ℂ) (c : k) (h : ∀ i j, V i c ≠ 0 → V j c ≠ 0 → A i j = 0) : (Vᴴ * A * V) c c = 0 := by
  rw [Matrix.mul_apply]
  refine Finset.sum_eq_zero fun j _ => ?_
  by_cases hj : V j c = 0
  · rw [hj, mul_zero]
  rw [Matrix.mul_apply, Finset.sum_mul]
  refine Finset.sum_eq_zero fun i _ => ?_
  by_cases hi : V i c = 0
  · rw [Matrix.conjTranspose_apply, hi, star_zero, zero_mul, zero_mul]
  · rw [h i j hi hj, mul_zero, zero_mul]

end general


theorem lowest_one {k : ℕ} (e : Fin k → ℝ) (i : Fin k) (hi : i.val = 0) : ∑ j ∈ Finset.univ.filter (fun j : Fin k => j.val < 1), e j = e i := by
  have : (Finset.univ.filter fun j : Fin k => j.val < 1) = {i} := by
    ext j
    simp only [Finset.mem_filter, Finset.mem_univ, true_and, Finset.mem_singleton, Fin.ext_iff]
    omega
  rw [this, Finset.sum_singleton]

/-! ## One atom in an electric field -/

variable {N : ℕ}

/-- Every basis vector has a definite parity. -/
def DefiniteParity {k : Type} (st : Fin N → Option QN) (V : Matrix (Fin N) k ℂ) : Prop :=
  ∀ c i j a b, st i = some a → st j = some b → V i c ≠ 0 → V j c ≠ 0 → (a.l + b.l) % 2 = 0

theorem electric_no_first_order {k : Type} [Fintype k] [DecidableEq k] (C : FieldConsts) (radial : RadKey → ℝ) (me : Method) (st : Fin N → Option QN) (hg : GoodStates st)
    (s0 : CSys FieldParams FKey (Fin N) k) (hV : DefiniteParity st s0.V) (p : FieldParams) (hB : p.B = ⟨0, 0, 0⟩) (hc : p.charge = 0 ∨ p.dist = none) :
    NoFirstOrder (fieldInter C radial me st) s0 p := by
  intro key hk c
  obtain ⟨q, rfl⟩ := electric_keys p hB hc key hk
  refine column_zero _ _ c fun i j hi hj => ?_
  exact electric_entry C radial me st hg q i j fun a b ha hb => hV c i j a b ha hb hi hj

/-- **C121 (electric field).** In an electric field alone every selection S of basis vectors of definite parity has an energy without field between the sums of the |S| lowest and the |S| highest
energies in the field. -/
theorem C121_electric_field {k : ℕ} (C : FieldConsts) (radial : RadKey → ℝ) (me : Method) (st : Fin N → Option QN) (hg : GoodStates st) (D : Matrix (Fin N) (Fin N) ℂ)
    (s0 s s' : CSys FieldParams FKey (Fin N) (Fin k)) (h0 : s0.Fresh (fieldInter C radial me st)) (hD : s0.H = s0.Vᴴ * D * s0.V) (hV : DefiniteParity st s0.V)
    (hs : Hist (fieldInter C radial me st) s0 s) (hb : s.build (fieldInter C radial me st) = .ok s')
    (hB : s.p.B = ⟨0, 0, 0⟩) (hc : s.p.charge = 0 ∨ s.p.dist = none)
    (X : Matrix (Fin k) (Fin k) ℂ) (e : Fin k → ℝ) (hX : Diagonalizes s'.H X e) (he : Monotone e) (S : Finset (Fin k)) :
    ∑ i ∈ Finset.univ.filter (fun i : Fin k => i.val < S.card), e i ≤ ∑ c ∈ S, (s0.H c c).re ∧
    ∑ c ∈ S, (s0.H c c).re ≤ ∑ i ∈ Finset.univ.filter (fun i : Fin k => k ≤ i.val + S.card), e i :=
  C121_spread _ D s0 s s' h0 hD hs hb (electric_no_first_order C radial me st hg s0 hV s.p hB hc) X e hX he S

/-- The ground state energy can only fall in an electric field. -/
theorem C121_ground_state_falls {k : ℕ} (C : FieldConsts) (radial : RadKey → ℝ) (me : Method) (st : Fin N → Option QN) (hg : GoodStates st) (D : Matrix (Fin N) (Fin N) ℂ)
    (s0 s s' : CSys FieldParams FKey (Fin N) (Fin k)) (h0 : s0.Fresh (fieldInter C radial me st)) (hD : s0.H = s0.Vᴴ * D * s0.V) (hV : DefiniteParity st s0.V)
    (hs : Hist (fieldInter C radial me st) s0 s) (hb : s.build (fieldInter C radial me st) = .ok s')
    (hB : s.p.B = ⟨0, 0, 0⟩) (hc : s.p.charge = 0 ∨ s.p.dist = none)
    (X : Matrix (Fin k) (Fin k) ℂ) (e : Fin k → ℝ) (hX : Diagonalizes s'.H X e) (he : Monotone e) (i c : Fin k) (hi : i.val = 0) : e i ≤ (s0.H c c).re := by
  have := (C121_electric_field C radial me st hg D s0 s s' h0 hD hV hs hb hB hc X e hX he {c}).1
  rw [Finset.card_singleton, Finset.sum_singleton, lowest_one e i hi] at this
  exact this

theorem isBig_zero : isBig 0 = false := by
  unfold isBig
  rw [norm_zero]
  exact decide_eq_false (by norm_num)

theorem sph_along_z (f : ℝ) : sph ⟨0, 0, f⟩ 0 = ((f : ℝ) : ℂ) ∧ sph ⟨0, 0, f⟩ 1 = 0 ∧ sph ⟨0, 0, f⟩ (-1) = 0 := by
  unfold sph
  refine ⟨?_, ?_, ?_⟩
  · rw [if_neg (by norm_num), if_neg (by norm_num), if_pos rfl]; rfl
  · rw [if_pos rfl]; apply Complex.ext <;> simp
  · rw [if_neg (by norm_num), if_pos rfl]; apply Complex.ext <;> simp

theorem sph_none (q : ℤ) : sph ⟨0, 0, 0⟩ q = 0 := by
  unfold sph
  split_ifs <;> (apply Complex.ext <;> simp)

theorem dia_none (k q : ℤ) : diaTerm ⟨0, 0, 0⟩ k q = 0 := by
  unfold diaTerm
  simp only [sph_none]
  split_ifs <;> simp

theorem keys_along_z (p : FieldParams) (f : ℝ) (hf : 1e-24 < |f|) (hE : p.E = ⟨0, 0, f⟩) (hB : p.B = ⟨0, 0, 0⟩) (hc : p.charge = 0 ∨ p.dist = none) : addKeys p = [.e 0] := by
  obtain ⟨s0, s1, s2⟩ := sph_along_z f
  have b0 : isBig ((f : ℝ) : ℂ) = true := by
    unfold isBig
    rw [Complex.norm_real, Real.norm_eq_abs]
    exact decide_eq_true hf
  unfold addKeys
  rw [hE, hB]
  simp only [sph_none, dia_none, s0, s1, s2, b0, isBig_zero]
  rcases hc with hc | hc <;> simp [hc]

/-- **C121 (field along z).** The sum of the squared energies grows with the square of the field: the constant F does not depend on the field or the history. -/
theorem C121_field_squared {k : Type} [Fintype k] [DecidableEq k] (C : FieldConsts) (radial : RadKey → ℝ) (me : Method) (st : Fin N → Option QN) (hg : GoodStates st) (D : Matrix (Fin N) (Fin N) ℂ)
    (s0 : CSys FieldParams FKey (Fin N) k) (h0 : s0.Fresh (fieldInter C radial me st)) (hD : s0.H = s0.Vᴴ * D * s0.V) (hV : DefiniteParity st s0.V)
    (hd : ∀ c d, c ≠ d → s0.H c d = 0) (hr : ∀ c, (s0.H c c).im = 0) :
    ∃ F : ℝ, 0 ≤ F ∧ ∀ s s' : CSys FieldParams FKey (Fin N) k, Hist (fieldInter C radial me st) s0 s → s.build (fieldInter C radial me st) = .ok s' →
      ∀ f : ℝ, 1e-24 < |f| → s.p.E = ⟨0, 0, f⟩ → s.p.B = ⟨0, 0, 0⟩ → (s.p.charge = 0 ∨ s.p.dist = none) →
        ∀ X e, Diagonalizes s'.H X e → ∑ i, e i ^ 2 = ∑ c, (s0.H c c).re ^ 2 + F * f ^ 2 := by
  refine ⟨∑ c, ∑ d, ‖(s0.Vᴴ * fieldOp C radial me st (.e 0) * s0.V) c d‖ ^ 2, by positivity, ?_⟩
  intro s s' hs hb f hf hE hB hc X e hX
  rw [C121_squares _ D s0 s s' h0 hD hs hb (electric_no_first_order C radial me st hg s0 hV s.p hB hc) hd hr X e hX]
  congr 1
  have k1 := keys_along_z s.p f hf hE hB hc
  have c1 : addCoef s.p (.e 0) = -((f : ℝ) : ℂ) := by
    show (if (0 : ℤ) = 0 then -sph s.p.E 0 else if (0 : ℤ) = 1 then sph s.p.E (-1) else sph s.p.E 1) = _
    rw [if_pos rfl, hE, (sph_along_z f).1]
  show ∑ c, ∑ d, ‖((addKeys s.p).map fun key => addCoef s.p key • (s0.Vᴴ * fieldOp C radial me st key * s0.V)).sum c d‖ ^ 2 = _
  rw [k1, List.map_cons, List.map_nil, List.sum_cons, List.sum_nil, add_zero, c1, Finset.sum_mul]
  refine Finset.sum_congr rfl fun c _ => ?_
  rw [Finset.sum_mul]
  refine Finset.sum_congr rfl fun d _ => ?_
  rw [Matrix.smul_apply, smul_eq_mul, norm_mul, norm_neg, Complex.norm_real, mul_pow, Real.norm_eq_abs, sq_abs, mul_comm]

/-! ## Two atoms -/

/-- Every basis vector of the pair has a definite parity of each atom. -/
def DefiniteParities {k : Type} (st : Fin N → Option (QN × QN)) (V : Matrix (Fin N) k ℂ) : Prop :=
  ∀ c i j a b, st i = some a → st j = some b → V i c ≠ 0 → V j c ≠ 0 → (a.1.l + b.1.l) % 2 = 0 ∧ (a.2.l + b.2.l) % 2 = 0

theorem pair_no_first_order {k : Type} [Fintype k] [DecidableEq k] (C : FieldConsts) (radial : RadKey → ℝ) (me : Method) (st : Fin N → Option (QN × QN))
    (s0 : CSys OKPair PKey (Fin N) k) (hV : DefiniteParities st s0.V) (p : OKPair) (ho : p.1.order ≤ 4) :
    NoFirstOrder (pairInter C radial me st) s0 p := by
  intro key hk c
  have hk : key ∈ (pairTerms p.1).map fun u => u.1 := hk
  refine column_zero _ _ c fun i j hi hj => ?_
  refine pair_entry C radial me st key (fun o h => ?_) i j fun a b ha hb => hV c i j a b ha hb hi hj
  obtain ⟨u, hu, hk⟩ := List.mem_map.1 hk
  exact (pairTerms_order p.1 u hu o (hk.trans h)).trans ho

/-- **C121 (two atoms).** With the dipole-dipole and dipole-quadrupole interaction every selection S of basis vectors of definite parities has an energy without interaction between the sums of the |S| lowest
and the |S| highest energies. -/
theorem C121_two_atoms {k : ℕ} (C : FieldConsts) (radial : RadKey → ℝ) (me : Method) (st : Fin N → Option (QN × QN)) (D : Matrix (Fin N) (Fin N) ℂ)
    (s0 s s' : CSys OKPair PKey (Fin N) (Fin k)) (h0 : s0.Fresh (pairInter C radial me st)) (hD : s0.H = s0.Vᴴ * D * s0.V) (hV : DefiniteParities st s0.V)
    (hs : Hist (pairInter C radial me st) s0 s) (hb : s.build (pairInter C radial me st) = .ok s') (ho : s.p.1.order ≤ 4)
    (X : Matrix (Fin k) (Fin k) ℂ) (e : Fin k → ℝ) (hX : Diagonalizes s'.H X e) (he : Monotone e) (S : Finset (Fin k)) :
    ∑ i ∈ Finset.univ.filter (fun i : Fin k => i.val < S.card), e i ≤ ∑ c ∈ S, (s0.H c c).re ∧
    ∑ c ∈ S, (s0.H c c).re ≤ ∑ i ∈ Finset.univ.filter (fun i : Fin k => k ≤ i.val + S.card), e i :=
  C121_spread _ D s0 s s' h0 hD hs hb (pair_no_first_order C radial me st s0 hV s.p ho) X e hX he S

/-- **C121 (distance).** With the dipole-dipole interaction along the z axis the sum of the squared energies exceeds the one without interaction by F/R⁶: the constant F does not depend on the distance or the
history. -/
theorem C121_distance {k : Type} [Fintype k] [DecidableEq k] (C : FieldConsts) (radial : RadKey → ℝ) (me : Method) (st : Fin N → Option (QN × QN)) (D : Matrix (Fin N) (Fin N) ℂ)
    (s0 : CSys OKPair PKey (Fin N) k) (h0 : s0.Fresh (pairInter C radial me st)) (hD : s0.H = s0.Vᴴ * D * s0.V) (hV : DefiniteParities st s0.V)
    (hd : ∀ c d, c ≠ d → s0.H c d = 0) (hr : ∀ c, (s0.H c c).im = 0) :
    ∃ F : ℝ, 0 ≤ F ∧ ∀ s s' : CSys OKPair PKey (Fin N) k, Hist (pairInter C radial me st) s0 s → s.build (pairInter C radial me st) = .ok s' →
      OnAxis s.p.1 → s.p.1.order = 3 → ∀ X e, Diagonalizes s'.H X e → ∑ i, e i ^ 2 = ∑ c, (s0.H c c).re ^ 2 + F / s.p.1.dist ^ 6 := by
  refine ⟨∑ c, ∑ d, ‖(s0.Vᴴ * pairOper C radial me st (.mul 3) * s0.V) c d‖ ^ 2, by positivity, ?_⟩
  intro s s' hs hb ha ho X e hX
  rw [C121_squares _ D s0 s s' h0 hD hs hb (pair_no_first_order C radial me st s0 hV s.p (by omega)) hd hr X e hX]
  congr 1
  have k1 : pairTerms s.p.1 = [(.mul 3, 1 / s.p.1.dist ^ 3)] := by
    rw [pairTerms_axis _ ha, ho]; rfl
  show ∑ c, ∑ d, ‖(((pairTerms s.p.1).map (·.1)).map fun key => ((((pairTerms s.p.1).lookup key).getD 0 : ℝ) : ℂ) • (s0.Vᴴ * pairOper C radial me st key * s0.V)).sum c d‖ ^ 2 = _
  rw [k1]
  simp only [List.map_cons, List.map_nil, List.sum_cons, List.sum_nil, add_zero, List.lookup_cons, beq_self_eq_true, Option.getD_some]
  rw [Finset.sum_div]
  refine Finset.sum_congr rfl fun c _ => ?_
  rw [Finset.sum_div]
  refine Finset.sum_congr rfl fun d _ => ?_
  rw [Matrix.smul_apply, smul_eq_mul, norm_mul, Complex.norm_real, mul_pow, Real.norm_eq_abs, sq_abs, div_pow, one_pow, ← pow_mul, one_div_mul_eq_div]


/-! ## The hypotheses can be met -/

/-- The unperturbed states have definite parities. -/
theorem states_definite (st : Fin N → Option QN) : DefiniteParity st (1 : Matrix (Fin N) (Fin N) ℂ) := by
  intro c i j a b ha hb hi hj
  have h : ∀ x : Fin N, (1 : Matrix (Fin N) (Fin N) ℂ) x c ≠ 0 → x = c := fun x hx => by
    by_contra h; exact hx (Matrix.one_apply_ne h)
  rw [h i hi] at ha
  rw [h j hj, ha] at hb
  cases hb
  omega

theorem pairs_definite (st : Fin N → Option (QN × QN)) : DefiniteParities st (1 : Matrix (Fin N) (Fin N) ℂ) := by
  intro c i j a b ha hb hi hj
  have h : ∀ x : Fin N, (1 : Matrix (Fin N) (Fin N) ℂ) x c ≠ 0 → x = c := fun x hx => by
    by_contra h; exact hx (Matrix.one_apply_ne h)
  rw [h i hi] at ha
  rw [h j hj, ha] at hb
  cases hb
  omega

/-- The levels of 30 S1/2 in an electric field. -/
example (C : FieldConsts) (radial : RadKey → ℝ) (me : Method) : ∃ (s s' : CSys FieldParams FKey (Fin 2) (Fin 2)) (X : Matrix (Fin 2) (Fin 2) ℂ) (e : Fin 2 → ℝ),
    s.build (fieldInter C radial me exS) = .ok s' ∧ Diagonalizes s'.H X e ∧ Monotone e ∧ e 0 ≤ 7 := by
  obtain ⟨s0, s, s', h0, hV, hH, hs, hb, hp, X, e, hX, he⟩ := one_atom_run C radial me exS exS_good (fun _ => 7) ⟨⟨1, 3, 2⟩, ⟨0, 0, 0⟩, false, 0, 0, none⟩
  refine ⟨s, s', X, e, hb, hX, he, ?_⟩
  have := C121_ground_state_falls C radial me exS exS_good (Matrix.diagonal fun _ => ((7 : ℝ) : ℂ)) s0 s s' h0 (by rw [hV, hH]; simp) (by rw [hV]; exact states_definite _) hs hb (by rw [hp])
    (by rw [hp]; exact Or.inl rfl) X e hX he 0 0 rfl
  rw [hH, Matrix.diagonal_apply_eq, Complex.ofReal_re] at this
  exact this

/-- The pair states of 30 S1/2 and 30 P1/2: the four lowest of the eight energies add up to at most 28 at any accepted settings up to order 4. -/
example (C : FieldConsts) (radial : RadKey → ℝ) (me : Method) (p : OKPair) (ho : p.1.order ≤ 4) : ∃ (s s' : CSys OKPair PKey (Fin 8) (Fin 8)) (X : Matrix (Fin 8) (Fin 8) ℂ) (e : Fin 8 → ℝ),
    s.p = p ∧ s.build (pairInter C radial me exSP) = .ok s' ∧ Diagonalizes s'.H X e ∧ ∑ i ∈ Finset.univ.filter (fun i : Fin 8 => i.val < 4), e i ≤ 28 := by
  obtain ⟨s0, s, s', h0, hV, hH, hs, hb, hp, X, e, hX, he⟩ := two_atoms_run C radial me exSP (fun _ => 7) p
  refine ⟨s, s', X, e, hp, hb, hX, ?_⟩
  have := (C121_two_atoms C radial me exSP (Matrix.diagonal fun _ => ((7 : ℝ) : ℂ)) s0 s s' h0 (by rw [hV, hH]; simp) (by rw [hV]; exact pairs_definite _) hs hb (by rw [hp]; exact ho) X e hX he
    {0, 1, 2, 3}).1
  rw [hH] at this
  simp only [Matrix.diagonal_apply_eq, Complex.ofReal_re, Finset.sum_const] at this
  refine le_trans (le_of_eq ?_) (this.trans (le_of_eq ?_))
  · rfl
  · rw [show ({0, 1, 2, 3} : Finset (Fin 8)).card = 4 from rfl]; norm_num

/-- The constant of `C121_distance` applies to a system at any distance on the axis. -/
example (C : FieldConsts) (radial : RadKey → ℝ) (me : Method) (p : OKPair) (hp3 : OnAxis p.1) (ho : p.1.order = 3) :
    ∃ (s s' : CSys OKPair PKey (Fin 8) (Fin 8)) (X : Matrix (Fin 8) (Fin 8) ℂ) (e : Fin 8 → ℝ) (F : ℝ), s.p = p ∧ s.build (pairInter C radial me exSP) = .ok s' ∧ Diagonalizes s'.H X e ∧
      0 ≤ F ∧ ∑ i, e i ^ 2 = 392 + F / p.1.dist ^ 6 := by
  obtain ⟨s0, s, s', h0, hV, hH, hs, hb, hp, X, e, hX, -⟩ := two_atoms_run C radial me exSP (fun _ => 7) p
  obtain ⟨F, hF, h⟩ := C121_distance C radial me exSP (Matrix.diagonal fun _ => ((7 : ℝ) : ℂ)) s0 h0 (by rw [hV, hH]; simp) (by rw [hV]; exact pairs_definite _)
    (by intro c d hcd; rw [hH, Matrix.diagonal_apply_ne _ hcd]) (by intro c; rw [hH, Matrix.diagonal_apply_eq, Complex.ofReal_im])
  refine ⟨s, s', X, e, F, hp, hb, hX, hF, ?_⟩
  rw [h s s' hs hb (by rw [hp]; exact hp3) (by rw [hp]; exact ho) X e hX, hp, hH]
  simp only [Matrix.diagonal_apply_eq, Complex.ofReal_re, Finset.sum_const, Finset.card_fin]
  norm_num

/-- The same for a field along z. -/
example (C : FieldConsts) (radial : RadKey → ℝ) (me : Method) (f : ℝ) (hf : 1e-24 < |f|) :
    ∃ (s s' : CSys FieldParams FKey (Fin 2) (Fin 2)) (X : Matrix (Fin 2) (Fin 2) ℂ) (e : Fin 2 → ℝ) (F : ℝ), s.build (fieldInter C radial me exS) = .ok s' ∧ Diagonalizes s'.H X e ∧
      0 ≤ F ∧ ∑ i, e i ^ 2 = 98 + F * f ^ 2 := by
  obtain ⟨s0, s, s', h0, hV, hH, hs, hb, hp, X, e, hX, -⟩ := one_atom_run C radial me exS exS_good (fun _ => 7) ⟨⟨0, 0, f⟩, ⟨0, 0, 0⟩, false, 0, 0, none⟩
  obtain ⟨F, hF, h⟩ := C121_field_squared C radial me exS exS_good (Matrix.diagonal fun _ => ((7 : ℝ) : ℂ)) s0 h0 (by rw [hV, hH]; simp) (by rw [hV]; exact states_definite _)
    (by intro c d hcd; rw [hH, Matrix.diagonal_apply_ne _ hcd]) (by intro c; rw [hH, Matrix.diagonal_apply_eq, Complex.ofReal_im])
  refine ⟨s, s', X, e, F, hb, hX, hF, ?_⟩
  rw [h s s' hs hb f hf (by rw [hp]) (by rw [hp]) (by rw [hp]; exact Or.inl rfl) X e hX, hH]
  simp only [Matrix.diagonal_apply_eq, Complex.ofReal_re, Finset.sum_const, Finset.card_fin]
  norm_num

end PI
