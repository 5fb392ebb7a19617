import Verif.Rot.SpecSym

/-!
# C111: Kramers degeneracy
-/

namespace PI

open Matrix

/-- An invertible antisymmetric matrix has an even number of rows. -/
theorem even_of_antisymm {T : Type} [Fintype T] [DecidableEq T] (W X : Matrix T T ℂ) (hW : Wᵀ = -W) (hX : W * X = 1) : Even (Fintype.card T) := by
  have h1 : W.det = (-1) ^ Fintype.card T * W.det := by
    conv_lhs => rw [← Matrix.det_transpose, hW, Matrix.det_neg]
  have h2 : W.det ≠ 0 := by
    intro h0
    have := congrArg Matrix.det hX
    rw [Matrix.det_mul, h0, zero_mul, Matrix.det_one] at this
    exact zero_ne_one this
  rcases Nat.even_or_odd (Fintype.card T) with h | h
  · exact h
  · rw [h.neg_one_pow] at h1
    exfalso
    apply h2
    have : (2 : ℂ) * W.det = 0 := by linear_combination h1
    exact (mul_eq_zero.1 this).resolve_left two_ne_zero

/-- A Hermitian matrix that an antisymmetric invertible matrix intertwines with its transpose has eigenvalues of even multiplicity. -/
theorem kramers {n : Type} [Fintype n] [DecidableEq n] (H S R : Matrix n n ℂ) (hH : H.IsHermitian) (hS : Sᵀ = -S) (hR : S * R = 1) (hc : H * S = S * Hᵀ) (μ : ℂ) :
    Even (H.charpoly.roots.count μ) := by
  set U : Matrix n n ℂ := (hH.eigenvectorUnitary : Matrix n n ℂ) with hU
  have u1 : Uᴴ * U = 1 := Unitary.coe_star_mul_self hH.eigenvectorUnitary
  have u2 : U * Uᴴ = 1 := mul_eq_one_comm.1 u1
  set D : Matrix n n ℂ := Matrix.diagonal fun i => (hH.eigenvalues i : ℂ) with hD
  have sp : H = U * D * Uᴴ := by
    have := hH.spectral_theorem
    rw [Unitary.conjStarAlgAut_apply] at this
    exact this
  have d1 : Uᴴ * H = D * Uᴴ := by
    rw [sp, ← Matrix.mul_assoc, ← Matrix.mul_assoc, u1, Matrix.one_mul]
  set W := Uᴴ * S * (Uᴴ)ᵀ with hW
  set X := Uᵀ * R * U with hX
  have wa : Wᵀ = -W := by
    rw [hW, Matrix.transpose_mul, Matrix.transpose_mul, Matrix.transpose_transpose, hS, Matrix.mul_assoc]
    simp
  have t1 : (Uᴴ)ᵀ * Uᵀ = 1 := by rw [← Matrix.transpose_mul, u2, Matrix.transpose_one]
  have wx : W * X = 1 := by
    calc W * X = Uᴴ * S * ((Uᴴ)ᵀ * Uᵀ) * R * U := by rw [hW, hX]; simp only [Matrix.mul_assoc]
      _ = Uᴴ * (S * R) * U := by rw [t1]; simp only [Matrix.mul_assoc, Matrix.one_mul]
      _ = 1 := by rw [hR, Matrix.mul_one, u1]
  have wd : D * W = W * D := by
    have hDt : Dᵀ = D := by rw [hD, Matrix.diagonal_transpose]
    calc D * W = (D * Uᴴ) * S * (Uᴴ)ᵀ := by rw [hW]; simp only [Matrix.mul_assoc]
      _ = Uᴴ * (H * S) * (Uᴴ)ᵀ := by rw [← d1]; simp only [Matrix.mul_assoc]
      _ = Uᴴ * S * (Uᴴ * H)ᵀ := by rw [hc, Matrix.transpose_mul]; simp only [Matrix.mul_assoc]
      _ = W * D := by rw [d1, Matrix.transpose_mul, hDt, hW]; simp only [Matrix.mul_assoc]
  have zero : ∀ i j, (hH.eigenvalues i : ℂ) ≠ (hH.eigenvalues j : ℂ) → W i j = 0 := by
    intro i j hij
    have := congrFun (congrFun wd i) j
    rw [hD, Matrix.diagonal_mul, Matrix.mul_diagonal] at this
    have : ((hH.eigenvalues i : ℂ) - hH.eigenvalues j) * W i j = 0 := by linear_combination this
    exact (mul_eq_zero.1 this).resolve_left (sub_ne_zero.2 hij)
  have cnt : H.charpoly.roots.count μ = Fintype.card {i // (hH.eigenvalues i : ℂ) = μ} := by
    rw [hH.roots_charpoly_eq_eigenvalues, Multiset.count_map, Fintype.card_subtype, Finset.card_def, Finset.filter_val]
    congr 1
    apply Multiset.filter_congr
    intro i _
    exact eq_comm
  rw [cnt]
  refine even_of_antisymm (W.submatrix Subtype.val Subtype.val : Matrix {i // (hH.eigenvalues i : ℂ) = μ} {i // (hH.eigenvalues i : ℂ) = μ} ℂ)
    (X.submatrix Subtype.val Subtype.val) ?_ ?_
  · ext i j
    have := congrFun (congrFun wa i.1) j.1
    simpa using this
  · ext i j
    rw [Matrix.mul_apply]
    simp only [Matrix.submatrix_apply]
    have := congrFun (congrFun wx i.1) j.1
    rw [Matrix.mul_apply] at this
    rw [Matrix.one_apply] at this ⊢
    have hsum := Finset.sum_subtype (p := fun i => (hH.eigenvalues i : ℂ) = μ) (F := inferInstance) (Finset.univ.filter fun k => (hH.eigenvalues k : ℂ) = μ) (by simp)
      (fun k => W i.1 k * X k j.1)
    refine Eq.trans ?_ (hsum.symm.trans ?_)
    · rfl
    rw [Finset.sum_filter_of_ne, this]
    · simp [Subtype.ext_iff]
    · intro k _ hk
      by_contra hne
      apply hk
      rw [zero i.1 k (by rw [i.2]; exact fun h => hne h.symm), zero_mul]

variable {N : ℕ}

theorem reversalMat_antisymm (st : Fin N → Option QN) (hst : GoodStates st) (hs : ∀ i a, st i = some a → a.s % 2 = 1) : (reversalMat st)ᵀ = -reversalMat st := by
  ext r c
  rw [Matrix.transpose_apply, Matrix.neg_apply]
  unfold reversalMat
  cases hr : st r with
  | none => simp
  | some a =>
    cases hc : st c with
    | none => simp
    | some b =>
      dsimp only
      by_cases h : b = a.flip
      · have h' : a = b.flip := by rw [h, qn_flip_flip]
        rw [if_pos h, if_pos h']
        have : reversalSign a = -reversalSign b := by
          have hp := (hst r a hr).1.2.2.2.2
          have := hs r a hr
          rw [h]
          unfold reversalSign QN.flip
          dsimp only
          unfold sgnZ
          obtain ⟨u, hu⟩ : ∃ u, a.j = a.m + 2 * u := ⟨(a.j - a.m) / 2, by omega⟩
          rw [hu, show (a.m + 2 * u - a.m) / 2 = u by omega, show (a.m + 2 * u - -a.m) / 2 = a.m + u by omega]
          split_ifs <;> first | (exfalso; omega) | norm_num
        rw [this]
        push_cast
        ring
      · rw [if_neg h, if_neg (fun h' => h (by rw [h', qn_flip_flip]))]; simp

/-- **C111 (Kramers).** Without a magnetic field, for half-integer spin and a basis that contains with each state the one of opposite m: every energy has even
multiplicity, whatever the electric field and the ion. -/
theorem C111_kramers (C : FieldConsts) (radial : RadKey → ℝ) (me : Method) (st : Fin N → Option QN) (hst : GoodStates st) (hf : FlipClosed st)
    (hs : ∀ i a, st i = some a → a.s % 2 = 1) (e : Fin N → ℝ) (he : LevelEnergies st e) (p : FieldParams) (hB : p.B = ⟨0, 0, 0⟩) (μ : ℂ) :
    Even ((oneOperator C radial me st e p).charpoly.roots.count μ) := by
  have ht := C111_time_reversal C radial me st hst hf e he p
  have hp : p.oppB = p := by
    unfold FieldParams.oppB Vec3.opp
    rw [hB]
    cases p
    simp only [neg_zero] at *
    subst hB
    rfl
  have hh := oneOperator_herm C radial me st hst e p
  have hu := reversalMat_unitary st hf
  rw [hp, herm_conj_transpose _ hh] at ht
  refine kramers _ (reversalMat st) (reversalMat st)ᵀ hh (reversalMat_antisymm st hst hs) hu ?_ μ
  conv_lhs => rw [← ht]
  rw [Matrix.mul_assoc, mul_eq_one_comm.1 hu, Matrix.mul_one]

/-- A basis with all Zeeman levels is closed. -/
theorem flipClosed_of_zeeman (st : Fin N → Option QN) (hst : RotStates st) (hz : AllZeeman st) : FlipClosed st := by
  refine ⟨hst.all, hst.inj, ?_⟩
  intro i a ha
  obtain ⟨-, -, h1, h2, h3⟩ := hst.isM i a ha
  exact hz i a ha (-a.m) ⟨by omega, by omega, by omega⟩

/-! ## Built systems -/

/-- The energies of a built system with all states as basis vectors are those of the operator it represents. -/
theorem built_spectrum (C : FieldConsts) (radial : RadKey → ℝ) (me : Method) (st : Fin N → Option QN) (e : Fin N → ℝ) (s : CSys FieldParams FKey (Fin N) (Fin N))
    (hV : s.Vᴴ * s.V = 1) (h : s.V * s.H * s.Vᴴ = oneOperator C radial me st e s.p) : s.H.charpoly = (oneOperator C radial me st e s.p).charpoly := by
  rw [← h, charpoly_sandwich _ _ _ hV]

/-- The basis vectors stay orthonormal in every history. -/
theorem hist_orth {n k P κ : Type} [Fintype n] [DecidableEq n] [Fintype k] [DecidableEq k] [DecidableEq κ] (I : Inter P κ n) (s0 s : CSys P κ n k)
    (h0 : s0.Fresh I) (hs : Hist I s0 s) : s.Vᴴ * s.V = 1 ∧ ∀ A, s.Vc = some A → Aᴴ * A = 1 := by
  have bld : ∀ s s' : CSys P κ n k, (s.Vᴴ * s.V = 1 ∧ ∀ A, s.Vc = some A → Aᴴ * A = 1) → s.build I = .ok s' →
      s'.Vᴴ * s'.V = 1 ∧ ∀ A, s'.Vc = some A → Aᴴ * A = 1 := by
    intro s s' h hb
    have fin : ∀ s1 : CSys P κ n k, (s1.Vᴴ * s1.V = 1 ∧ ∀ A, s1.Vc = some A → Aᴴ * A = 1) →
        (s1.finish I).Vᴴ * (s1.finish I).V = 1 ∧ ∀ A, (s1.finish I).Vc = some A → Aᴴ * A = 1 := fun s1 h1 => h1
    unfold CSys.build at hb
    split_ifs at hb
    · rename_i h1 h2 h3
      rw [Out.ok.injEq] at hb
      subst hb
      apply fin
      push Not at h3
      obtain ⟨-, h4, -⟩ := h3
      cases hv : s.Vc with
      | none => rw [hv] at h4; simp at h4
      | some A =>
        refine ⟨?_, ?_⟩
        · simpa using h.2 A hv
        · intro B hB
          exact h.2 B (by simpa [hv] using hB)
    · rw [Out.ok.injEq] at hb
      subst hb
      exact fin s h
    · rw [Out.ok.injEq] at hb
      subst hb
      apply fin
      refine ⟨h.1, ?_⟩
      intro A hA
      simp only [Option.some.injEq] at hA
      subst hA
      exact h.1
    · rw [Out.ok.injEq] at hb
      subst hb
      exact h
  induction hs with
  | start => exact ⟨h0.orth, fun A hA => by rw [h0.noVc] at hA; cases hA⟩
  | set p _ hset ih =>
    unfold CSys.setParams at hset
    split_ifs at hset
    all_goals first
      | (rw [Out.ok.injEq] at hset; subst hset; exact ih)
      | cases hset
  | build _ hb ih => exact bld _ _ ih hb
  | diag U d _ hb hU _ ih =>
    have := bld _ _ ih hb
    refine ⟨?_, this.2⟩
    unfold CSys.diagonalize
    dsimp only
    rw [Matrix.conjTranspose_mul, Matrix.mul_assoc, ← Matrix.mul_assoc _ _ U, this.1, Matrix.one_mul, hU]

theorem built_orth {n k P κ : Type} [Fintype n] [DecidableEq n] [Fintype k] [DecidableEq k] [DecidableEq κ] (I : Inter P κ n) (s0 s s' : CSys P κ n k)
    (h0 : s0.Fresh I) (hs : Hist I s0 s) (hb : s.build I = .ok s') : s'.Vᴴ * s'.V = 1 := (hist_orth I s0 s' h0 (.build hs hb)).1

/-- The energies of a system after any history of setters, builds and diagonalizations are those of the Hamiltonian with the current parameters. -/
theorem history_spectrum (C : FieldConsts) (radial : RadKey → ℝ) (me : Method) (st : Fin N → Option QN) (e : Fin N → ℝ)
    (s0 s s' : CSys FieldParams FKey (Fin N) (Fin N)) (h0 : s0.Fresh (fieldInter C radial me st)) (hH : s0.V * s0.H * s0.Vᴴ = Matrix.diagonal fun i => (e i : ℂ))
    (hs : Hist (fieldInter C radial me st) s0 s) (hb : s.build (fieldInter C radial me st) = .ok s') :
    s'.H.charpoly = (oneOperator C radial me st e s.p).charpoly := by
  obtain ⟨⟨t, h1, h2, h3⟩, -⟩ := C35_current_parameters_partial _ s0 s h0 hs
  rw [hb, Out.ok.injEq] at h1
  subst h1
  rw [← h2]
  apply built_spectrum C radial me st e s' (built_orth _ s0 s s' h0 hs hb)
  rw [h3, hH, mul_eq_one_comm.1 h0.orth, h2]
  rfl

/-- **C111 (systems).** For any two histories of setters, builds and diagonalizations of a SystemOne with all states as basis vectors: the Hamiltonians built at the end
have the same energies, with multiplicities, when the current parameters differ by the sign of the y components of both fields; by the sign of the electric field (no ion);
by the sign of the magnetic field (basis closed under m → −m). Without a magnetic field and with half-integer spin every energy has even multiplicity. -/
theorem C111_systems (C : FieldConsts) (radial : RadKey → ℝ) (me : Method) (st : Fin N → Option QN) (hst : GoodStates st) (e : Fin N → ℝ)
    (s0 s s' t t' : CSys FieldParams FKey (Fin N) (Fin N)) (h0 : s0.Fresh (fieldInter C radial me st)) (hH : s0.V * s0.H * s0.Vᴴ = Matrix.diagonal fun i => (e i : ℂ))
    (hs : Hist (fieldInter C radial me st) s0 s) (hb : s.build (fieldInter C radial me st) = .ok s')
    (ht : Hist (fieldInter C radial me st) s0 t) (hc : t.build (fieldInter C radial me st) = .ok t') :
    (t.p = s.p.flipY → t'.H.charpoly = s'.H.charpoly) ∧
    (s.p.charge = 0 ∨ s.p.dist = none → t.p = s.p.oppE → t'.H.charpoly = s'.H.charpoly) ∧
    (FlipClosed st → LevelEnergies st e → t.p = s.p.oppB → t'.H.charpoly = s'.H.charpoly) ∧
    (FlipClosed st → LevelEnergies st e → (∀ i a, st i = some a → a.s % 2 = 1) → s.p.B = ⟨0, 0, 0⟩ → ∀ μ, Even (s'.H.charpoly.roots.count μ)) := by
  have es := history_spectrum C radial me st e s0 s s' h0 hH hs hb
  have et := history_spectrum C radial me st e s0 t t' h0 hH ht hc
  refine ⟨?_, ?_, ?_, ?_⟩
  · intro h
    rw [et, es, h, C111_conjugation_spectrum C radial me st hst]
  · intro hi h
    rw [et, es, h, C111_parity_spectrum C radial me st hst e _ hi]
  · intro hf he h
    rw [et, es, h, C111_time_reversal_spectrum C radial me st hst hf e he]
  · intro hf he h2 hB μ
    rw [es]
    exact C111_kramers C radial me st hst hf h2 e he s.p hB μ

/-! ## Examples -/

/-- The two Zeeman levels of an S1/2 state: closed, spin 1/2; a field along y is reversed by the reflection. -/
example : FlipClosed exS ∧ GoodStates exS ∧ (∀ i a, exS i = some a → a.s % 2 = 1) ∧ LevelEnergies exS (fun _ => 7) ∧
    (⟨⟨1, 2, 3⟩, ⟨0, 0, 0⟩, true, 1, 3, some 10⟩ : FieldParams).flipY ≠ ⟨⟨1, 2, 3⟩, ⟨0, 0, 0⟩, true, 1, 3, some 10⟩ := by
  refine ⟨flipClosed_of_zeeman exS exS_rot exS_all, exS_good, ?_, fun _ _ _ _ _ _ _ => rfl, ?_⟩
  · intro i a h
    simp only [exS, Option.some.injEq] at h
    subst h
    rfl
  · intro h
    have := congrArg (fun p => p.E.y) h
    simp only [FieldParams.flipY, Vec3.flipY] at this
    norm_num at this

/-- The degeneracy for the two levels in an electric field near an ion. -/
example (C : FieldConsts) (radial : RadKey → ℝ) (me : Method) (μ : ℂ) :
    Even ((oneOperator C radial me exS (fun _ => 7) ⟨⟨1, 2, 3⟩, ⟨0, 0, 0⟩, true, 1, 3, some 10⟩).charpoly.roots.count μ) :=
  C111_kramers C radial me exS exS_good (flipClosed_of_zeeman exS exS_rot exS_all) (fun i a h => by
    simp only [exS, Option.some.injEq] at h
    subst h
    rfl) _ (fun _ _ _ _ _ _ _ => rfl) _ rfl μ

end PI
