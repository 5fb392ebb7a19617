import Verif.Legacy.ReflCols

/-!
# Legacy pair Hamiltonian: the blocks with reflection (C91)
-/

namespace PI

open Matrix

/-- Specification: the sign that a state of one atom takes under the reflection, (−1)^(l + j + m). -/
def oneSign (a : Old1) : ℤ := parityOf (a.l + (a.j + a.m) / 2)

/-- Specification: the Hamiltonian of one atom commutes with the reflection (an electric field along z at most). -/
def ReflInv {n : ℕ} (s : Fin n → Old1) (H : Matrix (Fin n) (Fin n) ℂ) : Prop :=
  ∀ i j k l, s k = (s i).flip → s l = (s j).flip → H k l = ((oneSign (s i) * oneSign (s j) : ℤ) : ℂ) * H i j

theorem oneSign_sq (a : Old1) : oneSign a * oneSign a = 1 := parityOf_sq _

theorem reflSign_prod (x : Old1 × Old1) (j1 : x.1.j % 2 = 1) (j2 : x.2.j % 2 = 1) (m1 : x.1.m % 2 = 1) (m2 : x.2.m % 2 = 1) : reflSign x = oneSign x.1 * oneSign x.2 := by
  unfold reflSign oneSign parityL parityJ parityM
  rw [← parityOf_add, ← parityOf_add, ← parityOf_add]
  congr 1
  omega

/-- What is assumed of the two atoms. -/
structure ReflSetup {n1 n2 : ℕ} (s1 : Fin n1 → Old1) (s2 : Fin n2 → Old1) (r1 : Fin n1 → Fin n1) (r2 : Fin n2 → Fin n2) (A : OldOne n1) (B : OldOne n2)
    (H1 : Matrix (Fin n1) (Fin n1) ℂ) (H2 : Matrix (Fin n2) (Fin n2) ℂ) (mu1 : Fin A.nb → ℤ) (mu2 : Fin B.nb → ℤ) : Prop where
  c1 : Closed s1 r1
  c2 : Closed s2 r2
  j1 : ∀ i, (s1 i).j % 2 = 1
  j2 : ∀ i, (s2 i).j % 2 = 1
  oA : A.basisᴴ * A.basis = 1
  oA' : A.basis * A.basisᴴ = 1
  oB : B.basisᴴ * B.basis = 1
  oB' : B.basis * B.basisᴴ = 1
  eA : H1 * A.basis = A.basis * diagonal fun c => (A.diag c : ℂ)
  eB : H2 * B.basis = B.basis * diagonal fun c => (B.diag c : ℂ)
  i1 : ReflInv s1 H1
  i2 : ReflInv s2 H2
  d1 : ∀ r c, A.basis r c ≠ 0 → (s1 r).m = mu1 c
  d2 : ∀ r c, B.basis r c ≠ 0 → (s2 r).m = mu2 c

section
variable {n1 n2 : ℕ} (s1 : Fin n1 → Old1) (s2 : Fin n2 → Old1) (r1 : Fin n1 → Fin n1) (r2 : Fin n2 → Fin n2) (A : OldOne n1) (B : OldOne n2)

/-- The reflection of pairs of states. -/
noncomputable def reflW : Matrix (Fin (n1 * n2)) (Fin (n1 * n2)) ℂ := of fun i j => if j = reflRow r1 r2 i then ((reflSign (pairState s1 s2 i) : ℤ) : ℂ) else 0

/-- All products of eigenvectors. -/
noncomputable def kronMat : Matrix (Fin (n1 * n2)) (Fin A.nb × Fin B.nb) ℂ := of fun i p => kronCol A B p i

/-- The reflection between products of eigenvectors. -/
noncomputable def reflOm : Matrix (Fin A.nb × Fin B.nb) (Fin A.nb × Fin B.nb) ℂ := (kronMat A B)ᴴ * reflW s1 s2 r1 r2 * kronMat A B

theorem kronMat_apply (i : Fin (n1 * n2)) (p : Fin A.nb × Fin B.nb) : kronMat A B i p = kronCol A B p i := rfl

theorem reflW_apply (i j : Fin (n1 * n2)) : reflW s1 s2 r1 r2 i j = if j = reflRow r1 r2 i then ((reflSign (pairState s1 s2 i) : ℤ) : ℂ) else 0 := rfl

theorem reflW_mul {P : Type} (X : Matrix (Fin (n1 * n2)) P ℂ) (i : Fin (n1 * n2)) (p : P) :
    (reflW s1 s2 r1 r2 * X) i p = ((reflSign (pairState s1 s2 i) : ℤ) : ℂ) * X (reflRow r1 r2 i) p := by
  rw [mul_apply]
  simp only [reflW_apply, ite_mul, zero_mul, Finset.sum_ite_eq', Finset.mem_univ, if_true]

variable (H1 : Matrix (Fin n1) (Fin n1) ℂ) (H2 : Matrix (Fin n2) (Fin n2) ℂ) (mu1 : Fin A.nb → ℤ) (mu2 : Fin B.nb → ℤ)
variable (h : ReflSetup s1 s2 r1 r2 A B H1 H2 mu1 mu2)
variable {s1 s2 r1 r2 A B H1 H2 mu1 mu2}
include h

theorem ReflSetup.sign_row (i : Fin (n1 * n2)) : reflSign (pairState s1 s2 (reflRow r1 r2 i)) = reflSign (pairState s1 s2 i) := by
  rw [reflRow_state s1 s2 r1 r2 h.c1 h.c2, reflSign_refl _ (h.c1.odd _) (h.c2.odd _)]

theorem ReflSetup.w_sq : reflW s1 s2 r1 r2 * reflW s1 s2 r1 r2 = 1 := by
  ext i j
  rw [reflW_mul, reflW_apply, reflRow_invol s1 s2 r1 r2 h.c1 h.c2, h.sign_row, one_apply]
  by_cases hij : j = i
  · subst hij
    rw [if_pos rfl, if_pos rfl]
    exact_mod_cast reflSign_sq _
  · rw [if_neg hij, if_neg (Ne.symm hij), mul_zero]

theorem ReflSetup.w_herm : (reflW s1 s2 r1 r2)ᴴ = reflW s1 s2 r1 r2 := by
  ext i j
  rw [conjTranspose_apply, reflW_apply, reflW_apply]
  by_cases hij : i = reflRow r1 r2 j
  · have : j = reflRow r1 r2 i := by rw [hij, reflRow_invol s1 s2 r1 r2 h.c1 h.c2]
    rw [if_pos hij, if_pos this, hij, h.sign_row]
    simp
  · have : ¬ j = reflRow r1 r2 i := fun h' => hij (by rw [h', reflRow_invol s1 s2 r1 r2 h.c1 h.c2])
    rw [if_neg hij, if_neg this, star_zero]

theorem ReflSetup.k_left : (kronMat A B)ᴴ * kronMat A B = 1 := by
  ext p q
  rw [mul_apply]
  simp only [conjTranspose_apply, kronMat_apply]
  rw [kron_orth A B h.oA h.oB, one_apply]

theorem ReflSetup.k_right : kronMat A B * (kronMat A B)ᴴ = 1 := by
  ext i j
  rw [mul_apply]
  simp only [conjTranspose_apply, kronMat_apply]
  rw [one_apply, ← kron_complete A B h.oA' h.oB' i j]

theorem ReflSetup.om_sq : reflOm s1 s2 r1 r2 A B * reflOm s1 s2 r1 r2 A B = 1 := by
  unfold reflOm
  calc _ = (kronMat A B)ᴴ * reflW s1 s2 r1 r2 * (kronMat A B * (kronMat A B)ᴴ) * reflW s1 s2 r1 r2 * kronMat A B := by simp only [Matrix.mul_assoc]
    _ = 1 := by rw [h.k_right, Matrix.mul_one, Matrix.mul_assoc _ (reflW s1 s2 r1 r2) (reflW s1 s2 r1 r2), h.w_sq, Matrix.mul_one, h.k_left]

theorem ReflSetup.om_herm : (reflOm s1 s2 r1 r2 A B)ᴴ = reflOm s1 s2 r1 r2 A B := by
  unfold reflOm
  rw [conjTranspose_mul, conjTranspose_mul, conjTranspose_conjTranspose, h.w_herm, Matrix.mul_assoc]

theorem ReflSetup.k_om : kronMat A B * reflOm s1 s2 r1 r2 A B = reflW s1 s2 r1 r2 * kronMat A B := by
  unfold reflOm
  rw [← Matrix.mul_assoc, ← Matrix.mul_assoc, h.k_right, Matrix.one_mul]

/-- A matrix that is invariant under the reflection commutes with it, between products of eigenvectors. -/
theorem ReflSetup.om_comm (F : Matrix (Fin (n1 * n2)) (Fin (n1 * n2)) ℂ)
    (hF : ∀ i j, F (reflRow r1 r2 i) (reflRow r1 r2 j) = ((reflSign (pairState s1 s2 i) * reflSign (pairState s1 s2 j) : ℤ) : ℂ) * F i j) :
    ((kronMat A B)ᴴ * F * kronMat A B) * reflOm s1 s2 r1 r2 A B = reflOm s1 s2 r1 r2 A B * ((kronMat A B)ᴴ * F * kronMat A B) := by
  have c : F * reflW s1 s2 r1 r2 = reflW s1 s2 r1 r2 * F := by
    have e : reflW s1 s2 r1 r2 * F * reflW s1 s2 r1 r2 = F := by
      rw [Matrix.mul_assoc]
      ext i j
      rw [reflW_mul]
      have : (F * reflW s1 s2 r1 r2) (reflRow r1 r2 i) j = F (reflRow r1 r2 i) (reflRow r1 r2 j) * (reflSign (pairState s1 s2 j) : ℤ) := by
        rw [mul_apply, Finset.sum_eq_single (reflRow r1 r2 j)]
        · rw [reflW_apply, if_pos (reflRow_invol s1 s2 r1 r2 h.c1 h.c2 j).symm, h.sign_row]
        · intro k _ hk
          rw [reflW_apply, if_neg, mul_zero]
          intro hj
          exact hk (by rw [hj, reflRow_invol s1 s2 r1 r2 h.c1 h.c2])
        · simp
      rw [this, hF]
      have a1 : ((reflSign (pairState s1 s2 i) : ℤ) : ℂ) * (reflSign (pairState s1 s2 i) : ℤ) = 1 := by exact_mod_cast reflSign_sq _
      have a2 : ((reflSign (pairState s1 s2 j) : ℤ) : ℂ) * (reflSign (pairState s1 s2 j) : ℤ) = 1 := by exact_mod_cast reflSign_sq _
      push_cast
      linear_combination ((reflSign (pairState s1 s2 j) : ℤ) : ℂ) * (reflSign (pairState s1 s2 j) : ℤ) * F i j * a1 + F i j * a2
    calc F * reflW s1 s2 r1 r2 = (reflW s1 s2 r1 r2 * reflW s1 s2 r1 r2) * F * reflW s1 s2 r1 r2 := by rw [h.w_sq, Matrix.one_mul]
      _ = reflW s1 s2 r1 r2 * (reflW s1 s2 r1 r2 * F * reflW s1 s2 r1 r2) := by simp only [Matrix.mul_assoc]
      _ = _ := by rw [e]
  unfold reflOm
  calc _ = (kronMat A B)ᴴ * F * (kronMat A B * (kronMat A B)ᴴ) * reflW s1 s2 r1 r2 * kronMat A B := by simp only [Matrix.mul_assoc]
    _ = (kronMat A B)ᴴ * reflW s1 s2 r1 r2 * (kronMat A B * (kronMat A B)ᴴ) * F * kronMat A B := by
      rw [h.k_right, Matrix.mul_one, Matrix.mul_one, Matrix.mul_assoc _ F, c, ← Matrix.mul_assoc]
    _ = _ := by simp only [Matrix.mul_assoc]

/-- The Hamiltonian of the pair is invariant if the interaction is. -/
theorem ReflSetup.full_inv (V : Matrix (Fin (n1 * n2)) (Fin (n1 * n2)) ℂ)
    (hV : ∀ i j, V (reflRow r1 r2 i) (reflRow r1 r2 j) = ((reflSign (pairState s1 s2 i) * reflSign (pairState s1 s2 j) : ℤ) : ℂ) * V i j) (i j : Fin (n1 * n2)) :
    pairFull H1 H2 V (reflRow r1 r2 i) (reflRow r1 r2 j) = ((reflSign (pairState s1 s2 i) * reflSign (pairState s1 s2 j) : ℤ) : ℂ) * pairFull H1 H2 V i j := by
  unfold pairFull
  rw [hV]
  have q : ∀ k : Fin (n1 * n2), finProdFinEquiv.symm (reflRow r1 r2 k) = (r1 (finProdFinEquiv.symm k).1, r2 (finProdFinEquiv.symm k).2) := by
    intro k
    unfold reflRow
    rw [Equiv.symm_apply_apply]
  rw [q, q]
  dsimp only
  have sg : ∀ k : Fin (n1 * n2), reflSign (pairState s1 s2 k) = oneSign (s1 (finProdFinEquiv.symm k).1) * oneSign (s2 (finProdFinEquiv.symm k).2) := fun k =>
    reflSign_prod (pairState s1 s2 k) (h.j1 _) (h.j2 _) (h.c1.odd _) (h.c2.odd _)
  rw [sg, sg]
  set a := (finProdFinEquiv.symm i).1
  set b := (finProdFinEquiv.symm i).2
  set a' := (finProdFinEquiv.symm j).1
  set b' := (finProdFinEquiv.symm j).2
  rw [h.i1 a a' (r1 a) (r1 a') (h.c1.flip a) (h.c1.flip a'), h.i2 b b' (r2 b) (r2 b') (h.c2.flip b) (h.c2.flip b')]
  have inj1 : r1 a = r1 a' ↔ a = a' := ⟨fun e => by rw [← h.c1.invol a, e, h.c1.invol], fun e => by rw [e]⟩
  have inj2 : r2 b = r2 b' ↔ b = b' := ⟨fun e => by rw [← h.c2.invol b, e, h.c2.invol], fun e => by rw [e]⟩
  simp only [inj1, inj2]
  have t1 : ∀ x : Old1, ((oneSign x : ℤ) : ℂ) * (oneSign x : ℤ) = 1 := fun x => by exact_mod_cast oneSign_sq x
  rw [mul_add, mul_add]
  congr 2
  · by_cases hb : b = b'
    · rw [if_pos hb, hb]
      push_cast
      linear_combination -((oneSign (s1 a) : ℤ) : ℂ) * (oneSign (s1 a') : ℤ) * H1 a a' * t1 (s2 b')
    · rw [if_neg hb, mul_zero, mul_zero, mul_zero]
  · by_cases ha : a = a'
    · rw [if_pos ha, ha]
      push_cast
      linear_combination -((oneSign (s2 b) : ℤ) : ℂ) * (oneSign (s2 b') : ℤ) * H2 b b' * t1 (s1 a')
    · rw [if_neg ha, zero_mul, zero_mul, mul_zero]

/-- Without interaction the matrix between products of eigenvectors is the one of the energies. -/
theorem ReflSetup.free : (kronMat A B)ᴴ * pairFull H1 H2 0 * kronMat A B = diagonal fun p : Fin A.nb × Fin B.nb => ((A.diag p.1 + B.diag p.2 : ℝ) : ℂ) := by
  have : pairFull H1 H2 0 * kronMat A B = kronMat A B * diagonal fun p : Fin A.nb × Fin B.nb => ((A.diag p.1 + B.diag p.2 : ℝ) : ℂ) := by
    ext i p
    rw [mul_apply, mul_diagonal]
    simp only [kronMat_apply]
    rw [pairFull_kron H1 H2 0 A B h.eA h.eB]
    simp [mul_comm]
  rw [Matrix.mul_assoc, this, ← Matrix.mul_assoc, h.k_left, Matrix.one_mul]

omit h in
theorem pairFull_add (V : Matrix (Fin (n1 * n2)) (Fin (n1 * n2)) ℂ) : pairFull H1 H2 V = pairFull H1 H2 0 + V := by
  ext i j
  rw [Matrix.add_apply]
  unfold pairFull
  simp

/-- The reflection couples only equal energies. -/
theorem ReflSetup.om_energy (p q : Fin A.nb × Fin B.nb) (hne : reflOm s1 s2 r1 r2 A B p q ≠ 0) : A.diag p.1 + B.diag p.2 = A.diag q.1 + B.diag q.2 := by
  have c := h.om_comm (pairFull H1 H2 0) (h.full_inv 0 (fun i j => by simp))
  rw [h.free] at c
  have e := congrFun (congrFun c p) q
  rw [diagonal_mul, mul_diagonal, mul_comm] at e
  exact_mod_cast mul_left_cancel₀ hne e

/-- The reflection couples only opposite momenta. -/
theorem ReflSetup.om_moment (p q : Fin A.nb × Fin B.nb) (hne : reflOm s1 s2 r1 r2 A B p q ≠ 0) : mu1 p.1 = -mu1 q.1 ∧ mu2 p.2 = -mu2 q.2 := by
  unfold reflOm at hne
  rw [Matrix.mul_assoc, mul_apply] at hne
  obtain ⟨i, -, hi⟩ := Finset.exists_ne_zero_of_sum_ne_zero hne
  rw [reflW_mul, conjTranspose_apply, kronMat_apply, kronMat_apply] at hi
  have k1 : kronCol A B p i ≠ 0 := by intro h0; rw [h0] at hi; simp at hi
  have k2 : kronCol A B q (reflRow r1 r2 i) ≠ 0 := by intro h0; rw [h0] at hi; simp at hi
  unfold kronCol at k1 k2
  unfold reflRow at k2
  rw [Equiv.symm_apply_apply] at k2
  have a1 := h.d1 _ _ (left_ne_zero_of_mul k1)
  have a2 := h.d2 _ _ (right_ne_zero_of_mul k1)
  have b1 := h.d1 _ _ (left_ne_zero_of_mul k2)
  have b2 := h.d2 _ _ (right_ne_zero_of_mul k2)
  dsimp only at b1 b2
  rw [h.c1.flip] at b1
  rw [h.c2.flip] at b2
  unfold Old1.flip at b1 b2
  dsimp only at b1 b2
  exact ⟨by omega, by omega⟩

theorem ReflSetup.mu_odd (c : Fin A.nb) : mu1 c % 2 = 1 := by
  obtain ⟨r, hr⟩ := orth_ne A h.oA c
  rw [← h.d1 r c hr]
  exact h.c1.odd r

theorem ReflSetup.mu_odd' (c : Fin B.nb) : mu2 c % 2 = 1 := by
  obtain ⟨r, hr⟩ := orth_ne B h.oB c
  rw [← h.d2 r c hr]
  exact h.c2.odd r

/-- The columns of a block. -/
theorem ReflSetup.vec_eq (ε : ℤ) (p : Fin A.nb × Fin B.nb) (i : Fin (n1 * n2)) :
    reflVec s1 s2 r1 r2 A B ε p i = (kronMat A B * (1 + (ε : ℂ) • reflOm s1 s2 r1 r2 A B) : Matrix (Fin (n1 * n2)) (Fin A.nb × Fin B.nb) ℂ) i p / (Real.sqrt 2 : ℝ) := by
  have e : kronMat A B * (1 + (ε : ℂ) • reflOm s1 s2 r1 r2 A B) = kronMat A B + (ε : ℂ) • (reflW s1 s2 r1 r2 * kronMat A B) := by
    rw [Matrix.mul_add, Matrix.mul_one, Matrix.mul_smul, h.k_om]
  rw [e, Matrix.add_apply, Matrix.smul_apply, reflW_mul, kronMat_apply, kronMat_apply]
  unfold reflVec
  push_cast
  rw [smul_eq_mul, mul_assoc]

/-- Matrix elements between columns. -/
theorem ReflSetup.vec_elem (ε : ℤ) (F : Matrix (Fin (n1 * n2)) (Fin (n1 * n2)) ℂ) (p q : Fin A.nb × Fin B.nb) :
    ∑ i, ∑ j, star (reflVec s1 s2 r1 r2 A B ε p i) * F i j * reflVec s1 s2 r1 r2 A B ε q j =
      halfMat ((kronMat A B)ᴴ * F * kronMat A B) (reflOm s1 s2 r1 r2 A B) ε p q := by
  unfold halfMat
  set X := kronMat A B * (1 + (ε : ℂ) • reflOm s1 s2 r1 r2 A B) with hX
  have e : (1 + (ε : ℂ) • reflOm s1 s2 r1 r2 A B) * ((kronMat A B)ᴴ * F * kronMat A B) * (1 + (ε : ℂ) • reflOm s1 s2 r1 r2 A B) = Xᴴ * F * X := by
    rw [hX, conjTranspose_mul, conjTranspose_add, conjTranspose_smul, h.om_herm, conjTranspose_one]
    have : star (ε : ℂ) = ε := by simp
    rw [this]
    simp only [Matrix.mul_assoc]
  rw [e, Matrix.smul_apply, mul_apply, smul_eq_mul, Finset.mul_sum, Finset.sum_comm]
  refine Finset.sum_congr rfl fun j _ => ?_
  rw [mul_apply, Finset.sum_mul, Finset.mul_sum]
  refine Finset.sum_congr rfl fun i _ => ?_
  rw [h.vec_eq, h.vec_eq, ← hX, conjTranspose_apply]
  have hs := sqrt2_sq
  have hn := sqrt2_ne
  have st : star (X i p / ((Real.sqrt 2 : ℝ) : ℂ)) = star (X i p) / ((Real.sqrt 2 : ℝ) : ℂ) := by
    rw [star_div₀]
    simp
  rw [st]
  field_simp
  rw [pow_two, hs]
  ring

theorem ReflSetup.half_one (ε : ℤ) (hε : ε = 1 ∨ ε = -1) (p q : Fin A.nb × Fin B.nb) (E : Fin A.nb × Fin B.nb → ℂ)
    (hE : ∀ p q, reflOm s1 s2 r1 r2 A B p q ≠ 0 → E p = E q) (hp : ¬ mu1 p.1 < 0) (hq : ¬ mu1 q.1 < 0) :
    halfMat (diagonal E) (reflOm s1 s2 r1 r2 A B) ε p q = if p = q then E p else 0 := by
  have z : reflOm s1 s2 r1 r2 A B p q = 0 := by
    by_contra hne
    have := (h.om_moment p q hne).1
    have := h.mu_odd p.1
    omega
  have c : reflOm s1 s2 r1 r2 A B * diagonal E = diagonal E * reflOm s1 s2 r1 r2 A B := by
    ext a b
    rw [diagonal_mul, mul_diagonal]
    by_cases hab : reflOm s1 s2 r1 r2 A B a b = 0
    · rw [hab, zero_mul, mul_zero]
    · rw [hE a b hab, mul_comm]
  have ee : (ε : ℂ) * ε = 1 := by rcases hε with rfl | rfl <;> simp
  have key : (1 + (ε : ℂ) • reflOm s1 s2 r1 r2 A B) * diagonal E * (1 + (ε : ℂ) • reflOm s1 s2 r1 r2 A B) =
      (2 : ℂ) • (diagonal E + (ε : ℂ) • (diagonal E * reflOm s1 s2 r1 r2 A B)) := by
    have sq := h.om_sq
    simp only [Matrix.add_mul, Matrix.mul_add, Matrix.one_mul, Matrix.mul_one, smul_mul_assoc, mul_smul_comm, c, Matrix.mul_assoc, sq, smul_add, smul_smul, ee, one_smul]
    rw [two_smul, mul_comm 2, ← smul_smul, two_smul, smul_add]
    abel
  unfold halfMat
  rw [key, Matrix.smul_apply, Matrix.smul_apply, Matrix.add_apply, Matrix.smul_apply, diagonal_mul, z, diagonal_apply]
  simp

end

end PI
