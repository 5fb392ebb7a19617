import Verif.Legacy.ReflBlock
import Verif.Legacy.Herm

/-!
# Legacy pair Hamiltonian: the spectrum with reflection (C91)
-/

namespace PI

open Matrix

/-! ## The interaction -/

/-- The multipole operators that an object returns transform under the reflection like multipoles. -/
def CellsRefl (c : Cells) (S : Old1 → Prop) (kmax : ℤ) : Prop :=
  ∀ a b, S a → S b → ∀ k, 1 ≤ k → k ≤ kmax → oldSelMultipole a b k = true → oldMultipole c a.flip b.flip k = -sgn ((a.j + b.j) / 2 + k) * oldMultipole c a b k

theorem CellsRefl.mono {c : Cells} {S : Old1 → Prop} {k k' : ℤ} (h : CellsRefl c S k) (hk : k' ≤ k) : CellsRefl c S k' :=
  fun a b ha hb x h1 h2 => h a b ha hb x h1 (h2.trans hk)

theorem oldSel_flip (a b : Old1) (k : ℤ) : oldSelMultipole a.flip b.flip k = oldSelMultipole a b k := by
  unfold oldSelMultipole Old1.flip
  dsimp only
  have e1 : |(-a.m) - (-b.m)| = |a.m - b.m| := by rw [← abs_neg]; congr 1; ring
  have e2 : (-a.m = - -b.m) = (a.m = -b.m) := by
    apply propext
    constructor <;> intro h <;> omega
  simp only [e1, e2]

theorem flip_valid {a : Old1} (h : OldValid a) : OldValid a.flip := by
  refine ⟨h.l0, h.ln, h.j, ?_, ?_⟩
  · show |-a.m| ≤ a.j
    rw [abs_neg]
    exact h.mj
  · show -a.m % 2 = 1
    have := h.mpar
    omega

theorem j_odd {a : Old1} (h : OldValid a) : a.j % 2 = 1 := by
  rcases h.j with e | e
  · omega
  · rcases abs_cases (2 * a.l - 1) with ⟨e', -⟩ | ⟨e', -⟩ <;> rw [e'] at e <;> omega

theorem term_flip (U : Units) (c1 c2 : Cells) (S1 S2 : Old1 → Prop) (kmax : ℤ) (h1 : CellsRefl c1 S1 kmax) (h2 : CellsRefl c2 S2 kmax) (k1 k2 : ℤ)
    (hk1 : 1 ≤ k1 ∧ k1 ≤ kmax) (hk2 : 1 ≤ k2 ∧ k2 ≤ kmax) (x y : Old1 × Old1) (hx : OldValid x.1 ∧ OldValid x.2) (hy : OldValid y.1 ∧ OldValid y.2)
    (sx : S1 x.1 ∧ S2 x.2) (sy : S1 y.1 ∧ S2 y.2) (hm : x.1.m + x.2.m = y.1.m + y.2.m) :
    oldPairTerm U c1 c2 k1 k2 (reflected x) (reflected y) = ((reflSign x * reflSign y : ℤ) : ℝ) * oldPairTerm U c1 c2 k1 k2 x y := by
  have hm' : (reflected x).1.m + (reflected x).2.m = (reflected y).1.m + (reflected y).2.m := by
    show -x.1.m + -x.2.m = -y.1.m + -y.2.m
    omega
  rw [term_form U c1 c2 k1 k2 x y hx hy hm, term_form U c1 c2 k1 k2 (reflected x) (reflected y) ⟨flip_valid hx.1, flip_valid hx.2⟩ ⟨flip_valid hy.1, flip_valid hy.2⟩ hm']
  rw [reflected_eq, reflected_eq]
  dsimp only
  rw [oldSel_flip, oldSel_flip]
  by_cases h : (oldSelMultipole x.1 y.1 k1 && oldSelMultipole x.2 y.2 k2) = true
  · rw [if_pos h, if_pos h]
    rw [Bool.and_eq_true] at h
    obtain ⟨b1, l1⟩ := oldSel_bound _ _ _ h.1
    obtain ⟨b2, l2⟩ := oldSel_bound _ _ _ h.2
    rw [abs_le] at b1 b2
    have p1 := hx.1.mpar
    have p3 := hy.1.mpar
    have p2 := hx.2.mpar
    have p4 := hy.2.mpar
    have j1 := j_odd hx.1
    have j2 := j_odd hx.2
    have j3 := j_odd hy.1
    have j4 := j_odd hy.2
    rw [h1 x.1 y.1 sx.1 sy.1 k1 hk1.1 hk1.2 h.1, h2 x.2 y.2 sx.2 sy.2 k2 hk2.1 hk2.2 h.2]
    have eq' : (x.1.flip.m - y.1.flip.m) / 2 = -((x.1.m - y.1.m) / 2) := by
      show (-x.1.m - -y.1.m) / 2 = _
      omega
    rw [eq']
    have sg : ((reflSign x * reflSign y : ℤ) : ℝ) = sgn ((x.1.j + y.1.j) / 2 + k1) * sgn ((x.2.j + y.2.j) / 2 + k2) := by
      rw [sgn_mul]
      unfold reflSign parityL parityJ parityM
      rw [← parityOf_add, ← parityOf_add, ← parityOf_add, ← parityOf_add, ← parityOf_add]
      unfold parityOf sgn
      split_ifs <;> first | omega | norm_num
    rw [sg]
    have e1 : 2 * ((x.1.m - y.1.m) / 2) = x.1.m - y.1.m := by omega
    set q := (x.1.m - y.1.m) / 2
    have B1 : binom (k1 + k2) (k1 + -q) = binom (k1 + k2) (k2 + q) := by
      rw [← binom_symm _ (k2 + q) (by omega) (by omega)]; congr 1; omega
    have B2 : binom (k1 + k2) (k2 + -q) = binom (k1 + k2) (k1 + q) := by
      rw [← binom_symm _ (k1 + q) (by omega) (by omega)]; congr 1; omega
    rw [B1, B2, mul_comm ((binom (k1 + k2) (k2 + q) : ℕ) : ℝ)]
    ring
  · rw [if_neg h, if_neg h, mul_zero]

theorem val_flip (U : Units) (c1 c2 : Cells) (S1 S2 : Old1 → Prop) (sum : ℕ) (h1 : CellsRefl c1 S1 (sum - 1)) (h2 : CellsRefl c2 S2 (sum - 1))
    (x y : Old1 × Old1) (hx : OldValid x.1 ∧ OldValid x.2) (hy : OldValid y.1 ∧ OldValid y.2)
    (sx : S1 x.1 ∧ S2 x.2) (sy : S1 y.1 ∧ S2 y.2) (hm : x.1.m + x.2.m = y.1.m + y.2.m) :
    oldPairVal U c1 c2 sum (reflected x) (reflected y) = ((reflSign x * reflSign y : ℤ) : ℝ) * oldPairVal U c1 c2 sum x y := by
  unfold oldPairVal
  rw [← List.sum_map_mul_left]
  congr 1
  refine List.map_congr_left fun i hi => ?_
  rw [List.mem_range] at hi
  exact term_flip U c1 c2 S1 S2 _ h1 h2 _ _ (by omega) (by omega) x y hx hy sx sy hm

theorem aboveTol_sign (s : ℤ) (hs : s = 1 ∨ s = -1) (v : ℝ) : aboveTol ((s : ℝ) * v) = s * aboveTol v := by
  rcases hs with rfl | rfl
  · have := aboveTol_sgn 0 v
    rw [sgn_zero] at this
    push_cast
    exact this
  · have := aboveTol_sgn 1 v
    have e : sgn 1 = -1 := by unfold sgn; norm_num
    rw [e] at this
    push_cast
    exact this

theorem reflSign_cases (x : Old1 × Old1) : reflSign x = 1 ∨ reflSign x = -1 := by
  have := reflSign_sq x
  rcases mul_self_eq_one_iff.mp this with h | h
  · exact .inl h
  · exact .inr h

section
variable (U : Units) (c1 c2 : Cells) {n1 n2 : ℕ} (s1 : Fin n1 → Old1) (s2 : Fin n2 → Old1) (hs1 : ∀ i, OldValid (s1 i)) (hs2 : ∀ i, OldValid (s2 i)) (exponent : ℤ)
  (hc1 : CellsHerm c1 (fun x => ∃ i, s1 i = x) (exponent - 2)) (hc2 : CellsHerm c2 (fun x => ∃ i, s2 i = x) (exponent - 2))
  (hr1 : CellsRefl c1 (fun x => ∃ i, s1 i = x) (exponent - 2)) (hr2 : CellsRefl c2 (fun x => ∃ i, s2 i = x) (exponent - 2)) (R : ℝ)
  (r1 : Fin n1 → Fin n1) (r2 : Fin n2 → Fin n2) (k1 : Closed s1 r1) (k2 : Closed s2 r2)
include hs1 hs2 hc1 hc2 hr1 hr2 k1 k2

theorem interaction_refl (i j : Fin (n1 * n2)) : oldInteraction U c1 c2 (fun _ => true) (pairState s1 s2) exponent R (reflRow r1 r2 i) (reflRow r1 r2 j) =
    ((reflSign (pairState s1 s2 i) * reflSign (pairState s1 s2 j) : ℤ) : ℂ) * oldInteraction U c1 c2 (fun _ => true) (pairState s1 s2) exponent R i j := by
  rw [interaction_apply, interaction_apply, ← List.sum_map_mul_left]
  congr 1
  refine List.map_congr_left fun sum hm => ?_
  rw [oldSums_mem] at hm
  have hb : ∀ i : Fin (n1 * n2), OldValid (pairState s1 s2 i).1 ∧ OldValid (pairState s1 s2 i).2 := fun i => ⟨hs1 _, hs2 _⟩
  have sb : ∀ i : Fin (n1 * n2), (∃ k, s1 k = (pairState s1 s2 i).1) ∧ (∃ k, s2 k = (pairState s1 s2 i).2) := fun i => ⟨⟨_, rfl⟩, ⟨_, rfl⟩⟩
  have m1 : CellsHerm c1 (fun x => ∃ i, s1 i = x) (sum - 1) := hc1.mono (by omega)
  have m2 : CellsHerm c2 (fun x => ∃ i, s2 i = x) (sum - 1) := hc2.mono (by omega)
  have q1 : CellsRefl c1 (fun x => ∃ i, s1 i = x) (sum - 1) := hr1.mono (by omega)
  have q2 : CellsRefl c2 (fun x => ∃ i, s2 i = x) (sum - 1) := hr2.mono (by omega)
  rw [pairMat_form U c1 c2 _ _ sum m1 m2 _ hb sb, pairMat_form U c1 c2 _ _ sum m1 m2 _ hb sb, reflRow_state s1 s2 r1 r2 k1 k2, reflRow_state s1 s2 r1 r2 k1 k2]
  have e : ∀ x : Old1 × Old1, (reflected x).1.m + (reflected x).2.m = -(x.1.m + x.2.m) := by
    intro x
    show -x.1.m + -x.2.m = _
    omega
  simp only [e, neg_inj]
  rw [mul_left_comm]
  congr 1
  by_cases hmm : (pairState s1 s2 i).1.m + (pairState s1 s2 i).2.m = (pairState s1 s2 j).1.m + (pairState s1 s2 j).2.m
  · rw [if_pos hmm, if_pos hmm, val_flip U c1 c2 _ _ sum q1 q2 _ _ (hb i) (hb j) (sb i) (sb j) hmm, aboveTol_sign]
    · push_cast; rfl
    · rcases reflSign_cases (pairState s1 s2 i) with h | h <;> rcases reflSign_cases (pairState s1 s2 j) with h' | h' <;> rw [h, h'] <;> simp
  · rw [if_neg hmm, if_neg hmm]
    simp

end

section
variable (U : Units) (J : RadKey → ℝ) (me : Method) (sp : String)

theorem ang_flip (k : ℤ) (a b : Old1) (ha : OldValid a) (hb : OldValid b) : oldVal U (oldIntegral me sp J) (.angOf k a.flip b.flip) =
    -sgn ((a.j + b.j) / 2 + k) * oldVal U (oldIntegral me sp J) (.angOf k a b) := by
  show sgn ((a.j - -a.m) / 2) * w3j a.j (2 * k) b.j (- -a.m) (-a.m - -b.m) (-b.m) = -sgn _ * (sgn ((a.j - a.m) / 2) * w3j a.j (2 * k) b.j (-a.m) (a.m - b.m) b.m)
  have p1 := ha.mpar
  have p2 := hb.mpar
  have j1 := j_odd ha
  have j2 := j_odd hb
  have : -a.m - -b.m = -(a.m - b.m) := by ring
  rw [this, w3j_neg]
  have e : sgn ((a.j - -a.m) / 2) = -sgn ((a.j - a.m) / 2) := by
    unfold sgn
    split_ifs <;> first | omega | norm_num
  have e2 : (a.j + 2 * k + b.j) / 2 = (a.j + b.j) / 2 + k := by omega
  rw [e, e2]
  ring

/-- An object that holds, for all its states and ranks, the values after an odd function, for a basis closed under the reversal of the magnetic quantum numbers. -/
theorem refl_of_cells (g : ℝ → ℝ) (hg : ∀ x, g (-x) = -g x) (c : Cells) (basis : List Old1) (hb : ∀ x ∈ basis, OldValid x) (hf : ∀ x ∈ basis, x.flip ∈ basis) (kmax : ℤ)
    (hc : ∀ k, 1 ≤ k → k ≤ kmax → ∀ key ∈ (preMultipole k).allKeys basis, c.get key = g (oldVal U (oldIntegral me sp J) key)) : CellsRefl c (· ∈ basis) kmax := by
  intro a b ha hb' k h1 h2 hsel
  have gs : ∀ q x, g (-sgn q * x) = -sgn q * g x := by
    intro q x
    unfold sgn
    split_ifs
    · rw [neg_one_mul, neg_one_mul, hg]
    · rw [neg_neg, one_mul, one_mul]
  have cov : ∀ x y, (preMultipole k).covers x y := fun x y q hq => by simp [preMultipole] at hq
  have key : ∀ x ∈ basis, ∀ y ∈ basis, oldSelMultipole x y k = true → oldMultipole c x y k =
      g (oldVal U (oldIntegral me sp J) (.radOf k x y)) * g (oldVal U (oldIntegral me sp J) (.angOf k x y)) * g (oldVal U (oldIntegral me sp J) (.comSOf k x y)) *
        g (oldVal U (oldIntegral me sp J) (.mulOf k x y)) := by
    intro x hx y hy h
    obtain ⟨k1, k2, k3, k4⟩ := Pre.keys_el (preMultipole k) x y (cov x y) rfl h
    have mem : ∀ key ∈ (preMultipole k).keys x y, key ∈ (preMultipole k).allKeys basis := fun key hk => ((preMultipole k).mem_allKeys basis key).mpr ⟨x, hx, y, hy, hk⟩
    unfold oldMultipole
    have r1 := hc k h1 h2 _ (mem _ k1)
    have r2 := hc k h1 h2 _ (mem _ k2)
    have r3 := hc k h1 h2 _ (mem _ k3)
    have r4 := hc k h1 h2 _ (mem _ k4)
    simp only [preMultipole] at r1 r2 r3 r4
    rw [r1, r2, r3, r4]
  have e1 : OldKey.radOf k a.flip b.flip = OldKey.radOf k a b := rfl
  have e2 : OldKey.comSOf k a.flip b.flip = OldKey.comSOf k a b := rfl
  have e3 : OldKey.mulOf k a.flip b.flip = OldKey.mulOf k a b := rfl
  rw [key a ha b hb' hsel, key a.flip (hf a ha) b.flip (hf b hb') (by rw [oldSel_flip]; exact hsel), e1, e2, e3, ang_flip U J me sp k a b (hb a ha) (hb b hb'), gs]
  ring

end

/-! ## The blocks -/

section
variable (U : Units) (c1 c2 : Cells) {n1 n2 : ℕ} {s1 : Fin n1 → Old1} {s2 : Fin n2 → Old1} {r1 : Fin n1 → Fin n1} {r2 : Fin n2 → Fin n2} {A : OldOne n1} {B : OldOne n2}
  {H1 : Matrix (Fin n1) (Fin n1) ℂ} {H2 : Matrix (Fin n2) (Fin n2) ℂ} {mu1 : Fin A.nb → ℤ} {mu2 : Fin B.nb → ℤ} (h : ReflSetup s1 s2 r1 r2 A B H1 H2 mu1 mu2)
include h

theorem ReflSetup.norm (ε : ℤ) (hε : ε = 1 ∨ ε = -1) (p : Fin A.nb × Fin B.nb) (hp : ¬ mu1 p.1 < 0) : ∑ i, ‖reflVec s1 s2 r1 r2 A B ε p i‖ ^ 2 = 1 := by
  have e := h.vec_elem ε 1 p p
  have o := h.half_one ε hε p p (fun _ => 1) (fun _ _ _ => rfl) hp hp
  rw [if_pos rfl, diagonal_one] at o
  rw [Matrix.mul_one, h.k_left, o] at e
  have : ((∑ i, ‖reflVec s1 s2 r1 r2 A B ε p i‖ ^ 2 : ℝ) : ℂ) = 1 := by
    rw [← e]
    push_cast
    refine Finset.sum_congr rfl fun i _ => ?_
    rw [Finset.sum_eq_single i]
    · rw [one_apply_eq, mul_one, Complex.star_def, Complex.conj_mul']
    · intro j _ hj
      rw [one_apply_ne (Ne.symm hj)]
      simp
    · simp
  exact_mod_cast this

/-- Every state that contributes to a column is reached by a product of eigenvectors with the same energy. -/
theorem ReflSetup.support (ε : ℤ) (p : Fin A.nb × Fin B.nb) (i : Fin (n1 * n2)) (hi : reflVec s1 s2 r1 r2 A B ε p i ≠ 0) :
    ∃ q, kronCol A B q i ≠ 0 ∧ A.diag q.1 + B.diag q.2 = A.diag p.1 + B.diag p.2 ∧ (q = p ∨ (mu1 q.1 = -mu1 p.1 ∧ mu2 q.2 = -mu2 p.2)) := by
  rw [h.vec_eq] at hi
  have hn : (kronMat A B * (1 + (ε : ℂ) • reflOm s1 s2 r1 r2 A B) : Matrix (Fin (n1 * n2)) (Fin A.nb × Fin B.nb) ℂ) i p ≠ 0 := by
    intro h0
    rw [h0, zero_div] at hi
    exact hi rfl
  rw [mul_apply] at hn
  obtain ⟨q, -, hq⟩ := Finset.exists_ne_zero_of_sum_ne_zero hn
  have k := left_ne_zero_of_mul hq
  have o := right_ne_zero_of_mul hq
  by_cases hqp : q = p
  · subst hqp
    exact ⟨q, k, rfl, .inl rfl⟩
  · have : reflOm s1 s2 r1 r2 A B q p ≠ 0 := by
      intro h0
      rw [Matrix.add_apply, Matrix.smul_apply, one_apply_ne hqp, h0] at o
      simp at o
    exact ⟨q, k, h.om_energy q p this, .inr (h.om_moment q p this)⟩

theorem ReflSetup.necessary (e : OldParity) (rot : Option ℤ) (conf : OldSymConf) (syms : List OldSym) (init : Old1 × Old1) (hm : ⟨none, none, some e, rot⟩ ∈ syms)
    (steps : List (OldOne n1 × OldOne n2)) (hs : (A, B) ∈ steps) (deltaE : ℝ) (p : Fin A.nb × Fin B.nb) (hE : inCutoff deltaE (A.diag p.1 + B.diag p.2))
    (hp : inRefl rot (mu1 p.1) (mu2 p.2)) (ε : ℤ) (i : Fin (n1 * n2)) (hi : reflVec s1 s2 r1 r2 A B ε p i ≠ 0) :
    oldNecessary conf syms init (pairState s1 s2) (oldCutoff steps deltaE) i = true := by
  obtain ⟨q, k, he, hq⟩ := h.support ε p i hi
  rw [necessary_iff]
  refine ⟨cutoff_kron steps deltaE A B hs q (by rw [he]; exact hE) i k, _, hm, ?_, by simp⟩
  rintro ⟨hrn, a1, a2⟩
  rcases a2 with a2 | a2
  · simp at a2
  have e1 := h.d1 _ _ (left_ne_zero_of_mul k)
  have e2 := h.d2 _ _ (right_ne_zero_of_mul k)
  have em : (pairState s1 s2 i).1.m + (pairState s1 s2 i).2.m = mu1 q.1 + mu2 q.2 := by
    unfold pairState
    rw [e1, e2]
  rw [em] at a1 a2
  dsimp only at a1 a2
  rcases hr : rot with _ | m
  · exact hrn hr
  · rw [hr] at a1 a2
    simp only [Option.map_some, ne_eq, Option.some.injEq] at a1 a2
    have w := hp.1 m hr
    rcases hq with rfl | ⟨h1, h2⟩
    · omega
    · omega

/-- What is diagonalised in a block with reflection. -/
theorem ReflSetup.block (e : OldParity) (rot : Option ℤ) (deltaE : ℝ) (nec : Fin (n1 * n2) → Bool) (exponent : ℤ) (R : ℝ)
    (hn : ∀ p, inCutoff deltaE (A.diag p.1 + B.diag p.2) → inRefl rot (mu1 p.1) (mu2 p.2) → ∀ i, reflVec s1 s2 r1 r2 A B e.int p i ≠ 0 → nec i = true) :
    oldBlock U c1 c2 ⟨none, none, some e, rot⟩ s1 s2 A B deltaE nec exponent R = .ok ⟨_, listMat
      (halfMat ((kronMat A B)ᴴ * pairFull H1 H2 (oldInteraction U c1 c2 (fun _ => true) (pairState s1 s2) exponent R) * kronMat A B) (reflOm s1 s2 r1 r2 A B) e.int)
      (pairsRefl rot A B deltaE mu1 mu2)⟩ := by
  classical
  have hε : e.int = 1 ∨ e.int = -1 := by cases e <;> simp [OldParity.int]
  unfold oldBlock
  rw [combine_refl s1 s2 r1 r2 h.c1 h.c2 e rot A B deltaE mu1 mu2 h.d1 h.d2 (orth_ne A h.oA) (orth_ne B h.oB)]
  refine (Out.ok_bind _ _).trans ?_
  have pr : oldPrune ((pairsRefl rot A B deltaE mu1 mu2).map fun p => (A.diag p.1 + B.diag p.2, reflVec s1 s2 r1 r2 A B e.int p)) =
      (pairsRefl rot A B deltaE mu1 mu2).map fun p => (A.diag p.1 + B.diag p.2, reflVec s1 s2 r1 r2 A B e.int p) := by
    unfold oldPrune
    rw [List.filter_eq_self]
    intro c hc
    rw [List.mem_map] at hc
    obtain ⟨p, hp, rfl⟩ := hc
    rw [decide_eq_true_eq]
    dsimp only
    rw [h.norm e.int hε p ((mem_pairsRefl ..).mp hp).2.2]
    norm_num
  rw [pr]
  congr 1
  rw [total_of_cols U c1 c2 nec _ exponent R _ (pairsRefl_nodup rot A B deltaE mu1 mu2) (fun p => A.diag p.1 + B.diag p.2) _
    (fun p hp => hn p ((mem_pairsRefl ..).mp hp).1 ((mem_pairsRefl ..).mp hp).2)]
  refine sized_eq rfl _ _ fun i j => ?_
  unfold listMat
  have mem : ∀ i, ¬ mu1 ((pairsRefl rot A B deltaE mu1 mu2).get i).1 < 0 := fun i => ((mem_pairsRefl ..).mp (List.get_mem _ i)).2.2
  dsimp only
  rw [h.vec_elem, pairFull_add (H1 := H1) (H2 := H2), Matrix.mul_add, Matrix.add_mul, h.free]
  have add : ∀ X Y : Matrix (Fin A.nb × Fin B.nb) (Fin A.nb × Fin B.nb) ℂ, halfMat (X + Y) (reflOm s1 s2 r1 r2 A B) e.int =
      halfMat X (reflOm s1 s2 r1 r2 A B) e.int + halfMat Y (reflOm s1 s2 r1 r2 A B) e.int := by
    intro X Y
    unfold halfMat
    rw [← smul_add, ← Matrix.add_mul, ← Matrix.mul_add]
  rw [add, Matrix.add_apply, h.half_one e.int hε _ _ (fun p => ((A.diag p.1 + B.diag p.2 : ℝ) : ℂ)) (fun p q hne => by rw [h.om_energy p q hne]) (mem _) (mem _)]
  rfl

/-- The characteristic polynomial of a block with reflection. -/
noncomputable def reflPoly (s1 : Fin n1 → Old1) (s2 : Fin n2 → Old1) (r1 : Fin n1 → Fin n1) (r2 : Fin n2 → Fin n2) (A : OldOne n1) (B : OldOne n2) (mu1 : Fin A.nb → ℤ)
    (mu2 : Fin B.nb → ℤ) (F : Matrix (Fin (n1 * n2)) (Fin (n1 * n2)) ℂ) (deltaE : ℝ) (e : OldParity) (rot : Option ℤ) : Polynomial ℂ :=
  (listMat (halfMat ((kronMat A B)ᴴ * F * kronMat A B) (reflOm s1 s2 r1 r2 A B) e.int) (pairsRefl rot A B deltaE mu1 mu2)).charpoly

/-- Even and odd blocks together have the spectrum of the projection on a set of pairs. -/
theorem ReflSetup.split (F : Matrix (Fin (n1 * n2)) (Fin (n1 * n2)) ℂ)
    (hF : ∀ i j, F (reflRow r1 r2 i) (reflRow r1 r2 j) = ((reflSign (pairState s1 s2 i) * reflSign (pairState s1 s2 j) : ℤ) : ℂ) * F i j) (deltaE : ℝ) (rot : Option ℤ)
    (K : Fin A.nb × Fin B.nb → Prop) [Fintype {p // K p}]
    (hK : ∀ p, K p ↔ inCutoff deltaE (A.diag p.1 + B.diag p.2) ∧ ∀ m, rot = some m → mu1 p.1 + mu2 p.2 = 2 * m ∨ -(mu1 p.1 + mu2 p.2) = 2 * m) :
    (subMat ((kronMat A B)ᴴ * F * kronMat A B) K).charpoly =
      reflPoly s1 s2 r1 r2 A B mu1 mu2 F deltaE .even rot * reflPoly s1 s2 r1 r2 A B mu1 mu2 F deltaE .odd rot := by
  classical
  rw [refl_split _ (reflOm s1 s2 r1 r2 A B) K (fun p => ¬ mu1 p.1 < 0) h.om_sq (h.om_comm F hF)]
  · unfold reflPoly
    have mem : ∀ p, p ∈ pairsRefl rot A B deltaE mu1 mu2 ↔ K p ∧ ¬ mu1 p.1 < 0 := by
      intro p
      rw [mem_pairsRefl, hK]
      unfold inRefl
      tauto
    have x1 := listMat_charpoly (halfMat ((kronMat A B)ᴴ * F * kronMat A B) (reflOm s1 s2 r1 r2 A B) ((OldParity.even.int : ℤ) : ℂ)) _ (fun p => K p ∧ ¬ mu1 p.1 < 0)
      (pairsRefl_nodup rot A B deltaE mu1 mu2) mem
    have x2 := listMat_charpoly (halfMat ((kronMat A B)ᴴ * F * kronMat A B) (reflOm s1 s2 r1 r2 A B) ((OldParity.odd.int : ℤ) : ℂ)) _ (fun p => K p ∧ ¬ mu1 p.1 < 0)
      (pairsRefl_nodup rot A B deltaE mu1 mu2) mem
    refine Eq.trans ?_ (congrArg₂ (· * ·) x1.symm x2.symm)
    have e1 : ((OldParity.even.int : ℤ) : ℂ) = 1 := by simp [OldParity.int]
    have e2 : ((OldParity.odd.int : ℤ) : ℂ) = -1 := by simp [OldParity.int]
    rw [e1, e2]
  · intro p q hne
    have a := (h.om_moment p q hne).1
    have := h.mu_odd p.1
    omega
  · intro p q hne
    obtain ⟨a, b⟩ := h.om_moment p q hne
    rw [hK, hK, h.om_energy p q hne]
    refine and_congr_right fun _ => forall_congr' fun m => imp_congr_right fun _ => ?_
    omega

end

theorem refl_prod (c : OldSymConf) (init : Old1 × Old1) (basis : List (Old1 × Old1)) (hinv : c.inv = (false, false)) (hper : c.per = (false, false)) (href : c.ref = (true, true))
    (F : OldSym → Polynomial ℂ) :
    ((oldSymmetries c init basis).map F).prod =
      ∏ rot ∈ ((rotationList c init basis).map (Option.map (|·|))).toFinset, (F ⟨none, none, some .even, rot⟩ * F ⟨none, none, some .odd, rot⟩) := by
  classical
  have hn : (oldSymmetries c init basis).Nodup := List.nodup_dedup _
  rw [← List.prod_toFinset F hn]
  set T := ((rotationList c init basis).map (Option.map (|·|))).toFinset
  have im : (oldSymmetries c init basis).toFinset = (({.even, .odd} : Finset OldParity) ×ˢ T).image (fun x => (⟨none, none, some x.1, x.2⟩ : OldSym)) := by
    ext sym
    unfold oldSymmetries
    simp only [hinv, hper, href]
    rw [List.mem_toFinset, List.mem_dedup]
    simp only [parityList, Bool.false_eq_true, if_false, if_true, List.append_nil, List.mem_flatMap, exists_eq_left, reduceCtorEq, false_and,
      ne_eq, not_true_eq_false, List.mem_map, Finset.mem_image, Finset.mem_product, Finset.mem_insert, Finset.mem_singleton, Prod.exists, List.singleton_append,
      List.cons_ne_nil, List.mem_cons, List.not_mem_nil, or_false, T, List.mem_toFinset]
    constructor
    · rintro ⟨ref, (rfl | rfl), rot, hr, rfl⟩
      · exact ⟨.even, _, ⟨.inl rfl, rot, hr, rfl⟩, by simp⟩
      · exact ⟨.odd, _, ⟨.inr rfl, rot, hr, rfl⟩, by simp⟩
    · rintro ⟨e, rot', ⟨he, rot, hr, rfl⟩, rfl⟩
      refine ⟨some e, ?_, rot, hr, by simp⟩
      rcases he with rfl | rfl <;> simp
  rw [im, Finset.prod_image (by
    rintro ⟨a, b⟩ - ⟨a', b'⟩ - h
    simp only [OldSym.mk.injEq, true_and, Option.some.injEq] at h
    obtain ⟨rfl, rfl⟩ := h
    rfl), Finset.prod_product_right]
  refine Finset.prod_congr rfl fun rot _ => ?_
  rw [Finset.prod_pair (by decide)]

/-- **C91.** For two atoms, of the same or of different species, with complete sets of orthonormal eigenvectors of definite momenta, one-atom Hamiltonians that commute with
the reflection and bases closed under the reversal of the magnetic quantum numbers: if both parities of the reflection are requested, with or without
conservation of the momentum, then for all cutoffs, distances, exponents and steps every block is calculated (the map of the rows is complete) and the
characteristic polynomial of the matrix without symmetries is the product of those of the blocks. -/
theorem C91_spectrum_partial (U : Units) (c1 c2 : Cells) {n1 n2 : ℕ} (s1 : Fin n1 → Old1) (s2 : Fin n2 → Old1) (v1 : ∀ i, OldValid (s1 i)) (v2 : ∀ i, OldValid (s2 i))
    (i1 : Function.Injective s1) (i2 : Function.Injective s2) (f1 : ∀ i, ∃ k, s1 k = { s1 i with m := -(s1 i).m }) (f2 : ∀ i, ∃ k, s2 k = { s2 i with m := -(s2 i).m })
    (A : OldOne n1) (B : OldOne n2) (H1 : Matrix (Fin n1) (Fin n1) ℂ) (H2 : Matrix (Fin n2) (Fin n2) ℂ)
    (oA : A.basisᴴ * A.basis = 1) (oA' : A.basis * A.basisᴴ = 1) (oB : B.basisᴴ * B.basis = 1) (oB' : B.basis * B.basisᴴ = 1)
    (eA : H1 * A.basis = A.basis * diagonal fun c => (A.diag c : ℂ)) (eB : H2 * B.basis = B.basis * diagonal fun c => (B.diag c : ℂ))
    (q1 : ReflInv s1 H1) (q2 : ReflInv s2 H2) (mu1 : Fin A.nb → ℤ) (mu2 : Fin B.nb → ℤ)
    (d1 : ∀ r c, A.basis r c ≠ 0 → (s1 r).m = mu1 c) (d2 : ∀ r c, B.basis r c ≠ 0 → (s2 r).m = mu2 c) (exponent : ℤ)
    (hc1 : CellsHerm c1 (fun x => ∃ i, s1 i = x) (exponent - 2)) (hc2 : CellsHerm c2 (fun x => ∃ i, s2 i = x) (exponent - 2))
    (hr1 : CellsRefl c1 (fun x => ∃ i, s1 i = x) (exponent - 2)) (hr2 : CellsRefl c2 (fun x => ∃ i, s2 i = x) (exponent - 2)) (R deltaE : ℝ)
    (steps : List (OldOne n1 × OldOne n2)) (hst : (A, B) ∈ steps) (conf : OldSymConf) (hinv : conf.inv = (false, false)) (hper : conf.per = (false, false))
    (href : conf.ref = (true, true)) (hsame : conf.sametrafo = false) (init : Old1 × Old1) :
    ∃ Bl : OldSym → Σ k, Matrix (Fin k) (Fin k) ℂ,
      (∀ sym ∈ oldSymmetries conf init (List.ofFn (pairState s1 s2)), oldBlock U c1 c2 sym s1 s2 A B deltaE
        (oldNecessary conf (oldSymmetries conf init (List.ofFn (pairState s1 s2))) init (pairState s1 s2) (oldCutoff steps deltaE)) exponent R = .ok (Bl sym)) ∧
      ∃ B0, oldBlock U c1 c2 ⟨none, none, none, none⟩ s1 s2 A B deltaE
        (oldNecessary .plain (oldSymmetries .plain init (List.ofFn (pairState s1 s2))) init (pairState s1 s2) (oldCutoff steps deltaE)) exponent R = .ok B0 ∧
      B0.2.charpoly = ((oldSymmetries conf init (List.ofFn (pairState s1 s2))).map fun sym => (Bl sym).2.charpoly).prod := by
  classical
  choose r1 hf1 using f1
  choose r2 hf2 using f2
  have h : ReflSetup s1 s2 r1 r2 A B H1 H2 mu1 mu2 := ⟨⟨i1, hf1, fun i => (v1 i).mpar⟩, ⟨i2, hf2, fun i => (v2 i).mpar⟩, fun i => j_odd (v1 i), fun i => j_odd (v2 i),
    oA, oA', oB, oB', eA, eB, q1, q2, d1, d2⟩
  set basis := List.ofFn (pairState s1 s2) with hbasis
  set V := oldInteraction U c1 c2 (fun _ => true) (pairState s1 s2) exponent R with hV
  set F := pairFull H1 H2 V with hFdef
  have hF := h.full_inv V (interaction_refl U c1 c2 s1 s2 v1 v2 exponent hc1 hc2 hr1 hr2 R r1 r2 h.c1 h.c2)
  have shape : ∀ sym ∈ oldSymmetries conf init basis, ∃ e rot, sym = ⟨none, none, some e, rot⟩ := by
    intro sym hm
    obtain ⟨m1, m2, m3, -, -⟩ := symmetries_mem conf init basis sym hm
    obtain ⟨inv, per, ref, rot⟩ := sym
    rw [hinv] at m1
    rw [hper] at m2
    rw [href] at m3
    simp only [parityList, Bool.false_eq_true, if_false, List.append_nil, if_true, List.mem_singleton] at m1 m2
    simp only [parityList, if_true, List.singleton_append, List.cons_ne_nil, if_false, List.mem_cons, List.not_mem_nil, or_false] at m3
    subst m1 m2
    rcases m3 with rfl | rfl
    · exact ⟨_, _, rfl⟩
    · exact ⟨_, _, rfl⟩
  refine ⟨fun sym => ⟨_, listMat (halfMat ((kronMat A B)ᴴ * F * kronMat A B) (reflOm s1 s2 r1 r2 A B) (sym.reflection.getD .even).int) (pairsRefl sym.rotation A B deltaE mu1 mu2)⟩,
    fun sym hm => ?_, ⟨_, listMat (fun p q => (if p = q then ((A.diag p.1 + B.diag p.2 : ℝ) : ℂ) else 0) +
      ∑ i, ∑ j, star (kronCol A B p i) * V i j * kronCol A B q j) (pairsTwo none A B deltaE mu1 mu2)⟩, ?_, ?_⟩
  · obtain ⟨e, rot, rfl⟩ := shape sym hm
    exact h.block U c1 c2 e rot deltaE _ exponent R fun p hE hp i hi => h.necessary e rot conf _ init hm steps hst deltaE p hE hp e.int i hi
  · exact block_two U c1 c2 none s1 s2 A B oA oB deltaE mu1 mu2 (by simp [DefiniteM]) (by simp [DefiniteM]) _ exponent R
      (necessary_two .plain _ init none s1 s2 steps A B hst deltaE mu1 mu2 (by simp [DefiniteM]) (by simp [DefiniteM])
        (by simp [oldSymmetries, parityList, rotationList, OldSymConf.plain]))
  · have G : (fun p q => (if p = q then ((A.diag p.1 + B.diag p.2 : ℝ) : ℂ) else 0) + ∑ i, ∑ j, star (kronCol A B p i) * V i j * kronCol A B q j) =
        ((kronMat A B)ᴴ * F * kronMat A B) := by
      funext p q
      rw [kron_elem H1 H2 V A B oA oB eA eB p q]
      have : ((kronMat A B)ᴴ * F * kronMat A B) p q = ∑ j, ∑ i, star (kronCol A B p i) * F i j * kronCol A B q j := by
        rw [mul_apply]
        refine Finset.sum_congr rfl fun j _ => ?_
        rw [mul_apply, Finset.sum_mul]
        rfl
      rw [this]
      exact Finset.sum_comm
    have odd1 := h.mu_odd
    have odd2 := h.mu_odd'
    have lhs : (listMat (fun p q => (if p = q then ((A.diag p.1 + B.diag p.2 : ℝ) : ℂ) else 0) +
        ∑ i, ∑ j, star (kronCol A B p i) * V i j * kronCol A B q j) (pairsTwo none A B deltaE mu1 mu2)).charpoly =
        (subMat ((kronMat A B)ᴴ * F * kronMat A B) fun p => inCutoff deltaE (A.diag p.1 + B.diag p.2)).charpoly := by
      rw [G]
      refine listMat_charpoly _ _ _ (pairsTwo_nodup ..) fun p => ?_
      rw [mem_pairsTwo]
      simp [keepsTwo]
    refine lhs.trans ?_
    refine Eq.trans ?_ (refl_prod conf init basis hinv hper href (fun sym => (listMat (halfMat ((kronMat A B)ᴴ * F * kronMat A B) (reflOm s1 s2 r1 r2 A B)
      (sym.reflection.getD .even).int) (pairsRefl sym.rotation A B deltaE mu1 mu2)).charpoly)).symm
    show _ = ∏ rot ∈ ((rotationList conf init basis).map (Option.map (|·|))).toFinset,
      (reflPoly s1 s2 r1 r2 A B mu1 mu2 F deltaE .even rot * reflPoly s1 s2 r1 r2 A B mu1 mu2 F deltaE .odd rot)
    by_cases hcm : conf.conserveM = true
    · have rl : ((rotationList conf init basis).map (Option.map (|·|))).toFinset = (basis.map fun x => |(x.1.m + x.2.m).tdiv 2|).toFinset.image some := by
        unfold rotationList
        rw [if_pos hcm, if_pos (by simp [hsame])]
        ext x
        simp
      rw [rl, Finset.prod_image (by intro a _ b _ h; exact Option.some.inj h)]
      refine (sector_split ((kronMat A B)ᴴ * F * kronMat A B) (fun p => inCutoff deltaE (A.diag p.1 + B.diag p.2)) (fun p => |(mu1 p.1 + mu2 p.2) / 2|)
        (basis.map fun x => |(x.1.m + x.2.m).tdiv 2|).toFinset ?_ ?_).trans ?_
      rotate_right
      · refine Finset.prod_congr rfl fun M hM => ?_
        have M0 : 0 ≤ M := by
          rw [List.mem_toFinset, List.mem_map] at hM
          obtain ⟨x, -, rfl⟩ := hM
          exact abs_nonneg _
        refine h.split F hF deltaE (some M) _ fun p => ?_
        refine and_congr_right fun _ => ?_
        have := odd1 p.1
        have := odd2 p.2
        simp only [Option.some.injEq, forall_eq']
        rw [abs_eq M0]
        omega
      · intro p _
        obtain ⟨a, ha⟩ := orth_ne A oA p.1
        obtain ⟨b, hb⟩ := orth_ne B oB p.2
        rw [List.mem_toFinset, List.mem_map]
        refine ⟨(s1 a, s2 b), ?_, ?_⟩
        · rw [hbasis, List.mem_ofFn]
          exact ⟨finProdFinEquiv (a, b), by unfold pairState; rw [Equiv.symm_apply_apply]⟩
        · have := odd1 p.1
          have := odd2 p.2
          dsimp only
          rw [d1 a p.1 ha, d2 b p.2 hb, Int.tdiv_eq_ediv_of_dvd (by omega)]
      · intro p q _ _ hne
        have pq : p ≠ q := fun e => hne (by rw [e])
        refine (congrFun (congrFun G p) q).symm.trans ?_
        refine (congrArg (· + _) (if_neg pq)).trans ?_
        refine (zero_add _).trans ?_
        refine Finset.sum_eq_zero fun i _ => Finset.sum_eq_zero fun j _ => ?_
        by_contra h0
        have k1 : kronCol A B p i ≠ 0 := by intro e; rw [e] at h0; simp at h0
        have k2 : kronCol A B q j ≠ 0 := by intro e; rw [e] at h0; simp at h0
        have k3 : V i j ≠ 0 := by intro e; rw [e] at h0; simp at h0
        have m := (interaction_rules U c1 s1 v1 exponent hc1 R s2 c2 v2 hc2 i j k3).1
        unfold kronCol at k1 k2
        unfold pairState at m
        dsimp only at m
        rw [d1 _ _ (left_ne_zero_of_mul k1), d2 _ _ (right_ne_zero_of_mul k1), d1 _ _ (left_ne_zero_of_mul k2), d2 _ _ (right_ne_zero_of_mul k2)] at m
        exact hne (by rw [m])
    · have rl : ((rotationList conf init basis).map (Option.map (|·|))).toFinset = {none} := by
        unfold rotationList
        rw [if_neg hcm]
        rfl
      rw [rl, Finset.prod_singleton]
      exact h.split F hF deltaE none _ fun p => by simp

end PI
