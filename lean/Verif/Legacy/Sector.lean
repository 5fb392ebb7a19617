import Verif.Legacy.Herm

/-!
# Legacy pair Hamiltonian: only the blocks of the initial state (C90)
-/

namespace PI

/-- The overlap with a vector, triplet by triplet. -/
def tripletOv (f : ℕ → ℂ) (t : List (Option ℕ × ℂ)) : ℂ := (t.map fun x => x.1.elim 0 f * x.2).sum

theorem tripletOv_sum {N : ℕ} (f : ℕ → ℂ) (t : List (Option ℕ × ℂ)) (ht : ∀ x ∈ t, ∃ i < N, x.1 = some i) : ∑ i : Fin N, f i * tripletSum t i = tripletOv f t := by
  induction t with
  | nil => simp [tripletOv, tripletSum_nil]
  | cons x t ih =>
    obtain ⟨r, hr, e⟩ := ht x List.mem_cons_self
    obtain ⟨o, v⟩ := x
    dsimp only at e
    subst e
    simp only [tripletSum_cons, mul_add, Finset.sum_add_distrib]
    rw [ih fun y hy => ht y (List.mem_cons_of_mem _ hy)]
    unfold tripletOv
    rw [List.map_cons, List.sum_cons]
    congr 1
    rw [Finset.sum_eq_single (⟨r, hr⟩ : Fin N)]
    · simp
    · intro b _ hb
      rw [if_neg (fun h => hb (Fin.ext h.symm)), mul_zero]
    · simp

theorem tripletOv_flatMap {α : Type} (f : ℕ → ℂ) (L : List α) (g : α → List (Option ℕ × ℂ)) (h : ∀ a ∈ L, tripletOv f (g a) = 0) : tripletOv f (L.flatMap g) = 0 := by
  induction L with
  | nil => rfl
  | cons a L ih =>
    have : tripletOv f ((a :: L).flatMap g) = tripletOv f (g a) + tripletOv f (L.flatMap g) := by
      unfold tripletOv
      rw [List.flatMap_cons, List.map_append, List.sum_append]
    rw [this, h a List.mem_cons_self, ih fun b hb => h b (List.mem_cons_of_mem _ hb), add_zero]

/-- A column of the block comes from a pair of basis vectors that is not skipped. -/
theorem combine_col (sym : OldSym) {n1 n2 : ℕ} (s1 : Fin n1 → Old1) (s2 : Fin n2 → Old1) (A : OldOne n1) (B : OldOne n2) (deltaE : ℝ)
    (cols : List (ℝ × (Fin (n1 * n2) → ℂ))) (h : oldCombine sym s1 s2 A B deltaE = .ok cols) (col : ℝ × (Fin (n1 * n2) → ℂ)) (hc : col ∈ cols) :
    ∃ (mp : ℕ → Option ℕ) (p : Fin A.nb × Fin B.nb), ¬ sym.skips p.1 p.2 ∧ (∀ t ∈ combineTriplets sym s1 s2 mp A B p, ∃ i < n1 * n2, t.1 = some i) ∧
      ∀ i, col.2 i = tripletSum (combineTriplets sym s1 s2 mp A B p) i := by
  classical
  unfold oldCombine at h
  dsimp only at h
  by_cases hif : ∀ c ∈ (((oldPairIdx A.nb B.nb).filter fun p => ¬ sym.skips p.1 p.2 ∧ inCutoff deltaE (A.diag p.1 + B.diag p.2)).map fun p =>
      (A.diag p.1 + B.diag p.2, combineTriplets sym s1 s2 (oldMapping sym (number 0 (List.ofFn (pairState s1 s2)))) A B p)).filter fun c => c.2 ≠ [],
      ∀ t ∈ c.2, ∃ i < n1 * n2, t.1 = some i
  · rw [if_pos hif] at h
    injection h with h
    rw [← h, List.mem_map] at hc
    obtain ⟨c, hc, rfl⟩ := hc
    have hr := hif c hc
    rw [List.mem_filter, List.mem_map] at hc
    obtain ⟨⟨p, hp, rfl⟩, -⟩ := hc
    rw [List.mem_filter] at hp
    have hp2 := of_decide_eq_true hp.2
    exact ⟨_, p, hp2.1, hr, fun i => rfl⟩
  · rw [if_neg hif] at h
    cases h

/-- The vector of the initial pair state: products of vectors of the two atoms in the spaces of their initial n, l, j (and m, if the axis is the z axis); the same vector
for both atoms if their initial states are the same. -/
structure InitialVec (conf : OldSymConf) (init : Old1 × Old1) {n : ℕ} (s : Fin n → Old1) (φ1 φ2 : Fin n → ℂ) : Prop where
  /-- first atom -/
  first : ∀ i, φ1 i ≠ 0 → (s i).n = init.1.n ∧ (s i).l = init.1.l ∧ (s i).j = init.1.j ∧ (conf.zerotheta = true → (s i).m = init.1.m)
  /-- second atom -/
  second : ∀ i, φ2 i ≠ 0 → (s i).n = init.2.n ∧ (s i).l = init.2.l ∧ (s i).j = init.2.j ∧ (conf.zerotheta = true → (s i).m = init.2.m)
  /-- equal states -/
  same : init.1 = init.2 → φ1 = φ2

theorem parityOf_sq (a : ℤ) : parityOf a * parityOf a = 1 := by
  unfold parityOf
  split_ifs <;> rfl

/-- **C90.** With `sametrafo` the program leaves out blocks. For all bases, eigenvectors, cutoffs and initial states: no vector of a block that is left out overlaps with
the initial state, whatever the direction of the axis. (The eigenvectors have definite parity if an inversion parity is requested.) -/
theorem C90_initial (conf : OldSymConf) (href : conf.ref = (false, false)) (init : Old1 × Old1) {n : ℕ} (s : Fin n → Old1) (hs : ∀ i, OldValid (s i)) (A : OldOne n)
    (deltaE : ℝ) (par : Fin A.nb → ℤ) (hpar : conf.inv ≠ (false, false) → ∀ r c, A.basis r c ≠ 0 → parityOf (s r).l = par c) (φ1 φ2 : Fin n → ℂ)
    (hφ : InitialVec conf init s φ1 φ2) (sym : OldSym) (hm : sym ∈ oldSymmetries { conf with sametrafo := false } init (List.ofFn (pairState s s)))
    (hn : sym ∉ oldSymmetries { conf with sametrafo := true } init (List.ofFn (pairState s s)))
    (cols : List (ℝ × (Fin (n * n) → ℂ))) (h : oldCombine sym s s A A deltaE = .ok cols) (col : ℝ × (Fin (n * n) → ℂ)) (hc : col ∈ cols) :
    ∑ i, star (φ1 (finProdFinEquiv.symm i).1 * φ2 (finProdFinEquiv.symm i).2) * col.2 i = 0 := by
  classical
  obtain ⟨m1, m2, m3, -, rot, hrot, m5⟩ := symmetries_mem _ init _ sym hm
  dsimp only at m1 m2 m3
  have hr : sym.reflection = none := by
    rw [href] at m3
    simpa [parityList] using m3
  rw [hr, if_neg (by simp)] at m5
  -- why the block is left out
  have why : (sym.inversion = some .even ∧ init.1 = init.2) ∨ (sym.permutation = some .even ∧ init.1 = init.2) ∨
      (sym.inversion ≠ none ∧ sym.permutation ≠ none ∧ (sym.inversion.map OldParity.int).getD 0 * (sym.permutation.map OldParity.int).getD 0 ≠ parityL init) ∨
      sym.rotation ∉ rotationList { conf with sametrafo := true } init (List.ofFn (pairState s s)) := by
    by_contra hw
    push Not at hw
    obtain ⟨w1, w2, w3, w4⟩ := hw
    apply hn
    unfold oldSymmetries
    rw [List.mem_dedup, List.mem_flatMap]
    refine ⟨sym.inversion, m1, ?_⟩
    rw [if_neg (fun h => w1 h.1 h.2.1), List.mem_flatMap]
    refine ⟨sym.permutation, m2, ?_⟩
    rw [if_neg (fun h => w2 h.1 h.2.1), if_neg (fun h => h.2.2.2 (w3 h.1 h.2.1)), List.mem_flatMap]
    refine ⟨none, by rw [href]; simp [parityList], ?_⟩
    rw [List.mem_map]
    refine ⟨sym.rotation, w4, ?_⟩
    rw [if_neg (by simp), ← hr]
  obtain ⟨mp, p, hskip, hrow, hcol⟩ := combine_col sym s s A A deltaE cols h col hc
  set f : Fin n → Fin n → ℂ := fun r1 r2 => star (φ1 r1 * φ2 r2) with hf
  set F : ℕ → ℂ := fun k => if hk : k < n * n then f (finProdFinEquiv.symm (⟨k, hk⟩ : Fin (n * n))).1 (finProdFinEquiv.symm (⟨k, hk⟩ : Fin (n * n))).2 else 0 with hF
  have Frow : ∀ r1 r2 : Fin n, F (n * (r1 : ℕ) + r2) = f r1 r2 := by
    intro r1 r2
    rw [row_eq, hF]
    dsimp only
    rw [dif_pos (Fin.is_lt _)]
    simp only [Fin.eta, Equiv.symm_apply_apply]
  have F0 : ∑ i, star (φ1 (finProdFinEquiv.symm i).1 * φ2 (finProdFinEquiv.symm i).2) * col.2 i = ∑ i : Fin (n * n), F i * tripletSum (combineTriplets sym s s mp A A p) i := by
    refine Finset.sum_congr rfl fun i _ => ?_
    rw [hcol, hF]
    dsimp only
    rw [dif_pos i.2]
  rw [F0, tripletOv_sum F _ hrow]
  unfold combineTriplets
  refine tripletOv_flatMap F _ _ ?_
  rintro ⟨r1, r2⟩ hmem
  rw [List.mem_product] at hmem
  simp only [List.mem_filter, List.mem_finRange, true_and, decide_eq_true_eq] at hmem
  rw [combineCell_plain sym hr]
  have par_f : ∀ r1 r2, f r1 r2 ≠ 0 → parityL (s r1, s r2) = parityL init := by
    intro a b hab
    rw [hf] at hab
    dsimp only at hab
    rw [star_ne_zero] at hab
    have h1 := (hφ.first a (left_ne_zero_of_mul hab)).2.1
    have h2 := (hφ.second b (right_ne_zero_of_mul hab)).2.1
    unfold parityL
    rw [h1, h2]
  have f_symm : init.1 = init.2 → ∀ a b, f a b = f b a := by
    intro he a b
    simp only [hf, hφ.same he, mul_comm]
  have swapL : parityL (s r2, s r1) = parityL (s r1, s r2) := by unfold parityL; rw [add_comm]
  unfold plainCell
  by_cases e1 : (sym.inversion ≠ none ∧ sym.permutation ≠ none ∧ (p.1 : ℕ) ≠ p.2 ∧ sym.invSign (s r1, s r2) ≠ sym.perSign) ∨
      (sym.rotation ≠ none ∧ sym.rotation.map (2 * ·) ≠ some ((s r1, s r2).1.m + (s r1, s r2).2.m))
  · rw [if_pos e1]; rfl
  rw [if_neg e1]
  rw [not_or] at e1
  -- both rows lie outside of the initial state
  have zero : f r1 r2 = 0 → f r2 r1 = 0 → tripletOv F (if (sym.inversion ≠ none ∨ sym.permutation ≠ none) ∧ (p.1 : ℕ) ≠ p.2 then
      [(some (n * (r1 : ℕ) + r2), A.basis r1 p.1 * A.basis r2 p.2 / (Real.sqrt 2 : ℝ)), (some (n * (r2 : ℕ) + r1), A.basis r1 p.1 * A.basis r2 p.2 / (Real.sqrt 2 : ℝ) *
        (if sym.inversion ≠ none then sym.invSign (s r1, s r2) else sym.perSign : ℤ))] else [(some (n * (r1 : ℕ) + r2), A.basis r1 p.1 * A.basis r2 p.2)]) = 0 := by
    intro z1 z2
    by_cases e : (sym.inversion ≠ none ∨ sym.permutation ≠ none) ∧ (p.1 : ℕ) ≠ p.2
    · rw [if_pos e]
      simp [tripletOv, Frow, z1, z2]
    · rw [if_neg e]
      simp [tripletOv, Frow, z1]
  -- the two rows cancel
  have cancel : (sym.inversion ≠ none ∨ sym.permutation ≠ none) → (p.1 : ℕ) ≠ p.2 → init.1 = init.2 →
      (f r1 r2 ≠ 0 → (if sym.inversion ≠ none then sym.invSign (s r1, s r2) else sym.perSign : ℤ) = -1) →
      tripletOv F (if (sym.inversion ≠ none ∨ sym.permutation ≠ none) ∧ (p.1 : ℕ) ≠ p.2 then
      [(some (n * (r1 : ℕ) + r2), A.basis r1 p.1 * A.basis r2 p.2 / (Real.sqrt 2 : ℝ)), (some (n * (r2 : ℕ) + r1), A.basis r1 p.1 * A.basis r2 p.2 / (Real.sqrt 2 : ℝ) *
        (if sym.inversion ≠ none then sym.invSign (s r1, s r2) else sym.perSign : ℤ))] else [(some (n * (r1 : ℕ) + r2), A.basis r1 p.1 * A.basis r2 p.2)]) = 0 := by
    intro a1 a2 a3 a4
    rw [if_pos ⟨a1, a2⟩]
    by_cases z : f r1 r2 = 0
    · have z2 := f_symm a3 r1 r2
      rw [z] at z2
      simp [tripletOv, Frow, z, ← z2]
    · rw [a4 z]
      simp only [tripletOv, List.map_cons, List.map_nil, List.sum_cons, List.sum_nil, Option.elim, Frow, f_symm a3 r2 r1]
      push_cast
      ring
  rcases why with ⟨w1, w2⟩ | ⟨w1, w2⟩ | ⟨w1, w2, w3⟩ | w
  · have hne : (p.1 : ℕ) ≠ p.2 := by
      intro he
      exact hskip (Or.inl ⟨w1, he.le⟩)
    convert cancel (Or.inl (by rw [w1]; simp)) hne w2 (fun hz => ?_)
    rw [if_pos (by rw [w1]; simp)]
    unfold OldSym.invSign
    rw [if_pos w1, par_f _ _ hz]
    unfold parityL
    rw [w2, parityOf_add, parityOf_sq]
  · have hne : (p.1 : ℕ) ≠ p.2 := by
      intro he
      exact hskip (Or.inr (Or.inr (Or.inl ⟨w1, he.le⟩)))
    convert cancel (Or.inr (by rw [w1]; simp)) hne w2 (fun hz => ?_)
    have hp : sym.perSign = -1 := by unfold OldSym.perSign; rw [if_pos w1]
    by_cases hi : sym.inversion = none
    · rw [if_neg (by simp [hi]), hp]
    · rw [if_pos hi]
      have := e1.1
      push Not at this
      rw [this hi (by rw [w1]; simp) hne, hp]
  · have hx : parityL (s r1, s r2) ≠ parityL init := by
      by_cases hne : (p.1 : ℕ) ≠ p.2
      · have := e1.1
        push Not at this
        have := this w1 w2 hne
        rcases hi : sym.inversion with _ | _ | _
        · exact absurd hi w1
        all_goals rcases hq : sym.permutation with _ | _ | _
        all_goals first | exact absurd hq w2 | skip
        all_goals
          rw [hi, hq] at w3
          simp only [OldSym.invSign, OldSym.perSign, hi, hq, if_true, Option.map_some, Option.getD_some, OldParity.int] at this w3
          simp at this w3
          intro hcon
          rw [← hcon] at w3
          omega
      · rw [not_not] at hne
        have o1 : sym.inversion = some .odd := by
          rcases hi : sym.inversion with _ | _ | _
          · exact absurd hi w1
          · exact absurd (Or.inl ⟨hi, hne.le⟩) hskip
          · rfl
        have o2 : sym.permutation = some .odd := by
          rcases hi : sym.permutation with _ | _ | _
          · exact absurd hi w2
          · exact absurd (Or.inr (Or.inr (Or.inl ⟨hi, hne.le⟩))) hskip
          · rfl
        rw [o1, o2] at w3
        have hinv : conf.inv ≠ (false, false) := by
          intro h0
          rw [h0, o1] at m1
          simp [parityList] at m1
        have hpp : p.1 = p.2 := Fin.ext hne
        have q1 := hpar hinv r1 p.1 hmem.1
        have q2 := hpar hinv r2 p.2 hmem.2
        unfold parityL
        unfold parityL at w3
        rw [parityOf_add, q1, q2, ← hpp, ← q1, parityOf_sq]
        simpa [OldParity.int] using w3
    convert zero ?_ ?_
    · by_contra hz
      exact hx (par_f _ _ hz)
    · by_contra hz
      exact hx (swapL ▸ par_f _ _ hz)
  · have hcm : conf.conserveM = true := by
      by_contra hcm
      apply w
      unfold rotationList at hrot ⊢
      dsimp only at hrot ⊢
      rw [if_neg hcm] at hrot ⊢
      rw [m5]
      exact hrot
    obtain ⟨M, hM⟩ : ∃ M, sym.rotation = some M := by
      unfold rotationList at hrot
      dsimp only at hrot
      rw [if_pos hcm, if_pos (by simp), List.mem_map] at hrot
      obtain ⟨x, -, rfl⟩ := hrot
      exact ⟨_, m5⟩
    have hM2 : 2 * M = (s r1).m + (s r2).m := by
      have := e1.2
      push Not at this
      have := this (by rw [hM]; simp)
      rw [hM] at this
      simpa using this
    have out : ∀ a b, (s a).m + (s b).m = 2 * M → f a b = 0 := by
      intro a b hab
      by_contra hz
      rw [hf] at hz
      replace hz := star_ne_zero.mp hz
      have h1 := hφ.first a (left_ne_zero_of_mul hz)
      have h2 := hφ.second b (right_ne_zero_of_mul hz)
      apply w
      unfold rotationList
      dsimp only
      rw [if_pos hcm, if_neg (by simp), hM]
      by_cases hz0 : conf.zerotheta = true
      · rw [if_neg (by simp [hz0]), List.mem_singleton, ← h1.2.2.2 hz0, ← h2.2.2.2 hz0, hab, Int.tdiv_eq_ediv_of_dvd (by omega)]
        congr 1
        omega
      · rw [if_pos hz0, List.mem_map]
        refine ⟨M, ?_, rfl⟩
        have b1 := abs_le.mp (hs a).mj
        have b2 := abs_le.mp (hs b).mj
        have pa := Old1.qn_physical "" _ (hs a)
        have pb := Old1.qn_physical "" _ (hs b)
        unfold QN.Physical Old1.qn at pa pb
        dsimp only at pa pb
        rw [mem_upTo, ← h1.2.2.1, ← h2.2.2.1, Int.tdiv_eq_ediv_of_dvd (by omega)]
        omega
    convert zero (out r1 r2 (by omega)) (out r2 r1 (by omega))

open Matrix in
/-- **C90.** The blocks that are calculated do not depend on `sametrafo`: the same matrix is diagonalised with and without it. -/
theorem C90_same_block (U : Units) (c1 c2 : Cells) (conf conf' : OldSymConf) (init : Old1 × Old1) {n : ℕ} (s : Fin n → Old1) (A : OldOne n) (hA : A.basisᴴ * A.basis = 1)
    (deltaE : ℝ) (steps steps' : List (OldOne n × OldOne n)) (hst : (A, A) ∈ steps) (hst' : (A, A) ∈ steps') (par mu : Fin A.nb → ℤ) (hp : ∀ c, par c = 1 ∨ par c = -1)
    (sym : OldSym) (hr : sym.reflection = none)
    (hpar : sym.inversion ≠ none → ∀ r c, A.basis r c ≠ 0 → parityOf (s r).l = par c) (hmu : sym.rotation ≠ none → ∀ r c, A.basis r c ≠ 0 → (s r).m = mu c)
    (hm : sym ∈ oldSymmetries conf init (List.ofFn (pairState s s))) (hm' : sym ∈ oldSymmetries conf' init (List.ofFn (pairState s s))) (exponent : ℤ) (R : ℝ) :
    ∃ B, oldBlock U c1 c2 sym s s A A deltaE (oldNecessary conf (oldSymmetries conf init (List.ofFn (pairState s s))) init (pairState s s) (oldCutoff steps deltaE)) exponent R = .ok B ∧
      oldBlock U c1 c2 sym s s A A deltaE (oldNecessary conf' (oldSymmetries conf' init (List.ofFn (pairState s s))) init (pairState s s) (oldCutoff steps' deltaE)) exponent R = .ok B := by
  have hd : Definite sym s A par mu := ⟨hp, hpar, hmu⟩
  exact ⟨_, block_spec U c1 c2 sym hr s A hA deltaE par mu hd _ exponent R (necessary_same conf init _ sym hr s steps A hst deltaE par mu hd hm),
    block_spec U c1 c2 sym hr s A hA deltaE par mu hd _ exponent R (necessary_same conf' init _ sym hr s steps' A hst' deltaE par mu hd hm')⟩

/-! ## A case that meets the hypotheses -/

/-- Both atoms in the S state: the block of even inversion parity is left out, and it has a vector. -/
example : ∃ cols, oldCombine ⟨some .even, none, none, none⟩ exStates exStates exOne exOne 5 = .ok cols ∧ cols ≠ [] ∧ ∀ col ∈ cols,
    ∑ i : Fin (2 * 2), star ((![1, 0] : Fin 2 → ℂ) (finProdFinEquiv.symm i).1 * (![1, 0] : Fin 2 → ℂ) (finProdFinEquiv.symm i).2) * col.2 i = 0 := by
  have hp : ∀ r c, exOne.basis r c ≠ 0 → parityOf (exStates r).l = (![1, -1] : Fin 2 → ℤ) c := fun r c h => by
    rw [← exOne_mem r c h]; fin_cases r <;> decide
  have hd : Definite ⟨some .even, none, none, none⟩ exStates exOne (![1, -1] : Fin 2 → ℤ) (![1, 1] : Fin 2 → ℤ) :=
    ⟨(by decide : ∀ c : Fin 2, (![1, -1] : Fin 2 → ℤ) c = 1 ∨ (![1, -1] : Fin 2 → ℤ) c = -1), fun _ => hp, fun h => absurd rfl h⟩
  have h := combine_spec ⟨some .even, none, none, none⟩ rfl exStates exOne 5 _ _ hd (orth_ne exOne exOne_orth)
  refine ⟨_, h, ?_, fun col hc => ?_⟩
  · intro h0
    rw [List.map_eq_nil_iff] at h0
    have : ((1 : Fin 2), (0 : Fin 2)) ∈ OldSym.pairs ⟨some .even, none, none, none⟩ exOne 5 (![1, -1] : Fin 2 → ℤ) (![1, 1] : Fin 2 → ℤ) := by
      refine (mem_pairs _ exOne _ _ _ _).mpr ?_
      refine ⟨⟨?_, Or.inl ?_⟩, fun _ h => absurd rfl h, fun M h => by cases h⟩
      · unfold OldSym.skips; decide
      · show |((![0, 1] : Fin 2 → ℝ) 1) + (![0, 1] : Fin 2 → ℝ) 0| < 5 + 1e-11
        norm_num
    exact List.ne_nil_of_mem this h0
  · refine C90_initial ⟨(true, true), (false, false), (false, false), false, true, true⟩ rfl (exStates 0, exStates 0) exStates exStates_valid exOne 5 _ (fun _ => hp) _ _ ?_
      ⟨some .even, none, none, none⟩ ?_ ?_ _ h col hc
    · refine ⟨fun i hi => ?_, fun i hi => ?_, fun _ => rfl⟩ <;> fin_cases i <;> simp_all
    · simp [oldSymmetries, parityList, rotationList]
    · simp [oldSymmetries, parityList, rotationList]

end PI
