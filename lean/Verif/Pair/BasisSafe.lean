import Verif.Pair.BasisEx
import Mathlib.Data.List.Perm.Subperm
import Mathlib.Data.List.ProdSigma

/-!
# C73: building the pair basis stays inside its buffers
-/

namespace PI

/-- What the pair construction needs of the one-atom systems: entries refer to listed states; if an exchange symmetry is
set both atoms have the same states; if a reflection is set the states of each atom are closed under reflection; the index
pairs lie inside the systems; the total spin is an integer. -/
structure PairSafe (P : PairSet) (S1 S2 : OneSys) : Prop where
  rows1 : ∀ u ∈ S1.cols, ∀ e ∈ u.2, e.1 ∈ S1.states
  rows2 : ∀ u ∈ S2.cols, ∀ e ∈ u.2, e.1 ∈ S2.states
  same : P.sym.inv ≠ .na ∨ P.sym.perm ≠ .na → ∀ s, s ∈ S1.states ↔ s ∈ S2.states
  closed : P.sym.refl ≠ .na → (∀ s ∈ S1.states, s.refl ∈ S1.states) ∧ ∀ s ∈ S2.states, s.refl ∈ S2.states
  range : ∀ ab ∈ P.pairs, ab.1 < S1.cols.length ∧ ab.2 < S2.cols.length
  spin : ∀ s ∈ S1.states, ∀ t ∈ S2.states, s.isArt = false → t.isArt = false → (s.j + t.j) % 2 = 0

theorem allPairs_range {k1 k2 : ℕ} {ab : ℕ × ℕ} (h : ab ∈ allPairs k1 k2) : ab.1 < k1 ∧ ab.2 < k2 := by
  unfold allPairs at h
  simp only [List.mem_flatMap, List.mem_map, List.mem_range] at h
  obtain ⟨a, ha, b, hb, rfl⟩ := h
  exact ⟨ha, hb⟩

theorem PairSafe.used {P : PairSet} {S1 S2 : OneSys} (h : PairSafe P S1 S2) (ab : ℕ × ℕ) (hab : ab ∈ P.usedPairs S1 S2) :
    ab.1 < S1.cols.length ∧ ab.2 < S2.cols.length := by
  unfold PairSet.usedPairs at hab
  by_cases hp : P.pairs = []
  · rw [if_pos hp] at hab; exact allPairs_range hab
  · rw [if_neg hp] at hab; exact h.range ab hab

theorem artCol_false {u : List (AState × ℂ)} (h : artCol u = false) (e : AState × ℂ) (he : e ∈ u) : e.1.isArt = false := by
  unfold artCol at h
  rw [List.any_eq_false] at h
  simpa using h e he

theorem PairSafe.loop {P : PairSet} {S1 S2 : OneSys} (h : PairSafe P S1 S2) :
    ∃ cs, pairLoop P S1 S2 (P.usedPairs S1 S2) = .ok cs := by
  refine ⟨_, pairLoop_eq P S1 S2 _ h.used ?_⟩
  intro ab hab _ ha hb
  obtain ⟨r1, r2⟩ := h.used ab hab
  unfold nanJ
  rw [List.any_eq_false]
  intro e he
  simp only [List.any_eq_true, decide_eq_true_eq, not_exists, not_and, not_not]
  intro e' he'
  exact h.spin _ (h.rows1 _ (col_mem S1 r1) e he) _ (h.rows2 _ (col_mem S2 r2) e' he') (artCol_false ha e he) (artCol_false hb e' he')

theorem local_inv {y : PairSym} {a : Bool} (h : (y.local_ a).inv ≠ .na) : y.inv ≠ .na := by
  unfold PairSym.local_ at h; cases a <;> simp_all
theorem local_perm' {y : PairSym} {a : Bool} (h : (y.local_ a).perm ≠ .na) : y.perm ≠ .na := by
  unfold PairSym.local_ at h; cases a <;> simp_all
theorem local_refl {y : PairSym} {a : Bool} (h : (y.local_ a).refl ≠ .na) : y.refl ≠ .na := by
  unfold PairSym.local_ at h; cases a <;> simp_all
theorem local_swap {y : PairSym} {a : Bool} (h : (y.local_ a).inv ≠ .na ∨ (y.local_ a).perm ≠ .na) : y.inv ≠ .na ∨ y.perm ≠ .na :=
  h.imp local_inv local_perm'

theorem PairSafe.keys {P : PairSet} {S1 S2 : OneSys} (h : PairSafe P S1 S2) {cs : List (ℝ × List PEntry)}
    (hcs : pairLoop P S1 S2 (P.usedPairs S1 S2) = .ok cs) (q : AState × AState) (hq : q ∈ (cs.flatMap (·.2)).map (·.1)) :
    q.1 ∈ S1.states ∧ q.2 ∈ S2.states := by
  rw [List.mem_map] at hq
  obtain ⟨x, hx, rfl⟩ := hq
  rw [List.mem_flatMap] at hx
  obtain ⟨c, hc, hx⟩ := hx
  obtain ⟨ab, _, u, w, f⟩ := pairLoop_mem P S1 S2 _ cs hcs c hc
  rw [f.eq] at hx
  obtain ⟨e1, he1, e2, he2, _, hk⟩ := column_keys _ _ _ _ x.1 (List.mem_map_of_mem hx)
  have m1 := h.rows1 _ (List.mem_of_getElem? f.fst) e1 he1
  have m2 := h.rows2 _ (List.mem_of_getElem? f.snd) e2 he2
  rcases hk with hk | ⟨_, hs, hk⟩ | ⟨hr, hk | ⟨_, hs, hk⟩⟩
  · rw [hk]; exact ⟨m1, m2⟩
  · rw [hk]
    have := h.same (local_swap hs)
    exact ⟨(this _).2 m2, (this _).1 m1⟩
  · rw [hk]
    have := h.closed (local_refl hr)
    exact ⟨this.1 _ m1, this.2 _ m2⟩
  · rw [hk]
    have := h.closed (local_refl hr)
    have hh := h.same (local_swap hs)
    exact ⟨(hh _).2 (this.2 _ m2), (hh _).1 (this.1 _ m1)⟩

theorem pairUser_ne_ub (P : PairSet) (lt : AState → AState → Bool) (E : AState → ℝ) (p : AState × AState) : pairUser P lt E p ≠ .ub := by
  unfold pairUser
  dsimp only
  split_ifs <;> simp

theorem pairUsers_ne_ub (P : PairSet) (lt : AState → AState → Bool) (E : AState → ℝ) (ps : List (AState × AState)) :
    pairUsers P lt E ps ≠ .ub := by
  induction ps with
  | nil => unfold pairUsers; simp
  | cons p ps ih =>
    unfold pairUsers
    cases hp : pairUser P lt E p with
    | ub => exact absurd hp (pairUser_ne_ub P lt E p)
    | throw => simp
    | ok o =>
      cases o with
      | none => exact ih
      | some c =>
        cases hr : pairUsers P lt E ps with
        | ub => exact absurd hr ih
        | throw => simp
        | ok r => simp

theorem pairUsers_keys (P : PairSet) (lt : AState → AState → Bool) (E : AState → ℝ) (us : List (ℝ × List PEntry))
    (h : pairUsers P lt E P.toAdd = .ok us) (q : AState × AState) (hq : q ∈ (us.flatMap (·.2)).map (·.1)) : q ∈ P.toAdd := by
  rw [List.mem_map] at hq
  obtain ⟨x, hx, rfl⟩ := hq
  rw [List.mem_flatMap] at hx
  obtain ⟨c, hc, hx⟩ := hx
  obtain ⟨p, hp, hpu⟩ := pairUsers_mem P lt E _ us h c hc
  obtain ⟨_, _, h3, _, h5⟩ := pairUser_some P lt E p c hpu
  rw [h5] at hx
  by_cases hs : p.1 ≠ p.2 ∧ ((P.sym.local_ (p.1.isArt || p.2.isArt)).inv ≠ .na ∨ (P.sym.local_ (p.1.isArt || p.2.isArt)).perm ≠ .na)
  · rw [if_pos hs] at hx
    simp only [List.mem_cons, List.not_mem_nil, or_false] at hx
    rcases hx with rfl | rfl
    · exact hp
    · exact h3 hs.2 hs.1
  · rw [if_neg hs] at hx
    simp only [List.mem_singleton] at hx
    rw [hx]; exact hp

/-- **C73**: if the one-atom systems satisfy the stated conditions, building the pair basis (any symmetries, any
user-defined states, any threshold) either succeeds or throws; it never writes outside the norm buffer, reads outside a
system or converts a number that is not a number. -/
theorem C73_pair_basis_safe (P : PairSet) (lt : AState → AState → Bool) (E : AState → ℝ) (S1 S2 : OneSys)
    (h : PairSafe P S1 S2) : pairBuild P lt E S1 S2 ≠ .ub := by
  obtain ⟨cs, hcs⟩ := h.loop
  have keys := h.keys hcs
  have len : ∀ es : List PEntry, (∀ q ∈ es.map (·.1), q ∈ (S1.states ×ˢ S2.states) ++ P.toAdd) →
      (statesOf es).length ≤ S1.states.length * S2.states.length + P.toAdd.length := by
    intro es hes
    have nd : (statesOf es).Nodup := nodup_statesOf es
    have sub : statesOf es ⊆ (S1.states ×ˢ S2.states) ++ P.toAdd := fun q hq => hes q ((mem_statesOf es q).1 hq)
    have := (nd.subperm sub).length_le
    rwa [List.length_append, List.length_product] at this
  have k1 : ∀ q ∈ (cs.flatMap (·.2)).map (·.1), q ∈ (S1.states ×ˢ S2.states) ++ P.toAdd := by
    intro q hq
    exact List.mem_append_left _ (List.mem_product.2 (keys q hq))
  unfold pairBuild
  rw [hcs]
  dsimp only
  rw [if_neg (Nat.not_lt.2 (len _ k1))]
  split_ifs with ha
  · simp
  · cases hu : pairUsers P lt E P.toAdd with
    | ub => exact absurd hu (pairUsers_ne_ub P lt E _)
    | throw => simp
    | ok us =>
      dsimp only
      have k2 : ∀ q ∈ ((cs ++ us).flatMap (·.2)).map (·.1), q ∈ (S1.states ×ˢ S2.states) ++ P.toAdd := by
        intro q hq
        rw [List.flatMap_append, List.map_append, List.mem_append] at hq
        rcases hq with hq | hq
        · exact k1 q hq
        · exact List.mem_append_right _ (pairUsers_keys P lt E us hu q hq)
      rw [if_neg (Nat.not_lt.2 (len _ k2))]
      split_ifs <;> simp

theorem exPure_safe (p : Par) : PairSafe (reflSet p 0.05 ("Rb", "Rb")) exPure exPure := by
  refine ⟨?_, ?_, fun _ _ => Iff.rfl, ?_, ?_, ?_⟩
  · intro u hu e he
    unfold exPure at hu ⊢
    simp only [List.mem_cons, List.not_mem_nil, or_false] at hu
    rcases hu with rfl | rfl <;> simp only [List.mem_cons, List.not_mem_nil, or_false] at he <;> subst he <;> simp
  · intro u hu e he
    unfold exPure at hu ⊢
    simp only [List.mem_cons, List.not_mem_nil, or_false] at hu
    rcases hu with rfl | rfl <;> simp only [List.mem_cons, List.not_mem_nil, or_false] at he <;> subst he <;> simp
  · intro _
    have : ∀ s ∈ exPure.states, s.refl ∈ exPure.states := by
      intro s hs
      unfold exPure at hs ⊢
      simp only [List.mem_cons, List.not_mem_nil, or_false] at hs
      rcases hs with rfl | rfl <;> simp [exA, exB, AState.refl]
    exact ⟨this, this⟩
  · intro ab hab; simp [reflSet] at hab
  · intro s hs t ht _ _
    unfold exPure at hs ht
    simp only [List.mem_cons, List.not_mem_nil, or_false] at hs ht
    rcases hs with rfl | rfl <;> rcases ht with rfl | rfl <;> decide

example : pairBuild (reflSet .odd 0.05 ("Rb", "Rb")) (fun _ _ => false) (fun _ => 0) exPure exPure ≠ .ub :=
  C73_pair_basis_safe _ _ _ _ _ (exPure_safe .odd)

/-- A third state. -/
def exC3 : AState := .phys "Rb" 61 0 1 1

/-- Without the conditions there is undefined behaviour: an exchange symmetry for atoms with different states (nothing checks
it) writes behind the end of the norm buffer. -/
theorem C73_exchange_overflow_fails :
    ∃ (S1 S2 : OneSys), UnitarySys S1 ∧ UnitarySys S2 ∧
      pairBuild (permSet .odd 0.05 ("Rb", "Rb")) (fun _ _ => false) (fun _ => 0) S1 S2 = .ub := by
  have hab := exA_ne
  have hba := exA_ne.symm
  have hac : exA ≠ exC3 := by unfold exA exC3; decide
  have hbc : exB ≠ exC3 := by unfold exB exC3; decide
  have hca := hac.symm
  have hcb := hbc.symm
  have hC : UnitarySys ⟨[exC3], [(0, [(exC3, 1)])]⟩ := by
    refine ⟨by simp, ?_, ?_, ?_⟩
    · intro u hu; simp only [List.mem_singleton] at hu; subst hu; simp
    · intro a ha b hb; simp at ha hb; subst ha hb; simp [coef1, OneSys.col]
    · intro s hs t ht; simp only [List.mem_singleton] at hs ht; subst hs ht; simp [coef1, OneSys.col]
  refine ⟨exPure, ⟨[exC3], [(0, [(exC3, 1)])]⟩, exPure_unitary, hC, ?_⟩
  have hd : ∀ p, ¬ (permSet .odd 0.05 ("Rb", "Rb")).sym.drops true p := by
    intro p; simp [PairSym.drops, PairSym.rotExcludes, permSet]
  have hd0 : ∀ p, ¬ (permSet .odd 0.05 ("Rb", "Rb")).sym.drops false p := by
    intro p; simp [PairSym.drops, PairSym.rotExcludes, permSet]
  have hloop : ∃ w : ℂ, ∃ w' : ℂ, pairLoop (permSet .odd 0.05 ("Rb", "Rb")) exPure ⟨[exC3], [(0, [(exC3, 1)])]⟩ [(0, 0), (1, 0)] =
      .ok [(0 + 0, [((exA, exC3), 1 * 1)]), (1 + 0, [((exB, exC3), w), ((exC3, exB), w')])] := by
    refine ⟨(permSet .odd 0.05 ("Rb", "Rb")).sym.scale true (exB, exC3) (1 * 1), (permSet .odd 0.05 ("Rb", "Rb")).sym.scale true (exB, exC3) (1 * 1) * (((permSet .odd 0.05 ("Rb", "Rb")).sym.swapS (exB, exC3) : ℤ) : ℂ), ?_⟩
    rw [pairLoop_eq]
    · have k : ∀ ab ∈ [(0, 0), (1, 0)], keepOf (permSet .odd 0.05 ("Rb", "Rb")) exPure ⟨[exC3], [(0, [(exC3, 1)])]⟩ ab = true := by
        intro ab hab'
        simp only [List.mem_cons, List.not_mem_nil, or_false] at hab'
        rcases hab' with rfl | rfl <;>
          simp [keepOf, permSet, PairSym.local_, PairSym.skips, PairSet.energyOk, artCol, OneSys.col, exPure, exA, exB, exC3, AState.isArt]
      rw [List.filter_eq_self.2 k, List.map_cons, List.map_cons, List.map_nil]
      have c1 : colOf (permSet .odd 0.05 ("Rb", "Rb")) exPure ⟨[exC3], [(0, [(exC3, 1)])]⟩ (0, 0) = (0 + 0, [((exA, exC3), 1 * 1)]) := by
        have : colOf (permSet .odd 0.05 ("Rb", "Rb")) exPure ⟨[exC3], [(0, [(exC3, 1)])]⟩ (0, 0) =
            (0 + 0, pairBody (permSet .odd 0.05 ("Rb", "Rb")).sym false (exA, exC3) (1 * 1) ++ [] ++ []) := rfl
        rw [this, pairBody_plain _ false _ _ (by simp) (hd0 _), if_neg (by simp [permSet])]
        simp [PairSym.scale, permSet]
      have c2 : colOf (permSet .odd 0.05 ("Rb", "Rb")) exPure ⟨[exC3], [(0, [(exC3, 1)])]⟩ (1, 0) =
          (1 + 0, pairBody (permSet .odd 0.05 ("Rb", "Rb")).sym true (exB, exC3) (1 * 1) ++ [] ++ []) := rfl
      rw [c1, c2, pairBody_true _ _ _ (Or.inr (by simp [permSet])) (hd _), if_neg (by simp [permSet])]
      rfl
    · intro ab hab'
      simp only [List.mem_cons, List.not_mem_nil, or_false] at hab'
      rcases hab' with rfl | rfl <;> simp [exPure]
    · intro ab hab' _ _ _
      simp only [List.mem_cons, List.not_mem_nil, or_false] at hab'
      rcases hab' with rfl | rfl <;> simp [nanJ, OneSys.col, exPure, exA, exB, exC3, AState.j]
  obtain ⟨w, w', hl⟩ := hloop
  unfold pairBuild
  rw [show (permSet .odd 0.05 ("Rb", "Rb")).usedPairs exPure ⟨[exC3], [(0, [(exC3, 1)])]⟩ = [(0, 0), (1, 0)] from rfl, hl]
  dsimp only
  rw [if_pos]
  have : statesOf ([((0 : ℝ) + 0, [((exA, exC3), (1 : ℂ) * 1)]), (1 + 0, [((exB, exC3), w), ((exC3, exB), w')])].flatMap (·.2)) =
      [(exA, exC3), (exB, exC3), (exC3, exB)] := by
    simp [statesOf, hab, hba, hac, hbc, hca, hcb]
  rw [this]
  simp [exPure, permSet]

/-- An index outside the one-atom basis (not checked by `setOneAtomBasisvectors`) reads outside of a vector. -/
theorem C73_index_range_fails :
    ∃ (P : PairSet), P.pairs = [(0, 2)] ∧ pairBuild P (fun _ _ => false) (fun _ => 0) exPure exPure = .ub :=
  ⟨⟨⟨.na, .na, .na, none⟩, none, none, [(0, 2)], [], 0.05, ("Rb", "Rb")⟩, rfl, rfl⟩

/-- Two atoms whose total angular momenta do not add up to an integer (an alkali and a singlet strontium atom): the parity
is computed by `std::pow(-1, j1 + j2)`, which is not a number, and converted to an integer, with no symmetry set. -/
theorem C73_mixed_species_fails :
    ∃ (S1 S2 : OneSys) (P : PairSet), UnitarySys S1 ∧ P.sym = ⟨.na, .na, .na, none⟩ ∧ P.species = ("Rb", "Sr1") ∧
      S2 = ⟨[.phys "Sr1" 60 0 0 0], [(0, [(.phys "Sr1" 60 0 0 0, 1)])]⟩ ∧
      pairBuild P (fun _ _ => false) (fun _ => 0) S1 S2 = .ub := by
  refine ⟨exPure, _, ⟨⟨.na, .na, .na, none⟩, none, none, [], [], 0.05, ("Rb", "Sr1")⟩, exPure_unitary, rfl, rfl, rfl, ?_⟩
  have h : ∀ (P : PairSet) (S1 S2 : OneSys), pairLoop P S1 S2 (P.usedPairs S1 S2) = .ub →
      pairBuild P (fun _ _ => false) (fun _ => 0) S1 S2 = .ub := by
    intro P S1 S2 h; unfold pairBuild; rw [h]
  apply h
  rw [show PairSet.usedPairs ⟨⟨.na, .na, .na, none⟩, none, none, [], [], 0.05, ("Rb", "Sr1")⟩ exPure
    ⟨[.phys "Sr1" 60 0 0 0], [(0, [(.phys "Sr1" 60 0 0 0, 1)])]⟩ = [(0, 0), (1, 0)] from rfl]
  unfold pairLoop
  simp [exPure, PairSym.local_, PairSym.skips, PairSet.energyOk, artCol, nanJ, exA, AState.isArt, AState.j]

end PI
