import Verif.Pair.Select
import Verif.Pair.BasisEx
import Mathlib.Tactic.FinCases

/-! # C100: complete product basis, histories, and where the code violates the claim -/

namespace PI

/-! ## The selection -/

/-- **C100.** A selection is refused if and only if it contains a pair twice; a refused selection changes nothing, an accepted one replaces the earlier one. -/
theorem C100_selection (e : PairEnv) (refine : PairBasis → Option ℝ → Option ℝ → Out PairBasis) (o : PairObj) (l : List (ℕ × ℕ)) :
    (l.Nodup → o.step e refine (.choose l) = (.ok (), { o with sel := l })) ∧ (¬ l.Nodup → o.step e refine (.choose l) = (.throw, o)) := by
  constructor
  · intro h
    show (if selectionRefused l = true then _ else _) = _
    rw [if_neg (fun h' => (selectionRefused_iff l).1 h' h)]
  · intro h
    show (if selectionRefused l = true then _ else _) = _
    rw [if_pos ((selectionRefused_iff l).2 h)]

/-- A selection with a repeated pair, not adjacent, is refused. -/
example (e : PairEnv) (refine : PairBasis → Option ℝ → Option ℝ → Out PairBasis) :
    (PairObj.fresh.step e refine (.choose [(0, 1), (2, 0), (0, 1)])).1 = .throw ∧
      (PairObj.fresh.step e refine (.choose [(0, 1), (2, 0), (1, 0)])).2.sel = [(0, 1), (2, 0), (1, 0)] :=
  ⟨by rw [(C100_selection e refine _ _).2 (by decide)], by rw [(C100_selection e refine _ _).1 (by decide)]⟩

theorem step_get (e : PairEnv) (refine : PairBasis → Option ℝ → Option ℝ → Out PairBasis) (o : PairObj) : o.step e refine .get = o.get e refine := rfl

open Classical in
theorem pairsInside_none (sel : List (ℕ × ℕ)) (S1 S2 : OneSys) : pairsInside none none sel S1 S2 = pairsOf sel S1 S2 := by
  unfold pairsInside
  rw [List.filter_eq_self]
  intro ab _
  rw [decide_eq_true_iff]
  constructor <;> (intro _ h; cases h)

/-! ## All pairs -/

theorem UnitarySys.normed {S : OneSys} (h : UnitarySys S) : NormedSys S := by
  refine ⟨h.nodup, h.rows, fun a ha => ?_⟩
  have := h.ortho a ha a ha
  rw [if_pos rfl] at this
  simp_rw [← Complex.normSq_eq_conj_mul_self, ← Complex.ofReal_sum] at this
  exact_mod_cast this

/-- **C100.** For complete one-atom bases, without restrictions, selection, symmetries and user-defined states: the pair basis holds every pair of states once, one
basis vector for every pair of one-atom basis vectors with exactly the products of the coefficients; the basis is orthonormal and complete. -/
theorem C100_complete (P : PairSet) (lt : AState → AState → Bool) (E : AState → ℝ) (S1 S2 : OneSys) (u1 : UnitarySys S1) (u2 : UnitarySys S2)
    (hn1 : S1.states ≠ []) (hn2 : S2.states ≠ [])
    (spin : ∀ s ∈ S1.states, ∀ t ∈ S2.states, s.isArt = false → t.isArt = false → (s.j + t.j) % 2 = 0) (hs : P.sym = .trivial) (hp : P.pairs = [])
    (ha : P.toAdd = []) (he : P.energyMin = none ∧ P.energyMax = none) (h0 : 0 ≤ P.thr) (h1 : P.thr < 1) :
    ∃ B, pairBuild P lt E S1 S2 = .ok B ∧ B.states.Nodup ∧ (∀ p, p ∈ B.states ↔ p.1 ∈ S1.states ∧ p.2 ∈ S2.states) ∧
      B.cols.length = S1.cols.length * S2.cols.length ∧
      (∀ a < S1.cols.length, ∀ b < S2.cols.length,
        B.cols[a * S2.cols.length + b]? = some ((S1.col a).1 + (S2.col b).1, fun p => coef1 (S1.col a).2 p.1 * coef1 (S2.col b).2 p.2)) ∧
      (∀ p ∈ B.states, ∀ q ∈ B.states, (B.cols.map fun c => (starRingEnd ℂ) (c.2 p) * c.2 q).sum = if p = q then 1 else 0) := by
  have hsel : SelOk P.pairs S1 S2 := ⟨u1.normed, u2.normed, by rw [hp]; simp, spin⟩
  have hK : pairsInside P.energyMin P.energyMax P.pairs S1 S2 = allPairs S1.cols.length S2.cols.length := by
    rw [he.1, he.2, pairsInside_none]
    unfold pairsOf
    rw [if_pos hp]
  have hall : ∀ (R : Type) [AddCommMonoid R] (f : ℕ × ℕ → R), ((allPairs S1.cols.length S2.cols.length).map f).sum =
      ∑ a ∈ Finset.range S1.cols.length, ∑ b ∈ Finset.range S2.cols.length, f (a, b) := by
    intro R _ f
    have := sum_allPairs S1.cols.length S2.cols.length (fun _ => true) f
    rw [List.filter_true] at this
    simpa using this
  have hocc : ∀ p : AState × AState, occurs S1 S2 (allPairs S1.cols.length S2.cols.length) p = if p.1 ∈ S1.states ∧ p.2 ∈ S2.states then 1 else 0 := by
    intro p
    unfold occurs prodVec
    rw [hall]
    simp_rw [Complex.normSq_mul]
    rw [← Finset.sum_mul_sum]
    by_cases p1 : p.1 ∈ S1.states
    · by_cases p2 : p.2 ∈ S2.states
      · rw [row_weight S1 u1 _ p1, row_weight S2 u2 _ p2, if_pos ⟨p1, p2⟩, one_mul]
      · rw [if_neg (fun h => p2 h.2)]
        simp_rw [coef1_zero_of_not_mem S2 u2 _ _ p2]
        simp
    · rw [if_neg (fun h => p1 h.1)]
      simp_rw [coef1_zero_of_not_mem S1 u1 _ _ p1]
      simp
  obtain ⟨B, hB, hnd, hst, hc⟩ := (C100_products P lt E S1 S2 hsel hs ha h0 h1).2 (by
    obtain ⟨s, s1⟩ := List.exists_mem_of_ne_nil _ hn1
    obtain ⟨t, t1⟩ := List.exists_mem_of_ne_nil _ hn2
    refine ⟨(s, t), ?_⟩
    rw [hK, hocc, if_pos ⟨s1, t1⟩]
    exact h1)
  rw [hK] at hst hc
  have hst' : ∀ p, p ∈ B.states ↔ p.1 ∈ S1.states ∧ p.2 ∈ S2.states := by
    intro p
    rw [hst, hocc]
    by_cases h : p.1 ∈ S1.states ∧ p.2 ∈ S2.states
    · rw [if_pos h]; exact ⟨fun _ => h, fun _ => h1⟩
    · rw [if_neg h]; exact ⟨fun h' => absurd h' (not_lt.2 h0), fun h' => absurd h' h⟩
  have hfun : ∀ ab : ℕ × ℕ, (fun p => if p ∈ B.states then prodVec S1 S2 ab p else 0) = prodVec S1 S2 ab := by
    intro ab
    funext p
    by_cases h : p ∈ B.states
    · rw [if_pos h]
    · rw [if_neg h]
      rw [hst', not_and_or] at h
      unfold prodVec
      rcases h with h | h
      · rw [coef1_zero_of_not_mem S1 u1 _ _ h, zero_mul]
      · rw [coef1_zero_of_not_mem S2 u2 _ _ h, mul_zero]
  simp_rw [hfun] at hc
  have hlen : ∀ k1 k2, (allPairs k1 k2).length = k1 * k2 := by
    intro k1 k2
    unfold allPairs
    rw [List.length_flatMap]
    simp
  have hget : ∀ k1 k2 a b, a < k1 → b < k2 → (allPairs k1 k2)[a * k2 + b]? = some (a, b) := by
    intro k1 k2 a b h1 h2
    induction k1 with
    | zero => omega
    | succ k ih =>
      have e : allPairs (k + 1) k2 = allPairs k k2 ++ (List.range k2).map fun b => (k, b) := by
        unfold allPairs
        rw [List.range_succ, List.flatMap_append]
        simp
      rw [e]
      by_cases h : a < k
      · rw [List.getElem?_append_left, ih h]
        rw [hlen]
        calc a * k2 + b < a * k2 + k2 := by omega
          _ = (a + 1) * k2 := by ring
          _ ≤ k * k2 := Nat.mul_le_mul_right _ h
      · have : a = k := by omega
        subst this
        rw [List.getElem?_append_right (by rw [hlen]; omega), hlen, show a * k2 + b - a * k2 = b by omega, List.getElem?_map, List.getElem?_range h2]
        rfl
  refine ⟨B, hB, hnd, hst', ?_, ?_, ?_⟩
  · rw [hc, List.length_map, hlen]
  · intro a h1 b h2
    rw [hc, List.getElem?_map, hget _ _ _ _ h1 h2]
    rfl
  · intro p p1 q q1
    rw [hst'] at p1 q1
    rw [hc, List.map_map, hall]
    have : ∀ a b, ((fun c : ℝ × (AState × AState → ℂ) => (starRingEnd ℂ) (c.2 p) * c.2 q) ∘ fun ab : ℕ × ℕ => ((S1.col ab.1).1 + (S2.col ab.2).1, prodVec S1 S2 ab)) (a, b) =
        ((starRingEnd ℂ) (coef1 (S1.col a).2 p.1) * coef1 (S1.col a).2 q.1) * ((starRingEnd ℂ) (coef1 (S2.col b).2 p.2) * coef1 (S2.col b).2 q.2) := by
      intro a b
      rw [Function.comp_apply]
      unfold prodVec
      dsimp only
      rw [map_mul]
      ring
    simp_rw [this]
    rw [← Finset.sum_mul_sum, u1.complete _ p1.1 _ q1.1, u2.complete _ p1.2 _ q1.2]
    by_cases h : p = q
    · rw [if_pos h, if_pos (by rw [h]), if_pos (by rw [h]), one_mul]
    · rw [if_neg h]
      by_cases h1 : p.1 = q.1
      · rw [if_neg (c := p.2 = q.2) (fun h2 => h (Prod.ext h1 h2)), mul_zero]
      · rw [if_neg h1, zero_mul]

/-- Settings without symmetries. -/
def plainPair (sel : List (ℕ × ℕ)) (emin emax : Option ℝ) : PairSet := ⟨.trivial, emin, emax, sel, [], 0.05, ("Rb", "Rb")⟩

theorem ex_spin : ∀ s ∈ exMixed.states, ∀ t ∈ exPure.states, s.isArt = false → t.isArt = false → (s.j + t.j) % 2 = 0 := by
  intro s hs t ht _ _
  simp only [exMixed, exPure, List.mem_cons, List.not_mem_nil, or_false] at hs ht
  rcases hs with rfl | rfl <;> rcases ht with rfl | rfl <;> decide

/-- A mixed and an unmixed system. -/
example : ∃ B, pairBuild (plainPair [] none none) (fun _ _ => false) (fun _ => 0) exMixed exPure = .ok B ∧ B.cols.length = 4 := by
  obtain ⟨B, h, -, -, h2, -⟩ := C100_complete (plainPair [] none none) (fun _ _ => false) (fun _ => 0) exMixed exPure exMixed_unitary exPure_unitary
    (by simp [exMixed]) (by simp [exPure]) ex_spin rfl rfl rfl ⟨rfl, rfl⟩ (by norm_num [plainPair]) (by norm_num [plainPair])
  exact ⟨B, h, h2⟩

/-! ## Histories -/

/-- Specification: the last accepted selection of a history. -/
def lastSelection : List PairCall → List (ℕ × ℕ) → List (ℕ × ℕ)
  | [], d => d
  | .choose l :: h, d => lastSelection h (if l.Nodup then l else d)
  | _ :: h, d => lastSelection h d

/-- Specification: the last energy window of a history. -/
def lastWindow : List PairCall → Option ℝ × Option ℝ → Option ℝ × Option ℝ
  | [], d => d
  | .window a b :: h, _ => lastWindow h (a, b)
  | _ :: h, d => lastWindow h d

/-- Is the call a getter? -/
def PairCall.isGet : PairCall → Bool
  | .get => true
  | _ => false

/-- Does the call set an energy window? -/
def PairCall.isWindow : PairCall → Bool
  | .window _ _ => true
  | _ => false

theorem prun_cons (e : PairEnv) (refine : PairBasis → Option ℝ → Option ℝ → Out PairBasis) (o : PairObj) (x : PairCall) (xs : List PairCall) :
    (o.run e refine (x :: xs)).2 = ((o.step e refine x).2.run e refine xs).2 := rfl

theorem prun_append (e : PairEnv) (refine : PairBasis → Option ℝ → Option ℝ → Out PairBasis) (o : PairObj) (xs ys : List PairCall) :
    (o.run e refine (xs ++ ys)).2 = ((o.run e refine xs).2.run e refine ys).2 := by
  induction xs generalizing o with
  | nil => rfl
  | cons x xs ih => rw [List.cons_append, prun_cons, ih, prun_cons]

theorem setters_run (e : PairEnv) (refine : PairBasis → Option ℝ → Option ℝ → Out PairBasis) (h : List PairCall) (hh : ∀ x ∈ h, x.isGet = false) (o : PairObj) :
    (o.run e refine h).2 = ⟨lastSelection h o.sel, (lastWindow h (o.emin, o.emax)).1, (lastWindow h (o.emin, o.emax)).2, o.phase⟩ := by
  induction h generalizing o with
  | nil => rfl
  | cons x h ih =>
    rw [prun_cons, ih (fun y hy => hh y (List.mem_cons_of_mem _ hy))]
    cases x with
    | get => exact absurd (hh _ List.mem_cons_self) (by simp [PairCall.isGet])
    | window a b => rfl
    | choose l =>
      by_cases hl : l.Nodup
      · rw [(C100_selection e refine o l).1 hl]
        simp only [lastSelection, lastWindow, if_pos hl]
      · rw [(C100_selection e refine o l).2 hl]
        simp only [lastSelection, lastWindow, if_neg hl]

theorem built_run (e : PairEnv) (refine : PairBasis → Option ℝ → Option ℝ → Out PairBasis) (h : List PairCall) (hh : ∀ x ∈ h, x.isWindow = false) (o : PairObj)
    (B : PairBasis) (hp : o.phase = .built B) (hw : o.emin = none ∧ o.emax = none) : (o.run e refine h).2.phase = .built B := by
  induction h generalizing o with
  | nil => exact hp
  | cons x h ih =>
    rw [prun_cons]
    have ih := ih (fun y hy => hh y (List.mem_cons_of_mem _ hy))
    cases x with
    | window a b => exact absurd (hh _ List.mem_cons_self) (by simp [PairCall.isWindow])
    | get =>
      have : o.step e refine .get = (.ok (), o) := by
        show o.get e refine = _
        unfold PairObj.get
        rw [hp]
        dsimp only
        rw [if_pos hw]
      rw [this]
      exact ih o hp hw
    | choose l =>
      by_cases hl : l.Nodup
      · rw [(C100_selection e refine o l).1 hl]
        exact ih _ hp hw
      · rw [(C100_selection e refine o l).2 hl]
        exact ih o hp hw

/-- **C100.** For all histories: the first getter builds the basis of the last accepted selection and the last energy window (what that basis is: `C100_products`); later
getters and selections do not change it. -/
theorem C100_history (e : PairEnv) (refine : PairBasis → Option ℝ → Option ℝ → Out PairBasis) (h h' : List PairCall) (hh : ∀ x ∈ h, x.isGet = false)
    (hh' : ∀ x ∈ h', x.isWindow = false) (B : PairBasis)
    (hB : pairBuild ⟨e.sym, (lastWindow h (none, none)).1, (lastWindow h (none, none)).2, lastSelection h [], [], e.thr, e.species⟩ (fun _ _ => false) (fun _ => 0)
      e.S1 e.S2 = .ok B) :
    (PairObj.fresh.run e refine (h ++ .get :: h')).2.phase = .built B := by
  rw [prun_append, setters_run e refine h hh, prun_cons]
  have : (PairObj.mk (lastSelection h PairObj.fresh.sel) (lastWindow h (PairObj.fresh.emin, PairObj.fresh.emax)).1
      (lastWindow h (PairObj.fresh.emin, PairObj.fresh.emax)).2 PairObj.fresh.phase).step e refine .get =
      (.ok (), ⟨lastSelection h [], none, none, .built B⟩) := by
    rw [step_get]
    unfold PairObj.get PairObj.settings
    dsimp only [PairObj.fresh]
    rw [hB]
  rw [this]
  exact built_run e refine h' hh' _ B rfl ⟨rfl, rfl⟩

/-- The example systems without symmetries. -/
noncomputable def exPairEnv : PairEnv := ⟨exMixed, exPure, .trivial, 0.05, ("Rb", "Rb")⟩

theorem exSel_ok (sel : List (ℕ × ℕ)) (h : ∀ ab ∈ sel, ab.1 < 2 ∧ ab.2 < 2) : SelOk sel exMixed exPure :=
  ⟨exMixed_unitary.normed, exPure_unitary.normed, h, ex_spin⟩

theorem exSel_one : occurs exMixed exPure (pairsInside none none [(1, 0)] exMixed exPure) (exA, exA) = 16 / 25 := by
  have : pairsInside none none [(1, 0)] exMixed exPure = [(1, 0)] := by
    rw [pairsInside_none]
    unfold pairsOf
    rw [if_neg (by simp)]
  rw [this]
  have hba := exA_ne.symm
  simp [occurs, prodVec, coef1, OneSys.col, exMixed, exPure, hba, Complex.normSq_apply]
  norm_num

/-- One pair is chosen, after a refused selection: one basis vector. -/
example (refine : PairBasis → Option ℝ → Option ℝ → Out PairBasis) :
    ∃ B, (PairObj.fresh.run exPairEnv refine ([.choose [(0, 0)], .choose [(1, 0)], .choose [(1, 1), (1, 1)]] ++ .get :: [.get])).2.phase = .built B ∧
      B.cols.length = 1 := by
  obtain ⟨B, h1, h2, h3, h4⟩ := (C100_products (plainPair [(1, 0)] none none) (fun _ _ => false) (fun _ => 0) exMixed exPure (exSel_ok _ (by simp [plainPair])) rfl rfl
    (by norm_num [plainPair]) (by norm_num [plainPair])).2 ⟨(exA, exA), by
      show _ < occurs exMixed exPure (pairsInside none none [(1, 0)] exMixed exPure) (exA, exA)
      rw [exSel_one]; norm_num [plainPair]⟩
  refine ⟨B, C100_history exPairEnv refine _ _ (by simp [PairCall.isGet]) (by simp [PairCall.isWindow]) B h1, ?_⟩
  rw [h4, List.length_map]
  show (pairsInside none none [(1, 0)] exMixed exPure).length = 1
  rw [pairsInside_none]
  rfl

/-! ## Where the claim is false of the code -/

theorem inconsistent_run (e : PairEnv) (refine : PairBasis → Option ℝ → Option ℝ → Out PairBasis) (h : List PairCall) (o : PairObj) (hp : o.phase = .inconsistent) :
    (o.run e refine h).2.phase = .inconsistent := by
  induction h generalizing o with
  | nil => exact hp
  | cons x h ih =>
    rw [prun_cons]
    cases x with
    | window a b => exact ih _ hp
    | get =>
      have : o.step e refine .get = (.throw, o) := by
        show o.get e refine = _
        unfold PairObj.get
        rw [hp]
      rw [this]
      exact ih o hp
    | choose l =>
      by_cases hl : l.Nodup
      · rw [(C100_selection e refine o l).1 hl]; exact ih _ hp
      · rw [(C100_selection e refine o l).2 hl]; exact ih o hp

/-- **C100, violated: strongly mixed vectors.** If in the products of the chosen vectors no pair state reaches the threshold (0.05), although there are chosen vectors, the
getter throws, and after it every getter throws, whatever is chosen later. -/
theorem C100_mixed_selection (e : PairEnv) (refine : PairBasis → Option ℝ → Option ℝ → Out PairBasis) (sel : List (ℕ × ℕ)) (h : SelOk sel e.S1 e.S2) (hd : sel.Nodup)
    (hne : sel ≠ []) (hs : e.sym = .trivial) (h0 : 0 ≤ e.thr) (h1 : e.thr < 1) (hocc : ∀ p, occurs e.S1 e.S2 sel p ≤ e.thr) (hist : List PairCall) :
    ((PairObj.fresh.run e refine (.choose sel :: .get :: hist)).2.step e refine .get).1 = .throw := by
  have hK : pairsInside none none sel e.S1 e.S2 = sel := by
    rw [pairsInside_none]
    unfold pairsOf
    rw [if_neg hne]
  have hP : (PairObj.mk sel none none .empty).settings e = ⟨e.sym, none, none, sel, [], e.thr, e.species⟩ := rfl
  have hb := (C100_products ⟨e.sym, none, none, sel, [], e.thr, e.species⟩ (fun _ _ => false) (fun _ => 0) e.S1 e.S2 h hs rfl h0 h1).1 (by
    dsimp only; rw [hK]; exact hocc)
  have hl := sel_loop ⟨e.sym, none, none, sel, [], e.thr, e.species⟩ e.S1 e.S2 hs h
  have hpr := sel_prune ⟨e.sym, none, none, sel, [], e.thr, e.species⟩ e.S1 e.S2 hs h h1 sel (fun ab hab => by unfold pairsOf; rw [if_neg hne]; exact hab)
  have hm := sel_mem ⟨e.sym, none, none, sel, [], e.thr, e.species⟩ e.S1 e.S2 hs h h0 sel (fun ab hab => by unfold pairsOf; rw [if_neg hne]; exact hab)
  dsimp only at hb hl hpr hm
  rw [hK] at hl
  have hstep : (PairObj.mk sel none none .empty).step e refine .get = (.throw, ⟨sel, none, none, .inconsistent⟩) := by
    rw [step_get]
    unfold PairObj.get
    dsimp only
    rw [hP, hb]
    dsimp only
    rw [hl]
    dsimp only
    unfold phaseAfter
    rw [if_neg]
    rw [hpr]
    dsimp only
    intro hiff
    have : sel.map _ = [] := hiff.2 (by
      rw [List.eq_nil_iff_forall_not_mem]
      intro p hp
      rw [hm] at hp
      exact absurd hp (not_lt.2 (hocc p)))
    rw [List.map_eq_nil_iff] at this
    exact hne this
  rw [prun_cons, prun_cons, (C100_selection e refine _ _).1 hd]
  show ((((PairObj.mk sel none none .empty).step e refine .get).2.run e refine hist).2.step e refine .get).1 = _
  rw [hstep]
  have := inconsistent_run e refine hist ⟨sel, none, none, .inconsistent⟩ rfl
  rw [step_get]
  unfold PairObj.get
  rw [this]

end PI
