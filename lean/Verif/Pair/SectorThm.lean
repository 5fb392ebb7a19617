import Verif.Pair.Sector

/-!
# Symmetry sectors of a pair system: theorems
-/

namespace PI

open Matrix

/-- Settings without symmetries. -/
def plainSet (thr : ℝ) (sp : String × String) : PairSet := ⟨.trivial, none, none, [], [], thr, sp⟩

/-- One-atom states of one species with physical quantum numbers. -/
def SameAtoms (S : OneSys) : Prop := ∃ (sp : String) (s : ℤ), ∀ x ∈ S.states, ∃ a, x.qn = some a ∧ a.Physical ∧ a.species = sp ∧ a.s = s

theorem qn_l {x : AState} {a : QN} (h : x.qn = some a) : a.l = x.l ∧ a.j = x.j ∧ a.m = x.m ∧ x.isArt = false := by
  unfold AState.qn at h
  split at h
  · split at h
    · obtain rfl := Option.some.inj h
      exact ⟨rfl, rfl, rfl, rfl⟩
    · cases h
  · cases h

theorem SameAtoms.pair {S : OneSys} (h : SameAtoms S) {x : AState × AState} (hx : x ∈ S.sq) :
    ∃ a : QN × QN, qnPair x = some a ∧ x.1.qn = some a.1 ∧ x.2.qn = some a.2 := by
  obtain ⟨sp, s, h⟩ := h
  unfold OneSys.sq at hx
  rw [Finset.mem_product, List.mem_toFinset, List.mem_toFinset] at hx
  obtain ⟨a, ha, -⟩ := h _ hx.1
  obtain ⟨b, hb, -⟩ := h _ hx.2
  exact ⟨(a, b), by unfold qnPair; rw [ha, hb], ha, hb⟩

theorem SameAtoms.phys {S : OneSys} (h : SameAtoms S) : ∃ (sp : String) (s : ℤ), ∀ x ∈ S.sq, ∀ a, qnPair x = some a →
    (a.1.Physical ∧ a.1.species = sp ∧ a.1.s = s) ∧ (a.2.Physical ∧ a.2.species = sp ∧ a.2.s = s) := by
  have h' := h
  obtain ⟨sp, s, h⟩ := h
  refine ⟨sp, s, fun x hx a ha => ?_⟩
  obtain ⟨a', e, e1, e2⟩ := h'.pair hx
  rw [ha] at e
  obtain rfl := Option.some.inj e
  unfold OneSys.sq at hx
  rw [Finset.mem_product, List.mem_toFinset, List.mem_toFinset] at hx
  obtain ⟨c, hc, hc'⟩ := h _ hx.1
  obtain ⟨d, hd, hd'⟩ := h _ hx.2
  rw [e1] at hc
  rw [e2] at hd
  obtain rfl := Option.some.inj hc
  obtain rfl := Option.some.inj hd
  exact ⟨hc', hd'⟩

theorem SameAtoms.ok {S : OneSys} (h : SameAtoms S) {x y : AState × AState} (hx : x ∈ S.sq) (hy : y ∈ S.sq) {a b : QN × QN} (ha : qnPair x = some a)
    (hb : qnPair y = some b) : PairOK a b ∧ PairOK a.swap b.swap := by
  obtain ⟨sp, s, h⟩ := h.phys
  obtain ⟨⟨a1, a2, a3⟩, a4, a5, a6⟩ := h x hx a ha
  obtain ⟨⟨b1, b2, b3⟩, b4, b5, b6⟩ := h y hy b hb
  exact ⟨⟨a1, a4, b1, b4, a2.trans b2.symm, a3.trans b3.symm, a5.trans b5.symm, a6.trans b6.symm⟩,
    ⟨a4, a1, b4, b1, a5.trans b5.symm, a6.trans b6.symm, a2.trans b2.symm, a3.trans b3.symm⟩⟩

theorem SameAtoms.good {S : OneSys} (h : SameAtoms S) (B : PairBasis) (hs : ∀ x ∈ B.states, x ∈ S.sq) : GoodPairs B.st := by
  intro i a ha
  have hi := hs _ (List.get_mem B.states i)
  obtain ⟨sp, s, h⟩ := h.phys
  obtain ⟨⟨a1, a2, a3⟩, a4, a5, a6⟩ := h _ hi a ha
  refine ⟨a1, a4, fun j b hb => ?_⟩
  obtain ⟨⟨b1, b2, b3⟩, b4, b5, b6⟩ := h _ (hs _ (List.get_mem B.states j)) b hb
  exact ⟨a2.trans b2.symm, a3.trans b3.symm, a5.trans b5.symm, a6.trans b6.symm⟩

theorem SameAtoms.spin {S : OneSys} (h : SameAtoms S) : ∀ s ∈ S.states, ∀ t ∈ S.states, (s.j + t.j) % 2 = 0 := by
  obtain ⟨sp, s0, h⟩ := h
  intro s hs t ht
  obtain ⟨a, ha, pa, -, ea⟩ := h s hs
  obtain ⟨b, hb, pb, -, eb⟩ := h t ht
  have ja := (qn_l ha).2.1
  have jb := (qn_l hb).2.1
  have := pa.2.2.2.2.1
  have := pb.2.2.2.2.1
  omega

theorem SameAtoms.noArt {S : OneSys} (h : SameAtoms S) (hS : UnitarySys S) : NoArt S := by
  obtain ⟨sp, s0, h⟩ := h
  intro u hu e he
  obtain ⟨a, ha, -⟩ := h _ ((hS.rows u hu).2 e he)
  exact (qn_l ha).2.2.2

/-! ## The whole system -/

theorem plain_charpoly (C : FieldConsts) (radial : RadKey → ℝ) (me : Method) (S : OneSys) (A : PairBasis) (p : PairParams) (F : QN × QN → QN × QN → ℂ)
    (hF : pairH C radial me A.st p = fullPairs A.st F) (hn : A.states.Nodup) (hst : ∀ x ∈ A.states, x ∈ S.sq)
    (h0 : ∀ c ∈ A.cols, ∀ x, x ∉ A.states → c.2 x = 0) (hl : A.cols.length = S.cols.length * S.cols.length)
    (hc : ∀ a < S.cols.length, ∀ b < S.cols.length,
      A.cols[a * S.cols.length + b]? = some ((S.col a).1 + (S.col b).1, fun p => coef1 (S.col a).2 p.1 * coef1 (S.col b).2 p.2)) :
    (A.hamiltonian C radial me p).charpoly = (subMat (prodH S (elemOf F) : Fin S.cols.length × Fin S.cols.length → _ → ℂ) fun _ => True).charpoly := by
  classical
  let E : Fin A.cols.length ≃ {q : Fin S.cols.length × Fin S.cols.length // True} :=
    ((finCongr hl).trans finProdFinEquiv.symm).trans (Equiv.subtypeUnivEquiv (fun _ => trivial)).symm
  rw [← Matrix.charpoly_reindex E]
  congr 1
  ext q r
  rw [reindex_apply, submatrix_apply, hamiltonian_entry C radial me S A p F hF hn hst h0]
  have hget : ∀ q : {q : Fin S.cols.length × Fin S.cols.length // True}, A.cols.get (E.symm q) = ((S.col q.1.1).1 + (S.col q.1.2).1, prodOf S q.1) := by
    intro q
    have hv : (E.symm q).val = q.1.1 * S.cols.length + q.1.2 := by
      show (finProdFinEquiv q.1).val = _
      rw [finProdFinEquiv_apply_val]
      ring
    have := hc q.1.1 q.1.1.2 q.1.2 q.1.2.2
    rw [← hv, List.getElem?_eq_getElem (E.symm q).2] at this
    exact Option.some.inj this
  rw [hget, hget]
  unfold subMat prodH
  congr 1
  by_cases hqr : q = r
  · rw [if_pos (by rw [hqr]), if_pos (by rw [hqr])]
  · rw [if_neg (fun h => hqr (E.symm.injective h)), if_neg (fun h => hqr (Subtype.ext h))]

/-! ## Exchange of the atoms -/

theorem sq_swap (S : OneSys) (x : AState × AState) : x.swap ∈ S.sq ↔ x ∈ S.sq := by
  unfold OneSys.sq
  rw [Finset.mem_product, Finset.mem_product]
  exact and_comm

theorem sum_sq_swap (S : OneSys) (g : AState × AState → ℂ) : ∑ x ∈ S.sq, g x.swap = ∑ x ∈ S.sq, g x :=
  Finset.sum_equiv (Equiv.prodComm _ _) (fun x => (sq_swap S x).symm) fun _ _ => rfl

theorem prodH_swap {k : ℕ} (S : OneSys) (f : AState × AState → AState × AState → ℂ) (s : Fin k × Fin k → ℂ) (hs : PairSign s) (ε : AState × AState → ℂ)
    (hf : ∀ x ∈ S.sq, ∀ y ∈ S.sq, f x.swap y.swap = ε x * ε y * f x y) (hε : ∀ p x, prodOf S p x ≠ 0 → ε x = s p) (p q : Fin k × Fin k) :
    prodH S f p.swap q.swap = s p * s q * prodH S f p q := by
  unfold prodH
  rw [mul_add]
  congr 1
  · by_cases h : p = q
    · rw [if_pos (by rw [h]), if_pos h, h]
      have : s q * s q = 1 := by rcases hs.one q with h | h <;> rw [h] <;> norm_num
      rw [this, one_mul]
      dsimp only [Prod.fst_swap, Prod.snd_swap]
      rw [add_comm]
    · rw [if_neg (fun h' => h (Prod.swap_injective h')), if_neg h, mul_zero]
  · have sw : ∀ (p : Fin k × Fin k) x, prodOf S p.swap x.swap = prodOf S p x := fun p x => mul_comm _ _
    unfold between
    rw [← sum_sq_swap S]
    rw [Finset.mul_sum]
    refine Finset.sum_congr rfl fun x hx => ?_
    rw [← sum_sq_swap S, Finset.mul_sum]
    refine Finset.sum_congr rfl fun y hy => ?_
    rw [sw, sw, hf x hx y hy]
    by_cases h1 : prodOf S p x = 0
    · rw [h1]; simp
    · by_cases h2 : prodOf S q y = 0
      · rw [h2]; simp
      · rw [hε p x h1, hε q y h2]; ring

/-- The system without symmetry. -/
theorem plain_build (S : OneSys) (hS : UnitarySys S) (hk : 2 ≤ S.cols.length) (h1s : SameAtoms S) (thr : ℝ) (h0 : 0 ≤ thr) (h1 : thr < 1) (sp : String × String)
    (lt : AState → AState → Bool) (E : AState → ℝ) :
    ∃ A, pairBuild (plainSet thr sp) lt E S S = .ok A ∧ A.states.Nodup ∧ (∀ x, x ∈ A.states ↔ x ∈ S.sq) ∧ (∀ c ∈ A.cols, ∀ x, x ∉ A.states → c.2 x = 0) ∧
      A.cols.length = S.cols.length * S.cols.length ∧ ∀ a < S.cols.length, ∀ b < S.cols.length,
      A.cols[a * S.cols.length + b]? = some ((S.col a).1 + (S.col b).1, fun p => coef1 (S.col a).2 p.1 * coef1 (S.col b).2 p.2) := by
  have hne : S.states ≠ [] := by
    intro h
    have := hS.ortho 0 (by omega) 0 (by omega)
    rw [h] at this
    simp at this
  obtain ⟨A, a1, a2, a3, a4, a5, -⟩ := C100_complete (plainSet thr sp) lt E S S hS hS hne hne (fun s hs t ht _ _ => h1s.spin s hs t ht)
    rfl rfl rfl ⟨rfl, rfl⟩ h0 h1
  have asq : ∀ x, x ∈ A.states ↔ x ∈ S.sq := by
    intro x
    unfold OneSys.sq
    rw [Finset.mem_product, List.mem_toFinset, List.mem_toFinset]
    exact a3 x
  have acol : ∀ c ∈ A.cols, ∃ a b : ℕ, c.2 = fun p => coef1 (S.col a).2 p.1 * coef1 (S.col b).2 p.2 := by
    intro c hc
    obtain ⟨n, hn, rfl⟩ := List.getElem_of_mem hc
    have hn' := hn
    rw [a4] at hn'
    have hpos : 0 < S.cols.length := by omega
    have := a5 (n / S.cols.length) (Nat.div_lt_of_lt_mul hn') (n % S.cols.length) (Nat.mod_lt _ hpos)
    rw [mul_comm, Nat.div_add_mod, List.getElem?_eq_getElem hn] at this
    rw [Option.some.inj this]
    exact ⟨_, _, rfl⟩
  have a0 : ∀ c ∈ A.cols, ∀ x, x ∉ A.states → c.2 x = 0 := by
    intro c hc x hx
    obtain ⟨a, b, e⟩ := acol c hc
    rw [e]
    dsimp only
    by_cases x1 : x.1 ∈ S.states
    · have x2 : x.2 ∉ S.states := fun h => hx ((a3 x).2 ⟨x1, h⟩)
      rw [coef1_zero_of_not_mem S hS b x.2 x2, mul_zero]
    · rw [coef1_zero_of_not_mem S hS a x.1 x1, zero_mul]
  exact ⟨A, a1, a2, asq, a0, a4, a5⟩

/-- The sectors of an exchange symmetry. -/
theorem sectors_split (C : FieldConsts) (radial : RadKey → ℝ) (me : Method) (S : OneSys) (hS : UnitarySys S) (hk : 2 ≤ S.cols.length) (h1s : SameAtoms S)
    (p : PairParams) (F : QN × QN → QN × QN → ℂ) (hF : ∀ B : PairBasis, (∀ x ∈ B.states, x ∈ S.sq) → pairH C radial me B.st p = fullPairs B.st F)
    (ε : AState × AState → ℂ) (hf : ∀ x ∈ S.sq, ∀ y ∈ S.sq, elemOf F x.swap y.swap = ε x * ε y * elemOf F x y)
    (s : Fin S.cols.length × Fin S.cols.length → ℂ) (hs : PairSign s) (hε : ∀ p x, prodOf S p x ≠ 0 → ε x = s p)
    (PA PE PO : PairSet) (thr : ℝ) (h0 : 0 ≤ thr) (h1 : thr < 1) (sp : String × String) (hA : PA = plainSet thr sp)
    (sgE sgO : ℕ → ℕ → ℤ) (hE : SwapSet PE S sgE) (hO : SwapSet PO S sgO) (dE : PE.sym.diag = false) (dO : PO.sym.diag = true)
    (eE : ∀ p : Fin S.cols.length × Fin S.cols.length, -1 * s p = (sgE p.1 p.2 : ℂ)) (eO : ∀ p : Fin S.cols.length × Fin S.cols.length, 1 * s p = (sgO p.1 p.2 : ℂ))
    (lt : AState → AState → Bool) (E : AState → ℝ) :
    ∃ A B D, pairBuild PA lt E S S = .ok A ∧ pairBuild PE lt E S S = .ok B ∧ pairBuild PO lt E S S = .ok D ∧
      (A.hamiltonian C radial me p).charpoly = (B.hamiltonian C radial me p).charpoly * (D.hamiltonian C radial me p).charpoly := by
  classical
  obtain ⟨A, a1, a2, asq', a0, a4, a5⟩ := plain_build S hS hk h1s thr h0 h1 sp lt E
  have asq : ∀ x ∈ A.states, x ∈ S.sq := fun x hx => (asq' x).1 hx
  rw [← hA] at a1
  obtain ⟨B, b1, b2, b3, b4, b5⟩ := hE.build hS lt E (swapPairs_ne _ _ hk)
  obtain ⟨D, d1, d2, d3, d4, d5⟩ := hO.build hS lt E (swapPairs_ne _ _ hk)
  refine ⟨A, B, D, a1, b1, d1, ?_⟩
  rw [plain_charpoly C radial me S A p F (hF A asq) a2 asq a0 a4 a5,
    pair_split (fun _ => True) (fun _ _ => trivial) s hs _ fun p q _ _ => prodH_swap S (elemOf F) s hs ε hf hε p q]
  rw [sector_charpoly C radial me S B p F (hF B b3) b2 b3 b5 false sgE (by rw [b4, dE]) s hs (-1) (Or.inr ⟨rfl, rfl⟩) eE (fun p => True ∧ p.2 < p.1) (by simp),
    sector_charpoly C radial me S D p F (hF D d3) d2 d3 d5 true sgO (by rw [d4, dO]) s hs 1 (Or.inl ⟨rfl, rfl⟩) eO (fun p => True ∧ p.2 ≤ p.1) (by
      intro p
      rw [le_iff_lt_or_eq]
      simp [eq_comm])]
  simp only [neg_mul, one_mul]


/-! ## The interactions under the exchange of the atoms -/

theorem qnPair_swap (x : AState × AState) : qnPair x.swap = (qnPair x).map Prod.swap := by
  unfold qnPair
  dsimp only [Prod.fst_swap, Prod.snd_swap]
  cases x.1.qn <;> cases x.2.qn <;> rfl

/-- If the operator behaves under the exchange of the atoms like the signs of the states, so do its elements between the pair states. -/
theorem elemOf_swap (S : OneSys) (h1 : SameAtoms S) (F : QN × QN → QN × QN → ℂ) (ε : AState × AState → ℂ) (η : QN × QN → ℂ)
    (hη : ∀ x ∈ S.sq, ∀ a, qnPair x = some a → ε x = η a)
    (hF : ∀ a b, PairOK a b → PairOK a.swap b.swap → F a.swap b.swap = η a * η b * F a b) :
    ∀ x ∈ S.sq, ∀ y ∈ S.sq, elemOf F x.swap y.swap = ε x * ε y * elemOf F x y := by
  intro x hx y hy
  obtain ⟨a, ha, -⟩ := h1.pair hx
  obtain ⟨b, hb, -⟩ := h1.pair hy
  obtain ⟨k1, k2⟩ := h1.ok hx hy ha hb
  unfold elemOf
  rw [qnPair_swap, qnPair_swap, ha, hb]
  dsimp only [Option.map_some]
  rw [hF a b k1 k2, hη x hx a ha, hη y hy b hb]

theorem dipoleDipole_swap (k x y z : ℝ) (D1 D2 : Fin 3 → ℂ) : dipoleDipole k x y z D2 D1 = dipoleDipole k x y z D1 D2 := by
  unfold dipoleDipole
  ring

theorem ddPairSpec_swap (C : FieldConsts) (radial : RadKey → ℝ) (me : Method) (p : PairParams) (a b : QN × QN) :
    ddPairSpec C radial me p a.swap b.swap = ddPairSpec C radial me p a b := dipoleDipole_swap _ _ _ _ _ _

theorem elem_parity (C : FieldConsts) (radial : RadKey → ℝ) (me : Method) (a b : QN) (ha : a.Physical) (hb : b.Physical) (hs : a.species = b.species)
    (hss : a.s = b.s) (k : ℕ) (h : elem C radial me k a b ≠ 0) : ((k : ℤ) + a.l + b.l) % 2 = 0 := by
  by_contra hc
  refine h (elem_zero C radial me a b ha hb hs hss k (Int.natCast_nonneg k) (sel_parity a b k ?_))
  rw [Int.tmod_eq_emod_of_nonneg (Int.natCast_nonneg k), Int.tmod_eq_emod_of_nonneg (abs_nonneg _)]
  rcases abs_cases (a.l - b.l) with ⟨h1, -⟩ | ⟨h1, -⟩ <;> rw [h1] <;> omega

theorem multipoleTerm_swap (C : FieldConsts) (radial : RadKey → ℝ) (me : Method) (k1 k2 : ℕ) (a b : QN × QN) (ok : PairOK a b)
    (hm : a.1.m + a.2.m = b.1.m + b.2.m) :
    multipoleTerm C radial me k1 k2 a.swap b.swap = sgnZ (a.1.l + a.2.l) * sgnZ (b.1.l + b.2.l) * multipoleTerm C radial me k2 k1 a b := by
  have d1 := mDiff_spec a.1 b.1 ok.a1 ok.b1 ok.s1
  have d2 := mDiff_spec a.2 b.2 ok.a2 ok.b2 ok.s2
  have hq2 : mDiff a.2 b.2 = -mDiff a.1 b.1 := by omega
  unfold multipoleTerm
  dsimp only [Prod.fst_swap, Prod.snd_swap]
  rw [mDiff_div a.1 b.1 ok.a1 ok.b1 ok.s1, mDiff_div a.2 b.2 ok.a2 ok.b2 ok.s2]
  by_cases z1 : elem C radial me k2 a.1 b.1 = 0
  · rw [z1]; ring
  by_cases z2 : elem C radial me k1 a.2 b.2 = 0
  · rw [z2]; ring
  have p1 := elem_parity C radial me a.1 b.1 ok.a1 ok.b1 ok.sp1 ok.s1 k2 z1
  have p2 := elem_parity C radial me a.2 b.2 ok.a2 ok.b2 ok.sp2 ok.s2 k1 z2
  have m1 : |mDiff a.1 b.1| ≤ (k2 : ℤ) := by
    by_contra hc
    exact z1 (elem_m C radial me a.1 b.1 ok.a1 ok.b1 ok.sp1 ok.s1 k2 (by positivity) hc)
  have m2 : |mDiff a.2 b.2| ≤ (k1 : ℤ) := by
    by_contra hc
    exact z2 (elem_m C radial me a.2 b.2 ok.a2 ok.b2 ok.sp2 ok.s2 k1 (by positivity) hc)
  rw [hq2] at m2 ⊢
  rw [abs_neg] at m2
  rw [abs_le] at m1 m2
  set q := mDiff a.1 b.1
  have c1 : (k1 + k2).choose ((k1 : ℤ) + -q).toNat = (k2 + k1).choose ((k2 : ℤ) + q).toNat := by
    rw [add_comm k1 k2, ← Nat.choose_symm (by omega)]
    congr 1; omega
  have c2 : (k1 + k2).choose ((k2 : ℤ) + -q).toNat = (k2 + k1).choose ((k1 : ℤ) + q).toNat := by
    rw [add_comm k1 k2, ← Nat.choose_symm (by omega)]
    congr 1; omega
  rw [c1, c2]
  have sg : ((-1 : ℝ)) ^ k2 = sgnZ (a.1.l + a.2.l) * sgnZ (b.1.l + b.2.l) * (-1) ^ k1 := by
    have e : ∀ k : ℕ, ((-1 : ℝ)) ^ k = (sgnZ (k : ℤ) : ℝ) := by
      intro k
      unfold sgnZ
      split_ifs with h
      · rw [Even.neg_one_pow (by rw [Nat.even_iff]; omega)]; simp
      · rw [Odd.neg_one_pow (by rw [Nat.odd_iff]; omega)]; simp
    rw [e, e]
    unfold sgnZ
    split_ifs <;> first | (exfalso; omega) | norm_num
  rw [sg]
  ring

theorem multipoleSpecPair_swap (C : FieldConsts) (radial : RadKey → ℝ) (me : Method) (o : ℕ) (a b : QN × QN) (ok : PairOK a b) :
    multipoleSpecPair C radial me o a.swap b.swap = sgnZ (a.1.l + a.2.l) * sgnZ (b.1.l + b.2.l) * multipoleSpecPair C radial me o a b := by
  unfold multipoleSpecPair
  dsimp only [Prod.fst_swap, Prod.snd_swap]
  by_cases hm : a.1.m + a.2.m = b.1.m + b.2.m
  · rw [if_pos hm, if_pos (by omega), Finset.mul_sum, ← Finset.sum_range_reflect]
    refine Finset.sum_congr rfl fun i hi => ?_
    rw [Finset.mem_range] at hi
    rw [multipoleTerm_swap C radial me _ _ a b ok hm, show o - 2 - 1 - i + 1 = o - 2 - i by omega, show o - 2 - (o - 2 - 1 - i) = i + 1 by omega]
  · rw [if_neg hm, if_neg (by omega), mul_zero]

/-- The multipole interaction along z. -/
noncomputable def axisSpec (C : FieldConsts) (radial : RadKey → ℝ) (me : Method) (p : PairParams) (a b : QN × QN) : ℂ :=
  ((∑ o ∈ Finset.Icc 3 p.order, 1 / p.dist ^ o * multipoleSpecPair C radial me o a b : ℝ) : ℂ)

theorem axisSpec_swap (C : FieldConsts) (radial : RadKey → ℝ) (me : Method) (p : PairParams) (a b : QN × QN) (ok : PairOK a b) :
    axisSpec C radial me p a.swap b.swap = sgnZ (a.1.l + a.2.l) * sgnZ (b.1.l + b.2.l) * axisSpec C radial me p a b := by
  unfold axisSpec
  have : ∀ u v : ℤ, ∀ r : ℝ, (sgnZ u : ℂ) * (sgnZ v : ℂ) * ((r : ℝ) : ℂ) = ((sgnZ u * sgnZ v * r : ℝ) : ℂ) := by intros; push_cast; ring
  rw [this, Finset.mul_sum]
  congr 1
  refine Finset.sum_congr rfl fun o _ => ?_
  rw [multipoleSpecPair_swap C radial me o a b ok]
  ring

theorem dd_inversion (C : FieldConsts) (radial : RadKey → ℝ) (me : Method) (p : PairParams) (a b : QN × QN) (ok : PairOK a b) :
    ddPairSpec C radial me p a.swap b.swap = sgnZ (a.1.l + a.2.l) * sgnZ (b.1.l + b.2.l) * ddPairSpec C radial me p a b := by
  rw [ddPairSpec_swap]
  by_cases z1 : elem C radial me 1 a.1 b.1 = 0
  · unfold ddPairSpec; rw [dip_zero z1, dipoleDipole_zero1]; ring
  by_cases z2 : elem C radial me 1 a.2 b.2 = 0
  · unfold ddPairSpec; rw [dip_zero z2, dipoleDipole_zero2]; ring
  have p1 := elem_parity C radial me a.1 b.1 ok.a1 ok.b1 ok.sp1 ok.s1 1 (by exact_mod_cast z1)
  have p2 := elem_parity C radial me a.2 b.2 ok.a2 ok.b2 ok.sp2 ok.s2 1 (by exact_mod_cast z2)
  have : (sgnZ (a.1.l + a.2.l) : ℂ) * (sgnZ (b.1.l + b.2.l) : ℂ) = 1 := by
    unfold sgnZ
    push_cast at p1 p2
    split_ifs <;> first | (exfalso; omega) | norm_num
  rw [this, one_mul]

theorem axis_pairH (C : FieldConsts) (radial : RadKey → ℝ) (me : Method) {N : ℕ} (st : Fin N → Option (QN × QN)) (hst : GoodPairs st) (p : PairParams) (h : OnAxis p) :
    pairH C radial me st p = fullPairs st (axisSpec C radial me p) := by
  ext r c
  exact (C44_multipole_operator C radial me st hst p h r c).trans (by unfold fullPairs axisSpec; cases st r <;> cases st c <;> rfl)

/-! ## C109 -/

/-- **C109.** Permutation symmetry: for every complete basis of one species (with any fields), every distance vector and each of the three ways to calculate the dipole-dipole
interaction, the systems of the two permutation sectors together have the eigenvalues (with multiplicities) of the system without symmetry. -/
theorem C109_permutation (C : FieldConsts) (radial : RadKey → ℝ) (me : Method) (S : OneSys) (hS : UnitarySys S) (hk : 2 ≤ S.cols.length) (h1s : SameAtoms S)
    (p : PairParams) (hp : DipoleSettings p) (thr : ℝ) (h0 : 0 ≤ thr) (h1 : thr < 1 / 4) (sp : String × String) (lt : AState → AState → Bool) (E : AState → ℝ) :
    ∃ A B D, pairBuild (plainSet thr sp) lt E S S = .ok A ∧ pairBuild (permSet .even thr sp) lt E S S = .ok B ∧
      pairBuild (permSet .odd thr sp) lt E S S = .ok D ∧
      (A.hamiltonian C radial me p).charpoly = (B.hamiltonian C radial me p).charpoly * (D.hamiltonian C radial me p).charpoly := by
  refine sectors_split C radial me S hS hk h1s p (ddPairSpec C radial me p) (fun B hB => hp.pairH C radial me B.st (h1s.good B hB)) (fun _ => 1)
    (elemOf_swap S h1s _ _ (fun _ => 1) (fun _ _ _ _ => rfl) fun a b _ _ => by rw [ddPairSpec_swap]; ring)
    (fun _ => 1) ⟨fun _ => Or.inl rfl, fun _ => rfl, fun _ _ => rfl⟩ (fun _ _ _ => rfl) _ _ _ thr h0 (by linarith) sp rfl _ _
    (permSet_swap .even (by decide) thr h0 h1 sp S h1s.spin) (permSet_swap .odd (by decide) thr h0 h1 sp S h1s.spin) rfl rfl ?_ ?_ lt E
  · intro p; simp
  · intro p; simp

theorem parity_cols (S : OneSys) (par : ℕ → ℤ) (hpar : ∀ a < S.cols.length, ∀ e ∈ (S.col a).2, (e.1.l - par a) % 2 = 0)
    (q : Fin S.cols.length × Fin S.cols.length) (x : AState × AState) (h : prodOf S q x ≠ 0) :
    (sgnZ (x.1.l + x.2.l) : ℂ) = (sgnZ (par q.1 + par q.2) : ℂ) := by
  have ml : ∀ (a : Fin S.cols.length) (y : AState), coef1 (S.col a).2 y ≠ 0 → (y.l - par a) % 2 = 0 := by
    intro a y hy
    by_contra hc
    refine hy (coef1_of_not_mem _ _ fun hm => hc ?_)
    obtain ⟨e, he, rfl⟩ := List.mem_map.1 hm
    exact hpar a a.2 e he
  unfold prodOf at h
  have l1 := ml q.1 x.1 (fun h' => h (by rw [h', zero_mul]))
  have l2 := ml q.2 x.2 (fun h' => h (by rw [h', mul_zero]))
  congr 1
  unfold sgnZ
  split_ifs <;> first | rfl | (exfalso; omega)

/-- **C109.** Inversion symmetry: for every complete basis of one species whose vectors have a definite parity, and for atoms along z with any order of the multipole expansion
or any distance vector with the dipole-dipole interaction, the systems of the two inversion sectors together have the eigenvalues (with multiplicities) of the
system without symmetry. -/
theorem C109_inversion (C : FieldConsts) (radial : RadKey → ℝ) (me : Method) (S : OneSys) (hS : UnitarySys S) (hk : 2 ≤ S.cols.length) (h1s : SameAtoms S)
    (par : ℕ → ℤ) (hpar : ∀ a < S.cols.length, ∀ e ∈ (S.col a).2, (e.1.l - par a) % 2 = 0)
    (p : PairParams) (hp : OnAxis p ∨ DipoleSettings p) (thr : ℝ) (h0 : 0 ≤ thr) (h1 : thr < 1 / 4) (sp : String × String) (lt : AState → AState → Bool)
    (E : AState → ℝ) :
    ∃ A B D, pairBuild (plainSet thr sp) lt E S S = .ok A ∧ pairBuild (invSet .even thr sp) lt E S S = .ok B ∧
      pairBuild (invSet .odd thr sp) lt E S S = .ok D ∧
      (A.hamiltonian C radial me p).charpoly = (B.hamiltonian C radial me p).charpoly * (D.hamiltonian C radial me p).charpoly := by
  have ha := h1s.noArt hS
  have hη : ∀ x ∈ S.sq, ∀ a, qnPair x = some a → (sgnZ (x.1.l + x.2.l) : ℂ) = (sgnZ (a.1.l + a.2.l) : ℂ) := by
    intro x hx a ha
    obtain ⟨a', e, e1, e2⟩ := h1s.pair hx
    rw [ha] at e
    obtain rfl := Option.some.inj e
    rw [(qn_l e1).1, (qn_l e2).1]
  have hs : PairSign (k := S.cols.length) fun q => (sgnZ (par q.1 + par q.2) : ℂ) := by
    refine ⟨fun q => ?_, fun q => ?_, fun q h => ?_⟩
    · unfold sgnZ; split_ifs <;> simp
    · dsimp only [Prod.fst_swap, Prod.snd_swap]; rw [add_comm]
    · rw [h]; unfold sgnZ; rw [if_pos (by omega)]; simp
  have main : ∀ F : QN × QN → QN × QN → ℂ, (∀ B : PairBasis, (∀ x ∈ B.states, x ∈ S.sq) → pairH C radial me B.st p = fullPairs B.st F) →
      (∀ a b, PairOK a b → PairOK a.swap b.swap → F a.swap b.swap = sgnZ (a.1.l + a.2.l) * sgnZ (b.1.l + b.2.l) * F a b) → _ := fun F hF hsw =>
    sectors_split C radial me S hS hk h1s p F hF (fun x => (sgnZ (x.1.l + x.2.l) : ℂ))
      (elemOf_swap S h1s F _ (fun a => (sgnZ (a.1.l + a.2.l) : ℂ)) hη hsw)
      (fun q => (sgnZ (par q.1 + par q.2) : ℂ)) hs (fun q x h => parity_cols S par hpar q x h) _ _ _ thr h0 (by linarith) sp rfl _ _
      (invSet_swap .even (by decide) thr h0 h1 sp S ha par hpar h1s.spin) (invSet_swap .odd (by decide) thr h0 h1 sp S ha par hpar h1s.spin) rfl rfl
      (by intro p; push_cast; simp) (by intro p; push_cast; simp) lt E
  rcases hp with hp | hp
  · exact main _ (fun B hB => axis_pairH C radial me B.st (h1s.good B hB) p hp) fun a b ok _ => axisSpec_swap C radial me p a b ok
  · exact main _ (fun B hB => hp.pairH C radial me B.st (h1s.good B hB)) fun a b ok _ => dd_inversion C radial me p a b ok

end PI
