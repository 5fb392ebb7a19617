import Verif.Legacy.KeyPair

/-! # C102: the key of a stored pair matrix determines the matrix -/

namespace PI

/-- Two atoms with the same states are restricted alike. -/
theorem restrict_same (d : Deltas) (init : List Old1) (N : List (Named Old1)) (n : ℕ) (M M' : List (OldOne n)) (a a' : OldAtom)
    (h : OldAtom.restrict d init ⟨N, n, M⟩ = .ok a) (h' : OldAtom.restrict d init ⟨N, n, M'⟩ = .ok a') :
    ∃ (names : List (Named Old1)) (l : List (Fin n)), a = ⟨names, l.length, M.map fun A => A.rows l⟩ ∧ a' = ⟨names, l.length, M'.map fun A => A.rows l⟩ := by
  unfold OldAtom.restrict at h h'
  obtain ⟨mask, h1, h⟩ := Out.bind_ok h
  obtain ⟨mask', h1', h'⟩ := Out.bind_ok h'
  dsimp only at h1 h1' h h'
  have := ok_unique h1 h1'
  subst this
  by_cases hl : mask.length < n
  · rw [if_pos hl] at h; cases h
  rw [if_neg hl] at h h'
  obtain ⟨names, h2, h⟩ := Out.bind_ok h
  obtain ⟨names', h2', h'⟩ := Out.bind_ok h'
  have := ok_unique h2 h2'
  subst this
  injection h with h
  injection h' with h'
  exact ⟨names, _, h.symm, h'.symm⟩

/-- The restricted atoms of two runs that agree in what they are computed from: same states, and the same vectors and energies at the steps with the same fields. -/
theorem atom_same (e : OldEnv) (hU : e.U.um ≠ 0 ∧ e.U.Vcm ≠ 0 ∧ e.U.GHz ≠ 0 ∧ e.U.G ≠ 0) (r r' : OldOneRun) (hs : SameRun r r') (me : Method) (hme : r.method = some me)
    (hb : ∀ a ∈ r.basis.names.map Prod.snd, OldValid a) (ht : NoTinyElements e.U e.J me (String.ofList r.species) (r.states e)) (db db' : OldDb)
    (hdb : DbExact e.U (oldIntegral me (String.ofList r.species) e.J) db) (hdb' : DbExact e.U (oldIntegral me (String.ofList r.species) e.J) db') (H H')
    (hH : r.build e db = .ok H) (hH' : r'.build e db' = .ok H') (i i' : ℕ) (hf : r.scan.fieldsAt i = r'.scan.fieldsAt i') (hi : i < r.scan.nSteps) (hi' : i' < r'.scan.nSteps)
    (d : Deltas) (a a' : OldAtom) (ha : (r.atom e H).restrict d r.basis.init = .ok a) (ha' : (r'.atom e H').restrict d r'.basis.init = .ok a') :
    ∃ (N : List (Named Old1)) (k : ℕ) (M M' : List (OldOne k)) (A : OldOne k), a = ⟨N, k, M⟩ ∧ a' = ⟨N, k, M'⟩ ∧ M[i]? = some A ∧ M'[i']? = some A := by
  have hbs := build_same e hU r r' hs me hme hb ht db db' hdb hdb' H H' hH hH' i i' hf
  obtain ⟨b, c, sp, de, m, s⟩ := r
  obtain ⟨b', c', sp', de', m', s'⟩ := r'
  obtain ⟨h1, h2, h3, h4, h5⟩ := hs
  dsimp only at h1 h2 h3 h4 h5 hme hi hi'
  subst h1 h2 h3 h4 hme
  have hHH : H i = H' i' := eq_of_heq (Sigma.mk.inj hbs).2
  obtain ⟨names, l, g, g'⟩ := restrict_same d b.init (number 0 (OldOneRun.states e ⟨b, c, sp, de, some me, s⟩)) _
    ((List.range s.nSteps).map fun k => e.eig _ (H k)) ((List.range s'.nSteps).map fun k => e.eig _ (H' k)) a a' ha ha'
  refine ⟨names, l.length, _, _, (e.eig _ (H i)).rows l, g, g', ?_, ?_⟩
  · rw [List.getElem?_map, List.getElem?_map, List.getElem?_range hi]; rfl
  · rw [List.getElem?_map, List.getElem?_map, List.getElem?_range hi', hHH]; rfl

theorem row_swap {n : ℕ} (r1 r2 : Fin n) (i : Fin (n * n)) (h : (i : ℕ) = n * r2 + r1) : (r2, r1) = finProdFinEquiv.symm i := (row_inj r2 r1 i).1 h.symm

open Classical in
/-- Exchanged pairs of states of one atom are in the cutoff together. -/
theorem exchange_common {n : ℕ} (s : Fin n → Old1) (A : OldOne n) (steps : List (OldOne n × OldOne n)) (hst : (A, A) ∈ steps) (deltaE : ℝ) (p : Fin A.nb × Fin A.nb) (r1 r2 : Fin n)
    (hc : inCutoff deltaE (A.diag p.1 + A.diag p.2)) (b1 : A.basis r1 p.1 ≠ 0) (b2 : A.basis r2 p.2 ≠ 0) (i : Fin (n * n)) (hi : (i : ℕ) = n * r2 + r1) :
    oldCutoff steps deltaE i = true ∧ (pairState s s i).1.m + (pairState s s i).2.m = (s r1).m + (s r2).m := by
  have h := row_swap r1 r2 i hi
  constructor
  · refine decide_eq_true ?_
    refine ⟨(A, A), hst, p.2, p.1, by rw [add_comm]; exact hc, ?_, ?_⟩
    · rw [← h]; exact b2
    · rw [← h]; exact b1
  · show (s (finProdFinEquiv.symm i).1).m + (s (finProdFinEquiv.symm i).2).m = _
    rw [← h, add_comm]

theorem mem_zip_of_get {α β : Type} {M : List α} {M' : List β} {i : ℕ} {A : α} {B : β} (h : M[i]? = some A) (h' : M'[i]? = some B) : (A, B) ∈ M.zip M' := by
  have : (M.zip M')[i]? = some (A, B) := by rw [List.getElem?_zip_eq_some]; exact ⟨h, h'⟩
  exact List.mem_of_getElem? this

/-- The vectors of the first atom at a step have definite parity. -/
def OldAtom.Definite (a : OldAtom) (i : ℕ) : Prop :=
  ∀ A, a.mats[i]? = some A → ∀ r r' c, A.basis r c ≠ 0 → A.basis r' c ≠ 0 → parityOf (a.state r).l = parityOf (a.state r').l

/-- Two blocks of the same vectors: the necessary states differ at most where the vectors vanish. -/
theorem block_same (U : Units) (c1 c2 : Cells) (sy sy' : OldSymConf) (init : Old1 × Old1) (sym : OldSym) (hr : sym.reflection = none) {n1 n2 : ℕ} (s1 : Fin n1 → Old1)
    (s2 : Fin n2 → Old1) (A : OldOne n1) (B : OldOne n2) (st st' : List (OldOne n1 × OldOne n2)) (hst : (A, B) ∈ st) (hst' : (A, B) ∈ st') (deltaE : ℝ) (ex : ℤ) (R : ℝ)
    (hm : sym ∈ oldSymmetries sy init (List.ofFn (pairState s1 s2))) (hm' : sym ∈ oldSymmetries sy' init (List.ofFn (pairState s1 s2)))
    (hex : ∀ steps : List (OldOne n1 × OldOne n2), (A, B) ∈ steps → (sym.inversion ≠ none ∨ sym.permutation ≠ none) → ∀ (p : Fin A.nb × Fin B.nb) (r1 : Fin n1) (r2 : Fin n2),
      inCutoff deltaE (A.diag p.1 + B.diag p.2) → A.basis r1 p.1 ≠ 0 → B.basis r2 p.2 ≠ 0 → ∀ i : Fin (n1 * n2), (i : ℕ) = n2 * r2 + r1 →
      oldCutoff steps deltaE i = true ∧ (pairState s1 s2 i).1.m + (pairState s1 s2 i).2.m = (s1 r1).m + (s2 r2).m)
    (hpar : sym.inversion ≠ none → sym.permutation ≠ none → sy.sametrafo = sy'.sametrafo ∨
      ∀ cols, oldCombine sym s1 s2 A B deltaE = .ok cols → ∀ col ∈ cols, ∀ i, col.2 i ≠ 0 →
        parityL (pairState s1 s2 i) = (sym.inversion.map OldParity.int).getD 0 * (sym.permutation.map OldParity.int).getD 0) :
    oldBlock U c1 c2 sym s1 s2 A B deltaE (oldNecessary sy (oldSymmetries sy init (List.ofFn (pairState s1 s2))) init (pairState s1 s2) (oldCutoff st deltaE)) ex R =
    oldBlock U c1 c2 sym s1 s2 A B deltaE (oldNecessary sy' (oldSymmetries sy' init (List.ofFn (pairState s1 s2))) init (pairState s1 s2) (oldCutoff st' deltaE)) ex R := by
  refine block_support U c1 c2 sym s1 s2 A B deltaE _ _ ex R fun cols hc col hcol i hi => ?_
  rw [Bool.eq_iff_iff, nec_support sy init s1 s2 A B st hst deltaE sym hr hm (hex st hst) cols hc col hcol i hi,
    nec_support sy' init s1 s2 A B st' hst' deltaE sym hr hm' (hex st' hst') cols hc col hcol i hi]
  have key : ∀ sy : OldSymConf, sym ∈ oldSymmetries sy init (List.ofFn (pairState s1 s2)) →
      (∀ cols, oldCombine sym s1 s2 A B deltaE = .ok cols → ∀ col ∈ cols, ∀ i, col.2 i ≠ 0 →
        parityL (pairState s1 s2 i) = (sym.inversion.map OldParity.int).getD 0 * (sym.permutation.map OldParity.int).getD 0) →
      ¬ (sym.inversion ≠ none ∧ sym.permutation ≠ none ∧ parityL (pairState s1 s2 i) ≠ parityL init ∧ sy.sametrafo = true) := by
    rintro sy hm h ⟨g1, g2, g3, g4⟩
    exact g3 (by rw [h cols hc col hcol i hi, (mem_blocks hm).2.2 g1 g2 g4])
  by_cases g : sym.inversion ≠ none ∧ sym.permutation ≠ none
  · rcases hpar g.1 g.2 with h | h
    · rw [h]
    · exact iff_of_true (key sy hm h) (key sy' hm' h)
  · constructor <;>
    · rintro - ⟨g1, g2, -⟩
      exact g ⟨g1, g2⟩

/-- **C102, pair.** For all configurations, fields, distances, steps and blocks: if the configurations under which two runs store two pair matrices are equal, the
matrices are equal. The runs may differ in the scans of the fields and of the distance, in the number of steps, in the other blocks that were asked for and in the rows of
the databases. `hpar`: the exceptions are blocks of both parities computed with different `sametrafo` from vectors that mix parities (`C102_sametrafo_fails`).
Partial: also without blocks of the reflection (`hr`), and with symmetric blocks of one common basis only (`hex`). -/
theorem C102_pair_partial (P : ConfNum) (hP : P.Lawful) (X : Set ℝ) (hX : Set.InjOn P.putD X) (e : OldEnv) (hU : e.U.um ≠ 0 ∧ e.U.Vcm ≠ 0 ∧ e.U.GHz ≠ 0 ∧ e.U.G ≠ 0)
    (cells : Option Method → String → Cells) (real real' : Bool) (c c' : Config) (same same' : Bool) (p p' : OldPairRun) (hp : oldPairRun P real c same = .ok p)
    (hp' : oldPairRun P real' c' same' = .ok p') (db1 db2 db1' db2' : OldDb) (a a' : OldAtom × OldAtom) (ha : p.atoms e db1 db2 = .ok a) (ha' : p'.atoms e db1' db2' = .ok a')
    (i i' : ℕ) (hi : i < p.one1.scan.nSteps) (hi' : i' < p'.one1.scan.nSteps) (R R' : ℝ) (sym sym' : OldSym) (hm : sym ∈ p.blocks a) (hm' : sym' ∈ p'.blocks a')
    (hR : R ∈ X) (hR' : R' ∈ X) (hf : ∀ z ∈ (p.one1.scan.fieldsAt i).values, z ∈ X) (hf' : ∀ z ∈ (p'.one1.scan.fieldsAt i').values, z ∈ X)
    (hkey : (p.key P i R sym).eqMap (p'.key P i' R' sym')) (me : Method) (hme : p.method = some me)
    (hb : ∀ r ∈ [p.one1, p.one2], ∀ a ∈ r.basis.names.map Prod.snd, OldValid a)
    (ht : ∀ r ∈ [p.one1, p.one2], NoTinyElements e.U e.J me (String.ofList r.species) (r.states e))
    (hdb : ∀ db ∈ [db1, db1'], DbExact e.U (oldIntegral me (String.ofList p.one1.species) e.J) db)
    (hdb2 : ∀ db ∈ [db2, db2'], DbExact e.U (oldIntegral me (String.ofList p.one2.species) e.J) db)
    (hr : sym.reflection = none) (hex : p.same = false → sym.inversion = none ∧ sym.permutation = none)
    (hpar : sym.inversion ≠ none → sym.permutation ≠ none → p.syms.sametrafo = p'.syms.sametrafo ∨ a.1.Definite i) :
    p.block e cells a i R sym = p'.block e cells a' i' R' sym' := by
  obtain ⟨-, x, d, sp, sp2, de, dia, y, f⟩ := pairRun_ok hP hp
  obtain ⟨-, x', d', sp', sp2', de', dia', y', f'⟩ := pairRun_ok hP hp'
  obtain ⟨hs, rfl, rfl, hff⟩ := pairKey_same hP X hX f f' i i' R R' sym sym' hR hR' hf hf' hkey
  have hm1 : p.one1.method = some me := by rw [f.method1, ← f.method, hme]
  have hm2 : p.one2.method = some me := by rw [f.method2, ← f.method, hme]
  have hff2 : p.one2.scan.fieldsAt i = p'.one2.scan.fieldsAt i' := by rw [f.scan, f'.scan, hff]
  unfold OldPairRun.atoms at ha ha'
  obtain ⟨H1, hH1, ha⟩ := Out.bind_ok ha
  obtain ⟨H2, hH2, ha⟩ := Out.bind_ok ha
  obtain ⟨H1', hH1', ha'⟩ := Out.bind_ok ha'
  obtain ⟨H2', hH2', ha'⟩ := Out.bind_ok ha'
  unfold oldRestrictBoth at ha ha'
  obtain ⟨r1, hr1, ha⟩ := Out.bind_ok ha
  obtain ⟨r1', hr1', ha'⟩ := Out.bind_ok ha'
  rw [← hs.d] at hr1'
  obtain ⟨N1, k1, M1, M1', A, rfl, rfl, q1, q1'⟩ := atom_same e hU p.one1 p'.one1 hs.one1 me hm1 (hb _ (by simp)) (ht _ (by simp)) db1 db1' (hdb _ (by simp)) (hdb _ (by simp))
    H1 H1' hH1 hH1' i i' hff hi hi' p.d r1 r1' hr1 hr1'
  unfold OldPairRun.block OldPairRun.blocks
  unfold OldPairRun.blocks at hm hm'
  rw [← hs.one1.species, ← hs.one2.species, ← hs.method, ← hs.deltaE, ← hs.init, ← hs.exponent]
  rw [← hs.init] at hm'
  rw [← hs.same] at ha'
  by_cases hsame : p.same = true
  · rw [if_pos hsame] at ha ha'
    injection ha with ha
    injection ha' with ha'
    subst ha ha'
    dsimp only
    rw [q1, q1']
    refine block_same e.U _ _ p.syms p'.syms p.init sym hr _ _ A A _ _ (mem_zip_of_get q1 q1) (mem_zip_of_get q1' q1') p.deltaE p.exponent R hm hm'
      (fun steps hst _ q r1 r2 => exchange_common _ A steps hst p.deltaE q r1 r2) fun g1 g2 => ?_
    rcases hpar g1 g2 with h | h
    · exact Or.inl h
    · exact Or.inr fun cols hc col hcol j hj => parity_support sym hr _ A p.deltaE g1 g2 (h A q1) cols hc col hcol j hj
  · rw [if_neg hsame] at ha ha'
    obtain ⟨r2, hr2, ha⟩ := Out.bind_ok ha
    obtain ⟨r2', hr2', ha'⟩ := Out.bind_ok ha'
    rw [← hs.d] at hr2'
    injection ha with ha
    injection ha' with ha'
    obtain ⟨N2, k2, M2, M2', B, rfl, rfl, q2, q2'⟩ := atom_same e hU p.one2 p'.one2 hs.one2 me hm2 (hb _ (by simp)) (ht _ (by simp)) db2 db2' (hdb2 _ (by simp))
      (hdb2 _ (by simp)) H2 H2' hH2 hH2' i i' hff2 (by rw [f.scan]; exact hi) (by rw [f'.scan]; exact hi') p.d r2 r2' hr2 hr2'
    subst ha ha'
    dsimp only
    rw [q1, q1', q2, q2']
    have hno := hex (by simpa using hsame)
    exact block_same e.U _ _ p.syms p'.syms p.init sym hr _ _ A B _ _ (mem_zip_of_get q1 q2) (mem_zip_of_get q1' q2') p.deltaE p.exponent R hm hm'
      (fun _ _ hor => absurd hor (by simp [hno])) fun g1 => absurd hno.1 g1

end PI
