import Verif.Legacy.Key
import Verif.Legacy.KeyNec
import Verif.Legacy.Restrict

/-! # C102: the key of a stored pair matrix determines the matrix -/

namespace PI

/-- The strings stand in the configuration. -/
def BaseStr.From (x : BaseStr) (c : Config) : Prop :=
  c.at "deltaNSingle" = .ok x.sn ∧ c.at "deltaLSingle" = .ok x.sl ∧ c.at "deltaJSingle" = .ok x.sj ∧ c.at "deltaMSingle" = .ok x.sm ∧ c.at "missingCalc" = .ok x.mc ∧
    c.at "missingWhittaker" = .ok x.mw

theorem BaseStr.From.unique {x x' : BaseStr} {c : Config} (h : x.From c) (h' : x'.From c) : x = x' := by
  obtain ⟨a1, a2, a3, a4, a5, a6⟩ := h
  obtain ⟨b1, b2, b3, b4, b5, b6⟩ := h'
  rw [a1] at b1; rw [a2] at b2; rw [a3] at b3; rw [a4] at b4; rw [a5] at b5; rw [a6] at b6
  injection b1; injection b2; injection b3; injection b4; injection b5; injection b6
  cases x; cases x'; simp_all

/-- How a basis comes about, for each choice of atoms. -/
theorem make_from {P : ConfNum} {c : Config} {a : OldAtoms} {b : OldBasisOne} (h : OldBasisOne.make P c a = .ok b) :
    ∃ (x : BaseStr) (d : Deltas) (sp : Str), x.From c ∧ x.Reads P d ∧ (if a = .both then ∃ s t, b = .double P x.conf d s t sp else ∃ s, b = .single P x.conf d s sp) := by
  cases a with
  | first =>
    obtain ⟨s, -, h⟩ := Out.bind_ok h
    obtain ⟨y, h2, h⟩ := Out.bind_ok h
    obtain ⟨sp, -, h⟩ := Out.bind_ok h
    injection h with h
    obtain ⟨x, e, r, g⟩ := configure_ok h2
    exact ⟨x, y.2, sp, g, r, by rw [if_neg (by simp)]; exact ⟨s, by rw [← h, e]⟩⟩
  | second =>
    obtain ⟨s, -, h⟩ := Out.bind_ok h
    obtain ⟨y, h2, h⟩ := Out.bind_ok h
    obtain ⟨sp, -, h⟩ := Out.bind_ok h
    injection h with h
    obtain ⟨x, e, r, g⟩ := configure_ok h2
    exact ⟨x, y.2, sp, g, r, by rw [if_neg (by simp)]; exact ⟨s, by rw [← h, e]⟩⟩
  | both =>
    obtain ⟨s, -, h⟩ := Out.bind_ok h
    obtain ⟨t, -, h⟩ := Out.bind_ok h
    obtain ⟨sp, -, h⟩ := Out.bind_ok h
    obtain ⟨sp2, -, h⟩ := Out.bind_ok h
    by_cases hs : sp ≠ sp2
    · rw [if_pos hs] at h; cases h
    · rw [if_neg hs] at h
      obtain ⟨y, h2, h⟩ := Out.bind_ok h
      injection h with h
      obtain ⟨x, e, r, g⟩ := configure_ok h2
      exact ⟨x, y.2, sp, g, r, by rw [if_pos rfl]; exact ⟨_, _, by rw [← h, e]⟩⟩

/-- What a run has from the configuration whichever atom is meant. -/
structure FromConf (P : ConfNum) (real : Bool) (c : Config) (r : OldOneRun) (x : BaseStr) (de dia : Str) : Prop where
  from_ : x.From c
  atDe : c.at "deltaESingle" = .ok de
  atDia : c.at "diamagnetism" = .ok dia
  scan : ∃ minB minE maxB maxE steps, readVec P c "minBx" "minBy" "minBz" = .ok minB ∧ readVec P c "minEx" "minEy" "minEz" = .ok minE ∧
    readVec P c "maxBx" "maxBy" "maxBz" = .ok maxB ∧ readVec P c "maxEx" "maxEy" "maxEz" = .ok maxE ∧
    (open Classical in if minB = maxB ∧ minE = maxE then Out.ok 1 else c.at "steps" >>= P.stoul) = .ok steps ∧
    r.scan = ⟨real, minE, maxE, minB, maxB, decide (dia = "true".toList), steps⟩

theorem run_from {P : ConfNum} {real : Bool} {c : Config} {a : OldAtoms} {r : OldOneRun} (h : oldOneRun P real c a = .ok r) :
    ∃ x d sp de dia, RunFacts P real r x d sp de dia ∧ FromConf P real c r x de dia ∧
      (if a = .both then ∃ s t, r.basis = .double P x.conf d s t sp else ∃ s, r.basis = .single P x.conf d s sp) := by
  obtain ⟨x0, d0, sp0, de0, dia0, f⟩ := run_ok h
  unfold oldOneRun at h
  obtain ⟨b, h1, h⟩ := Out.bind_ok h
  obtain ⟨de, g1, h⟩ := Out.bind_ok h
  obtain ⟨dia, g2, h⟩ := Out.bind_ok h
  obtain ⟨E, h2, h⟩ := Out.bind_ok h
  obtain ⟨sp, h3, h⟩ := Out.bind_ok h
  obtain ⟨minB, g3, h⟩ := Out.bind_ok h
  obtain ⟨minE, g4, h⟩ := Out.bind_ok h
  obtain ⟨maxB, g5, h⟩ := Out.bind_ok h
  obtain ⟨maxE, g6, h⟩ := Out.bind_ok h
  obtain ⟨steps, g7, h⟩ := Out.bind_ok h
  obtain ⟨me, h4, h⟩ := Out.bind_ok h
  injection h with h
  obtain ⟨x, d, sp', hf, hr, hb⟩ := make_from h1
  have hb' : (∃ s, b = .single P x.conf d s sp') ∨ ∃ s t, b = .double P x.conf d s t sp' := by
    by_cases ha : a = .both
    · rw [if_pos ha] at hb; exact Or.inr hb
    · rw [if_neg ha] at hb; exact Or.inl hb
  have hsp : sp = sp' := by
    rcases hb' with ⟨s, rfl⟩ | ⟨s, t, rfl⟩ <;>
    · simp only [OldBasisOne.single, OldBasisOne.double, at_put] at h3
      simpa using h3.symm
  refine ⟨x, d, sp, de, dia, ⟨hr, ?_, ?_, ?_, ?_, ?_, ?_, ?_⟩, ⟨hf, g1, g2, ?_⟩, ?_⟩
  · rw [← h, hsp]; exact hb'
  · rw [← h]
  · rw [← h]
  · rw [← h]; exact h2
  · rw [← h]
    refine method_of h4 _ _ ?_ ?_ <;>
    · rcases hb' with ⟨s, rfl⟩ | ⟨s, t, rfl⟩ <;>
      · simp only [OldBasisOne.single, OldBasisOne.double, BaseStr.conf, at_put]
        simp
  · rw [← h]
  · rw [← h]
  · exact ⟨minB, minE, maxB, maxE, steps, g3, g4, g5, g6, g7, by rw [← h]⟩
  · rw [← h, hsp]; exact hb

theorem FromConf.same {P : ConfNum} {real : Bool} {c : Config} {r r' : OldOneRun} {x x' : BaseStr} {de de' dia dia' : Str} (h : FromConf P real c r x de dia)
    (h' : FromConf P real c r' x' de' dia') : x = x' ∧ de = de' ∧ dia = dia' ∧ r.scan = r'.scan := by
  have e1 := h.from_.unique h'.from_
  have e2 : de = de' := by have := h.atDe; rw [h'.atDe] at this; injection this with this; exact this.symm
  have e3 : dia = dia' := by have := h.atDia; rw [h'.atDia] at this; injection this with this; exact this.symm
  refine ⟨e1, e2, e3, ?_⟩
  obtain ⟨b, e, b', e', s, g1, g2, g3, g4, g5, g6⟩ := h.scan
  obtain ⟨c, f, c', f', t, k1, k2, k3, k4, k5, k6⟩ := h'.scan
  rw [g1] at k1; rw [g2] at k2; rw [g3] at k3; rw [g4] at k4
  injection k1 with k1; injection k2 with k2; injection k3 with k3; injection k4 with k4
  subst k1 k2 k3 k4
  rw [g5] at k5
  injection k5 with k5
  rw [g6, k6, e3, k5]

/-- The strings of the settings of a pair calculation. -/
structure PairStr where
  sE : Str
  sn : Str
  sl : Str
  sj : Str
  sm : Str
  sx : Str

/-- The configuration of a pair calculation. -/
def pairConf (P : ConfNum) (same : Bool) (x : BaseStr) (sp sp2 : Str) (s t : Old1) (y : PairStr) : Config :=
  ((((((((((((((((x.conf.put "combined" (P.putI (if same then 1 else 0))).put "species1" sp).put "n1" (P.putI s.n)).put "l1" (P.putI s.l)).put "j1" (P.putF s.j)).put "m1"
      (P.putF s.m)).put "species2" sp2).put "n2" (P.putI t.n)).put "l2" (P.putI t.l)).put "j2" (P.putF t.j)).put "m2" (P.putF t.m)).put "deltaEPair" y.sE).put "deltaNPair"
      y.sn).put "deltaLPair" y.sl).put "deltaJPair" y.sj).put "deltaMPair" y.sm).put "exponent" y.sx

/-- How the members of a pair run come about. -/
structure PairFacts (P : ConfNum) (p : OldPairRun) (x : BaseStr) (d : Deltas) (sp sp2 de dia : Str) (y : PairStr) : Prop where
  reads : x.Reads P d
  basis1 : p.one1.basis = if p.same = true then .double P x.conf d p.init.1 p.init.2 sp else .single P x.conf d p.init.1 sp
  basis2 : p.one2.basis = if p.same = true then .double P x.conf d p.init.1 p.init.2 sp else .single P x.conf d p.init.2 sp2
  conf1 : p.one1.conf = (p.one1.basis.conf.put "deltaESingle" de).put "diamagnetism" dia
  same : p.same = true → p.one2 = p.one1
  species1 : p.one1.species = sp
  species2 : p.one2.species = sp2
  deltaE1 : P.stod de = .ok p.one1.deltaE
  deltaE2 : P.stod de = .ok p.one2.deltaE
  method1 : p.one1.method = methodOf x.mc x.mw
  method2 : p.one2.method = methodOf x.mc x.mw
  method : p.method = methodOf x.mc x.mw
  dia : p.one1.scan.dia = decide (dia = "true".toList)
  scan : p.one2.scan = p.one1.scan
  conf : p.conf = pairConf P p.same x sp sp2 p.init.1 p.init.2 y
  deltaE : P.stod y.sE = .ok p.deltaE
  d : P.stoi y.sn = .ok p.d.n ∧ P.stoi y.sl = .ok p.d.l ∧ P.stoi y.sj = .ok p.d.j ∧ P.stoi y.sm = .ok p.d.m
  exponent : P.stoi y.sx = .ok p.exponent

theorem read_back {P : ConfNum} (hP : P.Lawful) {c : Config} {n l j m : String} {s t : Old1} (hn : c.at n = .ok (P.putI s.n)) (hl : c.at l = .ok (P.putI s.l))
    (hj : c.at j = .ok (P.putF s.j)) (hm : c.at m = .ok (P.putF s.m)) (h : readOld1 P c n l j m = .ok t) : t = s := by
  unfold readOld1 at h
  rw [hn, hl, hj, hm] at h
  simp only [Out.ok_bind, hP.int, hP.half] at h
  injection h with h
  rw [← h]

theorem pairRun_ok {P : ConfNum} (hP : P.Lawful) {real : Bool} {c : Config} {same : Bool} {p : OldPairRun} (h : oldPairRun P real c same = .ok p) :
    p.same = same ∧ ∃ x d sp sp2 de dia y, PairFacts P p x d sp sp2 de dia y := by
  unfold oldPairRun at h
  obtain ⟨o1, h1, h⟩ := Out.bind_ok h
  obtain ⟨o2, h2, h⟩ := Out.bind_ok h
  obtain ⟨b, h3, h⟩ := Out.bind_ok h
  obtain ⟨sE, -, h⟩ := Out.bind_ok h
  obtain ⟨sn, -, h⟩ := Out.bind_ok h
  obtain ⟨sl, -, h⟩ := Out.bind_ok h
  obtain ⟨sj, -, h⟩ := Out.bind_ok h
  obtain ⟨sm, -, h⟩ := Out.bind_ok h
  obtain ⟨sx, -, h⟩ := Out.bind_ok h
  obtain ⟨E, g1, h⟩ := Out.bind_ok h
  obtain ⟨n, g2, h⟩ := Out.bind_ok h
  obtain ⟨l, g3, h⟩ := Out.bind_ok h
  obtain ⟨j, g4, h⟩ := Out.bind_ok h
  obtain ⟨m, g5, h⟩ := Out.bind_ok h
  obtain ⟨x', g6, h⟩ := Out.bind_ok h
  obtain ⟨sy, -, h⟩ := Out.bind_ok h
  obtain ⟨me, g7, h⟩ := Out.bind_ok h
  injection h with h
  subst h
  refine ⟨rfl, ?_⟩
  obtain ⟨x, d, sp, de, dia, f, fc, hb⟩ := run_from h1
  have hme := method_of g7 _ _ fc.from_.2.2.2.2.1 fc.from_.2.2.2.2.2
  unfold oldBasisTwo at h3
  obtain ⟨n12, -, h3⟩ := Out.bind_ok h3
  obtain ⟨n22, -, h3⟩ := Out.bind_ok h3
  by_cases q1 : same = true ∧ n12 = []
  · rw [if_pos q1] at h3; cases h3
  rw [if_neg q1] at h3
  by_cases q2 : ¬ same = true ∧ (n12 ≠ [] ∨ n22 ≠ [])
  · rw [if_pos q2] at h3; cases h3
  rw [if_neg q2] at h3
  obtain ⟨cx, k1, h3⟩ := Out.bind_ok h3
  obtain ⟨s, k2, h3⟩ := Out.bind_ok h3
  obtain ⟨t, k3, h3⟩ := Out.bind_ok h3
  obtain ⟨sp1', k4, h3⟩ := Out.bind_ok h3
  obtain ⟨sp2', k5, h3⟩ := Out.bind_ok h3
  injection h3 with hfin
  obtain ⟨xx, e1, -, hx⟩ := configure_ok k1
  have hxx : xx = x := by
    have hfr : x.From o1.basis.conf := by
      rcases f.basis with ⟨s, hb⟩ | ⟨s, t, hb⟩ <;> rw [hb] <;> unfold BaseStr.From <;>
      · simp only [OldBasisOne.single, OldBasisOne.double, BaseStr.conf, at_put]
        simp
    exact BaseStr.From.unique hx hfr
  subst hxx
  cases same with
  | true =>
    have h2 : (if true = true then Out.ok o1 else oldOneRun P real c .second) = .ok o2 := h2
    rw [if_pos rfl] at h2
    injection h2 with h2
    subst h2
    have hb : if OldAtoms.both = OldAtoms.both then ∃ s t, o1.basis = .double P xx.conf d s t sp else _ := hb
    rw [if_pos rfl] at hb
    obtain ⟨s0, t0, hb⟩ := hb
    rw [if_pos rfl] at k3 k5
    rw [hb] at k2 k3 k4 k5
    have hs : s = s0 := read_back hP (by simp only [OldBasisOne.double, at_put]; simp) (by simp only [OldBasisOne.double, at_put]; simp)
      (by simp only [OldBasisOne.double, at_put]; simp) (by simp only [OldBasisOne.double, at_put]; simp) k2
    have ht : t = t0 := read_back hP (by simp only [OldBasisOne.double, at_put]; simp) (by simp only [OldBasisOne.double, at_put]; simp)
      (by simp only [OldBasisOne.double, at_put]; simp) (by simp only [OldBasisOne.double, at_put]; simp) k3
    have u1 : sp1' = sp := by
      simp only [OldBasisOne.double, at_put] at k4; simpa using k4.symm
    have u2 : sp2' = sp := by
      simp only [OldBasisOne.double, at_put] at k5; simpa using k5.symm
    subst hs ht u1 hfin
    rw [u2]
    exact ⟨xx, d, sp1', sp1', de, dia, ⟨sE, sn, sl, sj, sm, sx⟩, f.reads, hb, hb, f.conf, fun _ => rfl, f.species, f.species, f.deltaE, f.deltaE, f.method, f.method, hme, f.dia,
      rfl, (by dsimp only; rw [e1]; rfl), g1, ⟨g2, g3, g4, g5⟩, g6⟩
  | false =>
    have h2 : (if false = true then Out.ok o1 else oldOneRun P real c .second) = .ok o2 := h2
    rw [if_neg (by decide)] at h2
    have hb : if OldAtoms.first = OldAtoms.both then _ else ∃ s, o1.basis = .single P xx.conf d s sp := hb
    rw [if_neg (by decide)] at hb
    obtain ⟨s0, hb⟩ := hb
    obtain ⟨x2, d2, sp2, de2, dia2, f2, fc2, hb2⟩ := run_from h2
    rw [if_neg (by decide)] at hb2
    obtain ⟨t0, hb2⟩ := hb2
    obtain ⟨v1, v2, v3, v4⟩ := fc.same fc2
    subst v1 v2 v3
    have hd : d2 = d := f2.reads.unique f.reads
    subst hd
    rw [if_neg (by decide)] at k3 k5
    rw [hb] at k2 k4
    rw [hb2] at k3 k5
    have hs : s = s0 := read_back hP (by simp only [OldBasisOne.single, at_put]; simp) (by simp only [OldBasisOne.single, at_put]; simp)
      (by simp only [OldBasisOne.single, at_put]; simp) (by simp only [OldBasisOne.single, at_put]; simp) k2
    have ht : t = t0 := read_back hP (by simp only [OldBasisOne.single, at_put]; simp) (by simp only [OldBasisOne.single, at_put]; simp)
      (by simp only [OldBasisOne.single, at_put]; simp) (by simp only [OldBasisOne.single, at_put]; simp) k3
    have u1 : sp1' = sp := by
      simp only [OldBasisOne.single, at_put] at k4; simpa using k4.symm
    have u2 : sp2' = sp2 := by
      simp only [OldBasisOne.single, at_put] at k5; simpa using k5.symm
    subst hs ht u1 u2 hfin
    exact ⟨xx, d2, sp1', sp2', de, dia, ⟨sE, sn, sl, sj, sm, sx⟩, f.reads, hb, hb2, f.conf, (fun e => by cases e), f.species, f2.species, f.deltaE, f2.deltaE, f.method, f2.method,
      hme, f.dia, v4.symm, (by dsimp only; rw [e1]; rfl), g1, ⟨g2, g3, g4, g5⟩, g6⟩

theorem pairConf_wf (P : ConfNum) (same : Bool) (x : BaseStr) (sp sp2 : Str) (s t : Old1) (y : PairStr) : (pairConf P same x sp sp2 s t y).WF := by
  unfold pairConf BaseStr.conf Config.put
  iterate 23 apply wf_set
  simp [Config.WF]

theorem find_append (a b : Config) (hb : b.WF) (k : Str) : (a.append b).find? k = (b.find? k).or (a.find? k) := find?_foldl_set b hb a k

theorem putSym_inj {P : ConfNum} (hP : P.Lawful) {a b : Option ℤ} (h : putSym P a = putSym P b) : a = b := by
  cases a with
  | none =>
    cases b with
    | none => rfl
    | some b => exact absurd h.symm (hP.some b)
  | some a =>
    cases b with
    | none => exact absurd h (hP.some a)
    | some b => rw [putI_inj hP h]

theorem parity_map_inj {a b : Option OldParity} (h : a.map OldParity.int = b.map OldParity.int) : a = b := by
  cases a with
  | none => cases b with
    | none => rfl
    | some b => cases h
  | some a => cases b with
    | none => cases h
    | some b => cases a <;> cases b <;> first | rfl | (simp [OldParity.int] at h)

/-- What two pair matrices stored under one key have in common. -/
structure SamePair (p p' : OldPairRun) : Prop where
  one1 : SameRun p.one1 p'.one1
  one2 : SameRun p.one2 p'.one2
  same : p.same = p'.same
  init : p.init = p'.init
  deltaE : p.deltaE = p'.deltaE
  d : p.d = p'.d
  exponent : p.exponent = p'.exponent
  method : p.method = p'.method

theorem ok_unique {α : Type} {o : Out α} {a b : α} (h : o = .ok a) (h' : o = .ok b) : a = b := by
  rw [h] at h'; injection h'

theorem pairKey_same {P : ConfNum} (hP : P.Lawful) (X : Set ℝ) (hX : Set.InjOn P.putD X) {p p' : OldPairRun} {x x' : BaseStr} {d d' : Deltas} {sp sp' sp2 sp2' de de' dia dia' : Str}
    {y y' : PairStr} (f : PairFacts P p x d sp sp2 de dia y) (f' : PairFacts P p' x' d' sp' sp2' de' dia' y') (i i' : ℕ) (R R' : ℝ) (sym sym' : OldSym)
    (hR : R ∈ X) (hR' : R' ∈ X)
    (hf : ∀ z ∈ (p.one1.scan.fieldsAt i).values, z ∈ X) (hf' : ∀ z ∈ (p'.one1.scan.fieldsAt i').values, z ∈ X)
    (h : (p.key P i R sym).eqMap (p'.key P i' R' sym')) :
    SamePair p p' ∧ R = R' ∧ sym = sym' ∧ p.one1.scan.fieldsAt i = p'.one1.scan.fieldsAt i' := by
  have w := pairConf_wf P p.same x sp sp2 p.init.1 p.init.2 y
  have w' := pairConf_wf P p'.same x' sp' sp2' p'.init.1 p'.init.2 y'
  unfold Config.eqMap OldPairRun.key at h
  rw [f.conf, f'.conf] at h
  have hk : ∀ k : String, k ≠ "R" → k ≠ "inversion" → k ≠ "permutation" → k ≠ "reflection" → k ≠ "rotation" →
      ((pairConf P p.same x sp sp2 p.init.1 p.init.2 y).find? k.toList).or ((p.one1.key P i).find? k.toList) =
      ((pairConf P p'.same x' sp' sp2' p'.init.1 p'.init.2 y').find? k.toList).or ((p'.one1.key P i').find? k.toList) := by
    intro k g1 g2 g3 g4 g5
    have := h k.toList
    simp only [find_put, if_neg g1, if_neg g2, if_neg g3, if_neg g4, if_neg g5] at this
    rwa [find_append _ _ w, find_append _ _ w'] at this
  have hr := h "R".toList
  have hs1 := h "inversion".toList
  have hs2 := h "permutation".toList
  have hs3 := h "reflection".toList
  have hs4 := h "rotation".toList
  simp only [find_put] at hr hs1 hs2 hs3 hs4
  simp at hr hs1 hs2 hs3 hs4
  have R_eq := hX hR hR' hr
  have sym_eq : sym = sym' := by
    have e1 := parity_map_inj (putSym_inj hP hs1)
    have e2 := parity_map_inj (putSym_inj hP hs2)
    have e3 := parity_map_inj (putSym_inj hP hs3)
    have e4 := putSym_inj hP hs4
    cases sym; cases sym'; simp_all
  have hc := hk "combined" (by decide) (by decide) (by decide) (by decide) (by decide)
  have n1 := hk "n1" (by decide) (by decide) (by decide) (by decide) (by decide)
  have l1 := hk "l1" (by decide) (by decide) (by decide) (by decide) (by decide)
  have j1 := hk "j1" (by decide) (by decide) (by decide) (by decide) (by decide)
  have m1 := hk "m1" (by decide) (by decide) (by decide) (by decide) (by decide)
  have n2 := hk "n2" (by decide) (by decide) (by decide) (by decide) (by decide)
  have l2 := hk "l2" (by decide) (by decide) (by decide) (by decide) (by decide)
  have j2 := hk "j2" (by decide) (by decide) (by decide) (by decide) (by decide)
  have m2 := hk "m2" (by decide) (by decide) (by decide) (by decide) (by decide)
  have s1 := hk "species1" (by decide) (by decide) (by decide) (by decide) (by decide)
  have s2 := hk "species2" (by decide) (by decide) (by decide) (by decide) (by decide)
  have a1 := hk "deltaNSingle" (by decide) (by decide) (by decide) (by decide) (by decide)
  have a2 := hk "deltaLSingle" (by decide) (by decide) (by decide) (by decide) (by decide)
  have a3 := hk "deltaJSingle" (by decide) (by decide) (by decide) (by decide) (by decide)
  have a4 := hk "deltaMSingle" (by decide) (by decide) (by decide) (by decide) (by decide)
  have a5 := hk "missingCalc" (by decide) (by decide) (by decide) (by decide) (by decide)
  have a6 := hk "missingWhittaker" (by decide) (by decide) (by decide) (by decide) (by decide)
  have b1 := hk "deltaEPair" (by decide) (by decide) (by decide) (by decide) (by decide)
  have b2 := hk "deltaNPair" (by decide) (by decide) (by decide) (by decide) (by decide)
  have b3 := hk "deltaLPair" (by decide) (by decide) (by decide) (by decide) (by decide)
  have b4 := hk "deltaJPair" (by decide) (by decide) (by decide) (by decide) (by decide)
  have b5 := hk "deltaMPair" (by decide) (by decide) (by decide) (by decide) (by decide)
  have b6 := hk "exponent" (by decide) (by decide) (by decide) (by decide) (by decide)
  unfold pairConf BaseStr.conf at hc n1 l1 j1 m1 n2 l2 j2 m2 s1 s2 a1 a2 a3 a4 a5 a6 b1 b2 b3 b4 b5 b6
  simp only [find_put] at hc n1 l1 j1 m1 n2 l2 j2 m2 s1 s2 a1 a2 a3 a4 a5 a6 b1 b2 b3 b4 b5 b6
  simp at hc n1 l1 j1 m1 n2 l2 j2 m2 s1 s2 a1 a2 a3 a4 a5 a6 b1 b2 b3 b4 b5 b6
  have same_eq : p.same = p'.same := by
    have := putI_inj hP hc
    cases h1 : p.same <;> cases h2 : p'.same <;> simp [h1, h2] at this ⊢
  have init_eq : p.init = p'.init := by
    have := putI_inj hP n1
    have := putI_inj hP l1
    have := putF_inj hP j1
    have := putF_inj hP m1
    have := putI_inj hP n2
    have := putI_inj hP l2
    have := putF_inj hP j2
    have := putF_inj hP m2
    rcases h1 : p.init with ⟨⟨_, _, _, _⟩, ⟨_, _, _, _⟩⟩
    rcases h2 : p'.init with ⟨⟨_, _, _, _⟩, ⟨_, _, _, _⟩⟩
    simp_all
  have hx : x = x' := by cases x; cases x'; simp_all
  have hy : y = y' := by cases y; cases y'; simp_all
  subst hx hy s1 s2
  have hd : d = d' := f.reads.unique f'.reads
  subst hd
  have c1 := hk "deltaESingle" (by decide) (by decide) (by decide) (by decide) (by decide)
  have c2 := hk "diamagnetism" (by decide) (by decide) (by decide) (by decide) (by decide)
  unfold OldOneRun.key pairConf BaseStr.conf at c1 c2
  rw [f.conf1, f'.conf1] at c1 c2
  simp only [find_put] at c1 c2
  simp [Config.find?] at c1 c2
  have hfk : ∀ k ∈ ["Ex", "Ey", "Ez", "Bx", "By", "Bz"], (p.one1.key P i).find? k.toList = (p'.one1.key P i').find? k.toList := by
    intro k hkk
    have none_of : ∀ (q : Bool) (u v : Old1), (pairConf P q x sp sp2 u v y).find? k.toList = none := by
      intro q u v
      unfold pairConf BaseStr.conf
      simp only [find_put]
      simp only [List.mem_cons, List.not_mem_nil, or_false] at hkk
      rcases hkk with rfl | rfl | rfl | rfl | rfl | rfl <;> simp [Config.find?]
    have g : k ≠ "R" ∧ k ≠ "inversion" ∧ k ≠ "permutation" ∧ k ≠ "reflection" ∧ k ≠ "rotation" := by
      simp only [List.mem_cons, List.not_mem_nil, or_false] at hkk
      rcases hkk with rfl | rfl | rfl | rfl | rfl | rfl <;> decide
    have := hk k g.1 g.2.1 g.2.2.1 g.2.2.2.1 g.2.2.2.2
    rw [none_of, none_of] at this
    simpa using this
  subst c1 c2
  refine ⟨⟨⟨?_, ?_, ?_, ?_, ?_⟩, ⟨?_, ?_, ?_, ?_, ?_⟩, same_eq, init_eq, ?_, ?_, ?_, ?_⟩, R_eq, sym_eq, fields_same X hX p.one1 p'.one1 i i' hf hf' hfk⟩
  · rw [f.basis1, f'.basis1, same_eq, init_eq]
  · rw [f.species1, f'.species1]
  · exact ok_unique f.deltaE1 f'.deltaE1
  · rw [f.method1, f'.method1]
  · rw [f.dia, f'.dia]
  · rw [f.basis2, f'.basis2, same_eq, init_eq]
  · rw [f.species2, f'.species2]
  · exact ok_unique f.deltaE2 f'.deltaE2
  · rw [f.method2, f'.method2]
  · rw [f.scan, f'.scan, f.dia, f'.dia]
  · exact ok_unique f.deltaE f'.deltaE
  · obtain ⟨u1, u2, u3, u4⟩ := f.d
    obtain ⟨v1, v2, v3, v4⟩ := f'.d
    have := ok_unique u1 v1
    have := ok_unique u2 v2
    have := ok_unique u3 v3
    have := ok_unique u4 v4
    cases h1 : p.d; cases h2 : p'.d; simp_all
  · exact ok_unique f.exponent f'.exponent
  · rw [f.method, f'.method]

end PI
