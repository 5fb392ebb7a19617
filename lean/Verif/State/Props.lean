import Verif.State.Model
import Mathlib.Tactic.Tauto
import Mathlib.Tactic.SplitIfs
import Mathlib.Order.Basic

/-! # Properties C01–C07, C59: states and symmetries -/

namespace PI

/-- Exactly one of three propositions. -/
def ExactlyOne (p q r : Prop) : Prop := (p ∧ ¬q ∧ ¬r) ∨ (¬p ∧ q ∧ ¬r) ∨ (¬p ∧ ¬q ∧ r)

/-- Same species and quantum numbers: the user's notion of "the same one-atom state". -/
def SameOne (a b : StateOne) : Prop :=
  a.species = b.species ∧ a.n = b.n ∧ a.l = b.l ∧ a.j2 = b.j2 ∧ a.m2 = b.m2

/-- A state the public constructors can produce (`getReflected` returns one of these too). -/
def Constructed (H : StdHash) (a : StateOne) : Prop :=
  (∃ sp n l j m, StateOne.mk' H sp n l j m = .ok a) ∨ (∃ lab, StateOne.mkLabel H lab = .ok a)

/-- A pair state the public constructors can produce. -/
def ConstructedTwo (H : StdHash) (a : StateTwo) : Prop :=
  (∃ sp n l j m, StateTwo.mk' H sp n l j m = .ok a) ∨ (∃ lab, StateTwo.mkLabel H lab = .ok a) ∨
  (∃ x y, Constructed H x ∧ Constructed H y ∧ a = StateTwo.mkPair H x y)

/-- A concrete hash, to instantiate the theorems. -/
def demoHash : StdHash := ⟨fun s => s.length.toUInt64, fun i => i.toNat.toUInt64, fun i => i.natAbs.toUInt64, id⟩

/-- |Rb, 61 S_1/2, mj=1/2> -/
def rb61 : StateOne := ⟨"Rb", "Rb", 61, 0, 1, 1, 1, 0⟩
/-- |Rb, 61 P_3/2, mj=-1/2> -/
def rb61p : StateOne := ⟨"Rb", "Rb", 61, 1, 3, -1, 1, 0⟩

theorem StateOne.eq_iff (a b : StateOne) : a.eq b = true ↔ SameOne a b := by
  simp [StateOne.eq, SameOne, and_assoc]

theorem StateOne.lt_iff (a b : StateOne) : a.lt b = true ↔
    a.species < b.species ∨ (a.species = b.species ∧ (a.n < b.n ∨ (a.n = b.n ∧ (a.l < b.l ∨
      (a.l = b.l ∧ (a.j2 < b.j2 ∨ (a.j2 = b.j2 ∧ a.m2 < b.m2))))))) := by
  simp [StateOne.lt]

theorem StateOne.lt_trichotomy (a b : StateOne) :
    ExactlyOne (a.lt b = true) (a.eq b = true) (b.lt a = true) := by
  rw [StateOne.lt_iff, StateOne.lt_iff, StateOne.eq_iff]
  unfold ExactlyOne SameOne
  rcases _root_.lt_trichotomy a.species b.species with h | h | h
  · have h1 := h.ne; have h2 := h.ne'; have h3 := h.not_gt; simp_all
  · rw [h]
    simp only [lt_irrefl, true_and, false_or]
    omega
  · have h1 := h.ne; have h2 := h.ne'; have h3 := h.not_gt; simp_all

theorem StateOne.lt_trans (a b c : StateOne) (h1 : a.lt b = true) (h2 : b.lt c = true) :
    a.lt c = true := by
  rw [StateOne.lt_iff] at *
  rcases h1 with h1 | ⟨e1, h1⟩
  · rcases h2 with h2 | ⟨e2, h2⟩
    · exact .inl (_root_.lt_trans h1 h2)
    · exact .inl (e2 ▸ h1)
  · rcases h2 with h2 | ⟨e2, h2⟩
    · exact .inl (e1 ▸ h2)
    · refine .inr ⟨e1.trans e2, ?_⟩
      omega

/-- **C01.** `<` on one-atom states is a strict total order whose equality is `==`; `<=`, `!=` and
`==` mean what they say. -/
theorem C01_stateOne_total_order :
    (∀ a b : StateOne, ExactlyOne (a.lt b = true) (a.eq b = true) (b.lt a = true)) ∧
    (∀ a b c : StateOne, a.lt b = true → b.lt c = true → a.lt c = true) ∧
    (∀ a b : StateOne, a.le b = true ↔ (a.lt b = true ∨ a.eq b = true)) ∧
    (∀ a b : StateOne, a.ne b = true ↔ ¬ a.eq b = true) ∧
    (∀ a b : StateOne, a.eq b = true ↔ SameOne a b) := by
  refine ⟨StateOne.lt_trichotomy, StateOne.lt_trans, ?_, ?_, StateOne.eq_iff⟩
  · intro a b; simp [StateOne.le]
  · intro a b
    simp [StateOne.ne, StateOne.eq]
    tauto

example : rb61.lt rb61p = true ∧ rb61p.lt rb61 = false ∧ rb61.eq rb61p = false := by decide

/-! ## Construction -/

theorem StateOne.mk'_ok_iff (H : StdHash) (sp : String) (n l j m : Int) (a : StateOne) :
    StateOne.mk' H sp n l j m = .ok a ↔ n ≠ 0 ∧ ∃ el s2, StateOne.analyzeSpecies sp = .ok (el, s2) ∧
      a = ⟨sp, el, n, l, j, m, s2, hashCombine (hashCombine (hashCombine (hashCombine
        (hashCombine 0 (H.str sp)) (H.int n)) (H.int l)) (H.flt j)) (H.flt m)⟩ := by
  unfold StateOne.mk'
  cases h : StateOne.analyzeSpecies sp with
  | throw => simp
  | ub => simp
  | ok p =>
    obtain ⟨el, s2⟩ := p
    by_cases hn : n = 0
    · simp [StateOne.getSpecies, StateOne.shouldBeArtificial, StateOne.isArtificial, hn]
    · have hb : (n == 0) = false := by simpa using hn
      simp [StateOne.getSpecies, StateOne.getN, StateOne.getL, StateOne.getJ, StateOne.getM,
        StateOne.shouldBeArtificial, StateOne.isArtificial, hn]
      constructor
      · rintro rfl; rfl
      · rintro rfl; rfl

theorem StateOne.mkLabel_ok_iff (H : StdHash) (lab : String) (a : StateOne) :
    StateOne.mkLabel H lab = .ok a ↔ a = ⟨lab, "", 0, 0, 0, 0, 0, H.str lab⟩ := by
  simp [StateOne.mkLabel, StateOne.getLabel, StateOne.shouldBeArtificial, StateOne.isArtificial,
    eq_comm]

theorem constructed_hash (H : StdHash) {a b : StateOne} (ha : Constructed H a)
    (hb : Constructed H b) (h : SameOne a b) : a = b := by
  obtain ⟨h1, h2, h3, h4, h5⟩ := h
  rcases ha with ⟨sp, n, l, j, m, ha⟩ | ⟨lab, ha⟩ <;>
    rcases hb with ⟨sp', n', l', j', m', hb⟩ | ⟨lab', hb⟩
  · rw [StateOne.mk'_ok_iff] at ha hb
    obtain ⟨hn, el, s2, he, rfl⟩ := ha
    obtain ⟨hn', el', s2', he', rfl⟩ := hb
    simp only at h1 h2 h3 h4 h5
    subst h1 h2 h3 h4 h5
    rw [he] at he'
    cases he'
    rfl
  · rw [StateOne.mk'_ok_iff] at ha; rw [StateOne.mkLabel_ok_iff] at hb
    obtain ⟨hn, el, s2, he, rfl⟩ := ha
    subst hb
    exact absurd h2 hn
  · rw [StateOne.mk'_ok_iff] at hb; rw [StateOne.mkLabel_ok_iff] at ha
    obtain ⟨hn, el, s2, he, rfl⟩ := hb
    subst ha
    exact absurd h2.symm hn
  · rw [StateOne.mkLabel_ok_iff] at ha hb
    subst ha hb
    simp only at h1
    subst h1
    rfl

theorem constructedTwo_parts (H : StdHash) {a : StateTwo} (ha : ConstructedTwo H a) :
    Constructed H a.fst ∧ Constructed H a.snd ∧ a.hash = StateTwo.pairHash H a.fst a.snd := by
  rcases ha with ⟨sp, n, l, j, m, h⟩ | ⟨lab, h⟩ | ⟨x, y, hx, hy, rfl⟩
  · unfold StateTwo.mk' at h
    cases h1 : StateOne.mk' H sp.1 n.1 l.1 j.1 m.1 with
    | throw => simp [h1] at h
    | ub => simp [h1] at h
    | ok x =>
      cases h2 : StateOne.mk' H sp.2 n.2 l.2 j.2 m.2 with
      | throw => simp [h1, h2] at h
      | ub => simp [h1, h2] at h
      | ok y =>
        simp [h1, h2] at h
        subst h
        exact ⟨.inl ⟨_, _, _, _, _, h1⟩, .inl ⟨_, _, _, _, _, h2⟩, rfl⟩
  · unfold StateTwo.mkLabel at h
    cases h1 : StateOne.mkLabel H lab.1 with
    | throw => simp [h1] at h
    | ub => simp [h1] at h
    | ok x =>
      cases h2 : StateOne.mkLabel H lab.2 with
      | throw => simp [h1, h2] at h
      | ub => simp [h1, h2] at h
      | ok y =>
        simp [h1, h2] at h
        subst h
        exact ⟨.inr ⟨_, h1⟩, .inr ⟨_, h2⟩, rfl⟩
  · exact ⟨hx, hy, rfl⟩

/-- **C02.** States that compare equal have equal hashes: one-atom and pair states, artificial or not,
however they were constructed. (All derived members agree as well.) -/
theorem C02_equal_states_hash_equal (H : StdHash) :
    (∀ a b : StateOne, Constructed H a → Constructed H b → a.eq b = true →
      a.getHash = b.getHash ∧ a = b) ∧
    (∀ a b : StateTwo, ConstructedTwo H a → ConstructedTwo H b → a.eq b = true →
      a.getHash = b.getHash ∧ a = b) := by
  constructor
  · intro a b ha hb h
    have := constructed_hash H ha hb ((StateOne.eq_iff a b).1 h)
    exact ⟨by rw [this], this⟩
  · intro a b ha hb h
    simp only [StateTwo.eq, Bool.and_eq_true] at h
    obtain ⟨a1, a2, a3⟩ := constructedTwo_parts H ha
    obtain ⟨b1, b2, b3⟩ := constructedTwo_parts H hb
    have e1 := constructed_hash H a1 b1 ((StateOne.eq_iff _ _).1 h.1)
    have e2 := constructed_hash H a2 b2 ((StateOne.eq_iff _ _).1 h.2)
    have : a = b := by
      cases a; cases b; simp_all
    exact ⟨by rw [this], this⟩

example : ∃ a b, Constructed demoHash a ∧ Constructed demoHash b ∧ a.eq b = true ∧ a.n = 61 := by
  have h : StateOne.mk' demoHash "Rb" 61 0 1 1 = .ok ⟨"Rb", "Rb", 61, 0, 1, 1, 1, hashCombine (hashCombine (hashCombine (hashCombine
        (hashCombine 0 (demoHash.str "Rb")) (demoHash.int 61)) (demoHash.int 0)) (demoHash.flt 1)) (demoHash.flt 1)⟩ := by
    rw [StateOne.mk'_ok_iff]
    exact ⟨by decide, "Rb", 1, by decide, rfl⟩
  exact ⟨_, _, .inl ⟨_, _, _, _, _, h⟩, .inl ⟨_, _, _, _, _, h⟩, by simp [StateOne.eq], rfl⟩

/-! ## Wildcards -/

/-- A wanted value `w` that is the wildcard marker `arb` accepts anything, otherwise only itself. -/
def Accepts (arb w x : Int) : Prop := w = arb ∨ x = w

/-- What matching a one-atom state against a generalized state means. -/
def Matches (a b : StateOne) : Prop :=
  a.species = b.species ∧ Accepts ARB b.n a.n ∧ Accepts ARB b.l a.l ∧
    Accepts ARB2 b.j2 a.j2 ∧ Accepts ARB2 b.m2 a.m2

theorem StateOne.sub_iff (a b : StateOne) : a.sub b = true ↔ Matches a b := by
  simp [StateOne.sub, Matches, Accepts, and_assoc]

/-- **C03.** `a ^ b` says that `a` agrees with `b` in the species and in every quantum number of `b`
that is not `ARB`; it is reflexive, implied by `==`, equal to `==` when `b` has no wildcard, and
transitive; on pair states it is the conjunction over the atoms. -/
theorem C03_wildcard_matching :
    (∀ a b : StateOne, a.sub b = true ↔ Matches a b) ∧
    (∀ a : StateOne, a.sub a = true) ∧
    (∀ a b : StateOne, a.eq b = true → a.sub b = true) ∧
    (∀ a b : StateOne, b.isGeneralized = false → (a.sub b = true ↔ a.eq b = true)) ∧
    (∀ a b c : StateOne, a.sub b = true → b.sub c = true → a.sub c = true) ∧
    (∀ a b : StateTwo, a.sub b = true ↔ (Matches a.fst b.fst ∧ Matches a.snd b.snd)) := by
  refine ⟨StateOne.sub_iff, ?_, ?_, ?_, ?_, ?_⟩
  · intro a; rw [StateOne.sub_iff]; simp [Matches, Accepts]
  · intro a b; rw [StateOne.sub_iff, StateOne.eq_iff]; simp [Matches, Accepts, SameOne]; tauto
  · intro a b h
    rw [StateOne.sub_iff, StateOne.eq_iff]
    simp [StateOne.isGeneralized] at h
    simp [Matches, Accepts, SameOne]; tauto
  · intro a b c
    rw [StateOne.sub_iff, StateOne.sub_iff, StateOne.sub_iff]
    unfold Matches Accepts
    rintro ⟨h1, h2, h3, h4, h5⟩ ⟨k1, k2, k3, k4, k5⟩
    refine ⟨h1.trans k1, ?_, ?_, ?_, ?_⟩ <;> omega
  · intro a b
    simp only [StateTwo.sub, Bool.and_eq_true, StateOne.sub_iff]

example : rb61.sub { rb61 with m2 := ARB2, n := ARB } = true ∧
    rb61p.sub { rb61 with m2 := ARB2, n := ARB } = false := by decide

/-! ## Reflection -/

/-- Same state except that `m` is negated. -/
def IsReflectionOf (b a : StateOne) : Prop :=
  b.species = a.species ∧ b.element = a.element ∧ b.s2 = a.s2 ∧ b.n = a.n ∧ b.l = a.l ∧
    b.j2 = a.j2 ∧ b.m2 = -a.m2

theorem reflect_ok (H : StdHash) {a : StateOne} (ha : Constructed H a) (hn : a.n ≠ 0) :
    ∃ b, a.getReflected H = .ok b ∧ Constructed H b ∧ IsReflectionOf b a := by
  rcases ha with ⟨sp, n, l, j, m, ha⟩ | ⟨lab, ha⟩
  · rw [StateOne.mk'_ok_iff] at ha
    obtain ⟨h0, el, s2, he, rfl⟩ := ha
    have hb : (n == 0) = false := by simpa using h0
    have : StateOne.getReflected H ⟨sp, el, n, l, j, m, s2, hashCombine (hashCombine (hashCombine (hashCombine
        (hashCombine 0 (H.str sp)) (H.int n)) (H.int l)) (H.flt j)) (H.flt m)⟩ = StateOne.mk' H sp n l j (-m) := by
      simp [StateOne.getReflected, StateOne.getSpecies, StateOne.getN, StateOne.getL,
        StateOne.getJ, StateOne.getM, StateOne.shouldBeArtificial, StateOne.isArtificial, h0]
    have hk := (StateOne.mk'_ok_iff H sp n l j (-m) _).2 ⟨h0, el, s2, he, rfl⟩
    exact ⟨_, this.trans hk, .inl ⟨_, _, _, _, _, hk⟩, rfl, rfl, rfl, rfl, rfl, rfl, rfl⟩
  · rw [StateOne.mkLabel_ok_iff] at ha
    subst ha
    exact absurd rfl hn

theorem reflect_art (H : StdHash) {a : StateOne} (hn : a.n = 0) : a.getReflected H = .throw := by
  simp [StateOne.getReflected, StateOne.getSpecies, StateOne.shouldBeArtificial,
    StateOne.isArtificial, hn]

/-- **C04.** Reflection negates `m` and nothing else, is an involution, fixes exactly the states with
`m = 0`, throws on artificial states, and acts atom by atom on pair states. -/
theorem C04_reflection (H : StdHash) :
    (∀ a : StateOne, Constructed H a → a.n ≠ 0 → ∃ b, a.getReflected H = .ok b ∧
        IsReflectionOf b a ∧ b.getReflected H = .ok a ∧ (b.eq a = true ↔ a.m2 = 0)) ∧
    (∀ a : StateOne, a.isArtificial = true → a.getReflected H = .throw) ∧
    (∀ a : StateTwo, ConstructedTwo H a → a.fst.n ≠ 0 → a.snd.n ≠ 0 →
        ∃ b, a.getReflected H = .ok b ∧ a.fst.getReflected H = .ok b.fst ∧
          a.snd.getReflected H = .ok b.snd ∧ b.getReflected H = .ok a) := by
  have inv : ∀ a : StateOne, Constructed H a → a.n ≠ 0 → ∀ b, a.getReflected H = .ok b →
      Constructed H b → IsReflectionOf b a → b.getReflected H = .ok a := by
    intro a ha hn b hb hcb hr
    obtain ⟨c, hc, hcc, hr'⟩ := reflect_ok H hcb (by rw [hr.2.2.2.1]; exact hn)
    have : c = a := by
      apply constructed_hash H hcc ha
      obtain ⟨r1, r2, r3, r4, r5, r6, r7⟩ := hr
      obtain ⟨t1, t2, t3, t4, t5, t6, t7⟩ := hr'
      refine ⟨t1.trans r1, t4.trans r4, t5.trans r5, t6.trans r6, ?_⟩
      omega
    rw [hc, this]
  refine ⟨?_, ?_, ?_⟩
  · intro a ha hn
    obtain ⟨b, hb, hcb, hr⟩ := reflect_ok H ha hn
    refine ⟨b, hb, hr, inv a ha hn b hb hcb hr, ?_⟩
    rw [StateOne.eq_iff]
    obtain ⟨r1, r2, r3, r4, r5, r6, r7⟩ := hr
    unfold SameOne
    constructor
    · rintro ⟨_, _, _, _, h⟩; omega
    · intro h; refine ⟨r1, r4, r5, r6, ?_⟩; omega
  · intro a h
    exact reflect_art H (by simpa [StateOne.isArtificial] using h)
  · intro a ha h1 h2
    obtain ⟨c1, c2, ch⟩ := constructedTwo_parts H ha
    obtain ⟨b1, e1, d1, r1⟩ := reflect_ok H c1 h1
    obtain ⟨b2, e2, d2, r2⟩ := reflect_ok H c2 h2
    have key : ∀ (x : StateTwo) (y1 y2 : StateOne), x.fst.n ≠ 0 → x.snd.n ≠ 0 →
        x.fst.getReflected H = .ok y1 → x.snd.getReflected H = .ok y2 →
        x.getReflected H = .ok (StateTwo.mkPair H y1 y2) := by
      intro x y1 y2 n1 n2 hy1 hy2
      have b1 : (x.fst.n == 0) = false := by simpa using n1
      have b2 : (x.snd.n == 0) = false := by simpa using n2
      simp [StateOne.getReflected, StateOne.getSpecies, StateOne.getN, StateOne.getL,
        StateOne.getJ, StateOne.getM, StateOne.shouldBeArtificial, StateOne.isArtificial, n1] at hy1
      simp [StateOne.getReflected, StateOne.getSpecies, StateOne.getN, StateOne.getL,
        StateOne.getJ, StateOne.getM, StateOne.shouldBeArtificial, StateOne.isArtificial, n2] at hy2
      simp [StateTwo.getReflected, StateTwo.both, StateOne.getSpecies, StateOne.getN, StateOne.getL,
        StateOne.getJ, StateOne.getM, StateOne.shouldBeArtificial, StateOne.isArtificial, n1, n2,
        StateTwo.mk', hy1, hy2]
    refine ⟨StateTwo.mkPair H b1 b2, key a b1 b2 h1 h2 e1 e2, e1, e2, ?_⟩
    have := key (StateTwo.mkPair H b1 b2) a.fst a.snd
      (by show b1.n ≠ 0; rw [r1.2.2.2.1]; exact h1) (by show b2.n ≠ 0; rw [r2.2.2.2.1]; exact h2)
      (inv _ c1 h1 b1 e1 d1 r1) (inv _ c2 h2 b2 e2 d2 r2)
    rw [this]
    congr 1
    cases a
    simp only [StateTwo.mkPair, StateTwo.mk.injEq, true_and]
    exact ch.symm

example : (StateOne.mk' demoHash "Sr3" 20 1 4 2 >>= StateOne.getReflected demoHash >>= StateOne.getM) = .ok (-2) := by
  decide

/-- **C05.** A state built from quantum numbers returns exactly these from its getters and refuses to
give a label; a state built from a label returns the label and refuses to give any quantum number;
`n = 0` is rejected by the constructor, which never yields a half-built state. -/
theorem C05_artificial_guard (H : StdHash) :
    (∀ sp n l j m a, StateOne.mk' H sp n l j m = .ok a →
      a.getSpecies = .ok sp ∧ a.getN = .ok n ∧ a.getL = .ok l ∧ a.getJ = .ok j ∧ a.getM = .ok m ∧
      a.getLabel = .throw ∧ a.isArtificial = false) ∧
    (∀ lab a, StateOne.mkLabel H lab = .ok a →
      a.getLabel = .ok lab ∧ a.isArtificial = true ∧ a.getSpecies = .throw ∧ a.getElement = .throw ∧
      a.getN = .throw ∧ a.getL = .throw ∧ a.getJ = .throw ∧ a.getM = .throw ∧ a.getS = .throw) ∧
    (∀ sp n l j m, sp ≠ "" → ((n = 0 → StateOne.mk' H sp n l j m = .throw) ∧
      (n ≠ 0 → ∃ a, StateOne.mk' H sp n l j m = .ok a))) ∧
    (∀ lab, ∃ a, StateOne.mkLabel H lab = .ok a) := by
  refine ⟨?_, ?_, ?_, ?_⟩
  · intro sp n l j m a h
    rw [StateOne.mk'_ok_iff] at h
    obtain ⟨h0, el, s2, he, rfl⟩ := h
    simp [StateOne.getSpecies, StateOne.getN, StateOne.getL, StateOne.getJ, StateOne.getM,
      StateOne.getLabel, StateOne.shouldBeArtificial, StateOne.isArtificial, h0]
  · intro lab a h
    rw [StateOne.mkLabel_ok_iff] at h
    subst h
    simp [StateOne.getSpecies, StateOne.getN, StateOne.getL, StateOne.getJ, StateOne.getM,
      StateOne.getS, StateOne.getElement, StateOne.getLabel, StateOne.shouldBeArtificial,
      StateOne.isArtificial]
  · intro sp n l j m hsp
    have hl : sp.toList ≠ [] := by
      intro h; apply hsp
      have := congrArg String.ofList h
      simpa using this
    obtain ⟨p, hp⟩ : ∃ p, StateOne.analyzeSpecies sp = .ok p := by
      unfold StateOne.analyzeSpecies
      cases hg : sp.toList.getLast? with
      | none => rw [List.getLast?_eq_none_iff] at hg; exact absurd hg hl
      | some c => by_cases hd : c.isDigit = true <;> simp [hd]
    constructor
    · rintro rfl
      simp [StateOne.mk', hp, StateOne.getSpecies, StateOne.shouldBeArtificial, StateOne.isArtificial]
    · intro h0
      exact ⟨_, (StateOne.mk'_ok_iff H sp n l j m _).2 ⟨h0, p.1, p.2, hp, rfl⟩⟩
  · intro lab
    exact ⟨_, (StateOne.mkLabel_ok_iff H lab _).2 rfl⟩

example : ∃ a, StateOne.mk' demoHash "Rb" 61 0 1 (-1) = .ok a ∧ a.getM = .ok (-1) ∧ a.getLabel = .throw := by
  obtain ⟨a, h⟩ := ((C05_artificial_guard demoHash).2.2.1 "Rb" 61 0 1 (-1) (by decide)).2 (by decide)
  exact ⟨a, h, ((C05_artificial_guard demoHash).1 _ _ _ _ _ _ h).2.2.2.2.1,
    ((C05_artificial_guard demoHash).1 _ _ _ _ _ _ h).2.2.2.2.2.1⟩

/-- The spin and element that the species name encodes: a trailing digit `d` means spin `(d-1)/2` and is
not part of the element; otherwise the spin is 1/2. (Doubled spin.) -/
theorem C05_species_spin (H : StdHash) (base : String) (c : Char) (n l j m : Int) (a : StateOne)
    (h : StateOne.mk' H (base.push c) n l j m = .ok a) :
    (c.isDigit = true → a.getElement = .ok base ∧ a.getS = .ok ((c.toNat : Int) - 48 - 1)) ∧
    (c.isDigit = false → a.getElement = .ok (base.push c) ∧ a.getS = .ok 1) := by
  rw [StateOne.mk'_ok_iff] at h
  obtain ⟨h0, el, s2, he, rfl⟩ := h
  have e : StateOne.analyzeSpecies (base.push c) = if c.isDigit then
      .ok (base, ((c.toNat : Int) - 48) - 1) else .ok (base.push c, 1) := by
    simp [StateOne.analyzeSpecies]
  rw [e] at he
  constructor
  · intro hd
    rw [if_pos hd] at he
    cases he
    simp [StateOne.getElement, StateOne.getS, StateOne.shouldBeArtificial, StateOne.isArtificial, h0]
  · intro hd
    rw [if_neg (by simp [hd])] at he
    cases he
    simp [StateOne.getElement, StateOne.getS, StateOne.shouldBeArtificial, StateOne.isArtificial, h0]

example : ∃ a, StateOne.mk' demoHash ("Sr".push '3') 20 1 4 2 = .ok a ∧ a.getS = .ok 2 := by
  obtain ⟨a, h⟩ := ((C05_artificial_guard demoHash).2.2.1 ("Sr".push '3') 20 1 4 2 (by decide)).2 (by decide)
  exact ⟨a, h, by simpa using ((C05_species_spin demoHash _ _ _ _ _ _ _ h).1 (by decide)).2⟩

/-- **C06.** Pair states: the projections return what was put in, `==` is componentwise, `<` is a strict
total order whose equality is `==`, and it is lexicographic. -/
theorem C06_stateTwo_order (H : StdHash) :
    (∀ a b, (StateTwo.mkPair H a b).getFirstState = a ∧ (StateTwo.mkPair H a b).getSecondState = b) ∧
    (∀ a b : StateTwo, a.eq b = true ↔ (SameOne a.fst b.fst ∧ SameOne a.snd b.snd)) ∧
    (∀ a b : StateTwo, a.ne b = true ↔ ¬ a.eq b = true) ∧
    (∀ a b : StateTwo, ExactlyOne (a.lt b = true) (a.eq b = true) (b.lt a = true)) ∧
    (∀ a b c : StateTwo, a.lt b = true → b.lt c = true → a.lt c = true) ∧
    (∀ a b : StateTwo, a.fst.lt b.fst = true → a.lt b = true) ∧
    (∀ a b : StateTwo, a.fst.eq b.fst = true → a.lt b = a.snd.lt b.snd) := by
  have eqsymm : ∀ x y : StateOne, x.eq y = true ↔ y.eq x = true := by
    intro x y; rw [StateOne.eq_iff, StateOne.eq_iff]; unfold SameOne; grind
  have ltc : ∀ x y z : StateOne, x.eq y = true → (y.lt z = x.lt z) ∧ (z.lt y = z.lt x) := by
    intro x y z h
    rw [StateOne.eq_iff] at h
    obtain ⟨h1, h2, h3, h4, h5⟩ := h
    simp [StateOne.lt, h1, h2, h3, h4, h5]
  have eqt : ∀ x y z : StateOne, x.eq y = true → y.eq z = true → x.eq z = true := by
    intro x y z; rw [StateOne.eq_iff, StateOne.eq_iff, StateOne.eq_iff]; unfold SameOne; grind
  refine ⟨fun a b => ⟨rfl, rfl⟩, ?_, ?_, ?_, ?_, ?_, ?_⟩
  · intro a b; simp [StateTwo.eq, StateOne.eq_iff]
  · intro a b
    have h := C01_stateOne_total_order.2.2.2.1
    simp only [StateTwo.ne, StateTwo.eq, Bool.or_eq_true, Bool.and_eq_true, h]
    by_cases h1 : a.fst.eq b.fst = true <;> simp [h1]
  · intro a b
    have t1 := StateOne.lt_trichotomy a.fst b.fst
    have t2 := StateOne.lt_trichotomy a.snd b.snd
    have s1 := eqsymm a.fst b.fst
    unfold ExactlyOne at *
    simp only [StateTwo.lt, StateTwo.eq]
    generalize a.fst.lt b.fst = p1 at *
    generalize b.fst.lt a.fst = p2 at *
    generalize a.fst.eq b.fst = p3 at *
    generalize b.fst.eq a.fst = p4 at *
    generalize a.snd.lt b.snd = q1 at *
    generalize b.snd.lt a.snd = q2 at *
    generalize a.snd.eq b.snd = q3 at *
    clear eqsymm ltc eqt
    cases p1 <;> cases p2 <;> cases p3 <;> cases p4 <;> cases q1 <;> cases q2 <;> cases q3 <;> simp_all
  · intro a b c h1 h2
    simp only [StateTwo.lt, Bool.or_eq_true, Bool.and_eq_true] at *
    rcases h1 with h1 | ⟨e1, h1⟩ <;> rcases h2 with h2 | ⟨e2, h2⟩
    · exact .inl (StateOne.lt_trans _ _ _ h1 h2)
    · exact .inl (by rw [(ltc _ _ a.fst e2).2]; exact h1)
    · exact .inl (by rw [← (ltc _ _ c.fst e1).1]; exact h2)
    · exact .inr ⟨eqt _ _ _ e1 e2, StateOne.lt_trans _ _ _ h1 h2⟩
  · intro a b h; simp [StateTwo.lt, h]
  · intro a b h
    have t := StateOne.lt_trichotomy a.fst b.fst
    have : a.fst.lt b.fst = false := by
      unfold ExactlyOne at t
      cases hh : a.fst.lt b.fst
      · rfl
      · rw [hh] at t; simp [h] at t
    simp [StateTwo.lt, h, this]

example : (StateTwo.mkPair demoHash rb61 rb61p).lt (StateTwo.mkPair demoHash rb61p rb61) = true := by decide

/-! ## Legacy pair states -/

/-- The pair with the two atoms exchanged. -/
def StateTwoOld.swapped (a : StateTwoOld) : StateTwoOld :=
  ⟨a.idx, a.species.swap, a.n.swap, a.l.swap, a.j2.swap, a.m2.swap⟩

theorem StateTwoOld.order_eq (a : StateTwoOld) : a.order =
    if (a.n.1 < a.n.2 ∨ a.n.1 = a.n.2 ∧ (a.l.1 < a.l.2 ∨ a.l.1 = a.l.2 ∧
      (a.j2.1 < a.j2.2 ∨ a.j2.1 = a.j2.2 ∧ a.m2.1 ≤ a.m2.2))) then a
    else StateTwoOld.ofOnes a.second a.first := by
  simp [StateTwoOld.order]

/-- **C07.** `order` returns one of the two arrangements, gives the same quantum numbers for a pair and
the exchanged pair, leaves its own result alone, and puts the smaller atom first. -/
theorem C07_legacy_order_canonical (a : StateTwoOld) :
    (a.order.eq a = true ∨ a.order.eq a.swapped = true) ∧
    a.order.eq a.swapped.order = true ∧
    a.order.order = a.order ∧
    a.order.second.lt a.order.first = false := by
  obtain ⟨i, ⟨s1, s2⟩, ⟨n1, n2⟩, ⟨l1, l2⟩, ⟨j1, j2⟩, ⟨m1, m2⟩⟩ := a
  simp only [StateTwoOld.order_eq, StateTwoOld.swapped, Prod.swap, StateTwoOld.ofOnes,
    StateTwoOld.first, StateTwoOld.second]
  refine ⟨?_, ?_, ?_, ?_⟩
  · split_ifs <;> simp [StateTwoOld.eq]
  · split_ifs with h1 h2 h2 <;>
      simp only [StateTwoOld.eq, Bool.and_eq_true, beq_iff_eq, and_true, and_self] <;> omega
  · split_ifs with h1 h2 <;> first | rfl | (exfalso; simp at *; omega)
  · split_ifs <;> simp [StateOneOld.lt] <;> omega

example : (StateTwoOld.order ⟨7, ("Rb", "Cs"), (61, 60), (0, 1), (1, 3), (1, 1)⟩).n = (60, 61) := by decide

/-- **C59.** The comparison of symmetry records is a strict total order; two records are equivalent
exactly when all four entries agree, so a sorted set never merges different symmetries. -/
theorem C59_symmetry_order :
    (∀ a b : SymmetryRec, ExactlyOne (a.lt b = true) (a = b) (b.lt a = true)) ∧
    (∀ a b c : SymmetryRec, a.lt b = true → b.lt c = true → a.lt c = true) := by
  have iff : ∀ a b : SymmetryRec, a.lt b = true ↔ a.inversion < b.inversion ∨ (a.inversion = b.inversion ∧
      (a.reflection < b.reflection ∨ (a.reflection = b.reflection ∧ (a.permutation < b.permutation ∨
        (a.permutation = b.permutation ∧ a.rotation < b.rotation))))) := by
    intro a b
    simp only [SymmetryRec.lt, symLoop]
    split_ifs <;> simp <;> omega
  constructor
  · intro a b
    rw [iff, iff]
    have : a = b ↔ a.inversion = b.inversion ∧ a.reflection = b.reflection ∧
        a.permutation = b.permutation ∧ a.rotation = b.rotation := by
      cases a; cases b; simp
    rw [this]
    unfold ExactlyOne
    omega
  · intro a b c
    rw [iff, iff, iff]
    omega

example : SymmetryRec.lt ⟨1, -1, 2147483647, 0⟩ ⟨1, 1, -1, 0⟩ = true := by decide


theorem hashCombine_inj (s h h' : UInt64) : hashCombine s h = hashCombine s h' ↔ h = h' := by
  unfold hashCombine
  constructor
  · intro e
    have e1 := congrArg (s ^^^ ·) e
    simp only [← UInt64.xor_assoc, UInt64.xor_self, UInt64.zero_xor] at e1
    exact (UInt64.add_left_inj _).1 ((UInt64.add_left_inj _).1 ((UInt64.add_left_inj _).1 e1))
  · intro e; rw [e]

/-- **C02.** The hash of a pair depends on both of its atoms: for a fixed first atom two pairs have the same hash exactly if the hash values of the second atoms are hashed to the same value. -/
theorem C02_pair_hash (H : StdHash) (a b b' : StateOne) :
    ((StateTwo.mkPair H a b).getHash = (StateTwo.mkPair H a b').getHash ↔ H.siz b.getHash = H.siz b'.getHash) := by
  unfold StateTwo.mkPair StateTwo.getHash StateTwo.pairHash
  exact hashCombine_inj _ _ _

/-- With the identity as hash of numbers: pairs that differ in the first or in the second atom have different hashes. -/
example : let H : StdHash := ⟨fun _ => 0, fun _ => 0, fun _ => 0, id⟩
    let s : UInt64 → StateOne := fun h => ⟨"Rb", "Rb", 60, 0, 1, 1, 1, h⟩
    (StateTwo.mkPair H (s 5) (s 7)).getHash ≠ (StateTwo.mkPair H (s 5) (s 8)).getHash ∧
    (StateTwo.mkPair H (s 5) (s 7)).getHash ≠ (StateTwo.mkPair H (s 6) (s 7)).getHash := by
  decide

end PI
