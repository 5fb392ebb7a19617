import Verif.State.PrintModel
import Verif.State.Props
import Mathlib.Tactic.Linarith
import Mathlib.Tactic.IntervalCases

/-!
# C112: printed states identify the state
-/

namespace PI

/-! ## Splitting a string at the last occurrence of a character -/

theorem split_last {c : Char} {a b a' b' : List Char} (hb : c ∉ b) (hb' : c ∉ b')
    (h : a ++ [c] ++ b = a' ++ [c] ++ b') : a = a' ∧ b = b' := by
  have key : ∀ {a b a' b' : List Char}, c ∉ a → c ∉ a' → a ++ c :: b = a' ++ c :: b' →
      a = a' ∧ b = b' := by
    intro a
    induction a with
    | nil =>
      intro b a' b' _ ha' h
      cases a' with
      | nil => simpa using h
      | cons x a' => simp at h; simp [h.1] at ha'
    | cons y a ih =>
      intro b a' b' ha ha' h
      cases a' with
      | nil => simp at h; simp [h.1] at ha
      | cons x a' =>
        simp only [List.cons_append, List.cons.injEq] at h
        simp only [List.mem_cons, not_or] at ha ha'
        obtain ⟨h1, h2⟩ := ih ha.2 ha'.2 h.2
        exact ⟨by rw [h.1, h1], h2⟩
  have h2 := congrArg List.reverse h
  simp only [List.reverse_append, List.reverse_cons, List.reverse_nil, List.nil_append,
    List.singleton_append] at h2
  obtain ⟨h3, h4⟩ := key (by simpa using hb) (by simpa using hb') h2
  exact ⟨List.reverse_injective h4, List.reverse_injective h3⟩

/-! ## The characters of numbers -/

/-- A decimal digit. -/
def IsDig (c : Char) : Prop := ∃ d : Nat, d < 10 ∧ c = digitCh d

theorem isDig_cases {c : Char} (h : IsDig c) :
    c = '0' ∨ c = '1' ∨ c = '2' ∨ c = '3' ∨ c = '4' ∨ c = '5' ∨ c = '6' ∨ c = '7' ∨ c = '8' ∨
      c = '9' := by
  obtain ⟨d, hd, rfl⟩ := h
  interval_cases d <;> decide

theorem decStr_digits (n : Nat) : ∀ c ∈ decStr n, IsDig c := by
  intro c hc
  unfold decStr at hc
  by_cases h : n = 0
  · rw [if_pos h] at hc
    simp only [List.mem_singleton] at hc
    exact ⟨0, by norm_num, hc⟩
  · rw [if_neg h] at hc
    simp only [List.mem_map, List.mem_reverse] at hc
    obtain ⟨d, hd, rfl⟩ := hc
    exact ⟨d, Nat.digits_lt_base (by norm_num) hd, rfl⟩

theorem digitCh_inj {d e : Nat} (hd : d < 10) (he : e < 10) (h : digitCh d = digitCh e) : d = e := by
  revert h
  interval_cases d <;> interval_cases e <;> decide

theorem map_digitCh_inj {s t : List Nat} (hs : ∀ d ∈ s, d < 10) (ht : ∀ d ∈ t, d < 10)
    (h : s.map digitCh = t.map digitCh) : s = t := by
  induction s generalizing t with
  | nil => cases t with
    | nil => rfl
    | cons _ _ => simp at h
  | cons a s ih =>
    cases t with
    | nil => simp at h
    | cons b t =>
      simp only [List.map_cons, List.cons.injEq] at h
      rw [digitCh_inj (hs a (by simp)) (ht b (by simp)) h.1,
        ih (fun d hd => hs d (by simp [hd])) (fun d hd => ht d (by simp [hd])) h.2]

theorem digits_ne_zero_str {n : Nat} (h : n ≠ 0) :
    (Nat.digits 10 n).reverse.map digitCh ≠ ['0'] := by
  intro h2
  have h3 : (Nat.digits 10 n).reverse = [0] := by
    apply map_digitCh_inj
    · intro d hd
      exact Nat.digits_lt_base (by norm_num) (List.mem_reverse.mp hd)
    · intro d hd
      simp at hd
      omega
    · rw [h2]; decide
  have h4 : Nat.digits 10 n = [0] := by
    rw [← List.reverse_reverse (Nat.digits 10 n), h3]; rfl
  have h5 := Nat.ofDigits_digits 10 n
  rw [h4] at h5
  simp [Nat.ofDigits] at h5
  exact h h5.symm

theorem decStr_inj {n k : Nat} (h : decStr n = decStr k) : n = k := by
  unfold decStr at h
  by_cases hn : n = 0
  · by_cases hk : k = 0
    · rw [hn, hk]
    · rw [if_pos hn, if_neg hk] at h
      exact absurd h.symm (digits_ne_zero_str hk)
  · by_cases hk : k = 0
    · rw [if_neg hn, if_pos hk] at h
      exact absurd h (digits_ne_zero_str hn)
    · rw [if_neg hn, if_neg hk] at h
      have h2 := map_digitCh_inj
        (fun d hd => Nat.digits_lt_base (by norm_num) (List.mem_reverse.mp hd))
        (fun d hd => Nat.digits_lt_base (by norm_num) (List.mem_reverse.mp hd)) h
      have h3 := List.reverse_injective h2
      rw [← Nat.ofDigits_digits 10 n, h3, Nat.ofDigits_digits]

theorem decStr_ne_nil (n : Nat) : decStr n ≠ [] := by
  unfold decStr
  by_cases h : n = 0
  · rw [if_pos h]; simp
  · rw [if_neg h]
    simp only [ne_eq, List.map_eq_nil_iff, List.reverse_eq_nil_iff]
    exact Nat.digits_ne_nil_iff_ne_zero.mpr h

/-- A sign in front of digits can be recognised. -/
theorem sign_split {s t : Bool} {x y : List Char} (hx : '-' ∉ x) (hy : '-' ∉ y)
    (h : (if s then ['-'] else []) ++ x = (if t then ['-'] else []) ++ y) : s = t ∧ x = y := by
  cases s <;> cases t <;> simp at h
  · exact ⟨rfl, h⟩
  · exact absurd (h ▸ List.mem_cons_self) hx
  · exact absurd (h ▸ List.mem_cons_self) hy
  · exact ⟨rfl, h⟩

theorem dash_notin_dec (n : Nat) : '-' ∉ decStr n := by
  intro h
  have := isDig_cases (decStr_digits n _ h)
  revert this; decide

theorem intStr_inj {y z : Int} (h : intStr y = intStr z) : y = z := by
  unfold intStr at h
  have h2 := @sign_split (decide (y < 0)) (decide (z < 0)) (decStr y.natAbs) (decStr z.natAbs)
    (dash_notin_dec _) (dash_notin_dec _) (by simpa using h)
  have h3 := decStr_inj h2.2
  have h4 : y < 0 ↔ z < 0 := by simpa using h2.1
  omega

/-- The characters that a number is made of. -/
def NumChar (c : Char) : Prop := IsDig c ∨ c = '-' ∨ c = '.' ∨ c = '/'

theorem numChar_cases {c : Char} (h : NumChar c) :
    c ≠ ' ' ∧ c ≠ '=' ∧ c ≠ '_' ∧ c ≠ '|' := by
  rcases h with h | h | h | h
  · rcases isDig_cases h with h | h | h | h | h | h | h | h | h | h <;> subst h <;> decide
  all_goals (subst h; decide)

theorem intStr_chars (z : Int) : ∀ c ∈ intStr z, NumChar c := by
  intro c hc
  unfold intStr at hc
  rcases List.mem_append.mp hc with h | h
  · by_cases hz : z < 0
    · rw [if_pos hz] at h
      exact Or.inr (Or.inl (by simpa using h))
    · rw [if_neg hz] at h; simp at h
  · exact Or.inl (decStr_digits _ c h)

theorem floatStr_chars (big : SFloat → List Char) {x : SFloat} (hx : x.mag2 < 200000) :
    ∀ c ∈ floatStr big x, IsDig c ∨ c = '-' ∨ c = '.' := by
  intro c hc
  unfold floatStr at hc
  rw [if_pos hx] at hc
  simp only [List.mem_append] at hc
  rcases hc with (h | h) | h
  · cases hn : x.neg <;> simp [hn] at h
    exact Or.inr (Or.inl h)
  · exact Or.inl (decStr_digits _ c h)
  · by_cases hm : x.mag2 % 2 = 0
    · rw [if_pos hm] at h; simp at h
    · rw [if_neg hm] at h
      simp only [List.mem_cons, List.not_mem_nil, or_false] at h
      rcases h with h | h
      · exact Or.inr (Or.inr h)
      · exact Or.inl ⟨5, by norm_num, by rw [h]; decide⟩

theorem slash_notin_float (big : SFloat → List Char) {x : SFloat} (hx : x.mag2 < 200000) :
    '/' ∉ floatStr big x := by
  intro h
  rcases floatStr_chars big hx _ h with h | h | h
  · have := isDig_cases h
    revert this; decide
  · revert h; decide
  · revert h; decide

/-- Number strings of integers and half-integers below 100000 determine the float, sign of zero
included. -/
theorem floatStr_inj (big : SFloat → List Char) {x y : SFloat} (hx : x.mag2 < 200000)
    (hy : y.mag2 < 200000) (h : floatStr big x = floatStr big y) : x = y := by
  unfold floatStr at h
  rw [if_pos hx, if_pos hy, List.append_assoc, List.append_assoc] at h
  have hd : ∀ k : Nat, '-' ∉ decStr (k / 2) ++ (if k % 2 = 0 then [] else ['.', '5']) := by
    intro k hk
    rcases List.mem_append.mp hk with h | h
    · exact dash_notin_dec _ h
    · by_cases hm : k % 2 = 0
      · rw [if_pos hm] at h; simp at h
      · rw [if_neg hm] at h; revert h; decide
  obtain ⟨h1, h2⟩ := sign_split (hd _) (hd _) h
  have dot : ∀ k, '.' ∉ decStr k := by
    intro k hk
    have := isDig_cases (decStr_digits k _ hk)
    revert this; decide
  have hv : x.mag2 = y.mag2 := by
    by_cases hmx : x.mag2 % 2 = 0 <;> by_cases hmy : y.mag2 % 2 = 0
    · rw [if_pos hmx, if_pos hmy, List.append_nil, List.append_nil] at h2
      have := decStr_inj h2
      omega
    · rw [if_pos hmx, if_neg hmy, List.append_nil] at h2
      exact absurd (h2 ▸ (by simp : '.' ∈ decStr (y.mag2 / 2) ++ ['.', '5'])) (dot _)
    · rw [if_neg hmx, if_pos hmy, List.append_nil] at h2
      exact absurd (h2 ▸ (by simp : '.' ∈ decStr (x.mag2 / 2) ++ ['.', '5'])) (dot _)
    · rw [if_neg hmx, if_neg hmy] at h2
      have := decStr_inj (List.append_cancel_right h2)
      omega
  cases x; cases y
  simp only at h1 hv
  rw [h1, hv]

theorem momentumLabel_ok {l : Int} (hl : 0 ≤ l) : ∃ L, momentumLabel l = .ok L := by
  unfold momentumLabel
  by_cases h : l < 7
  · rw [if_pos h, if_neg (by omega)]; exact ⟨_, rfl⟩
  · rw [if_neg h]; exact ⟨_, rfl⟩

theorem momentumLabel_nonneg {l : Int} {L : List Char} (h : momentumLabel l = .ok L) : 0 ≤ l := by
  unfold momentumLabel at h
  by_cases h7 : l < 7
  · by_cases h0 : l < 0
    · rw [if_pos h7, if_pos h0] at h; cases h
    · omega
  · omega

theorem momentum_letter {l : Int} (h0 : 0 ≤ l) (h7 : l < 7) {L : List Char}
    (h : momentumLabel l = .ok L) : ∃ c, L = [c] ∧ ¬ NumChar c ∧ c ≠ ' ' ∧ c ≠ '_' ∧ c ≠ '|' ∧
      ['S', 'P', 'D', 'F', 'G', 'H', 'I'].getD l.toNat ' ' = c := by
  unfold momentumLabel at h
  rw [if_pos h7, if_neg (by omega)] at h
  injection h with h
  refine ⟨_, h.symm, ?_, ?_, ?_, ?_, rfl⟩
  · intro hc
    rcases hc with hc | hc
    · have := isDig_cases hc
      revert this
      interval_cases l <;> decide
    · revert hc
      interval_cases l <;> decide
  all_goals (interval_cases l <;> decide)

theorem momentumLabel_chars {l : Int} {L : List Char} (h : momentumLabel l = .ok L) :
    ∀ c ∈ L, c ≠ ' ' ∧ c ≠ '_' ∧ c ≠ '|' := by
  intro c hc
  by_cases h7 : l < 7
  · obtain ⟨d, hL, _, h1, h2, h3, _⟩ := momentum_letter (momentumLabel_nonneg h) h7 h
    rw [hL] at hc
    simp only [List.mem_singleton] at hc
    rw [hc]; exact ⟨h1, h2, h3⟩
  · unfold momentumLabel at h
    rw [if_neg h7] at h
    injection h with h
    have := numChar_cases (intStr_chars l c (h ▸ hc))
    exact ⟨this.1, this.2.2.1, this.2.2.2⟩

theorem intStr_ne_nil (z : Int) : intStr z ≠ [] := by
  unfold intStr
  intro h
  exact decStr_ne_nil _ (List.append_eq_nil_iff.mp h).2

theorem momentumLabel_inj {l k : Int} {L : List Char} (h : momentumLabel l = .ok L)
    (h' : momentumLabel k = .ok L) : l = k := by
  have hl := momentumLabel_nonneg h
  have hk := momentumLabel_nonneg h'
  by_cases h7 : l < 7 <;> by_cases k7 : k < 7
  · obtain ⟨c, h1, _, _, _, _, h2⟩ := momentum_letter hl h7 h
    obtain ⟨d, h3, _, _, _, _, h4⟩ := momentum_letter hk k7 h'
    have hcd : c = d := by rw [h1] at h3; simpa using h3
    rw [← h2, ← h4] at hcd
    revert hcd
    interval_cases l <;> interval_cases k <;> decide
  · obtain ⟨c, h1, h2, _⟩ := momentum_letter hl h7 h
    unfold momentumLabel at h'
    rw [if_neg k7] at h'
    injection h' with h'
    exact absurd (intStr_chars k c (by rw [h', h1]; simp)) h2
  · obtain ⟨c, h1, h2, _⟩ := momentum_letter hk k7 h'
    unfold momentumLabel at h
    rw [if_neg h7] at h
    injection h with h
    exact absurd (intStr_chars l c (by rw [h, h1]; simp)) h2
  · unfold momentumLabel at h h'
    rw [if_neg h7] at h
    rw [if_neg k7] at h'
    injection h with h
    injection h' with h'
    exact intStr_inj (h.trans h'.symm)

/-! ## The strings of states -/

/-- The string of the part `j` resp. `mj` behind `_` resp. `mj=`. -/
def momStr (big : SFloat → List Char) (half : Bool) (x : SFloat) : List Char :=
  if half then floatStr big x.twice ++ ['/', '2'] else floatStr big x

theorem str_phys (big : SFloat → List Char) {a : PState} {L : List Char} (hn : a.n ≠ 0)
    (hL : momentumLabel a.l = .ok L) :
    a.str big = .ok (['|'] ++ (a.species ++ [','] ++ [' '] ++ intStr a.n ++ [' '] ++ L ++ ['_'] ++
      momStr big (decide (a.j.mag2 % 2 ≠ 0)) a.j ++ [',', ' ', 'm', 'j'] ++ ['='] ++
        momStr big (decide (a.j.mag2 % 2 ≠ 0)) a.m) ++ ['>']) := by
  unfold PState.str momStr
  rw [if_neg hn, hL]
  by_cases hj : a.j.mag2 % 2 = 0
  · simp [hj]
  · simp [hj]

/-- The numbers are so small that they are printed exactly (`ARB = 32767` is allowed). -/
def PState.Small (a : PState) : Prop := a.j.mag2 < 100000 ∧ a.m.mag2 < 100000

theorem momStr_chars (big : SFloat → List Char) (h : Bool) {x : SFloat} (hx : x.mag2 < 100000) :
    ∀ c ∈ momStr big h x, NumChar c := by
  intro c hc
  have key : ∀ y : SFloat, y.mag2 < 200000 → ∀ c ∈ floatStr big y, NumChar c := by
    intro y hy c hc
    rcases floatStr_chars big hy c hc with h | h | h
    · exact Or.inl h
    · exact Or.inr (Or.inl h)
    · exact Or.inr (Or.inr (Or.inl h))
  cases h
  · exact key x (by omega) c hc
  · simp only [momStr, if_true, List.mem_append, List.mem_cons, List.not_mem_nil, or_false] at hc
    rcases hc with h | h | h
    · exact key x.twice (by unfold SFloat.twice; simp only; omega) c h
    · exact Or.inr (Or.inr (Or.inr h))
    · exact Or.inl ⟨2, by norm_num, by rw [h]; decide⟩

theorem momStr_inj (big : SFloat → List Char) (h : Bool) {x y : SFloat} (hx : x.mag2 < 100000)
    (hy : y.mag2 < 100000) (he : momStr big h x = momStr big h y) : x = y := by
  cases h
  · exact floatStr_inj big (by omega) (by omega) he
  · have h2 := floatStr_inj big (x := x.twice) (y := y.twice)
      (by unfold SFloat.twice; simp only; omega) (by unfold SFloat.twice; simp only; omega)
      (List.append_cancel_right he)
    cases x; cases y
    simp only [SFloat.twice, SFloat.mk.injEq] at h2 ⊢
    exact ⟨h2.1, by omega⟩

theorem momStr_half (big : SFloat → List Char) {h k : Bool} {x y : SFloat} (hx : x.mag2 < 100000)
    (hy : y.mag2 < 100000) (he : momStr big h x = momStr big k y) : h = k := by
  cases h <;> cases k
  · rfl
  · have h2 : '/' ∈ momStr big false x := he ▸ (by simp [momStr] : '/' ∈ momStr big true y)
    exact absurd h2 (slash_notin_float big (x := x) (by omega))
  · have h2 : '/' ∈ momStr big false y := he ▸ (by simp [momStr] : '/' ∈ momStr big true x)
    exact absurd h2 (slash_notin_float big (x := y) (by omega))
  · rfl

/-- **C112.** Two physical states with the same string are the same state, for every species name. -/
theorem C112_string_identifies (big : SFloat → List Char) (a b : PState) (ha : a.n ≠ 0) (hb : b.n ≠ 0)
    (hsa : a.Small) (hsb : b.Small) (s : List Char) (h1 : a.str big = .ok s)
    (h2 : b.str big = .ok s) : a = b := by
  have lab : ∀ {c : PState}, c.n ≠ 0 → c.str big = .ok s → ∃ L, momentumLabel c.l = .ok L := by
    intro c hc h
    unfold PState.str at h
    rw [if_neg hc] at h
    cases hL : momentumLabel c.l with
    | ok L => exact ⟨L, rfl⟩
    | throw => rw [hL] at h; cases h
    | ub => rw [hL] at h; cases h
  obtain ⟨L, hL⟩ := lab ha h1
  obtain ⟨K, hK⟩ := lab hb h2
  rw [str_phys big ha hL] at h1
  rw [str_phys big hb hK] at h2
  injection h1 with h1
  injection h2 with h2
  have h := h1.trans h2.symm
  have h := List.append_cancel_left (List.append_cancel_right h)
  have numNot : ∀ {h : Bool} {x : SFloat}, x.mag2 < 100000 →
      '=' ∉ momStr big h x ∧ '_' ∉ momStr big h x := by
    intro h x hx
    exact ⟨fun hc => (numChar_cases (momStr_chars big h hx _ hc)).2.1 rfl,
      fun hc => (numChar_cases (momStr_chars big h hx _ hc)).2.2.1 rfl⟩
  obtain ⟨h, hm⟩ := split_last (numNot hsa.2).1 (numNot hsb.2).1 h
  have h := List.append_cancel_right h
  obtain ⟨h, hj⟩ := split_last (numNot hsa.1).2 (numNot hsb.1).2 h
  have labNot : ∀ {l : Int} {L : List Char}, momentumLabel l = .ok L → ' ' ∉ L :=
    fun h hc => (momentumLabel_chars h _ hc).1 rfl
  obtain ⟨h, hl⟩ := split_last (labNot hL) (labNot hK) h
  have intNot : ∀ z : Int, ' ' ∉ intStr z :=
    fun z hc => (numChar_cases (intStr_chars z _ hc)).1 rfl
  obtain ⟨h, hn⟩ := split_last (intNot _) (intNot _) h
  have hs := List.append_cancel_right h
  have hhalf := momStr_half big hsa.1 hsb.1 hj
  rw [hhalf] at hj hm
  have ej := momStr_inj big _ hsa.1 hsb.1 hj
  have em := momStr_inj big _ hsa.2 hsb.2 hm
  have en := intStr_inj hn
  have el := momentumLabel_inj hL (hl ▸ hK)
  cases a; cases b
  simp only at hs en el ej em
  rw [hs, en, el, ej, em]

/-- `|Rb, 61 S_1/2, mj=-1/2>` -/
def pRb : PState := ⟨['R', 'b'], 61, 0, ⟨false, 1⟩, ⟨true, 1⟩⟩
/-- `|Sr3, 70 12_13, mj=0>` -/
def pSr : PState := ⟨['S', 'r', '3'], 70, 12, ⟨false, 26⟩, ⟨false, 0⟩⟩
/-- No number of the examples is printed with rounding. -/
def noBig : SFloat → List Char := fun _ => []

example : pRb.str noBig = .ok "|Rb, 61 S_1/2, mj=-1/2>".toList := by decide +kernel
example : pSr.str noBig = .ok "|Sr3, 70 12_13, mj=0>".toList := by decide +kernel
example : pRb.n ≠ 0 ∧ pRb.Small ∧ pSr.n ≠ 0 ∧ pSr.Small := by
  refine ⟨by decide, ?_, by decide, ?_⟩ <;> (unfold PState.Small; decide)

/-- **C112.** Physical states with non-negative `l` always have a string; a negative `l` reads outside
of the table of letters. -/
theorem C112_string_defined (big : SFloat → List Char) (a : PState) :
    ((∃ s, a.str big = .ok s) ↔ (a.n = 0 ∨ 0 ≤ a.l)) ∧
      (a.n ≠ 0 → a.l < 0 → a.str big = .ub) := by
  constructor
  · constructor
    · rintro ⟨s, h⟩
      by_cases hn : a.n = 0
      · exact Or.inl hn
      · right
        unfold PState.str at h
        rw [if_neg hn] at h
        cases hL : momentumLabel a.l with
        | ok L => exact momentumLabel_nonneg hL
        | throw => rw [hL] at h; cases h
        | ub => rw [hL] at h; cases h
    · intro h
      by_cases hn : a.n = 0
      · exact ⟨_, by unfold PState.str; rw [if_pos hn]⟩
      · obtain ⟨L, hL⟩ := momentumLabel_ok (h.resolve_left hn)
        exact ⟨_, str_phys big hn hL⟩
  · intro hn hl
    unfold PState.str momentumLabel
    rw [if_neg hn, if_pos (by omega), if_pos hl]

example : (⟨['R', 'b'], 5, -1, ⟨false, 1⟩, ⟨false, 1⟩⟩ : PState).str noBig = .ub := by decide +kernel

/-- No negative zero among the numbers. -/
def PState.NoNegZero (a : PState) : Prop := (a.j.mag2 = 0 → a.j.neg = false) ∧
  (a.m.mag2 = 0 → a.m.neg = false)

theorem val2_inj {x y : SFloat} (hx : x.mag2 = 0 → x.neg = false) (hy : y.mag2 = 0 → y.neg = false)
    (h : x.val2 = y.val2) : x = y := by
  cases x with | mk s k => cases y with | mk t i =>
  simp only [SFloat.val2] at h hx hy
  cases s <;> cases t <;> simp at h hx hy ⊢ <;> omega

theorem PState.eq_iff (a b : PState) : a.eq b = true ↔
    a.species = b.species ∧ a.n = b.n ∧ a.l = b.l ∧ a.j.val2 = b.j.val2 ∧ a.m.val2 = b.m.val2 := by
  unfold PState.eq
  simp only [Bool.and_eq_true, beq_iff_eq]
  tauto

/-- **C112.** For physical states without negative zeros, `a == b` exactly when the strings agree. -/
theorem C112_string_iff_equal (big : SFloat → List Char) (a b : PState) (ha : a.n ≠ 0) (hb : b.n ≠ 0)
    (la : 0 ≤ a.l) (hsa : a.Small) (hsb : b.Small) (za : a.NoNegZero) (zb : b.NoNegZero) :
    a.eq b = true ↔ a.str big = b.str big := by
  constructor
  · intro h
    obtain ⟨h1, h2, h3, h4, h5⟩ := (PState.eq_iff a b).mp h
    have e4 := val2_inj za.1 zb.1 h4
    have e5 := val2_inj za.2 zb.2 h5
    have : a = b := by
      cases a; cases b
      simp only at h1 h2 h3 e4 e5
      rw [h1, h2, h3, e4, e5]
    rw [this]
  · intro h
    obtain ⟨s, hs⟩ := ((C112_string_defined big a).1.mpr (Or.inr la))
    have := C112_string_identifies big a b ha hb hsa hsb s hs (h ▸ hs)
    rw [this, PState.eq_iff]
    exact ⟨rfl, rfl, rfl, rfl, rfl⟩

example : pSr.NoNegZero ∧ pRb.NoNegZero ∧ 0 ≤ pSr.l := by
  refine ⟨?_, ?_, by decide⟩ <;> (unfold PState.NoNegZero; decide)

theorem SFloat.ofInt_val2 (z : Int) : (SFloat.ofInt z).val2 = z := by
  unfold SFloat.ofInt SFloat.val2
  by_cases h : z < 0
  · simp only [h, decide_true, if_true]; omega
  · simp only [h, decide_false, Bool.false_eq_true, if_false]; omega

/-- **C112.** In terms of the states of the main model: equality of states is equality of strings. -/
theorem C112_states (big : SFloat → List Char) (a b : StateOne) (ha : a.n ≠ 0) (hb : b.n ≠ 0)
    (la : 0 ≤ a.l) (ja : a.j2.natAbs < 100000) (ma : a.m2.natAbs < 100000)
    (jb : b.j2.natAbs < 100000) (mb : b.m2.natAbs < 100000) :
    a.eq b = true ↔ (PState.ofState a).str big = (PState.ofState b).str big := by
  have hz : ∀ c : StateOne, (PState.ofState c).NoNegZero := by
    intro c
    constructor <;>
    · intro h
      simp only [PState.ofState, SFloat.ofInt, Int.natAbs_eq_zero] at h
      simp [PState.ofState, SFloat.ofInt, h]
  rw [← C112_string_iff_equal big (PState.ofState a) (PState.ofState b) ha hb la ⟨ja, ma⟩ ⟨jb, mb⟩
    (hz a) (hz b), PState.eq_iff, StateOne.eq_iff]
  unfold SameOne
  simp only [PState.ofState, SFloat.ofInt_val2, String.toList_inj]

example : rb61.n ≠ 0 ∧ 0 ≤ rb61.l ∧ rb61.j2.natAbs < 100000 ∧ rb61.m2.natAbs < 100000 := by decide

/-- **C112.** The negative zero breaks one direction: a state with `m = 0` equals its reflection, but
is printed differently. -/
theorem C112_negative_zero_fails : ∃ a : PState, a.n ≠ 0 ∧ 0 ≤ a.l ∧ a.Small ∧
    a.eq a.reflected = true ∧ ∀ big, a.str big ≠ a.reflected.str big := by
  refine ⟨pSr, by decide, by decide, by unfold PState.Small; decide, by decide, ?_⟩
  intro big h
  obtain ⟨s, hs⟩ := ((C112_string_defined big pSr).1.mpr (Or.inr (by decide)))
  have := C112_string_identifies big pSr pSr.reflected (by decide) (by decide)
    (by unfold PState.Small; decide) (by unfold PState.Small; decide) s hs (h ▸ hs)
  revert this
  decide

/-- **C112.** Artificial states are identified among themselves by their string. -/
theorem C112_artificial (big : SFloat → List Char) (a b : PState) (ha : a.n = 0) (hb : b.n = 0)
    (h : a.str big = b.str big) : a.species = b.species := by
  unfold PState.str at h
  rw [if_pos ha, if_pos hb] at h
  injection h with h
  exact List.append_cancel_left (List.append_cancel_right h)

example : (⟨['G'], 0, 0, ⟨false, 0⟩, ⟨false, 0⟩⟩ : PState).n = 0 := rfl

/-- **C112.** A label can imitate a physical state. -/
theorem C112_artificial_fails : ∃ a b : PState, a.n = 0 ∧ b.n ≠ 0 ∧ b.Small ∧
    a.str noBig = b.str noBig := by
  refine ⟨⟨"Rb, 61 S_1/2, mj=-1/2".toList, 0, 0, ⟨false, 0⟩, ⟨false, 0⟩⟩, pRb, rfl, by decide,
    by unfold PState.Small; decide, by decide +kernel⟩

/-! ## Pairs -/

theorem str_shape (big : SFloat → List Char) {a : PState} {s : List Char} (ha : a.n = 0 ∨ a.Small)
    (hp : '|' ∉ a.species) (h : a.str big = .ok s) : ∃ t, s = ['|'] ++ t ∧ '|' ∉ t := by
  by_cases hn : a.n = 0
  · unfold PState.str at h
    rw [if_pos hn] at h
    injection h with h
    refine ⟨a.species ++ ['>'], by rw [← h]; simp, ?_⟩
    simp [hp]
  · have hl : 0 ≤ a.l := ((C112_string_defined big a).1.mp ⟨s, h⟩).resolve_left hn
    obtain ⟨L, hL⟩ := momentumLabel_ok hl
    have hs := ha.resolve_left hn
    rw [str_phys big hn hL] at h
    injection h with h
    refine ⟨_, by rw [← h, List.append_assoc], ?_⟩
    have e1 : '|' ∉ intStr a.n := fun hc => (numChar_cases (intStr_chars _ _ hc)).2.2.2 rfl
    have e2 : '|' ∉ L := fun hc => (momentumLabel_chars hL _ hc).2.2 rfl
    have e3 : ∀ {k : Bool}, '|' ∉ momStr big k a.j :=
      fun hc => (numChar_cases (momStr_chars big _ hs.1 _ hc)).2.2.2 rfl
    have e4 : ∀ {k : Bool}, '|' ∉ momStr big k a.m :=
      fun hc => (numChar_cases (momStr_chars big _ hs.2 _ hc)).2.2.2 rfl
    simp [hp, e1, e2, e3, e4]

/-- **C112.** The string of a pair state identifies both atoms when no species name contains `|`. -/
theorem C112_pair (big : SFloat → List Char) (a b a' b' : PState)
    (hn : a.n ≠ 0 ∧ b.n ≠ 0 ∧ a'.n ≠ 0 ∧ b'.n ≠ 0)
    (hs : a.Small ∧ b.Small ∧ a'.Small ∧ b'.Small)
    (hp : '|' ∉ b.species ∧ '|' ∉ b'.species)
    (s : List Char) (h1 : pairStr big a b = .ok s) (h2 : pairStr big a' b' = .ok s) :
    a = a' ∧ b = b' := by
  have split : ∀ {x y : PState}, pairStr big x y = .ok s → ∃ u v, x.str big = .ok u ∧
      y.str big = .ok v ∧ s = u ++ v := by
    intro x y h
    unfold pairStr at h
    cases hx : x.str big with
    | throw => rw [hx] at h; cases h
    | ub => rw [hx] at h; cases h
    | ok u =>
      rw [hx] at h
      cases hy : y.str big with
      | throw => rw [hy] at h; cases h
      | ub => rw [hy] at h; cases h
      | ok v =>
        rw [hy] at h
        injection h with h
        exact ⟨u, v, rfl, rfl, h.symm⟩
  obtain ⟨u, v, hu, hv, e⟩ := split h1
  obtain ⟨u', v', hu', hv', e'⟩ := split h2
  obtain ⟨t, ht, nt⟩ := str_shape big (Or.inr hs.2.1) hp.1 hv
  obtain ⟨t', ht', nt'⟩ := str_shape big (Or.inr hs.2.2.2) hp.2 hv'
  have h := e.symm.trans e'
  rw [ht, ht', ← List.append_assoc, ← List.append_assoc] at h
  obtain ⟨h3, h4⟩ := split_last nt nt' h
  refine ⟨C112_string_identifies big a a' hn.1 hn.2.2.1 hs.1 hs.2.2.1 u hu (h3 ▸ hu'),
    C112_string_identifies big b b' hn.2.1 hn.2.2.2 hs.2.1 hs.2.2.2 v hv ?_⟩
  rw [hv', ht, ht', h4]

example : pairStr noBig pRb pSr = .ok "|Rb, 61 S_1/2, mj=-1/2>|Sr3, 70 12_13, mj=0>".toList := by
  decide +kernel
example : '|' ∉ pRb.species ∧ '|' ∉ pSr.species := by decide

/-- **C112.** With a `|` in a name two different pairs can have the same string. -/
theorem C112_pair_fails : ∃ a b a' b' : PState, (a.n = 0 ∧ b.n = 0 ∧ a'.n = 0 ∧ b'.n = 0) ∧
    a.species ≠ a'.species ∧ pairStr noBig a b = pairStr noBig a' b' := by
  refine ⟨⟨"a".toList, 0, 0, ⟨false, 0⟩, ⟨false, 0⟩⟩, ⟨"b>|c".toList, 0, 0, ⟨false, 0⟩, ⟨false, 0⟩⟩,
    ⟨"a>|b".toList, 0, 0, ⟨false, 0⟩, ⟨false, 0⟩⟩, ⟨"c".toList, 0, 0, ⟨false, 0⟩, ⟨false, 0⟩⟩,
    by decide, by decide, by decide +kernel⟩

/-! ## Legacy states -/

/-- The common part of the strings determines the state. -/
theorem core_inj (big : SFloat → List Char) {a b : PState} (hsa : a.Small) (hsb : b.Small)
    {L K ta tb : List Char} (hL : momentumLabel a.l = .ok L) (hK : momentumLabel b.l = .ok K)
    (hta : ∀ c ∈ ta, c = '>') (htb : ∀ c ∈ tb, c = '>')
    (htt : (a.j.mag2 % 2 = 0 ↔ b.j.mag2 % 2 = 0) → ta = tb)
    (h : oldHead big a L ++ oldMj big a ++ ta = oldHead big b K ++ oldMj big b ++ tb) : a = b := by
  have norm : ∀ (c : PState) (M t : List Char), oldHead big c M ++ oldMj big c ++ t =
      (c.species ++ [','] ++ [' '] ++ intStr c.n ++ [' '] ++ M ++ ['_'] ++
        momStr big (decide (c.j.mag2 % 2 ≠ 0)) c.j ++ [',', ' ', 'm', 'j']) ++ ['='] ++
          (momStr big (decide (c.j.mag2 % 2 ≠ 0)) c.m ++ t) := by
    intro c M t
    unfold oldHead oldMj momStr
    by_cases hj : c.j.mag2 % 2 = 0
    · simp [hj]
    · simp [hj]
  rw [norm, norm] at h
  have numNot : ∀ {k : Bool} {x : SFloat}, x.mag2 < 100000 →
      '=' ∉ momStr big k x ∧ '_' ∉ momStr big k x := by
    intro k x hx
    exact ⟨fun hc => (numChar_cases (momStr_chars big k hx _ hc)).2.1 rfl,
      fun hc => (numChar_cases (momStr_chars big k hx _ hc)).2.2.1 rfl⟩
  have tailNot : ∀ {t : List Char}, (∀ c ∈ t, c = '>') → '=' ∉ t := by
    intro t ht hc
    have := ht _ hc
    revert this; decide
  obtain ⟨h, hm⟩ := split_last
    (fun hc => (List.mem_append.mp hc).elim (numNot hsa.2).1 (tailNot hta))
    (fun hc => (List.mem_append.mp hc).elim (numNot hsb.2).1 (tailNot htb)) h
  have h := List.append_cancel_right h
  obtain ⟨h, hj⟩ := split_last (numNot hsa.1).2 (numNot hsb.1).2 h
  obtain ⟨h, hl⟩ := split_last (fun hc => (momentumLabel_chars hL _ hc).1 rfl)
    (fun hc => (momentumLabel_chars hK _ hc).1 rfl) h
  obtain ⟨h, hn⟩ := split_last (fun hc => (numChar_cases (intStr_chars _ _ hc)).1 rfl)
    (fun hc => (numChar_cases (intStr_chars _ _ hc)).1 rfl) h
  have hs := List.append_cancel_right h
  have hhalf := momStr_half big hsa.1 hsb.1 hj
  have htail : ta = tb := htt (by
    have h9 : a.j.mag2 % 2 = 1 ↔ b.j.mag2 % 2 = 1 := by simpa using hhalf
    omega)
  rw [htail] at hm
  have hm := List.append_cancel_right hm
  rw [hhalf] at hj hm
  have ej := momStr_inj big _ hsa.1 hsb.1 hj
  have em := momStr_inj big _ hsa.2 hsb.2 hm
  have en := intStr_inj hn
  have el := momentumLabel_inj hL (hl ▸ hK)
  cases a; cases b
  simp only at hs en el ej em
  rw [hs, en, el, ej, em]

/-- **C112.** The string of a legacy state identifies it, species included. -/
theorem C112_legacy (big : SFloat → List Char) (a b : PState) (hsa : a.Small) (hsb : b.Small)
    (s : List Char) (h1 : oldStr big a = .ok s) (h2 : oldStr big b = .ok s) : a = b := by
  unfold oldStr at h1 h2
  cases hL : momentumLabel a.l with
  | throw => rw [hL] at h1; cases h1
  | ub => rw [hL] at h1; cases h1
  | ok L =>
    cases hK : momentumLabel b.l with
    | throw => rw [hK] at h2; cases h2
    | ub => rw [hK] at h2; cases h2
    | ok K =>
      rw [hL] at h1
      rw [hK] at h2
      injection h1 with h1
      injection h2 with h2
      have h := List.append_cancel_left (List.append_cancel_right (h1.trans h2.symm))
      exact core_inj big hsa hsb hL hK (ta := []) (tb := []) (by simp) (by simp) (fun _ => rfl)
        (by simpa using h)

example : oldStr noBig pRb = .ok "|Rb, 61 S_1/2, mj=-1/2>".toList := by decide +kernel

theorem oldPart_no_semicolon (big : SFloat → List Char) {a : PState} (hs : a.Small)
    (hp : ';' ∉ a.species) {L : List Char} (hL : momentumLabel a.l = .ok L) :
    ';' ∉ oldPart big a L := by
  have num : ∀ {c : Char}, NumChar c → c ≠ ';' := by
    intro c hc e
    rcases hc with h | h | h | h
    · have := isDig_cases h
      rw [e] at this
      revert this; decide
    all_goals (rw [e] at h; revert h; decide)
  have e1 : ';' ∉ intStr a.n := fun hc => num (intStr_chars _ _ hc) rfl
  have e2 : ';' ∉ L := by
    intro hc
    by_cases h7 : a.l < 7
    · have h0 := momentumLabel_nonneg hL
      unfold momentumLabel at hL
      rw [if_pos h7, if_neg (by omega)] at hL
      injection hL with hL
      rw [← hL] at hc
      revert hc
      generalize a.l = l at h7 h0
      interval_cases l <;> decide
    · unfold momentumLabel at hL
      rw [if_neg h7] at hL
      injection hL with hL
      exact num (intStr_chars _ _ (hL ▸ hc)) rfl
  have fl : ∀ {x : SFloat}, x.mag2 < 200000 → ';' ∉ floatStr big x := by
    intro x hx hc
    rcases floatStr_chars big hx _ hc with h | h | h
    · exact num (Or.inl h) rfl
    · revert h; decide
    · revert h; decide
  have f1 := fl (x := a.j) (by have := hs.1; omega)
  have f2 := fl (x := a.m) (by have := hs.2; omega)
  have f3 := fl (x := a.j.twice) (by have := hs.1; unfold SFloat.twice; simp only; omega)
  have f4 := fl (x := a.m.twice) (by have := hs.2; unfold SFloat.twice; simp only; omega)
  unfold oldPart oldHead oldMj
  by_cases hj : a.j.mag2 % 2 = 0
  · simp [hj, hp, e1, e2, f1, f2]
  · simp [hj, hp, e1, e2, f3, f4]

/-- **C112.** The string of a legacy pair state identifies both atoms when no species name contains
`;`, in spite of the superfluous `>` for integer `j`. -/
theorem C112_legacy_pair (big : SFloat → List Char) (a b a' b' : PState)
    (hs : a.Small ∧ b.Small ∧ a'.Small ∧ b'.Small)
    (hp : ';' ∉ b.species ∧ ';' ∉ b'.species)
    (s : List Char) (h1 : oldPairStr big a b = .ok s) (h2 : oldPairStr big a' b' = .ok s) :
    a = a' ∧ b = b' := by
  have split : ∀ {x y : PState}, oldPairStr big x y = .ok s → ∃ L K, momentumLabel x.l = .ok L ∧
      momentumLabel y.l = .ok K ∧
        ['|'] ++ (oldPart big x L ++ [';', ' '] ++ oldPart big y K) ++ ['>'] = s := by
    intro x y h
    unfold oldPairStr at h
    cases hL : momentumLabel x.l with
    | throw => rw [hL] at h; cases h
    | ub => rw [hL] at h; cases h
    | ok L =>
      cases hK : momentumLabel y.l with
      | throw => rw [hL, hK] at h; cases h
      | ub => rw [hL, hK] at h; cases h
      | ok K =>
        rw [hL, hK] at h
        injection h with h
        exact ⟨L, K, rfl, rfl, h⟩
  obtain ⟨L, K, hL, hK, e1⟩ := split h1
  obtain ⟨L', K', hL', hK', e2⟩ := split h2
  have h := List.append_cancel_left (List.append_cancel_right (e1.trans e2.symm))
  have re : ∀ u v : List Char, u ++ [';', ' '] ++ v = u ++ [';'] ++ ([' '] ++ v) := by
    intro u v; simp
  rw [re, re] at h
  have semi : ∀ {v : List Char}, ';' ∉ v → ';' ∉ [' '] ++ v := by
    intro v hv
    simp [hv]
  obtain ⟨h3, h4⟩ := split_last (semi (oldPart_no_semicolon big hs.2.1 hp.1 hK))
    (semi (oldPart_no_semicolon big hs.2.2.2 hp.2 hK')) h
  have h4 := List.append_cancel_left h4
  have tail : ∀ c : PState, ∀ x ∈ (if c.j.mag2 % 2 = 0 then ['>'] else []), x = '>' := by
    intro c x hx
    by_cases hj : c.j.mag2 % 2 = 0
    · rw [if_pos hj] at hx; simpa using hx
    · rw [if_neg hj] at hx; simp at hx
  have tt : ∀ c d : PState, (c.j.mag2 % 2 = 0 ↔ d.j.mag2 % 2 = 0) →
      (if c.j.mag2 % 2 = 0 then ['>'] else []) = (if d.j.mag2 % 2 = 0 then ['>'] else []) := by
    intro c d hcd
    by_cases hj : c.j.mag2 % 2 = 0
    · rw [if_pos hj, if_pos (hcd.mp hj)]
    · rw [if_neg hj, if_neg (fun h => hj (hcd.mpr h))]
  exact ⟨core_inj big hs.1 hs.2.2.1 hL hL' (tail a) (tail a') (tt a a') h3,
    core_inj big hs.2.1 hs.2.2.2 hK hK' (tail b) (tail b') (tt b b') h4⟩

example : oldPairStr noBig pSr pRb =
    .ok "|Sr3, 70 12_13, mj=0>; Rb, 61 S_1/2, mj=-1/2>".toList := by decide +kernel
example : ';' ∉ pRb.species ∧ pRb.Small ∧ pSr.Small := by
  refine ⟨by decide, ?_, ?_⟩ <;> (unfold PState.Small; decide)

/-- **C112.** The comparison of legacy states ignores the species, which the string shows. -/
theorem C112_legacy_species_fails : ∃ a b : PState, a.Small ∧ b.Small ∧ oldEq a b = true ∧
    oldStr noBig a ≠ oldStr noBig b := by
  refine ⟨pRb, { pRb with species := ['C', 's'] }, by unfold PState.Small; decide,
    by unfold PState.Small; decide, by decide, by decide +kernel⟩

end PI
