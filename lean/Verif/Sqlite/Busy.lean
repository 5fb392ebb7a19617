import Verif.Sqlite.BusyModel
import Mathlib.Data.Finset.Range
import Mathlib.Algebra.BigOperators.Group.Finset.Basic
import Mathlib.Algebra.Order.BigOperators.Group.Finset
import Mathlib.Tactic.Linarith

/-!
# C113: a busy database is waited for
-/

namespace PI

open Finset

/-- The time of attempt number `k` when all attempts before failed: start plus all sleeps. -/
def attemptTime (rnd late : Nat → Nat) (t0 k : Nat) : Nat :=
  t0 + ∑ i ∈ range k, (rnd i + late i)

theorem attemptTime_succ (rnd late : Nat → Nat) (t0 k : Nat) :
    attemptTime rnd late t0 (k + 1) = attemptTime rnd late t0 k + rnd k + late k := by
  unfold attemptTime
  rw [sum_range_succ]; omega

/-- The random sleeps are those of `randint(2000, 20000)`. -/
def SleepRange (rnd : Nat → Nat) : Prop := ∀ i, 2000 ≤ rnd i ∧ rnd i ≤ 20000

theorem busyWait_spec (thr : Nat) (free : Nat → Bool) (rnd late : Nat → Nat) (t0 : Nat) :
    ∀ d k, thr - k = d → k ≤ thr →
      (∃ i, k ≤ i ∧ i ≤ thr ∧ free (attemptTime rnd late t0 i) = true ∧
        (∀ i', k ≤ i' → i' < i → free (attemptTime rnd late t0 i') = false) ∧
        busyWait thr free rnd late k (attemptTime rnd late t0 k)
          = ⟨true, attemptTime rnd late t0 i, i⟩) ∨
      ((∀ i, k ≤ i → i ≤ thr → free (attemptTime rnd late t0 i) = false) ∧
        busyWait thr free rnd late k (attemptTime rnd late t0 k)
          = ⟨false, attemptTime rnd late t0 thr, thr⟩) := by
  intro d
  induction d with
  | zero =>
    intro k hd hk
    have hkt : k = thr := by omega
    subst hkt
    rw [busyWait]
    cases hf : free (attemptTime rnd late t0 k) with
    | true => left; exact ⟨k, le_refl _, le_refl _, hf, fun i h1 h2 => by omega, by simp⟩
    | false =>
      right
      refine ⟨fun i h1 h2 => by rw [show i = k by omega]; exact hf, ?_⟩
      simp [busyHandler]
  | succ d ih =>
    intro k hd hk
    have hlt : k < thr := by omega
    cases hf : free (attemptTime rnd late t0 k) with
    | true =>
      left
      rw [busyWait]
      exact ⟨k, le_refl _, hk, hf, fun i h1 h2 => by omega, by simp [hf]⟩
    | false =>
      have hstep : busyWait thr free rnd late k (attemptTime rnd late t0 k)
          = busyWait thr free rnd late (k + 1) (attemptTime rnd late t0 (k + 1)) := by
        rw [busyWait, attemptTime_succ]
        simp [busyHandler, hlt, hf]
      rw [hstep]
      rcases ih (k + 1) (by omega) (by omega) with ⟨i, h1, h2, h3, h4, h5⟩ | ⟨h1, h2⟩
      · left
        refine ⟨i, by omega, h2, h3, ?_, h5⟩
        intro i' hi1 hi2
        by_cases he : i' = k
        · rw [he]; exact hf
        · exact h4 i' (by omega) hi2
      · right
        refine ⟨?_, h2⟩
        intro i hi1 hi2
        by_cases he : i = k
        · rw [he]; exact hf
        · exact h1 i (by omega) hi2

/-- An operation on a database whose lock is free at the times `free`, started at `t0`. -/
def sqlOp (free : Nat → Bool) (rnd late : Nat → Nat) (t0 : Nat) : BusyResult :=
  busyWait busyThreshold free rnd late 0 t0

theorem attemptTime_zero (rnd late : Nat → Nat) (t0 : Nat) : attemptTime rnd late t0 0 = t0 := by
  simp [attemptTime]

theorem attemptTime_lower {rnd : Nat → Nat} (hr : SleepRange rnd) (late : Nat → Nat) (t0 k : Nat) :
    t0 + 2000 * k ≤ attemptTime rnd late t0 k := by
  induction k with
  | zero => simp [attemptTime]
  | succ k ih =>
    have h1 := (hr k).1
    rw [attemptTime_succ, Nat.mul_succ]
    have h2 : 0 ≤ late k := Nat.zero_le _
    linarith

theorem attemptTime_upper {rnd : Nat → Nat} (hr : SleepRange rnd) (t0 k : Nat) :
    attemptTime rnd (fun _ => 0) t0 k ≤ t0 + 20000 * k := by
  induction k with
  | zero => simp [attemptTime]
  | succ k ih => rw [attemptTime_succ]; have := (hr k).2; omega

/-- **C113.** The operation succeeds exactly when the lock is free at one of the first 100001
attempts, whatever the random sleeps and the scheduling; it then succeeds at the first such attempt. -/
theorem C113_succeeds_iff (free : Nat → Bool) (rnd late : Nat → Nat) (t0 : Nat) :
    ((sqlOp free rnd late t0).ok = true ↔
      ∃ k, k ≤ 100000 ∧ free (attemptTime rnd late t0 k) = true) ∧
    ((sqlOp free rnd late t0).ok = true →
      free (sqlOp free rnd late t0).time = true ∧
      (sqlOp free rnd late t0).time = attemptTime rnd late t0 (sqlOp free rnd late t0).sleeps ∧
      ∀ k, k < (sqlOp free rnd late t0).sleeps → free (attemptTime rnd late t0 k) = false) := by
  have h := busyWait_spec busyThreshold free rnd late t0 _ 0 rfl (by omega)
  rw [attemptTime_zero] at h
  rcases h with ⟨i, _, h2, h3, h4, h5⟩ | ⟨h1, h2⟩
  · have e : sqlOp free rnd late t0 = ⟨true, attemptTime rnd late t0 i, i⟩ := h5
    rw [e]
    exact ⟨⟨fun _ => ⟨i, h2, h3⟩, fun _ => rfl⟩, fun _ => ⟨h3, rfl, fun k hk => h4 k (by omega) hk⟩⟩
  · have e : sqlOp free rnd late t0 = ⟨false, attemptTime rnd late t0 busyThreshold, busyThreshold⟩ :=
      h2
    rw [e]
    refine ⟨⟨fun h => by simp at h, ?_⟩, fun h => by simp at h⟩
    rintro ⟨k, hk, hf⟩
    rw [h1 k (by omega) hk] at hf
    simp at hf

example : (sqlOp (fun t => decide (5000 ≤ t)) (fun _ => 3000) (fun _ => 0) 0) = ⟨true, 6000, 2⟩ := by
  unfold sqlOp
  rw [busyWait]; simp [busyHandler, busyThreshold]
  rw [busyWait]; simp [busyHandler]
  rw [busyWait]; simp

/-- **C113.** `SQLITE_BUSY` is never reported earlier than 200 seconds after the start, and only after
100000 sleeps during which every attempt found the lock taken. -/
theorem C113_error_is_late (free : Nat → Bool) (rnd late : Nat → Nat) (hr : SleepRange rnd) (t0 : Nat)
    (h : (sqlOp free rnd late t0).ok = false) :
    (sqlOp free rnd late t0).sleeps = 100000 ∧ t0 + 200000000 ≤ (sqlOp free rnd late t0).time ∧
      ∀ k, k ≤ 100000 → free (attemptTime rnd late t0 k) = false := by
  have hs := busyWait_spec busyThreshold free rnd late t0 _ 0 rfl (by omega)
  rw [attemptTime_zero] at hs
  rcases hs with ⟨i, _, h2, h3, h4, h5⟩ | ⟨h1, h2⟩
  · have e : sqlOp free rnd late t0 = ⟨true, attemptTime rnd late t0 i, i⟩ := h5
    rw [e] at h; simp at h
  · have e : sqlOp free rnd late t0 = ⟨false, attemptTime rnd late t0 busyThreshold, busyThreshold⟩ :=
      h2
    rw [e]
    refine ⟨rfl, ?_, fun k hk => h1 k (by omega) hk⟩
    have := attemptTime_lower hr late t0 busyThreshold
    simp only [busyThreshold] at this ⊢
    omega

/-- **C113.** When the lock is released for good at most 200 seconds after the start, the operation
succeeds; with a punctual system at most 20 ms after the release (or at once). -/
theorem C113_released (free : Nat → Bool) (rnd late : Nat → Nat) (hr : SleepRange rnd) (t0 T : Nat)
    (hT : T ≤ t0 + 200000000) (hfree : ∀ t, T ≤ t → free t = true) :
    (sqlOp free rnd late t0).ok = true ∧
      ((∀ i, late i = 0) → (sqlOp free rnd late t0).time ≤ max t0 (T + 20000)) := by
  have hok : (sqlOp free rnd late t0).ok = true := by
    rw [(C113_succeeds_iff free rnd late t0).1]
    refine ⟨100000, le_refl _, hfree _ ?_⟩
    have := attemptTime_lower hr late t0 100000
    omega
  refine ⟨hok, ?_⟩
  intro hl
  obtain ⟨_, h2, h3⟩ := (C113_succeeds_iff free rnd late t0).2 hok
  rw [h2]
  cases hk : (sqlOp free rnd late t0).sleeps with
  | zero => rw [attemptTime_zero]; exact le_max_left _ _
  | succ k =>
    have hprev := h3 k (by omega)
    have hlt : attemptTime rnd late t0 k < T := by
      by_contra hc
      rw [hfree _ (by omega)] at hprev
      simp at hprev
    rw [attemptTime_succ, hl k]
    have := (hr k).2
    omega

example : SleepRange (fun i => 2000 + i % 18001) := by
  intro i
  have := Nat.mod_lt i (show 0 < 18001 by omega)
  show 2000 ≤ 2000 + i % 18001 ∧ 2000 + i % 18001 ≤ 20000
  omega

/-- **C113.** A lock that is never released gives `SQLITE_BUSY`, after 100000 sleeps and, with a
punctual system, between 200 and 2000 seconds: no operation hangs forever. -/
theorem C113_gives_up (free : Nat → Bool) (rnd late : Nat → Nat) (hr : SleepRange rnd) (t0 : Nat)
    (hfree : ∀ t, free t = false) :
    (sqlOp free rnd late t0).ok = false ∧ (sqlOp free rnd late t0).sleeps = 100000 ∧
      t0 + 200000000 ≤ (sqlOp free rnd late t0).time ∧
      ((∀ i, late i = 0) → (sqlOp free rnd late t0).time ≤ t0 + 2000000000) := by
  have hok : (sqlOp free rnd late t0).ok = false := by
    cases h : (sqlOp free rnd late t0).ok with
    | false => rfl
    | true =>
      obtain ⟨k, _, hk⟩ := (C113_succeeds_iff free rnd late t0).1.mp h
      rw [hfree] at hk; simp at hk
  obtain ⟨h1, h2, h3⟩ := C113_error_is_late free rnd late hr t0 hok
  refine ⟨hok, h1, h2, ?_⟩
  intro hl
  have hs := busyWait_spec busyThreshold free rnd late t0 _ 0 rfl (by omega)
  rw [attemptTime_zero] at hs
  rcases hs with ⟨i, _, _, hc, _, _⟩ | ⟨_, h4⟩
  · rw [hfree] at hc; simp at hc
  · have e : sqlOp free rnd late t0 = ⟨false, attemptTime rnd late t0 busyThreshold, busyThreshold⟩ :=
      h4
    rw [e]
    have hlz : late = fun _ => 0 := funext hl
    have := attemptTime_upper hr t0 busyThreshold
    rw [hlz]
    simp only [busyThreshold] at this ⊢
    omega

/-- **C113.** There is no fairness: a lock that is free during half of every millisecond pair can be
missed at all 100001 attempts. -/
theorem C113_starvation_fails : ∃ (free : Nat → Bool) (rnd : Nat → Nat), SleepRange rnd ∧
    (∀ t, ∃ t', t ≤ t' ∧ t' ≤ t + 1000 ∧ free t' = true) ∧
    (sqlOp free rnd (fun _ => 0) 0).ok = false := by
  refine ⟨fun t => decide (1000 ≤ t % 2000), fun _ => 2000, fun _ => ⟨le_refl _, by norm_num⟩, ?_, ?_⟩
  · intro t
    by_cases h : 1000 ≤ t % 2000
    · exact ⟨t, le_refl _, by omega, by simpa using h⟩
    · exact ⟨t + (1000 - t % 2000), by omega, by omega, by simp; omega⟩
  · cases h : (sqlOp (fun t => decide (1000 ≤ t % 2000)) (fun _ => 2000) (fun _ => 0) 0).ok with
    | false => rfl
    | true =>
      obtain ⟨k, hk0, hk⟩ := (C113_succeeds_iff _ _ _ _).1.mp h
      clear hk0
      have e : attemptTime (fun _ => 2000) (fun _ => 0) 0 k = 2000 * k := by
        clear hk
        induction k with
        | zero => simp [attemptTime]
        | succ k ih => rw [attemptTime_succ, ih]; omega
      rw [e] at hk
      simp at hk

/-! ## Handle objects -/

/-- Is there an object with a connection at `x`? -/
def HandleWorld.Holds (w : HandleWorld) (x : Nat) : Prop := ∃ h c, w.objs x = some h ∧ h.db = some c

/-- The operation is a correct use of the class: constructors on dead addresses, everything else on
live objects, and moves only from handles that have not been moved from before. -/
def SqOp.Legal (w : HandleWorld) : SqOp → Prop
  | .openOk x => w.objs x = none
  | .openErr x => w.objs x = none
  | .moveNew dst src => w.objs dst = none ∧ w.Holds src
  | .moveTo dst src => (∃ g, w.objs dst = some g) ∧ ((∃ h, w.objs src = some h) ∧ (dst = src ∨ w.Holds src))
  | .destroy x => ∃ h, w.objs x = some h

/-- All operations of the history are correct uses. -/
def LegalHandles (w : HandleWorld) : List SqOp → Prop
  | [] => True
  | op :: ops => op.Legal w ∧ ∀ w', op.step w = .ok w' → LegalHandles w' ops

/-- What a user relies on: every open connection belongs to exactly one live handle, whose address is
the argument of its busy handler; every handle has the threshold 100000; a connection is closed at
most once, and every connection is either open or was closed. -/
structure HandlesGood (w : HandleWorld) : Prop where
  thr : ∀ x h, w.objs x = some h → h.thr = 100000
  owned : ∀ x h c, w.objs x = some h → h.db = some c → w.isOpen c = true ∧ w.handler c = some x
  hasOwner : ∀ c, w.isOpen c = true → ∃ x h, w.objs x = some h ∧ h.db = some c
  once : w.closes.Nodup
  account : ∀ c, c < w.next ↔ (w.isOpen c = true ∨ c ∈ w.closes)
  excl : ∀ c, ¬ (w.isOpen c = true ∧ c ∈ w.closes)

theorem handlesGood_empty : HandlesGood HandleWorld.empty := by
  constructor <;> simp [HandleWorld.empty]

theorem HandlesGood.unique {w : HandleWorld} (g : HandlesGood w) {x y c : Nat} {h k : HandleObj}
    (hx : w.objs x = some h) (hc : h.db = some c) (hy : w.objs y = some k) (kc : k.db = some c) :
    x = y := by
  have h1 := (g.owned x h c hx hc).2
  have h2 := (g.owned y k c hy kc).2
  rw [h1] at h2
  exact Option.some.inj h2

theorem close_good_objs (w : HandleWorld) (c : Option Nat) : (closeConn w c).objs = w.objs ∧
    (closeConn w c).handler = w.handler ∧ (closeConn w c).next = w.next := by
  cases c <;> exact ⟨rfl, rfl, rfl⟩

theorem step_openOk {w : HandleWorld} (g : HandlesGood w) {x : Nat} (hx : w.objs x = none) :
    ∃ w', (SqOp.openOk x).step w = .ok w' ∧ HandlesGood w' := by
  have hstep : (SqOp.openOk x).step w = .ok
      { objs := fun y => if y = x then some ⟨some w.next, busyThreshold⟩ else w.objs y
        handler := fun d => if d = w.next then some x else w.handler d
        isOpen := fun d => if d = w.next then true else w.isOpen d
        next := w.next + 1
        closes := w.closes } := by
    simp [SqOp.step, hx, installHandler, HandleWorld.put]
  refine ⟨_, hstep, ?_⟩
  have fresh : w.isOpen w.next = false ∧ w.next ∉ w.closes := by
    have h := (g.account w.next).not.mp (by omega)
    push Not at h
    exact ⟨by simpa using h.1, h.2⟩
  constructor
  · intro y h hy
    by_cases e : y = x
    · simp only [e, if_true, Option.some.injEq] at hy
      rw [← hy]; rfl
    · simp only [e, if_false] at hy
      exact g.thr y h hy
  · intro y h c hy hc
    by_cases e : y = x
    · simp only [e, if_true, Option.some.injEq] at hy
      rw [← hy] at hc
      simp only [Option.some.injEq] at hc
      simp [hc, e]
    · simp only [e, if_false] at hy
      obtain ⟨h1, h2⟩ := g.owned y h c hy hc
      have hne : c ≠ w.next := by
        intro hcn; rw [hcn, fresh.1] at h1; simp at h1
      simp [hne, h1, h2]
  · intro c hc
    by_cases e : c = w.next
    · exact ⟨x, ⟨some w.next, busyThreshold⟩, by simp, by simp [e]⟩
    · simp only [e, if_false] at hc
      obtain ⟨y, h, hy, hd⟩ := g.hasOwner c hc
      refine ⟨y, h, ?_, hd⟩
      have : y ≠ x := by intro hyx; rw [hyx, hx] at hy; simp at hy
      simp [this, hy]
  · exact g.once
  · intro c
    by_cases e : c = w.next
    · simp [e]
    · have := g.account c
      simp only [e, if_false]
      rw [← this]; omega
  · rintro c ⟨h1, h2⟩
    by_cases e : c = w.next
    · rw [e] at h2; exact fresh.2 h2
    · simp only [e, if_false] at h1
      exact g.excl c ⟨h1, h2⟩

theorem step_openErr {w : HandleWorld} (g : HandlesGood w) {x : Nat} (hx : w.objs x = none) :
    ∃ w', (SqOp.openErr x).step w = .ok w' ∧ HandlesGood w' := by
  refine ⟨{ w with next := w.next + 1, closes := w.next :: w.closes }, by simp [SqOp.step, hx], ?_⟩
  have fresh : w.isOpen w.next = false ∧ w.next ∉ w.closes := by
    have h := (g.account w.next).not.mp (by omega)
    push Not at h
    exact ⟨by simpa using h.1, h.2⟩
  constructor
  · exact g.thr
  · exact g.owned
  · exact g.hasOwner
  · exact List.nodup_cons.mpr ⟨fresh.2, g.once⟩
  · intro c
    have := g.account c
    simp only [List.mem_cons]
    constructor
    · intro hc
      by_cases e : c = w.next
      · exact Or.inr (Or.inl e)
      · rcases this.mp (by omega) with h | h
        · exact Or.inl h
        · exact Or.inr (Or.inr h)
    · rintro (h | h | h)
      · have := this.mpr (Or.inl h); omega
      · omega
      · have := this.mpr (Or.inr h); omega
  · rintro c ⟨h1, h2⟩
    simp only [List.mem_cons] at h2
    rcases h2 with h2 | h2
    · rw [h2, fresh.1] at h1; simp at h1
    · exact g.excl c ⟨h1, h2⟩

/-- Closing the connection of the object at `x` and emptying it keeps the books in order. -/
theorem release_good {w : HandleWorld} (g : HandlesGood w) {x : Nat} {h : HandleObj}
    (hx : w.objs x = some h) (k : Option HandleObj) (hk : k = none ∨ k = some ⟨none, 100000⟩) :
    HandlesGood ((closeConn w h.db).put x k) := by
  have hk0 : ∀ h' c, k = some h' → h'.db = some c → False := by
    intro h' c e1 e2
    rcases hk with hk | hk
    · rw [hk] at e1; cases e1
    · rw [hk] at e1; injection e1 with e1; rw [← e1] at e2; cases e2
  have hkt : ∀ h', k = some h' → h'.thr = 100000 := by
    intro h' e1
    rcases hk with hk | hk
    · rw [hk] at e1; cases e1
    · rw [hk] at e1; injection e1 with e1; rw [← e1]
  have objs_eq : ∀ y, ((closeConn w h.db).put x k).objs y = if y = x then k else w.objs y := by
    intro y
    show (if y = x then k else (closeConn w h.db).objs y) = _
    rw [(close_good_objs w h.db).1]
  have thr' : ∀ y h', ((closeConn w h.db).put x k).objs y = some h' → h'.thr = 100000 := by
    intro y h' hy
    rw [objs_eq] at hy
    by_cases e : y = x
    · rw [if_pos e] at hy; exact hkt h' hy
    · rw [if_neg e] at hy; exact g.thr y h' hy
  cases hd : h.db with
  | none =>
    rw [hd] at objs_eq thr'
    constructor
    · exact thr'
    · intro y h' c hy hc
      rw [objs_eq] at hy
      by_cases e : y = x
      · rw [if_pos e] at hy; exact (hk0 h' c hy hc).elim
      · rw [if_neg e] at hy; exact g.owned y h' c hy hc
    · intro c hc
      obtain ⟨y, h', hy, hc'⟩ := g.hasOwner c hc
      refine ⟨y, h', ?_, hc'⟩
      rw [objs_eq, if_neg, hy]
      intro e
      rw [e, hx] at hy
      injection hy with hy
      rw [← hy, hd] at hc'; cases hc'
    · exact g.once
    · exact g.account
    · exact g.excl
  | some c0 =>
    rw [hd] at objs_eq thr'
    obtain ⟨ho, hh⟩ := g.owned x h c0 hx hd
    have open_eq : ∀ d, ((closeConn w (some c0)).put x k).isOpen d = if d = c0 then false else w.isOpen d :=
      fun d => rfl
    constructor
    · exact thr'
    · intro y h' c hy hc
      rw [objs_eq] at hy
      by_cases e : y = x
      · rw [if_pos e] at hy; exact (hk0 h' c hy hc).elim
      · rw [if_neg e] at hy
        have hne : c ≠ c0 := by
          intro hcc
          exact e (g.unique hy hc hx (by rw [hd, hcc]))
        rw [open_eq, if_neg hne]
        exact g.owned y h' c hy hc
    · intro c hc
      rw [open_eq] at hc
      by_cases hne : c = c0
      · rw [if_pos hne] at hc; cases hc
      rw [if_neg hne] at hc
      obtain ⟨y, h', hy, hc'⟩ := g.hasOwner c hc
      refine ⟨y, h', ?_, hc'⟩
      rw [objs_eq, if_neg, hy]
      intro e
      rw [e, hx] at hy
      injection hy with hy
      rw [← hy, hd] at hc'
      exact hne (Option.some.inj hc').symm
    · exact List.nodup_cons.mpr ⟨fun hm => g.excl c0 ⟨ho, hm⟩, g.once⟩
    · intro c
      rw [open_eq]
      show c < w.next ↔ _ ∨ c ∈ c0 :: w.closes
      rw [g.account c, List.mem_cons]
      by_cases hne : c = c0
      · rw [hne, if_pos rfl]; simp [ho]
      · rw [if_neg hne]; simp [hne]
    · rintro c ⟨h1, h2⟩
      rw [open_eq] at h1
      by_cases hne : c = c0
      · rw [if_pos hne] at h1; cases h1
      · rw [if_neg hne] at h1
        have h3 : c ∈ c0 :: w.closes := h2
        rcases List.mem_cons.mp h3 with h3 | h3
        · exact hne h3
        · exact g.excl c ⟨h1, h3⟩

/-- Moving the connection of `src` into an empty object (or a dead address) `dst`. -/
theorem transfer_good {w : HandleWorld} (g : HandlesGood w) {dst src : Nat} (hne : dst ≠ src)
    (hd : w.objs dst = none ∨ w.objs dst = some ⟨none, 100000⟩) {h : HandleObj} {c : Nat}
    (hs : w.objs src = some h) (hc : h.db = some c) :
    ∃ w', installHandler ((w.put dst (some ⟨h.db, h.thr⟩)).put src (some ⟨none, h.thr⟩)) dst = .ok w' ∧
      HandlesGood w' := by
  have hth := g.thr src h hs
  refine ⟨{ objs := fun y => if y = src then some ⟨none, h.thr⟩ else
              if y = dst then some ⟨h.db, h.thr⟩ else w.objs y
            handler := fun d => if d = c then some dst else w.handler d
            isOpen := w.isOpen, next := w.next, closes := w.closes }, ?_, ?_⟩
  · simp [installHandler, HandleWorld.put, hne, hc]
  have hdst0 : ∀ k d, w.objs dst = some k → k.db = some d → False := by
    intro k d h1 h2
    rcases hd with hd | hd
    · rw [hd] at h1; cases h1
    · rw [hd] at h1; injection h1 with h1; rw [← h1] at h2; cases h2
  obtain ⟨ho, _⟩ := g.owned src h c hs hc
  constructor
  · intro y k hy
    by_cases e : y = src
    · simp only [e, if_true, Option.some.injEq] at hy
      rw [← hy]; exact hth
    · by_cases e2 : y = dst
      · simp only [e2, hne, if_true, if_false, Option.some.injEq] at hy
        rw [← hy]; exact hth
      · simp only [e, e2, if_false] at hy
        exact g.thr y k hy
  · intro y k d hy hk
    by_cases e : y = src
    · simp only [e, if_true, Option.some.injEq] at hy
      rw [← hy] at hk; cases hk
    · by_cases e2 : y = dst
      · simp only [e2, hne, if_true, if_false, Option.some.injEq] at hy
        rw [← hy] at hk
        have hdc : d = c := by
          have : h.db = some d := hk
          rw [hc] at this
          exact (Option.some.inj this).symm
        rw [hdc]
        simp [ho, e2]
      · simp only [e, e2, if_false] at hy
        have hdc : d ≠ c := by
          intro hdc
          exact e (g.unique hy hk hs (by rw [hc, hdc]))
        obtain ⟨h1, h2⟩ := g.owned y k d hy hk
        simp [hdc, h1, h2]
  · intro d hdo
    obtain ⟨y, k, hy, hk⟩ := g.hasOwner d hdo
    by_cases e : y = src
    · refine ⟨dst, ⟨h.db, h.thr⟩, by simp [hne], ?_⟩
      rw [e, hs] at hy
      injection hy with hy
      rw [← hy] at hk
      exact hk
    · have e2 : y ≠ dst := by
        intro e2
        rw [e2] at hy
        exact hdst0 k d hy hk
      exact ⟨y, k, by simp [e, e2, hy], hk⟩
  · exact g.once
  · exact g.account
  · exact g.excl

theorem step_legal {w : HandleWorld} (g : HandlesGood w) {op : SqOp} (hl : op.Legal w) :
    ∃ w', op.step w = .ok w' ∧ HandlesGood w' := by
  cases op with
  | openOk x => exact step_openOk g hl
  | openErr x => exact step_openErr g hl
  | moveNew dst src =>
    obtain ⟨hd, h, c, hs, hc⟩ := hl
    have hne : dst ≠ src := by intro e; rw [e, hs] at hd; cases hd
    have := transfer_good g hne (Or.inl hd) hs hc
    simpa [SqOp.step, hd, hs] using this
  | moveTo dst src =>
    obtain ⟨⟨k, hk⟩, ⟨h, hs⟩, hor⟩ := hl
    by_cases e : dst = src
    · refine ⟨w, ?_, g⟩
      simp only [SqOp.step, hk, hs]
      rw [if_pos e]
    · obtain ⟨h', c, hs', hc⟩ := hor.resolve_left e
      rw [hs] at hs'
      injection hs' with hs'
      rw [← hs'] at hc
      have g1 := release_good g hk (some ⟨none, 100000⟩) (Or.inr rfl)
      have hsrc1 : ((closeConn w k.db).put dst (some ⟨none, 100000⟩)).objs src = some h := by
        show (if src = dst then _ else (closeConn w k.db).objs src) = _
        rw [if_neg (Ne.symm e), (close_good_objs w k.db).1, hs]
      have hdst1 : ((closeConn w k.db).put dst (some ⟨none, 100000⟩)).objs dst
          = some ⟨none, 100000⟩ := by
        show (if dst = dst then _ else _) = _
        rw [if_pos rfl]
      obtain ⟨w', h1, h2⟩ := transfer_good g1 e (Or.inr hdst1) hsrc1 hc
      refine ⟨w', ?_, h2⟩
      simp only [SqOp.step, hk, hs]
      rw [if_neg e, ← h1]
      congr 2
      unfold HandleWorld.put
      simp only [HandleWorld.mk.injEq, and_true]
      funext y
      by_cases ey : y = dst
      · simp [ey]
      · simp [ey]
  | destroy x =>
    obtain ⟨h, hx⟩ := hl
    refine ⟨(closeConn w h.db).put x none, ?_, release_good g hx none (Or.inl rfl)⟩
    simp [SqOp.step, hx]

theorem runHandles_good {w : HandleWorld} (g : HandlesGood w) (ops : List SqOp)
    (hl : LegalHandles w ops) : ∃ w', runHandles w ops = .ok w' ∧ HandlesGood w' := by
  induction ops generalizing w with
  | nil => exact ⟨w, rfl, g⟩
  | cons op ops ih =>
    obtain ⟨h1, h2⟩ := hl
    obtain ⟨w1, hw1, g1⟩ := step_legal g h1
    obtain ⟨w2, hw2, g2⟩ := ih g1 (h2 w1 hw1)
    exact ⟨w2, by rw [runHandles, hw1]; exact hw2, g2⟩

/-- **C113.** In every history of opening, moving, move-assigning (also to itself) and destroying
handles, the books are in order, and the busy handler of every connection reads the threshold of a
live object, namely 100000. -/
theorem C113_handles (ops : List SqOp) (hl : LegalHandles HandleWorld.empty ops) :
    ∃ w, runHandles HandleWorld.empty ops = .ok w ∧ HandlesGood w ∧
      ∀ x, w.Holds x → readThreshold w x = .ok 100000 := by
  obtain ⟨w, h1, g⟩ := runHandles_good handlesGood_empty ops hl
  refine ⟨w, h1, g, ?_⟩
  rintro x ⟨h, c, hx, hc⟩
  obtain ⟨_, hh⟩ := g.owned x h c hx hc
  simp [readThreshold, hx, hc, hh, g.thr x h hx]

/-- **C113.** When all handles are gone, every connection that was opened is closed, exactly once. -/
theorem C113_no_leak (ops : List SqOp) (hl : LegalHandles HandleWorld.empty ops) (w : HandleWorld)
    (hw : runHandles HandleWorld.empty ops = .ok w) (hnone : ∀ x, w.objs x = none) :
    (∀ c, w.isOpen c = false) ∧ ∀ c, c < w.next → w.closes.count c = 1 := by
  obtain ⟨w', h1, g, _⟩ := C113_handles ops hl
  rw [hw] at h1
  injection h1 with h1
  subst h1
  have ho : ∀ c, w.isOpen c = false := by
    intro c
    cases hc : w.isOpen c with
    | false => rfl
    | true =>
      obtain ⟨x, h, hx, _⟩ := g.hasOwner c hc
      rw [hnone] at hx; cases hx
  refine ⟨ho, ?_⟩
  intro c hc
  rcases (g.account c).mp hc with h | h
  · rw [ho] at h; cases h
  · exact List.count_eq_one_of_mem g.once h

/-- Two handles, one moved over the other, self-assignment, a failing constructor, all destroyed. -/
def exHandles : List SqOp :=
  [.openOk 1, .openOk 2, .moveNew 3 1, .moveTo 2 3, .moveTo 2 2, .openErr 4, .destroy 1, .destroy 3,
    .destroy 2]

example : LegalHandles HandleWorld.empty exHandles ∧
    ∃ w, runHandles HandleWorld.empty exHandles = .ok w ∧ w.closes = [0, 2, 1] := by
  constructor
  · refine ⟨rfl, ?_⟩
    intro w hw; injection hw with hw; subst hw
    refine ⟨rfl, ?_⟩
    intro w hw; injection hw with hw; subst hw
    refine ⟨⟨rfl, _, _, rfl, rfl⟩, ?_⟩
    intro w hw; injection hw with hw; subst hw
    refine ⟨⟨⟨_, rfl⟩, ⟨_, rfl⟩, Or.inr ⟨_, _, rfl, rfl⟩⟩, ?_⟩
    intro w hw; injection hw with hw; subst hw
    refine ⟨⟨⟨_, rfl⟩, ⟨_, rfl⟩, Or.inl rfl⟩, ?_⟩
    intro w hw; injection hw with hw; subst hw
    refine ⟨rfl, ?_⟩
    intro w hw; injection hw with hw; subst hw
    refine ⟨⟨_, rfl⟩, ?_⟩
    intro w hw; injection hw with hw; subst hw
    refine ⟨⟨_, rfl⟩, ?_⟩
    intro w hw; injection hw with hw; subst hw
    refine ⟨⟨_, rfl⟩, ?_⟩
    intro w hw; injection hw with hw; subst hw
    trivial
  · exact ⟨_, rfl, rfl⟩

/-- **C113.** An operation has undefined behaviour exactly when it is not a correct use; in particular
a handle must not be moved from twice. -/
theorem C113_moved_from_fails (w : HandleWorld) (g : HandlesGood w) (op : SqOp) :
    (op.step w = .ub ↔ ¬ op.Legal w) ∧
      (∀ dst src h, w.objs dst = none → w.objs src = some h → h.db = none →
        (SqOp.moveNew dst src).step w = .ub) := by
  have moved : ∀ dst src h, w.objs dst = none → w.objs src = some h → h.db = none →
      (SqOp.moveNew dst src).step w = .ub := by
    intro dst src h h1 h2 h3
    have hne : dst ≠ src := by intro e; rw [e, h2] at h1; cases h1
    simp [SqOp.step, h1, h2, installHandler, HandleWorld.put, hne, h3]
  refine ⟨⟨?_, ?_⟩, moved⟩
  · intro h hl
    obtain ⟨w', hw, _⟩ := step_legal g hl
    rw [hw] at h; cases h
  · intro hl
    cases op with
    | openOk x =>
      cases hx : w.objs x with
      | none => exact absurd hx hl
      | some h => simp [SqOp.step, hx]
    | openErr x =>
      cases hx : w.objs x with
      | none => exact absurd hx hl
      | some h => simp [SqOp.step, hx]
    | destroy x =>
      cases hx : w.objs x with
      | none => simp [SqOp.step, hx]
      | some h => exact absurd ⟨h, hx⟩ hl
    | moveNew dst src =>
      cases hd : w.objs dst with
      | some k => simp [SqOp.step, hd]
      | none =>
        cases hs : w.objs src with
        | none => simp [SqOp.step, hd, hs]
        | some h =>
          cases hdb : h.db with
          | none => exact moved dst src h hd hs hdb
          | some c => exact absurd ⟨hd, h, c, hs, hdb⟩ hl
    | moveTo dst src =>
      cases hd : w.objs dst with
      | none => simp [SqOp.step, hd]
      | some k =>
        cases hs : w.objs src with
        | none => simp [SqOp.step, hd, hs]
        | some h =>
          by_cases e : dst = src
          · exact absurd ⟨⟨k, hd⟩, ⟨h, hs⟩, Or.inl e⟩ hl
          · cases hdb : h.db with
            | some c => exact absurd ⟨⟨k, hd⟩, ⟨h, hs⟩, Or.inr ⟨h, c, hs, hdb⟩⟩ hl
            | none =>
              simp [SqOp.step, hd, hs, e, installHandler, HandleWorld.put, hdb]

end PI
