import Verif.Legacy.RestrictModel
import Verif.Legacy.Blocks

/-!
# C97: restricting the one-atom states of a pair calculation
-/

namespace PI

open Matrix

/-! ## Specification -/

/-- The state differs from an initial state by at most the given amounts; a negative amount is no restriction. -/
def NearInitial (d : Deltas) (init : List Old1) (x : Old1) : Prop :=
  ∃ s ∈ init, (d.n < 0 ∨ |x.n - s.n| ≤ d.n) ∧ (d.l < 0 ∨ |x.l - s.l| ≤ d.l) ∧ (d.j < 0 ∨ |x.j - s.j| ≤ 2 * d.j) ∧ (d.m < 0 ∨ |x.m - s.m| ≤ 2 * d.m)

instance (d : Deltas) (init : List Old1) (x : Old1) : Decidable (NearInitial d init x) := by unfold NearInitial; infer_instance

/-- Every quantum number is close to the one of some initial state. -/
def NearSeparately (d : Deltas) (init : List Old1) (x : Old1) : Prop :=
  (∃ s ∈ init, d.n < 0 ∨ |x.n - s.n| ≤ d.n) ∧ (∃ s ∈ init, d.l < 0 ∨ |x.l - s.l| ≤ d.l) ∧
  (∃ s ∈ init, d.j < 0 ∨ |x.j - s.j| ≤ 2 * d.j) ∧ ∃ s ∈ init, d.m < 0 ∨ |x.m - s.m| ≤ 2 * d.m

instance (d : Deltas) (init : List Old1) (x : Old1) : Decidable (NearSeparately d init x) := by unfold NearSeparately; infer_instance

theorem oldNear_iff (d : Deltas) (init : List Old1) (x : Old1) : oldNear d init x = true ↔ NearSeparately d init x := by
  unfold oldNear NearSeparately
  simp only [Bool.and_eq_true, List.any_eq_true, decide_eq_true_eq, and_assoc]

theorem nearSeparately_of_near {d : Deltas} {init : List Old1} {x : Old1} (h : NearInitial d init x) : NearSeparately d init x := by
  obtain ⟨s, hs, a, b, c, e⟩ := h
  exact ⟨⟨s, hs, a⟩, ⟨s, hs, b⟩, ⟨s, hs, c⟩, ⟨s, hs, e⟩⟩

theorem nearSeparately_single {d : Deltas} {s x : Old1} : NearSeparately d [s] x ↔ NearInitial d [s] x := by
  simp [NearSeparately, NearInitial]

/-! ## The mask -/

theorem mask_fold (d : Deltas) (init : List Old1) (L : List Old1) (k : ℕ) (v : List Bool) (hv : k + L.length ≤ v.length) :
    (number k L).foldl (oldMaskStep d init) (.ok v) =
      .ok ((List.range v.length).map fun i => v.getD i false || (decide (k ≤ i) && ((L[i - k]?).map (oldNear d init)).getD false)) := by
  induction L generalizing k v with
  | nil =>
    simp only [number, List.foldl_nil, List.getElem?_nil, Option.map_none, Option.getD_none, Bool.and_false, Bool.or_false]
    congr 1
    refine List.ext_getElem (by simp) fun i h1 h2 => ?_
    simp [List.getD_eq_getElem?_getD, h1]
  | cons x L ih =>
    rw [number, List.foldl_cons]
    simp only [List.length_cons] at hv
    have key : ∀ w : List Bool, w.length = v.length → (∀ i < v.length, w.getD i false = (v.getD i false || (decide (i = k) && oldNear d init x))) →
        (number (k + 1) L).foldl (oldMaskStep d init) (.ok w) =
          .ok ((List.range v.length).map fun i => v.getD i false || (decide (k ≤ i) && (((x :: L)[i - k]?).map (oldNear d init)).getD false)) := by
      intro w hw hw'
      rw [ih (k + 1) w (by omega), hw]
      congr 1
      refine List.map_congr_left fun i hi => ?_
      rw [hw' i (List.mem_range.1 hi)]
      rcases lt_trichotomy i k with h | rfl | h
      · simp [show ¬ k ≤ i by omega, show ¬ k + 1 ≤ i by omega, show ¬ i = k by omega]
      · simp
      · obtain ⟨j, rfl⟩ : ∃ j, i = k + 1 + j := ⟨i - (k + 1), by omega⟩
        rw [show k + 1 + j - k = j + 1 by omega, show k + 1 + j - (k + 1) = j by omega, List.getElem?_cons_succ]
        simp [show ¬ k + 1 + j = k by omega, show k ≤ k + 1 + j by omega]
    rw [oldMaskStep, Out.ok_bind]
    dsimp only
    by_cases hx : oldNear d init x = true
    · rw [if_pos hx, if_pos (by omega)]
      refine key _ (by simp) fun i hi => ?_
      rw [List.getD_eq_getElem?_getD, List.getElem?_set, hx]
      by_cases h : k = i
      · subst h; simp [hi]
      · simp [h, Ne.symm h]
    · rw [if_neg hx]
      refine key _ rfl fun i hi => ?_
      rw [Bool.not_eq_true] at hx
      simp [hx]

theorem oldMask_eq (d : Deltas) (init : List Old1) (L : List Old1) : oldMask d init (number 0 L) = .ok (L.map (oldNear d init)) := by
  unfold oldMask
  rw [mask_fold d init L 0 _ (by simp [number_length])]
  congr 1
  refine List.ext_getElem (by simp [number_length]) fun i h1 h2 => ?_
  have hi : i < L.length := by simpa using h2
  simp [List.getD_eq_getElem?_getD, hi, number_length]

theorem getD_map_near (d : Deltas) (init : List Old1) (L : List Old1) (i : Fin L.length) : (L.map (oldNear d init)).getD i false = oldNear d init (L.get i) := by
  simp [List.getD_eq_getElem?_getD]

/-- The states of the rows that stay. -/
theorem map_get_kept (p : Old1 → Bool) (L : List Old1) : ((List.finRange L.length).filter fun i => p (L.get i)).map L.get = L.filter p := by
  conv_rhs => rw [← List.map_get_finRange L]
  rw [List.filter_map]
  rfl

/-- C97, the states: for every atom whose states are numbered by their rows, and every Hamiltonian of the scan. The states that stay are, in their order, those for which
every quantum number is close to the one of some initial state; they are numbered by their rows, and the rows of all Hamiltonians are those of the states
that stay. Nothing is read outside of the vectors. -/
theorem C97_states (d : Deltas) (init : List Old1) (L : List Old1) (mats : List (OldOne L.length)) :
    ∃ (m : ℕ) (e : Fin m → Fin L.length), StrictMono e ∧ m = (L.filter fun x => decide (NearSeparately d init x)).length ∧
      (∀ i, i ∈ Set.range e ↔ NearSeparately d init (L.get i)) ∧
      OldAtom.restrict d init ⟨number 0 L, L.length, mats⟩ =
        .ok ⟨number 0 (L.filter fun x => decide (NearSeparately d init x)), m, mats.map fun A => ⟨A.nb, fun r c => A.basis (e r) c, A.diag⟩⟩ ∧
      ∀ r : Fin m, (L.filter fun x => decide (NearSeparately d init x))[(r : ℕ)]? = some (L.get (e r)) := by
  have hp : (fun x => decide (NearSeparately d init x)) = oldNear d init := by
    funext x
    rw [Bool.eq_iff_iff, decide_eq_true_eq, oldNear_iff]
  rw [hp]
  have hk : oldKept (L.map (oldNear d init)) L.length = (List.finRange L.length).filter fun i => oldNear d init (L.get i) := by
    unfold oldKept
    exact List.filter_congr fun i _ => by rw [getD_map_near]
  set K := oldKept (L.map (oldNear d init)) L.length with hK
  have hmap : K.map L.get = L.filter (oldNear d init) := by rw [hk]; exact map_get_kept _ _
  refine ⟨K.length, K.get, ?_, by rw [← hmap, List.length_map], fun i => ?_, ?_, fun r => ?_⟩
  · intro a b hab
    have hs : K.Pairwise (· < ·) := by rw [hk]; exact (List.pairwise_lt_finRange _).filter _
    exact List.pairwise_iff_get.1 hs a b hab
  · refine (List.mem_iff_get (a := i) (l := K)).symm.trans ?_
    rw [hk, List.mem_filter, oldNear_iff]
    simp
  · unfold OldAtom.restrict
    rw [oldMask_eq, Out.ok_bind, if_neg (by simp)]
    have hr : removeOne (L.map (oldNear d init)) (number 0 L) = .ok (number 0 (L.filter (oldNear d init))) := by
      have h := (removeGo_spec (L.map (oldNear d init)) 0 (number 0 L)).1 (by
        intro x hx
        have : x.1 ∈ (number 0 L).map (·.1) := List.mem_map_of_mem hx
        rw [number_fst, List.mem_range'_1] at this
        simpa using this.2)
      unfold removeOne
      rw [h]
      congr 2
      have : ∀ (k : ℕ) (M N : List Old1), (∀ i (hi : i < M.length), N[k + i]? = some M[i]) →
          ((number k M).filter fun x => (N.map (oldNear d init)).getD x.1 false).map (·.2) = M.filter (oldNear d init) := by
        intro k M
        induction M generalizing k with
        | nil => intro N _; rfl
        | cons x M ih =>
          intro N hN
          have h0 : N[k]? = some x := hN 0 (by simp)
          have hx : (N.map (oldNear d init)).getD k false = oldNear d init x := by simp [List.getD_eq_getElem?_getD, h0]
          have hrec := ih (k + 1) N fun i hi => by
            have := hN (i + 1) (by simp; omega)
            rw [show k + 1 + i = k + (i + 1) by omega]; simpa using this
          rw [number, List.filter_cons, List.filter_cons]
          dsimp only
          rw [hx]
          cases oldNear d init x
          · exact hrec
          · exact congrArg (x :: ·) hrec
      exact this 0 L L fun i hi => by simp [hi]
    rw [hr]
    rfl
  · rw [← hmap, List.getElem?_map]
    simp

end PI
