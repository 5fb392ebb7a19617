import Verif.Sys.LabelModel
import Mathlib.Data.Nat.Digits.Lemmas
import Mathlib.Data.Fintype.BigOperators
import Mathlib.Data.Fintype.EquivFin
import Mathlib.Tactic.NormNum

/-! # C101: the labels made by `unitarize` -/

namespace PI

theorem digitChar_inj {a b : ℕ} (ha : a < 16) (hb : b < 16) (h : Nat.digitChar a = Nat.digitChar b) : a = b := by
  have : ∀ a < 16, ∀ b < 16, Nat.digitChar a = Nat.digitChar b → a = b := by decide
  exact this a ha b hb h

theorem map_digitChar_inj (L M : List ℕ) (hL : ∀ x ∈ L, x < 16) (hM : ∀ x ∈ M, x < 16) (h : L.map Nat.digitChar = M.map Nat.digitChar) : L = M := by
  induction L generalizing M with
  | nil => cases M with
    | nil => rfl
    | cons _ _ => cases h
  | cons a L ih =>
    cases M with
    | nil => cases h
    | cons b M =>
      rw [List.map_cons, List.map_cons, List.cons.injEq] at h
      rw [digitChar_inj (hL a List.mem_cons_self) (hM b List.mem_cons_self) h.1,
        ih M (fun x hx => hL x (List.mem_cons_of_mem _ hx)) (fun x hx => hM x (List.mem_cons_of_mem _ hx)) h.2]

/-- The printed label determines the hash. -/
theorem hexLabel_inj {x y : UInt64} (h : hexLabel x = hexLabel y) : x = y := by
  have h := String.ofList_injective h
  have lt : ∀ n : ℕ, ∀ d ∈ Nat.digits 16 n, d < 16 := fun n d hd => Nat.digits_lt_base (by norm_num) hd
  have nz : ∀ n : ℕ, n ≠ 0 → ((Nat.digits 16 n).map Nat.digitChar).reverse ≠ ['0'] := by
    intro n hn h
    have h := congrArg List.reverse h
    rw [List.reverse_reverse] at h
    have : (Nat.digits 16 n).map Nat.digitChar = [0].map Nat.digitChar := h
    have := map_digitChar_inj _ _ (lt n) (by simp) this
    have h2 := Nat.ofDigits_digits 16 n
    rw [this] at h2
    simp [Nat.ofDigits] at h2
    exact hn h2.symm
  apply UInt64.toNat_inj.1
  by_cases hx : x.toNat = 0
  · by_cases hy : y.toNat = 0
    · rw [hx, hy]
    · rw [if_pos hx, if_neg hy] at h
      exact absurd h.symm (nz _ hy)
  · by_cases hy : y.toNat = 0
    · rw [if_neg hx, if_pos hy] at h
      exact absurd h (nz _ hx)
    · rw [if_neg hx, if_neg hy, List.reverse_inj] at h
      exact Nat.digits_inj_iff.1 (map_digitChar_inj _ _ (lt _) (lt _) h)

theorem labelOne_inj {a b : String} (h : labelOne a = labelOne b) : a = b := by
  unfold labelOne at h
  injection h

theorem labelTwo_inj {a b : String} (h : labelTwo a = labelTwo b) : a = b := by
  unfold labelTwo at h
  have h := (Prod.mk.inj h).1
  injection h with h
  have := congrArg String.toList h
  rw [String.toList_append, String.toList_append] at this
  exact String.toList_injective (List.append_cancel_left this)

theorem labelLoop_nodup {σ : Type} [DecidableEq σ] (mk : UInt64 → σ) (hmk : ∀ a b, mk a = mk b → a = b) (xs : List UInt64) (i : ℕ) (acc : List (ℕ × σ))
    (hn : xs.Nodup) (hd : ∀ x ∈ xs, mk x ∉ acc.map Prod.snd) :
    labelLoop mk i acc xs = acc ++ xs.mapIdx fun k x => (i + k, mk x) := by
  induction xs generalizing i acc with
  | nil => simp [labelLoop]
  | cons x xs ih =>
    rw [List.nodup_cons] at hn
    rw [labelLoop, if_neg (hd x List.mem_cons_self), ih (i + 1) _ hn.2]
    · rw [List.mapIdx_cons, List.append_assoc, List.singleton_append]
      congr 3
      funext k y
      rw [Nat.add_assoc, Nat.add_comm 1 k]
    · intro y hy hm
      rw [List.map_append, List.mem_append] at hm
      rcases hm with hm | hm
      · exact hd y (List.mem_cons_of_mem _ hy) hm
      · rw [List.map_singleton, List.mem_singleton] at hm
        exact hn.1 (hmk _ _ hm ▸ hy)

theorem labelLoop_le {σ : Type} [DecidableEq σ] (mk : UInt64 → σ) (xs : List UInt64) (i : ℕ) (acc : List (ℕ × σ)) :
    (labelLoop mk i acc xs).length ≤ acc.length + xs.length := by
  induction xs generalizing i acc with
  | nil => simp [labelLoop]
  | cons x xs ih =>
    rw [labelLoop]
    refine le_trans (ih _ _) ?_
    by_cases h : mk x ∈ acc.map Prod.snd
    · rw [if_pos h]; simp
    · rw [if_neg h]; simp; omega

theorem labelLoop_lt {σ : Type} [DecidableEq σ] (mk : UInt64 → σ) (xs : List UInt64) (i : ℕ) (acc : List (ℕ × σ))
    (h : ¬ xs.Nodup ∨ ∃ x ∈ xs, mk x ∈ acc.map Prod.snd) : (labelLoop mk i acc xs).length < acc.length + xs.length := by
  induction xs generalizing i acc with
  | nil =>
    rcases h with h | ⟨x, hx, -⟩
    · exact absurd List.nodup_nil h
    · cases hx
  | cons x xs ih =>
    rw [labelLoop]
    by_cases hx : mk x ∈ acc.map Prod.snd
    · rw [if_pos hx]
      have := labelLoop_le mk xs (i + 1) acc
      rw [List.length_cons]; omega
    · rw [if_neg hx]
      have hl : (acc ++ [(i, mk x)]).length + xs.length = acc.length + (x :: xs).length := by simp; omega
      rw [← hl]
      apply ih
      rcases h with h | ⟨y, hy, hm⟩
      · rw [List.nodup_cons, not_and_or, not_not] at h
        rcases h with h | h
        · exact Or.inr ⟨x, h, by simp⟩
        · exact Or.inl h
      · rcases List.mem_cons.1 hy with rfl | hy
        · exact absurd hm hx
        · exact Or.inr ⟨y, hy, by rw [List.map_append, List.mem_append]; exact Or.inl hm⟩

/-- **C101.** For all systems and all hash functions `unitarize` succeeds if and only if no two basis vectors have the same hash. Then the new system has one
artificial state per basis vector, numbered 0..N-1 and all different; each basis vector is its state; the Hamiltonian is unchanged. `mk` may be the label constructor of
one-atom or of pair systems. -/
theorem C101_unitarize {σ : Type} [DecidableEq σ] (h : LabelHash σ) (mk : String → σ) (hmk : ∀ a b, mk a = mk b → a = b) (s : VecSys σ) :
    ((s.unitarize h mk).1 = false ↔ (s.cols.map (vectorHash h (s.states.map Prod.snd))).Nodup) ∧
    ((s.unitarize h mk).1 = false → (s.unitarize h mk).2.states.map Prod.fst = List.range s.cols.length ∧ ((s.unitarize h mk).2.states.map Prod.snd).Nodup ∧
      (∀ (i : ℕ) (c : List (ℕ × ℂ)), s.cols[i]? = some c → (s.unitarize h mk).2.states[i]? = some (i, mk (hexLabel (vectorHash h (s.states.map Prod.snd) c)))) ∧
      (s.unitarize h mk).2.cols = (List.range s.cols.length).map (fun i => [(i, 1)]) ∧ (s.unitarize h mk).2.H = s.H) := by
  set xs := s.cols.map (vectorHash h (s.states.map Prod.snd)) with hxs
  have hlen : xs.length = s.cols.length := by simp [hxs]
  have hinj : ∀ a b : UInt64, mk (hexLabel a) = mk (hexLabel b) → a = b := fun a b hab => hexLabel_inj (hmk _ _ hab)
  have key : xs.Nodup → labelLoop (fun x => mk (hexLabel x)) 0 [] xs = xs.mapIdx fun k x => (k, mk (hexLabel x)) := by
    intro hn
    have := labelLoop_nodup (fun x => mk (hexLabel x)) hinj xs 0 [] hn (by simp)
    rw [this]; simp
  have hiff : (s.unitarize h mk).1 = false ↔ xs.Nodup := by
    unfold VecSys.unitarize
    dsimp only
    rw [← hxs]
    constructor
    · intro h1
      by_contra hn
      have := labelLoop_lt (fun x => mk (hexLabel x)) xs 0 [] (Or.inl hn)
      rw [if_pos (by simp at this; omega)] at h1
      cases h1
    · intro hn
      rw [if_neg]
      rw [key hn]
      simp [hlen]
  refine ⟨hiff, fun h1 => ?_⟩
  have hn := hiff.1 h1
  have hs : s.unitarize h mk = (false, { s with
      states := xs.mapIdx fun k x => (k, mk (hexLabel x)), cols := (List.range xs.length).map fun i => [(i, 1)] }) := by
    unfold VecSys.unitarize
    dsimp only
    rw [← hxs, key hn, if_neg (by simp [hlen])]
    simp
  rw [hs]
  dsimp only
  refine ⟨?_, ?_, ?_, by rw [hlen], rfl⟩
  · rw [← hlen]
    apply List.ext_getElem?
    intro i
    by_cases hi : i < xs.length
    · simp [hi]
    · simp [hi]
  · have : (xs.mapIdx fun k x => (k, mk (hexLabel x))).map Prod.snd = xs.map fun a => mk (hexLabel a) := by
      apply List.ext_getElem?
      intro i
      rw [List.getElem?_map, List.getElem?_mapIdx, Option.map_map, List.getElem?_map (l := xs)]
      rfl
    rw [this]
    exact List.Nodup.map (fun a b hab => hinj a b hab) hn
  · intro i c hc
    rw [List.getElem?_mapIdx, hxs, List.getElem?_map, hc]
    rfl

/-- **C101.** In a pair system the label is the pair of the artificial states `0_<hash>` and `1_<hash>`; in a one-atom system it is the artificial state `<hash>`. -/
theorem C101_labels (h1 : LabelHash AState) (s1 : VecSys AState) (h2 : LabelHash (AState × AState)) (s2 : VecSys (AState × AState)) :
    ((s1.unitarize h1 labelOne).1 = false → ∀ (i : ℕ) (c : List (ℕ × ℂ)), s1.cols[i]? = some c →
      ∃ x, (s1.unitarize h1 labelOne).2.states[i]? = some (i, .art (hexLabel x))) ∧
    ((s2.unitarize h2 labelTwo).1 = false → ∀ (i : ℕ) (c : List (ℕ × ℂ)), s2.cols[i]? = some c →
      ∃ x, (s2.unitarize h2 labelTwo).2.states[i]? = some (i, .art ("0_" ++ hexLabel x), .art ("1_" ++ hexLabel x))) :=
  ⟨fun h i c hc => ⟨_, ((C101_unitarize h1 labelOne (fun _ _ h => labelOne_inj h) s1).2 h).2.2.1 i c hc⟩,
    fun h i c hc => ⟨_, ((C101_unitarize h2 labelTwo (fun _ _ h => labelTwo_inj h) s2).2 h).2.2.1 i c hc⟩⟩

/-- Two basis vectors over two states; the hash of a coefficient is 1 for 1 and 0 otherwise. -/
noncomputable def exHash : LabelHash AState := ⟨fun _ => 5, fun r => UInt64.ofNat r, fun z => open Classical in if z = 1 then 1 else 0⟩

/-- The unit vectors. -/
noncomputable def exVecSys : VecSys AState :=
  ⟨[(0, .phys "Rb" 60 0 1 1), (1, .phys "Rb" 61 0 1 1)], [[(0, 1)], [(1, 1)]], ⟨2, 2, fun i _ => (i : ℂ)⟩⟩

example : (exVecSys.unitarize exHash labelOne).1 = false := by
  rw [(C101_unitarize exHash labelOne (fun a b h => labelOne_inj h) exVecSys).1]
  have : exVecSys.cols.map (vectorHash exHash (exVecSys.states.map Prod.snd)) =
      [hashCombine (hashCombine (hashCombine (hashCombine 0 5) 5) 0) 1, hashCombine (hashCombine (hashCombine (hashCombine 0 5) 5) 1) 1] := by
    simp [exVecSys, vectorHash, statesHash, exHash]
  rw [this]
  decide

/-! ## Where the claim is false of the code -/

/-- Normalised vectors over 65 states with coefficients of equal modulus. -/
noncomputable def signVec (f : Fin 65 → Bool) : List (ℕ × ℂ) :=
  (List.finRange 65).map fun i => (i.val, ((1 / Real.sqrt 65 : ℝ) : ℂ) * (if f i = true then -1 else 1))

/-- **C101, violated: different vectors with the same label.** For all hash functions and all lists of states: two different normalised vectors over 65 states have the
same label. (Two systems that are unitarized separately can thus contain the same artificial state for different vectors; nothing detects it.) -/
theorem C101_collision_fails {σ : Type} (h : LabelHash σ) (mk : String → σ) (states : List σ) :
    ∃ f g : Fin 65 → Bool, signVec f ≠ signVec g ∧ mk (hexLabel (vectorHash h states (signVec f))) = mk (hexLabel (vectorHash h states (signVec g))) := by
  have hinj : Function.Injective signVec := by
    intro f g hfg
    funext i
    unfold signVec at hfg
    have := (List.map_inj_left.1 hfg) i (List.mem_finRange i)
    have := (Prod.mk.inj this).2
    have h0 : ((1 / Real.sqrt 65 : ℝ) : ℂ) ≠ 0 := by
      rw [Complex.ofReal_ne_zero]
      have : Real.sqrt 65 ≠ 0 := by
        rw [Real.sqrt_ne_zero']; norm_num
      exact one_div_ne_zero this
    have := mul_left_cancel₀ h0 this
    cases hf : f i <;> cases hg : g i <;> rw [hf, hg] at this <;> norm_num at this
  let F : (Fin 65 → Bool) → Fin (2 ^ 64) := fun f => ⟨(vectorHash h states (signVec f)).toNat, UInt64.toNat_lt _⟩
  have hc : Fintype.card (Fin (2 ^ 64)) < Fintype.card (Fin 65 → Bool) := by
    rw [Fintype.card_fin, Fintype.card_fun, Fintype.card_bool, Fintype.card_fin]
    norm_num
  obtain ⟨f, g, hne, hfg⟩ := Fintype.exists_ne_map_eq_of_card_lt F hc
  refine ⟨f, g, fun hh => hne (hinj hh), ?_⟩
  have : vectorHash h states (signVec f) = vectorHash h states (signVec g) := by
    apply UInt64.toNat_inj.1
    exact congrArg Fin.val hfg
  rw [this]

/-- **C101, violated: a collision inside of a system.** The call throws and leaves a system with the artificial states that were made so far and the old basis vectors, whose
rows do not fit to the states. Here the hash of a coefficient ignores its value, and two vectors occupy the same row of two states. -/
theorem C101_broken_fails : ∃ (h : LabelHash AState) (s : VecSys AState), (s.unitarize h labelOne).1 = true ∧
    (s.unitarize h labelOne).2.states.length = 1 ∧ (s.unitarize h labelOne).2.cols = s.cols ∧ ∃ c ∈ s.cols, ∃ e ∈ c, 1 ≤ e.1 := by
  refine ⟨⟨fun _ => 0, fun _ => 0, fun _ => 0⟩, ⟨[(0, .phys "Rb" 60 0 1 1), (1, .phys "Rb" 61 0 1 1)], [[(0, 3 / 5), (1, 4 / 5)], [(0, 4 / 5), (1, -3 / 5)]],
    ⟨2, 2, fun _ _ => 0⟩⟩, ?_, ?_, ?_, [(0, 3 / 5), (1, 4 / 5)], by simp, (1, 4 / 5), by simp, le_refl _⟩ <;>
  simp [VecSys.unitarize, labelLoop, vectorHash, statesHash]

/-- **C101, violated: stored zeros.** The same vector, once with a stored zero, gets different labels. -/
theorem C101_stored_zero_fails : ∃ (h : LabelHash AState) (states : List AState) (c d : List (ℕ × ℂ)),
    (∀ r, ((c.filter fun e => e.1 = r).map Prod.snd).sum = ((d.filter fun e => e.1 = r).map Prod.snd).sum) ∧ h.val 0 = 0 ∧
    labelOne (hexLabel (vectorHash h states c)) ≠ labelOne (hexLabel (vectorHash h states d)) := by
  refine ⟨⟨fun _ => 5, fun r => UInt64.ofNat r, fun _ => 0⟩, [.phys "Rb" 60 0 1 1, .phys "Rb" 61 0 1 1], [(0, 1)], [(0, 1), (1, 0)], ?_, rfl, ?_⟩
  · intro r
    by_cases h0 : 0 = r <;> by_cases h1 : 1 = r <;> simp [h0, h1]
  · intro h
    have h := hexLabel_inj (labelOne_inj h)
    have : hashCombine (hashCombine (hashCombine (hashCombine 0 5) 5) 0) 0 =
        hashCombine (hashCombine (hashCombine (hashCombine (hashCombine (hashCombine 0 5) 5) 0) 0) 1) 0 := by
      simpa [vectorHash, statesHash] using h
    revert this
    decide

/-- **C101, violated: order of the states.** The same vector over the same states in another order gets a different label. -/
theorem C101_order_fails : ∃ (h : LabelHash AState) (a b : AState) (z : ℂ), a ≠ b ∧ z ≠ 0 ∧
    labelOne (hexLabel (vectorHash h [a, b] [(0, z)])) ≠ labelOne (hexLabel (vectorHash h [b, a] [(1, z)])) := by
  refine ⟨⟨fun s => if s = .phys "Rb" 60 0 1 1 then 1 else 2, fun r => UInt64.ofNat r, fun _ => 0⟩, .phys "Rb" 60 0 1 1, .phys "Rb" 61 0 1 1, 1, by decide, one_ne_zero, ?_⟩
  intro h
  have h := hexLabel_inj (labelOne_inj h)
  have : hashCombine (hashCombine (hashCombine (hashCombine 0 1) 2) 0) 0 = hashCombine (hashCombine (hashCombine (hashCombine 0 2) 1) 1) 0 := by
    simpa [vectorHash, statesHash] using h
  revert this
  decide

end PI
