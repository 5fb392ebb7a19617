import Verif.Legacy.StepsModel
import Mathlib.Tactic.Ring
import Mathlib.Tactic.FieldSimp
import Mathlib.Tactic.Linarith
import Mathlib.Data.List.ProdSigma

/-!
# C96: the steps of a scan
-/

namespace PI

/-! ## Specification -/

/-- The scanned quantities at the fraction `t` of the scan. -/
def ScanAt (s : OldScan) (minR maxR t : ℝ) (f : OldFields) (R : ℝ) : Prop :=
  f.E.x = (1 - t) * s.minE.x + t * s.maxE.x ∧ f.E.y = (1 - t) * s.minE.y + t * s.maxE.y ∧ f.E.z = (1 - t) * s.minE.z + t * s.maxE.z ∧
  f.B.x = (1 - t) * s.minB.x + t * s.maxB.x ∧ f.B.y = (1 - t) * s.minB.y + t * s.maxB.y ∧ f.B.z = (1 - t) * s.minB.z + t * s.maxB.z ∧
  R = (1 - t) * minR + t * maxR

/-! ## Loops -/

theorem oldAt_some {α : Type} {v : List α} {i : ℕ} {a : α} (h : v[i]? = some a) : oldAt v i = .ok a := by unfold oldAt; rw [h]

theorem oldLoop_ok {α β : Type} (f : α → Out β) (g : α → β) (l : List α) (h : ∀ a ∈ l, f a = .ok (g a)) : oldLoop f l = .ok (l.map g) := by
  induction l with
  | nil => rfl
  | cons a l ih => rw [oldLoop, h a (by simp), Out.ok_bind, ih fun b hb => h b (by simp [hb])]; rfl

theorem getElem?_prod {α β : Type} (L : List α) (M : List β) (i k : ℕ) (hk : k < M.length) :
    (L ×ˢ M)[i * M.length + k]? = (L[i]?).bind fun x => (M[k]?).map fun y => (x, y) := by
  induction L generalizing i with
  | nil => simp
  | cons x xs ih =>
    rw [List.product_cons]
    cases i with
    | zero => rw [Nat.zero_mul, Nat.zero_add, List.getElem?_append_left (by simpa using hk)]; simp
    | succ i =>
      rw [List.getElem?_append_right (by simp; nlinarith), List.length_map,
        show (i + 1) * M.length + k - M.length = i * M.length + k by rw [Nat.add_mul, Nat.one_mul]; omega, ih]
      simp

theorem between_const (a b : Vec3) (t : ℝ) (hx : a.x = b.x) (hy : a.y = b.y) (hz : a.z = b.z) (u : ℝ) : oldBetween a b t = oldBetween a b u := by
  unfold oldBetween; rw [hx, hy, hz]; simp

/-- C96: for every scan with at least one step. Nothing is read outside of a vector and nothing throws; there is one step if neither the fields nor the distance
change, else as many as asked for; in round `i` of step `k` the pair calculation uses, for both atoms and for the configuration that names the result, the one-atom
Hamiltonians with the fields at the fraction `k / (n - 1)` of the scan (the start of the scan if there is one step only), the distance at the same fraction, and the
`i`-th symmetry. So the first step is at the start of the scan and the last of several steps at its end. -/
theorem C96_steps {S : Type} (s : OldScan) (minR maxR : ℝ) (syms : List S) (hs : 1 ≤ s.steps) :
    ∃ n L, oldPairScan s minR maxR syms = .ok L ∧ L.length = n * syms.length ∧
      ((s.minE = s.maxE ∧ s.minB = s.maxB ∧ minR = maxR ∧ n = 1) ∨ (¬ (s.minE = s.maxE ∧ s.minB = s.maxB ∧ minR = maxR) ∧ n = s.steps)) ∧
      (∀ k < n, ∀ i (hi : i < syms.length), ∃ task, L[k * syms.length + i]? = some task ∧ task.sym = syms[i] ∧
        ∀ f ∈ [task.params, task.one1, task.one2], ScanAt s minR maxR (if n = 1 then 0 else k / (n - 1 : ℝ)) f task.R) ∧
      (∀ i (hi : i < syms.length), ∃ first last, L[i]? = some first ∧ L[(n - 1) * syms.length + i]? = some last ∧
        first.one1.E = s.minE ∧ first.one1.B = s.minB ∧ first.R = minR ∧
        (1 < n → last.one1.E = s.maxE ∧ last.one1.B = s.maxB ∧ last.R = maxR)) := by
  classical
  have vext : ∀ a b : Vec3, a = b ↔ a.x = b.x ∧ a.y = b.y ∧ a.z = b.z := by
    intro a b; cases a; cases b; simp
  -- the number of one-atom steps
  have hn1 : s.nSteps = if s.minE = s.maxE ∧ s.minB = s.maxB then 1 else s.steps := by
    unfold OldScan.nSteps
    rw [vext, vext]
    congr 1
    exact propext ⟨fun ⟨a, b, c, d, e, f⟩ => ⟨⟨d, e, f⟩, a, b, c⟩, fun ⟨⟨d, e, f⟩, a, b, c⟩ => ⟨a, b, c, d, e, f⟩⟩
  have hn1pos : 1 ≤ s.nSteps := by rw [hn1]; split_ifs <;> omega
  have hlen : s.ones.length = s.nSteps := by simp [OldScan.ones]
  have hget : ∀ i < s.nSteps, s.ones[i]? = some (s.fieldsAt i) := by intro i hi; simp [OldScan.ones, hi]
  have hne : s.ones ≠ [] := by intro h; rw [h] at hlen; simp at hlen; omega
  set n2 := if minR = maxR ∧ s.nSteps = 1 then 1 else s.steps with hn2
  have hn2pos : 1 ≤ n2 := by rw [hn2]; split_ifs <;> omega
  have hn2' : (s.minE = s.maxE ∧ s.minB = s.maxB ∧ minR = maxR ∧ n2 = 1) ∨ (¬ (s.minE = s.maxE ∧ s.minB = s.maxB ∧ minR = maxR) ∧ n2 = s.steps) := by
    by_cases hf : s.minE = s.maxE ∧ s.minB = s.maxB
    · by_cases hR : minR = maxR
      · exact Or.inl ⟨hf.1, hf.2, hR, by rw [hn2, hn1, if_pos hf, if_pos ⟨hR, rfl⟩]⟩
      · exact Or.inr ⟨fun h => hR h.2.2, by rw [hn2, if_neg fun h => hR h.1]⟩
    · refine Or.inr ⟨fun h => hf ⟨h.1, h.2.1⟩, ?_⟩
      rw [hn2, hn1, if_neg hf]; split_ifs with h <;> omega
  -- either the one-atom Hamiltonians belong to the steps, or there is one only
  have hcase : n2 = s.nSteps ∨ (s.minE = s.maxE ∧ s.minB = s.maxB) := by
    by_cases hf : s.minE = s.maxE ∧ s.minB = s.maxB
    · exact Or.inr hf
    · refine Or.inl ?_
      rw [hn2, hn1, if_neg hf]; split_ifs with h <;> omega
  let g : ℕ × S → PairTask OldFields OldFields S := fun r =>
    let f := s.fieldsAt (if n2 = s.nSteps then r.1 else 0)
    ⟨f, f, f, minR + oldPosition n2 r.1 * (maxR - minR), r.2⟩
  have hconf : oldLoop (fun i => oldAt s.ones i) (List.range s.nSteps) = .ok s.ones := by
    rw [oldLoop_ok _ s.fieldsAt _ fun i hi => oldAt_some (hget i (List.mem_range.1 hi))]; rfl
  have hok : oldPairScan s minR maxR syms = .ok ((List.range n2 ×ˢ syms).map g) := by
    unfold oldPairScan oldPairTasks
    rw [if_neg (by simp)]
    dsimp only
    rw [hlen, hconf, Out.ok_bind, if_neg hne]
    refine oldLoop_ok _ g _ fun r hr => ?_
    have hr1 : r.1 < n2 := by
      obtain ⟨a, b⟩ := r
      exact List.mem_range.1 (List.mem_product.1 hr).1
    have hidx : (if n2 = s.nSteps then r.1 else 0) < s.nSteps := by split_ifs with h <;> omega
    have hat := oldAt_some (hget _ hidx)
    rw [← hn2, hat]
    rfl
  have hpos : ∀ k, oldPosition n2 k = if n2 = 1 then 0 else k / (n2 - 1 : ℝ) := by
    intro k; unfold oldPosition
    by_cases h : n2 = 1
    · rw [if_pos h, if_neg (by omega)]
    · rw [if_neg h, if_pos (by omega)]
  have hfield : ∀ k, (s.fieldsAt (if n2 = s.nSteps then k else 0)).E = oldBetween s.minE s.maxE (oldPosition n2 k) ∧
      (s.fieldsAt (if n2 = s.nSteps then k else 0)).B = oldBetween s.minB s.maxB (oldPosition n2 k) := by
    intro k
    rcases hcase with h | ⟨hE, hB⟩
    · rw [if_pos h, h]; exact ⟨rfl, rfl⟩
    · exact ⟨between_const _ _ _ ((vext _ _).1 hE).1 ((vext _ _).1 hE).2.1 ((vext _ _).1 hE).2.2 _,
        between_const _ _ _ ((vext _ _).1 hB).1 ((vext _ _).1 hB).2.1 ((vext _ _).1 hB).2.2 _⟩
  have hL : ∀ k < n2, ∀ i (hi : i < syms.length), ((List.range n2 ×ˢ syms).map g)[k * syms.length + i]? = some (g (k, syms[i])) := by
    intro k hk i hi
    rw [List.getElem?_map, getElem?_prod _ _ _ _ hi]
    simp [hk, hi]
  refine ⟨n2, _, hok, by rw [List.length_map]; exact (List.length_product _ _).trans (by simp), hn2', fun k hk i hi => ⟨_, hL k hk i hi, rfl, fun f hf => ?_⟩, fun i hi => ?_⟩
  · have hf' : f = s.fieldsAt (if n2 = s.nSteps then k else 0) := by
      simp only [List.mem_cons, List.not_mem_nil, or_false] at hf
      rcases hf with rfl | rfl | rfl <;> rfl
    subst hf'
    unfold ScanAt
    rw [(hfield k).1, (hfield k).2, ← hpos]
    simp only [oldBetween, g]
    refine ⟨?_, ?_, ?_, ?_, ?_, ?_, ?_⟩ <;> ring
  · have h0 := hL 0 (by omega) i hi
    rw [Nat.zero_mul, Nat.zero_add] at h0
    refine ⟨_, _, h0, hL (n2 - 1) (by omega) i hi, ?_, ?_, ?_, fun hn => ⟨?_, ?_, ?_⟩⟩
    · show (s.fieldsAt _).E = _
      rw [(hfield 0).1, hpos]; simp [oldBetween]
    · show (s.fieldsAt _).B = _
      rw [(hfield 0).2, hpos]; simp [oldBetween]
    · show minR + oldPosition n2 0 * _ = _
      rw [hpos]; simp
    all_goals
      have h1 : oldPosition n2 (n2 - 1) = 1 := by
        rw [hpos, if_neg (by omega), Nat.cast_sub hn2pos, Nat.cast_one, div_self]
        have : (1 : ℝ) < n2 := by exact_mod_cast hn
        linarith
    · show (s.fieldsAt _).E = _
      rw [(hfield _).1, h1]; simp [oldBetween]
    · show (s.fieldsAt _).B = _
      rw [(hfield _).2, h1]; simp [oldBetween]
    · show minR + oldPosition n2 (n2 - 1) * _ = _
      rw [h1]; ring

/-- Example: a scan of a magnetic field and of the distance in ten steps. -/
example : ∃ s : OldScan, 1 ≤ s.steps ∧ s.minB ≠ s.maxB ∧ s.minE = s.maxE :=
  ⟨⟨true, ⟨0, 0, 0⟩, ⟨0, 0, 0⟩, ⟨0, 0, 0⟩, ⟨0, 0, 1⟩, false, 10⟩, by decide, by simp, rfl⟩

/-- Without a step (`steps` is 0) and with changing fields the program reads the last element of an empty vector. -/
theorem C96_no_steps_fails : ∃ s : OldScan, s.steps = 0 ∧ ∀ (minR maxR : ℝ) (syms : List Unit), oldPairScan s minR maxR syms = .ub := by
  refine ⟨⟨true, ⟨0, 0, 0⟩, ⟨0, 0, 0⟩, ⟨0, 0, 0⟩, ⟨0, 0, 1⟩, false, 0⟩, rfl, fun minR maxR syms => ?_⟩
  have h : (⟨true, ⟨0, 0, 0⟩, ⟨0, 0, 0⟩, ⟨0, 0, 0⟩, ⟨0, 0, 1⟩, false, 0⟩ : OldScan).ones = [] := by
    simp [OldScan.ones, OldScan.nSteps]
  unfold oldPairScan oldPairTasks
  rw [h]
  simp [oldLoop]

end PI
