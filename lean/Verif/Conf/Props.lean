import Verif.Conf.Model
import Mathlib.Tactic.SplitIfs
import Mathlib.Data.List.Induction
import Mathlib.Data.List.Nodup

/-! # Properties C14, C15: configurations -/

namespace PI
open Config

theorem find?_set (c : Config) (k v k' : Str) :
    (c.set k v).find? k' = if k' = k then some v else c.find? k' := by
  induction c with
  | nil => simp [Config.set, find?, eq_comm]
  | cons p c ih =>
    obtain ⟨a, b⟩ := p
    simp only [Config.set]
    split_ifs with h1 h2 h2
    · subst h1; subst h2; simp [find?]
    · subst h1; have : ¬ a = k' := fun h => h2 h.symm
      simp [find?, this]
    · subst h2; simp [find?, h1, ih]
    · simp [find?, ih, h2]

theorem find?_eq_some_iff (c : Config) (hc : c.WF) (k v : Str) : c.find? k = some v ↔ (k, v) ∈ c := by
  induction c with
  | nil => simp [find?]
  | cons p c ih =>
    obtain ⟨a, b⟩ := p
    simp only [WF, List.map_cons, List.nodup_cons] at hc
    simp only [find?]
    split_ifs with h
    · subst h
      constructor
      · intro h; simp at h; simp [h]
      · intro h
        rcases List.mem_cons.mp h with h | h
        · cases h; rfl
        · exact absurd (List.mem_map_of_mem (f := Prod.fst) h) hc.1
    · rw [ih hc.2]
      have : ¬ k = a := fun h' => h h'.symm
      simp [this]

theorem find?_eq_none_iff (c : Config) (k : Str) : c.find? k = none ↔ k ∉ c.map Prod.fst := by
  induction c with
  | nil => simp [find?]
  | cons p c ih =>
    obtain ⟨a, b⟩ := p
    simp only [find?, List.map_cons, List.mem_cons, not_or]
    split_ifs with h
    · simp [h]
    · simp [ih]; exact fun _ h' => h h'.symm

theorem keys_set (c : Config) (k v : Str) :
    (c.set k v).map Prod.fst = if k ∈ c.map Prod.fst then c.map Prod.fst else c.map Prod.fst ++ [k] := by
  induction c with
  | nil => simp [Config.set]
  | cons p c ih =>
    obtain ⟨a, b⟩ := p
    simp only [Config.set]
    split_ifs with h1 h2 h2
    · simp
    · simp [h1] at h2
    · have : k ∈ c.map Prod.fst := by
        rcases List.mem_cons.mp h2 with h | h
        · exact absurd h.symm h1
        · exact h
      rw [List.map_cons, ih, if_pos this]; simp
    · have : ¬ k ∈ c.map Prod.fst := fun h => h2 (by simp only [List.map_cons]; exact List.mem_cons_of_mem _ h)
      rw [List.map_cons, ih, if_neg this]; simp

theorem wf_set (c : Config) (hc : c.WF) (k v : Str) : (c.set k v).WF := by
  unfold WF at *
  rw [keys_set]
  split_ifs with h
  · exact hc
  · rw [List.nodup_append]; refine ⟨hc, by simp, ?_⟩
    intro a ha b hb; simp at hb; subst hb; rintro rfl; exact h ha

/-- Public operations on a configuration. -/
inductive ConfOp where
  | set (k v : Str)
  | touch (k : Str)
  | append (b : Config)
  | load (t : PTree)

/-- Effect of an operation. -/
def ConfOp.apply (c : Config) : ConfOp → Config
  | .set k v => c.set k v
  | .touch k => c.touch k
  | .append b => c.append b
  | .load t => loadFromJson c t

theorem wf_foldl_set (l : List (Str × Str)) (c : Config) (hc : c.WF) :
    (l.foldl (fun c p => c.set p.1 p.2) c).WF := by
  induction l generalizing c with
  | nil => exact hc
  | cons p l ih => exact ih _ (wf_set c hc _ _)

/-- Every history of operations keeps the keys distinct. -/
theorem wf_history (ops : List ConfOp) : (ops.foldl ConfOp.apply ([] : Config)).WF := by
  have : ∀ (ops : List ConfOp) (c : Config), c.WF → (ops.foldl ConfOp.apply c).WF := by
    intro ops
    induction ops with
    | nil => intro c h; exact h
    | cons o ops ih =>
      intro c h
      refine ih _ ?_
      cases o with
      | set k v => exact wf_set c h k v
      | touch k => simp only [ConfOp.apply, touch]; split <;> first | exact h | exact wf_set c h _ _
      | append b => exact wf_foldl_set b c h
      | load t =>
        have := wf_foldl_set (t.children.map (fun p => (p.1, p.2.data))) c h
        rw [List.foldl_map] at this
        exact this
  exact this ops [] (by simp [WF])

theorem find?_foldl_set (b : Config) (hb : b.WF) (a : Config) (k : Str) :
    (b.foldl (fun c p => c.set p.1 p.2) a).find? k = (b.find? k).or (a.find? k) := by
  induction b generalizing a with
  | nil => simp [find?]
  | cons p b ih =>
    obtain ⟨x, y⟩ := p
    simp only [WF, List.map_cons, List.nodup_cons] at hb
    rw [List.foldl_cons, ih hb.2, find?_set]
    simp only [find?]
    by_cases h : x = k
    · subst h
      have : find? b x = none := (find?_eq_none_iff b x).mpr hb.1
      simp [this]
    · have h' : ¬ k = x := fun e => h e.symm
      simp [h, h']

/-- **C15.** For all configurations `a`, `b` (reached by any histories): after `a += b` every key of
`b` has `b`'s value, every other key keeps `a`'s, and the keys are the union; the result does not
depend on the iteration order of `b`; `==` is an equivalence and agrees with reading every key; a
const read returns the stored value and throws exactly for missing keys; a non-const access changes no
existing entry and inserts an empty value only for a missing key. -/
theorem C15_merge (opsA opsB : List ConfOp) (k : Str) :
    let a := opsA.foldl ConfOp.apply ([] : Config)
    let b := opsB.foldl ConfOp.apply ([] : Config)
    (∀ v, b.find? k = some v → (a.append b).find? k = some v) ∧
    (b.find? k = none → (a.append b).find? k = a.find? k) ∧
    (k ∈ (a.append b).map Prod.fst ↔ k ∈ a.map Prod.fst ∨ k ∈ b.map Prod.fst) ∧
    (∀ b', b'.Perm b → (a.append b').eqMap (a.append b)) ∧
    Equivalence Config.eqMap ∧
    (a.eqMap b ↔ ∀ k, a.getConst k = b.getConst k) ∧
    (a.getConst k = .throw ↔ k ∉ a.map Prod.fst) ∧ (∀ v, a.getConst k = .ok v ↔ (k, v) ∈ a) ∧
    (∀ k', (a.touch k).find? k' = if k' = k ∧ a.find? k = none then some [] else a.find? k') := by
  intro a b
  have ha : a.WF := wf_history opsA
  have hb : b.WF := wf_history opsB
  have key : ∀ k, (a.append b).find? k = (b.find? k).or (a.find? k) := find?_foldl_set b hb a
  refine ⟨?_, ?_, ?_, ?_, ?_, ?_, ?_, ?_, ?_⟩
  · intro v h; rw [key, h]; rfl
  · intro h; rw [key, h]; rfl
  · have n := find?_eq_none_iff (a.append b) k
    have na := find?_eq_none_iff a k
    have nb := find?_eq_none_iff b k
    rw [key k] at n
    rw [← not_iff_not, ← n, not_or, ← na, ← nb]
    cases find? b k <;> simp
  · intro b' hp k'
    have hb' : b'.WF := by unfold WF at *; exact (hp.map _).nodup_iff.mpr hb
    rw [key, show (a.append b').find? k' = (b'.find? k').or (a.find? k') from find?_foldl_set b' hb' a k']
    congr 1
    cases h : find? b k' with
    | none =>
      rw [find?_eq_none_iff] at *
      intro hm; exact h ((hp.map _).mem_iff.mp hm)
    | some v =>
      rw [find?_eq_some_iff b hb] at h
      rw [find?_eq_some_iff b' hb']; exact hp.mem_iff.mpr h
  · exact ⟨fun _ _ => rfl, fun h k => (h k).symm, fun h g k => (h k).trans (g k)⟩
  · constructor
    · intro h k; simp [Config.getConst, h k]
    · intro h k
      have := h k
      simp only [Config.getConst] at this
      cases h1 : find? a k <;> cases h2 : find? b k <;> simp_all
  · rw [← find?_eq_none_iff]
    simp only [Config.getConst]
    cases find? a k <;> simp
  · intro v
    rw [← find?_eq_some_iff a ha]
    simp only [Config.getConst]
    cases find? a k <;> simp
  · intro k'
    simp only [touch]
    cases h : find? a k with
    | some v => simp
    | none => simp only [find?_set]; split_ifs <;> simp_all

example : (Config.append [(['x'], ['1']), (['y'], ['2'])] [(['y'], ['3']), (['z'], [])])
    = [(['x'], ['1']), (['y'], ['3']), (['z'], [])] := by decide

/-! ## C14 -/

/-- A key that is a JSON member name for `ptree::put`: not empty and without dots. -/
def PlainKey (k : Str) : Prop := k ≠ [] ∧ '.' ∉ k

theorem splitFrom_plain (k acc : Str) (h : '.' ∉ k) : splitFrom acc k = [acc.reverse ++ k] := by
  induction k generalizing acc with
  | nil => simp [splitFrom]
  | cons c k ih =>
    simp only [List.mem_cons, not_or] at h
    have hc : ¬ c = '.' := fun e => h.1 e.symm
    simp [splitFrom, hc, ih _ h.2]

theorem splitDots_plain (k : Str) (h : PlainKey k) : splitDots k = [k] := by
  simp [splitDots, h.1, splitFrom_plain k [] h.2]

theorem splitFrom_noDot (k acc : Str) (hacc : '.' ∉ acc) : ∀ p ∈ splitFrom acc k, '.' ∉ p := by
  induction k generalizing acc with
  | nil => simpa [splitFrom] using hacc
  | cons c k ih =>
    intro p hp
    simp only [splitFrom] at hp
    split_ifs at hp with h1 h2
    · simp at hp; subst hp; simpa using hacc
    · rcases List.mem_cons.mp hp with h | h
      · subst h; simpa using hacc
      · exact ih [] (by simp) p h
    · exact ih (c :: acc) (by simp [hacc]; exact fun e => h1 e.symm) p hp

/-- Keys of the top-level children after one more `put`. -/
theorem mem_updChild (k : Str) (f : PTree → PTree) (cs : List (Str × PTree)) (x : Str) :
    x ∈ (updChild k f cs).map Prod.fst → x = k ∨ x ∈ cs.map Prod.fst := by
  induction cs with
  | nil => simp [updChild]
  | cons p cs ih =>
    obtain ⟨a, t⟩ := p
    simp only [updChild]
    split_ifs with h
    · simp; intro h; cases h <;> simp_all
    · simp only [List.map_cons, List.mem_cons]
      rintro (h | h)
      · simp [h]
      · rcases ih h with h | h <;> simp [h]

theorem top_keys (c : Config) (t : PTree) (x : Str)
    (h : x ∈ (c.foldl (fun t p => t.put p.2 (splitDots p.1)) t).children.map Prod.fst) :
    x ∈ t.children.map Prod.fst ∨ ∃ p ∈ c, (splitDots p.1).head? = some x := by
  induction c generalizing t with
  | nil => exact .inl h
  | cons p c ih =>
    rcases ih _ h with h | ⟨q, hq, hx⟩
    · cases hs : splitDots p.1 with
      | nil =>
        simp only [hs] at h
        cases t with | node d ch => exact .inl h
      | cons k ks =>
        simp only [hs] at h
        cases t with | node d ch =>
        rcases mem_updChild _ _ _ _ h with h | h
        · exact .inr ⟨p, by simp, by rw [hs, h]; rfl⟩
        · exact .inl h
    · exact .inr ⟨q, by simp [hq], hx⟩

theorem updChild_new (k : Str) (f : PTree → PTree) (cs : List (Str × PTree))
    (h : k ∉ cs.map Prod.fst) : updChild k f cs = cs ++ [(k, f (.node [] []))] := by
  induction cs with
  | nil => rfl
  | cons p cs ih =>
    obtain ⟨a, t⟩ := p
    simp only [List.map_cons, List.mem_cons, not_or] at h
    have : ¬ a = k := fun e => h.1 e.symm
    simp [updChild, this, ih h.2]

theorem save_plain (c : Config) (hc : c.WF) (hp : ∀ p ∈ c, PlainKey p.1) :
    c.foldl (fun (t : PTree) p => t.put p.2 (splitDots p.1)) (PTree.node [] [])
      = .node [] (c.map (fun p => (p.1, .node p.2 []))) := by
  have : ∀ (c : Config) (cs : List (Str × PTree)), (cs.map Prod.fst ++ c.map Prod.fst).Nodup →
      (∀ p ∈ c, PlainKey p.1) →
      c.foldl (fun (t : PTree) p => t.put p.2 (splitDots p.1)) (PTree.node [] cs)
        = .node [] (cs ++ c.map (fun p => (p.1, .node p.2 []))) := by
    intro c
    induction c with
    | nil => intro cs _ _; simp
    | cons p c ih =>
      intro cs hn hp
      have hnew : p.1 ∉ cs.map Prod.fst := by
        intro h
        have := (List.nodup_append.mp hn).2.2 _ h p.1 (by simp)
        exact this rfl
      rw [List.foldl_cons, splitDots_plain _ (hp p (by simp))]
      simp only [PTree.put]
      rw [updChild_new _ _ _ hnew, ih]
      · simp [PTree.put]
      · simpa using hn
      · exact fun q hq => hp q (by simp [hq])
  simpa using this c [] (by simpa [WF] using hc) hp

/-- **C14 (partial).** Exactly which configurations survive a save/load cycle: saving succeeds and
loading into an empty configuration yields an equal one if and only if every key is non-empty and
contains no dot.  The full statement (all configurations) fails, see
`C14_json_round_trip_fails`. -/
theorem C14_json_round_trip_partial (c : Config) (hc : c.WF) :
    (∃ t, saveToJson c = .ok t ∧ (loadFromJson [] t).eqMap c) ↔ ∀ p ∈ c, PlainKey p.1 := by
  constructor
  · rintro ⟨t, hs, he⟩
    have ht : t = c.foldl (fun (t : PTree) p => t.put p.2 (splitDots p.1)) (PTree.node [] []) := by
      unfold saveToJson writeJson at hs
      split_ifs at hs
      exact (Out.ok.inj hs).symm
    -- every key that is loaded is the first component of some key of c
    have hload : ∀ k v, (loadFromJson [] t).find? k = some v →
        ∃ p ∈ c, (splitDots p.1).head? = some k := by
      intro k v h
      have hk : k ∈ (loadFromJson [] t).map Prod.fst := by
        by_contra hn; rw [← find?_eq_none_iff] at hn; rw [hn] at h; cases h
      have : ∀ (l : List (Str × PTree)) (c0 : Config),
          k ∈ (l.foldl (fun c p => c.set p.1 p.2.data) c0).map Prod.fst →
          k ∈ c0.map Prod.fst ∨ k ∈ l.map Prod.fst := by
        intro l
        induction l with
        | nil => intro c0 h; exact .inl h
        | cons q l ih =>
          intro c0 h
          rcases ih _ h with h | h
          · rw [keys_set] at h
            split_ifs at h
            · exact .inl h
            · rcases List.mem_append.mp h with h | h
              · exact .inl h
              · simp at h; exact .inr (by simp [h])
          · exact .inr (by rw [List.map_cons]; exact List.mem_cons_of_mem _ h)
      rcases this _ _ hk with h | h
      · simp at h
      · rw [ht] at h
        rcases top_keys c _ k h with h | h
        · simp [PTree.children] at h
        · exact h
    have hhas : ∀ p ∈ c, ∃ q ∈ c, (splitDots q.1).head? = some p.1 := by
      intro p hp
      have : c.find? p.1 = some p.2 := (find?_eq_some_iff c hc _ _).mpr hp
      rw [← he p.1] at this
      exact hload _ _ this
    have hnodot : ∀ p ∈ c, '.' ∉ p.1 := by
      intro p hp
      obtain ⟨q, _, hq⟩ := hhas p hp
      unfold splitDots at hq
      split_ifs at hq
      · simp at hq
      · exact splitFrom_noDot _ [] (by simp) _ (List.mem_of_head? hq)
    intro p hp
    refine ⟨?_, hnodot p hp⟩
    obtain ⟨q, hqc, hq⟩ := hhas p hp
    by_cases hq0 : q.1 = []
    · simp [splitDots, hq0] at hq
    · rw [splitDots_plain q.1 ⟨hq0, hnodot q hqc⟩] at hq
      simp at hq; rw [← hq]; exact hq0
  · intro hp
    have hs := save_plain c hc hp
    have hok : okChildren (c.map (fun p => (p.1, PTree.node p.2 []))) = true := by
      clear hs hp hc
      induction c with
      | nil => simp [okChildren]
      | cons p c ih => simp [okChildren, PTree.okInner, ih]
    refine ⟨_, by unfold saveToJson writeJson; rw [hs]; simp [PTree.data, PTree.children, hok]; rfl, ?_⟩
    intro k
    have : loadFromJson [] (.node [] (c.map (fun p => (p.1, PTree.node p.2 []))))
        = c.foldl (fun (c : Config) p => c.set p.1 p.2) ([] : Config) := by
      simp [loadFromJson, PTree.children, List.foldl_map, PTree.data]
    rw [this, find?_foldl_set c hc]
    simp [find?]

/-- A configuration with three plain keys, one with an empty value, meets the right-hand side. -/
example : Config.WF [(['a'], ['1']), (['b', 'c'], []), (['d'], ['.'])] ∧
    ∀ p ∈ ([(['a'], ['1']), (['b', 'c'], []), (['d'], ['.'])] : Config), PlainKey p.1 := by
  refine ⟨by unfold Config.WF; decide, ?_⟩
  intro p hp
  simp at hp
  rcases hp with rfl | rfl | rfl <;> simp [PlainKey]

/-- **C14 fails** in general: the entry `a.b = 1` comes back as an entry `a` with an empty value. -/
theorem C14_json_round_trip_fails :
    ∃ (c : Config) (t : PTree), c.WF ∧ saveToJson c = .ok t ∧
      loadFromJson [] t = [(['a'], [])] ∧ ¬ (loadFromJson [] t).eqMap c := by
  refine ⟨[(['a', '.', 'b'], ['1'])], .node [] [(['a'], .node [] [(['b'], .node ['1'] [])])],
    by unfold Config.WF; decide, by simp [saveToJson, writeJson, splitDots, splitFrom, PTree.put, updChild, PTree.data,
      PTree.children, okChildren, PTree.okInner], rfl, ?_⟩
  intro h
  have := h ['a']
  exact absurd this (by decide)

end PI
