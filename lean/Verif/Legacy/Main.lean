import Verif.Legacy.MainModel
import Mathlib.Tactic.Common
import Mathlib.Data.List.Induction
import Mathlib.Order.Basic

/-!
# C95: which calculations the command line program performs
-/

namespace PI

/-! ## Specification -/

/-- The options with an argument, as listed by `--help`. -/
inductive OptName where
  | config
  | output
  | type
deriving DecidableEq

/-- Short and long form. -/
def OptName.spellings : OptName → List String
  | .config => ["-c", "--config"]
  | .output => ["-o", "--output"]
  | .type => ["-t", "--type"]

/-- The arguments spell out the options with their values. -/
inductive Spells : List (OptName × String) → List String → Prop where
  | nil : Spells [] []
  | cons (o : OptName) (v s : String) (ps : List (OptName × String)) (as : List String) (hs : s ∈ o.spellings) (h : Spells ps as) :
      Spells ((o, v) :: ps) (s :: v :: as)

/-- The value of an option is the last one given. -/
def givenValue (o : OptName) (ps : List (OptName × String)) : Option String := ((ps.filter fun p => p.1 = o).map (·.2)).getLast?

/-! ## Options -/

def MainOpts.assign (s : MainOpts) (p : OptName × String) : MainOpts := match p.1 with
  | .config => { s with config := p.2 }
  | .output => { s with output := p.2 }
  | .type => { s with type := p.2 }

def MainOpts.get (s : MainOpts) : OptName → String
  | .config => s.config
  | .output => s.output
  | .type => s.type

theorem get_foldl (ps : List (OptName × String)) (s : MainOpts) (o : OptName) : (ps.foldl MainOpts.assign s).get o = (givenValue o ps).getD (s.get o) := by
  induction ps using List.reverseRecOn with
  | nil => rfl
  | append_singleton ps p ih =>
    rw [List.foldl_append, List.foldl_cons, List.foldl_nil]
    unfold givenValue at *
    rw [List.filter_append, List.map_append]
    obtain ⟨o', v⟩ := p
    by_cases h : o' = o
    · subst h
      rw [List.filter_cons_of_pos (by simp), List.filter_nil, List.map_cons, List.map_nil, List.getLast?_concat]
      cases o' <;> rfl
    · rw [List.filter_cons_of_neg (by simpa using h), List.filter_nil, List.map_nil, List.append_nil, ← ih]
      cases o' <;> cases o <;> first | rfl | exact absurd rfl h

theorem mainLoop_pair (o : OptName) (v s : String) (hs : s ∈ o.spellings) (as : List String) (st : MainOpts) :
    mainLoop (s :: v :: as) st = mainLoop as (st.assign (o, v)) := by
  cases o <;> simp only [OptName.spellings, List.mem_cons, List.not_mem_nil, or_false] at hs <;> rcases hs with rfl | rfl <;>
    simp [mainLoop, MainOpts.assign]

theorem mainLoop_spelled {ps : List (OptName × String)} {as : List String} (h : Spells ps as) (rest : List String) (st : MainOpts) :
    mainLoop (as ++ rest) st = mainLoop rest (ps.foldl MainOpts.assign st) := by
  induction h generalizing st with
  | nil => rfl
  | cons o v s ps as hs _ ih => rw [List.cons_append, List.cons_append, mainLoop_pair o v s hs, ih]; rfl

/-- Reading the arguments from the left: options with values, then the end, a call for help, or something that cannot be read. -/
theorem args_cases : ∀ n (args : List String), args.length ≤ n →
    ∃ ps pre rest, args = pre ++ rest ∧ Spells ps pre ∧
      (rest = [] ∨ (∃ h r, rest = h :: r ∧ (h = "-?" ∨ h = "--help")) ∨ (∃ h r, rest = h :: r ∧ h ≠ "-?" ∧ h ≠ "--help" ∧ ∀ st, mainLoop rest st = .exit 1)) := by
  intro n
  induction n with
  | zero => intro args h; exact ⟨[], [], args, rfl, .nil, Or.inl (List.length_eq_zero_iff.1 (by omega))⟩
  | succ n ih =>
    intro args hl
    cases args with
    | nil => exact ⟨[], [], [], rfl, .nil, Or.inl rfl⟩
    | cons h r =>
      by_cases hh : h = "-?" ∨ h = "--help"
      · exact ⟨[], [], h :: r, rfl, .nil, Or.inr (Or.inl ⟨h, r, rfl, hh⟩)⟩
      · by_cases ho : ∃ o : OptName, h ∈ o.spellings
        · obtain ⟨o, ho⟩ := ho
          cases r with
          | nil =>
            refine ⟨[], [], [h], rfl, .nil, Or.inr (Or.inr ⟨h, [], rfl, fun e => hh (Or.inl e), fun e => hh (Or.inr e), fun st => ?_⟩)⟩
            cases o <;> simp only [OptName.spellings, List.mem_cons, List.not_mem_nil, or_false] at ho <;> rcases ho with rfl | rfl <;> simp [mainLoop]
          | cons v as =>
            obtain ⟨ps, pre, rest, e, hs, hc⟩ := ih as (by simp at hl; omega)
            exact ⟨(o, v) :: ps, h :: v :: pre, rest, by rw [e]; rfl, .cons o v h ps pre ho hs, hc⟩
        · refine ⟨[], [], h :: r, rfl, .nil, Or.inr (Or.inr ⟨h, r, rfl, fun e => hh (Or.inl e), fun e => hh (Or.inr e), fun st => ?_⟩)⟩
          have hc : ¬ (h = "-c" ∨ h = "--config") := fun e => ho ⟨.config, by simpa [OptName.spellings] using e⟩
          have hout : ¬ (h = "-o" ∨ h = "--output") := fun e => ho ⟨.output, by simpa [OptName.spellings] using e⟩
          have ht : ¬ (h = "-t" ∨ h = "--type") := fun e => ho ⟨.type, by simpa [OptName.spellings] using e⟩
          rw [mainLoop.eq_def]; dsimp only; rw [if_neg hh, if_neg hc, if_neg hout, if_neg ht]

theorem mainFinish_compute (s : MainOpts) (real : Bool) (c o : String) : mainFinish s = .compute real c o ↔
    s.config = c ∧ c ≠ "" ∧ s.output = o ∧ o ≠ "" ∧ s.type = (if real then "real" else "complex") := by
  unfold mainFinish
  constructor
  · intro h
    by_cases h1 : s.config = ""
    · simp [h1] at h
    by_cases h2 : s.output = ""
    · simp [h1, h2] at h
    by_cases h3 : s.type = ""
    · simp [h1, h2, h3] at h
    by_cases h4 : s.type = "complex"
    · simp only [h1, h2, h4, if_true, if_false, MainCall.compute.injEq] at h
      obtain ⟨rfl, rfl, rfl⟩ := h
      exact ⟨rfl, h1, rfl, h2, h4⟩
    by_cases h5 : s.type = "real"
    · simp [h1, h2, h5] at h
      obtain ⟨rfl, rfl, rfl⟩ := h
      exact ⟨rfl, h1, rfl, h2, h5⟩
    · simp [h1, h2, h3, h4, h5] at h
  · rintro ⟨rfl, h1, rfl, h2, h3⟩
    cases real <;> simp [h1, h2, h3]

theorem mainFinish_exit (s : MainOpts) (n : ℕ) (h : mainFinish s = .exit n) : n = 1 := by
  unfold mainFinish at h
  split_ifs at h <;> simp_all

/-- C95: the options. Whatever the arguments are, the program starts a calculation with the given configuration file, cache directory and scalar type exactly if the
arguments are a sequence of the documented options, each followed by a value, and the last values given are a non-empty file, a non-empty directory and `real` or
`complex`; it leaves with success exactly if there are no arguments or the readable options are followed by a call for help, and with failure otherwise. -/
theorem C95_options (args : List String) :
    (∀ real c o, mainParse args = .compute real c o ↔
      ∃ ps, Spells ps args ∧ givenValue .config ps = some c ∧ c ≠ "" ∧ givenValue .output ps = some o ∧ o ≠ "" ∧
        givenValue .type ps = some (if real then "real" else "complex")) ∧
    (mainParse args = .exit 0 ↔ args = [] ∨ ∃ ps pre h rest, args = pre ++ h :: rest ∧ Spells ps pre ∧ (h = "-?" ∨ h = "--help")) ∧
    ∀ n, mainParse args = .exit n → n = 0 ∨ n = 1 := by
  have spell0 : ∀ ps as, Spells ps as → as = [] → ps = [] := by
    intro ps as h e; cases h with
    | nil => rfl
    | cons => exact absurd e (by simp)
  have hd : ∀ (x : Option String) (c : String), c ≠ "" → (x.getD "" = c ↔ x = some c) := by
    intro x c hc
    cases x with
    | none => simp [Ne.symm hc]
    | some y => simp
  -- the outcome of a sequence of options
  have A : ∀ ps, Spells ps args → args ≠ [] → mainParse args = mainFinish (ps.foldl MainOpts.assign ⟨"", "", ""⟩) := by
    intro ps h ha
    have := mainLoop_spelled h [] ⟨"", "", ""⟩
    rw [List.append_nil] at this
    unfold mainParse; rw [if_neg ha, this]; rfl
  have G : ∀ ps (real : Bool) (c o : String), mainFinish (ps.foldl MainOpts.assign ⟨"", "", ""⟩) = .compute real c o ↔
      givenValue .config ps = some c ∧ c ≠ "" ∧ givenValue .output ps = some o ∧ o ≠ "" ∧ givenValue .type ps = some (if real then "real" else "complex") := by
    intro ps real c o
    rw [mainFinish_compute]
    have gc := get_foldl ps ⟨"", "", ""⟩ .config
    have go := get_foldl ps ⟨"", "", ""⟩ .output
    have gt := get_foldl ps ⟨"", "", ""⟩ .type
    simp only [MainOpts.get] at gc go gt
    rw [gc, go, gt]
    have ht : (if real = true then "real" else "complex") ≠ "" := by cases real <;> decide
    constructor
    · rintro ⟨a, b, c', d, e⟩; exact ⟨(hd _ _ b).1 a, b, (hd _ _ d).1 c', d, (hd _ _ ht).1 e⟩
    · rintro ⟨a, b, c', d, e⟩; exact ⟨(hd _ _ b).2 a, b, (hd _ _ d).2 c', d, (hd _ _ ht).2 e⟩
  have H : ∀ ps pre h rest, args = pre ++ h :: rest → Spells ps pre → (h = "-?" ∨ h = "--help") → mainParse args = .exit 0 := by
    intro ps pre h rest e hs hh
    unfold mainParse
    rw [if_neg (by rw [e]; simp), e, mainLoop_spelled hs]
    rw [mainLoop.eq_def]; dsimp only; rw [if_pos hh]
  obtain ⟨ps, pre, rest, e, hs, hc⟩ := args_cases args.length args (Nat.le_refl _)
  by_cases ha : args = []
  · subst ha
    refine ⟨fun real c o => ⟨fun h => ?_, ?_⟩, ⟨fun _ => Or.inl rfl, fun _ => rfl⟩, fun n h => ?_⟩
    · simp [mainParse] at h
    · rintro ⟨ps, h, hv, _⟩; rw [spell0 ps [] h rfl] at hv; simp [givenValue] at hv
    · simp only [mainParse, if_true, MainCall.exit.injEq] at h; exact Or.inl h.symm
  rcases hc with rfl | ⟨h, r, rfl, hh⟩ | ⟨h, r, rfl, h1, h2, hbad⟩
  · rw [List.append_nil] at e; subst e
    have hA := A ps hs ha
    refine ⟨fun real c o => ⟨fun h => ⟨ps, hs, (G ps real c o).1 (hA ▸ h)⟩, ?_⟩, ⟨fun h => ?_, ?_⟩, fun n h => ?_⟩
    · rintro ⟨ps', hs', hv⟩; rw [A ps' hs' ha]; exact (G ps' real c o).2 hv
    · rw [hA] at h; exact absurd (mainFinish_exit _ _ h) (by decide)
    · rintro (h | ⟨ps', pre', h, rest, e, hs', hh⟩)
      · exact absurd h ha
      · exact H ps' pre' h rest e hs' hh
    · rw [hA] at h; exact Or.inr (mainFinish_exit _ _ h)
  · have hE := H ps pre h r e hs hh
    refine ⟨fun real c o => ⟨fun h' => ?_, ?_⟩, ⟨fun _ => Or.inr ⟨ps, pre, h, r, e, hs, hh⟩, fun _ => hE⟩, fun n h' => ?_⟩
    · rw [hE] at h'; simp at h'
    · rintro ⟨ps', hs', hv⟩
      have := (G ps' real c o).2 hv
      rw [← A ps' hs' ha, hE] at this; simp at this
    · rw [hE, MainCall.exit.injEq] at h'; exact Or.inl h'.symm
  · have hE : mainParse args = .exit 1 := by
      unfold mainParse; rw [if_neg ha, e, mainLoop_spelled hs, hbad]
    refine ⟨fun real c o => ⟨fun h' => ?_, ?_⟩, ⟨fun h' => ?_, ?_⟩, fun n h' => ?_⟩
    · rw [hE] at h'; simp at h'
    · rintro ⟨ps', hs', hv⟩
      have := (G ps' real c o).2 hv
      rw [← A ps' hs' ha, hE] at this; simp at this
    · rw [hE] at h'; simp at h'
    · rintro (h' | ⟨ps', pre', h', rest', e', hs', hh'⟩)
      · exact absurd h' ha
      · have := H ps' pre' h' rest' e' hs' hh'
        rw [hE] at this; simp at this
    · rw [hE, MainCall.exit.injEq] at h'; exact Or.inr h'.symm

/-- Example: an option given twice. -/
example : Spells [(.config, "a"), (.type, "real"), (.output, "cache"), (.config, "-c")] ["-c", "a", "--type", "real", "-o", "cache", "--config", "-c"] ∧
    mainParse ["-c", "a", "--type", "real", "-o", "cache", "--config", "-c"] = .compute true "-c" "cache" :=
  ⟨.cons .config "a" "-c" _ _ (by decide) (.cons .type "real" "--type" _ _ (by decide) (.cons .output "cache" "-o" _ _ (by decide)
    (.cons .config "-c" "--config" _ _ (by decide) .nil))), by decide⟩

/-! ## Calculations -/

theorem mainFind?_set (c : Config) (k k' v : Str) : (c.set k v).find? k' = if k' = k then some v else c.find? k' := by
  induction c with
  | nil =>
    by_cases h : k' = k
    · subst h; simp [Config.set, Config.find?]
    · simp [Config.set, Config.find?, h, Ne.symm h]
  | cons p c ih =>
    obtain ⟨a, b⟩ := p
    by_cases h : a = k
    · subst h
      by_cases h' : a = k'
      · subst h'; simp [Config.set, Config.find?]
      · simp [Config.set, Config.find?, h', Ne.symm h']
    · simp only [Config.set, if_neg h, Config.find?, ih]
      by_cases h' : a = k'
      · subst h'; simp [h]
      · simp [h']

theorem find?_touch (c : Config) (k k' : Str) : (c.touch k).find? k' = if k' = k then some ((c.find? k).getD []) else c.find? k' := by
  unfold Config.touch
  cases h : c.find? k with
  | some v => by_cases h' : k' = k <;> simp [h, h']
  | none => simp [mainFind?_set]

/-- The keys that describe an atom in a configuration file. -/
def AtomGiven (c : Config) (i : String) : Prop := ∀ k ∈ ["species", "n", "l", "j", "m"], ∃ v, c.find? (k ++ i).toList = some v

/-- `b` is `a`, possibly with further keys without value. -/
def ConfigExtends (a b : Config) : Prop := ∀ k, b.find? k = a.find? k ∨ (a.find? k = none ∧ b.find? k = some [])

theorem ConfigExtends.trans {a b c : Config} (h : ConfigExtends a b) (h' : ConfigExtends b c) : ConfigExtends a c := fun k => by
  rcases h k with e | ⟨e1, e2⟩ <;> rcases h' k with f | ⟨f1, f2⟩
  · exact Or.inl (f.trans e)
  · exact Or.inr ⟨e ▸ f1, f2⟩
  · exact Or.inr ⟨e1, f.trans e2⟩
  · rw [e2] at f1; cases f1

theorem extends_touch (a : Config) (k : Str) : ConfigExtends a (a.touch k) := fun k' => by
  rw [find?_touch]
  by_cases h : k' = k
  · subst h
    cases e : a.find? k' with
    | none => exact Or.inr ⟨rfl, by simp⟩
    | some v => exact Or.inl (by simp)
  · rw [if_neg h]; exact Or.inl rfl

theorem existAtom_iff (c : Config) (i : String) :
    existAtom c (["species", "n", "l", "j", "m"].map (· ++ i)) = true ↔ AtomGiven c i := by
  unfold existAtom AtomGiven
  simp only [List.all_eq_true, List.mem_map, forall_exists_index, and_imp, forall_apply_eq_imp_iff₂, Option.isSome_iff_exists]

theorem oldPairJob_some (real : Bool) (a b : OldAtoms) (c : Config) : oldPairJob real (some a) (some b) c = .ok (.pair real a b c) := rfl

/-- The value of a key, empty if it is missing. -/
def valueOf (c : Config) (k : String) : Str := (c.find? k.toList).getD []

/-- C95: the calculations. For every configuration, `compute` never works with a Hamiltonian that was not constructed. It refuses a common basis for different
species, without calculating anything; otherwise it calculates: a common one-atom Hamiltonian if a common basis is asked for and both atoms are given, else the
one-atom Hamiltonian of each atom that is given; and the pair Hamiltonian of these exactly if both atoms and a distance are given, after them. Every calculation gets
the scalar type and the configuration of the file, up to keys without value. -/
theorem C95_calculations (real : Bool) (c : Config) :
    (valueOf c "samebasis" = "true".toList ∧ valueOf c "species1" ≠ valueOf c "species2" → oldCompute real c = .ok ([], 1)) ∧
    (¬ (valueOf c "samebasis" = "true".toList ∧ valueOf c "species1" ≠ valueOf c "species2") →
      ∃ (c' : Config) (ones : List OldAtoms) (pairs : List (OldAtoms × OldAtoms)), ConfigExtends c c' ∧ oldCompute real c = .ok (ones.map (fun a => .one real a c') ++ pairs.map (fun p => .pair real p.1 p.2 c'), 0) ∧
        ones.Nodup ∧ pairs.Nodup ∧
        (OldAtoms.both ∈ ones ↔ valueOf c "samebasis" = "true".toList ∧ AtomGiven c "1" ∧ AtomGiven c "2") ∧
        (OldAtoms.first ∈ ones ↔ valueOf c "samebasis" ≠ "true".toList ∧ AtomGiven c "1") ∧
        (OldAtoms.second ∈ ones ↔ valueOf c "samebasis" ≠ "true".toList ∧ AtomGiven c "2") ∧
        ∀ p : OldAtoms × OldAtoms, p ∈ pairs ↔
          AtomGiven c "1" ∧ AtomGiven c "2" ∧ (∃ v, c.find? "minR".toList = some v) ∧
          p = if valueOf c "samebasis" = "true".toList then (OldAtoms.both, OldAtoms.both) else (OldAtoms.first, OldAtoms.second)) := by
  have r0 : readRef c "samebasis" = (valueOf c "samebasis", c.touch "samebasis".toList) := by
    unfold readRef valueOf; rw [find?_touch, if_pos rfl]; rfl
  have r1 : readRef (c.touch "samebasis".toList) "species1" = (valueOf c "species1", (c.touch "samebasis".toList).touch "species1".toList) := by
    unfold readRef valueOf
    rw [find?_touch, if_pos rfl, find?_touch, if_neg (by decide)]; rfl
  have r2 : readRef ((c.touch "samebasis".toList).touch "species1".toList) "species2" =
      (valueOf c "species2", ((c.touch "samebasis".toList).touch "species1".toList).touch "species2".toList) := by
    unfold readRef valueOf
    rw [find?_touch, if_pos rfl, find?_touch, if_neg (by decide), find?_touch, if_neg (by decide)]; rfl
  have E1 : (existAtom c ["species1", "n1", "l1", "j1", "m1"] = true) ↔ AtomGiven c "1" := existAtom_iff c "1"
  have E2 : (existAtom c ["species2", "n2", "l2", "j2", "m2"] = true) ↔ AtomGiven c "2" := existAtom_iff c "2"
  have M1 : (c.touch "samebasis".toList).find? "minR".toList = c.find? "minR".toList := by rw [find?_touch, if_neg (by decide)]
  have M3 : (((c.touch "samebasis".toList).touch "species1".toList).touch "species2".toList).find? "minR".toList = c.find? "minR".toList := by
    rw [find?_touch, if_neg (by decide), find?_touch, if_neg (by decide), M1]
  have X1 := extends_touch c "samebasis".toList
  have X3 : ConfigExtends c (((c.touch "samebasis".toList).touch "species1".toList).touch "species2".toList) :=
    (X1.trans (extends_touch _ _)).trans (extends_touch _ _)
  refine ⟨fun ⟨h, h'⟩ => ?_, fun hn => ?_⟩
  · simp only [oldCompute, r0, r1, r2, if_pos h, if_pos h']
  · rw [← E1, ← E2, ← Option.isSome_iff_exists]
    simp only [oldCompute, r0]
    by_cases hs : valueOf c "samebasis" = "true".toList
    · have hsp : ¬ valueOf c "species1" ≠ valueOf c "species2" := fun h => hn ⟨hs, h⟩
      simp only [r1, r2, if_pos hs, if_neg hsp, M3]
      refine ⟨_, if existAtom c ["species1", "n1", "l1", "j1", "m1"] && existAtom c ["species2", "n2", "l2", "j2", "m2"] then [.both] else [],
        if existAtom c ["species1", "n1", "l1", "j1", "m1"] && existAtom c ["species2", "n2", "l2", "j2", "m2"] && (c.find? "minR".toList).isSome then
          [(.both, .both)] else [], X3, ?_⟩
      cases existAtom c ["species1", "n1", "l1", "j1", "m1"] <;> cases existAtom c ["species2", "n2", "l2", "j2", "m2"] <;>
        cases (c.find? "minR".toList).isSome <;> simp [hs, oldPairJob_some]
    · have hs' : ¬ valueOf c "samebasis" = ['t', 'r', 'u', 'e'] := hs
      simp only [if_neg hs, M1]
      refine ⟨_, (if existAtom c ["species1", "n1", "l1", "j1", "m1"] then [.first] else []) ++ (if existAtom c ["species2", "n2", "l2", "j2", "m2"] then [.second] else []),
        if existAtom c ["species1", "n1", "l1", "j1", "m1"] && existAtom c ["species2", "n2", "l2", "j2", "m2"] && (c.find? "minR".toList).isSome then
          [(.first, .second)] else [], X1, ?_⟩
      cases existAtom c ["species1", "n1", "l1", "j1", "m1"] <;> cases existAtom c ["species2", "n2", "l2", "j2", "m2"] <;>
        cases (c.find? "minR".toList).isSome <;> simp [hs', oldPairJob_some]

/-- Example: a common basis for two atoms. -/
example : AtomGiven (["species1", "n1", "l1", "j1", "m1", "species2", "n2", "l2", "j2", "m2", "minR"].map fun k => (k.toList, ['1'])) "2" ∧
    valueOf [("samebasis".toList, "true".toList)] "samebasis" = "true".toList := by
  refine ⟨?_, by decide⟩
  intro k hk
  simp only [List.mem_cons, List.not_mem_nil, or_false] at hk
  rcases hk with rfl | rfl | rfl | rfl | rfl <;> exact ⟨['1'], by decide⟩

/-- C95: the whole program. It returns the exit code of the options if these ask for none of the calculations. It calculates something only if the options are complete, and then what the configuration file asks for; it never has undefined
behaviour here, and it throws only if the configuration file cannot be loaded. -/
theorem C95_program (load : String → Out Config) (args : List String) (hl : ∀ f, load f ≠ .ub) :
    oldProgram load args ≠ .ub ∧
    (oldProgram load args = .throw ↔ ∃ real f o, mainParse args = .compute real f o ∧ load f = .throw) ∧
    (∀ n, mainParse args = .exit n → oldProgram load args = .ok ([], n)) ∧
    ∀ jobs n, oldProgram load args = .ok (jobs, n) → jobs ≠ [] →
      n = 0 ∧ ∃ real f o c, mainParse args = .compute real f o ∧ load f = .ok c ∧ oldCompute real c = .ok (jobs, 0) := by
  have hc : ∀ real c, ∃ jobs n, oldCompute real c = .ok (jobs, n) ∧ (jobs ≠ [] → n = 0) := by
    intro real c
    by_cases h : valueOf c "samebasis" = "true".toList ∧ valueOf c "species1" ≠ valueOf c "species2"
    · exact ⟨[], 1, (C95_calculations real c).1 h, fun h => absurd rfl h⟩
    · obtain ⟨c', ones, pairs, _, e, _⟩ := (C95_calculations real c).2 h
      exact ⟨_, 0, e, fun _ => rfl⟩
  unfold oldProgram
  cases hp : mainParse args with
  | exit n =>
    refine ⟨by simp, ⟨fun h => (by cases h), ?_⟩, fun m hm => (by cases hm; rfl), ?_⟩
    · rintro ⟨_, _, _, h, _⟩; cases h
    · rintro jobs m h hj; simp only [Out.ok.injEq, Prod.mk.injEq] at h; exact absurd h.1.symm hj
  | compute real f o =>
    cases hf : load f with
    | ub => exact absurd hf (hl f)
    | throw =>
      dsimp only
      rw [hf]
      refine ⟨by simp, ⟨fun _ => ⟨real, f, o, rfl, hf⟩, fun _ => rfl⟩, fun m hm => (by cases hm), ?_⟩
      rintro jobs m h; cases h
    | ok c =>
      obtain ⟨jobs, n, e, hn⟩ := hc real c
      dsimp only
      rw [hf, Out.ok_bind, e]
      refine ⟨by simp, ⟨fun h => (by cases h), ?_⟩, fun m hm => (by cases hm), ?_⟩
      · rintro ⟨_, f', _, h, h'⟩; cases h; rw [hf] at h'; cases h'
      · rintro jobs' m h hj
        simp only [Out.ok.injEq, Prod.mk.injEq] at h
        obtain ⟨rfl, rfl⟩ := h
        exact ⟨hn hj, real, f, o, c, rfl, hf, hn hj ▸ e⟩

/-- Example: a loader. -/
example : ∀ f, (fun _ => Out.ok [] : String → Out Config) f ≠ .ub := fun _ => by simp

end PI
