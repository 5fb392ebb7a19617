import Verif.Legacy.KeyThm

/-! # C102: runs that meet the hypotheses -/

namespace PI

/-- Numbers written as strokes. -/
noncomputable def exNum : ConfNum where
  stoi s := .ok (Denumerable.ofNat ℤ (s.length - 1))
  stof s := .ok (Denumerable.ofNat ℤ (s.length - 1))
  stod s := .ok (s.length : ℝ)
  stoul s := .ok s.length
  putI n := List.replicate (Encodable.encode n + 1) '1'
  putF n := List.replicate (Encodable.encode n + 1) '1'
  putD z := List.replicate ⌊z⌋₊ '1'

theorem exNum_lawful : exNum.Lawful := by
  refine ⟨fun n => ?_, fun n => ?_, fun n => ?_⟩
  · have : (List.replicate (Encodable.encode n + 1) '1').length - 1 = Encodable.encode n := by simp
    show Out.ok (Denumerable.ofNat ℤ ((List.replicate (Encodable.encode n + 1) '1').length - 1)) = _
    rw [this, Denumerable.ofNat_encode]
  · have : (List.replicate (Encodable.encode n + 1) '1').length - 1 = Encodable.encode n := by simp
    show Out.ok (Denumerable.ofNat ℤ ((List.replicate (Encodable.encode n + 1) '1').length - 1)) = _
    rw [this, Denumerable.ofNat_encode]
  · simp [exNum, List.replicate_succ]

theorem exNum_putD (n : ℕ) : exNum.stod (exNum.putD n) = .ok (n : ℝ) := by simp [exNum]

theorem exNum_inj : Set.InjOn exNum.putD (Set.range (Nat.cast : ℕ → ℝ)) := by
  rintro _ ⟨a, rfl⟩ _ ⟨b, rfl⟩ h
  have h : List.replicate ⌊(a : ℝ)⌋₊ '1' = List.replicate ⌊(b : ℝ)⌋₊ '1' := h
  simpa using congrArg List.length h

/-- A configuration: two atoms of rubidium in `p32`, electric field along z from `a` to `b` in `k` steps. -/
noncomputable def exKeyConf (a b k : ℕ) : Config :=
  (([("species1", "Rb".toList), ("species2", "Rb".toList), ("n1", exNum.putI 60), ("l1", exNum.putI 1), ("j1", exNum.putF 3), ("m1", exNum.putF 1), ("n2", exNum.putI 60),
    ("l2", exNum.putI 1), ("j2", exNum.putF 3), ("m2", exNum.putF 1), ("deltaNSingle", exNum.putI 0), ("deltaLSingle", exNum.putI 0), ("deltaJSingle", exNum.putI 0),
    ("deltaMSingle", exNum.putI 0), ("missingCalc", "true".toList), ("missingWhittaker", "false".toList), ("deltaESingle", exNum.putD 5), ("diamagnetism", "false".toList),
    ("minBx", exNum.putD 0), ("minBy", exNum.putD 0), ("minBz", exNum.putD 0), ("maxBx", exNum.putD 0), ("maxBy", exNum.putD 0), ("maxBz", exNum.putD 0),
    ("minEx", exNum.putD 0), ("minEy", exNum.putD 0), ("maxEx", exNum.putD 0), ("maxEy", exNum.putD 0),
    ("minEz", exNum.putD a), ("maxEz", exNum.putD b), ("steps", List.replicate k '1'), ("deltaEPair", exNum.putD 7), ("deltaNPair", exNum.putI 0), ("deltaLPair", exNum.putI 0),
    ("deltaJPair", exNum.putI 0), ("deltaMPair", exNum.putI 0), ("exponent", exNum.putI 3), ("invE", "false".toList), ("invO", "true".toList), ("perE", "false".toList),
    ("perO", "false".toList), ("refE", "false".toList), ("refO", "false".toList), ("conserveM", "true".toList), ("sametrafo", "true".toList), ("zerotheta", "true".toList)] :
    List (String × Str))).foldl (fun c x => c.put x.1 x.2) []

/-- The basis of one atom. -/
noncomputable def exOneBasis : OldBasisOne := .single exNum (BaseStr.conf ⟨exNum.putI 0, exNum.putI 0, exNum.putI 0, exNum.putI 0, "true".toList, "false".toList⟩) ⟨0, 0, 0, 0⟩ p32 "Rb".toList

/-- The run of one atom. -/
noncomputable def exOneRun (a b k : ℕ) : OldOneRun :=
  ⟨exOneBasis, (exOneBasis.conf.put "deltaESingle" (exNum.putD 5)).put "diamagnetism" "false".toList, "Rb".toList, 5, some .numerov,
    ⟨true, ⟨0, 0, a⟩, ⟨0, 0, b⟩, ⟨0, 0, 0⟩, ⟨0, 0, 0⟩, false, if a = b then 1 else k⟩⟩

theorem exNum_0 : exNum.stod (exNum.putD 0) = .ok 0 := by simpa using exNum_putD 0

theorem exNum_5 : exNum.stod (exNum.putD 5) = .ok 5 := by simpa using exNum_putD 5

theorem exNum_7 : exNum.stod (exNum.putD 7) = .ok 7 := by simpa using exNum_putD 7

theorem exOne_ok (a b k : ℕ) : oldOneRun exNum true (exKeyConf a b k) .first = .ok (exOneRun a b k) := by
  have hi : ∀ n, exNum.stoi (exNum.putI n) = .ok n := exNum_lawful.int
  have hf : ∀ n, exNum.stof (exNum.putF n) = .ok n := exNum_lawful.half
  have hk : exNum.stoul (List.replicate k '1') = .ok k := by simp [exNum]
  unfold oldOneRun OldBasisOne.make readOld1 basisConfigure readVec exKeyConf
  simp only [List.foldl, at_put]
  simp [Out.ok_bind, hi, hf, hk, exNum_putD, exNum_0, exNum_5, OldBasisOne.single, at_put, oldMethod]
  by_cases hab : a = b
  · simp [hab, Out.ok_bind, exOneRun, exOneBasis, OldBasisOne.single, BaseStr.conf, p32]
  · simp [hab, Out.ok_bind, exOneRun, exOneBasis, OldBasisOne.single, BaseStr.conf, p32]

/-- What does not come from the configuration. -/
noncomputable def exKeyEnv : OldEnv := ⟨⟨1, 1, 1, 1, 1, 2⟩, J2, fun _ _ => 0, fun n M => ⟨n, 1, fun i => (M i i).re⟩⟩

theorem exOne_names : exOneBasis.names = [(0, p32)] := by
  show buildOne p32 ⟨0, 0, 0, 0⟩ = _
  decide +kernel

theorem exOne_fields (a b k step : ℕ) (z : ℝ) (h : (a : ℝ) + oldPosition (exOneRun a b k).scan.nSteps step * (b - a) = z) :
    (exOneRun a b k).scan.fieldsAt step = ⟨⟨0, 0, z⟩, ⟨0, 0, 0⟩⟩ := by
  subst h
  simp [OldScan.fieldsAt, oldBetween, exOneRun]

theorem exOne_steps3 : (exOneRun 0 4 3).scan.nSteps = 3 := by
  simp [OldScan.nSteps, exOneRun]

theorem exOne_steps1 : (exOneRun 2 2 1).scan.nSteps = 1 := by
  simp [OldScan.nSteps, exOneRun]

theorem exOne_f3 : (exOneRun 0 4 3).scan.fieldsAt 1 = ⟨⟨0, 0, 2⟩, ⟨0, 0, 0⟩⟩ := by
  refine exOne_fields 0 4 3 1 2 ?_
  rw [exOne_steps3]
  norm_num [oldPosition]

theorem exOne_f1 : (exOneRun 2 2 1).scan.fieldsAt 0 = ⟨⟨0, 0, 2⟩, ⟨0, 0, 0⟩⟩ := by
  refine exOne_fields 2 2 1 0 2 ?_
  rw [exOne_steps1]
  norm_num [oldPosition]

theorem exOne_valid (a : Old1) (ha : a ∈ exOneBasis.names.map Prod.snd) : OldValid a := by
  rw [exOne_names] at ha
  simp only [List.map_cons, List.map_nil, List.mem_cons, List.not_mem_nil, or_false] at ha
  subst ha
  constructor <;> decide

theorem exOne_tiny (a b k : ℕ) : NoTinyElements exKeyEnv.U exKeyEnv.J .numerov (String.ofList (exOneRun a b k).species) ((exOneRun a b k).states exKeyEnv) := by
  have : (exOneRun a b k).states exKeyEnv = oldWindow (fun _ => 0) [p32] 5 [p32] := by
    show oldWindow (fun _ => 0) [p32] 5 (exOneBasis.names.map Prod.snd) = _
    rw [exOne_names]
    rfl
  rw [this]
  exact p32_tiny _ _ _ _ _

theorem exOne_build (a b k : ℕ) : ∃ H, (exOneRun a b k).build exKeyEnv (fun _ => none) = .ok H := by
  obtain ⟨-, h2⟩ := C86_hamiltonian exKeyEnv.U exKeyEnv.J .numerov (String.ofList "Rb".toList) (by simp [exKeyEnv]) (exKeyEnv.energy (String.ofList "Rb".toList)) exOneBasis.init 5
    (exOneBasis.names.map Prod.snd) exOne_valid (exOne_tiny a b k) (fun _ => none) (by intro k v h; cases h) (exOneRun a b k).scan
  obtain ⟨H, h, -⟩ := h2 (by simp [exOneRun])
  exact ⟨H, h⟩

theorem exKey_values : ∀ z ∈ OldFields.values ⟨⟨0, 0, 2⟩, ⟨0, 0, 0⟩⟩, z ∈ Set.range (Nat.cast : ℕ → ℝ) := by
  intro z hz
  simp [OldFields.values] at hz
  rcases hz with rfl | rfl | rfl
  · exact ⟨0, by simp⟩
  · exact ⟨2, by simp⟩
  · exact ⟨0, by simp⟩

/-- Two scans store the matrix of the field 2 under one key, at step 1 of 3 and at step 0 of 1. -/
example : ∃ H H', (exOneRun 0 4 3).build exKeyEnv (fun _ => none) = .ok H ∧ (exOneRun 2 2 1).build exKeyEnv (fun _ => none) = .ok H' ∧
    ((exOneRun 0 4 3).key exNum 1).eqMap ((exOneRun 2 2 1).key exNum 0) ∧ (⟨_, H 1⟩ : Σ k, Matrix (Fin k) (Fin k) ℂ) = ⟨_, H' 0⟩ := by
  obtain ⟨H, hH⟩ := exOne_build 0 4 3
  obtain ⟨H', hH'⟩ := exOne_build 2 2 1
  have hk : ((exOneRun 0 4 3).key exNum 1).eqMap ((exOneRun 2 2 1).key exNum 0) := by
    intro k
    unfold OldOneRun.key
    rw [exOne_f3, exOne_f1]
    rfl
  exact ⟨H, H', hH, hH', hk, C102_one exNum exNum_lawful _ exNum_inj exKeyEnv (by simp [exKeyEnv]) true true _ _ _ _ _ _ (exOne_ok 0 4 3) (exOne_ok 2 2 1) 1 0
    (by rw [exOne_f3]; exact exKey_values) (by rw [exOne_f1]; exact exKey_values) hk .numerov rfl exOne_valid (exOne_tiny 0 4 3) _ _ (by intro k v h; cases h) (by intro k v h; cases h) H H' hH hH'⟩

/-- The common basis of both atoms. -/
noncomputable def exBothBasis : OldBasisOne :=
  .double exNum (BaseStr.conf ⟨exNum.putI 0, exNum.putI 0, exNum.putI 0, exNum.putI 0, "true".toList, "false".toList⟩) ⟨0, 0, 0, 0⟩ p32 p32 "Rb".toList

/-- The run of both atoms with a common basis. -/
noncomputable def exBothRun (a b k : ℕ) : OldOneRun :=
  ⟨exBothBasis, (exBothBasis.conf.put "deltaESingle" (exNum.putD 5)).put "diamagnetism" "false".toList, "Rb".toList, 5, some .numerov, (exOneRun a b k).scan⟩

theorem exBoth_ok (a b k : ℕ) : oldOneRun exNum true (exKeyConf a b k) .both = .ok (exBothRun a b k) := by
  have hi : ∀ n, exNum.stoi (exNum.putI n) = .ok n := exNum_lawful.int
  have hf : ∀ n, exNum.stof (exNum.putF n) = .ok n := exNum_lawful.half
  have hk : exNum.stoul (List.replicate k '1') = .ok k := by simp [exNum]
  have ho : oldOrder ⟨60, 1, 3, 1⟩ ⟨60, 1, 3, 1⟩ = (p32, p32) := by decide +kernel
  unfold oldOneRun OldBasisOne.make readOld1 basisConfigure readVec exKeyConf
  simp only [List.foldl, at_put]
  simp [Out.ok_bind, hi, hf, hk, ho, exNum_putD, exNum_0, exNum_5, OldBasisOne.double, at_put, oldMethod]
  by_cases hab : a = b
  · simp [hab, Out.ok_bind, exOneRun, exBothRun, exBothBasis, OldBasisOne.double, BaseStr.conf]
  · simp [hab, Out.ok_bind, exOneRun, exBothRun, exBothBasis, OldBasisOne.double, BaseStr.conf]

/-- The pair run. -/
noncomputable def exPairRun (a b k : ℕ) : OldPairRun :=
  ⟨exBothRun a b k, exBothRun a b k, true, (p32, p32), pairConf exNum true ⟨exNum.putI 0, exNum.putI 0, exNum.putI 0, exNum.putI 0, "true".toList, "false".toList⟩ "Rb".toList
    "Rb".toList p32 p32 ⟨exNum.putD 7, exNum.putI 0, exNum.putI 0, exNum.putI 0, exNum.putI 0, exNum.putI 3⟩, 7, ⟨0, 0, 0, 0⟩, 3, some .numerov,
    ⟨(false, true), (false, false), (false, false), true, true, true⟩⟩

theorem exKeyPair_ok (a b k : ℕ) : oldPairRun exNum true (exKeyConf a b k) true = .ok (exPairRun a b k) := by
  have hi : ∀ n, exNum.stoi (exNum.putI n) = .ok n := exNum_lawful.int
  have hf : ∀ n, exNum.stof (exNum.putF n) = .ok n := exNum_lawful.half
  have hn : ∀ n, exNum.putI n ≠ [] := exNum_lawful.some
  have hb : oldBasisTwo exNum true exBothBasis.conf exBothBasis.conf = .ok
      (((((((((((((BaseStr.conf ⟨exNum.putI 0, exNum.putI 0, exNum.putI 0, exNum.putI 0, "true".toList, "false".toList⟩).put "combined" (exNum.putI 1)).put "species1" "Rb".toList).put "n1"
        (exNum.putI 60)).put "l1" (exNum.putI 1)).put "j1" (exNum.putF 3)).put "m1" (exNum.putF 1)).put "species2" "Rb".toList).put "n2" (exNum.putI 60)).put "l2"
        (exNum.putI 1)).put "j2" (exNum.putF 3)).put "m2" (exNum.putF 1)), (p32, p32)) := by
    unfold oldBasisTwo basisConfigure readOld1 exBothBasis OldBasisOne.double BaseStr.conf
    simp only [at_put]
    simp [Out.ok_bind, hi, hf, hn, p32]
  unfold oldPairRun
  rw [if_pos rfl, exBoth_ok]
  rw [Out.ok_bind, if_pos rfl, Out.ok_bind]
  rw [show (exBothRun a b k).basis.conf = exBothBasis.conf from rfl, hb]
  unfold exKeyConf readSyms oldMethod Config.flag
  simp only [List.foldl, at_put]
  simp [Out.ok_bind, hi, exNum_7, exPairRun, pairConf, p32]

theorem exBoth_names : exBothBasis.names = [(0, p32)] := by
  show buildBoth p32 p32 ⟨0, 0, 0, 0⟩ = _
  decide +kernel

theorem exBoth_valid (a : Old1) (ha : a ∈ exBothBasis.names.map Prod.snd) : OldValid a := by
  rw [exBoth_names] at ha
  simp only [List.map_cons, List.map_nil, List.mem_cons, List.not_mem_nil, or_false] at ha
  subst ha
  constructor <;> decide

theorem exBoth_tiny (a b k : ℕ) : NoTinyElements exKeyEnv.U exKeyEnv.J .numerov (String.ofList (exBothRun a b k).species) ((exBothRun a b k).states exKeyEnv) := by
  have : (exBothRun a b k).states exKeyEnv = oldWindow (fun _ => 0) [p32, p32] 5 [p32] := by
    show oldWindow (fun _ => 0) [p32, p32] 5 (exBothBasis.names.map Prod.snd) = _
    rw [exBoth_names]
    rfl
  rw [this]
  exact p32_tiny _ _ _ _ _

theorem exBoth_build (a b k : ℕ) : ∃ H, (exBothRun a b k).build exKeyEnv (fun _ => none) = .ok H := by
  obtain ⟨-, h2⟩ := C86_hamiltonian exKeyEnv.U exKeyEnv.J .numerov (String.ofList "Rb".toList) (by simp [exKeyEnv]) (exKeyEnv.energy (String.ofList "Rb".toList)) exBothBasis.init 5
    (exBothBasis.names.map Prod.snd) exBoth_valid (exBoth_tiny a b k) (fun _ => none) (by intro k v h; cases h) (exBothRun a b k).scan
  obtain ⟨H, h, -⟩ := h2 (by simp [exBothRun, exOneRun])
  exact ⟨H, h⟩

theorem exPair_atoms (a b k : ℕ) : ∃ x, (exPairRun a b k).atoms exKeyEnv (fun _ => none) (fun _ => none) = .ok x := by
  obtain ⟨H, hH⟩ := exBoth_build a b k
  have hr : ∃ r, ((exBothRun a b k).atom exKeyEnv H).restrict ⟨0, 0, 0, 0⟩ exBothBasis.init = .ok r := by
    obtain ⟨m, e, -, -, -, h, -⟩ := C97_states ⟨0, 0, 0, 0⟩ exBothBasis.init ((exBothRun a b k).states exKeyEnv) ((exBothRun a b k).atom exKeyEnv H).mats
    exact ⟨_, h⟩
  obtain ⟨r, hr⟩ := hr
  refine ⟨(r, r), ?_⟩
  unfold OldPairRun.atoms oldRestrictBoth
  rw [show (exPairRun a b k).one1 = exBothRun a b k from rfl, show (exPairRun a b k).one2 = exBothRun a b k from rfl, hH, Out.ok_bind, Out.ok_bind]
  rw [show (((exBothRun a b k).atom exKeyEnv H).restrict (exPairRun a b k).d (exBothRun a b k).basis.init) = _ from hr, Out.ok_bind]
  exact if_pos rfl

/-- Two pair calculations with different scans store the block of odd inversion at the field 2 and the distance 9 under one key. -/
example : ∃ x x', (exPairRun 0 4 3).atoms exKeyEnv (fun _ => none) (fun _ => none) = .ok x ∧ (exPairRun 2 2 1).atoms exKeyEnv (fun _ => none) (fun _ => none) = .ok x' ∧
    ((exPairRun 0 4 3).key exNum 1 9 ⟨some .odd, none, none, some 1⟩).eqMap ((exPairRun 2 2 1).key exNum 0 9 ⟨some .odd, none, none, some 1⟩) ∧
    ∀ cells, (exPairRun 0 4 3).block exKeyEnv cells x 1 9 ⟨some .odd, none, none, some 1⟩ = (exPairRun 2 2 1).block exKeyEnv cells x' 0 9 ⟨some .odd, none, none, some 1⟩ := by
  obtain ⟨x, hx⟩ := exPair_atoms 0 4 3
  obtain ⟨x', hx'⟩ := exPair_atoms 2 2 1
  have hm : ∀ a b k x, (⟨some .odd, none, none, some 1⟩ : OldSym) ∈ (exPairRun a b k).blocks x := by
    intro a b k x
    show _ ∈ oldSymmetries ⟨(false, true), (false, false), (false, false), true, true, true⟩ (p32, p32) []
    decide +kernel
  have hk : ((exPairRun 0 4 3).key exNum 1 9 ⟨some .odd, none, none, some 1⟩).eqMap ((exPairRun 2 2 1).key exNum 0 9 ⟨some .odd, none, none, some 1⟩) := by
    intro k
    unfold OldPairRun.key OldOneRun.key
    rw [show (exPairRun 0 4 3).one1.scan.fieldsAt 1 = _ from exOne_f3, show (exPairRun 2 2 1).one1.scan.fieldsAt 0 = _ from exOne_f1]
    rfl
  have h9 : (9 : ℝ) ∈ Set.range (Nat.cast : ℕ → ℝ) := ⟨9, by norm_num⟩
  refine ⟨x, x', hx, hx', hk, fun cells => C102_pair_partial exNum exNum_lawful _ exNum_inj exKeyEnv (by simp [exKeyEnv]) cells true true _ _ true true _ _ (exKeyPair_ok 0 4 3) (exKeyPair_ok 2 2 1)
    _ _ _ _ x x' hx hx' 1 0 ?_ ?_ 9 9 _ _ (hm _ _ _ _) (hm _ _ _ _) h9 h9 ?_ ?_ hk .numerov rfl ?_ ?_ ?_ ?_ rfl (fun h => by cases h) fun _ h => absurd rfl h⟩
  · show 1 < (exOneRun 0 4 3).scan.nSteps
    rw [exOne_steps3]; decide
  · show 0 < (exOneRun 2 2 1).scan.nSteps
    rw [exOne_steps1]; decide
  · rw [show (exPairRun 0 4 3).one1.scan.fieldsAt 1 = _ from exOne_f3]; exact exKey_values
  · rw [show (exPairRun 2 2 1).one1.scan.fieldsAt 0 = _ from exOne_f1]; exact exKey_values
  · intro r hr
    have : r = exBothRun 0 4 3 := by simpa [exPairRun] using hr
    subst this
    exact exBoth_valid
  · intro r hr
    have : r = exBothRun 0 4 3 := by simpa [exPairRun] using hr
    subst this
    exact exBoth_tiny 0 4 3
  · intro db hdb k v h
    have : db = fun _ => none := by simpa using hdb
    rw [this] at h; cases h
  · intro db hdb k v h
    have : db = fun _ => none := by simpa using hdb
    rw [this] at h; cases h

end PI
