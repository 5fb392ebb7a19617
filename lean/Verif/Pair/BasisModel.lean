import Verif.SysOne.Model

/-!
# SystemTwo.cpp: building the pair basis

The two one-atom systems are given after diagonalisation: their states and, per basis vector, the energy (the
diagonal entry of the Hamiltonian) and the stored entries (state, coefficient).  `j` and `m` are doubled integers.
The scalar type is complex (real coefficients are a special case).  Floating point numbers are reals.
-/

namespace PI

/-- What `initializeBasis` reads of a diagonalised one-atom system (SystemTwo.cpp:208-217, 238-259). -/
structure OneSys where
  states : List AState
  cols : List (ℝ × List (AState × ℂ))

/-- `isArtificial` (State.cpp:147). -/
def AState.isArt : AState → Bool
  | .art _ => true
  | .phys _ _ _ _ _ => false

/-- `getL` of a physical state (State.cpp:103-106). -/
def AState.l : AState → ℤ
  | .phys _ _ l _ _ => l
  | .art _ => 0
/-- `getJ` (doubled) of a physical state (State.cpp:107-110). -/
def AState.j : AState → ℤ
  | .phys _ _ _ j _ => j
  | .art _ => 0
/-- `getM` (doubled) of a physical state (State.cpp:111-114). -/
def AState.m : AState → ℤ
  | .phys _ _ _ _ m => m
  | .art _ => 0

/-- `getReflected` (State.cpp:154-156); not called for artificial states. -/
def AState.refl : AState → AState
  | .phys sp n l j m => .phys sp n l j (-m)
  | .art a => .art a

/-- The two atoms exchanged: `StateTwo(state_2, state_1)`. -/
def swapP (p : AState × AState) : AState × AState := (p.2, p.1)
/-- Both atoms reflected: `StateTwo(state_1.getReflected(), state_2.getReflected())`. -/
def reflP (p : AState × AState) : AState × AState := (p.1.refl, p.2.refl)

/-- `std::pow(-1, k)` for an integer exponent, converted to `int`. -/
def sgnZ (k : ℤ) : ℤ := if k % 2 = 0 then 1 else -1

/-- The conserved quantities (SystemTwo.hpp:178-181); `rot = none` is the set {ARB}. -/
structure PairSym where
  inv : Par
  perm : Par
  refl : Par
  rot : Option (Finset ℤ)

/-- The settings `initializeBasis` reads besides the one-atom systems. `pairs` is
`one_atom_basisvectors_indices`; `toAdd` lists `states_to_add` in the order of the set; an energy bound `none` is
the marker `lowest()`/`max()`. -/
structure PairSet where
  sym : PairSym
  energyMin : Option ℝ
  energyMax : Option ℝ
  pairs : List (ℕ × ℕ)
  toAdd : List (AState × AState)
  thr : ℝ
  species : String × String

/-- `checkIsEnergyValid` (SystemBase.cpp:1413-1419). -/
noncomputable def PairSet.energyOk (P : PairSet) (e : ℝ) : Bool :=
  (match P.energyMin with | none => true | some a => decide (a < e)) &&
  (match P.energyMax with | none => true | some b => decide (e < b))

/-- The symmetries used for a pair of basis vectors, one of which may contain an artificial state
(SystemTwo.cpp:298-312). -/
def PairSym.local_ (y : PairSym) (artificial : Bool) : PairSym :=
  if artificial then { y with inv := .na, refl := .na, rot := none } else y

/-- Skip half of the pairs; `le`/`lt` compare the two columns or states (SystemTwo.cpp:315-322, 531-541). -/
def PairSym.skips (y : PairSym) (le lt : Bool) : Bool :=
  (y.inv = .even && le) || (y.inv = .odd && lt) || (y.perm = .even && le) || (y.perm = .odd && lt)

/-- `sym_rotation_local.count(ARB) == 0 && sym_rotation_local.count(M) == 0` (SystemTwo.cpp:358). -/
def PairSym.rotExcludes (y : PairSym) (M : ℤ) : Bool :=
  match y.rot with
  | none => false
  | some ms => decide (M ∉ ms)

/-- `M` (SystemTwo.cpp:349): a conversion to `int`. -/
def totalM (p : AState × AState) : ℤ := (p.1.m + p.2.m).tdiv 2
/-- `parityL` (SystemTwo.cpp:350). -/
def parL (p : AState × AState) : ℤ := sgnZ (p.1.l + p.2.l)
/-- `parityL * parityJ * parityM` (SystemTwo.cpp:350-352), for an integer `j1 + j2`. -/
def parLJM (p : AState × AState) : ℤ := parL p * sgnZ ((p.1.j + p.2.j) / 2) * sgnZ (totalM p)

/-- `(sym_inversion_local == EVEN) ? -parityL : parityL`. -/
def PairSym.invS (y : PairSym) (p : AState × AState) : ℤ := if y.inv = .even then -parL p else parL p
/-- `(sym_permutation == EVEN) ? -1 : 1`. -/
def PairSym.permS (y : PairSym) : ℤ := if y.perm = .even then -1 else 1
/-- `(sym_reflection_local == EVEN) ? parityL * parityJ * parityM : -parityL * parityJ * parityM`. -/
def PairSym.reflS (y : PairSym) (p : AState × AState) : ℤ := if y.refl = .even then parLJM p else -parLJM p

/-- One entry of a basis vector: pair state and value. -/
abbrev PEntry := (AState × AState) × ℂ

/-- The factor of the exchanged state: inversion first, then permutation (SystemTwo.cpp:413-425). -/
def PairSym.swapS (y : PairSym) (p : AState × AState) : ℤ := if y.inv ≠ .na then y.invS p else y.permS

/-- `skip_reflection` (SystemTwo.cpp:361-396). -/
def PairSym.skipRefl (y : PairSym) (different : Bool) (p : AState × AState) : Prop :=
  different = true ∧ (y.inv ≠ .na ∨ y.perm ≠ .na) ∧ y.refl ≠ .na ∧ reflP p = swapP p

instance (y : PairSym) (d : Bool) (p : AState × AState) : Decidable (y.skipRefl d p) := by
  unfold PairSym.skipRefl; infer_instance

/-- The three `continue` of the inner loop (SystemTwo.cpp:358-396). -/
def PairSym.drops (y : PairSym) (different : Bool) (p : AState × AState) : Prop :=
  y.rotExcludes (totalM p) = true ∨
  (different = true ∧ y.inv ≠ .na ∧ y.perm ≠ .na ∧ y.invS p ≠ y.permS) ∨
  (different = true ∧ y.inv ≠ .na ∧ y.refl ≠ .na ∧ reflP p = swapP p ∧ y.invS p ≠ y.reflS p) ∨
  (different = true ∧ ¬ (y.inv ≠ .na ∧ y.refl ≠ .na ∧ reflP p = swapP p) ∧
    y.perm ≠ .na ∧ y.refl ≠ .na ∧ reflP p = swapP p ∧ y.permS ≠ y.reflS p)

instance (y : PairSym) (d : Bool) (p : AState × AState) : Decidable (y.drops d p) := by
  unfold PairSym.drops; infer_instance

/-- The normalisation (SystemTwo.cpp:398-406). -/
noncomputable def PairSym.scale (y : PairSym) (different : Bool) (p : AState × AState) (v : ℂ) : ℂ :=
  let v1 : ℂ := if (y.inv ≠ .na ∨ y.perm ≠ .na) ∧ different = true then v / (Real.sqrt 2 : ℂ) else v
  if y.refl ≠ .na ∧ ¬ y.skipRefl different p then v1 / ((Real.sqrt 2 : ℂ) * (Real.sqrt 2 : ℂ)) else v1

/-- The body of the two inner loops (SystemTwo.cpp:345-451): the calls of `addBasisvectors` for the pair of
one-atom states `p`, whose coefficients have the product `v`. -/
noncomputable def pairBody (y : PairSym) (different : Bool) (p : AState × AState) (v : ℂ) : List PEntry :=
  if y.drops different p then [] else
  let w := y.scale different p v
  [(p, w)] ++
  (if different = true ∧ (y.inv ≠ .na ∨ y.perm ≠ .na) then [(swapP p, w * (y.swapS p : ℂ))] else []) ++
  (if y.refl ≠ .na ∧ ¬ y.skipRefl different p then
    [(reflP p, w * (y.reflS p : ℂ))] ++
    (if different = true ∧ (y.inv ≠ .na ∨ y.perm ≠ .na) then
      [(swapP (reflP p), w * (y.reflS p : ℂ) * (y.swapS p : ℂ))] else [])
   else [])

/-- The two inner loops (SystemTwo.cpp:334-452). -/
noncomputable def pairColumn (y : PairSym) (different : Bool) (u w : List (AState × ℂ)) : List PEntry :=
  u.flatMap fun e1 => w.flatMap fun e2 => pairBody y different (e1.1, e2.1) (e1.2 * e2.2)

/-- A basis vector with an artificial state (SystemTwo.cpp:236-259). -/
def artCol (u : List (AState × ℂ)) : Bool := u.any fun e => e.1.isArt

/-- The conversion of `std::pow(-1, j1 + j2)` to `int` (SystemTwo.cpp:351) is undefined if `j1 + j2` is not an
integer, because the power is not a number. -/
def nanJ (u w : List (AState × ℂ)) : Bool :=
  u.any fun e1 => w.any fun e2 => decide ((e1.1.j + e2.1.j) % 2 ≠ 0)

/-- The loop over the pairs of basis vectors (SystemTwo.cpp:295-452): energies and entries of the new columns. An
index outside a system is an access outside of `artificial1`/`artificial2`. -/
noncomputable def pairLoop (P : PairSet) (S1 S2 : OneSys) : List (ℕ × ℕ) → Out (List (ℝ × List PEntry))
  | [] => .ok []
  | c :: cs =>
    match S1.cols[c.1]?, S2.cols[c.2]? with
    | some u, some w =>
      let y := P.sym.local_ (artCol u.2 || artCol w.2)
      if y.skips (decide (c.1 ≤ c.2)) (decide (c.1 < c.2)) then pairLoop P S1 S2 cs else
      if P.energyOk (u.1 + w.1) = false then pairLoop P S1 S2 cs else
      if artCol u.2 = false ∧ artCol w.2 = false ∧ nanJ u.2 w.2 = true then .ub else
      match pairLoop P S1 S2 cs with
      | .ok r => .ok ((u.1 + w.1, pairColumn y (decide (c.1 ≠ c.2)) u.2 w.2) :: r)
      | .throw => .throw
      | .ub => .ub
    | _, _ => .ub

/-- All pairs of basis vectors, in the order of the nested loops (SystemTwo.cpp:287-291). -/
def allPairs (k1 k2 : ℕ) : List (ℕ × ℕ) := (List.range k1).flatMap fun a => (List.range k2).map fun b => (a, b)

/-- The pairs of basis vectors that are combined (SystemTwo.cpp:281-292). -/
def PairSet.usedPairs (P : PairSet) (S1 S2 : OneSys) : List (ℕ × ℕ) :=
  if P.pairs = [] then allPairs S1.cols.length S2.cols.length else P.pairs

/-- The states in the order in which `addBasisvectors` appends them (SystemTwo.cpp:1584-1592). -/
def statesOf (es : List PEntry) : List (AState × AState) :=
  es.foldl (fun l e => if e.1 ∈ l then l else l ++ [e.1]) []

/-- Which species a user-defined state must have (SystemTwo.cpp:464-468). -/
def speciesOk (sp : String) : AState → Bool
  | .art _ => true
  | .phys sp' _ _ _ _ => decide (sp' = sp)

/-- The checks on user-defined states (SystemTwo.cpp:459-469). -/
def userPairOk (P : PairSet) (states : List (AState × AState)) (p : AState × AState) : Bool :=
  decide (p ∉ states) && speciesOk P.species.1 p.1 && speciesOk P.species.2 p.2

/-- The loop body for user-defined states (SystemTwo.cpp:478-571). `lt` is `operator<` of `StateOne`, `E` the
energy of a one-atom state; `none`: the state is skipped. -/
noncomputable def pairUser (P : PairSet) (lt : AState → AState → Bool) (E : AState → ℝ) (p : AState × AState) :
    Out (Option (ℝ × List PEntry)) :=
  let different := decide (p.1 ≠ p.2)
  let energy := (if p.1.isArt then 0 else E p.1) + (if p.2.isArt then 0 else E p.2)
  let y := P.sym.local_ (p.1.isArt || p.2.isArt)
  if y.rotExcludes (totalM p) = true then .ok none else
  if y.inv ≠ .na ∧ y.perm ≠ .na ∧ different = true ∧ y.invS p ≠ y.permS then .ok none else
  if (y.inv ≠ .na ∨ y.perm ≠ .na) ∧ different = true ∧ swapP p ∉ P.toAdd then .throw else
  if y.skips (lt p.1 p.2 || decide (p.1 = p.2)) (lt p.1 p.2) then .ok none else
  let w : ℂ := if (y.inv ≠ .na ∨ y.perm ≠ .na) ∧ different = true then 1 / (Real.sqrt 2 : ℂ) else 1
  .ok (some (energy, [(p, w)] ++
    (if different = true ∧ (y.inv ≠ .na ∨ y.perm ≠ .na) then [(swapP p, w * (y.swapS p : ℂ))] else [])))

/-- The loop over user-defined states (SystemTwo.cpp:478-571). -/
noncomputable def pairUsers (P : PairSet) (lt : AState → AState → Bool) (E : AState → ℝ) :
    List (AState × AState) → Out (List (ℝ × List PEntry))
  | [] => .ok []
  | p :: ps =>
    match pairUser P lt E p with
    | .ok none => pairUsers P lt E ps
    | .ok (some c) =>
      match pairUsers P lt E ps with
      | .ok r => .ok (c :: r)
      | .throw => .throw
      | .ub => .ub
    | .throw => .throw
    | .ub => .ub

/-- The coefficient of a pair state in a basis vector: `setFromTriplets` adds up repeated entries
(SystemTwo.cpp:578-579). -/
noncomputable def coefP (es : List PEntry) (p : AState × AState) : ℂ := (es.map fun e => if e.1 = p then e.2 else 0).sum

/-- The entry of `sqnorm_list` of a pair state (SystemTwo.cpp:1595). -/
noncomputable def weightP (es : List PEntry) (p : AState × AState) : ℝ :=
  (es.map fun e => if e.1 = p then Complex.normSq e.2 else 0).sum

/-- A pair basis: the states and, per basis vector, the energy and the coefficients (zero for states that are not
in the list). -/
structure PairBasis where
  states : List (AState × AState)
  cols : List (ℝ × (AState × AState → ℂ))

/-- Remove vectors with too small norm, then states that barely occur (SystemTwo.cpp:587-620). -/
noncomputable def prunePairs (thr : ℝ) (cols : List (ℝ × List PEntry)) : PairBasis :=
  let es := cols.flatMap (·.2)
  let kept := (statesOf es).filter fun p => decide (thr < weightP es p)
  ⟨kept, (cols.filter fun c => decide (thr < ((statesOf es).map fun p => Complex.normSq (coefP c.2 p)).sum)).map
    fun c => (c.1, fun p => if p ∈ kept then coefP c.2 p else 0)⟩

/-- `initializeBasis` (SystemTwo.cpp:202-650) after the one-atom systems are diagonalised and restricted, with the
emptiness checks of `buildBasis` (SystemBase.cpp:555-561).  `sqnorm_list` has the length
`numStates1 * numStates2 + states_to_add.size()`; writing behind its end is undefined.  (Simplified: overflow in the loop
over the user-defined states is tested after the loop.) -/
noncomputable def pairBuild (P : PairSet) (lt : AState → AState → Bool) (E : AState → ℝ) (S1 S2 : OneSys) : Out PairBasis :=
  match pairLoop P S1 S2 (P.usedPairs S1 S2) with
  | .throw => .throw
  | .ub => .ub
  | .ok cs =>
    if S1.states.length * S2.states.length + P.toAdd.length < (statesOf (cs.flatMap (·.2))).length then .ub else
    if P.toAdd.all (userPairOk P (statesOf (cs.flatMap (·.2)))) = false then .throw else
    match pairUsers P lt E P.toAdd with
    | .throw => .throw
    | .ub => .ub
    | .ok us =>
      if S1.states.length * S2.states.length + P.toAdd.length < (statesOf ((cs ++ us).flatMap (·.2))).length then .ub else
      let B := prunePairs P.thr (cs ++ us)
      if B.states = [] ∨ B.cols = [] then .throw else .ok B

end PI
