import Verif.Legacy.CombineModel

/-!
# HamiltonianTwo.cpp: restricting the one-atom states of a pair calculation
-/

namespace PI

/-- One atom of a pair calculation: the states (in the order of the rows) and the diagonalised Hamiltonians of the steps (Hamiltonian.hpp:29-53). -/
structure OldAtom where
  names : List (Named Old1)
  n : ℕ
  mats : List (OldOne n)

/-- `validN && validL && validJ && validM` after the loop over the initial states (HamiltonianTwo.cpp:190-213, 229-252); momenta are doubled. -/
def oldNear (d : Deltas) (init : List Old1) (x : Old1) : Bool :=
  (init.any fun s => decide (d.n < 0 ∨ |x.n - s.n| ≤ d.n)) && (init.any fun s => decide (d.l < 0 ∨ |x.l - s.l| ≤ d.l)) &&
  (init.any fun s => decide (d.j < 0 ∨ |x.j - s.j| ≤ 2 * d.j)) && (init.any fun s => decide (d.m < 0 ∨ |x.m - s.m| ≤ 2 * d.m))

/-- One round of the loop over the states (HamiltonianTwo.cpp:190-217): an index outside is undefined behaviour. -/
def oldMaskStep (d : Deltas) (init : List Old1) (o : Out (List Bool)) (x : Named Old1) : Out (List Bool) :=
  o >>= fun v => if oldNear d init x.2 then (if x.1 < v.length then .ok (v.set x.1 true) else .ub) else .ok v

/-- `necessary1` (HamiltonianTwo.cpp:188, 190-217). -/
def oldMask (d : Deltas) (init : List Old1) (names : List (Named Old1)) : Out (List Bool) :=
  names.foldl (oldMaskStep d init) (.ok (List.replicate names.length false))

/-- The rows that stay (Hamiltonianmatrix.cpp:231-240). -/
def oldKept (mask : List Bool) (n : ℕ) : List (Fin n) := (List.finRange n).filter fun i => mask.getD i false

/-- `Hamiltonianmatrix::removeUnnecessaryStates` (Hamiltonianmatrix.cpp:225-248): the transformator is multiplied to the basis only, the entries stay. -/
def OldOne.rows {n : ℕ} (A : OldOne n) (l : List (Fin n)) : OldOne l.length := ⟨A.nb, fun r c => A.basis (l.get r) c, A.diag⟩

/-- `Hamiltonian::removeUnnecessaryStates` (Hamiltonian.hpp:38-43) with the mask of HamiltonianTwo.cpp:184-219. -/
def OldAtom.restrict (d : Deltas) (init : List Old1) (a : OldAtom) : Out OldAtom :=
  oldMask d init a.names >>= fun mask =>
  if mask.length < a.n then .ub
  else removeOne mask a.names >>= fun names => .ok ⟨names, (oldKept mask a.n).length, a.mats.map fun A => A.rows (oldKept mask a.n)⟩

/-- The restriction of both atoms (HamiltonianTwo.cpp:27-52, 181-260): with a common basis both pointers refer to one object, which is restricted once. -/
def oldRestrictBoth (d : Deltas) (same : Bool) (init1 init2 : List Old1) (a1 a2 : OldAtom) : Out (OldAtom × OldAtom) :=
  a1.restrict d init1 >>= fun r1 => if same then .ok (r1, r1) else a2.restrict d init2 >>= fun r2 => .ok (r1, r2)

end PI
