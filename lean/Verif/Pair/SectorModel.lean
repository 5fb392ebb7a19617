import Verif.Pair.BasisModel
import Verif.Pair.Model
import Verif.State.Model

/-!
# The Hamiltonian of a pair system over its pair basis: SystemTwo.cpp and SystemBase.cpp
-/

namespace PI

open Matrix

/-- The quantum numbers of a state that the matrix elements use; the spin is that of the species (State.cpp:180-187). Artificial states have none. -/
def AState.qn : AState → Option QN
  | .phys sp n l j m => match StateOne.analyzeSpecies sp with
    | .ok (_, s) => some ⟨sp, n, l, j, m, s⟩
    | _ => none
  | .art _ => none

/-- The quantum numbers of a pair state; pairs with an artificial state are skipped by the loops of `initializeInteraction` (SystemTwo.cpp:848-858). -/
def qnPair (p : AState × AState) : Option (QN × QN) := match p.1.qn, p.2.qn with
  | some a, some b => some (a, b)
  | _, _ => none

/-- The states of a pair basis as the loops of `initializeInteraction` see them (SystemTwo.cpp:848-862). -/
def PairBasis.st (B : PairBasis) : Fin B.states.length → Option (QN × QN) := fun i => qnPair (B.states.get i)

/-- The matrix of the basis vectors. -/
def PairBasis.vecs (B : PairBasis) : Matrix (Fin B.states.length) (Fin B.cols.length) ℂ := fun i j => (B.cols.get j).2 (B.states.get i)

/-- The Hamiltonian of a built pair system: the diagonal of the energies of the basis vectors (SystemTwo.cpp:336-337, 580-585), to which
`addInteraction` (SystemTwo.cpp:1336-1369) adds the interaction between the pair states, transformed to the basis vectors (SystemTwo.cpp:1275-1334). -/
noncomputable def PairBasis.hamiltonian (C : FieldConsts) (radial : RadKey → ℝ) (me : Method) (B : PairBasis) (p : PairParams) :
    Matrix (Fin B.cols.length) (Fin B.cols.length) ℂ :=
  (Matrix.diagonal fun j => (((B.cols.get j).1 : ℝ) : ℂ)) + B.vecsᴴ * pairH C radial me B.st p * B.vecs

end PI
