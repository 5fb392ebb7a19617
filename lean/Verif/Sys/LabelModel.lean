import Verif.Sys.Model
import Verif.SysOne.Model
import Verif.State.Model
import Mathlib.Data.Nat.Digits.Defs

/-!
# SystemBase.cpp: the labels made by `unitarize`

`std::hash` of states, rows and coefficients are arbitrary functions.  A basis vector is the list of its stored entries (row, value) in ascending order of the rows.
-/

namespace PI

/-- The `std::hash` functions involved: of a state (SystemBase.hpp:72-74), of a row number and of a coefficient (utils.hpp:172-193). -/
structure LabelHash (σ : Type) where
  state : σ → UInt64
  row : ℕ → UInt64
  val : ℂ → UInt64

/-- `hash_range` over the states (utils.hpp:163-169, SystemBase.cpp:766-767); the numbers of the states do not enter. -/
def statesHash {σ : Type} (h : LabelHash σ) (states : List σ) : UInt64 := states.foldl (fun seed s => hashCombine seed (h.state s)) 0

/-- The hash of a basis vector (SystemBase.cpp:775-780). -/
def vectorHash {σ : Type} (h : LabelHash σ) (states : List σ) (col : List (ℕ × ℂ)) : UInt64 :=
  col.foldl (fun seed e => hashCombine (hashCombine seed (h.row e.1)) (h.val e.2)) (statesHash h states)

/-- `ss << std::hex << hashvalue` (SystemBase.cpp:783-784): hexadecimal digits without leading zeros. -/
def hexLabel (x : UInt64) : String :=
  String.ofList (if x.toNat = 0 then ['0'] else ((Nat.digits 16 x.toNat).map Nat.digitChar).reverse)

/-- `createStateFromLabel<StateOne>` (SystemBase.cpp:69-72). -/
def labelOne (s : String) : AState := .art s
/-- `createStateFromLabel<StateTwo>` (SystemBase.cpp:73-76). -/
def labelTwo (s : String) : AState × AState := (.art ("0_" ++ s), .art ("1_" ++ s))

/-- The loop over the basis vectors (SystemBase.cpp:772-786): a state that is already in the container is not inserted, but its number is used up. -/
def labelLoop {σ : Type} [DecidableEq σ] (mk : UInt64 → σ) : ℕ → List (ℕ × σ) → List UInt64 → List (ℕ × σ)
  | _, acc, [] => acc
  | i, acc, x :: xs => labelLoop mk (i + 1) (if mk x ∈ acc.map Prod.snd then acc else acc ++ [(i, mk x)]) xs

/-- A system as `unitarize` sees it: states, basis vectors, Hamiltonian. -/
structure VecSys (σ : Type) where
  states : List (ℕ × σ)
  cols : List (List (ℕ × ℂ))
  H : Mat

/-- `unitarize` (SystemBase.cpp:761-808) after `buildHamiltonian`: whether it throws, and the system afterwards. `mk` is `createStateFromLabel`. -/
def VecSys.unitarize {σ : Type} [DecidableEq σ] (h : LabelHash σ) (mk : String → σ) (s : VecSys σ) : Bool × VecSys σ :=
  let new := labelLoop (fun x => mk (hexLabel x)) 0 [] (s.cols.map (vectorHash h (s.states.map Prod.snd)))
  if s.cols.length ≠ new.length then (true, { s with states := new })
  else (false, { s with states := new, cols := (List.range new.length).map fun i => [(i, 1)] })

end PI
