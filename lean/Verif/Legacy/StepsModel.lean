import Verif.Legacy.HamOneModel

/-!
# HamiltonianOne.cpp and HamiltonianTwo.cpp: the steps of a scan

Which one-atom Hamiltonians, which distance and which symmetry belong to a step of the pair calculation.  Vectors that are indexed are lists; an index outside is
undefined behaviour.  Distances and fields are real numbers.
-/

namespace PI

/-- Cartesian fields. -/
structure OldFields where
  E : Vec3
  B : Vec3

/-- The position within the scan (HamiltonianOne.cpp:470, HamiltonianTwo.cpp:706). -/
noncomputable def oldPosition (n step : ℕ) : ℝ := if n > 1 then step / (n - 1 : ℝ) else 0

/-- HamiltonianOne.cpp:472-477, component by component. -/
def oldBetween (a b : Vec3) (t : ℝ) : Vec3 := ⟨a.x + t * (b.x - a.x), a.y + t * (b.y - a.y), a.z + t * (b.z - a.z)⟩

/-- The fields of a step (HamiltonianOne.cpp:470-477). -/
noncomputable def OldScan.fieldsAt (s : OldScan) (step : ℕ) : OldFields :=
  ⟨oldBetween s.minE s.maxE (oldPosition s.nSteps step), oldBetween s.minB s.maxB (oldPosition s.nSteps step)⟩

/-- `matrix_diag` and `params` after the loop over the steps (HamiltonianOne.cpp:453-454, 464, 650-652), reduced to the fields. -/
noncomputable def OldScan.ones (s : OldScan) : List OldFields := (List.range s.nSteps).map s.fieldsAt

/-- What one round of the inner loop of the pair calculation uses (HamiltonianTwo.cpp:699-717, 823-846): parameters of the configuration, the two one-atom
Hamiltonians, the distance and the symmetry. -/
structure PairTask (P M S : Type) where
  params : P
  one1 : M
  one2 : M
  R : ℝ
  sym : S

/-- `v[i]`. -/
def oldAt {α : Type} (v : List α) (i : ℕ) : Out α := match v[i]? with
  | some a => .ok a
  | none => .ub

/-- A loop that appends one result per round. -/
def oldLoop {α β : Type} (f : α → Out β) : List α → Out (List β)
  | [] => .ok []
  | a :: as => f a >>= fun b => oldLoop f as >>= fun bs => .ok (b :: bs)

/-- The steps of `calculate` (HamiltonianTwo.cpp:71-76, 98-106, 109-111, 120-121, 177-179, 643-658, 691-712, 823-846): the rounds in the order of `matrix_path`
(HamiltonianTwo.cpp:699, 884; the vector has `nSteps_two * symmetries.size()` entries, 630). The one-atom Hamiltonians that do not change are combined once (643-658);
what is done with them is not modelled here. -/
noncomputable def oldPairTasks {P M S : Type} (params : List P) (ones1 ones2 : List M) (steps : ℕ) (minR maxR : ℝ) (syms : List S) :
    Out (List (PairTask P M S)) :=
  open Classical in
  if ones1.length ≠ ones2.length then .throw
  else
    let n1 := ones1.length
    (oldLoop (fun i => oldAt params i) (List.range n1)) >>= fun conf_mat =>
    if conf_mat = [] then .ub
    else
      let n2 := if minR = maxR ∧ n1 = 1 then 1 else steps
      oldLoop (fun round : ℕ × S =>
          let single_idx := if n2 = n1 then round.1 else 0
          oldAt conf_mat single_idx >>= fun conf =>
          oldAt ones1 (if n2 = n1 then round.1 else 0) >>= fun a =>
          oldAt ones2 (if n2 = n1 then round.1 else 0) >>= fun b =>
          .ok ⟨conf, a, b, minR + oldPosition n2 round.1 * (maxR - minR), round.2⟩)
        (List.range n2 ×ˢ syms)

/-- The pair calculation of the program: both one-atom Hamiltonians were built with the same configuration (Interface.cpp:79-103). -/
noncomputable def oldPairScan {S : Type} (s : OldScan) (minR maxR : ℝ) (syms : List S) : Out (List (PairTask OldFields OldFields S)) :=
  oldPairTasks s.ones s.ones s.ones s.steps minR maxR syms

end PI
