import Verif.Model.Optim
import Verif.Spec.Sobolev

/-!
# Specification of the optimisation problem and of the optimisers
-/

namespace GSplines.Spec

open GSplines GSplines.Optim

/-- The point respects the bounds of the variables, and the constraint evaluated there respects its bounds. -/
structure Feasible (p : Problem) (x : List ℝ) : Prop where
  size : x.length = p.var.rows
  within : List.Forall₂ (fun v b => b.1 ≤ v ∧ v ≤ b.2) x p.var.bounds
  constraint : List.Forall₂ (fun v b => b.1 ≤ v ∧ v ≤ b.2) (p.con.value (p.var.setVariables x)) p.con.bounds

/-- The states of a cost term: it is constructed, and then used any number of times in any order. -/
inductive CReach (lu : LU) (w : Pts) (b : Basis) (weights : List (ℕ × ℝ)) (mem : LagMem) : CostTerm → Prop
  | make {junk buff : Vec} {c : CostTerm} : CostTerm.make w b weights mem junk buff = .ok c → CReach lu w b weights mem c
  | cost {c c' : CostTerm} {v : TimeVar} {r : ℝ} : CReach lu w b weights mem c → c.getCost lu v = .ok (c', r) → CReach lu w b weights mem c'
  | jacobian {c c' : CostTerm} {v : TimeVar} {jac jac' : Mat} :
      CReach lu w b weights mem c → c.fillJacobian lu v jac = .ok (c', jac') → CReach lu w b weights mem c'

/-- The optimisers that minimise one derivative, with the order of the derivative. -/
inductive Named where
  | brokenLines
  | acceleration
  | jerk
  | snap
  | crackle

/-- The order of the derivative that is minimised: velocity, acceleration, jerk, snap, crackle. -/
def Named.order : Named → ℕ
  | .brokenLines => 1
  | .acceleration => 2
  | .jerk => 3
  | .snap => 4
  | .crackle => 5

/-- The call of the optimiser. -/
noncomputable def Named.path (p : Named) (lu : LU) (solver : Solver) (st : Option Options) (mem : Memory) (w : Pts) : Res (Option GSpline) :=
  match p with
  | .brokenLines => brokenLinesPath lu solver st mem w
  | .acceleration => minimumAccelerationPath lu solver st mem w
  | .jerk => minimumJerkPath lu solver st mem w
  | .snap => minimumSnapPath lu solver st mem w
  | .crackle => minimumCracklePath lu solver st mem w

end GSplines.Spec
