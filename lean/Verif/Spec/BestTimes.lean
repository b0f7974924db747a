import Verif.Spec.Optim
import Verif.Spec.Minimal

/-!
# Specification of the optimisation over the interval lengths
-/

namespace GSplines.Spec

open GSplines GSplines.Optim

/-- The point is a global minimum of the problem: it is feasible, its cost can be evaluated, and no feasible point has a smaller cost. (Where the evaluation
throws the point has no cost.) -/
structure GlobalMin (lu : LU) (p : Problem) (x : List ℝ) : Prop where
  feasible : Feasible p x
  least : ∃ c v, p.cost.getCost lu (p.var.setVariables x) = .ok (c, v) ∧
    ∀ y c' v', Feasible p y → p.cost.getCost lu (p.var.setVariables y) = .ok (c', v') → v ≤ v'

/-- A perfect solver: whenever it reports success the values that it leaves are a global minimum of the problem it was given. -/
def Perfect (lu : LU) (solver : Solver) : Prop := ∀ o p x, solver.run o p = .ok (0, x) → GlobalMin lu p x

end GSplines.Spec
