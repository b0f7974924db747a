import Verif.Spec.Sobolev
import Verif.Model.RoundingSobolev

/-! # Specification: a Sobolev norm object whose calls were computed with rounding errors -/

namespace GSplines.Spec

open GSplines

/-- The states of a `SobolevNorm` object whose calls were computed with rounding errors: any number of calls of the cost and of its gradient in any order, each with any
size of the errors and any linear solver, of which each may have ended with any possible result. -/
inductive RSReach (w : Pts) (b : Basis) (weights : List (ℕ × ℝ)) (mem : LagMem) : Sobolev → Prop
  | make {junk : Vec} {s : Sobolev} : Sobolev.make w b weights mem junk = .ok s → RSReach w b weights mem s
  | cost {u : ℝ × ℝ} {lu : LU} {s s' : Sobolev} {tau : List ℝ} {v : ℝ} : RSReach w b weights mem s → Rounded.cost u lu s tau (.ok (s', v)) → RSReach w b weights mem s'
  | grad {u : ℝ × ℝ} {lu : LU} {s s' : Sobolev} {tau buff out : List ℝ} :
      RSReach w b weights mem s → Rounded.grad u lu s tau buff (.ok (s', out)) → RSReach w b weights mem s'

end GSplines.Spec
