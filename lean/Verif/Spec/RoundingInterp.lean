import Verif.Model.RoundingInterp
import Verif.Spec.Rounding
import Verif.Spec.Residual

/-!
# Specification: interpolation with rounded arithmetic
-/

namespace GSplines.Spec

open GSplines

/-- The states of an interpolator object whose calls of `interpolate` and `solve_interpolation` were computed with rounding errors: any number of calls, each with any
size of the errors and any linear solver, of which each may have ended with any possible result. -/
inductive RReach (codim n : ℕ) (b : Basis) : Interp → Prop
  | make {junk : Vec} {s : Interp} : Interp.make codim n b junk = .ok s → RReach codim n b s
  | solve {u : ℝ × ℝ} {lu : LU} {s s' : Interp} {tau : List ℝ} {w : Pts} {x : List ℝ} :
      RReach codim n b s → Rounded.solveInterpolation u lu s tau w (.ok (s', x)) → RReach codim n b s'

end GSplines.Spec
