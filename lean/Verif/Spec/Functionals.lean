import Verif.Model.Functionals
import Verif.Spec.Colloc

/-!
# Specification of functionals on collocation splines
-/

namespace GSplines.Spec

open GSplines Finset

/-- The splines on which a functional of size `n` nodes, `m` intervals and `codim` components acts. -/
structure OnGrid (g : GSpline) (n m codim : ℕ) (p : Vec) : Prop where
  basis : g.basis = .lagrange ((List.range n).map p)
  codim : g.codim = codim
  len : g.tau.length = m
  cons : Consistent g
  dom : g.dom.1 ≤ g.dom.2

/-- The value of the quadrature on the nodal values of a scalar spline, for intervals of equal length `len`. -/
noncomputable def nodalQuadrature (g : GSpline) (n m : ℕ) (len : ℝ) (w : Vec) : ℝ :=
  ∑ iv ∈ range m, len / 2 * ∑ k ∈ range n, w k * nodal g iv 0 k

end GSplines.Spec
