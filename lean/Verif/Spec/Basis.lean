import Verif.Model.Basis
import Verif.Spec.Legendre
import Verif.Spec.B0101
import Mathlib.LinearAlgebra.Lagrange

/-!
# Specification of a piecewise function given by its coefficients

The meaning of a basis object: its functions on an interval, as functions of the time elapsed in the interval.
-/

namespace GSplines.Spec

open Finset Polynomial

/-- Function `k` of the basis on an interval of length `tau`, at elapsed time `t`: Legendre polynomial `k`, or cardinal polynomial `k`
of the nodes, at the window coordinate; or the function of Basis0101. -/
noncomputable def basisFn (b : Basis) (tau : ℝ) (k : ℕ) (t : ℝ) : ℝ :=
  match b with
  | .legendre _ => (legendre k).eval (window tau t)
  | .lagrange x => (_root_.Lagrange.basis (range x.length) (vecOf x) k).eval (window tau t)
  | .b0101 a => phi0101 a tau k t

/-- The linear combination with coefficients `y` on one interval. -/
noncomputable def comb (b : Basis) (tau : ℝ) (y : ℕ → ℝ) (t : ℝ) : ℝ := ∑ k ∈ range b.dim, y k * basisFn b tau k t

/-- Component `c` of interval `i` of the spline with coefficients `y`, ordered by interval, component, basis function. -/
noncomputable def piece (b : Basis) (codim : ℕ) (tau : ℕ → ℝ) (y : ℕ → ℝ) (i c : ℕ) (t : ℝ) : ℝ :=
  comb b (tau i) (fun k => y (i * b.dim * codim + b.dim * c + k)) t

end GSplines.Spec
