import Verif.Spec.GSpline

/-!
# Specification: splines with almost the same data
-/

namespace GSplines.Spec

/-- `r` is `g` with interval lengths, coefficients and (for Basis0101) parameter changed by at most `ε`. The start, the sizes and the kind of basis are the same; the end
of the domain may be anything. -/
structure NearSpline (ε : ℝ) (r g : GSpline) : Prop where
  start : r.dom.1 = g.dom.1
  codim : r.codim = g.codim
  intervals : r.tau.length = g.tau.length
  tau : ∀ i < g.tau.length, |vecOf r.tau i - vecOf g.tau i| ≤ ε
  size : r.coeffs.length = g.coeffs.length
  coeffs : ∀ k < g.coeffs.length, |vecOf r.coeffs k - vecOf g.coeffs k| ≤ ε
  basis : r.basis = g.basis ∨ ∃ a a', g.basis = .b0101 a ∧ r.basis = .b0101 a' ∧ |a' - a| ≤ ε

end GSplines.Spec
