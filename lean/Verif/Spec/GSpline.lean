import Verif.Model.GSpline
import Verif.Spec.Basis

/-!
# Specification of a generalized spline
-/

namespace GSplines.Spec

open GSplines

/-- Breakpoint `i`: start of the domain plus the first `i` interval lengths. -/
def brk (g : GSpline) (i : ℕ) : ℝ := g.dom.1 + (g.tau.take i).sum

/-- The interval that contains `t`: intervals are closed on the right, points before the start belong to the first
interval and points after the end to the last one. -/
def Located (g : GSpline) (t : ℝ) (i : ℕ) : Prop :=
  i < g.tau.length ∧
    ((t ≤ brk g 0 ∧ i = 0) ∨ (brk g i < t ∧ t ≤ brk g (i + 1)) ∨ (brk g g.tau.length < t ∧ i + 1 = g.tau.length))

/-- Component `c` of the function of interval `i` (a function on the whole line), at time `t`. -/
noncomputable def curve (g : GSpline) (i c : ℕ) (t : ℝ) : ℝ :=
  piece g.basis g.codim (vecOf g.tau) (vecOf g.coeffs) i c (t - brk g i)

/-- All interval lengths are positive and there is at least one interval. -/
def Positive (g : GSpline) : Prop := g.tau ≠ [] ∧ ∀ x ∈ g.tau, 0 < x

/-- The number of coefficients fits the other sizes. -/
def Consistent (g : GSpline) : Prop := g.coeffs.length = g.tau.length * g.basis.dim * g.codim

end GSplines.Spec
