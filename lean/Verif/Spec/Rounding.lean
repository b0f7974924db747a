import Verif.Spec.GSpline

/-!
# Specification: values of a spline up to rounding
-/

namespace GSplines.Spec

open GSplines

/-- Interval `i` contains `t`, its end points included (the first interval also has all earlier times, the last one all later times). At a breakpoint two intervals touch. -/
def Touches (g : GSpline) (t : ℝ) (i : ℕ) : Prop :=
  i < g.tau.length ∧ (brk g i ≤ t ∨ i = 0) ∧ (t ≤ brk g (i + 1) ∨ i + 1 = g.tau.length)

/-- A place in the window that rounding cannot move into or out of the neighbourhood of a Lagrange node: it is a node or farther than `1e-9 (1 + |s|)` from it. -/
def Clear : Basis → ℝ → Prop
  | .lagrange x, s => ∀ y ∈ x, s = y ∨ 1 / 10 ^ 9 * (1 + |s|) < |s - y|
  | _, _ => True

/-- The curve is continuous: at each interior breakpoint the two pieces have the same value. -/
def Unbroken (g : GSpline) : Prop := ∀ i, i + 1 < g.tau.length → ∀ c < g.codim, curve g i c (brk g (i + 1)) = curve g (i + 1) c (brk g (i + 1))

/-- Sizes of the rounding errors, relative and absolute, below `d`. -/
def Small (u : ℝ × ℝ) (d : ℝ) : Prop := 0 ≤ u.1 ∧ u.1 ≤ d ∧ 0 ≤ u.2 ∧ u.2 ≤ d

end GSplines.Spec
