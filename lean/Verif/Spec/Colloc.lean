import Verif.Model.Colloc
import Verif.Spec.GSpline
import Verif.Spec.Integral

/-!
# Specification of collocation splines
-/

namespace GSplines.Spec

open GSplines

/-- The nodal value: component `c` at node `k` of interval `iv`. The coefficients are ordered by interval, component, node. -/
def nodal (g : GSpline) (iv c k : ℕ) : ℝ := vecOf g.coeffs (iv * g.basis.dim * g.codim + g.basis.dim * c + k)

/-- The vector of all components at node `k` of interval `iv`. -/
def nodalRow (g : GSpline) (iv k : ℕ) : List ℝ := (List.range g.codim).map fun c => nodal g iv c k

/-- The time of node `k` of interval `iv`, if the nodes of `[-1, 1]` are `p`. -/
noncomputable def nodeTime (g : GSpline) (p : ℕ → ℝ) (iv k : ℕ) : ℝ := brk g iv + (p k + 1) / 2 * vecOf g.tau iv

/-- Two bounds of domains count as equal: they differ by less than `1e-9` times each of them, or by less than `1e-9` if one of them is smaller than `1e-9`. -/
def CloseBound (x y : ℝ) : Prop :=
  (|x| < 1 / 10 ^ 9 ∨ |y| < 1 / 10 ^ 9) ∧ |x - y| < 1 / 10 ^ 9 ∨
    1 / 10 ^ 9 ≤ |x| ∧ 1 / 10 ^ 9 ≤ |y| ∧ |x - y| < |x| * (1 / 10 ^ 9) ∧ |x - y| < |y| * (1 / 10 ^ 9)

end GSplines.Spec
