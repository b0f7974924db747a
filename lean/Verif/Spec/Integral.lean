import Verif.Model.Integral
import Verif.Spec.FnDeriv
import Mathlib.Algebra.Polynomial.Eval.Degree

/-!
# Specification of the quadrature
-/

namespace GSplines.Spec

open GSplines Fn Finset

/-- The point of interval `iv` of `k` equal intervals of the domain `d` which corresponds to `x ∈ [-1, 1]`. -/
noncomputable def gridPoint (d : ℝ × ℝ) (k iv : ℕ) (x : ℝ) : ℝ := d.1 + (iv + (x + 1) / 2) * ((d.2 - d.1) / k)

/-- The composite quadrature sum of `φ` over `k` equal intervals, with points `p` and weights `w` on `[-1, 1]`. -/
noncomputable def quadrature (φ : ℝ → ℝ) (d : ℝ × ℝ) (n k : ℕ) (p w : Vec) : ℝ :=
  ∑ iv ∈ range k, (d.2 - d.1) / k / 2 * ∑ j ∈ range n, w j * φ (gridPoint d k iv (p j))

/-- The function can be evaluated at all points of the quadrature. -/
def Evaluable (f : Fn) (d : ℝ × ℝ) (n k : ℕ) (p : Vec) : Prop :=
  ∀ iv < k, ∀ j < n, ∃ x, f.call [gridPoint d k iv (p j)] = .ok [[x]]

/-- Component `c` of the value that the derivative of order `m`, as the object computes it, returns at `t`. -/
noncomputable def dval (f : Fn) (m c : ℕ) (t : ℝ) : ℝ :=
  match f.derivate m with
  | .ok a => val a c t
  | .error _ => 0

/-- On each of `k` equal intervals of the domain `d` the function is a polynomial of degree at most `m`. -/
def PiecewisePoly (φ : ℝ → ℝ) (d : ℝ × ℝ) (k m : ℕ) : Prop :=
  ∀ iv < k, ∃ F : Polynomial ℝ, F.natDegree ≤ m ∧ ∀ t, gridPoint d k iv (-1) ≤ t → t ≤ gridPoint d k iv 1 → φ t = F.eval t

end GSplines.Spec
