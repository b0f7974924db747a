import Verif.Spec.Minimal
import Verif.Proofs.BasisSpec

/-!
# How far an interpolating spline is from the curve it samples
-/

namespace GSplines.Spec

open GSplines Finset

/-- The derivatives of orders `1 … m - 1` vanish at times `0` and `T`. -/
def AtRest (m : ℕ) (T : ℝ) (φ : ℝ → ℝ) : Prop := ∀ d, 1 ≤ d → d ≤ m - 1 → iteratedDeriv d φ 0 = 0 ∧ iteratedDeriv d φ T = 0

/-- What the curves of a basis make zero: for a polynomial basis the derivative whose order is the number of basis functions, for Basis0101 with parameter `α`
the expression `φ⁽⁶⁾ + α / (1 - α) φ''`. -/
noncomputable def residual : Basis → (ℝ → ℝ) → ℝ → ℝ
  | .b0101 a, φ, t => iteratedDeriv 6 φ t + a / (1 - a) * iteratedDeriv 2 φ t
  | b, φ, t => iteratedDeriv b.dim φ t

/-- What is integrated in the cost of a curve: the square of the derivative of order `m` for a polynomial basis with `2 m` functions,
`φ'''² + α / (1 - α) φ'²` for Basis0101 with parameter `α`. -/
noncomputable def density : Basis → (ℝ → ℝ) → ℝ → ℝ
  | .b0101 a, φ, t => iteratedDeriv 3 φ t ^ 2 + a / (1 - a) * iteratedDeriv 1 φ t ^ 2
  | b, φ, t => iteratedDeriv (b.dim / 2) φ t ^ 2

/-- `g.deriv(d)` can be evaluated at every time of the domain where Lagrange bases give right values, and the square of the difference from the derivative of order `d` of
the piece of the curve `φ` that is used at that time is at most `B c` for component `c`. -/
def Within (g : GSpline) (d : ℕ) (φ : ℕ → ℕ → ℝ → ℝ) (B : ℕ → ℝ) : Prop :=
  ∃ g', g.deriv d = .ok g' ∧ ∀ t ∈ Set.Icc g.dom.1 g.dom.2, ∀ i, Located g t i → g.basis.CleanAt (window (vecOf g.tau i) (t - brk g i)) →
    ∃ v, g'.value t = .ok v ∧ v.length = g.codim ∧ ∀ c < g.codim, ∃ x, v[c]? = some x ∧ (x - iteratedDeriv d (φ i c) t) ^ 2 ≤ B c

/-- What C83 says of a spline through samples of the curve `φ`, where `h` is at least as large as every interval length: the derivatives of orders below `dim / 2` of the
spline are at every time close to those of the curve, and those of orders up to `dim / 2` are close in the mean. -/
structure Accurate (g : GSpline) (φ : ℕ → ℝ → ℝ) (h : ℝ) : Prop where
  pointwise : ∀ d < g.basis.dim / 2,
    Within g d (fun _ => φ) fun c => h ^ (2 * (g.basis.dim - d) - 1) * ∫ t in (0)..g.tau.sum, residual g.basis (φ c) t ^ 2
  mean : ∀ d ≤ g.basis.dim / 2, ∀ c < g.codim,
    ∑ i ∈ range g.tau.length, ∫ t in (brk g i)..(brk g (i + 1)), (iteratedDeriv d (φ c) t - iteratedDeriv d (curve g i c) t) ^ 2 ≤
      h ^ (2 * (g.basis.dim - d)) * ∫ t in (0)..g.tau.sum, residual g.basis (φ c) t ^ 2

end GSplines.Spec
