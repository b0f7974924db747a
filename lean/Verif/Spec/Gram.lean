import Mathlib.Analysis.Calculus.IteratedDeriv.Defs
import Mathlib.MeasureTheory.Integral.IntervalIntegral.Basic

/-!
# Specification of the Sobolev matrices

`φ i` is the `i`-th basis function as a function of the time elapsed in an interval of length `tau`.
-/

namespace GSplines.Spec

/-- Entry `(i, j)` of the Sobolev matrix of order `d`: the integral over an interval of length `tau` of the product of
the `d`-th time derivatives of basis functions `i` and `j`. -/
noncomputable def gram (φ : ℕ → ℝ → ℝ) (tau : ℝ) (d i j : ℕ) : ℝ :=
  ∫ t in (0 : ℝ)..tau, iteratedDeriv d (φ i) t * iteratedDeriv d (φ j) t

/-- Local coordinate in `[-1, 1]` of the time `t` elapsed in an interval of length `tau`. -/
noncomputable def window (tau t : ℝ) : ℝ := 2 * t / tau - 1

end GSplines.Spec
