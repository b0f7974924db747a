import Verif.Spec.Gram
import Mathlib.Analysis.SpecialFunctions.Pow.Real
import Mathlib.Analysis.SpecialFunctions.Trigonometric.Basic

/-!
# Specification of Basis0101

The six functions that span the solutions of the Euler equation of `∫ α |q'|² + (1-α) |q'''|²`.
-/

namespace GSplines.Spec

open Real

/-- The frequency `k(α) = √2/4 (α/(1-α))^(1/4)`. -/
noncomputable def k0101 (alpha : ℝ) : ℝ := √2 / 4 * (alpha / (1 - alpha)) ^ (1 / 4 : ℝ)

/-- The functions `e^p cos p, e^p sin p, e^{-p} cos p, e^{-p} sin p, p, 1`. -/
noncomputable def f0101 (i : ℕ) (p : ℝ) : ℝ :=
  match i with
  | 0 => exp p * cos p
  | 1 => exp p * sin p
  | 2 => exp (-p) * cos p
  | 3 => exp (-p) * sin p
  | 4 => p
  | _ => 1

/-- Basis function `i` as a function of the time elapsed in an interval of length `tau`. -/
noncomputable def phi0101 (alpha tau : ℝ) (i : ℕ) (t : ℝ) : ℝ := f0101 i (tau * k0101 alpha * window tau t)

end GSplines.Spec
