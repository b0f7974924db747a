import Mathlib.Algebra.Polynomial.Derivative
import Mathlib.Data.Real.Basic

/-! # Specification: Legendre polynomials by Rodrigues' formula -/

namespace GSplines.Spec

open Polynomial

/-- The `n`-th Legendre polynomial, `1/(2ⁿ n!) dⁿ/dxⁿ (x² - 1)ⁿ` (Rodrigues' formula). -/
noncomputable def legendre (n : ℕ) : ℝ[X] :=
  C (1 / (2 ^ n * (n.factorial : ℝ))) * derivative^[n] ((X ^ 2 - 1) ^ n)

end GSplines.Spec
