import Verif.Spec.Integral
import Mathlib.Analysis.Calculus.IteratedDeriv.Defs

/-!
# Specification of the accuracy of collocation and quadrature
-/

namespace GSplines.Spec

open GSplines Fn

/-- On each of `m` equal intervals of its domain, component `c` of the function coincides with `φ iv c`, which is `n` times continuously differentiable on the real line and whose
derivative of order `n` is at most `M` on the interval. (The functions of different intervals may differ: the function may have corners where intervals meet.) -/
structure SmoothPieces (f : Fn) (m n : ℕ) (M : ℝ) (φ : ℕ → ℕ → ℝ → ℝ) : Prop where
  smooth : ∀ iv < m, ∀ c < f.codim, ContDiff ℝ n (φ iv c)
  agrees : ∀ iv < m, ∀ c < f.codim, ∀ t, gridPoint f.dom m iv (-1) ≤ t → t ≤ gridPoint f.dom m iv 1 → val f c t = φ iv c t
  bound : ∀ iv < m, ∀ c < f.codim, ∀ t, gridPoint f.dom m iv (-1) ≤ t → t ≤ gridPoint f.dom m iv 1 → |iteratedDeriv n (φ iv c) t| ≤ M

/-- The length of `m` equal intervals of the domain. -/
noncomputable def step (f : Fn) (m : ℕ) : ℝ := (f.dom.2 - f.dom.1) / m

end GSplines.Spec
