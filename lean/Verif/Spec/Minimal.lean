import Verif.Spec.Sobolev
import Mathlib.Analysis.Calculus.ContDiff.Defs

/-!
# Curves that compete with an interpolating spline

A rival curve is given by its pieces: `φ i c` is component `c` of piece `i`, which is used from instant `i` to instant `i + 1`.
-/

namespace GSplines.Spec

open GSplines Finset

/-- Instant `i`: the sum of the first `i` lengths. -/
def instant (tau : List ℝ) (i : ℕ) : ℝ := (tau.take i).sum

/-- The pieces are `m` times continuously differentiable, run from way point to way point in the given times, fit together with their derivatives up to
order `m - 1`, and the derivatives of orders `1 … m - 1` vanish at the beginning and at the end. -/
structure Rival (m codim : ℕ) (tau : List ℝ) (w : ℕ → ℕ → ℝ) (φ : ℕ → ℕ → ℝ → ℝ) : Prop where
  smooth : ∀ i < tau.length, ∀ c < codim, ContDiff ℝ m (φ i c)
  start : ∀ i < tau.length, ∀ c < codim, φ i c (instant tau i) = w i c
  stop : ∀ i < tau.length, ∀ c < codim, φ i c (instant tau (i + 1)) = w (i + 1) c
  join : ∀ i, i + 1 < tau.length → ∀ c < codim, ∀ d, 1 ≤ d → d ≤ m - 1 →
    iteratedDeriv d (φ i c) (instant tau (i + 1)) = iteratedDeriv d (φ (i + 1) c) (instant tau (i + 1))
  restL : ∀ c < codim, ∀ d, 1 ≤ d → d ≤ m - 1 → iteratedDeriv d (φ 0 c) 0 = 0
  restR : ∀ c < codim, ∀ d, 1 ≤ d → d ≤ m - 1 → iteratedDeriv d (φ (tau.length - 1) c) tau.sum = 0

/-- The integral of the squared euclidean norm of the derivative of order `k` of a curve given by its pieces. -/
noncomputable def rivalEnergy (codim : ℕ) (tau : List ℝ) (φ : ℕ → ℕ → ℝ → ℝ) (k : ℕ) : ℝ :=
  ∑ i ∈ range tau.length, ∑ c ∈ range codim, ∫ t in (instant tau i)..(instant tau (i + 1)), iteratedDeriv k (φ i c) t ^ 2

/-- Two curves given by their pieces are the same. -/
def SameCurve (codim : ℕ) (tau : List ℝ) (φ ψ : ℕ → ℕ → ℝ → ℝ) : Prop :=
  ∀ i < tau.length, ∀ c < codim, ∀ t ∈ Set.Icc (instant tau i) (instant tau (i + 1)), φ i c t = ψ i c t

/-- What C66 says of a spline `g` with the given lengths through the way points: for a polynomial basis with `2 m` functions the spline has the least
`∫ ‖q^(m)‖²` of all curves that compete, for Basis0101 with parameter `α` the least `α ∫ ‖q'‖² + (1 - α) ∫ ‖q'''‖²`; the spline is one of these curves, and every other
one costs more. -/
structure LeastCost (g : GSpline) (w : ℕ → ℕ → ℝ) : Prop where
  competes : Rival (g.basis.dim / 2) g.codim g.tau w (curve g)
  polynomial : (∀ a, g.basis ≠ .b0101 a) → ∀ φ, Rival (g.basis.dim / 2) g.codim g.tau w φ →
    energy g (g.basis.dim / 2) ≤ rivalEnergy g.codim g.tau φ (g.basis.dim / 2) ∧
      (¬ SameCurve g.codim g.tau φ (curve g) → energy g (g.basis.dim / 2) < rivalEnergy g.codim g.tau φ (g.basis.dim / 2))
  exponential : ∀ a, g.basis = .b0101 a → ∀ φ, Rival 3 g.codim g.tau w φ →
    a * energy g 1 + (1 - a) * energy g 3 ≤ a * rivalEnergy g.codim g.tau φ 1 + (1 - a) * rivalEnergy g.codim g.tau φ 3 ∧
      (¬ SameCurve g.codim g.tau φ (curve g) →
        a * energy g 1 + (1 - a) * energy g 3 < a * rivalEnergy g.codim g.tau φ 1 + (1 - a) * rivalEnergy g.codim g.tau φ 3)

end GSplines.Spec
