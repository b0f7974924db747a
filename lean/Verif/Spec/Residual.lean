import Verif.Spec.Symmetry

/-!
# Approximate solutions of the interpolation problem

In double arithmetic no linear solver returns the exact solution. The notions in this file say how good a solution is, and how good a spline is.
-/

namespace GSplines.Spec

open GSplines Finset

/-- The vector `y` satisfies every equation of the linear system with matrix `m` and right hand side `v` up to the error `ε`. -/
def SolvesWithin (ε : ℝ) (size : ℕ) (m : Mat) (y v : ℕ → ℝ) : Prop := ∀ r < size, |∑ k ∈ range size, m r k * y k - v r| ≤ ε

/-- The backward error of a solution is at most `η`: the error in each equation is small compared with the entries of the matrix, of the solution and of
the right hand side. Here sizes are measured by the sums of the absolute values, so this is implied by a small backward error in any of the usual norms. -/
def BackwardError (η : ℝ) (size : ℕ) (m : Mat) (y v : ℕ → ℝ) : Prop :=
  SolvesWithin (η * ((∑ r ∈ range size, ∑ k ∈ range size, |m r k|) * ∑ k ∈ range size, |y k| + ∑ r ∈ range size, |v r|)) size m y v

/-- A matrix that can be inverted although its entries are only known up to a relative error `η`: `η` times its condition number is below one. Sizes are again measured
by the sums of the absolute values, which gives a larger number than the usual norms. -/
def WellConditioned (η : ℝ) (size : ℕ) (m : Mat) : Prop :=
  ∃ inv : Mat, (∀ i < size, ∀ j < size,
    ∑ k ∈ range size, inv i k * m k j = (if i = j then 1 else 0) ∧ ∑ k ∈ range size, m i k * inv k j = if i = j then 1 else 0) ∧
    η * ((∑ r ∈ range size, ∑ k ∈ range size, |m r k|) * ∑ r ∈ range size, ∑ k ∈ range size, |inv r k|) < 1

/-- A linear solver that is stable on systems with `size` unknowns: it succeeds on matrices that are not too badly conditioned for its backward error `η`, and if it
succeeds the backward error of its answer is at most `η`. For `η = 0` this is `LUContract` for one size. -/
structure StableLU (η : ℝ) (size : ℕ) (lu : LU) : Prop where
  succeeds : ∀ m, WellConditioned η size m → lu.succeeds size m = true
  stable : ∀ m v, lu.succeeds size m = true → BackwardError η size m (lu.solve size m v) v

/-- A spline that meets the conditions of the interpolation problem up to an error `ε`. Compare `Meets`. -/
structure MeetsWithin (ε : ℝ) (g : GSpline) (w : ℕ → ℕ → ℝ) : Prop where
  /-- the value at breakpoint `i` is within `ε` of way point `i` -/
  points : ∀ i ≤ g.tau.length, ∃ x, Gives g (brk g i) x ∧ ∀ c < g.codim, |x c - w i c| ≤ ε
  /-- the curve jumps by at most `2 ε` -/
  jumps : ∀ i, i + 1 < g.tau.length → ∀ c < g.codim, |curve g i c (brk g (i + 1)) - curve g (i + 1) c (brk g (i + 1))| ≤ 2 * ε
  /-- the derivatives up to order `dim - 2` jump by at most `ε` -/
  joins : ∀ i, i + 1 < g.tau.length → ∀ c < g.codim, ∀ d, 1 ≤ d → d ≤ g.basis.dim - 2 →
    |iteratedDeriv d (curve g i c) (brk g (i + 1)) - iteratedDeriv d (curve g (i + 1) c) (brk g (i + 1))| ≤ ε
  /-- the derivatives of orders `1 … dim/2 - 1` at both ends are at most `ε` -/
  restL : ∀ c < g.codim, ∀ d, 1 ≤ d → d ≤ g.basis.dim / 2 - 1 → |iteratedDeriv d (curve g 0 c) g.dom.1| ≤ ε
  restR : ∀ c < g.codim, ∀ d, 1 ≤ d → d ≤ g.basis.dim / 2 - 1 → |iteratedDeriv d (curve g (g.tau.length - 1) c) g.dom.2| ≤ ε

/-- On the whole domain the values of two splines with the same intervals, and the derivatives of their pieces up to order `D`, differ by at most `δ`. -/
structure CloseUpTo (D : ℕ) (δ : ℝ) (g g' : GSpline) : Prop where
  lengths : g'.tau = g.tau
  domain : g'.dom = g.dom
  codim : g'.codim = g.codim
  values : ∀ t, g.dom.1 ≤ t → t ≤ g.dom.2 → Away g t → ∃ x x', Gives g t x ∧ Gives g' t x' ∧ ∀ c < g.codim, |x c - x' c| ≤ δ
  derivatives : ∀ t, g.dom.1 ≤ t → t ≤ g.dom.2 → ∀ i, Located g t i → ∀ c < g.codim, ∀ d ≤ D,
    |iteratedDeriv d (curve g i c) t - iteratedDeriv d (curve g' i c) t| ≤ δ

end GSplines.Spec
