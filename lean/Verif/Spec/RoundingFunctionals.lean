import Verif.Model.RoundingFunctionals

/-!
# What C106 says about the errors of linear functionals
-/

namespace GSplines.Spec

open GSplines Finset

/-- The stored entries of a matrix: the others are zero. -/
def Keeps (L : Colloc.LF) (st : ℕ → ℕ → Bool) : Prop := ∀ i < L.rows, ∀ j < L.cols, st i j = false → L.mat i j = 0

/-- The error of a sum of `n` products whose sizes add up to `S`, when each operation has a relative error of at most `u.1` plus an absolute error of at most `u.2`. -/
noncomputable def productError (u : ℝ × ℝ) (n : ℕ) (S : ℝ) : ℝ := ((1 + u.1) ^ n - 1) * S + 2 * n * (1 + u.1) ^ n * u.2

end GSplines.Spec
