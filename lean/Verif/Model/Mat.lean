import Verif.Model.Basic
import Mathlib.Algebra.BigOperators.Group.Finset.Basic
import Mathlib.Data.Real.Basic

/-!
# Dense matrices and vectors

Eigen's dense objects are functions of their indices; the sizes are carried separately.
-/

namespace GSplines

open Finset

/-- Dense vector of doubles. -/
abbrev Vec := ℕ → ℝ

/-- Dense (or sparse) matrix of doubles. -/
abbrev Mat := ℕ → ℕ → ℝ

/-- `Eigen::MatrixXd::Zero` / `setZero`. -/
def Mat.zero : Mat := fun _ _ => 0

/-- `Eigen::MatrixXd::Identity`. -/
def Mat.id : Mat := fun i j => if i = j then 1 else 0

/-- `A.transpose()` / `transposeInPlace` of a square matrix. -/
def Mat.tr (a : Mat) : Mat := fun i j => a j i

/-- Eigen product `A * B`, `n` = number of columns of `A` = number of rows of `B`. -/
def Mat.mul (n : ℕ) (a b : Mat) : Mat := fun i j => ∑ k ∈ range n, a i k * b k j

/-- Eigen product `A * v`, `n` = number of columns of `A` = size of `v`. -/
def Mat.mulVec (n : ℕ) (a : Mat) (v : Vec) : Vec := fun i => ∑ k ∈ range n, a i k * v k

/-- `a * A` for a number `a`. -/
def Mat.smul (c : ℝ) (a : Mat) : Mat := fun i j => c * a i j

/-- `A + B`. -/
def Mat.add (a b : Mat) : Mat := fun i j => a i j + b i j

/-- `u.dot(v)` / `u.adjoint() * v` for vectors of size `n`. -/
def Vec.dot (n : ℕ) (u v : Vec) : ℝ := ∑ k ∈ range n, u k * v k

end GSplines
