import Verif.Model.Basic
import Mathlib.Data.Real.Basic

/-!
# src/Tools.cpp

The two global variables of the file are a state that every comparison may write.
-/

namespace GSplines.Tools

open GSplines

/-- Tools.cpp:6-7: the globals `last_error`, `last_relative_error`. -/
structure Globals where
  lastError : ℝ
  lastRelativeError : ℝ

/-- Eigen's `rows()`, `cols()` and the coefficients of a `MatrixXd` (in storage order); `size()` is the length of the list. -/
structure EMat where
  rows : ℕ
  cols : ℕ
  data : List ℝ

/-- A `VectorXd` passed where a `MatrixXd` is expected: one column. -/
def EMat.ofVec (v : List ℝ) : EMat := ⟨v.length, 1, v⟩

/-- `array().maxCoeff()`; on an empty object Eigen asserts, here `0`, never used by the modelled code. -/
noncomputable def maxCoeff : List ℝ → ℝ
  | [] => 0
  | x :: xs => xs.foldl max x

/-- `array().abs().maxCoeff()`. -/
noncomputable def maxAbs (l : List ℝ) : ℝ := maxCoeff (l.map (fun x => |x|))

/-- Tools.cpp:8-21 `approx_equal(double, double, tol)`. -/
noncomputable def approxEqualS (l r tol : ℝ) (g : Globals) : Bool × Globals :=
  let err := |l - r|
  if |l| < tol ∨ |r| < tol then (decide (err < tol), g)
  else (decide (err < |l| * tol ∧ err < |r| * tol), ⟨err, max (err / |l|) (err / |r|)⟩)

/-- Tools.cpp:23-44 `approx_equal(MatrixXd, MatrixXd, tol)`. -/
noncomputable def approxEqualMS (l r : EMat) (tol : ℝ) (g : Globals) : Bool × Globals :=
  if l.rows ≠ r.rows ∨ l.cols ≠ r.cols ∨ l.data.length ≠ r.data.length then (false, g)
  else if l.data.length = 0 then (true, g)
  else
    let err := maxAbs (List.zipWith (· - ·) l.data r.data)
    let lm := maxAbs l.data
    let rm := maxAbs r.data
    if lm < tol ∨ rm < tol then (decide (err < tol), g)
    else (decide (err / lm < tol ∧ err / rm < tol), ⟨err, max (err / lm) (err / rm)⟩)

/-- Tools.cpp:56-63 `approx_zero(double, tol)`. -/
noncomputable def approxZeroS (r tol : ℝ) (_g : Globals) : Bool × Globals :=
  (decide (|r| < tol), ⟨|r|, |r|⟩)

/-- Tools.cpp:65-75 `approx_zero(MatrixXd, tol)`. -/
noncomputable def approxZeroMS (r : EMat) (tol : ℝ) (g : Globals) : Bool × Globals :=
  if r.data.length = 0 then (false, g)
  else (decide (maxAbs r.data < tol), ⟨maxAbs r.data, maxAbs r.data⟩)

/-- The program start: Tools.cpp:6-7. -/
def globals0 : Globals := ⟨0, 0⟩

/-- The answer of `approx_equal` on numbers (the globals do not influence it, `Props.C19_history_independent`). -/
noncomputable def approxEqual (l r tol : ℝ) : Bool := (approxEqualS l r tol globals0).1

/-- The answer of `approx_equal` on matrices. -/
noncomputable def approxEqualM (l r : EMat) (tol : ℝ) : Bool := (approxEqualMS l r tol globals0).1

/-- The answer of `approx_equal` on vectors. -/
noncomputable def approxEqualV (l r : List ℝ) (tol : ℝ) : Bool := approxEqualM (EMat.ofVec l) (EMat.ofVec r) tol

end GSplines.Tools
