import Verif.Model.RoundingSpline

/-!
# Scaling a spline in time with rounding errors: include/gsplines/GSpline.hpp:233-363

As in Verif/Model/Rounding.lean every operation on doubles may be off by `u.1` times the size of its exact result plus `u.2`; `sqrt` and `pow` are such operations.
-/

namespace GSplines.Rounded

open Nd

/-- GSpline.hpp:248-254: the parameter of Basis0101 after time is scaled by `factor`. `pow` of a negative number is not a number. -/
noncomputable def scaledAlpha (u : ℝ × ℝ) (alpha factor : ℝ) : Nd ℝ := do
  let r2 ← near u (√2)
  let k ← near u (r2 / 4)
  let pa ← near u (alpha ^ (1 / 4 : ℝ))
  let k ← near u (k * pa)
  let d ← near u (1 - alpha)
  let pd ← near u (d ^ (1 / 4 : ℝ))
  let k0 ← quot u k pd
  let k ← quot u k0 factor
  let p ← near u (k ^ 4)
  let k4 ← near u (p * 64)
  let n ← near u (1 + k4)
  quot u k4 n

open Classical in
/-- GSpline.hpp:246-263: the basis of the scaled spline. -/
noncomputable def scaledBasis (u : ℝ × ℝ) (b : Basis) (factor : ℝ) : Nd Basis :=
  match b with
  | .b0101 a =>
    if 0 ≤ a ∧ a < 1 then do
      let a' ← scaledAlpha u a factor
      return .b0101 a'
    else lift (.error .notFinite)
  | b => return b

open Classical in
/-- GSpline.hpp:233-264 `linear_scaling_new_execution_time`. -/
noncomputable def linearScaling (u : ℝ × ℝ) (g : GSpline) (newTime : ℝ) : Nd GSpline :=
  if newTime < 1 / 10 ^ 8 then lift (.error .invalidArgument)
  else do
    let len ← near u (g.dom.2 - g.dom.1)
    let factor ← quot u newTime len
    let tau ← (g.tau.map (· * factor)).mapM (near u)
    let stop ← near u (g.dom.1 + newTime)
    let b ← scaledBasis u g.basis factor
    lift (GSpline.make (g.dom.1, stop) g.codim g.nIntervals b g.coeffs tau)

/-- Eigen's `LinSpaced(n, low, high)`: the points are computed from the end with the larger absolute value or from `low`; `high` alone if `n = 1`. -/
noncomputable def linSpaced (u : ℝ × ℝ) (n : ℕ) (low high : ℝ) : Nd (List ℝ) :=
  if n = 1 then return [high]
  else do
    let d ← near u (high - low)
    let step ← quot u d ((n : ℝ) - 1)
    (List.range n).mapM fun i : ℕ =>
      if |high| < |low| then
        if i = 0 then return low
        else do
          let p ← near u (((n : ℝ) - 1 - i) * step)
          near u (high - p)
      else if i + 1 = n then return high
      else do
        let p ← near u ((i : ℝ) * step)
        near u (low + p)

/-- A rounded division; rounding does not turn a quotient that is not negative into a negative number. -/
def quotPos (u : ℝ × ℝ) (x y : ℝ) : Nd ℝ := fun r => quot u x y r ∧ ∀ q, r = .ok q → 0 ≤ x / y → 0 ≤ q

/-- `sqrt`; the root of a negative number is not a number. -/
noncomputable def root (u : ℝ × ℝ) (x : ℝ) : Nd ℝ := if x < 0 then lift (.error .notFinite) else near u (√x)

/-- GSpline.hpp:322-334: the two ratios and their maximum. Absolute values, maxima and comparisons are exact. -/
noncomputable def scaleFactor (u : ℝ × ℝ) (codim : ℕ) (vel acc : List (List ℝ)) (vb ab : List ℝ) : Nd ℝ := do
  let rv ← (List.range codim).mapM fun c => quot u (Tools.maxAbs (GSpline.column vel c)) (vecOf vb c)
  let ra ← (List.range codim).mapM fun c => do
    let x ← quotPos u (Tools.maxAbs (GSpline.column acc c)) (vecOf ab c)
    root u x
  return max (Tools.maxCoeff rv) (Tools.maxCoeff ra)

/-- GSpline.hpp:306-309: the number of segments; the conversion to an integer truncates. -/
noncomputable def segments (u : ℝ × ℝ) (g : GSpline) (dt : ℝ) : Nd ℕ := do
  let len ← near u (g.dom.2 - g.dom.1)
  let q ← quot u len dt
  return ⌊q⌋₊

/-- GSpline.hpp:301-334: the `n + 1` sampled instants, the derivatives there, and the factor. -/
noncomputable def factorAt (u : ℝ × ℝ) (g : GSpline) (vb ab : List ℝ) (n : ℕ) : Nd ℝ := do
  let ts ← linSpaced u (n + 1) g.dom.1 g.dom.2
  let d1 ← deriv u g 1
  let d2 ← deriv u d1 1
  let vel ← ts.mapM (value u d1)
  let acc ← ts.mapM (value u d2)
  if g.codim = 0 then lift (.error .ub) else scaleFactor u g.codim vel acc vb ab

/-- GSpline.hpp:336-362: the spline with time scaled by `factor`. -/
noncomputable def scaleBy (u : ℝ × ℝ) (g : GSpline) (factor : ℝ) : Nd GSpline := do
  let tau ← (g.tau.map (· * factor)).mapM (near u)
  let sum ← Nd.sum u tau
  let stop ← near u (g.dom.1 + sum)
  let b ← scaledBasis u g.basis factor
  lift (GSpline.make (g.dom.1, stop) g.codim g.nIntervals b g.coeffs tau)

/-- GSpline.hpp:284-363 `linear_scaling_new_execution_time_max_velocity_max_acceleration` with both bounds; if one is missing see `GSpline.maxVelAcc`, nothing is computed then. -/
noncomputable def maxVelAcc (u : ℝ × ℝ) (g : GSpline) (vb ab : List ℝ) (dt : ℝ) : Nd GSpline :=
  if dt < 1 / 10 ^ 8 then lift (.error .invalidArgument)
  else if vb.length ≠ g.codim ∨ ab.length ≠ g.codim then lift (.error .invalidArgument)
  else do
    let n ← segments u g dt
    let factor ← factorAt u g vb ab n
    scaleBy u g factor

end GSplines.Rounded
