import Verif.Model.Basis
import Verif.Model.Mat
import Mathlib.Algebra.Order.Floor.Ring
import Mathlib.Algebra.BigOperators.Group.List.Basic

/-!
# include/gsplines/GSpline.hpp, src/GSpline.cpp

Sizes are natural numbers (`std::size_t` without overflow, except where the code computes `0 - 1`).
Names and the mutable `basis_buffer_` (overwritten before each read) are dropped.
-/

namespace GSplines

/-- GSpline.hpp:28-33 and FunctionBase.hpp:18-20: the data of a `GSpline`. -/
structure GSpline where
  /-- `get_domain()`, FunctionBase.hpp:20 -/
  dom : ℝ × ℝ
  /-- `get_codom_dim()`, FunctionBase.hpp:18 -/
  codim : ℕ
  /-- `basis_`, GSpline.hpp:32 -/
  basis : Basis
  /-- `coefficients_`, GSpline.hpp:29 -/
  coeffs : List ℝ
  /-- `domain_interval_lengths_`, GSpline.hpp:30 -/
  tau : List ℝ

/-- `v += w`, `v -= w` of Eigen on vectors (the sizes must agree). -/
def zipRes (f : ℝ → ℝ → ℝ) (a b : List ℝ) : Res (List ℝ) :=
  if a.length = b.length then .ok (List.zipWith f a b) else .error .ub

namespace GSpline

/-- GSpline.hpp:76-78 `get_number_of_intervals`. -/
abbrev nIntervals (g : GSpline) : ℕ := g.tau.length

/-- FunctionBase.hpp:50-52 `get_domain_length`. -/
def domainLength (g : GSpline) : ℝ := g.dom.2 - g.dom.1

/-- GSpline.cpp:42-65 and 67-89, the constructors (FunctionBase.cpp:13-18 asserts that the domain is not reversed). The argument
`nInt` is only used in the check. -/
noncomputable def make (dom : ℝ × ℝ) (codim nInt : ℕ) (b : Basis) (coeffs tau : List ℝ) : Res GSpline :=
  if dom.1 ≤ dom.2 then
    if coeffs.length ≠ nInt * b.dim * codim then .error .invalidArgument
    else .ok ⟨dom, codim, b, coeffs, tau⟩
  else .error .assertFail

/-- GSpline.cpp:15-33, the copy constructor. -/
def copy (g : GSpline) : Res GSpline :=
  if g.coeffs.length ≠ g.nIntervals * g.basis.dim * g.codim then .error .invalidArgument else .ok g

/-- GSpline.cpp:122-129, the loop of `get_interval`: `i` is the index of the head of the list. -/
noncomputable def scan (t : ℝ) : ℕ → ℝ → List ℝ → Option ℕ
  | _, _, [] => none
  | i, left, x :: xs => if left < t ∧ t ≤ left + x then some i else scan t (i + 1) (left + x) xs

/-- GSpline.cpp:115-131 `get_interval`; without intervals the last line wraps around. -/
noncomputable def getInterval (g : GSpline) (t : ℝ) : ℕ :=
  if t ≤ g.dom.1 then 0
  else
    match scan t 0 g.dom.1 g.tau with
    | some i => i
    | none => if g.nIntervals = 0 then 2 ^ 64 - 1 else g.nIntervals - 1

/-- GSpline.cpp:149-159 `interval_to_window`. -/
noncomputable def intervalToWindow (g : GSpline) (t : ℝ) (i : ℕ) : Res ℝ := do
  let pre ← segment g.tau 0 i
  let tau ← rd g.tau i
  let q ← fdiv (2 * (t - (g.dom.1 + pre.sum))) tau
  return q - 1

/-- GSpline.cpp:133-147 `coefficient_segment`. -/
def coefficientSegment (g : GSpline) (i c : ℕ) : Res (List ℝ) :=
  segment g.coeffs (i * g.basis.dim * g.codim + g.basis.dim * c) g.basis.dim

/-- GSpline.cpp:102-112, `value_impl` at one point: the row of the result. -/
noncomputable def value (g : GSpline) (t : ℝ) : Res (List ℝ) := do
  let i := g.getInterval t
  let s ← g.intervalToWindow t i
  let tau ← rd g.tau i
  let buf ← g.basis.evalOnWindow s tau
  (List.range g.codim).mapM fun c => do
    let seg ← g.coefficientSegment i c
    return Vec.dot g.basis.dim (vecOf seg) buf

/-- GSpline.cpp:91-113 `value_impl`: one row per domain point. -/
noncomputable def values (g : GSpline) (ts : List ℝ) : Res (List (List ℝ)) := ts.mapM g.value

/-- GSpline.hpp:121-130: the scale of the derivative, with the special case of Basis0101 (`dynamic_cast`). -/
noncomputable def derivScale (b : Basis) (tau : ℝ) (deg : ℕ) : ℝ :=
  match b with
  | .b0101 _ => if deg = 0 then 0 else 1
  | _ => (2 / tau) ^ deg

/-- GSpline.hpp:132-134: `segment(i0, dim) = D * segment(i0, dim) * scale`; the product is evaluated before it is stored. -/
noncomputable def derivSegment (b : Basis) (deg i0 : ℕ) (scale : ℝ) (v : Vec) : Vec := fun x =>
  if i0 ≤ x ∧ x < i0 + b.dim then (b.derivBlock deg).mulVec b.dim (fun k => v (i0 + k)) (x - i0) * scale else v x

/-- GSpline.hpp:114-137: the loops over intervals and components. -/
noncomputable def derivCoeffs (g : GSpline) (deg : ℕ) : Vec :=
  forLoop 0 g.nIntervals (fun i v =>
    forLoop 0 g.codim (fun c v =>
      derivSegment g.basis deg (i * g.basis.dim * g.codim + g.basis.dim * c) (derivScale g.basis (vecOf g.tau i) deg) v) v) (vecOf g.coeffs)

/-- GSpline.hpp:128-129: the loops divide by an interval length that is zero. -/
def derivDividesByZero (g : GSpline) : Prop :=
  (match g.basis with
    | .b0101 _ => False
    | _ => True) ∧ 0 < g.codim ∧ 0 < g.basis.dim ∧ 0 ∈ g.tau

open Classical in
/-- GSpline.hpp:108-143 `deriv_impl`. The loops read and write the first `n * dim * codim` coefficients. -/
noncomputable def deriv (g : GSpline) (deg : ℕ) : Res GSpline :=
  if 0 < deg then
    if g.coeffs.length < g.nIntervals * g.basis.dim * g.codim then .error .ub
    else if g.derivDividesByZero then .error .notFinite
    else make g.dom g.codim g.nIntervals g.basis ((List.range g.coeffs.length).map (g.derivCoeffs deg)) g.tau
  else make g.dom g.codim g.nIntervals g.basis g.coeffs g.tau

/-- FunctionInheritanceHelper.hpp:36-38 `derivate`: a copy of `*deriv(deg)`. -/
noncomputable def derivate (g : GSpline) (deg : ℕ) : Res GSpline := do
  let d ← g.deriv deg
  d.copy

/-- Tools.cpp:46-54 `approx_equal(GSplineBase, GSplineBase, tol)`. -/
noncomputable def approxEqual (a b : GSpline) (tol : ℝ) : Bool :=
  Tools.approxEqualV a.coeffs b.coeffs tol && Tools.approxEqualV a.tau b.tau tol && a.basis.beq b.basis

/-- GSpline.cpp:161-163 `operator==`. -/
noncomputable def beq (a b : GSpline) : Bool := approxEqual a b (1 / 10 ^ 7)

/-- GSpline.cpp:164-166 `operator!=`. -/
noncomputable def bne (a b : GSpline) : Bool := !(a.beq b)

/-- Tools.cpp:77-79 `approx_zero(GSplineBase, tol)`. -/
noncomputable def approxZero (a : GSpline) (tol : ℝ) : Bool := (Tools.approxZeroMS (.ofVec a.coeffs) tol Tools.globals0).1

/-- GSpline.cpp:179-188 `get_domain_breakpoints`. -/
def breakpoints (g : GSpline) : List ℝ := g.tau.scanl (· + ·) g.dom.1

/-- GSpline.cpp:190-194 `get_waypoints`. -/
noncomputable def waypoints (g : GSpline) : Res (List (List ℝ)) := g.values g.breakpoints

/-- GSpline.cpp:196-201 `same_vector_space`. -/
noncomputable def sameVectorSpace (a b : GSpline) : Bool :=
  a.basis.beq b.basis && a.codim == b.codim && Tools.approxEqualV a.tau b.tau (1 / 10 ^ 8)

/-- GSpline.hpp:150-157 `operator+(const Current&) const&`. -/
noncomputable def add (a b : GSpline) : Res GSpline :=
  if a.sameVectorSpace b then do
    let r ← a.copy
    let c ← zipRes (· + ·) r.coeffs b.coeffs
    return { r with coeffs := c }
  else .error .invalidArgument

/-- GSpline.hpp:159-165 `operator+(Current&&) const&`: the result is the second operand, modified. -/
noncomputable def addToThat (a b : GSpline) : Res GSpline :=
  if a.sameVectorSpace b then do
    let c ← zipRes (· + ·) b.coeffs a.coeffs
    return { b with coeffs := c }
  else .error .invalidArgument

/-- GSpline.hpp:167-181 `operator+(...) &&` (both overloads) and 216-222 `operator+=`: the left operand, modified. -/
noncomputable def addInPlace (a b : GSpline) : Res GSpline :=
  if a.sameVectorSpace b then do
    let c ← zipRes (· + ·) a.coeffs b.coeffs
    return { a with coeffs := c }
  else .error .invalidArgument

/-- GSpline.hpp:183-190 `operator-(const Current&) const&` (the result is converted from `GSplineBase`). -/
noncomputable def sub (a b : GSpline) : Res GSpline :=
  if a.sameVectorSpace b then do
    let r ← a.copy
    let c ← zipRes (· - ·) r.coeffs b.coeffs
    return { r with coeffs := c }
  else .error .invalidArgument

/-- GSpline.hpp:192-198 `operator-(Current&&) const&`. -/
noncomputable def subToThat (a b : GSpline) : Res GSpline :=
  if a.sameVectorSpace b then do
    let c ← zipRes (· - ·) a.coeffs b.coeffs
    return { b with coeffs := c }
  else .error .invalidArgument

/-- GSpline.hpp:200-214 `operator-(...) &&` and 224-231 `operator-=`. -/
noncomputable def subInPlace (a b : GSpline) : Res GSpline :=
  if a.sameVectorSpace b then do
    let c ← zipRes (· - ·) a.coeffs b.coeffs
    return { a with coeffs := c }
  else .error .invalidArgument

/-- GSpline.cpp:203-207 and 212 `a * g`, `g * a` (copies). -/
def smul (a : ℝ) (g : GSpline) : Res GSpline := do
  let r ← g.copy
  return { r with coeffs := r.coeffs.map (· * a) }

/-- GSpline.cpp:208-211 and 213, the rvalue overloads. -/
def smulInPlace (a : ℝ) (g : GSpline) : GSpline := { g with coeffs := g.coeffs.map (· * a) }

/-- GSpline.cpp:214-218 unary minus. -/
def neg (g : GSpline) : Res GSpline := do
  let r ← g.copy
  return { r with coeffs := r.coeffs.map (· * (-1)) }

/-- GSpline.cpp:219-222, the rvalue overload. -/
def negInPlace (g : GSpline) : GSpline := { g with coeffs := g.coeffs.map (· * (-1)) }

/-- GSpline.hpp:248-254 (also 344-352): the parameter of Basis0101 after time is scaled by `factor`. -/
noncomputable def scaledAlpha (alpha factor : ℝ) : ℝ :=
  let k0 := √2 / 4 * alpha ^ (1 / 4 : ℝ) / (1 - alpha) ^ (1 / 4 : ℝ)
  let k := k0 / factor
  let k4 := k ^ 4 * 64
  k4 / (1 + k4)

/-- GSpline.hpp:247-263 (also 343-362): the basis of the scaled spline. -/
noncomputable def scaledBasis (b : Basis) (factor : ℝ) : Basis :=
  match b with
  | .b0101 a => .b0101 (scaledAlpha a factor)
  | _ => b

/-- GSpline.hpp:248-254 compute numbers: the parameter is in `[0, 1)` and the factor is not zero. -/
def ScalingFinite (b : Basis) (factor : ℝ) : Prop :=
  match b with
  | .b0101 a => 0 ≤ a ∧ a < 1 ∧ factor ≠ 0
  | _ => True

open Classical in
/-- GSpline.hpp:233-264 `linear_scaling_new_execution_time`. -/
noncomputable def linearScaling (g : GSpline) (newTime : ℝ) : Res GSpline :=
  if newTime < 1 / 10 ^ 8 then .error .invalidArgument
  else if g.domainLength = 0 ∨ ¬ ScalingFinite g.basis (newTime / g.domainLength) then .error .notFinite
  else
    let factor := newTime / g.domainLength
    make (g.dom.1, g.dom.1 + newTime) g.codim g.nIntervals (scaledBasis g.basis factor) g.coeffs (g.tau.map (· * factor))

/-- Eigen's `LinSpaced(n, low, high)`: `n` equally spaced points, `high` alone if `n = 1`. -/
noncomputable def linSpaced (n : ℕ) (low high : ℝ) : List ℝ :=
  (List.range n).map fun i : ℕ => if n = 1 then high else low + (i : ℝ) * ((high - low) / ((n : ℝ) - 1))

/-- Column `c` of a matrix given by its rows. -/
def column (m : List (List ℝ)) (c : ℕ) : List ℝ := m.map fun r => r.getD c 0

/-- GSpline.hpp:322-334: the two ratios and their maximum. -/
noncomputable def scaleFactor (codim : ℕ) (vel acc : List (List ℝ)) (vb ab : List ℝ) : ℝ :=
  max (Tools.maxCoeff ((List.range codim).map fun c => Tools.maxAbs (column vel c) / vecOf vb c))
    (Tools.maxCoeff ((List.range codim).map fun c => √(Tools.maxAbs (column acc c) / vecOf ab c)))

/-- GSpline.hpp:322-334 compute numbers: no bound is zero, and the roots are of numbers that are not negative. -/
def RatiosFinite (codim : ℕ) (acc : List (List ℝ)) (vb ab : List ℝ) : Prop :=
  ∀ c < codim, vecOf vb c ≠ 0 ∧ vecOf ab c ≠ 0 ∧ 0 ≤ Tools.maxAbs (column acc c) / vecOf ab c

/-- GSpline.hpp:301-305: the sampled instants. -/
noncomputable def samples (g : GSpline) (dt : ℝ) : List ℝ := linSpaced (⌊g.domainLength / dt⌋₊ + 1) g.dom.1 g.dom.2

open Classical in
/-- GSpline.hpp:284-363 `linear_scaling_new_execution_time_max_velocity_max_acceleration`, with vectors of bounds. The derivatives are
wrapped in expressions of type UNIQUE, which evaluate to the value of their only element. `maxCoeff` of nothing is an assertion of Eigen. -/
noncomputable def maxVelAcc (g : GSpline) (vb ab : Option (List ℝ)) (dt : ℝ) : Res GSpline :=
  if vb.isNone ∧ ab.isNone then .error .invalidArgument
  else if dt < 1 / 10 ^ 8 then .error .invalidArgument
  else
    match vb, ab with
    | some vb, some ab =>
      if vb.length ≠ g.codim ∨ ab.length ≠ g.codim then .error .invalidArgument
      else do
        let d1 ← g.derivate 1
        let d2 ← d1.derivate 1
        let vel ← d1.values (g.samples dt)
        let acc ← d2.values (g.samples dt)
        if g.codim = 0 then .error .ub
        else if ¬ RatiosFinite g.codim acc vb ab ∨ ¬ ScalingFinite g.basis (scaleFactor g.codim vel acc vb ab) then .error .notFinite
        else
          let factor := scaleFactor g.codim vel acc vb ab
          let tau := g.tau.map (· * factor)
          make (g.dom.1, g.dom.1 + tau.sum) g.codim g.nIntervals (scaledBasis g.basis factor) g.coeffs tau
    | none, some _ => .error .badOptionalAccess
    | some vb, none => if vb.length ≠ g.codim then .error .invalidArgument else .error .badOptionalAccess
    | none, none => .error .invalidArgument

/-- GSpline.hpp:266-282, the overload with scalar bounds. -/
noncomputable def maxVelAccScalar (g : GSpline) (vb ab : Option ℝ) (dt : ℝ) : Res GSpline :=
  g.maxVelAcc (vb.map fun v => List.replicate g.codim v) (ab.map fun a => List.replicate g.codim a) dt

end GSpline

end GSplines
