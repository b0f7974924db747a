import Verif.Model.Interp

/-!
# Numbers that are not finite: src/GSpline.cpp, `eval_on_window` of the three bases, src/Tools.cpp and the checks of include/gsplines/GSpline.hpp, src/Interpolator.cpp

The other modules compute with real numbers, and an operation without a finite result is an error there. Here a double is a finite number, an infinity or not a
number, with the rules of IEEE 754. Simplifications: finite numbers are exact (no rounding, no overflow), and a zero has no sign (a number divided by zero is
infinite with the sign of the number).
-/

namespace GSplines

/-- A double. -/
inductive Dbl where
  | nan
  /-- an infinity; the flag says that it is the negative one -/
  | inf (neg : Bool)
  | fin (x : ℝ)

namespace Dbl

/-- IEEE addition. -/
def add : Dbl → Dbl → Dbl
  | nan, _ => nan
  | _, nan => nan
  | fin x, fin y => fin (x + y)
  | fin _, inf b => inf b
  | inf a, fin _ => inf a
  | inf a, inf b => if a = b then inf a else nan

/-- IEEE negation. -/
def neg : Dbl → Dbl
  | nan => nan
  | inf a => inf (!a)
  | fin x => fin (-x)

/-- IEEE subtraction. -/
def sub (x y : Dbl) : Dbl := add x (neg y)

open Classical in
/-- IEEE multiplication. -/
noncomputable def mul : Dbl → Dbl → Dbl
  | nan, _ => nan
  | _, nan => nan
  | fin x, fin y => fin (x * y)
  | fin x, inf b => if x = 0 then nan else inf (b ^^ decide (x < 0))
  | inf a, fin y => if y = 0 then nan else inf (a ^^ decide (y < 0))
  | inf a, inf b => inf (a ^^ b)

open Classical in
/-- IEEE division. -/
noncomputable def div : Dbl → Dbl → Dbl
  | nan, _ => nan
  | _, nan => nan
  | fin x, fin y => if y = 0 then (if x = 0 then nan else inf (decide (x < 0))) else fin (x / y)
  | fin _, inf _ => fin 0
  | inf a, fin y => inf (a ^^ decide (y < 0))
  | inf _, inf _ => nan

instance : Add Dbl := ⟨add⟩
instance : Neg Dbl := ⟨neg⟩
instance : Sub Dbl := ⟨sub⟩
noncomputable instance : Mul Dbl := ⟨mul⟩
noncomputable instance : Div Dbl := ⟨div⟩

/-- `x < y`; false if one of them is not a number. -/
def lt : Dbl → Dbl → Prop
  | fin x, fin y => x < y
  | fin _, inf b => b = false
  | inf a, fin _ => a = true
  | inf a, inf b => a = true ∧ b = false
  | _, _ => False

/-- `x <= y`; false if one of them is not a number. -/
def le : Dbl → Dbl → Prop
  | fin x, fin y => x ≤ y
  | fin _, inf b => b = false
  | inf a, fin _ => a = true
  | inf a, inf b => a = true ∨ b = false
  | _, _ => False

instance : LT Dbl := ⟨lt⟩
instance : LE Dbl := ⟨le⟩

/-- `std::fabs`. -/
def abs : Dbl → Dbl
  | nan => nan
  | inf _ => inf false
  | fin x => fin |x|

/-- `std::exp`. -/
noncomputable def exp : Dbl → Dbl
  | nan => nan
  | inf a => if a then fin 0 else inf false
  | fin x => fin (Real.exp x)

/-- `std::cos`; of an infinity not a number. -/
noncomputable def cos : Dbl → Dbl
  | fin x => fin (Real.cos x)
  | _ => nan

/-- `std::sin`; of an infinity not a number. -/
noncomputable def sin : Dbl → Dbl
  | fin x => fin (Real.sin x)
  | _ => nan

open Classical in
/-- `std::pow(x, 0.25)`: not a number if `x` is negative and finite, and `+∞` for both infinities. -/
noncomputable def root4 : Dbl → Dbl
  | nan => nan
  | inf _ => inf false
  | fin x => if x < 0 then nan else fin (x ^ (1 / 4 : ℝ))

/-- `std::pow(x, 4)`. -/
def pow4 : Dbl → Dbl
  | nan => nan
  | inf _ => inf false
  | fin x => fin (x ^ 4)

/-- Eigen `sum()`; the order does not matter (`Special.add_assoc`, `Special.add_comm`). -/
def sum (l : List Dbl) : Dbl := l.foldr (· + ·) (fin 0)

/-- The scalar product of GSpline.cpp:109-110. -/
noncomputable def dot (a b : List Dbl) : Dbl := sum (List.zipWith (· * ·) a b)

/-- Reading `v(i)`; out of range is undefined behaviour. -/
def rd (l : List Dbl) (i : ℕ) : Res Dbl :=
  match l[i]? with
  | some x => .ok x
  | none => .error .ub

/-- Eigen `v.segment(i0, n)`. -/
def segment (l : List Dbl) (i0 n : ℕ) : Res (List Dbl) := if i0 + n ≤ l.length then .ok ((l.drop i0).take n) else .error .ub

/-- The conversion of a double to `std::size_t`: truncation; undefined behaviour if the result does not fit. -/
noncomputable def toSize : Dbl → Res ℕ
  | fin x => open Classical in if -1 < x ∧ x < 2 ^ 64 then .ok ⌊x⌋₊ else .error .ub
  | _ => .error .ub

end Dbl

/-- The three classes of bases, with parameters that are doubles. -/
inductive DBasis where
  | legendre (dim : ℕ)
  | lagrange (x : List Dbl)
  | b0101 (alpha : Dbl)

namespace Special

open Dbl

/-- Entry `i` of a vector. -/
def vecD (l : List Dbl) : ℕ → Dbl := fun i => l.getD i (fin 0)

/-- BasisLegendre.cpp:95-99, one step of the three term recurrence. -/
noncomputable def recBody (s : Dbl) (i : ℕ) (b : ℕ → Dbl) : ℕ → Dbl :=
  setAt b (i + 1) (fin 1 / (fin i + fin 1) * ((fin 2 * fin i + fin 1) * s * b i - fin i * b (i - 1)))

/-- BasisLegendre.cpp:89-100 `eval_on_window`. -/
noncomputable def legendre (dim : ℕ) (s : Dbl) : Res (ℕ → Dbl) :=
  if dim < 2 then .error .ub else .ok (forLoop 1 (dim - 1) (recBody s) (setAt (setAt (fun _ => fin 0) 0 (fin 1)) 1 s))

open Classical in
/-- BasisLagrange.cpp:20-29 `almost_equal`. -/
noncomputable def almostEqual (a b eps : Dbl) : Bool :=
  if abs a < eps ∨ abs b < eps then decide (abs (a - b) < eps)
  else decide (abs (a - b) < eps * abs a ∧ abs (a - b) < eps * abs b)

/-- BasisLagrange.cpp:178-184, the two nested loops of `barycentric_weights`. -/
noncomputable def baryProducts (n : ℕ) (x : ℕ → Dbl) : ℕ → Dbl :=
  forLoop 1 n (fun j r =>
    forLoop 0 j (fun k r =>
      let r1 := setAt r k (r k * (x k - x j))
      setAt r1 j (r1 j * (x j - x k))) r) (fun _ => fin 1)

/-- BasisLagrange.cpp:170-189 `barycentric_weights`. -/
noncomputable def baryWeights (n : ℕ) (x : ℕ → Dbl) : ℕ → Dbl := fun k => fin 1 / baryProducts n x k

/-- BasisLagrange.cpp:134-143: barycentric formula, `(buffer, s_book)`. -/
noncomputable def baryLoop (n : ℕ) (x : ℕ → Dbl) (s : Dbl) : (ℕ → Dbl) × Dbl :=
  forLoop 0 n (fun j (st : (ℕ → Dbl) × Dbl) =>
    let t := baryWeights n x j / (s - x j)
    (setAt st.1 j t, st.2 + t)) ((fun _ => fin 0), fin 0)

/-- BasisLagrange.cpp:121-144 `eval_on_window`. -/
noncomputable def lagrange (n : ℕ) (x : ℕ → Dbl) (s : Dbl) : ℕ → Dbl :=
  match (List.range n).find? (fun j => almostEqual s (x j) (fin tol9)) with
  | some j => setAt (fun _ => fin 0) j (fin 1)
  | none =>
    let st := baryLoop n x s
    fun j => st.1 j / st.2

/-- Basis0101.cpp:38-40 (also GSpline.hpp:249-251): the frequency. -/
noncomputable def kOf (alpha : Dbl) : Dbl := fin (√2) / fin 4 * root4 alpha / root4 (fin 1 - alpha)

/-- Basis0101.cpp:35-51 `eval_on_window`. -/
noncomputable def b0101 (alpha s tau : Dbl) : ℕ → Dbl :=
  let p := tau * kOf alpha * s
  fun i => match i with
    | 0 => exp p * cos p
    | 1 => exp p * sin p
    | 2 => cos p / exp p
    | 3 => sin p / exp p
    | 4 => p
    | 5 => fin 1
    | _ => fin 0

end Special

namespace DBasis

/-- Basis.hpp:97 `get_dim`. -/
def dim : DBasis → ℕ
  | legendre d => d
  | lagrange x => x.length
  | b0101 _ => 6

/-- `eval_on_window` of each class. -/
noncomputable def evalOnWindow (b : DBasis) (s tau : Dbl) : Res (ℕ → Dbl) :=
  match b with
  | legendre d => Special.legendre d s
  | lagrange x => .ok (Special.lagrange x.length (Special.vecD x) s)
  | b0101 a => .ok (Special.b0101 a s tau)

end DBasis

/-- GSpline.hpp:28-33 and FunctionBase.hpp:18-20: the data of a `GSpline`. -/
structure DSpline where
  dom : Dbl × Dbl
  codim : ℕ
  basis : DBasis
  coeffs : List Dbl
  tau : List Dbl

namespace DSpline

open Dbl

open Classical in
/-- GSpline.cpp:42-89, the constructors. `asserts` says that the build has assertions (no `-DNDEBUG`, CMakeLists.txt:6); FunctionBase.cpp:13-18 asserts that the
domain is not reversed. -/
noncomputable def make (asserts : Bool) (dom : Dbl × Dbl) (codim nInt : ℕ) (b : DBasis) (coeffs tau : List Dbl) : Res DSpline :=
  if asserts = true ∧ ¬ dom.1 ≤ dom.2 then .error .assertFail
  else if coeffs.length ≠ nInt * b.dim * codim then .error .invalidArgument
  else .ok ⟨dom, codim, b, coeffs, tau⟩

open Classical in
/-- GSpline.cpp:122-129, the loop of `get_interval`: `i` is the index of the head of the list. -/
noncomputable def scan (t : Dbl) : ℕ → Dbl → List Dbl → Option ℕ
  | _, _, [] => none
  | i, left, x :: xs => if left < t ∧ t ≤ left + x then some i else scan t (i + 1) (left + x) xs

open Classical in
/-- GSpline.cpp:115-131 `get_interval`; without intervals the last line wraps around. -/
noncomputable def getInterval (g : DSpline) (t : Dbl) : ℕ :=
  if t ≤ g.dom.1 then 0
  else
    match scan t 0 g.dom.1 g.tau with
    | some i => i
    | none => if g.tau.length = 0 then 2 ^ 64 - 1 else g.tau.length - 1

/-- GSpline.cpp:149-159 `interval_to_window`. -/
noncomputable def intervalToWindow (g : DSpline) (t : Dbl) (i : ℕ) : Res Dbl := do
  let pre ← Dbl.segment g.tau 0 i
  let tau ← Dbl.rd g.tau i
  return fin 2 * (t - (g.dom.1 + sum pre)) / tau - fin 1

/-- GSpline.cpp:133-147 `coefficient_segment`. -/
def coefficientSegment (g : DSpline) (i c : ℕ) : Res (List Dbl) :=
  Dbl.segment g.coeffs (i * g.basis.dim * g.codim + g.basis.dim * c) g.basis.dim

/-- GSpline.cpp:102-112, `value_impl` at one point: the row of the result. -/
noncomputable def value (g : DSpline) (t : Dbl) : Res (List Dbl) := do
  let i := g.getInterval t
  let s ← g.intervalToWindow t i
  let tau ← Dbl.rd g.tau i
  let buf ← g.basis.evalOnWindow s tau
  (List.range g.codim).mapM fun c => do
    let seg ← g.coefficientSegment i c
    return dot seg ((List.range g.basis.dim).map buf)

/-- GSpline.hpp:247-259: the basis of the scaled spline, with the special case of Basis0101 (`dynamic_cast`). -/
noncomputable def scaledBasis (b : DBasis) (factor : Dbl) : DBasis :=
  match b with
  | .b0101 a =>
    let k := Special.kOf a / factor
    let k4 := pow4 k * fin 64
    .b0101 (k4 / (fin 1 + k4))
  | b => b

open Classical in
/-- GSpline.hpp:233-264 `linear_scaling_new_execution_time`. -/
noncomputable def linearScaling (asserts : Bool) (g : DSpline) (newTime : Dbl) : Res DSpline :=
  if newTime < fin (1 / 10 ^ 8) then .error .invalidArgument
  else
    let factor := newTime / (g.dom.2 - g.dom.1)
    make asserts (g.dom.1, g.dom.1 + newTime) g.codim g.tau.length (scaledBasis g.basis factor) g.coeffs (g.tau.map (· * factor))

open Classical in
/-- GSpline.hpp:292-301, the step of `linear_scaling_new_execution_time_max_velocity_max_acceleration` that turns the sampling period into a number of segments. -/
noncomputable def numberOfSegments (g : DSpline) (dt : Dbl) : Res ℕ :=
  if dt < fin (1 / 10 ^ 8) then .error .invalidArgument else toSize ((g.dom.2 - g.dom.1) / dt)

open Classical in
/-- Interpolator.cpp:156-165 `interpolate` and the check of `solve_interpolation`, Interpolator.cpp:350. The vector `sol` is what `solve_interpolation` returns if the
check is passed; it is arbitrary here (Interp.lean models how it is computed from finite numbers). -/
noncomputable def interpolate (asserts : Bool) (codim n : ℕ) (b : DBasis) (tau sol : List Dbl) : Res DSpline :=
  if ∃ x ∈ tau, x < fin (1 / 10 ^ 6) then .error .invalidArgument
  else make asserts (fin 0, sum tau) codim n b sol tau

end DSpline

namespace Special

open Dbl

open Classical in
/-- Tools.cpp:8-21 `approx_equal(double, double, tol)`, without the two global variables. -/
noncomputable def approxEqual (l r tol : Dbl) : Bool :=
  let err := abs (l - r)
  if abs l < tol ∨ abs r < tol then decide (err < tol)
  else decide (err < abs l * tol ∧ err < abs r * tol)

/-- A permitted result of Eigen's `maxCoeff()`: the greatest entry; if an entry is not a number, any entry (Eigen leaves it open which). -/
def MaxCoeff (l : List Dbl) (m : Dbl) : Prop := m ∈ l ∧ (nan ∈ l ∨ ∀ x ∈ l, x ≤ m)

open Classical in
/-- Tools.cpp:23-44 `approx_equal(MatrixXd, MatrixXd, tol)` on vectors: the permitted answers. -/
def ApproxEqual (l r : List Dbl) (tol : Dbl) (ans : Bool) : Prop :=
  if l.length ≠ r.length then ans = false
  else if l.length = 0 then ans = true
  else ∃ err lm rm, MaxCoeff ((List.zipWith (· - ·) l r).map abs) err ∧ MaxCoeff (l.map abs) lm ∧ MaxCoeff (r.map abs) rm ∧
    ans = if lm < tol ∨ rm < tol then decide (err < tol) else decide (err / lm < tol ∧ err / rm < tol)

end Special

end GSplines
