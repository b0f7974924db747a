import Verif.Model.Functionals
import Verif.Model.RoundingGLL
import Verif.Model.RoundingSpline

/-!
# Linear functionals on collocation splines with rounding errors: include/gsplines/Collocation/GaussLobattoLagrangeFunctionals.hpp:46-200

As in `Model/Rounding.lean` each operation on doubles may return any number within an error of the exact result, and the result of a program is a set of outcomes. The matrix of a functional is dense or
sparse: `st i j` says whether entry `(i, j)` is stored, and products leave out the entries that are not. For a dense matrix all are stored.
-/

namespace GSplines.Rounded.Functional

open GSplines Colloc Nd

/-- Which entries of a matrix are stored. -/
abbrev Pattern := ℕ → ℕ → Bool

/-- One entry of a product of Eigen: the products of the entries with indices `js`, added up in any order. -/
def entry (u : ℝ × ℝ) (js : List ℕ) (a b : Vec) : Nd ℝ := dot u (js.map a) (js.map b)

/-- The assignment of a matrix, entry by entry. -/
def fill (m n : ℕ) (f : ℕ → ℕ → Nd ℝ) : Nd Mat := do
  let r ← (List.range m).mapM fun i => (List.range n).mapM (f i)
  return fun i j => vecOf (r.getD i []) j

/-- hpp:138-141 `operator()`: `mat_ * vector`. -/
def apply (u : ℝ × ℝ) (L : LF) (st : Pattern) (v : List ℝ) : Nd (List ℝ) :=
  if v.length ≠ L.cols then lift (.error .ub)
  else (List.range L.rows).mapM fun i => entry u ((List.range L.cols).filter (st i)) (L.mat i) (vecOf v)

/-- hpp:118-121 `operator*(const LinearFunctional&)`. -/
def comp (u : ℝ × ℝ) (A B : LF) (sa sb : Pattern) : Nd LF :=
  if A.cols ≠ B.rows then lift (.error .ub)
  else do
    let m ← fill A.rows B.cols fun i j => entry u ((List.range A.cols).filter fun k => sa i k && sb k j) (A.mat i) (fun k => B.mat k j)
    return ⟨A.rows, B.cols, m⟩

/-- hpp:123-126 `operator+`. An entry that is stored in one operand only is copied, which is a sum without error. -/
def add (u : ℝ × ℝ) (A B : LF) : Nd LF :=
  if A.rows ≠ B.rows ∨ A.cols ≠ B.cols then lift (.error .ub)
  else do
    let m ← fill A.rows A.cols fun i j => near u (A.mat i j + B.mat i j)
    return ⟨A.rows, A.cols, m⟩

/-- hpp:127-130 `operator-`. -/
def sub (u : ℝ × ℝ) (A B : LF) : Nd LF :=
  if A.rows ≠ B.rows ∨ A.cols ≠ B.cols then lift (.error .ub)
  else do
    let m ← fill A.rows A.cols fun i j => near u (A.mat i j - B.mat i j)
    return ⟨A.rows, A.cols, m⟩

/-- hpp:132-136, unary minus, which multiplies by -1. -/
def neg (u : ℝ × ℝ) (A : LF) : Nd LF := do
  let m ← fill A.rows A.cols fun i j => near u (A.mat i j * (-1))
  return ⟨A.rows, A.cols, m⟩

/-- hpp:189-200 `operator*(double, ...)`, both overloads. -/
def smul (u : ℝ × ℝ) (x : ℝ) (A : LF) : Nd LF := do
  let m ← fill A.rows A.cols fun i j => near u (A.mat i j * x)
  return ⟨A.rows, A.cols, m⟩

/-- GaussLobattoLagrangeFunctionals.cpp:58-63, the matrix of `Integral`, with GaussLobattoPointsWeights.cpp:160-179: the weights of each interval, multiplied by the length and divided by two. With zero
intervals the length is not a number, but it is not used. -/
noncomputable def integralMatrix (u : ℝ × ℝ) (dom : ℝ × ℝ) (n m : ℕ) (jp jw : Vec) : Nd LF := do
  let pw ← pointsWeights u n jp jw
  if m = 0 then return ⟨1, n * m, Mat.zero⟩
  else do
    let d ← near u (dom.2 - dom.1)
    let len ← quot u d m
    let r ← fill m n fun _ k => do
      let a ← near u (pw.2 k * len)
      near u (a / 2)
    return ⟨1, n * m, fun _ j => r (j / n) (j % n)⟩

/-- Basis.cpp:199-200, the factor of an interval. The power of order zero is one, whatever the quotient. -/
noncomputable def derivFactor (u : ℝ × ℝ) (order : ℕ) (tau : ℝ) : Nd ℝ :=
  if order = 0 then return 1
  else do
    let q ← quot u 2 tau
    near u (q ^ order)

/-- Basis.cpp:158-218 `gspline_derivative_matrix`, which is the matrix of `Derivative` (GaussLobattoLagrangeFunctionals.cpp:21-53). The blocks are those of a rounded `get_derivative_matrix_block`,
which may have been computed by an earlier call. -/
noncomputable def derivativeMatrix (u : ℝ × ℝ) (b : Basis) (n codim order : ℕ) (tau : List ℝ) : Nd LF :=
  if 1 ≤ codim ∧ 1 ≤ b.dim ∧ tau.length < n then lift (.error .ub)
  else do
    let d ← derivBlock u b order
    let f ← (List.range n).mapM fun i => derivFactor u order (vecOf tau i)
    let m ← fill (n * codim * b.dim) (n * codim * b.dim) fun i j =>
      if i / b.dim = j / b.dim then near u (d (i % b.dim) (j % b.dim) * vecOf f (j / (b.dim * codim))) else return 0
    return ⟨n * codim * b.dim, n * codim * b.dim, m⟩

/-- hpp:257-269, 281-294, 305-318 and 330-355: the entries that `TransposeLeftMultiplication` (`R = 1`) and `MatrixLeftMultiplication` store, which belong to the same interval and the same node. Numbers
are copied into them without rounding. -/
def nodePattern (n R C : ℕ) : Pattern := fun i j => decide (i / n / R = j / n / C ∧ i % n = j % n)

end GSplines.Rounded.Functional
