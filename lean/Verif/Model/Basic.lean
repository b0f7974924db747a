import Mathlib.Data.Real.Basic

/-!
# Outcomes and loops

Shared vocabulary of the model.
-/

namespace GSplines

/-- The ways in which a call of the modelled code can fail to return a value.
* `invalidArgument`, `runtimeError`, `logicError`, `badOptionalAccess`, `typeError`: a C++ (or python) exception;
* `assertFail`: a failing `assert` (the model is the build without `-DNDEBUG`, CMakeLists.txt:6-7);
* `ub`: undefined behaviour (out-of-range access, `front()` of an empty list, mismatching Eigen shapes,
  unsigned wrap-around used as an index);
* `notFinite`: a division by zero; the computation in doubles would go on with an infinity or a NaN. -/
inductive Err where
  | invalidArgument
  | runtimeError
  | logicError
  | badOptionalAccess
  | typeError
  | assertFail
  | ub
  | notFinite
deriving DecidableEq, Repr

/-- Outcome of a call. -/
abbrev Res (α : Type) := Except Err α

/-- A division of doubles. -/
noncomputable def fdiv (x y : ℝ) : Res ℝ := open Classical in if y = 0 then .error .notFinite else .ok (x / y)

/-- `for (i = a; i < b; i++) s = body(i, s);` -/
def forLoop {σ : Type} (a b : ℕ) (body : ℕ → σ → σ) (s : σ) : σ :=
  (List.range' a (b - a)).foldl (fun st i => body i st) s

/-- `for (i = a; i < b; i++) s = body(i, s);` with a body that may fail. -/
def forLoopM {σ : Type} (a b : ℕ) (body : ℕ → σ → Res σ) (s : σ) : Res σ :=
  (List.range' a (b - a)).foldlM (fun st i => body i st) s

/-- The literal `1.0e-9` (BasisLagrange.cpp:130,272, `dom_tollerance_` FunctionBase.cpp:11, GaussLobattoPointsWeights.cpp). -/
noncomputable def tol9 : ℝ := 1 / 10 ^ 9

/-- Writing one entry of a vector: `v(i) = x`. -/
def setAt {α : Type} (v : ℕ → α) (i : ℕ) (x : α) : ℕ → α :=
  fun k => if k = i then x else v k

/-- Writing one entry of a matrix: `m(i, j) = x` (also `coeffRef(i,j) = x` of a sparse matrix). -/
def setAt2 {α : Type} (m : ℕ → ℕ → α) (i j : ℕ) (x : α) : ℕ → ℕ → α :=
  fun a b => if a = i ∧ b = j then x else m a b

end GSplines
