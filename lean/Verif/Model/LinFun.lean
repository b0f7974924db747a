import Verif.Model.Functionals

/-!
# include/gsplines/Collocation/GaussLobattoLagrangeFunctionals.hpp:14-200: programs on linear functionals

Model/Functionals.lean gives what each operation computes from its operands. Here the functionals are objects with a storage type and with the member `codom_dim_`, and a program is a list of statements that construct, combine and
replace them. Sums and products of types that Eigen does not combine are a distinct outcome: such a program is rejected by the compiler.
-/

namespace GSplines.LinFun

open GSplines Colloc

/-- The template argument of `LinearFunctional` (hpp:46): `Eigen::MatrixXd`, `Eigen::SparseMatrix<double>` or `Eigen::SparseMatrix<double, Eigen::RowMajor>` (hpp:202-204, 418-419). -/
inductive Kind
  | dense
  | sparse
  | sparseRow
  deriving DecidableEq

/-- hpp:14-17, 46-56: an object: its type, the member `codom_dim_` of `Functional` and the member `mat_`. -/
structure Obj where
  kind : Kind
  codim : ℕ
  lf : LF

/-- The named objects. -/
abbrev Store := ℕ → Option Obj

/-- How a statement ends, if not well: the program is not accepted by the compiler, it has undefined behaviour, or it throws `std::runtime_error`. -/
inductive Stop
  | rejected
  | ub
  | runtimeError
  deriving DecidableEq

/-- hpp:57-61, the constructors from a matrix: `codom_dim_` is its number of rows. -/
def make (k : Kind) (L : LF) : Obj := ⟨k, L.rows, L⟩

/-- hpp:63-68, copy construction, and hpp:181-184 `differential`, which copies the object: the number is that of the object, not that of the matrix. -/
def copy (a : Obj) : Obj := ⟨a.kind, a.codim, a.lf⟩

/-- Whether an expression with operands of types `k` and `l` can be converted to type `k`: a dense result of a sparse and a dense operand is not converted to a sparse matrix. -/
def Kind.accepts : Kind → Kind → Bool
  | .dense, _ => true
  | .sparse, .dense => false
  | .sparseRow, .dense => false
  | _, _ => true

/-- Eigen adds sparse matrices of the same storage order only. -/
def Kind.addable : Kind → Kind → Bool
  | .sparse, .sparseRow => false
  | .sparseRow, .sparse => false
  | k, l => k.accepts l

/-- A result of `Model/Functionals.lean` as an outcome of a statement: products and sums of matrices that do not fit are undefined. -/
def lift (k : Kind) : Res LF → Except Stop Obj
  | .ok L => .ok (make k L)
  | .error _ => .error .ub

/-- hpp:118-121 `operator*`. Inside the class the name `LinearFunctional` is that of the type of the left operand. -/
def mul (a b : Obj) : Except Stop Obj := if a.kind.accepts b.kind then lift a.kind (a.lf.comp b.lf) else .error .rejected

/-- hpp:123-126 `operator+`. -/
def add (a b : Obj) : Except Stop Obj := if a.kind.addable b.kind then lift a.kind (a.lf.add b.lf) else .error .rejected

/-- hpp:127-130 `operator-`. -/
def sub (a b : Obj) : Except Stop Obj := if a.kind.addable b.kind then lift a.kind (a.lf.sub b.lf) else .error .rejected

/-- hpp:132-136, unary minus: a copy, changed in place. -/
def neg (a : Obj) : Obj := { copy a with lf := a.lf.neg }

/-- hpp:188-193 `operator*(double, const LinearFunctional&)`: a copy, changed in place. -/
def smul (x : ℝ) (a : Obj) : Obj := { copy a with lf := LF.smul x a.lf }

/-- hpp:157-179 `to_dense_matrix` (`dense = true`) and `to_sparse_matrix`, and a functional constructed from the result. `sparseView()` with its default arguments leaves out zeros only. -/
def convert (dense : Bool) (a : Obj) : Obj := make (if dense then .dense else .sparse) a.lf

/-- hpp:75-96, 98-116 `set`, both overloads: the matrix is replaced, the member `codom_dim_` is not. A dense matrix is not stored in a sparse functional: the branch for that case repeats the condition of the branch before it. -/
def replace (a b : Obj) : Except Stop Obj :=
  if a.kind = b.kind then .ok { a with lf := b.lf }
  else if a.kind ≠ .dense ∧ b.kind ≠ .dense then .ok { a with lf := b.lf }
  else if a.kind = .dense ∧ b.kind ≠ .dense then .ok { a with lf := b.lf }
  else .error .runtimeError

/-- A statement; the first argument names the object that is defined or changed. -/
inductive Stmt
  /-- `LinearFunctional<T> z(matrix);` -/
  | new (z : ℕ) (k : Kind) (L : LF)
  /-- `auto z(x);` or the object behind `x.differential(...)`. -/
  | copy (z x : ℕ)
  /-- `auto z = x * y;` -/
  | mul (z x y : ℕ)
  /-- `auto z = x + y;` -/
  | add (z x y : ℕ)
  /-- `auto z = x - y;` -/
  | sub (z x y : ℕ)
  /-- `auto z = -x;` -/
  | neg (z x : ℕ)
  /-- `auto z = k * x;` -/
  | smul (z : ℕ) (k : ℝ) (x : ℕ)
  /-- `LinearFunctionalDense z(x.to_dense_matrix());` or `LinearFunctionalSparse z(x.to_sparse_matrix());` -/
  | convert (z : ℕ) (dense : Bool) (x : ℕ)
  /-- `k * std::move(x);`, hpp:195-199: `x` is changed in place and the result is a reference to it. -/
  | scale (x : ℕ) (k : ℝ)
  /-- `x.set(y);` or `x.set(std::move(y));` -/
  | set (x y : ℕ)

/-- The object with a name; a name that was not defined is an error of the compiler. -/
def Store.get (σ : Store) (x : ℕ) : Except Stop Obj :=
  match σ x with
  | some a => .ok a
  | none => .error .rejected

/-- A store with an object added or changed. -/
def Store.put (σ : Store) (x : ℕ) (a : Obj) : Store := fun y => if y = x then some a else σ y

/-- The effect of a statement, from the operators above. -/
def Stmt.run (σ : Store) : Stmt → Except Stop Store
  | .new z k L => .ok (σ.put z (make k L))
  | .copy z x => do return σ.put z (LinFun.copy (← σ.get x))
  | .mul z x y => do return σ.put z (← LinFun.mul (← σ.get x) (← σ.get y))
  | .add z x y => do return σ.put z (← LinFun.add (← σ.get x) (← σ.get y))
  | .sub z x y => do return σ.put z (← LinFun.sub (← σ.get x) (← σ.get y))
  | .neg z x => do return σ.put z (LinFun.neg (← σ.get x))
  | .smul z k x => do return σ.put z (LinFun.smul k (← σ.get x))
  | .convert z dense x => do return σ.put z (LinFun.convert dense (← σ.get x))
  | .scale x k => do
    let a ← σ.get x
    return σ.put x { a with lf := LF.smul k a.lf }
  | .set x y => do return σ.put x (← replace (← σ.get x) (← σ.get y))

/-- A program: after an exception it goes on with the next statement. -/
def run : List Stmt → Store → Except Stop Store
  | [], σ => .ok σ
  | s :: p, σ =>
    match s.run σ with
    | .ok σ' => run p σ'
    | .error .runtimeError => run p σ
    | .error e => .error e

/-- hpp:138-141 `operator()`: the value of the functional named `x` on a spline with these coefficients. -/
def call (σ : Store) (x : ℕ) (v : List ℝ) : Except Stop (List ℝ) := do
  let a ← σ.get x
  match a.lf.apply v with
  | .ok w => .ok w
  | .error _ => .error .ub

/-- hpp:28 `get_codom_dim()`. -/
def codomDim (σ : Store) (x : ℕ) : Except Stop ℕ := do
  let a ← σ.get x
  return a.codim

end GSplines.LinFun
