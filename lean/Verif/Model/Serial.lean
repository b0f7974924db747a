import Verif.Model.GSpline

/-!
# Serialization of bases and splines to python dictionaries

python/gsplines/serialization.py. Python values are trees. The python bindings (bindings/bindings.cpp, pybind11) convert arguments: a conversion that fails raises
`TypeError`. The conversion of a list to an Eigen vector is done by pybind11 and numpy and is a parameter (`Convert`).
-/

namespace GSplines.Serial

open GSplines

/-- Python values. `other` is a value of any type that is not listed. -/
inductive PyVal where
  | none
  | bool (b : Bool)
  | int (n : ℤ)
  | float (x : ℝ)
  | str (s : String)
  | list (l : List PyVal)
  | dict (d : List (String × PyVal))
  | other

/-- The types that serialization.py asks for. -/
inductive PyType where
  | str
  | int
  | float
  | list
  | dict
deriving DecidableEq

/-- `isinstance(v, T)`. A `bool` is an instance of `int`; `typing.List` and `typing.Dict` stand for `list` and `dict`. -/
def isinstance : PyVal → PyType → Bool
  | .str _, .str => true
  | .int _, .int => true
  | .bool _, .int => true
  | .float _, .float => true
  | .list _, .list => true
  | .dict _, .dict => true
  | _, _ => false

/-- `_dict.get(key)`: `None` if there is no such key. -/
def get (d : List (String × PyVal)) (key : String) : PyVal := (d.lookup key).getD .none

/-- serialization.py:16-20, 43-53: the loop over `required_keys`. -/
def check (d : List (String × PyVal)) : List (String × PyType) → Res Unit
  | [] => .ok ()
  | (key, t) :: rest => if isinstance (get d key) t then check d rest else .error .typeError

/-- The conversion of an argument to `std::size_t` by pybind11: negative numbers and numbers that do not fit are refused. -/
def toSize : PyVal → Res ℕ
  | .int n => if 0 ≤ n ∧ n < 2 ^ 64 then .ok n.toNat else .error .typeError
  | .bool b => .ok b.toNat
  | _ => .error .typeError

/-- The conversion of an argument to `double` by pybind11. -/
noncomputable def toDouble : PyVal → Res ℝ
  | .float x => .ok x
  | .int n => .ok n
  | .bool b => .ok (if b then 1 else 0)
  | _ => .error .typeError

/-- The conversion to `std::string`. -/
def toStr : PyVal → Res String
  | .str s => .ok s
  | _ => .error .typeError

/-- The conversion of a `list` to `std::vector<double>` by pybind11, element by element. -/
noncomputable def toVector : PyVal → Res (List ℝ)
  | .list l => l.mapM toDouble
  | _ => .error .typeError

/-- The conversion of a `list` to `Eigen::Ref<const Eigen::VectorXd>` by pybind11 through numpy. -/
abbrev Convert := List PyVal → Res (List ℝ)

/-- What is assumed of it: a list of floats is converted to these numbers, and a list that cannot be converted raises `TypeError`. -/
structure ConvertContract (conv : Convert) : Prop where
  floats : ∀ l : List ℝ, conv (l.map .float) = .ok l
  fails : ∀ l e, conv l = .error e → e = .typeError

/-- An argument of type `Eigen::Ref<const Eigen::VectorXd>`. -/
def toEigen (conv : Convert) : PyVal → Res (List ℝ)
  | .list l => conv l
  | _ => .error .typeError

/-- A `dict` argument of a python function: any other value has no method `get`; only called with a checked value. -/
def toDict : PyVal → Res (List (String × PyVal))
  | .dict d => .ok d
  | _ => .error .typeError

/-- serialization.py:7-12 `basis_to_dict`. -/
noncomputable def basisToDict (b : Basis) : List (String × PyVal) :=
  [("name", .str b.name), ("dim", .int b.dim), ("parameters", .list (b.params.map .float))]

/-- serialization.py:15-22 `dict_to_basis`; bindings.cpp:59-66 `get_basis` (the object made by Basis.cpp:23-43 is moved into the result). -/
noncomputable def dictToBasis (d : List (String × PyVal)) : Res Basis := do
  check d [("name", .str), ("dim", .int), ("parameters", .list)]
  let name ← toStr (get d "name")
  let dim ← toSize (get d "dim")
  let params ← toVector (get d "parameters")
  Basis.getBasis name dim params

/-- serialization.py:25-39 `gspline_to_dict`; `get_basis` of the bindings is a clone (bindings.cpp:115-117). -/
noncomputable def gsplineToDict (g : GSpline) : List (String × PyVal) :=
  [("domain_left_boundary", .float g.dom.1), ("domain_right_boundary", .float g.dom.2), ("codom_dim", .int g.codim),
    ("number_of_intervals", .int g.nIntervals), ("basis", .dict (basisToDict g.basis)), ("coefficients", .list (g.coeffs.map .float)),
    ("interval_lengths", .list (g.tau.map .float))]

/-- serialization.py:42-63 `dict_to_gspline`; the constructor of bindings.cpp:359-364. -/
noncomputable def dictToGspline (conv : Convert) (d : List (String × PyVal)) : Res GSpline := do
  check d [("domain_left_boundary", .float), ("domain_right_boundary", .float), ("codom_dim", .int), ("number_of_intervals", .int), ("basis", .dict),
    ("coefficients", .list), ("interval_lengths", .list)]
  let bd ← toDict (get d "basis")
  let basis ← dictToBasis bd
  let left ← toDouble (get d "domain_left_boundary")
  let right ← toDouble (get d "domain_right_boundary")
  let codim ← toSize (get d "codom_dim")
  let n ← toSize (get d "number_of_intervals")
  let coeffs ← toEigen conv (get d "coefficients")
  let tau ← toEigen conv (get d "interval_lengths")
  GSpline.make (left, right) codim n basis coeffs tau

end GSplines.Serial
