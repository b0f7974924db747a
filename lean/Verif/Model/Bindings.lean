import Verif.Model.Fn

/-!
# The Python interface of the functions

bindings/bindings.cpp:71-311, 359-367 (the classes and methods of functions that the module `pygsplines` registers) and bindings/pyfunctions.hpp (the classes
through which Python programs derive their own functions).

What pybind11 and Python do with the registered classes is modelled by `mro`, `lookup` and `invoke`: an attribute is looked up along the base classes, the
first class that has the name decides; its overloads are tried in the order of their registration; an argument is accepted by an overload if its class is the class of the
parameter or derived from it (bindings.cpp registers no implicit conversions). If none accepts, `TypeError` is raised: directly, or, for the operators, because neither operand knows the
operation (no reflected operators are registered).
-/

namespace GSplines.Bindings

open GSplines Fn

/-- The classes of functions that are registered, and a class that a Python program derives from `Function`. -/
inductive Cls where
  /-- bindings.cpp:71-98 -/
  | functionBase
  /-- bindings.cpp:100-117 -/
  | gsplineBase
  /-- bindings.cpp:119-186 -/
  | functionExpression
  /-- bindings.cpp:188-274 -/
  | function
  /-- bindings.cpp:276-278 -/
  | exponential
  /-- bindings.cpp:280-282 -/
  | constFunction
  /-- bindings.cpp:284-286 -/
  | cos
  /-- bindings.cpp:288-291 -/
  | domainLinearDilation
  /-- bindings.cpp:293-296 -/
  | identity
  /-- bindings.cpp:298-300 -/
  | sin
  /-- bindings.cpp:302-306 -/
  | canonicPolynomial
  /-- bindings.cpp:308-311 -/
  | dotProduct
  /-- bindings.cpp:359-367 -/
  | gspline
  /-- pyfunctions.hpp:41-62: `class F(Function)`, written in Python, without operators of its own. -/
  | pyFunction
deriving DecidableEq

/-- The base class given to `py::class_` (the lines of `Cls`). In C++ `GSplineBase` is derived from `Function` (GSpline.hpp:22-24), but it is registered as derived
from `FunctionBase`. -/
def Cls.base : Cls → Option Cls
  | .functionBase => none
  | .gsplineBase => some .functionBase
  | .functionExpression => some .functionBase
  | .function => some .functionBase
  | .exponential => some .function
  | .constFunction => some .function
  | .cos => some .function
  | .domainLinearDilation => some .function
  | .identity => some .domainLinearDilation
  | .sin => some .function
  | .canonicPolynomial => some .function
  | .dotProduct => some .function
  | .gspline => some .gsplineBase
  | .pyFunction => some .function

/-- A class and its base classes, at most `k` of them. -/
def Cls.up : ℕ → Cls → List Cls
  | 0, _ => []
  | k + 1, c => c :: match c.base with
    | none => []
    | some b => up k b

/-- A class and all its base classes, in the order of attribute lookup. The longest chain has four classes. -/
def Cls.mro (c : Cls) : List Cls := c.up 4

/-- The names under which the operations are registered: `__add__`, `__sub__`, `__mul__`, `compose`, `concat`, `dot`. -/
inductive Op where
  | add | sub | mul | compose | concat | dot
deriving DecidableEq

/-- An overload of a method with one argument: the class of the argument and what is executed. -/
structure Overload where
  arg : Cls
  exec : Fn → Fn → Res Fn

/-- The overload of a C++ operation that is selected for constant references: a `FunctionExpression` is used as it is; another function is converted to a temporary expression
(FunctionBase.cpp:102-208 for the object, FunctionExpression.cpp:75-80 for the argument). -/
def overloadFor (selfExpr argExpr : Bool) : Ov := ⟨!selfExpr, !argExpr⟩

/-- bindings.cpp: the methods with one argument registered in each class, in the order of registration. -/
noncomputable def methods : Cls → Op → List Overload
  -- bindings.cpp:83-87
  | .functionBase, .dot => [⟨.functionBase, fun f g => dotOp ⟨false, false⟩ f g⟩]
  -- bindings.cpp:90-94: `_other.to_expression()` (FunctionBase.cpp:66-73) wraps the argument, whatever it is
  | .functionBase, .compose => [⟨.functionBase, fun f g => Fn.compose ⟨true, true⟩ f g.wrap⟩]
  -- bindings.cpp:95-98
  | .functionBase, .concat => [⟨.functionBase, fun f g => Fn.concat ⟨true, true⟩ f g.wrap⟩]
  -- bindings.cpp:125-129, 162-166
  | .functionExpression, .concat =>
    [⟨.functionExpression, fun f g => Fn.concat (overloadFor true true) f g⟩, ⟨.function, fun f g => Fn.concat (overloadFor true false) f g⟩]
  -- bindings.cpp:130-134, 167-171
  | .functionExpression, .compose =>
    [⟨.functionExpression, fun f g => Fn.compose (overloadFor true true) f g⟩, ⟨.function, fun f g => Fn.compose (overloadFor true false) f g⟩]
  -- bindings.cpp:135-141, 172-176
  | .functionExpression, .add => [⟨.functionExpression, fun f g => Fn.add f g⟩, ⟨.function, fun f g => Fn.add f g⟩]
  -- bindings.cpp:142-148, 177-181
  | .functionExpression, .sub => [⟨.functionExpression, fun f g => Fn.sub f g⟩, ⟨.function, fun f g => Fn.sub f g⟩]
  -- bindings.cpp:149-155, 182-186
  | .functionExpression, .mul =>
    [⟨.functionExpression, fun f g => Fn.mul (overloadFor true true) f g⟩, ⟨.function, fun f g => Fn.mul (overloadFor true false) f g⟩]
  -- bindings.cpp:199-208
  | .function, .dot => [⟨.functionBase, fun f g => dotOp ⟨false, false⟩ f g⟩, ⟨.function, fun f g => dotOp ⟨false, false⟩ f g⟩]
  -- bindings.cpp:209-213, 244-248
  | .function, .concat =>
    [⟨.functionExpression, fun f g => Fn.concat (overloadFor false true) f g⟩, ⟨.function, fun f g => Fn.concat (overloadFor false false) f g⟩]
  -- bindings.cpp:214-218, 249-253
  | .function, .compose =>
    [⟨.functionExpression, fun f g => Fn.compose (overloadFor false true) f g⟩, ⟨.function, fun f g => Fn.compose (overloadFor false false) f g⟩]
  -- bindings.cpp:219-225, 254-258
  | .function, .add => [⟨.functionExpression, fun f g => Fn.add f g⟩, ⟨.function, fun f g => Fn.add f g⟩]
  -- bindings.cpp:226-232, 259-263
  | .function, .sub => [⟨.functionExpression, fun f g => Fn.sub f g⟩, ⟨.function, fun f g => Fn.sub f g⟩]
  -- bindings.cpp:233-239, 264-268
  | .function, .mul =>
    [⟨.functionExpression, fun f g => Fn.mul (overloadFor false true) f g⟩, ⟨.function, fun f g => Fn.mul (overloadFor false false) f g⟩]
  | _, _ => []

/-- bindings.cpp:156-161, 240-243 `__neg__`. -/
def negMethod : Cls → Option (Fn → Fn)
  | .functionExpression => some Fn.neg
  | .function => some Fn.neg
  | _ => none

/-- bindings.cpp:123-124, 269-274, 365 `deriv`: `derivate` of `FunctionInheritanceHelper` (FunctionInheritanceHelper.hpp:36-38: a copy of what `deriv` returns) for expressions and
splines; the other functions are converted to an expression, which is derived. -/
noncomputable def derivMethod : Cls → Option (Fn → ℕ → Res Fn)
  | .functionExpression => some fun f n => f.deriv n
  | .function => some fun f n => f.toExpr.deriv n
  | .gspline => some fun f n => f.deriv n
  | _ => none

/-- The class of the Python object that holds a function. A function of a C++ class that is not registered does not reach Python, so `user` stands for an object of a
class written in Python. -/
def classOf : Fn → Cls
  | .const _ _ => .constFunction
  | .dil _ _ => .domainLinearDilation
  | .ident _ => .identity
  | .exp _ => .exponential
  | .cos _ => .cos
  | .sin _ => .sin
  | .poly _ _ => .canonicPolynomial
  | .user _ _ _ => .pyFunction
  | .gspl _ => .gspline
  | .dot _ _ _ => .dotProduct
  | .expr _ _ _ _ => .functionExpression

/-- The values of a Python program: functions, and all other values that do not define operations with functions themselves (numbers, strings, lists). -/
inductive Obj where
  | fn (f : Fn)
  | other

/-- Is the object of a class written in Python? -/
def scripted : Fn → Bool
  | .user _ _ _ => true
  | _ => false

/-- Attribute lookup: the overloads in the first class that has the name. -/
noncomputable def lookup (c : Cls) (op : Op) : List Overload := ((c.mro.map fun k => methods k op).find? fun l => !l.isEmpty).getD []

/-- `f + g`, `f.concat(g)` and so on, in Python. Every operation copies its operands into the result (FunctionBase::clone, FunctionBase.hpp:54-56). For an object written in Python, `clone_impl` (pyfunctions.hpp:49-51)
returns the address of an object that belongs to Python, and `unique_ptr` takes it as its own: it is used after it was freed, or freed twice. -/
noncomputable def invoke (op : Op) (a b : Obj) : Res Obj :=
  match a, b with
  | .fn f, .fn g =>
    match (lookup (classOf f) op).find? fun o => (classOf g).mro.contains o.arg with
    | none => .error .typeError
    | some o => if scripted f ∨ scripted g then .error .ub else do return .fn (← o.exec f g)
  | _, _ => .error .typeError

/-- `-f` in Python. -/
def invokeNeg : Obj → Res Obj
  | .fn f =>
    match (classOf f).mro.findSome? negMethod with
    | none => .error .typeError
    | some m => if scripted f then .error .ub else .ok (.fn (m f))
  | .other => .error .typeError

/-- `f.deriv(n)` in Python. -/
noncomputable def invokeDeriv (a : Obj) (n : ℕ) : Res Obj :=
  match a with
  | .fn f =>
    match (classOf f).mro.findSome? derivMethod with
    | none => .error .typeError
    | some m => if scripted f then .error .ub else do return .fn (← m f n)
  | .other => .error .typeError

/-- bindings.cpp:77, 192 `__call__`. Evaluating a function written in Python only calls its `value_impl` (pyfunctions.hpp:44-47). -/
noncomputable def invokeCall (a : Obj) (ts : List ℝ) : Res Rows :=
  match a with
  | .fn f => f.call ts
  | .other => .error .typeError

/-! ## Programs -/

/-- An expression of a Python program: objects, operators and methods, in any nesting. -/
inductive Prog where
  | obj (o : Obj)
  | op (o : Op) (a b : Prog)
  | neg (a : Prog)
  | deriv (a : Prog) (n : ℕ)

/-- The value of an expression. -/
noncomputable def Prog.eval : Prog → Res Obj
  | .obj o => .ok o
  | .op o a b => do
    let x ← a.eval
    let y ← b.eval
    invoke o x y
  | .neg a => do invokeNeg (← a.eval)
  | .deriv a n => do invokeDeriv (← a.eval) n

end GSplines.Bindings
