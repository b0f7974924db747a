import Verif.Model.Bindings
import Verif.Spec.Fn

/-!
# Specification of the Python interface of the functions

What the operators and methods of Python are expected to do: the same as the C++ operation, applied to named variables.
-/

namespace GSplines.Spec.Bindings

open GSplines Fn GSplines.Bindings

/-- A spline. -/
def IsSpline (f : Fn) : Prop := ∃ g, f = .gspl g

/-- A function of a class written in Python. -/
def IsScripted (f : Fn) : Prop := ∃ d c F, f = .user d c F

/-- Any other function: elementary functions, dot products, expressions. -/
def Plain (f : Fn) : Prop := ¬ IsSpline f ∧ ¬ IsScripted f

/-- An object of the class `FunctionExpression`. -/
def isExpr : Fn → Bool
  | .expr _ _ _ _ => true
  | _ => false

/-- The overload that C++ selects for two named variables: an operand that is not a `FunctionExpression` is converted to a temporary one. -/
def named (f g : Fn) : Ov := ⟨!isExpr f, !isExpr g⟩

/-- The C++ operation, applied to two named variables. -/
noncomputable def cpp (op : Op) (f g : Fn) : Res Fn :=
  match op with
  | .add => Fn.add f g
  | .sub => Fn.sub f g
  | .mul => Fn.mul (named f g) f g
  | .compose => Fn.compose (named f g) f g
  | .concat => Fn.concat (named f g) f g
  | .dot => Fn.dotOp ⟨false, false⟩ f g

/-- The derivative in C++, of a named variable: `f.deriv(n)` of an expression, `f.derivate(n)` of another function. -/
noncomputable def cppDeriv (f : Fn) (n : ℕ) : Res Fn := if isExpr f then f.deriv n else f.derivate n

/-- The same program in C++, with a named variable for each intermediate result. -/
noncomputable def meaning : Prog → Res Fn
  | .obj (.fn f) => .ok f
  | .obj .other => .error .typeError
  | .op o a b => do
    let x ← meaning a
    let y ← meaning b
    cpp o x y
  | .neg a => do return Fn.neg (← meaning a)
  | .deriv a n => do cppDeriv (← meaning a) n

/-- All objects that occur in the program are plain functions. -/
def PlainProg : Prog → Prop
  | .obj (.fn f) => Plain f
  | .obj .other => False
  | .op _ a b => PlainProg a ∧ PlainProg b
  | .neg a => PlainProg a
  | .deriv a _ => PlainProg a

/-- The combinations of operands for which Python raises `TypeError`. -/
def Refused (op : Op) (f : Fn) : Obj → Prop
  | .other => True
  | .fn g =>
    match op with
    | .add | .sub | .mul => IsSpline f ∨ IsSpline g
    | .compose | .concat => IsSpline g ∧ ¬ IsSpline f
    | .dot => False

end GSplines.Spec.Bindings
