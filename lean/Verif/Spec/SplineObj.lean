import Verif.Model.SplineObj
import Verif.Spec.GSpline
import Verif.Spec.Colloc

/-!
# Specification: programs on splines as programs on values

A variable holds a spline, a value. An operation reads the values of its operands, gives a new value and changes no variable but the one that it defines. A variable that is passed as an rvalue must not be used again;
it holds no value afterwards. An operation that throws changes nothing.
-/

namespace GSplines.Spec.SplineObj

open GSplines.SplineObj (Stmt)

/-- The values of the variables; `none`: the variable does not exist, or was moved from. -/
abbrev Env := ℕ → Option GSpline

/-- Assignment. -/
def Env.set (E : Env) (x : ℕ) (g : Option GSpline) : Env := fun y => if y = x then g else E y

/-- A variable that was passed as an rvalue holds no value. -/
def Env.drop (E : Env) (rv : Bool) (x : ℕ) : Env := if rv then E.set x none else E

/-- The sum or the difference: that of the coefficients. The basis, the lengths and the domain are those of the left operand, unless only the right one is an rvalue. -/
noncomputable def sum (minus rx ry : Bool) (a b : GSpline) : Res GSpline :=
  if a.sameVectorSpace b then
    .ok { (if rx = false ∧ ry = true then b else a) with coeffs := List.zipWith (fun u v => if minus then u - v else u + v) a.coeffs b.coeffs }
  else .error .invalidArgument

/-- A vector valued spline times a scalar one, node by node: coefficient `i` belongs to the interval `i / (dim * codim)` and to the node `i % dim` of it. -/
noncomputable def scale (v s : GSpline) : GSpline :=
  { v with coeffs := (List.range v.coeffs.length).map fun i => v.coeffs.getD i 0 * s.coeffs.getD (i / (v.basis.dim * v.codim) * v.basis.dim + i % v.basis.dim) 0 }

open Classical in
/-- The product of collocation splines. -/
noncomputable def prod (a b : GSpline) : Res GSpline :=
  if a.basis.dim = b.basis.dim ∧ a.tau.length = b.tau.length ∧ CloseBound a.dom.1 b.dom.1 ∧ CloseBound a.dom.2 b.dom.2 ∧ (a.codim = 1 ∨ b.codim = 1) then
    .ok (if b.codim = 1 then scale a b else scale b a)
  else .error .invalidArgument

/-- What `x = y` makes of the value `a` of `x` if `y` holds `b`. -/
noncomputable def assigned (a b : GSpline) : Res GSpline :=
  if a.basis.dim = b.basis.dim ∧ a.tau.length = b.tau.length ∧ a.codim = b.codim then .ok { a with dom := b.dom, coeffs := b.coeffs } else .error .invalidArgument

/-- A statement. `none`: it uses a variable that holds no value, or it constructs a spline with a reversed domain or with a number of intervals that is not the number of lengths. -/
noncomputable def step (E : Env) : Stmt → Option (Res Env)
  | .new z dom codim n b co tau =>
    if dom.1 ≤ dom.2 ∧ n = tau.length then
      some (if co.length = n * b.dim * codim then .ok (E.set z (some ⟨dom, codim, b, co, tau⟩)) else .error .invalidArgument)
    else none
  | .init z rv x => do
    let g ← E x
    return .ok ((E.drop rv x).set z (some g))
  | .bin minus z rx x ry y => do
    let a ← E x
    let b ← E y
    return (sum minus rx ry a b).map fun r => ((E.drop rx x).drop ry y).set z (some r)
  | .inPlace minus x y => do
    let a ← E x
    let b ← E y
    return (sum minus true false a b).map fun r => E.set x (some r)
  | .smul z k rv x => do
    let g ← E x
    return .ok ((E.drop rv x).set z (some { g with coeffs := g.coeffs.map (· * k) }))
  | .neg z rv x => do
    let g ← E x
    return .ok ((E.drop rv x).set z (some { g with coeffs := g.coeffs.map (- ·) }))
  | .mul z rx x ry y => do
    let a ← E x
    let b ← E y
    return (prod a b).map fun r => ((E.drop rx x).drop ry y).set z (some r)
  | .assign x ry y => do
    let a ← E x
    let b ← E y
    return (if ry = true ∧ x = y then .error .invalidArgument else (assigned a b).map fun r => (E.drop ry y).set x (some r))

/-- A program. After `invalid_argument` it goes on with the next statement, and no variable has changed. The result tells which statements threw. -/
noncomputable def run : List Stmt → Env → Option (List Bool × Env)
  | [], E => some ([], E)
  | s :: p, E =>
    match step E s with
    | some (.ok E') => (run p E').map fun q => (false :: q.1, q.2)
    | some (.error _) => (run p E).map fun q => (true :: q.1, q.2)
    | none => none

/-- The variables that a statement may change: the one it defines, and its rvalue operands. -/
def Touches (w : ℕ) : Stmt → Prop
  | .new z _ _ _ _ _ _ => w = z
  | .init z rv x | .smul z _ rv x | .neg z rv x => w = z ∨ (rv = true ∧ w = x)
  | .bin _ z rx x ry y | .mul z rx x ry y => w = z ∨ (rx = true ∧ w = x) ∨ (ry = true ∧ w = y)
  | .inPlace _ x _ => w = x
  | .assign x ry y => w = x ∨ (ry = true ∧ w = y)

end GSplines.Spec.SplineObj
