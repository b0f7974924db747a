import Verif.Model.Own

/-!
# Specification: programs on function expressions as programs on values

A variable holds a function. An operation gives a new function, and does not change the variables that it reads. A variable that is passed as an rvalue must not be used again; it holds no function
afterwards.
-/

namespace GSplines.Spec.Own

open GSplines.Own (Stmt Op)

/-- The functions of the variables; `none`: the variable does not exist, or was moved from. -/
abbrev Env := ℕ → Option Fn

/-- Assignment. -/
def Env.set (E : Env) (x : ℕ) (f : Option Fn) : Env := fun y => if y = x then f else E y

/-- A variable that was passed as an rvalue holds no function. -/
def Env.drop (E : Env) (rv : Bool) (x : ℕ) : Env := if rv then E.set x none else E

/-- The operations on functions. Which operands are rvalues matters for the domain of some results (Fn.lean). -/
noncomputable def opFn : Op → Bool → Bool → Fn → Fn → Res Fn
  | .add, _, _ => Fn.add
  | .sub, _, _ => Fn.sub
  | .mul, rx, ry => Fn.mul ⟨rx, ry⟩
  | .compose, rx, ry => Fn.compose ⟨rx, ry⟩
  | .concat, rx, ry => Fn.concat ⟨rx, ry⟩

/-- A statement. `none`: it uses a variable that holds no function. -/
noncomputable def step (E : Env) : Stmt → Option (Res Env)
  | .new z f => some (.ok (E.set z (some f.wrap)))
  | .init z rv x => do
    let f ← E x
    return .ok ((E.drop rv x).set z (some f))
  | .neg z rv x => do
    let f ← E x
    return .ok ((E.drop rv x).set z (some f.neg))
  | .bin op z rx x ry y => do
    let f ← E x
    let g ← E y
    return (opFn op rx ry f g).map fun h => ((E.drop rx x).drop ry y).set z (some h)
  | .inPlace ty x ry y => do
    let f ← E x
    let g ← E y
    return .ok ((E.drop ry y).set x (some (Fn.inPlace ty f g)))

/-- A program. After `invalid_argument` it goes on with the next statement, and no variable has changed. The result tells which statements threw. -/
noncomputable def run : List Stmt → Env → Option (Res (List Bool × Env))
  | [], E => some (.ok ([], E))
  | s :: p, E =>
    match step E s with
    | none => none
    | some (.ok E') => (run p E').map fun r => r.map fun q => (false :: q.1, q.2)
    | some (.error .invalidArgument) => (run p E).map fun r => r.map fun q => (true :: q.1, q.2)
    | some (.error e) => some (.error e)

/-- No object is passed twice to an operation in a way that it is used after it has been moved from. The second operand of a difference is taken first. -/
def Safe : Stmt → Prop
  | .new _ _ | .init _ _ _ | .neg _ _ _ => True
  | .bin op _ rx x ry y => x ≠ y ∨ (if op = .sub then ry else rx) = false
  | .inPlace _ x _ y => x ≠ y

/-- The variables that a statement may change: the one it defines, and its rvalue operands. -/
def Touches (w : ℕ) : Stmt → Prop
  | .new z _ => w = z
  | .init z rv x => w = z ∨ (rv = true ∧ w = x)
  | .neg z rv x => w = z ∨ (rv = true ∧ w = x)
  | .bin _ z rx x ry y => w = z ∨ (rx = true ∧ w = x) ∨ (ry = true ∧ w = y)
  | .inPlace _ x ry y => w = x ∨ (ry = true ∧ w = y)

end GSplines.Spec.Own
