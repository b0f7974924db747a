import Verif.Model.Colloc

/-!
# Splines as objects

GSpline.lean and Colloc.lean treat splines as values. Here they are the objects of a program. The overloads for rvalues compute in the memory of an operand and return what they move out of it, so that it can be seen what
an operation does to its operands and what happens if an object appears twice in an operation.
-/

namespace GSplines.SplineObj

/-- A variable. The move constructor, GSpline.cpp:35-40, takes the coefficients, the lengths and the basis of an object. Simplification: an object that was moved from has no contents here, and using it is an
outcome of its own. -/
inductive Cell where
  | live (g : GSpline)
  | moved

/-- The objects of a program, by name. -/
abbrev Store := ℕ → Option Cell

/-- How an operation can end without a result. -/
inductive Stop where
  /-- an exception, a failed assertion or undefined behaviour -/
  | thrown (e : Err)
  /-- an object that was moved from is used -/
  | movedFrom
  /-- there is no object of this name -/
  | noObject

/-- A computation on the objects. If it stops, the objects are left as they are at that moment. -/
def M (α : Type) := Store → Except Stop α × Store

instance : Monad M where
  pure a := fun σ => (.ok a, σ)
  bind m f := fun σ =>
    match m σ with
    | (.ok a, σ') => f a σ'
    | (.error e, σ') => (.error e, σ')

/-- Stopping. -/
def stop {α : Type} (e : Stop) : M α := fun σ => (.error e, σ)

/-- A computation that does not touch the objects. -/
def lift {α : Type} (r : Res α) : M α := fun σ =>
  match r with
  | .ok a => (.ok a, σ)
  | .error e => (.error (.thrown e), σ)

/-- Reading the object of a name. -/
def get (x : ℕ) : M GSpline := fun σ =>
  match σ x with
  | some (.live g) => (.ok g, σ)
  | some .moved => (.error .movedFrom, σ)
  | none => (.error .noObject, σ)

/-- The objects after writing the one with the name `x`. -/
def update (σ : Store) (x : ℕ) (c : Cell) : Store := fun y => if y = x then some c else σ y

/-- Writing the object of a name. -/
def put (x : ℕ) (g : GSpline) : M Unit := fun σ => (.ok (), update σ x (.live g))

/-- Taking the contents of an object. -/
def clear (x : ℕ) : M Unit := fun σ => (.ok (), update σ x .moved)

/-- GSpline.cpp:35-40, the move constructor. -/
def take (x : ℕ) : M GSpline := do
  let g ← get x
  clear x
  return g

/-- GSpline.cpp:15-33 and 35-40: a new object made from `x`. -/
def newFrom (rv : Bool) (x : ℕ) : M GSpline :=
  if rv then take x
  else do
    let g ← get x
    lift g.copy

/-- A loop `for (i = 0; i < n; i++)`. -/
def each : ℕ → (ℕ → M Unit) → M Unit
  | 0, _ => pure ()
  | n + 1, body => do
    each n body
    body n

/-- `x.coefficients_[i]`. -/
def coeff (x i : ℕ) : M ℝ := do
  let g ← get x
  lift (rd g.coeffs i)

/-- `x.coefficients_[i] = v`. -/
def setCoeff (x i : ℕ) (v : ℝ) : M Unit := do
  let g ← get x
  if i < g.coeffs.length then put x { g with coeffs := g.coeffs.set i v } else stop (.thrown .ub)

/-- `target.coefficients_ = x.coefficients_ op y.coefficients_` of Eigen, one entry after the other; `target` is `x` or `y`. The sizes must agree. -/
def zipInto (f : ℝ → ℝ → ℝ) (target x y : ℕ) : M Unit := do
  let a ← get x
  let b ← get y
  if a.coeffs.length ≠ b.coeffs.length then stop (.thrown .ub)
  else each a.coeffs.length fun i => do
    let u ← coeff x i
    let v ← coeff y i
    setCoeff target i (f u v)

/-- `x.coefficients_ *= k`. -/
def scaleInto (k : ℝ) (x : ℕ) : M Unit := do
  let a ← get x
  each a.coeffs.length fun i => do
    let u ← coeff x i
    setCoeff x i (u * k)

/-- The sum or the difference of two numbers. -/
def num (minus : Bool) (u v : ℝ) : ℝ := if minus then u - v else u + v

/-- GSpline.hpp:150-181 `operator+` and 183-214 `operator-`, the four overloads: `rx`, `ry` say which operand is an rvalue. -/
noncomputable def bin (minus rx ry : Bool) (x y : ℕ) : M GSpline := do
  let a ← get x
  let b ← get y
  if a.sameVectorSpace b = false then stop (.thrown .invalidArgument)
  else if rx then do
    zipInto (num minus) x x y
    take x
  else if ry then do
    zipInto (num minus) y x y
    take y
  else do
    let r ← lift a.copy
    let c ← lift (zipRes (num minus) r.coeffs b.coeffs)
    return { r with coeffs := c }

/-- GSpline.hpp:216-222 `operator+=` and 224-231 `operator-=`. -/
noncomputable def inPlace (minus : Bool) (x y : ℕ) : M Unit := do
  let a ← get x
  let b ← get y
  if a.sameVectorSpace b = false then stop (.thrown .invalidArgument)
  else zipInto (num minus) x x y

/-- GSpline.cpp:203-213, GaussLobattoLagrange.cpp:359-377: `k * x` and `x * k`. -/
def smul (k : ℝ) (rv : Bool) (x : ℕ) : M GSpline :=
  if rv then do
    scaleInto k x
    take x
  else do
    let g ← get x
    lift (g.smul k)

/-- GSpline.cpp:214-222, GaussLobattoLagrange.cpp:378-388: `-x`. -/
def neg (rv : Bool) (x : ℕ) : M GSpline := smul (-1) rv x

/-- GaussLobattoLagrange.cpp:270-275, 304-309, 342-349: the blocks of the vector `v` are multiplied, in its memory, by the first column of the blocks of the scalar `s`. -/
def mulInto (v s : ℕ) : M Unit := do
  let a ← get v
  let b ← get s
  each a.nIntervals fun iv =>
    each (a.basis.dim * a.codim) fun y => do
      let u ← coeff v (iv * (a.basis.dim * a.codim) + y)
      let w ← coeff s (iv * (b.basis.dim * b.codim) + y % a.basis.dim)
      setCoeff v (iv * (a.basis.dim * a.codim) + y) (u * w)

open Classical in
/-- GaussLobattoLagrange.cpp:223-358 `operator*` of two collocation splines, the four overloads. The test whether the vector is the rvalue operand compares addresses; if an object is multiplied by itself, both operands have the
same one. -/
noncomputable def mul (rx ry : Bool) (x y : ℕ) : M GSpline := do
  let a ← get x
  let b ← get y
  if ¬ Colloc.sameDisc a b then stop (.thrown .invalidArgument)
  else if ¬ Colloc.sameDomain a b then stop (.thrown .invalidArgument)
  else if ¬ (a.codim = 1 ∨ b.codim = 1) then stop (.thrown .invalidArgument)
  else
    let scalar := if b.codim = 1 then y else x
    let vector := if b.codim ≠ 1 then y else x
    if (rx = true ∧ vector = x) ∨ (ry = true ∧ vector = y) then do
      mulInto vector scalar
      take vector
    else lift (Colloc.mul false false a b)

/-- GaussLobattoLagrange.cpp:60-86 `operator=` of collocation splines. The argument loses its coefficients if it is an rvalue. -/
noncomputable def assign (x : ℕ) (ry : Bool) (y : ℕ) : M Unit := do
  if ry = true ∧ x = y then stop (.thrown .invalidArgument)
  else do
    let a ← get x
    let b ← get y
    let r ← lift (Colloc.assign a b)
    if ry then do
      let _ ← take y
      put x r
    else put x r

/-! ## programs -/

/-- One statement. `rv`, `rx`, `ry` say that an operand is passed as an rvalue, `std::move(x)`. The last two exist for collocation splines only. -/
inductive Stmt where
  /-- `GSpline z(dom, codim, n, b, co, tau)` -/
  | new (z : ℕ) (dom : ℝ × ℝ) (codim n : ℕ) (b : Basis) (co tau : List ℝ)
  /-- `GSpline z(x)` or `GSpline z(std::move(x))` -/
  | init (z : ℕ) (rv : Bool) (x : ℕ)
  /-- `auto z = x + y` or `auto z = x - y` -/
  | bin (minus : Bool) (z : ℕ) (rx : Bool) (x : ℕ) (ry : Bool) (y : ℕ)
  /-- `x += y` or `x -= y` -/
  | inPlace (minus : Bool) (x y : ℕ)
  /-- `auto z = k * x` or `auto z = x * k` -/
  | smul (z : ℕ) (k : ℝ) (rv : Bool) (x : ℕ)
  /-- `auto z = -x` -/
  | neg (z : ℕ) (rv : Bool) (x : ℕ)
  /-- `auto z = x * y` -/
  | mul (z : ℕ) (rx : Bool) (x : ℕ) (ry : Bool) (y : ℕ)
  /-- `x = y` -/
  | assign (x : ℕ) (ry : Bool) (y : ℕ)

/-- One statement. The result becomes the object of its name. -/
noncomputable def Stmt.run : Stmt → M Unit
  | .new z dom codim n b co tau => do put z (← lift (GSpline.make dom codim n b co tau))
  | .init z rv x => do put z (← newFrom rv x)
  | .bin minus z rx x ry y => do put z (← SplineObj.bin minus rx ry x y)
  | .inPlace minus x y => SplineObj.inPlace minus x y
  | .smul z k rv x => do put z (← SplineObj.smul k rv x)
  | .neg z rv x => do put z (← SplineObj.neg rv x)
  | .mul z rx x ry y => do put z (← SplineObj.mul rx ry x y)
  | .assign x ry y => SplineObj.assign x ry y

/-- A program: `std::invalid_argument` is caught after every statement, and the program goes on with the objects as the statement left them. The result is, for every statement, whether it threw. -/
noncomputable def run : List Stmt → M (List Bool)
  | [] => pure []
  | s :: p => fun σ =>
    match s.run σ with
    | (.ok _, σ') => (do return false :: (← run p)) σ'
    | (.error (.thrown .invalidArgument), σ') => (do return true :: (← run p)) σ'
    | (.error e, σ') => (.error e, σ')

/-! ## evaluation -/

/-- `x(t)`, GSpline.cpp:91-113, at one point. -/
noncomputable def eval (σ : Store) (x : ℕ) (t : ℝ) : Except Stop (Res (List ℝ)) :=
  match σ x with
  | none => .error .noObject
  | some .moved => .error .movedFrom
  | some (.live g) => .ok (g.value t)

end GSplines.SplineObj
