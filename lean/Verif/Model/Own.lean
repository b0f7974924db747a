import Verif.Model.Fn

/-!
# Function expressions as objects with pointers

Fn.lean treats function expressions as values. Here they are objects that own their elements through `std::unique_ptr` (FunctionExpression.hpp:35), and the
operations of src/Functions copy these elements or move them out of rvalue operands, one after the other, so that it can be seen what an operation does to its operands
and what happens if an object appears twice in an operation. A `unique_ptr` is the only pointer to its object; therefore a pointer is represented by the
object it owns.
-/

namespace GSplines

/-- A `std::unique_ptr<FunctionBase>`: empty, or the owner of an object. `leaf` is an object of any class but `FunctionExpression`. -/
inductive Ptr where
  | null
  | leaf (f : Fn)
  | expr (dom : ℝ × ℝ) (codim : ℕ) (ty : Ty) (arr : List Ptr)

namespace Own

/-- FunctionExpression.hpp:35 `function_array_`, 49 `type_` and FunctionBase.hpp:18-21: the data of a `FunctionExpression`. -/
structure Obj where
  dom : ℝ × ℝ
  codim : ℕ
  ty : Ty
  arr : List Ptr

/-- The objects of a program, by name. -/
abbrev Store := ℕ → Option Obj

/-- How an operation can end without a result. -/
inductive Stop where
  /-- an exception or a failed assertion -/
  | thrown (e : Err)
  /-- an empty pointer is dereferenced -/
  | nullDeref
  /-- a loop does not end -/
  | endless
  /-- there is no object of this name -/
  | noObject

/-- A `FunctionExpression` that is owned by a pointer. -/
def Obj.ptr (o : Obj) : Ptr := .expr o.dom o.codim o.ty o.arr

/-- A computation on the objects. If it stops, the objects are left as they are at that moment. -/
def M (α : Type) := Store → Except Stop α × Store

instance : Monad M where
  pure a := fun σ => (.ok a, σ)
  bind m f := fun σ =>
    match m σ with
    | (.ok a, σ') => f a σ'
    | (.error e, σ') => (.error e, σ')

/-- Stopping. -/
def stop {α : Type} (e : Stop) : M α := fun σ => (.error e, σ)

/-- A computation that does not touch the objects. -/
def lift {α : Type} (r : Except Stop α) : M α := fun σ => (r, σ)

/-- Reading the object of a name. -/
def get (x : ℕ) : M Obj := fun σ =>
  match σ x with
  | some o => (.ok o, σ)
  | none => (.error .noObject, σ)

/-- The objects after writing the one with the name `x`. -/
def update (σ : Store) (x : ℕ) (o : Obj) : Store := fun y => if y = x then some o else σ y

/-- Writing the object of a name. -/
def put (x : ℕ) (o : Obj) : M Unit := fun σ => (.ok (), update σ x o)

mutual

/-- `element->clone()`: FunctionInheritanceHelper.hpp:43-45 and, for expressions, the copy constructor FunctionExpression.cpp:59-70. -/
def clone : Ptr → Except Stop Ptr
  | .null => .error .nullDeref
  | .leaf f => .ok (.leaf f.clone)
  | .expr d c ty arr => do return .expr d c ty (← clones arr)

/-- A loop that clones the elements of a list in order. -/
def clones : List Ptr → Except Stop (List Ptr)
  | [] => .ok []
  | p :: l => do
    let p' ← clone p
    let l' ← clones l
    return p' :: l'

end

/-- FunctionExpression.cpp:59-70, the copy constructor. -/
def copyOf (x : ℕ) : M Obj := do
  let o ← get x
  let l ← lift (clones o.arr)
  return { o with arr := l }

/-- FunctionExpression.cpp:72-79, the move constructor: the list of the source is empty afterwards. -/
def moveFrom (x : ℕ) : M Obj := do
  let o ← get x
  put x { o with arr := [] }
  return o

/-- `x.clone()`, or `x.move_clone()` for an rvalue: a new object made from `x` (FunctionInheritanceHelper.hpp:43-49). -/
def newFrom (rv : Bool) (x : ℕ) : M Obj := if rv then moveFrom x else copyOf x

/-- The loops `std::transform(…, element->clone())` and `std::move(begin, end, …)` over the elements of `x` into a local list. The second one moves every pointer
and leaves an empty one in its place. -/
def elementsOf (rv : Bool) (x : ℕ) : M (List Ptr) := do
  let o ← get x
  if rv then
    put x { o with arr := o.arr.map fun _ => .null }
    return o.arr
  else lift (clones o.arr)

/-- FunctionGenericOperations.cpp: what one operand contributes to the list of a sum or a product. In the four functions the second operand is treated
like the first one, after it. -/
def contribution (rv : Bool) (ty : Ty) (x : ℕ) : M (List Ptr) := do
  let o ← get x
  if o.ty = ty ∨ o.ty = .unique then elementsOf rv x
  else do
    let p ← newFrom rv x
    return [p.ptr]

/-- FunctionsComp.cpp, FunctionsConcat.cpp: what one operand contributes to a new list of a composition or a concatenation. -/
def link (rv : Bool) (ty : Ty) (x : ℕ) : M (List Ptr) := do
  let o ← get x
  if o.ty = ty then elementsOf rv x
  else do
    let p ← newFrom rv x
    return [p.ptr]

/-- FunctionBase.cpp:27-35 `same_domain`. -/
def Obj.sameDomain (f g : Obj) : Prop := |f.dom.1 - g.dom.1| < tol9 ∧ |f.dom.2 - g.dom.2| < tol9

open Classical in
/-- FunctionSum.cpp:8-16 `sum_throw`. -/
noncomputable def sumThrow (f g : Obj) : M Unit :=
  if ¬ f.sameDomain g then stop (.thrown .invalidArgument)
  else if f.codim ≠ g.codim then stop (.thrown .invalidArgument)
  else pure ()

/-- FunctionSum.cpp:18-71 `operator+`, the four overloads: `rx`, `ry` say which operand is an rvalue. -/
noncomputable def add (rx ry : Bool) (x y : ℕ) : M Obj := do
  let f ← get x
  let g ← get y
  sumThrow f g
  let l1 ← contribution rx .sum x
  let l2 ← contribution ry .sum y
  return ⟨f.dom, f.codim, .sum, l1 ++ l2⟩

/-- FunctionMul.cpp:142-154 `operator-`. -/
def neg (rx : Bool) (x : ℕ) : M Obj := do
  let o ← newFrom rx x
  return { o with ty := .neg }

/-- FunctionSum.cpp:76-101 `operator-`, the four overloads: the negative of the argument is made first; it is a temporary object of type NEGATIVE, which the sum then
takes over as a whole (FunctionGenericOperations.cpp:66-69, 126-129). -/
noncomputable def sub (rx ry : Bool) (x y : ℕ) : M Obj := do
  let f ← get x
  let g ← get y
  sumThrow f g
  let t ← neg ry y
  let f ← get x
  sumThrow f t
  let l1 ← contribution rx .sum x
  return ⟨f.dom, f.codim, .sum, l1 ++ [t.ptr]⟩

open Classical in
/-- FunctionMul.cpp:7-18 `compatibility_mul`. -/
noncomputable def mulThrow (f g : Obj) : M Unit :=
  if ¬ f.sameDomain g then stop (.thrown .invalidArgument)
  else if 1 < f.codim ∧ 1 < g.codim then stop (.thrown .invalidArgument)
  else pure ()

/-- FunctionMul.cpp:49-141 `operator*`, the four overloads: the vector valued factor comes first. -/
noncomputable def mul (rx ry : Bool) (x y : ℕ) : M Obj := do
  let f ← get x
  let g ← get y
  mulThrow f g
  if g.codim ≤ f.codim then do
    let l1 ← contribution rx .mul x
    let l2 ← contribution ry .mul y
    return ⟨f.dom, f.codim, .mul, l1 ++ l2⟩
  else do
    let l1 ← contribution ry .mul y
    let l2 ← contribution rx .mul x
    return ⟨if rx ∨ ry then f.dom else g.dom, g.codim, .mul, l1 ++ l2⟩

/-! ## loops that write into the list of an operand

An iterator of a `std::list` stays at its element when others are inserted; here it is the index of this element. -/

open Classical in
/-- At most `n` passes of a loop with a counter; `none`: it is not over yet. -/
noncomputable def passes (done : ℕ → Store → Prop) (step : ℕ → M ℕ) : ℕ → ℕ → Store → Option (Except Stop Unit × Store)
  | 0, i, σ => if done i σ then some (.ok (), σ) else none
  | n + 1, i, σ =>
    if done i σ then some (.ok (), σ)
    else
      match step i σ with
      | (.ok i', σ') => passes done step n i' σ'
      | (.error e, σ') => some (.error e, σ')

open Classical in
/-- A loop; `endless` if no number of passes suffices. -/
noncomputable def loop (done : ℕ → Store → Prop) (step : ℕ → M ℕ) (i : ℕ) : M Unit := fun σ =>
  if h : ∃ n r, passes done step n i σ = some r then h.choose_spec.choose else (.error .endless, σ)

/-- Taking the element with index `i` of the list of `y`: a clone, or the pointer itself, which leaves an empty one. -/
def take (rv : Bool) (y i : ℕ) : M Ptr := do
  let o ← get y
  match o.arr[i]? with
  | none => stop .nullDeref
  | some p =>
    if rv then do
      put y { o with arr := o.arr.set i .null }
      return p
    else lift (clone p)

/-- Adding an element at the end of the list of `x`. -/
def pushBack (x : ℕ) (p : Ptr) : M Unit := do
  let o ← get x
  put x { o with arr := o.arr ++ [p] }

/-- Adding an element at the front of the list of `x`. -/
def pushFront (x : ℕ) (p : Ptr) : M Unit := do
  let o ← get x
  put x { o with arr := p :: o.arr }

/-- FunctionsConcat.cpp:89-95, 119-122: the elements of `y`, from the first to the last, are added at the end of the list of `x`. The loop is over when the iterator has
reached the end of the list of `y` as it is then. -/
noncomputable def appendAll (rv : Bool) (x y : ℕ) : M Unit :=
  loop (fun i σ => ∀ o, σ y = some o → o.arr.length ≤ i)
    (fun i => do
      let p ← take rv y i
      pushBack x p
      return i + 1) 0

/-- FunctionsComp.cpp:88-94, 127-129: the elements of `y`, from the last to the first, are added at the front of the list of `x`. Both ends of the range are fixed before the
loop, so that it visits the elements that `y` has at the beginning; `i` is how many of them are left. If the list that it walks through is the one that gets new first elements, the
element to be visited has the same index in every pass. -/
noncomputable def prependAll (rv : Bool) (x y : ℕ) : M Unit := do
  let g ← get y
  loop (fun i _ => i = 0)
    (fun i => do
      let p ← take rv y (if x = y then g.arr.length - 1 else i - 1)
      pushFront x p
      return i - 1) g.arr.length

/-- FunctionsComp.cpp:88-98, 127-133: an object of type COMPOSITION is extended by the argument. -/
noncomputable def extendFront (ry : Bool) (x y : ℕ) : M Unit := do
  let g ← get y
  if g.ty = .comp then prependAll ry x y
  else do
    let p ← newFrom ry y
    pushFront x p.ptr

/-- FunctionsConcat.cpp:89-98, 119-125: an object of type CONCATENATION is extended by the argument. -/
noncomputable def extendBack (ry : Bool) (x y : ℕ) : M Unit := do
  let g ← get y
  if g.ty = .concat then appendAll ry x y
  else do
    let p ← newFrom ry y
    pushBack x p.ptr

/-- FunctionsComp.cpp:8-157 `compose`, the four overloads. An rvalue object of type COMPOSITION is extended and returned. -/
noncomputable def compose (rx ry : Bool) (x y : ℕ) : M Obj := do
  let f ← get x
  let g ← get y
  if 1 < g.codim then stop (.thrown .invalidArgument)
  else if rx = true ∧ f.ty = .comp then do
    extendFront ry x y
    let o ← moveFrom x
    return { o with dom := if ry then g.dom else o.dom }
  else do
    let l1 ← link rx .comp x
    let l2 ← link ry .comp y
    return ⟨g.dom, f.codim, .comp, l2 ++ l1⟩

open Classical in
/-- FunctionsConcat.cpp:7-17 `concat_throw`. -/
noncomputable def concatThrow (f g : Obj) : M Unit :=
  if f.codim ≠ g.codim then stop (.thrown .invalidArgument)
  else if |f.dom.2 - g.dom.1| > tol9 then stop (.thrown .invalidArgument)
  else pure ()

open Classical in
/-- FunctionsConcat.cpp:19-134 `concat`, the four overloads. An rvalue object of type CONCATENATION is extended and returned; with another rvalue object the
argument is taken first. A new object must have an ordered domain (FunctionBase.cpp:17). -/
noncomputable def concat (rx ry : Bool) (x y : ℕ) : M Obj := do
  let f ← get x
  let g ← get y
  concatThrow f g
  if rx = true ∧ f.ty = .concat then do
    extendBack ry x y
    moveFrom x
  else do
    let l ← (if rx then do
        let l2 ← link ry .concat y
        let p ← moveFrom x
        return p.ptr :: l2
      else do
        let l1 ← link false .concat x
        let l2 ← link ry .concat y
        return l1 ++ l2)
    if f.dom.1 ≤ g.dom.2 then return ⟨(f.dom.1, g.dom.2), f.codim, .concat, l⟩ else stop (.thrown .assertFail)

/-- FunctionSum.cpp:139-168 `operator+=` and FunctionMul.cpp:165-194 `operator*=`: first the object gets the type of the operation, then the argument is copied or moved,
then it is added to the list. -/
def inPlace (ty : Ty) (ry : Bool) (x y : ℕ) : M Unit := do
  let f ← get x
  put x (if f.ty = .unique ∨ f.ty = ty then { f with ty := ty } else { f with ty := ty, arr := [f.ptr] })
  let p ← newFrom ry y
  pushBack x p.ptr

/-! ## programs -/

/-- The binary operations. -/
inductive Op where
  | add | sub | mul | compose | concat
deriving DecidableEq

/-- One statement. `rv`, `rx`, `ry` say that an operand is passed as an rvalue, `std::move(x)`. -/
inductive Stmt where
  /-- `FunctionExpression z(f)`, for a function that is not an expression -/
  | new (z : ℕ) (f : Fn)
  /-- `FunctionExpression z(x)` or `FunctionExpression z(std::move(x))` -/
  | init (z : ℕ) (rv : Bool) (x : ℕ)
  /-- `auto z = -x` -/
  | neg (z : ℕ) (rv : Bool) (x : ℕ)
  /-- `auto z = x op y` -/
  | bin (op : Op) (z : ℕ) (rx : Bool) (x : ℕ) (ry : Bool) (y : ℕ)
  /-- `x += y` (`ty = .sum`) or `x *= y` (`ty = .mul`) -/
  | inPlace (ty : Ty) (x : ℕ) (ry : Bool) (y : ℕ)

/-- The operations by name. -/
noncomputable def Op.run : Op → Bool → Bool → ℕ → ℕ → M Obj
  | .add => Own.add
  | .sub => Own.sub
  | .mul => Own.mul
  | .compose => Own.compose
  | .concat => Own.concat

/-- One statement. The result becomes the object of its name. -/
noncomputable def Stmt.run : Stmt → M Unit
  | .new z f => put z ⟨f.dom, f.codim, .unique, [.leaf f.clone]⟩
  | .init z rv x => do put z (← newFrom rv x)
  | .neg z rv x => do put z (← Own.neg rv x)
  | .bin op z rx x ry y => do put z (← op.run rx ry x y)
  | .inPlace ty x ry y => Own.inPlace ty ry x y

/-- A program: `std::invalid_argument` is caught after every statement, and the program goes on with the objects as the statement left them. The result is, for every
statement, whether it threw. -/
noncomputable def run : List Stmt → M (List Bool)
  | [] => pure []
  | s :: p => fun σ =>
    match s.run σ with
    | (.ok _, σ') => (do return false :: (← run p)) σ'
    | (.error (.thrown .invalidArgument), σ') => (do return true :: (← run p)) σ'
    | (.error e, σ') => (.error e, σ')

/-! ## evaluation -/

mutual

/-- The function that an object behind a pointer represents, as a value of Fn.lean; `none` if it owns an empty pointer. -/
def value : Ptr → Option Fn
  | .null => none
  | .leaf f => some f
  | .expr d c ty arr => (values arr).map (Fn.expr d c ty)

/-- The functions of a list of pointers. -/
def values : List Ptr → Option (List Fn)
  | [] => some []
  | p :: l => do
    let f ← value p
    let fs ← values l
    return f :: fs

end

/-- `x(points)`, FunctionBase.hpp:79-84. Evaluating an object that owns an empty pointer, at any depth, counts as dereferencing it. This is a simplification for a concatenation only, which
does not visit the pieces behind the one that it evaluates. -/
noncomputable def eval (σ : Store) (x : ℕ) (ts : List ℝ) : Except Stop (Res Rows) :=
  match σ x with
  | none => .error .noObject
  | some o =>
    match value o.ptr with
    | none => .error .nullDeref
    | some f => .ok (f.call ts)

end Own

end GSplines
