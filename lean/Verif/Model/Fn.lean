import Verif.Model.GSpline
import Mathlib.Analysis.SpecialFunctions.Trigonometric.Basic
import Mathlib.Analysis.SpecialFunctions.Exp

/-!
# Functions and function expressions

src/Functions/*.cpp, include/gsplines/Functions/*.hpp.

Objects are values; copies, moves and the ownership of the lists of functions are modelled in Own.lean. Names, call counters and `print` are not modelled. An evaluation fills a buffer with one row per point; the number of columns of the buffer is an argument, because inner functions are evaluated
into buffers whose size is decided by the caller. Writing a matrix of the wrong shape into a buffer is `Err.ub` (an assertion of Eigen).
-/

namespace GSplines

/-- FunctionExpression.hpp:25-33 `Type` (without `EMPTY`, which is never used). -/
inductive Ty where
  | sum | mul | comp | concat | unique | neg
deriving DecidableEq

/-- The function objects: the elementary functions of ElementalFunctions.hpp, `GSpline`, `DotProduct`, `FunctionExpression`, and the classes that a
user derives from `Function` (`user`: its value and its derivatives of all orders are given as functions of the order, the point and the component). -/
inductive Fn where
  /-- ElementalFunctions.hpp:22-42 -/
  | const (dom : ℝ × ℝ) (vals : List ℝ)
  /-- ElementalFunctions.hpp:46-63 -/
  | dil (dom : ℝ × ℝ) (c : ℝ)
  /-- ElementalFunctions.hpp:68-77 -/
  | ident (dom : ℝ × ℝ)
  /-- ElementalFunctions.hpp:82-94 -/
  | exp (dom : ℝ × ℝ)
  /-- ElementalFunctions.hpp:99-111 -/
  | cos (dom : ℝ × ℝ)
  /-- ElementalFunctions.hpp:113-125 -/
  | sin (dom : ℝ × ℝ)
  /-- ElementalFunctions.hpp:127-149 -/
  | poly (dom : ℝ × ℝ) (coeffs : List ℝ)
  /-- a class derived from `Function`, Function.hpp:11-17 -/
  | user (dom : ℝ × ℝ) (codim : ℕ) (tower : ℕ → ℝ → ℕ → ℝ)
  /-- GSpline.hpp -/
  | gspl (g : GSpline)
  /-- ElementalFunctions.hpp:151-172 -/
  | dot (dom : ℝ × ℝ) (f1 f2 : Fn)
  /-- FunctionExpression.hpp:20-163 -/
  | expr (dom : ℝ × ℝ) (codim : ℕ) (ty : Ty) (args : List Fn)

/-- A matrix given by its rows. -/
abbrev Rows := List (List ℝ)

namespace Fn

/-- FunctionBase.hpp:29-31 `get_domain`. -/
def dom : Fn → ℝ × ℝ
  | const d _ | dil d _ | ident d | exp d | cos d | sin d | poly d _ | user d _ _ | dot d _ _ | expr d _ _ _ => d
  | gspl g => g.dom

/-- FunctionBase.hpp:33 `get_codom_dim`, with the values given to it by the constructors of ElementalFunctions.cpp. -/
def codim : Fn → ℕ
  | const _ v => v.length
  | dil _ _ | ident _ | exp _ | cos _ | sin _ | poly _ _ | dot _ _ _ => 1
  | user _ c _ => c
  | gspl g => g.codim
  | expr _ c _ _ => c

/-! ## Evaluation -/

/-- What the evaluation of an expression uses of its elements: `get_domain()`, `get_codom_dim()` and `value(points, buffer)`, where the first argument
of `run` is the number of columns of the buffer. -/
structure Ev where
  dom : ℝ × ℝ
  codim : ℕ
  run : ℕ → List ℝ → Res Rows

/-- FunctionBase.cpp:41-43 `is_point_in_domain`. -/
def Ev.has (e : Ev) (t : ℝ) : Prop := e.dom.1 ≤ t ∧ t < e.dom.2

/-- FunctionSum.cpp:105-118 `eval_sum_functions`. -/
noncomputable def evalSum (l : List Ev) (cols : ℕ) (ts : List ℝ) : Res Rows :=
  match l with
  | [] => .error .ub
  | f :: _ =>
    l.foldlM (fun acc g => do
      let temp ← g.run f.codim ts
      if cols = f.codim then return List.zipWith (List.zipWith (· + ·)) acc temp else .error .ub)
      (List.replicate ts.length (List.replicate cols 0))

/-- FunctionMul.cpp:199-215 `eval_mul_functions`; `temp.col(0)` of a row is its head. -/
noncomputable def evalMul (l : List Ev) (cols : ℕ) (ts : List ℝ) : Res Rows :=
  match l with
  | [] => .error .ub
  | f :: fs => do
    let res ← f.run cols ts
    fs.foldlM (fun acc g => do
      let temp ← g.run 1 ts
      return List.zipWith (fun r x => r.map (· * x.headD 0)) acc temp) res

/-- FunctionsComp.cpp:162-186 `eval_compose_functions`: all functions but the last one are evaluated into a vector, which is the list of points of the
next one. -/
noncomputable def evalComp (l : List Ev) (cols : ℕ) (ts : List ℝ) : Res Rows :=
  match l with
  | [] => .error .ub
  | [f] => f.run cols ts
  | f :: g :: l => do
    let temp ← f.run 1 ts
    evalComp (g :: l) cols (temp.map fun r => r.headD 0)

open Classical in
/-- FunctionsConcat.cpp:140-155 and 192-219: the piece that is evaluated and the point at which it is evaluated. -/
noncomputable def pick (l : List Ev) (front back : Ev) (t : ℝ) : Res (Ev × ℝ) :=
  match l.find? (fun f => decide (f.has t)) with
  | some f => .ok (f, t)
  | none =>
    if t ≤ front.dom.1 then .ok (front, front.dom.1)
    else if t ≥ back.dom.2 then .ok (back, back.dom.2)
    else .error .invalidArgument

/-- FunctionsConcat.cpp:183-222 `eval_concat_functions`. -/
noncomputable def evalConcat (l : List Ev) (cols : ℕ) (ts : List ℝ) : Res Rows :=
  match l with
  | [] => .error .ub
  | front :: rest =>
    ts.mapM fun t => do
      let (f, s) ← pick l front ((front :: rest).getLast (by simp)) t
      let temp ← f.run front.codim [s]
      if cols = front.codim then return temp.headD [] else .error .ub

/-- FunctionExpression.cpp:204-213 `eval_unique_functions`. -/
def evalUnique (l : List Ev) (cols : ℕ) (ts : List ℝ) : Res Rows :=
  match l with
  | [f] => f.run cols ts
  | _ => .error .assertFail

/-- FunctionExpression.cpp:230-238 `eval_negative_functions`. -/
noncomputable def evalNeg (l : List Ev) (cols : ℕ) (ts : List ℝ) : Res Rows :=
  match l with
  | [f] => do
    let res ← f.run cols ts
    return res.map fun r => r.map (· * -1)
  | _ => .error .assertFail

/-- FunctionExpression.cpp:117-153 `initialize` (the choice of `eval_operation_`). -/
noncomputable def evalTy : Ty → List Ev → ℕ → List ℝ → Res Rows
  | .sum => evalSum
  | .mul => evalMul
  | .comp => evalComp
  | .concat => evalConcat
  | .unique => evalUnique
  | .neg => evalNeg

/-- A function of one component written into a buffer, which must have one column. -/
def scalarRun (f : ℝ → ℝ) (cols : ℕ) (ts : List ℝ) : Res Rows :=
  if cols = 1 then .ok (ts.map fun t => [f t]) else .error .ub

/-- ElementalFunctions.cpp:160-165: Horner's rule, from the coefficient before the last one down to the first. -/
def horner (coeffs : List ℝ) (t : ℝ) : ℝ := coeffs.dropLast.foldr (fun c acc => acc * t + c) (coeffs.getLastD 0)

/-- ElementalFunctions.cpp:156-165 `CanonicPolynomial::value_impl`. `setConstant` accepts a buffer of any shape. -/
def polyRun (coeffs : List ℝ) (cols : ℕ) (ts : List ℝ) : Res Rows :=
  if coeffs = [] then .error .ub
  else if coeffs.length = 1 then .ok (ts.map fun t => List.replicate cols (horner coeffs t))
  else scalarRun (horner coeffs) cols ts

mutual

/-- `value_impl` of the classes: ElementalFunctions.cpp:20-28, 45-49, 66-70, 79-83, 94-97, 119-122, 156-165, 224-232, GSpline.cpp:91-113,
FunctionExpression.hpp:77-82. -/
noncomputable def run : Fn → ℕ → List ℝ → Res Rows
  | const _ v, cols, ts => if cols = v.length then .ok (ts.map fun _ => v) else .error .ub
  | dil _ c, cols, ts => scalarRun (fun t => c * t) cols ts
  | ident _, cols, ts => scalarRun (fun t => t) cols ts
  | exp _, cols, ts => scalarRun Real.exp cols ts
  | cos _, cols, ts => scalarRun Real.cos cols ts
  | sin _, cols, ts => scalarRun Real.sin cols ts
  | poly _ a, cols, ts => polyRun a cols ts
  | user _ c F, cols, ts => if cols = c then .ok (ts.map fun t => (List.range c).map (F 0 t)) else .error .ub
  | gspl g, cols, ts => if cols = g.codim then g.values ts else .error .ub
  | dot _ f1 f2, cols, ts => do
    let a ← f1.run f1.codim ts
    let b ← f2.run f2.codim ts
    if f1.codim = f2.codim ∧ cols = 1 then return List.zipWith (fun x y => [(List.zipWith (· * ·) x y).sum]) a b else .error .ub
  | expr _ _ ty args, cols, ts => evalTy ty (evs args) cols ts

/-- The elements of an expression. -/
noncomputable def evs : List Fn → List Ev
  | [] => []
  | f :: l => ⟨f.dom, f.codim, f.run⟩ :: evs l

end

/-- FunctionBase.hpp:79-84 `operator()`. -/
noncomputable def call (f : Fn) (ts : List ℝ) : Res Rows := f.run f.codim ts

/-! ## Derivation -/

/-- FunctionExpression.cpp:81-86, 87-93: an expression of type UNIQUE around a function; `Identity` is copied as a `DomainLinearDilation`
(ElementalFunctions.hpp:68 inherits `clone_impl` from `FunctionInheritanceHelper<DomainLinearDilation>`). -/
def clone : Fn → Fn
  | ident d => dil d 1
  | f => f

/-- FunctionExpression.cpp:81-93, FunctionBase.cpp:66-81. -/
def wrap (f : Fn) : Fn := expr f.dom f.codim .unique [f.clone]

/-- Implicit conversion of an operand to `FunctionExpression` (a copy if it already is one). -/
def toExpr : Fn → Fn
  | expr d c ty args => expr d c ty args
  | f => f.wrap

/-- FunctionBase.cpp:27-35 `same_domain`. -/
def sameDomain (f g : Fn) : Prop := |f.dom.1 - g.dom.1| < tol9 ∧ |f.dom.2 - g.dom.2| < tol9

/-- FunctionExpression.hpp:84 `get_type` and the list of elements, of an operand converted to an expression. -/
def parts : Fn → Ty × List Fn
  | expr _ _ ty args => (ty, args)
  | f => (.unique, [f.clone])

/-- FunctionGenericOperations.cpp: what one operand contributes to the list of elements of an operation of type `ty`. -/
def splice (ty : Ty) (f : Fn) : List Fn := if f.parts.1 = ty ∨ f.parts.1 = .unique then f.parts.2 else [f]

open Classical in
/-- FunctionSum.cpp:8-71 `operator+` (the four overloads return the same value). -/
noncomputable def add (f g : Fn) : Res Fn :=
  if ¬ sameDomain f g then .error .invalidArgument
  else if f.codim ≠ g.codim then .error .invalidArgument
  else .ok (expr f.dom f.codim .sum (splice .sum f ++ splice .sum g))

/-- ElementalFunctions.cpp:197-215, the constructors of `DotProduct`. -/
def mkDot (f g : Fn) : Res Fn := if f.codim = g.codim then .ok (dot f.dom f.wrap g.wrap) else .error .assertFail

/-- ElementalFunctions.cpp:184-192: one step of the derivation of the coefficients. -/
def polyStep (l : List ℝ) : List ℝ := l.tail.mapIdx fun i c => (i + 1) * c

/-- ElementalFunctions.cpp:183-194: the loop and the final result. -/
noncomputable def polyLoop : ℕ → List ℝ → List ℝ
  | 0, l => l
  | k + 1, l => if polyStep l = [] then [0] else polyLoop k (polyStep l)

/-- ElementalFunctions.cpp:167-195 `CanonicPolynomial::deriv_impl`. The test `(int)vsize - _deg <= 0` is made on unsigned numbers: it holds only if
`vsize = _deg`. Without coefficients the loop bound `vsize - 1` wraps around. -/
noncomputable def polyDeriv (coeffs : List ℝ) (deg : ℕ) : Res (List ℝ) :=
  if deg = 0 then .ok coeffs
  else if coeffs.length = deg then .ok [0]
  else if coeffs = [] then .error .ub
  else .ok (polyLoop deg coeffs)

/-- ElementalFunctions.cpp:99-111 `Cos::deriv_impl`. -/
def cosDeriv (d : ℝ × ℝ) (deg : ℕ) : Fn :=
  if deg % 4 = 0 then expr d 1 .unique [cos d]
  else if deg % 4 = 1 then expr d 1 .neg [sin d]
  else if deg % 4 = 2 then expr d 1 .neg [cos d]
  else expr d 1 .unique [sin d]

/-- ElementalFunctions.cpp:124-136 `Sin::deriv_impl`. -/
def sinDeriv (d : ℝ × ℝ) (deg : ℕ) : Fn :=
  if deg % 4 = 0 then expr d 1 .unique [sin d]
  else if deg % 4 = 1 then expr d 1 .unique [cos d]
  else if deg % 4 = 2 then expr d 1 .neg [sin d]
  else expr d 1 .neg [cos d]

/-- ElementalFunctions.cpp:51-59 `DomainLinearDilation::deriv_impl` (also used by `Identity`). -/
noncomputable def dilDeriv (d : ℝ × ℝ) (c : ℝ) (deg : ℕ) : Fn :=
  if deg = 0 then expr d 1 .unique [dil d c]
  else if deg = 1 then expr d 1 .unique [const d [c]]
  else expr d 1 .unique [const d [0]]

/-- ElementalFunctions.cpp:30-35 `ConstFunction::deriv_impl`. -/
def constDeriv (d : ℝ × ℝ) (v : List ℝ) (deg : ℕ) : Fn :=
  if deg = 0 then const d v else const d (List.replicate v.length 0)

/-- FunctionMul.cpp:243-262: the terms for the factors after the first one; `pre` are the factors before the current one. -/
def mulTerms (d : ℝ × ℝ) (c : ℕ) : List Fn → List Fn → List Fn → List Fn
  | _, [], _ => []
  | _, _ :: _, [] => []
  | pre, a :: rest, a' :: rest' => expr d c .mul (pre ++ rest ++ [a']) :: mulTerms d c (pre ++ [a]) rest rest'

/-- FunctionMul.cpp:220-266 `first_deriv_mul_functions`, from the factors and their derivatives. -/
def firstDerivMul (args ds : List Fn) : Res Fn :=
  match args, ds with
  | a :: rest, a' :: rest' => .ok (expr a.dom a.codim .sum (expr a.dom a.codim .mul (a' :: rest) :: mulTerms a.dom a.codim [a] rest rest'))
  | _, _ => .error .ub

/-- FunctionsComp.cpp:230-247: the factors after the first one, in the order of the list of functions; the code adds each one to the front. -/
def compTerms (d : ℝ × ℝ) : List Fn → List Fn → List Fn → List Fn
  | _, [], _ => []
  | _, _ :: _, [] => []
  | pre, a :: rest, a' :: rest' => expr d a.codim .comp (pre ++ [a']) :: compTerms d (pre ++ [a]) rest rest'

/-- FunctionsComp.cpp:191-258 `first_deriv_compose_functions`. -/
def firstDerivComp (args ds : List Fn) : Res Fn :=
  match args, ds with
  | a :: rest, a' :: rest' =>
    .ok (expr a.dom ((a :: rest).getLast (by simp)).codim .mul ((compTerms a.dom [a] rest rest').reverse ++ [a']))
  | _, _ => .error .ub

open Classical in
/-- FunctionSum.cpp:123-137 `deriv_sum_functions`, FunctionExpression.cpp:189-202 and 215-228 `deriv_unique_functions`, `deriv_negative_functions`,
FunctionsConcat.cpp:157-181 `deriv_concat_functions`, from the elements and their derivatives. The domain of a concatenation is computed again and must be
ordered (FunctionBase.cpp:17). -/
noncomputable def derivLin (ty : Ty) (args ds : List Fn) : Res Fn :=
  match args with
  | [] => if ty = .unique ∨ ty = .neg then .error .assertFail else .error .ub
  | a :: rest =>
    if (ty = .unique ∨ ty = .neg) ∧ rest ≠ [] then .error .assertFail
    else if ty = .concat then
      if a.dom.1 ≤ ((a :: rest).getLast (by simp)).dom.2 then .ok (expr (a.dom.1, ((a :: rest).getLast (by simp)).dom.2) a.codim ty ds)
      else .error .assertFail
    else .ok (expr a.dom a.codim ty ds)

/-- ElementalFunctions.cpp:234-237 `DotProduct::first_deriv_impl`, from the two functions and their derivatives (the members are of type `FunctionExpression`, for which
`derivate()` is that of FunctionInheritanceHelper.hpp:36-38, a copy of the derivative): `f1'.dot(f2)` is called on a temporary object, so that FunctionBase.cpp:57-60 swaps
the arguments. -/
noncomputable def firstDerivDot (f1 f2 d1 d2 : Fn) : Res Fn := do
  let a ← mkDot f2 d1
  let b ← mkDot f1 d2
  add a b

mutual

/-- `deriv_impl(1)` of the classes (the function called by the loops of `deriv_mul_functions`, `deriv_compose_functions`,
`DotProduct::deriv_impl`). -/
noncomputable def d1 : Fn → Res Fn
  | const d v => .ok (constDeriv d v 1)
  | dil d c => .ok (dilDeriv d c 1)
  | ident d => .ok (dilDeriv d 1 1)
  | exp d => .ok (exp d)
  | cos d => .ok (cosDeriv d 1)
  | sin d => .ok (sinDeriv d 1)
  | poly d a => do return poly d (← polyDeriv a 1)
  | user d c F => .ok (user d c fun n => F (n + 1))
  | gspl g => do return gspl (← g.deriv 1)
  | dot _ f1 f2 => do firstDerivDot f1 f2 (← f1.d1) (← f2.d1)
  | expr _ _ ty args =>
    match ty with
    | .mul => do firstDerivMul args (← d1s args)
    | .comp => do firstDerivComp args (← d1s args)
    | ty => do derivLin ty args (← d1s args)

/-- The first derivatives of the elements of an expression. -/
noncomputable def d1s : List Fn → Res (List Fn)
  | [] => .ok []
  | f :: l => do
    let f' ← f.d1
    let l' ← d1s l
    return f' :: l'

end

/-- FunctionMul.cpp:280-288, FunctionsComp.cpp:272-280, ElementalFunctions.cpp:245-253: the loops that derive `k` more times. -/
noncomputable def iterD1 : ℕ → Fn → Res Fn
  | 0, f => .ok f
  | k + 1, f => do iterD1 k (← f.d1)

mutual

/-- `deriv(n)`, that is `deriv_impl` of the classes: ElementalFunctions.cpp:30-35, 51-59, 84-86, 99-111, 124-136, 167-195, 239-256,
GSpline.hpp:108-143, FunctionExpression.hpp:154-158 with the functions selected by `initialize`. -/
noncomputable def deriv : Fn → ℕ → Res Fn
  | const d v, n => .ok (constDeriv d v n)
  | dil d c, n => .ok (dilDeriv d c n)
  | ident d, n => .ok (dilDeriv d 1 n)
  | exp d, _ => .ok (exp d)
  | cos d, n => .ok (cosDeriv d n)
  | sin d, n => .ok (sinDeriv d n)
  | poly d a, n => do return poly d (← polyDeriv a n)
  | user d c F, n => .ok (user d c fun m => F (m + n))
  | gspl g, n => do return gspl (← g.deriv n)
  | dot d f1 f2, n =>
    match n with
    | 0 => .ok (wrap (dot d f1 f2))
    | n + 1 => do iterD1 n (← firstDerivDot f1 f2 (← f1.d1) (← f2.d1))
  | expr _ _ ty args, n =>
    match ty with
    | .mul =>
      match n, args with
      | 0, a :: rest => .ok (expr a.dom a.codim .mul (a :: rest))
      | 0, [] => .error .ub
      | n + 1, args => do iterD1 n (← firstDerivMul args (← d1s args))
    | .comp =>
      match n, args with
      | 0, a :: rest => .ok (expr a.dom ((a :: rest).getLast (by simp)).codim .comp (a :: rest))
      | 0, [] => .error .ub
      | n + 1, args => do iterD1 n (← firstDerivComp args (← d1s args))
    | ty => do derivLin ty args (← derivs args n)

/-- The `n`-th derivatives of the elements of an expression. -/
noncomputable def derivs : List Fn → ℕ → Res (List Fn)
  | [], _ => .ok []
  | f :: l, n => do
    let f' ← f.deriv n
    let l' ← derivs l n
    return f' :: l'

end

/-- FunctionBase.cpp:83-90 `derivate`. -/
noncomputable def derivate (f : Fn) (n : ℕ) : Res Fn := do
  let d ← f.deriv n
  return expr f.dom f.codim .unique [d]

/-! ## Operations -/

/-- Which overload of an operation of `FunctionExpression` is called: is the object / the argument an rvalue? An operand that is not a `FunctionExpression` is converted
to a temporary one (FunctionBase.cpp:102-208), which is an rvalue. -/
structure Ov where
  this : Bool
  that : Bool

/-- FunctionMul.cpp:142-154 `operator-`: the elements of the operand, with the type NEGATIVE. -/
def neg (f : Fn) : Fn := expr f.dom f.codim .neg f.parts.2

open Classical in
/-- FunctionSum.cpp:76-101 `operator-`. -/
noncomputable def sub (f g : Fn) : Res Fn :=
  if ¬ sameDomain f g then .error .invalidArgument
  else if f.codim ≠ g.codim then .error .invalidArgument
  else add f g.neg

open Classical in
/-- FunctionMul.cpp:7-141 `operator*`. -/
noncomputable def mul (ov : Ov) (f g : Fn) : Res Fn :=
  if ¬ sameDomain f g then .error .invalidArgument
  else if 1 < f.codim ∧ 1 < g.codim then .error .invalidArgument
  else
    let v := if g.codim ≤ f.codim then f else g
    let s := if g.codim ≤ f.codim then g else f
    let d := if ov.this ∨ ov.that then f.dom else v.dom
    .ok (expr d v.codim .mul (splice .mul v ++ splice .mul s))

/-- FunctionMul.cpp:156-163 `double * function`. -/
noncomputable def smul (k : ℝ) (f : Fn) : Res Fn := mul ⟨true, false⟩ (wrap (const f.dom [k])) f

/-- FunctionsComp.cpp and FunctionsConcat.cpp: the elements of an operand that already has the type of the operation, otherwise the operand converted to an expression. -/
def chain (ty : Ty) (f : Fn) : List Fn := if f.parts.1 = ty then f.parts.2 else [f.toExpr]

/-- FunctionsComp.cpp:8-157 `compose`. The overload with an rvalue object and an lvalue argument, applied to an object of type COMPOSITION, does not update the
domain. -/
def compose (ov : Ov) (f g : Fn) : Res Fn :=
  if 1 < g.codim then .error .invalidArgument
  else
    let d := if ov.this ∧ ¬ ov.that ∧ f.parts.1 = .comp then f.dom else g.dom
    .ok (expr d f.codim .comp (chain .comp g ++ chain .comp f))

open Classical in
/-- FunctionsConcat.cpp:7-134 `concat`. The overloads with an rvalue object, applied to an object of type CONCATENATION, do not update the domain. A new object must have an ordered
domain (FunctionBase.cpp:17). -/
noncomputable def concat (ov : Ov) (f g : Fn) : Res Fn :=
  if f.codim ≠ g.codim then .error .invalidArgument
  else if |f.dom.2 - g.dom.1| > tol9 then .error .invalidArgument
  else if ov.this ∧ f.parts.1 = .concat then .ok (expr f.dom f.codim .concat (chain .concat f ++ chain .concat g))
  else if f.dom.1 ≤ g.dom.2 then .ok (expr (f.dom.1, g.dom.2) f.codim .concat (chain .concat f ++ chain .concat g))
  else .error .assertFail

/-- FunctionBase.cpp:50-64 `dot`: called on an rvalue, the arguments are swapped. -/
def dotOp (ov : Ov) (f g : Fn) : Res Fn := if ov.this then mkDot g f else mkDot f g

/-- FunctionSum.cpp:139-168 `operator+=` and FunctionMul.cpp:165-194 `operator*=`, on a `FunctionExpression` (the argument is converted to one). -/
def inPlace (ty : Ty) (f g : Fn) : Fn :=
  match f with
  | expr d c t args =>
    if t = .unique ∨ t = ty then expr d c ty (args ++ [g.toExpr]) else expr d c ty [expr d c t args, g.toExpr]
  | f => expr f.dom f.codim ty [f.clone, g.toExpr]

/-- `f += g`. -/
def addInPlace (f g : Fn) : Fn := inPlace .sum f g

/-- `f *= g`. -/
def mulInPlace (f g : Fn) : Fn := inPlace .mul f g

end Fn

end GSplines
