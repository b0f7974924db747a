import Verif.Model.Rounding
import Verif.Model.RoundingGLL
import Verif.Model.Fn

/-!
# Evaluation and integration of functions with rounding errors: src/Functions/*.cpp, src/FunctionalAnalysis/Integral.cpp

As in `Model/Rounding.lean` each operation on doubles may return any number within an error of the exact result, and the result of a program is a set of outcomes.
One point is evaluated at a time: every operation of these files acts on the rows of its matrices one by one.
-/

namespace GSplines.Rounded

open Nd

/-- What the evaluation of an expression uses of its elements, as in `Fn.Ev`: the domain, the number of components and `value(point, row)`, where the first argument of
`run` is the number of columns of the row. -/
structure Row where
  dom : ℝ × ℝ
  codim : ℕ
  run : ℕ → ℝ → Nd (List ℝ)

/-- FunctionBase.cpp:41-43 `is_point_in_domain`. -/
def Row.has (e : Row) (t : ℝ) : Prop := e.dom.1 ≤ t ∧ t < e.dom.2

/-- FunctionSum.cpp:112-113: one pass of the loop. -/
def sumRow (u : ℝ × ℝ) (cols c0 : ℕ) (t : ℝ) (acc : List ℝ) (g : Row) : Nd (List ℝ) := do
  let temp ← g.run c0 t
  if cols = c0 then (List.zipWith (· + ·) acc temp).mapM (near u) else lift (.error .ub)

/-- FunctionSum.cpp:105-118 `eval_sum_functions`. -/
def evalSum (u : ℝ × ℝ) (l : List Row) (cols : ℕ) (t : ℝ) : Nd (List ℝ) :=
  match l with
  | [] => lift (.error .ub)
  | f :: _ => l.foldlM (sumRow u cols f.codim t) (List.replicate cols 0)

/-- FunctionMul.cpp:212-213: one pass of the loop. -/
def mulRow (u : ℝ × ℝ) (t : ℝ) (acc : List ℝ) (g : Row) : Nd (List ℝ) := do
  let temp ← g.run 1 t
  (acc.map (· * temp.headD 0)).mapM (near u)

/-- FunctionMul.cpp:199-215 `eval_mul_functions`. -/
def evalMul (u : ℝ × ℝ) (l : List Row) (cols : ℕ) (t : ℝ) : Nd (List ℝ) :=
  match l with
  | [] => lift (.error .ub)
  | f :: fs => do
    let res ← f.run cols t
    fs.foldlM (mulRow u t) res

/-- FunctionsComp.cpp:162-186 `eval_compose_functions`. -/
def evalComp (l : List Row) (cols : ℕ) (t : ℝ) : Nd (List ℝ) :=
  match l with
  | [] => lift (.error .ub)
  | [f] => f.run cols t
  | f :: g :: l => do
    let temp ← f.run 1 t
    evalComp (g :: l) cols (temp.headD 0)

open Classical in
/-- FunctionsConcat.cpp:140-155 and 192-219: the piece that is evaluated and the point at which it is evaluated; comparisons are exact. -/
noncomputable def pick (l : List Row) (front back : Row) (t : ℝ) : Res (Row × ℝ) :=
  match l.find? (fun f => decide (f.has t)) with
  | some f => .ok (f, t)
  | none =>
    if t ≤ front.dom.1 then .ok (front, front.dom.1)
    else if t ≥ back.dom.2 then .ok (back, back.dom.2)
    else .error .invalidArgument

/-- FunctionsConcat.cpp:183-222 `eval_concat_functions`. -/
noncomputable def evalConcat (l : List Row) (cols : ℕ) (t : ℝ) : Nd (List ℝ) :=
  match l with
  | [] => lift (.error .ub)
  | front :: rest => do
    let p ← lift (pick (front :: rest) front ((front :: rest).getLast (by simp)) t)
    let temp ← p.1.run front.codim p.2
    if cols = front.codim then return temp else lift (.error .ub)

/-- FunctionExpression.cpp:204-213 `eval_unique_functions`. -/
def evalUnique (l : List Row) (cols : ℕ) (t : ℝ) : Nd (List ℝ) :=
  match l with
  | [f] => f.run cols t
  | _ => lift (.error .assertFail)

/-- FunctionExpression.cpp:230-238 `eval_negative_functions`. -/
def evalNeg (u : ℝ × ℝ) (l : List Row) (cols : ℕ) (t : ℝ) : Nd (List ℝ) :=
  match l with
  | [f] => do
    let res ← f.run cols t
    (res.map (· * -1)).mapM (near u)
  | _ => lift (.error .assertFail)

/-- FunctionExpression.cpp:117-153 `initialize` (the choice of `eval_operation_`). -/
noncomputable def evalTy (u : ℝ × ℝ) : Ty → List Row → ℕ → ℝ → Nd (List ℝ)
  | .sum => evalSum u
  | .mul => evalMul u
  | .comp => evalComp
  | .concat => evalConcat
  | .unique => evalUnique
  | .neg => evalNeg u

/-- A rounded function of one component written into a row, which must have one column. -/
def scalar (x : Nd ℝ) (cols : ℕ) : Nd (List ℝ) :=
  if cols = 1 then do
    let y ← x
    return [y]
  else lift (.error .ub)

/-- ElementalFunctions.cpp:161-165: Horner's rule. -/
def horner (u : ℝ × ℝ) (coeffs : List ℝ) (t : ℝ) : Nd ℝ :=
  coeffs.dropLast.foldr (fun c acc => do
    let a ← acc
    let p ← near u (a * t)
    near u (p + c)) (pure (coeffs.getLastD 0))

/-- ElementalFunctions.cpp:156-165 `CanonicPolynomial::value_impl`. `setConstant` accepts a buffer of any shape. -/
def polyRow (u : ℝ × ℝ) (coeffs : List ℝ) (cols : ℕ) (t : ℝ) : Nd (List ℝ) :=
  if coeffs = [] then lift (.error .ub)
  else if coeffs.length = 1 then return List.replicate cols (coeffs.getLastD 0)
  else scalar (horner u coeffs t) cols

mutual

/-- `value_impl` of the classes: ElementalFunctions.cpp:20-28, 45-49, 66-70, 79-83, 94-97, 119-122, 156-165, 224-232, GSpline.cpp:91-113,
FunctionExpression.hpp:77-82. The functions of a user are evaluated with one rounding. -/
noncomputable def row (u : ℝ × ℝ) : Fn → ℕ → ℝ → Nd (List ℝ)
  | .const _ v, cols, _ => if cols = v.length then v.mapM (near u) else lift (.error .ub)
  | .dil _ c, cols, t => scalar (near u (c * t)) cols
  | .ident _, cols, t => scalar (pure t) cols
  | .exp _, cols, t => scalar (near u (Real.exp t)) cols
  | .cos _, cols, t => scalar (near u (Real.cos t)) cols
  | .sin _, cols, t => scalar (near u (Real.sin t)) cols
  | .poly _ a, cols, t => polyRow u a cols t
  | .user _ c F, cols, t => if cols = c then ((List.range c).map (F 0 t)).mapM (near u) else lift (.error .ub)
  | .gspl g, cols, t => if cols = g.codim then value u g t else lift (.error .ub)
  | .dot _ f1 f2, cols, t => do
    let a ← row u f1 f1.codim t
    let b ← row u f2 f2.codim t
    if f1.codim = f2.codim ∧ cols = 1 then do
      let x ← dot u a b
      return [x]
    else lift (.error .ub)
  | .expr _ _ ty args, cols, t => evalTy u ty (rows u args) cols t

/-- The elements of an expression. -/
noncomputable def rows (u : ℝ × ℝ) : List Fn → List Row
  | [] => []
  | f :: l => ⟨f.dom, f.codim, row u f⟩ :: rows u l

end

/-- FunctionBase.hpp:79-84 `operator()`, at the points `ts`. -/
noncomputable def call (u : ℝ × ℝ) (f : Fn) (ts : List ℝ) : Nd Rows := ts.mapM (row u f f.codim)

/-! ## Integrals -/

/-- Integral.cpp:24-25: a point of an interval of length `len` that starts at `left`. -/
noncomputable def gridPoint (u : ℝ × ℝ) (len left x : ℝ) : Nd ℝ := do
  let a ← near u (x + 1)
  let a ← near u (a * len)
  let a ← near u (a / 2)
  near u (a + left)

/-- Integral.cpp:21-30: the sum over one interval. -/
noncomputable def integralStep (u : ℝ × ℝ) (f : Fn) (n : ℕ) (len : ℝ) (p w : Vec) (iv : ℕ) (r : ℝ) : Nd ℝ := do
  let a ← near u (iv * len)
  let left ← near u (f.dom.1 + a)
  let pts ← (List.range n).mapM fun k => gridPoint u len left (p k)
  let v ← pts.mapM (row u f 1)
  let prods ← (List.zipWith (fun row k => row.headD 0 * w k) v (List.range n)).mapM (near u)
  let s ← Nd.sum u prods
  let s ← near u (s * len)
  let s ← near u (s / 2)
  near u (r + s)

/-- Integral.cpp:7-32 `integral`. With zero intervals the length is not a number, but it is not used. -/
noncomputable def integral (u : ℝ × ℝ) (f : Fn) (n k : ℕ) (jp jw : Vec) : Nd ℝ :=
  if f.codim ≠ 1 then lift (.error .assertFail)
  else do
    let pw ← pointsWeights u n jp jw
    if k = 0 then return 0
    else do
      let d ← near u (f.dom.2 - f.dom.1)
      let len ← quot u d k
      loop 0 k (integralStep u f n len pw.1 pw.2) 0

end GSplines.Rounded
