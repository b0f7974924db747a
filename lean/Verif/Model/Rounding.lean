import Verif.Model.GSpline
import Mathlib.Data.List.Perm.Basic

/-!
# Evaluation of a spline with rounding errors: src/GSpline.cpp:91-159 and `eval_on_window` of the three bases

The other modules compute with real numbers. Here every operation on doubles may return any number within an error of the exact result: `u.1` times its size plus
`u.2`. (For doubles `u.1 = 2⁻⁵³` and `u.2 = 2⁻¹⁰⁷⁵` for the four operations, as long as nothing overflows. An operation that is not rounded at all, as inside a
fused multiply-add, and extended precision are covered as well.) The result of a program is a set of outcomes. Sums that Eigen computes (`sum()`, scalar products)
are computed in any order. Integers and the literals of the source are exact; so are comparisons.
-/

namespace GSplines

/-- A program whose operations are rounded: which outcomes are possible. -/
def Nd (α : Type) := Res α → Prop

namespace Nd

/-- A value. -/
def ret {α : Type} (a : α) : Nd α := fun r => r = .ok a

/-- One program after the other: a failure of the first one is a failure of both. -/
def andThen {α β : Type} (p : Nd α) (f : α → Nd β) : Nd β := fun r => (∃ e, p (.error e) ∧ r = .error e) ∨ ∃ a, p (.ok a) ∧ f a r

instance : Monad Nd where
  pure := ret
  bind := andThen

/-- A computation without rounding. -/
def lift {α : Type} (x : Res α) : Nd α := fun r => r = x

/-- The rounded result of an operation whose exact result is `x`. -/
def near (u : ℝ × ℝ) (x : ℝ) : Nd ℝ := fun r => ∃ y, r = .ok y ∧ |y - x| ≤ u.1 * |x| + u.2

/-- A rounded division. -/
def quot (u : ℝ × ℝ) (x y : ℝ) : Nd ℝ := do
  let q ← lift (fdiv x y)
  near u q

/-- The results of adding up a list in some order (with parentheses anywhere). -/
inductive SumOf (u : ℝ × ℝ) : List ℝ → ℝ → Prop
  | nil : SumOf u [] 0
  | one (x : ℝ) : SumOf u [x] x
  | split {l l₁ l₂ : List ℝ} {a b r : ℝ} : l.Perm (l₁ ++ l₂) → l₁ ≠ [] → l₂ ≠ [] → SumOf u l₁ a → SumOf u l₂ b → |r - (a + b)| ≤ u.1 * |a + b| + u.2 → SumOf u l r

/-- Eigen `v.sum()`. -/
def sum (u : ℝ × ℝ) (l : List ℝ) : Nd ℝ := fun r => ∃ y, r = .ok y ∧ SumOf u l y

/-- `for (i = a; i < b; i++) s = body(i, s);` -/
def loop {σ : Type} (a b : ℕ) (body : ℕ → σ → Nd σ) (s : σ) : Nd σ := (List.range' a (b - a)).foldlM (fun st i => body i st) s

end Nd

namespace Rounded

open Nd

/-- BasisLegendre.cpp:95-99, one step of the three term recurrence. -/
noncomputable def legendreBody (u : ℝ × ℝ) (s : ℝ) (i : ℕ) (b : Vec) : Nd Vec := do
  let c ← quot u 1 ((i : ℝ) + 1)
  let t ← near u ((2 * (i : ℝ) + 1) * s)
  let t ← near u (t * b i)
  let t' ← near u ((i : ℝ) * b (i - 1))
  let d ← near u (t - t')
  let r ← near u (c * d)
  return setAt b (i + 1) r

/-- BasisLegendre.cpp:89-100 `eval_on_window`. -/
noncomputable def legendre (u : ℝ × ℝ) (dim : ℕ) (s : ℝ) : Nd Vec :=
  if dim < 2 then lift (.error .ub) else loop 1 (dim - 1) (legendreBody u s) (setAt (setAt (fun _ => 0) 0 1) 1 s)

/-- Basis0101.cpp:35-51 `eval_on_window`. -/
noncomputable def b0101 (u : ℝ × ℝ) (alpha s tau : ℝ) : Nd Vec := do
  let r2 ← near u (√2)
  let k ← near u (r2 / 4)
  let pa ← near u (alpha ^ (1 / 4 : ℝ))
  let k ← near u (k * pa)
  let d ← near u (1 - alpha)
  let pd ← near u (d ^ (1 / 4 : ℝ))
  let k ← quot u k pd
  let p ← near u (tau * k)
  let p ← near u (p * s)
  let expp ← near u (Real.exp p)
  let cosp ← near u (Real.cos p)
  let sinp ← near u (Real.sin p)
  let v0 ← near u (expp * cosp)
  let v1 ← near u (expp * sinp)
  let v2 ← quot u cosp expp
  let v3 ← quot u sinp expp
  return B0101.vec6 v0 v1 v2 v3 p 1

open Classical in
/-- BasisLagrange.cpp:20-29 `almost_equal`. -/
noncomputable def almostEqual (u : ℝ × ℝ) (a b eps : ℝ) : Nd Bool := do
  let d ← near u (a - b)
  if |a| < eps ∨ |b| < eps then return decide (|d| < eps)
  else
    let ea ← near u (eps * |a|)
    let eb ← near u (eps * |b|)
    return decide (|d| < ea ∧ |d| < eb)

/-- BasisLagrange.cpp:178-183, the body of the two nested loops of `barycentric_weights`. -/
def baryStep (u : ℝ × ℝ) (x : Vec) (j k : ℕ) (r : Vec) : Nd Vec := do
  let d ← near u (x k - x j)
  let p ← near u (r k * d)
  let d' ← near u (x j - x k)
  let r := setAt r k p
  let p' ← near u (r j * d')
  return setAt r j p'

/-- BasisLagrange.cpp:170-189 `barycentric_weights`; the constructor calls it (BasisLagrange.cpp:34). -/
noncomputable def baryWeights (u : ℝ × ℝ) (n : ℕ) (x : Vec) : Nd Vec := do
  let r ← loop 1 n (fun j r => loop 0 j (fun k r => baryStep u x j k r) r) (fun _ => 1)
  loop 0 n (fun k (w : Vec) => do
    let q ← quot u 1 (r k)
    return setAt w k q) (fun _ => 0)

/-- BasisLagrange.cpp:130-135: the first node that is almost equal to the point, searched from node `j` on. -/
noncomputable def findNode (u : ℝ × ℝ) (x : Vec) (s : ℝ) : List ℕ → Nd (Option ℕ)
  | [] => return none
  | j :: js => do
    let b ← almostEqual u s (x j) tol9
    if b then return some j else findNode u x s js

/-- BasisLagrange.cpp:136-143: the barycentric formula. -/
noncomputable def baryFormula (u : ℝ × ℝ) (n : ℕ) (x w : Vec) (s : ℝ) : Nd Vec := do
  let st ← loop 0 n (fun j (st : Vec × ℝ) => do
    let d ← near u (s - x j)
    let t ← quot u (w j) d
    let sb ← near u (st.2 + t)
    return (setAt st.1 j t, sb)) ((fun _ => 0), 0)
  loop 0 n (fun j (v : Vec) => do
    let q ← quot u (st.1 j) st.2
    return setAt v j q) (fun _ => 0)

/-- BasisLagrange.cpp:121-144 `eval_on_window` of an object whose barycentric weights are `w`. -/
noncomputable def lagrange (u : ℝ × ℝ) (n : ℕ) (x w : Vec) (s : ℝ) : Nd Vec := do
  let f ← findNode u x s (List.range n)
  match f with
  | some j => return setAt (fun _ => 0) j 1
  | none => baryFormula u n x w s

/-- `eval_on_window` of each class; for a Lagrange basis the weights have been computed by the constructor. -/
noncomputable def evalOnWindow (u : ℝ × ℝ) (b : Basis) (s tau : ℝ) : Nd Vec :=
  match b with
  | .legendre d => legendre u d s
  | .b0101 a => b0101 u a s tau
  | .lagrange x => do
    let w ← baryWeights u x.length (vecOf x)
    lagrange u x.length (vecOf x) w s

/-- GSpline.cpp:122-129, the loop of `get_interval`: `i` is the index of the head of the list. -/
noncomputable def scan (u : ℝ × ℝ) (t : ℝ) : ℕ → ℝ → List ℝ → Nd (Option ℕ)
  | _, _, [] => return none
  | i, left, x :: xs => do
    let right ← near u (left + x)
    if left < t ∧ t ≤ right then return some i else scan u t (i + 1) right xs

/-- GSpline.cpp:115-131 `get_interval`; without intervals the last line wraps around. -/
noncomputable def getInterval (u : ℝ × ℝ) (g : GSpline) (t : ℝ) : Nd ℕ :=
  if t ≤ g.dom.1 then return 0
  else do
    let o ← scan u t 0 g.dom.1 g.tau
    match o with
    | some i => return i
    | none => return if g.nIntervals = 0 then 2 ^ 64 - 1 else g.nIntervals - 1

/-- GSpline.cpp:149-159 `interval_to_window`. -/
noncomputable def intervalToWindow (u : ℝ × ℝ) (g : GSpline) (t : ℝ) (i : ℕ) : Nd ℝ := do
  let pre ← lift (segment g.tau 0 i)
  let tau ← lift (rd g.tau i)
  let sum ← Nd.sum u pre
  let left ← near u (g.dom.1 + sum)
  let d ← near u (t - left)
  let n ← near u (2 * d)
  let q ← quot u n tau
  near u (q - 1)

/-- The scalar product of GSpline.cpp:109-110. -/
def dot (u : ℝ × ℝ) (a b : List ℝ) : Nd ℝ := do
  let p ← (List.zipWith (· * ·) a b).mapM (near u)
  Nd.sum u p

/-- GSpline.cpp:102-112, `value_impl` at one point: the row of the result. -/
noncomputable def value (u : ℝ × ℝ) (g : GSpline) (t : ℝ) : Nd (List ℝ) := do
  let i ← getInterval u g t
  let s ← intervalToWindow u g t i
  let tau ← lift (rd g.tau i)
  let buf ← evalOnWindow u g.basis s tau
  (List.range g.codim).mapM fun c => do
    let seg ← lift (g.coefficientSegment i c)
    dot u seg ((List.range g.basis.dim).map buf)

end Rounded

end GSplines
