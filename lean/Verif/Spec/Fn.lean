import Verif.Model.Fn
import Verif.Spec.GSpline

/-!
# Specification of function expressions
-/

namespace GSplines.Spec

open GSplines Fn

/-- The function objects that a program can build with the public interface. The side conditions say which calls are excluded:
functions without components; `DotProduct` objects are built by `dot`; unary minus of something that is not a plain function (the result cannot be
evaluated, `C02_neg_false`); `+=` with another number of components and `*=` with a function of several components, which the code accepts without checking
(`C09_add_unchecked`, `C09_mul_unchecked`). -/
inductive Built : Fn → Prop
  | const (d : ℝ × ℝ) (v : List ℝ) : v ≠ [] → Built (.const d v)
  | dil (d : ℝ × ℝ) (c : ℝ) : Built (.dil d c)
  | ident (d : ℝ × ℝ) : Built (.ident d)
  | exp (d : ℝ × ℝ) : Built (.exp d)
  | cos (d : ℝ × ℝ) : Built (.cos d)
  | sin (d : ℝ × ℝ) : Built (.sin d)
  | poly (d : ℝ × ℝ) (a : List ℝ) : Built (.poly d a)
  | user (d : ℝ × ℝ) (c : ℕ) (F : ℕ → ℝ → ℕ → ℝ) : 0 < c → Built (.user d c F)
  | gspl (g : GSpline) : 0 < g.codim → Built (.gspl g)
  | toExpr {f : Fn} : Built f → Built f.toExpr
  | wrap {f : Fn} : Built f → Built f.wrap
  | add {f g r : Fn} : Built f → Built g → Fn.add f g = .ok r → Built r
  | neg {f : Fn} : Built f → f.parts.1 = .unique → Built f.neg
  | sub {f g r : Fn} : Built f → Built g → g.parts.1 = .unique → Fn.sub f g = .ok r → Built r
  | mul {f g r : Fn} (ov : Ov) : Built f → Built g → Fn.mul ov f g = .ok r → Built r
  | smul {f r : Fn} (k : ℝ) : Built f → Fn.smul k f = .ok r → Built r
  | compose {f g r : Fn} (ov : Ov) : Built f → Built g → Fn.compose ov f g = .ok r → Built r
  | concat {f g r : Fn} (ov : Ov) : Built f → Built g → Fn.concat ov f g = .ok r → Built r
  | dot {f g r : Fn} (ov : Ov) : Built f → Built g → Fn.dotOp ov f g = .ok r → Built r
  | addInPlace {f g : Fn} : Built f → Built g → f.codim = g.codim → Built (Fn.addInPlace f g)
  | mulInPlace {f g : Fn} : Built f → Built g → g.codim = 1 → Built (Fn.mulInPlace f g)
  | derivate {f r : Fn} (n : ℕ) : Built f → f.derivate n = .ok r → Built r
  | deriv {f r : Fn} (n : ℕ) : Built f → Fn.deriv f n = .ok r → Built r

/-- Sum of two matrices of values: entry by entry. -/
def addRows (x y : Rows) : Rows := List.zipWith (List.zipWith (· + ·)) x y

/-- Difference of two matrices of values. -/
def subRows (x y : Rows) : Rows := List.zipWith (List.zipWith (· - ·)) x y

/-- The product of the values of two functions at one point: the components of the one with more components, each multiplied with the value of the other
one. -/
def mulRow (a b : List ℝ) : List ℝ := if b.length ≤ a.length then a.map (· * b.headD 0) else b.map (· * a.headD 0)

/-- Product of two matrices of values, point by point. -/
def mulRows (x y : Rows) : Rows := List.zipWith mulRow x y

/-- The domains of the functions are intervals of positive length which fill the interval from `a` to `b`, in order and without gaps. -/
def Pieces : List Fn → ℝ → ℝ → Prop
  | [], _, _ => False
  | [f], a, b => f.dom = (a, b) ∧ a < b
  | f :: g :: l, a, b => f.dom.1 = a ∧ a < f.dom.2 ∧ Pieces (g :: l) f.dom.2 b

/-- The domain of a function is an interval of positive length and, if it is a concatenation, its pieces fill this interval. -/
def Joined : Fn → Prop
  | expr d _ .concat args => Pieces args d.1 d.2
  | f => f.dom.1 < f.dom.2

end GSplines.Spec
