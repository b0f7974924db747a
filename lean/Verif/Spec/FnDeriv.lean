import Verif.Spec.Fn
import Verif.Proofs.BasisSpec
import Mathlib.Topology.Order.Real

/-!
# Specification of the derivatives of function expressions
-/

namespace GSplines.Spec

open GSplines Fn Filter Topology

/-- Component `k` of the value that the object returns at `t` (`0` if it throws). -/
noncomputable def val (f : Fn) (k : ℕ) (t : ℝ) : ℝ :=
  match f.call [t] with
  | .ok [r] => r.getD k 0
  | _ => 0

/-- The first function of a list that represents a composition is applied first; this is the point at which the next one is evaluated. -/
noncomputable def through (l : List Fn) (t : ℝ) : ℝ := l.foldl (fun x b => val b 0 x) t

/-- What the elements of an expression must satisfy: numbers of components that fit, and the domain of the expression is the one of the
first element (for a concatenation, the pieces fill the domain). -/
def Shape (d : ℝ × ℝ) (c : ℕ) : Ty → List Fn → Prop
  | .sum, l => (∃ a rest, l = a :: rest ∧ a.dom = d) ∧ ∀ a ∈ l, a.codim = c
  | .mul, l => ∃ a rest, l = a :: rest ∧ a.dom = d ∧ a.codim = c ∧ ∀ b ∈ rest, b.codim = 1
  | .comp, l => (∃ a rest, l = a :: rest ∧ a.dom = d) ∧ ∃ init z, l = init ++ [z] ∧ z.codim = c ∧ ∀ b ∈ init, b.codim = 1
  | .concat, l => Pieces l d.1 d.2 ∧ ∀ a ∈ l, a.codim = c
  | .unique, l | .neg, l => ∃ a, l = [a] ∧ a.dom = d ∧ a.codim = c

/-- Function objects all of whose parts can be evaluated and derived: polynomials have a coefficient, splines have a usable basis, intervals of
positive length and the right number of coefficients, the two functions of a dot product have the same domain and number of components, and the
elements of expressions satisfy `Shape`. -/
inductive Good : Fn → Prop
  | const (d : ℝ × ℝ) (v : List ℝ) : Good (.const d v)
  | dil (d : ℝ × ℝ) (c : ℝ) : Good (.dil d c)
  | ident (d : ℝ × ℝ) : Good (.ident d)
  | exp (d : ℝ × ℝ) : Good (.exp d)
  | cos (d : ℝ × ℝ) : Good (.cos d)
  | sin (d : ℝ × ℝ) : Good (.sin d)
  | poly (d : ℝ × ℝ) (a : List ℝ) : a ≠ [] → Good (.poly d a)
  | user (d : ℝ × ℝ) (c : ℕ) (F : ℕ → ℝ → ℕ → ℝ) : Good (.user d c F)
  | gspl (g : GSpline) : g.basis.Valid → Consistent g → Positive g → g.dom.1 ≤ g.dom.2 → Good (.gspl g)
  | dot (d : ℝ × ℝ) (f g : Fn) : Good f → Good g → f.codim = g.codim → f.dom = d → g.dom = d → Good (.dot d f g)
  | expr (d : ℝ × ℝ) (c : ℕ) (ty : Ty) (args : List Fn) : (∀ a ∈ args, Good a) → Shape d c ty args → Good (.expr d c ty args)

/-- `t` is a point where the parts of the object are smooth: the functions of a user really are the derivatives of each other around `t`; around `t` a
spline stays in one interval (and a Lagrange basis is not evaluated within `1e-9` of a node); a concatenation is evaluated inside one of its pieces; each function of a composition is smooth at the point where it is evaluated. -/
inductive Smooth : Fn → ℝ → Prop
  | const (d : ℝ × ℝ) (v : List ℝ) (t : ℝ) : Smooth (.const d v) t
  | dil (d : ℝ × ℝ) (c t : ℝ) : Smooth (.dil d c) t
  | ident (d : ℝ × ℝ) (t : ℝ) : Smooth (.ident d) t
  | exp (d : ℝ × ℝ) (t : ℝ) : Smooth (.exp d) t
  | cos (d : ℝ × ℝ) (t : ℝ) : Smooth (.cos d) t
  | sin (d : ℝ × ℝ) (t : ℝ) : Smooth (.sin d) t
  | poly (d : ℝ × ℝ) (a : List ℝ) (t : ℝ) : Smooth (.poly d a) t
  | user (d : ℝ × ℝ) (c : ℕ) (F : ℕ → ℝ → ℕ → ℝ) (t : ℝ) :
      (∀ᶠ s in 𝓝 t, ∀ n, ∀ k < c, HasDerivAt (fun u => F n u k) (F (n + 1) s k) s) → Smooth (.user d c F) t
  | gspl (g : GSpline) (t : ℝ) (i : ℕ) :
      (∀ᶠ s in 𝓝 t, Located g s i ∧ g.basis.CleanAt (window (vecOf g.tau i) (s - brk g i))) → Smooth (.gspl g) t
  | dot (d : ℝ × ℝ) (f g : Fn) (t : ℝ) : Smooth f t → Smooth g t → Smooth (.dot d f g) t
  | sum (d : ℝ × ℝ) (c : ℕ) (args : List Fn) (t : ℝ) : (∀ a ∈ args, Smooth a t) → Smooth (.expr d c .sum args) t
  | mul (d : ℝ × ℝ) (c : ℕ) (args : List Fn) (t : ℝ) : (∀ a ∈ args, Smooth a t) → Smooth (.expr d c .mul args) t
  | comp (d : ℝ × ℝ) (c : ℕ) (args : List Fn) (t : ℝ) :
      (∀ pre a post, args = pre ++ a :: post → Smooth a (through pre t)) → Smooth (.expr d c .comp args) t
  | concat (d : ℝ × ℝ) (c : ℕ) (args : List Fn) (t : ℝ) (a : Fn) : a ∈ args → a.dom.1 < t → t < a.dom.2 → Smooth a t →
      Smooth (.expr d c .concat args) t
  | unique (d : ℝ × ℝ) (c : ℕ) (args : List Fn) (t : ℝ) : (∀ a ∈ args, Smooth a t) → Smooth (.expr d c .unique args) t
  | neg (d : ℝ × ℝ) (c : ℕ) (args : List Fn) (t : ℝ) : (∀ a ∈ args, Smooth a t) → Smooth (.expr d c .neg args) t

/-- `deriv(n)` does not reach a Basis0101 spline with an order above two (`C14_derivative_basis0101_false`). Products, compositions and dot products are
derived one order at a time. -/
inductive OrderOk (n : ℕ) : Fn → Prop
  | const (d : ℝ × ℝ) (v : List ℝ) : OrderOk n (.const d v)
  | dil (d : ℝ × ℝ) (c : ℝ) : OrderOk n (.dil d c)
  | ident (d : ℝ × ℝ) : OrderOk n (.ident d)
  | exp (d : ℝ × ℝ) : OrderOk n (.exp d)
  | cos (d : ℝ × ℝ) : OrderOk n (.cos d)
  | sin (d : ℝ × ℝ) : OrderOk n (.sin d)
  | poly (d : ℝ × ℝ) (a : List ℝ) : OrderOk n (.poly d a)
  | user (d : ℝ × ℝ) (c : ℕ) (F : ℕ → ℝ → ℕ → ℝ) : OrderOk n (.user d c F)
  | gspl (g : GSpline) : g.basis.MatOrderOk n → OrderOk n (.gspl g)
  | dot (d : ℝ × ℝ) (f g : Fn) : OrderOk n (.dot d f g)
  | mul (d : ℝ × ℝ) (c : ℕ) (args : List Fn) : OrderOk n (.expr d c .mul args)
  | comp (d : ℝ × ℝ) (c : ℕ) (args : List Fn) : OrderOk n (.expr d c .comp args)
  | expr (d : ℝ × ℝ) (c : ℕ) (ty : Ty) (args : List Fn) : (∀ a ∈ args, OrderOk n a) → OrderOk n (.expr d c ty args)

/-- The function objects that a program can build with the public interface, where the operands of products and dot products have the same domain, the
operands of concatenations fill an interval, and compositions and concatenations got the domain they should have
(`C04_domain_false`, `C05_domain_false`). As for `Built`, unary minus is applied to plain functions, and `+=`, `*=` get arguments that fit. -/
inductive Regular : Fn → Prop
  | const (d : ℝ × ℝ) (v : List ℝ) : v ≠ [] → Regular (.const d v)
  | dil (d : ℝ × ℝ) (c : ℝ) : Regular (.dil d c)
  | ident (d : ℝ × ℝ) : Regular (.ident d)
  | exp (d : ℝ × ℝ) : Regular (.exp d)
  | cos (d : ℝ × ℝ) : Regular (.cos d)
  | sin (d : ℝ × ℝ) : Regular (.sin d)
  | poly (d : ℝ × ℝ) (a : List ℝ) : a ≠ [] → Regular (.poly d a)
  | user (d : ℝ × ℝ) (c : ℕ) (F : ℕ → ℝ → ℕ → ℝ) : 0 < c → Regular (.user d c F)
  | gspl (g : GSpline) : 0 < g.codim → g.basis.Valid → Consistent g → Positive g → g.dom.1 ≤ g.dom.2 → Regular (.gspl g)
  | toExpr {f : Fn} : Regular f → Regular f.toExpr
  | wrap {f : Fn} : Regular f → Regular f.wrap
  | add {f g r : Fn} : Regular f → Regular g → Fn.add f g = .ok r → Regular r
  | neg {f : Fn} : Regular f → f.parts.1 = .unique → Regular f.neg
  | sub {f g r : Fn} : Regular f → Regular g → g.parts.1 = .unique → Fn.sub f g = .ok r → Regular r
  | mul {f g r : Fn} (ov : Ov) : Regular f → Regular g → f.dom = g.dom → Fn.mul ov f g = .ok r → Regular r
  | smul {f r : Fn} (k : ℝ) : Regular f → Fn.smul k f = .ok r → Regular r
  | compose {f g r : Fn} (ov : Ov) : Regular f → Regular g → Fn.compose ov f g = .ok r → r.dom = g.dom → Regular r
  | concat {f g r : Fn} (ov : Ov) : Regular f → Regular g → Joined f → Joined g → f.dom.2 = g.dom.1 → Fn.concat ov f g = .ok r →
      r.dom = (f.dom.1, g.dom.2) → Regular r
  | dot {f g r : Fn} (ov : Ov) : Regular f → Regular g → f.dom = g.dom → Fn.dotOp ov f g = .ok r → Regular r
  | addInPlace {f g : Fn} : Regular f → Regular g → f.codim = g.codim → Regular (Fn.addInPlace f g)
  | mulInPlace {f g : Fn} : Regular f → Regular g → g.codim = 1 → Regular (Fn.mulInPlace f g)
  | derivate {f r : Fn} (n : ℕ) : Regular f → OrderOk n f → Fn.derivate f n = .ok r → Regular r
  | deriv {f r : Fn} (n : ℕ) : Regular f → OrderOk n f → Fn.deriv f n = .ok r → Regular r

end GSplines.Spec
