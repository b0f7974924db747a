import Verif.Spec.FnDeriv
import Verif.Spec.Rounding

/-!
# Specification: where small errors have small effects on the value of a function
-/

namespace GSplines.Spec

open GSplines Fn Topology

/-- The point of the interval `d` that is nearest to `t`. -/
noncomputable def clamp (d : ℝ × ℝ) (t : ℝ) : ℝ := max d.1 (min d.2 t)

/-- `t` is a point where the function does not jump: the functions of a user are continuous; the pieces of a spline that meet at `t` have the same value there (and with a
Lagrange basis rounding does not decide whether the point is treated as a node); the pieces of a concatenation that meet at `t` have the same value there; each function of a
composition does not jump at the point where it is evaluated. (A concatenation is evaluated at the nearest point of its domain.) -/
inductive Steady : Fn → ℝ → Prop
  | const (d : ℝ × ℝ) (v : List ℝ) (t : ℝ) : Steady (.const d v) t
  | dil (d : ℝ × ℝ) (c t : ℝ) : Steady (.dil d c) t
  | ident (d : ℝ × ℝ) (t : ℝ) : Steady (.ident d) t
  | exp (d : ℝ × ℝ) (t : ℝ) : Steady (.exp d) t
  | cos (d : ℝ × ℝ) (t : ℝ) : Steady (.cos d) t
  | sin (d : ℝ × ℝ) (t : ℝ) : Steady (.sin d) t
  | poly (d : ℝ × ℝ) (a : List ℝ) (t : ℝ) : Steady (.poly d a) t
  | user (d : ℝ × ℝ) (c : ℕ) (F : ℕ → ℝ → ℕ → ℝ) (t : ℝ) : (∀ k < c, ContinuousAt (fun s => F 0 s k) t) → Steady (.user d c F) t
  | gspl (g : GSpline) (t : ℝ) : (∀ i, Touches g t i → Clear g.basis (window (vecOf g.tau i) (t - brk g i))) →
      (∀ i j, Touches g t i → Touches g t j → ∀ c < g.codim, curve g i c t = curve g j c t) → Steady (.gspl g) t
  | dot (d : ℝ × ℝ) (f g : Fn) (t : ℝ) : Steady f t → Steady g t → Steady (.dot d f g) t
  | sum (d : ℝ × ℝ) (c : ℕ) (args : List Fn) (t : ℝ) : (∀ a ∈ args, Steady a t) → Steady (.expr d c .sum args) t
  | mul (d : ℝ × ℝ) (c : ℕ) (args : List Fn) (t : ℝ) : (∀ a ∈ args, Steady a t) → Steady (.expr d c .mul args) t
  | comp (d : ℝ × ℝ) (c : ℕ) (args : List Fn) (t : ℝ) :
      (∀ pre a post, args = pre ++ a :: post → Steady a (through pre t)) → Steady (.expr d c .comp args) t
  | concat (d : ℝ × ℝ) (c : ℕ) (args : List Fn) (t : ℝ) : (∀ a ∈ args, a.dom.1 ≤ clamp d t → clamp d t ≤ a.dom.2 → Steady a (clamp d t)) →
      (∀ a ∈ args, ∀ b ∈ args, a.dom.2 = clamp d t → b.dom.1 = clamp d t → ∀ k < c, val a k (clamp d t) = val b k (clamp d t)) → Steady (.expr d c .concat args) t
  | unique (d : ℝ × ℝ) (c : ℕ) (args : List Fn) (t : ℝ) : (∀ a ∈ args, Steady a t) → Steady (.expr d c .unique args) t
  | neg (d : ℝ × ℝ) (c : ℕ) (args : List Fn) (t : ℝ) : (∀ a ∈ args, Steady a t) → Steady (.expr d c .neg args) t

end GSplines.Spec
