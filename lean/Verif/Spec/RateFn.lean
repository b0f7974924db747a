import Verif.Spec.RoundingFn

/-!
# Specification: where the effects of errors on the value of a function are proportional to them
-/

namespace GSplines.Spec

open GSplines Fn

/-- As `Steady`, but near the points where they are evaluated the functions of a user are Lipschitz: their differences are proportional to those of the points. -/
inductive Calm : Fn → ℝ → Prop
  | const (d : ℝ × ℝ) (v : List ℝ) (t : ℝ) : Calm (.const d v) t
  | dil (d : ℝ × ℝ) (c t : ℝ) : Calm (.dil d c) t
  | ident (d : ℝ × ℝ) (t : ℝ) : Calm (.ident d) t
  | exp (d : ℝ × ℝ) (t : ℝ) : Calm (.exp d) t
  | cos (d : ℝ × ℝ) (t : ℝ) : Calm (.cos d) t
  | sin (d : ℝ × ℝ) (t : ℝ) : Calm (.sin d) t
  | poly (d : ℝ × ℝ) (a : List ℝ) (t : ℝ) : Calm (.poly d a) t
  | user (d : ℝ × ℝ) (c : ℕ) (F : ℕ → ℝ → ℕ → ℝ) (t : ℝ) :
      (∀ k < c, ∃ L, ∃ δ > 0, ∀ s s', |s - t| ≤ δ → |s' - t| ≤ δ → |F 0 s k - F 0 s' k| ≤ L * |s - s'|) → Calm (.user d c F) t
  | gspl (g : GSpline) (t : ℝ) : (∀ i, Touches g t i → Clear g.basis (window (vecOf g.tau i) (t - brk g i))) →
      (∀ i j, Touches g t i → Touches g t j → ∀ c < g.codim, curve g i c t = curve g j c t) → Calm (.gspl g) t
  | dot (d : ℝ × ℝ) (f g : Fn) (t : ℝ) : Calm f t → Calm g t → Calm (.dot d f g) t
  | sum (d : ℝ × ℝ) (c : ℕ) (args : List Fn) (t : ℝ) : (∀ a ∈ args, Calm a t) → Calm (.expr d c .sum args) t
  | mul (d : ℝ × ℝ) (c : ℕ) (args : List Fn) (t : ℝ) : (∀ a ∈ args, Calm a t) → Calm (.expr d c .mul args) t
  | comp (d : ℝ × ℝ) (c : ℕ) (args : List Fn) (t : ℝ) :
      (∀ pre a post, args = pre ++ a :: post → Calm a (through pre t)) → Calm (.expr d c .comp args) t
  | concat (d : ℝ × ℝ) (c : ℕ) (args : List Fn) (t : ℝ) : (∀ a ∈ args, a.dom.1 ≤ clamp d t → clamp d t ≤ a.dom.2 → Calm a (clamp d t)) →
      (∀ a ∈ args, ∀ b ∈ args, a.dom.2 = clamp d t → b.dom.1 = clamp d t → ∀ k < c, val a k (clamp d t) = val b k (clamp d t)) → Calm (.expr d c .concat args) t
  | unique (d : ℝ × ℝ) (c : ℕ) (args : List Fn) (t : ℝ) : (∀ a ∈ args, Calm a t) → Calm (.expr d c .unique args) t
  | neg (d : ℝ × ℝ) (c : ℕ) (args : List Fn) (t : ℝ) : (∀ a ∈ args, Calm a t) → Calm (.expr d c .neg args) t

end GSplines.Spec
