import Verif.Model.Interp
import Verif.Spec.GSpline
import Mathlib.Analysis.Calculus.IteratedDeriv.Defs

/-!
# Specification of the interpolation problem

Splines with coefficients `y` (ordered by interval, component, basis function), interval lengths `tau` and way points `w` (row, component).
-/

namespace GSplines.Spec

open GSplines

/-- The conditions of the interpolation problem for `n` intervals, `c` components and a basis with `2 h + 2` functions. -/
inductive Cond (n c h : ℕ)
  /-- the value at the start of an interval -/
  | start (iv : Fin n) (comp : Fin c)
  /-- the value at the end of an interval -/
  | stop (iv : Fin n) (comp : Fin c)
  /-- the derivative of order `j + 1` at the beginning -/
  | restL (comp : Fin c) (j : Fin h)
  /-- the derivative of order `j + 1` at the end -/
  | restR (comp : Fin c) (j : Fin h)
  /-- the difference of the derivatives of order `j + 1` where interval `iv + 1` follows interval `iv` -/
  | join (iv : Fin (n - 1)) (comp : Fin c) (j : Fin (2 * h))

/-- The number that a condition prescribes: a way point, or zero. -/
def Cond.target {n c h : ℕ} (w : ℕ → ℕ → ℝ) : Cond n c h → ℝ
  | .start iv comp => w iv comp
  | .stop iv comp => w (iv + 1) comp
  | _ => 0

/-- The quantity that a condition constrains, for the spline with coefficients `y`. -/
noncomputable def Cond.quantity {n c h : ℕ} (b : Basis) (tau : ℕ → ℝ) (y : ℕ → ℝ) : Cond n c h → ℝ
  | .start iv comp => piece b c tau y iv comp 0
  | .stop iv comp => piece b c tau y iv comp (tau iv)
  | .restL comp j => iteratedDeriv (j + 1) (piece b c tau y 0 comp) 0
  | .restR comp j => iteratedDeriv (j + 1) (piece b c tau y (n - 1) comp) (tau (n - 1))
  | .join iv comp j => iteratedDeriv (j + 1) (piece b c tau y iv comp) (tau iv) - iteratedDeriv (j + 1) (piece b c tau y (iv + 1) comp) 0

/-- The interpolation problem: every piece runs from its way point to the next one; the derivatives of orders `1 … dim/2 - 1` vanish at the beginning and at
the end; at the breakpoints between pieces the derivatives of orders `1 … dim - 2` agree. -/
structure Interpolates (b : Basis) (n c : ℕ) (tau : ℕ → ℝ) (w : ℕ → ℕ → ℝ) (y : ℕ → ℝ) : Prop where
  start : ∀ iv < n, ∀ comp < c, piece b c tau y iv comp 0 = w iv comp
  stop : ∀ iv < n, ∀ comp < c, piece b c tau y iv comp (tau iv) = w (iv + 1) comp
  restL : ∀ comp < c, ∀ d, 1 ≤ d → d ≤ b.dim / 2 - 1 → iteratedDeriv d (piece b c tau y 0 comp) 0 = 0
  restR : ∀ comp < c, ∀ d, 1 ≤ d → d ≤ b.dim / 2 - 1 → iteratedDeriv d (piece b c tau y (n - 1) comp) (tau (n - 1)) = 0
  join : ∀ iv, iv + 1 < n → ∀ comp < c, ∀ d, 1 ≤ d → d ≤ b.dim - 2 →
    iteratedDeriv d (piece b c tau y iv comp) (tau iv) = iteratedDeriv d (piece b c tau y (iv + 1) comp) 0

/-- What a user expects of an interpolating spline: its value at breakpoint `i` is way point `i`; where interval `i + 1` follows interval `i` all derivatives
up to order `dim - 2` agree; the derivatives of orders `1 … dim/2 - 1` vanish at the beginning and at the end. -/
structure Meets (g : GSpline) (w : ℕ → ℕ → ℝ) : Prop where
  points : ∀ i ≤ g.tau.length, ∃ v, g.value (brk g i) = .ok v ∧ v.length = g.codim ∧ ∀ c < g.codim, v[c]? = some (w i c)
  joins : ∀ i, i + 1 < g.tau.length → ∀ c < g.codim, ∀ d ≤ g.basis.dim - 2,
    iteratedDeriv d (curve g i c) (brk g (i + 1)) = iteratedDeriv d (curve g (i + 1) c) (brk g (i + 1))
  restL : ∀ c < g.codim, ∀ d, 1 ≤ d → d ≤ g.basis.dim / 2 - 1 → iteratedDeriv d (curve g 0 c) g.dom.1 = 0
  restR : ∀ c < g.codim, ∀ d, 1 ≤ d → d ≤ g.basis.dim / 2 - 1 → iteratedDeriv d (curve g (g.tau.length - 1) c) g.dom.2 = 0

/-- `y` solves the linear system with matrix `m` and right hand side `v`, of the given size. -/
def Solves (size : ℕ) (m : Mat) (y v : ℕ → ℝ) : Prop := ∀ r < size, ∑ k ∈ Finset.range size, m r k * y k = v r

/-- The matrix can be inverted. -/
def Invertible (size : ℕ) (m : Mat) : Prop :=
  ∃ inv : Mat, ∀ i < size, ∀ j < size,
    ∑ k ∈ Finset.range size, inv i k * m k j = (if i = j then 1 else 0) ∧ ∑ k ∈ Finset.range size, m i k * inv k j = if i = j then 1 else 0

/-- What is assumed of the linear solver: it succeeds on matrices that can be inverted, and if it succeeds it returns a solution. -/
structure LUContract (lu : LU) : Prop where
  succeeds : ∀ size m, Invertible size m → lu.succeeds size m = true
  solves : ∀ size m v, lu.succeeds size m = true → Solves size m (lu.solve size m v) v

/-- The states of an interpolator object: it is constructed, and then used any number of times in any order (a call that throws leaves it as it was). -/
inductive Reach (lu : LU) (codim n : ℕ) (b : Basis) : Interp → Prop
  | make {junk : Vec} {s : Interp} : Interp.make codim n b junk = .ok s → Reach lu codim n b s
  | solve {s s' : Interp} {tau : List ℝ} {w : Pts} {x : List ℝ} :
      Reach lu codim n b s → s.solveInterpolation lu tau w = .ok (s', x) → Reach lu codim n b s'
  | coeff {s s' : Interp} {y tau : List ℝ} {idx : ℕ} {x : Vec} :
      Reach lu codim n b s → s.coeffDerivative lu y tau idx = .ok (s', x) → Reach lu codim n b s'

end GSplines.Spec
