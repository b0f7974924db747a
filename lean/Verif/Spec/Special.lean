import Verif.Model.Special
import Verif.Spec.GSpline
import Mathlib.Data.EReal.Inv

/-!
# Specification: numbers that are not finite
-/

namespace GSplines.Spec

open GSplines

/-- A double that is neither an infinity nor "not a number". -/
def IsFinite : Dbl → Prop
  | .fin _ => True
  | _ => False

/-- A double as an extended real number; of no meaning for "not a number". -/
noncomputable def ext : Dbl → EReal
  | .nan => 0
  | .inf s => if s then ⊥ else ⊤
  | .fin x => x

/-- The basis with the same (finite) parameters. -/
def exactBasis : Basis → DBasis
  | .legendre d => .legendre d
  | .lagrange x => .lagrange (x.map .fin)
  | .b0101 a => .b0101 (.fin a)

/-- The spline with the same (finite) numbers. -/
def exact (g : GSpline) : DSpline where
  dom := (.fin g.dom.1, .fin g.dom.2)
  codim := g.codim
  basis := exactBasis g.basis
  coeffs := g.coeffs.map .fin
  tau := g.tau.map .fin

/-- A spline that a user can build: there is an interval, the number of coefficients fits, and the basis is one that can be evaluated. Nothing is said about the
numbers. -/
def Sized (g : DSpline) : Prop :=
  g.tau ≠ [] ∧ g.coeffs.length = g.tau.length * g.basis.dim * g.codim ∧
    match g.basis with
    | .legendre d => 2 ≤ d
    | .lagrange x => x ≠ []
    | .b0101 _ => True

/-- The place of coefficient `k` of component `c` in interval `i`. -/
def place (g : GSpline) (i c k : ℕ) : ℕ := i * g.basis.dim * g.codim + g.basis.dim * c + k

/-- The spline, with another number at place `k` of the coefficients. -/
def withCoeff (g : DSpline) (k : ℕ) (x : Dbl) : DSpline := { g with coeffs := g.coeffs.set k x }

/-- The spline, with another length of interval `j`. -/
def withLength (g : DSpline) (j : ℕ) (x : Dbl) : DSpline := { g with tau := g.tau.set j x }

end GSplines.Spec
