import Verif.Model.Serial

/-!
# Specification: dictionaries that describe a basis or a spline
-/

namespace GSplines.Spec

open GSplines Serial

/-- A python value that is a count: an `int` from zero to `2^64 - 1`, or a `bool`, which python counts as the integer zero or one. -/
inductive IsCount : PyVal → ℕ → Prop
  | int (n : ℕ) : n < 2 ^ 64 → IsCount (.int n) n
  | false : IsCount (.bool Bool.false) 0
  | true : IsCount (.bool Bool.true) 1

/-- A python value that is a number. -/
inductive IsNumber : PyVal → ℝ → Prop
  | float (x : ℝ) : IsNumber (.float x) x
  | int (n : ℤ) : IsNumber (.int n) n
  | false : IsNumber (.bool Bool.false) 0
  | true : IsNumber (.bool Bool.true) 1

/-- A dictionary that describes the basis `b`: it has a name, a count and a list of numbers under the three keys (other keys may be there too), and these are the dimension for a
Legendre basis, at least two nodes for a Lagrange basis, one parameter for basis 0101. -/
def DescribesBasis (d : List (String × PyVal)) (b : Basis) : Prop :=
  ∃ name vn n l params, d.lookup "name" = some (.str name) ∧ d.lookup "dim" = some vn ∧ IsCount vn n ∧ d.lookup "parameters" = some (.list l) ∧ List.Forall₂ IsNumber l params ∧
    ((name = "legendre" ∧ b = .legendre n) ∨ (name = "lagrange" ∧ 2 ≤ params.length ∧ b = .lagrange params) ∨ (name = "basis0101" ∧ ∃ a, params = [a] ∧ b = .b0101 a))

/-- A dictionary that describes the spline `g`: two floats for the domain, counts of components and intervals, a dictionary of the basis and two lists that convert to vectors. The
number of coefficients must be the product of the counts and the dimension; the number of lengths is free. -/
def DescribesSpline (conv : Convert) (d : List (String × PyVal)) (g : GSpline) : Prop :=
  ∃ vc vn n db lc lt, d.lookup "domain_left_boundary" = some (.float g.dom.1) ∧ d.lookup "domain_right_boundary" = some (.float g.dom.2) ∧ g.dom.1 ≤ g.dom.2 ∧
    d.lookup "codom_dim" = some vc ∧ IsCount vc g.codim ∧ d.lookup "number_of_intervals" = some vn ∧ IsCount vn n ∧
    d.lookup "basis" = some (.dict db) ∧ DescribesBasis db g.basis ∧ d.lookup "coefficients" = some (.list lc) ∧ conv lc = .ok g.coeffs ∧
    d.lookup "interval_lengths" = some (.list lt) ∧ conv lt = .ok g.tau ∧ g.coeffs.length = n * g.basis.dim * g.codim

end GSplines.Spec
