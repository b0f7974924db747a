import Verif.Model.Optim

/-!
# Specification of the solver options
-/

namespace GSplines.Spec

open GSplines.Optim

/-- Position of the kind of an option value in the order in which options are forwarded: strings, integers, floating point numbers. -/
def kind : OptVal → ℕ
  | .str _ => 0
  | .int _ => 1
  | .dbl _ => 2

/-- The documented defaults. -/
noncomputable def optionDefaults : List (String × OptVal) :=
  [("linear_solver", .str "mumps"), ("jacobian_approximation", .str "exact"), ("fast_step_computation", .str "yes"), ("derivative_test", .str "none"),
   ("hessian_approximation", .str "limited-memory"), ("jac_c_constant", .str "yes"), ("print_timing_statistics", .str "no"),
   ("dependency_detector", .str "none"), ("dependency_detection_with_rhs", .str "no"), ("print_level", .int 0), ("tol", .dbl (1 / 10 ^ 3))]

/-- What a program can do with the options: set one, or run an optimisation. -/
inductive OptionEvent where
  | set (name : String) (v : OptVal)
  | solve

/-- The value of an option of one kind after a history: the one set last, or the default. -/
def lastSet (defaults : List (String × OptVal)) (name : String) (k : ℕ) : List OptionEvent → Option OptVal
  | [] => (defaults.find? fun p => p.1 = name ∧ kind p.2 = k).map Prod.snd
  | .set n v :: h => if n = name ∧ kind v = k then some v else lastSet defaults name k h
  | .solve :: h => lastSet defaults name k h

/-- The static optional after a history, given with the most recent event first. -/
noncomputable def optionState : List OptionEvent → Option Options
  | [] => none
  | .set n v :: h => setOption (optionState h) n v
  | .solve :: h => (forward (optionState h)).1

end GSplines.Spec
