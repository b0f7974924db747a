import Verif.Model.Failure
import Verif.Model.Optim

/-!
# Specification: what a program sees of an object

A session is a list of calls; the answers are the values that the calls return and the exceptions that they throw.
-/

namespace GSplines.Spec

open GSplines

/-- A call on an interpolator. -/
inductive ICall where
  | solve (tau : List ℝ) (w : Pts)
  | interpolate (tau : List ℝ) (w : Pts)
  | coeff (y tau : List ℝ) (idx : ℕ)

/-- What the call returns: a vector or a spline. -/
inductive IAnswer where
  | vector (r : Res (List ℝ))
  | spline (r : Res GSpline)

/-- The entries of a vector of the given size that a call returned. -/
def entries (n : ℕ) (r : Res Vec) : Res (List ℝ) := r.map fun x => (List.range n).map x

/-- The object after the call, and the answer. -/
noncomputable def ICall.run (lu : LU) (s : Interp) : ICall → Interp × IAnswer
  | .solve tau w => ((Failure.solve lu tau w s).1, .vector (Failure.solve lu tau w s).2)
  | .interpolate tau w => ((Failure.interpolate lu tau w s).1, .spline (Failure.interpolate lu tau w s).2)
  | .coeff y tau idx => ((Failure.coeff lu y tau idx s).1, .vector (entries s.size (Failure.coeff lu y tau idx s).2))

/-- The answers of an interpolator to a list of calls. -/
noncomputable def ianswers (lu : LU) (s : Interp) : List ICall → List IAnswer
  | [] => []
  | c :: l => (c.run lu s).2 :: ianswers lu (c.run lu s).1 l

/-- The index that is passed to `get_coeff_derivative_wrt_tau` is the number of an interval, and there are as many lengths as intervals. -/
def ICall.InRange (n : ℕ) : ICall → Prop
  | .solve _ _ | .interpolate _ _ => True
  | .coeff _ tau idx => tau.length = n ∧ idx < n

/-- A call on a `SobolevNorm`. -/
inductive SCall where
  | cost (tau : List ℝ)
  | grad (tau buff : List ℝ)

/-- What the caller sees: the value, or the buffer and whether the call returned. -/
inductive SAnswer where
  | value (r : Res ℝ)
  | buffer (out : List ℝ) (r : Res Unit)

/-- The object after the call, and the answer. -/
noncomputable def SCall.run (lu : LU) (s : Sobolev) : SCall → Sobolev × SAnswer
  | .cost tau => ((Failure.cost lu tau s).1, .value (Failure.cost lu tau s).2)
  | .grad tau buff => ((Failure.grad lu tau buff s).1.1, .buffer (Failure.grad lu tau buff s).1.2 (Failure.grad lu tau buff s).2)

/-- The answers of a `SobolevNorm` to a list of calls. -/
noncomputable def sanswers (lu : LU) (s : Sobolev) : List SCall → List SAnswer
  | [] => []
  | c :: l => (c.run lu s).2 :: sanswers lu (c.run lu s).1 l

/-- A call of the solver on the cost term of the optimisation problem. -/
inductive TCall where
  | cost (v : Optim.TimeVar)
  | jacobian (v : Optim.TimeVar) (jac : Mat)

/-- The answers of the cost term to a list of calls, up to the first one that fails. -/
noncomputable def tanswers (lu : LU) (c : Optim.CostTerm) : List TCall → List (Res (ℝ ⊕ Mat))
  | [] => []
  | .cost v :: l =>
    match c.getCost lu v with
    | .error e => [.error e]
    | .ok (c, r) => .ok (.inl r) :: tanswers lu c l
  | .jacobian v jac :: l =>
    match c.fillJacobian lu v jac with
    | .error e => [.error e]
    | .ok (c, m) => .ok (.inr m) :: tanswers lu c l

/-- The solver knows the cost term only from its answers. -/
def BlackBox (lu : LU) (solver : Optim.Solver) : Prop :=
  ∀ opts (p q : Optim.Problem), q.var = p.var → q.con = p.con → (∀ l, tanswers lu q.cost l = tanswers lu p.cost l) → solver.run opts p = solver.run opts q

/-- Two matrices of the same size with the same entries. -/
def SameLF (A B : Colloc.LF) : Prop := A.rows = B.rows ∧ A.cols = B.cols ∧ ∀ i < A.rows, ∀ j < A.cols, A.mat i j = B.mat i j

/-- Both calls fail alike, or both succeed with related results. -/
def SameRes {α : Type} (R : α → α → Prop) (r q : Res α) : Prop := (∃ e, r = .error e ∧ q = .error e) ∨ ∃ x y, r = .ok x ∧ q = .ok y ∧ R x y

/-- Integrals with the same number of points and the same matrix. -/
def SameInteg (A B : Colloc.Integ) : Prop := SameLF A.lf B.lf ∧ A.nglp = B.nglp

end GSplines.Spec
