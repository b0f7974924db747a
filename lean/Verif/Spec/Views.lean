import Verif.Model.Views
import Verif.Spec.Uninit

/-!
# Specification: a program that copies what an interpolator returns

The same programs as in `Model/Views.lean`, where every returned vector is copied at once and only copies are passed on.
-/

namespace GSplines.Spec

open GSplines Views

/-- The object, and the copies of the returned vectors. -/
structure CProg where
  obj : Interp
  held : List (Option (List ℝ))

/-- The copy that the program passes. -/
def CProg.src (p : CProg) : Arg → Option (List ℝ)
  | .own y => some y
  | .held k => (p.held[k]?).join

/-- The next call. -/
noncomputable def CProg.call (lu : LU) (p : CProg) : Call → CProg
  | .solve tau w => ⟨(Failure.solve lu tau w p.obj).1, p.held ++ [(Failure.solve lu tau w p.obj).2.toOption]⟩
  | .interpolate tau w => ⟨(Failure.interpolate lu tau w p.obj).1, p.held ++ [none]⟩
  | .coeff a tau idx =>
    match p.src a with
    | none => ⟨p.obj, p.held ++ [none]⟩
    | some y => ⟨(Failure.coeff lu y tau idx p.obj).1, p.held ++ [(entries p.obj.size (Failure.coeff lu y tau idx p.obj).2).toOption]⟩

/-- The whole program. -/
noncomputable def crun (lu : LU) (s : Interp) (l : List Call) : CProg := l.foldl (CProg.call lu) ⟨s, []⟩

/-- The copy of what call number `k` returned. -/
def CProg.copy (p : CProg) (k : ℕ) : Option (List ℝ) := (p.held[k]?).join

/-- The call is one of `solve_interpolation` and `interpolate`. -/
def Solving : Call → Prop
  | .solve _ _ | .interpolate _ _ => True
  | .coeff _ _ _ => False

/-- Call number `k` is a call of `solve_interpolation`, and the object has not been asked to solve again. -/
def LastSolve (l : List Call) (k : ℕ) : Prop :=
  (∃ tau w, l[k]? = some (.solve tau w)) ∧ ∀ j c, k < j → l[j]? = some c → ¬ Solving c

/-- Call number `k` is a call of `get_coeff_derivative_wrt_tau`, and there has been no other since. -/
def LastCoeff (l : List Call) (k : ℕ) : Prop :=
  (∃ a tau idx, l[k]? = some (.coeff a tau idx)) ∧ ∀ j c, k < j → l[j]? = some c → Solving c

/-- `get_coeff_derivative_wrt_tau` is given vectors of the program, or the result of the last `solve_interpolation`. -/
def PassesCurrent (l : List Call) : Prop :=
  ∀ j k tau idx, l[j]? = some (.coeff (.held k) tau idx) → LastSolve (l.take j) k

end GSplines.Spec
