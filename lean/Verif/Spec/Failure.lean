import Verif.Model.Failure
import Verif.Spec.Sobolev
import Verif.Spec.GSpline

/-!
# Specification: calls that throw, and the histories in which they occur
-/

namespace GSplines.Spec

open GSplines

/-- The outcomes that are exceptions: the caller can catch them and go on using the object. -/
def Thrown : Err → Prop
  | .invalidArgument | .runtimeError | .logicError | .badOptionalAccess | .typeError => True
  | .assertFail | .ub | .notFinite => False

/-- The call ended with an exception. -/
def Throws {α : Type} (r : Res α) : Prop := ∃ e, r = .error e ∧ Thrown e

/-- The program goes on after the call: it returned, or it threw an exception that was caught. -/
def GoesOn {α : Type} (r : Res α) : Prop := (∃ x, r = .ok x) ∨ Throws r

/-- What a call that is modelled with the object at its end says when the object after an exception is dropped. -/
def dropState {σ : Type} (r : σ × Res Unit) : Res σ :=
  match r with
  | (s, .ok _) => .ok s
  | (_, .error e) => .error e

/-- The same for a call that returns a value. -/
def dropState' {σ α : Type} (r : σ × Res α) : Res (σ × α) :=
  match r with
  | (s, .ok x) => .ok (s, x)
  | (_, .error e) => .error e

/-- The states of an interpolator on which calls may have thrown: constructed, then used any number of times in any order with any arguments. -/
inductive IHistory (lu : LU) (codim n : ℕ) (b : Basis) : Interp → Prop
  | make {junk : Vec} {s : Interp} : Interp.make codim n b junk = .ok s → IHistory lu codim n b s
  | solve {s : Interp} {tau : List ℝ} {w : Pts} :
      IHistory lu codim n b s → GoesOn (Failure.solve lu tau w s).2 → IHistory lu codim n b (Failure.solve lu tau w s).1
  | interpolate {s : Interp} {tau : List ℝ} {w : Pts} :
      IHistory lu codim n b s → GoesOn (Failure.interpolate lu tau w s).2 → IHistory lu codim n b (Failure.interpolate lu tau w s).1
  | coeff {s : Interp} {y tau : List ℝ} {idx : ℕ} :
      IHistory lu codim n b s → GoesOn (Failure.coeff lu y tau idx s).2 → IHistory lu codim n b (Failure.coeff lu y tau idx s).1

/-- The states of a `SobolevNorm` on which calls may have thrown. -/
inductive SHistory (lu : LU) (w : Pts) (b : Basis) (weights : List (ℕ × ℝ)) (mem : LagMem) : Sobolev → Prop
  | make {junk : Vec} {s : Sobolev} : Sobolev.make w b weights mem junk = .ok s → SHistory lu w b weights mem s
  | cost {s : Sobolev} {tau : List ℝ} :
      SHistory lu w b weights mem s → GoesOn (Failure.cost lu tau s).2 → SHistory lu w b weights mem (Failure.cost lu tau s).1
  | grad {s : Sobolev} {tau buff : List ℝ} :
      SHistory lu w b weights mem s → GoesOn (Failure.grad lu tau buff s).2 → SHistory lu w b weights mem (Failure.grad lu tau buff s).1.1

/-- A function object as the collocation classes see it. -/
noncomputable def evOf (f : Fn) : Fn.Ev := ⟨f.dom, f.codim, f.run⟩

/-- The states of a collocation spline that is the target of calls all of which throw: function assignments and `set_from_array` with domains of positive length,
and assignments of splines. -/
inductive CFailed : GSpline → GSpline → Prop
  | refl {a : GSpline} : CFailed a a
  | assign {a c b : GSpline} : CFailed a c → Throws (Failure.assign c b).2 → CFailed a (Failure.assign c b).1
  | function {a c : GSpline} {f : Fn.Ev} : CFailed a c → f.dom.1 < f.dom.2 → Throws (Failure.assignFn f c).2 → CFailed a (Failure.assignFn f c).1
  | array {a c : GSpline} {dom : ℝ × ℝ} {vs : List (Res (List ℝ))} :
      CFailed a c → dom.1 < dom.2 → Throws (Failure.setFromArray dom vs c).2 → CFailed a (Failure.setFromArray dom vs c).1

/-- The states of a `MatrixLeftMultiplication` that is the target of updates all of which throw. -/
inductive MFailed : Colloc.MLM → Colloc.MLM → Prop
  | refl {L : Colloc.MLM} : MFailed L L
  | each {L K : Colloc.MLM} {Ms : List (Res Colloc.LF)} : MFailed L K → Throws (Failure.mlmUpdateEach Ms K).2 → MFailed L (Failure.mlmUpdateEach Ms K).1
  | all {L K : Colloc.MLM} {M : Colloc.LF} : MFailed L K → Throws (Failure.mlmUpdateAll M K).2 → MFailed L (Failure.mlmUpdateAll M K).1

end GSplines.Spec
