import Verif.Model.Threads

/-!
# Specification of concurrent evaluation
-/

namespace GSplines.Spec

open GSplines Threads

/-- The thread is about to evaluate the spline `g` at the points `ts`. -/
def Starts (th : Thread) (g : GSpline) (ts : List ℝ) : Prop := callOps g ts = .ok th.todo ∧ th.cur = [] ∧ th.out = []

/-- The thread has evaluated all its points. -/
def Finished (th : Thread) : Prop := th.todo = [] ∧ th.cur = []

/-- Threads that evaluate the same object take turns: whenever a thread makes a step, no other thread is in the middle of a point of the same object. -/
def Exclusive (obj : ℕ → ℕ) : Sys → List ℕ → Prop
  | _, [] => True
  | s, j :: sched => (∀ i, i ≠ j → obj i = obj j → (s.thread i).cur = []) ∧ Exclusive obj (s.step obj j) sched

end GSplines.Spec
