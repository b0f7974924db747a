import Verif.Model.ThreadsCache

/-!
# Specification of concurrent derivation
-/

namespace GSplines.Spec.Derivers

open GSplines GSplines.Derivers

/-- The object holds the matrices of the orders below `n`, as it does after requests of which the highest is `n - 1`. A new object holds order 0. -/
def Holds (b : Basis) (v : List Mat) (n : ℕ) : Prop := v = (List.range n).map b.derivMatrixImpl

/-- The thread is about to ask for the matrices of the orders `ds`. -/
def Starts (th : Thread) (ds : List ℕ) : Prop := th.todo = ds ∧ th.at_ = .idle ∧ th.out = []

/-- The thread has returned from all its calls. -/
def Finished (th : Thread) : Prop := th.todo = [] ∧ th.at_ = .idle

/-- Threads that use the same object take turns: whenever a thread makes a step, no other thread is in the middle of a call on the same object. -/
def Exclusive (b : ℕ → Basis) (obj : ℕ → ℕ) : Sys → List ℕ → Prop
  | _, [] => True
  | s, j :: sched => (∀ i, i ≠ j → obj i = obj j → (s.thread i).at_ = .idle) ∧ Exclusive b obj (s.step b obj j) sched

end GSplines.Spec.Derivers
