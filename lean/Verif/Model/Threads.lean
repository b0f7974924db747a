import Verif.Model.GSpline

/-!
# Evaluation of splines by several threads

`GSplineBase::value_impl` is `const`, but it writes the values of the basis functions into the member `mutable Eigen::VectorXd basis_buffer_` (GSpline.hpp:33) and reads
them again. The model of `Model/GSpline.lean` executes a call in one go; here a call is the list of its accesses to the buffer, and the accesses of several threads
are interleaved in any order. Memory is sequentially consistent and an access to a `double` is atomic; weaker memory, or the rule of the language that a race has no
defined behaviour, allow more outcomes, not fewer. The coefficients, interval lengths and parameters are never written by `value_impl`, so they are constants here.
-/

namespace GSplines.Threads

open GSplines

/-- Local variables of a call. -/
abbrev Regs := ℕ → ℝ

/-- One access to the buffer, a computation on local variables, or the assignment of the next entry of the result. -/
inductive Op where
  /-- read entry `k` of the buffer into the local variable `r` -/
  | load (k r : ℕ)
  /-- write entry `k` of the buffer -/
  | store (k : ℕ) (f : Regs → ℝ)
  /-- local computation -/
  | calc (f : Regs → Regs)
  /-- `_result(i, j) = ...`; the entries are assigned row by row (GSpline.cpp:102-112) -/
  | emit (f : Regs → ℝ)

/-- `_buff.setZero()`. -/
def zeroOps (n : ℕ) : List Op := (List.range n).map fun k => .store k fun _ => 0

/-- BasisLegendre.cpp:89-100. -/
noncomputable def legendreOps (dim : ℕ) (s : ℝ) : List Op :=
  zeroOps dim ++ [.store 0 fun _ => 1, .store 1 fun _ => s] ++
    (List.range' 1 (dim - 1 - 1)).flatMap fun i =>
      [.load i 0, .load (i - 1) 1, .store (i + 1) fun r => 1 / ((i : ℝ) + 1) * ((2 * (i : ℝ) + 1) * s * r 0 - (i : ℝ) * r 1)]

/-- BasisLagrange.cpp:121-144; the local variable 2 is `s_book`. -/
noncomputable def lagrangeOps (n : ℕ) (x : Vec) (s : ℝ) : List Op :=
  zeroOps n ++
    match (List.range n).find? (fun j => Lagrange.almostEqual s (x j) tol9) with
    | some j => [.store j fun _ => 1]
    | none =>
      [.calc fun r => setAt r 2 0] ++
        ((List.range n).flatMap fun j =>
          [.store j fun _ => Lagrange.baryWeights n x j / (s - x j), .calc fun r => setAt r 2 (r 2 + Lagrange.baryWeights n x j / (s - x j))]) ++
        (List.range n).flatMap fun k => [.load k 0, .store k fun r => r 0 / r 2]

/-- Basis0101.cpp:35-51. -/
noncomputable def b0101Ops (alpha s tau : ℝ) : List Op :=
  (List.range 6).map fun k => .store k fun _ => B0101.evalOnWindow alpha s tau k

/-- `basis_->eval_on_window(s, tau, basis_buffer_)`, GSpline.cpp:107. -/
noncomputable def fillOps (b : Basis) (s tau : ℝ) : Res (List Op) :=
  match b with
  | .legendre d => if d < 2 then .error .ub else .ok (legendreOps d s)
  | .lagrange x => .ok (lagrangeOps x.length (vecOf x) s)
  | .b0101 a => .ok (b0101Ops a s tau)

/-- `coefficient_segment(i, j).adjoint() * basis_buffer_`, GSpline.cpp:109-110; the local variable 3 accumulates the product. -/
noncomputable def dotOps (dim : ℕ) (seg : Vec) : List Op :=
  [.calc fun r => setAt r 3 0] ++ ((List.range dim).flatMap fun k => [.load k 0, .calc fun r => setAt r 3 (r 3 + seg k * r 0)]) ++ [.emit fun r => r 3]

/-- GSpline.cpp:102-112, the accesses of `value_impl` for one point. -/
noncomputable def rowOps (g : GSpline) (t : ℝ) : Res (List Op) := do
  let i := g.getInterval t
  let s ← g.intervalToWindow t i
  let tau ← rd g.tau i
  let fill ← fillOps g.basis s tau
  let reads ← (List.range g.codim).mapM fun c => do
    let seg ← g.coefficientSegment i c
    return dotOps g.basis.dim (vecOf seg)
  return fill ++ reads.flatten

/-- The accesses of `value_impl` (GSpline.cpp:91-113), one list for each point. -/
noncomputable def callOps (g : GSpline) (ts : List ℝ) : Res (List (List Op)) := ts.mapM (rowOps g)

/-- A thread: the points that it has not begun, the rest of the point it is working on, its local variables and the entries of the result assigned so far. -/
structure Thread where
  todo : List (List Op)
  cur : List Op
  regs : Regs
  out : List ℝ

/-- One access. -/
def Op.exec (o : Op) (buf : Vec) (regs : Regs) (out : List ℝ) : Vec × Regs × List ℝ :=
  match o with
  | .load k r => (buf, setAt regs r (buf k), out)
  | .store k f => (setAt buf k (f regs), regs, out)
  | .calc f => (buf, f regs, out)
  | .emit f => (buf, regs, out ++ [f regs])

/-- One step of a thread on the buffer of its spline. -/
def Thread.step (th : Thread) (buf : Vec) : Vec × Thread :=
  match th.cur with
  | o :: rest =>
    let r := o.exec buf th.regs th.out
    (r.1, ⟨th.todo, rest, r.2.1, r.2.2⟩)
  | [] =>
    match th.todo with
    | [] => (buf, th)
    | c :: cs => (buf, ⟨cs, c, th.regs, th.out⟩)

/-- The program: the buffers of the objects, and the threads. -/
structure Sys where
  mem : ℕ → Vec
  thread : ℕ → Thread

/-- Thread `j`, which evaluates the object `obj j`, makes a step. -/
def Sys.step (obj : ℕ → ℕ) (s : Sys) (j : ℕ) : Sys :=
  let r := (s.thread j).step (s.mem (obj j))
  ⟨fun o => if o = obj j then r.1 else s.mem o, fun i => if i = j then r.2 else s.thread i⟩

/-- The scheduler lets the threads make steps in the given order. -/
def Sys.run (obj : ℕ → ℕ) (s : Sys) (sched : List ℕ) : Sys := sched.foldl (Sys.step obj) s

end GSplines.Threads
