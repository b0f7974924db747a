import Verif.Model.GSpline

/-!
# Derivation of splines by several threads

`Basis::get_derivative_matrix_block` is `const`, but it extends the member `mutable std::vector<Eigen::MatrixXd> derivative_matrix_array_` (Basis.hpp:27) when an order is
asked for that it does not hold. `Basis.getBlock` of `Model/Basis.lean` executes a call in one go; here a call is the sequence of its accesses to the vector, and the accesses
of several threads are interleaved in any order. Memory is sequentially consistent and `size()`, `push_back` and the access to an entry are atomic; the rule of the language
that a race has no defined behaviour allows more outcomes, not fewer. `derivative_matrix_impl` uses only the construction parameters of the object (BasisLegendre.cpp:179-191,
BasisLagrange.cpp:290-295, Basis0101.cpp:154-177), so it is part of the `push_back` that stores its result.
-/

namespace GSplines.Derivers

open GSplines

/-- Where a thread is in `get_derivative_matrix_block(_deg)`, Basis.hpp:140-152. -/
inductive At where
  /-- between two calls -/
  | idle
  /-- line 145: at the head of the loop, `_deg = d`, `current_deriv_calc = c ≠ d + 1` -/
  | fill (d c : ℕ)
  /-- line 151: before the access to the entry -/
  | ret (d : ℕ)

/-- A thread: the orders that it still has to ask for, the call it is in, and the matrices it has read (`ub`: an access past the end). -/
structure Thread where
  todo : List ℕ
  at_ : At
  out : List (Res Mat)

/-- The exit condition of the loop, line 145. -/
def enter (d c : ℕ) : At := if c ≠ d + 1 then .fill d c else .ret d

/-- One access of a thread to the vector of its basis. -/
noncomputable def Thread.step (b : Basis) (th : Thread) (v : List Mat) : List Mat × Thread :=
  match th.at_ with
  | .idle =>
    match th.todo with
    | [] => (v, th)
    -- lines 143-144: `size()` and the comparison with `_deg`
    | d :: ds => (v, ⟨ds, if v.length ≤ d then enter d v.length else .ret d, th.out⟩)
  -- lines 146-148
  | .fill d c => (v ++ [b.derivMatrixImpl c], ⟨th.todo, enter d (c + 1), th.out⟩)
  -- line 151
  | .ret d => (v, ⟨th.todo, .idle, th.out ++ [match v[d]? with
    | some m => .ok m
    | none => .error .ub]⟩)

/-- The program: the vectors of the basis objects, and the threads. -/
structure Sys where
  mem : ℕ → List Mat
  thread : ℕ → Thread

/-- Thread `j`, which uses the basis object `obj j`, makes a step; object `o` was constructed as `b o`. -/
noncomputable def Sys.step (b : ℕ → Basis) (obj : ℕ → ℕ) (s : Sys) (j : ℕ) : Sys :=
  let r := (s.thread j).step (b (obj j)) (s.mem (obj j))
  ⟨fun o => if o = obj j then r.1 else s.mem o, fun i => if i = j then r.2 else s.thread i⟩

/-- The scheduler lets the threads make steps in the given order. -/
noncomputable def Sys.run (b : ℕ → Basis) (obj : ℕ → ℕ) (s : Sys) (sched : List ℕ) : Sys := sched.foldl (Sys.step b obj) s

/-- GSpline.hpp:114-136, the orders `deriv_impl(deg)` asks its basis for: one for each interval and component. -/
def derivRequests (g : GSpline) (deg : ℕ) : List ℕ := if deg = 0 then [] else List.replicate (g.nIntervals * g.codim) deg

/-- GSpline.hpp:132-134: one segment of the coefficients is replaced by its product with the matrix that was read. -/
noncomputable def segmentWith (dim i0 : ℕ) (scale : ℝ) (m : Mat) (v : Vec) : Vec := fun x =>
  if i0 ≤ x ∧ x < i0 + dim then m.mulVec dim (fun k => v (i0 + k)) (x - i0) * scale else v x

/-- GSpline.hpp:114-137: the coefficients of the derivative, from the matrices that the calls of `get_derivative_matrix_block` have returned. -/
noncomputable def coeffsWith (g : GSpline) (deg : ℕ) (ms : ℕ → Mat) : Vec :=
  forLoop 0 g.nIntervals (fun i v =>
    forLoop 0 g.codim (fun c v =>
      segmentWith g.basis.dim (i * g.basis.dim * g.codim + g.basis.dim * c) (GSpline.derivScale g.basis (vecOf g.tau i) deg) (ms (i * g.codim + c)) v) v) (vecOf g.coeffs)

open Classical in
/-- GSpline.hpp:108-143 `deriv_impl`, for a thread that has read the matrices `ms`. The checks are those of `GSpline.deriv`. The new spline gets a copy of the basis, of which the
parameters are modelled and not the contents of the cache. -/
noncomputable def derivWith (g : GSpline) (deg : ℕ) (ms : ℕ → Mat) : Res GSpline :=
  if 1 ≤ deg then
    if g.coeffs.length < g.nIntervals * g.basis.dim * g.codim then .error .ub
    else if g.derivDividesByZero then .error .notFinite
    else GSpline.make g.dom g.codim g.nIntervals g.basis ((List.range g.coeffs.length).map (coeffsWith g deg ms)) g.tau
  else GSpline.make g.dom g.codim g.nIntervals g.basis g.coeffs g.tau

end GSplines.Derivers
