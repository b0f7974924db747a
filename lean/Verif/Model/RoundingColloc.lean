import Verif.Model.RoundingFn
import Verif.Model.Colloc

/-!
# Collocation with rounding errors: `GaussLobattoLagrangeSpline::approximate`, src/Collocation/GaussLobattoLagrange.cpp:150-189

As in `Model/Rounding.lean` each operation on doubles may return any number within an error of the exact result, and the result of a program is a set of outcomes. The
points are computed twice, in line 156 and by the constructor of the basis (BasisLagrange.cpp:297-299): both calls return the same doubles, so that they are computed
once here.
-/

namespace GSplines.Rounded

open Nd

/-- GaussLobattoLagrange.cpp:167-174: the values of the function at the points of an interval. -/
noncomputable def cellRows (u : ℝ × ℝ) (f : Fn) (n : ℕ) (len : ℝ) (p : Vec) (iv : ℕ) : Nd (List (List ℝ)) := do
  let a ← near u (iv * len)
  let left ← near u (f.dom.1 + a)
  let pts ← (List.range n).mapM fun k => gridPoint u len left (p k)
  pts.mapM (row u f f.codim)

/-- GaussLobattoLagrange.cpp:165-181: one pass of the loop. -/
noncomputable def collocStep (u : ℝ × ℝ) (f : Fn) (n : ℕ) (len : ℝ) (p : Vec) (iv : ℕ) (v : Vec) : Nd Vec := do
  let rows ← cellRows u f n len p iv
  return Colloc.storeBlock n f.codim iv rows v

/-- GaussLobattoLagrange.cpp:157-184, given the points. -/
noncomputable def collocGiven (u : ℝ × ℝ) (f : Fn) (n m : ℕ) (p junk : Vec) : Nd GSpline :=
  if m = 0 then lift (GSpline.make f.dom f.codim 0 (.lagrange ((List.range n).map p)) [] [])
  else do
    let d ← near u (f.dom.2 - f.dom.1)
    let len ← quot u d m
    let co ← loop 0 m (collocStep u f n len p) junk
    let tau ← (List.replicate m (1 * len)).mapM (near u)
    lift (GSpline.make f.dom f.codim m (.lagrange ((List.range n).map p)) ((List.range (f.codim * n * m)).map co) tau)

/-- GaussLobattoLagrange.cpp:150-189 `approximate(f, n_glp, n_intervals)`. `jp`, `jw` and `junk` are the contents of the freshly allocated vectors. With zero intervals
the length is not a number, but it is not used. -/
noncomputable def approximate (u : ℝ × ℝ) (f : Fn) (n m : ℕ) (jp jw junk : Vec) : Nd GSpline := do
  let pw ← pointsWeights u n jp jw
  collocGiven u f n m pw.1 junk

/-- GaussLobattoLagrange.cpp:191-197 `identity`. -/
noncomputable def collocIdentity (u : ℝ × ℝ) (dom : ℝ × ℝ) (n m : ℕ) (jp jw junk : Vec) : Nd GSpline := approximate u (.ident dom) n m jp jw junk

end GSplines.Rounded
