import Verif.Model.GSpline
import Verif.Model.GLL
import Verif.Model.Fn
import Mathlib.Analysis.SpecialFunctions.Pow.Real

/-!
# include/gsplines/Collocation/GaussLobattoLagrange.hpp, src/Collocation/GaussLobattoLagrange.cpp

`GaussLobattoLagrangeSpline` adds no data to `GSpline`. The basis is computed by `legendre_gauss_lobatto_points` in freshly allocated vectors, whose
contents are `jp` and `jw`. Coefficient `k` of component `c` of interval `iv` is entry `(k, c)` of the column-major block of the interval.
-/

namespace GSplines.Colloc

open GSplines

/-- BasisLagrange.cpp:297-299 `BasisLagrangeGaussLobatto`. -/
noncomputable def glBasis (n : ℕ) (jp jw : Vec) : Res Basis := do
  let (p, _) ← GLL.pointsWeights n jp jw
  return .lagrange ((List.range n).map p)

/-- GaussLobattoLagrange.cpp:14-30, the constructors from coefficients. -/
noncomputable def mk (dom : ℝ × ℝ) (codim nInt nglp : ℕ) (coeffs tau : List ℝ) (jp jw : Vec) : Res GSpline := do
  let b ← glBasis nglp jp jw
  GSpline.make dom codim nInt b coeffs tau

/-- GaussLobattoLagrange.cpp:32-39, the zero spline on equal intervals. -/
noncomputable def mkZero (dom : ℝ × ℝ) (codim nInt nglp : ℕ) (jp jw : Vec) : Res GSpline :=
  mk dom codim nInt nglp (List.replicate (nInt * nglp * codim) 0) (List.replicate nInt ((dom.2 - dom.1) / nInt)) jp jw

/-- Entry `(k, c)` of a matrix given by its rows. -/
def entry (rows : List (List ℝ)) (k c : ℕ) : ℝ := (rows.getD k []).getD c 0

/-- GaussLobattoLagrange.cpp:176-180 (also 111-115): a block is written column after column. -/
def storeBlock (n codim iv : ℕ) (rows : List (List ℝ)) (v : Vec) : Vec :=
  forLoop 0 (n * codim) (fun y v => setAt v (iv * n * codim + y) (entry rows (y % n) (y / n))) v

/-- GaussLobattoLagrange.cpp:150-189 `approximate(f, n_glp, n_intervals)`. `junk` is the content of the freshly allocated coefficients. With zero intervals
the length is not a number, but it is not used. -/
noncomputable def approximate (f : Fn) (n m : ℕ) (jp jw junk : Vec) : Res GSpline := do
  let (p, _) ← GLL.pointsWeights n jp jw
  let len := (f.dom.2 - f.dom.1) / m
  let co ← forLoopM 0 m (fun iv v => do
    let left := f.dom.1 + iv * len
    let rows ← f.run f.codim ((List.range n).map fun k => (p k + 1) * len / 2 + left)
    return storeBlock n f.codim iv rows v) junk
  mk f.dom f.codim m n ((List.range (f.codim * n * m)).map co) (List.replicate m len) jp jw

/-- GaussLobattoLagrange.cpp:191-197 `identity`. -/
noncomputable def identity (dom : ℝ × ℝ) (n m : ℕ) (jp jw junk : Vec) : Res GSpline := approximate (.ident dom) n m jp jw junk

/-- GaussLobattoLagrange.cpp:55-58, the constructor from a function: the arguments of `approximate` come in the other order. -/
noncomputable def ofFunction (f : Fn) (nInt nglp : ℕ) (jp jw junk : Vec) : Res GSpline := approximate f nInt nglp jp jw junk

/-- GaussLobattoLagrange.cpp:204-208 `same_discretization`. -/
def sameDisc (a b : GSpline) : Prop := a.basis.dim = b.basis.dim ∧ a.nIntervals = b.nIntervals

/-- FunctionBase.cpp:92-97, the member function `same_domain`: unlike the static function of the same name it compares with `tools::approx_equal`. -/
def sameDomain (a b : GSpline) : Prop := Tools.approxEqual a.dom.2 b.dom.2 tol9 = true ∧ Tools.approxEqual a.dom.1 b.dom.1 tol9 = true

/-- GaussLobattoLagrange.cpp:60-72 `operator=(const GaussLobattoLagrangeSpline&)`: the new contents of the object. The interval lengths are not assigned. -/
noncomputable def assign (a b : GSpline) : Res GSpline :=
  if ¬ (a.basis.dim = b.basis.dim ∧ a.nIntervals = b.nIntervals) then .error .invalidArgument
  else if a.codim ≠ b.codim then .error .invalidArgument
  else .ok { a with dom := b.dom, coeffs := b.coeffs }

/-- GaussLobattoLagrange.cpp:88-122 `operator=(const FunctionBase&)`: the new contents of the object. The length of `coefficients_` does not change. -/
noncomputable def assignFn (a : GSpline) (f : Fn) : Res GSpline :=
  if a.codim ≠ f.codim then .error .invalidArgument
  else if a.tau.sum = 0 then .error .notFinite
  else do
    let tau := a.tau.map (· * ((f.dom.2 - f.dom.1) / a.tau.sum))
    let st ← forLoopM 0 a.nIntervals (fun iv (st : Vec × ℝ) => do
      let rows ← f.run a.codim (a.basis.params.map fun x => (x + 1) * vecOf tau iv / 2 + st.2)
      if a.coeffs.length < iv * a.basis.dim * a.codim + a.basis.dim * a.codim then .error .ub
      else return (storeBlock a.basis.dim a.codim iv rows st.1, st.2 + vecOf tau iv)) (vecOf a.coeffs, f.dom.1)
    return { a with dom := f.dom, tau := tau, coeffs := (List.range a.coeffs.length).map st.1 }

/-- GaussLobattoLagrange.hpp:134-161 `set_from_array(domain, begin, end, fun)`, from the vectors that `fun` returns. The checks in lines 155-160 build
exceptions which they do not throw; a vector of another size is then assigned to a row. -/
noncomputable def setFromArray (a : GSpline) (dom : ℝ × ℝ) (vs : List (List ℝ)) : Res GSpline :=
  if vs.length ≠ a.basis.dim * a.nIntervals then .error .runtimeError
  else if a.tau.sum = 0 then .error .notFinite
  else do
    let co ← forLoopM 0 vs.length (fun i v =>
      let vec := vs.getD i []
      let iv := i / a.basis.dim
      if vec.length ≠ a.codim then .error .ub
      else if a.nIntervals ≤ iv then .error .invalidArgument
      else if a.coeffs.length < iv * (a.basis.dim * a.codim) + a.basis.dim * a.codim then .error .ub
      else .ok (forLoop 0 a.codim (fun c v => setAt v (iv * (a.basis.dim * a.codim) + c * a.basis.dim + i % a.basis.dim) (vec.getD c 0)) v)) (vecOf a.coeffs)
    return { a with dom := dom, tau := a.tau.map (· * ((dom.2 - dom.1) / a.tau.sum)), coeffs := (List.range a.coeffs.length).map co }

/-- GaussLobattoLagrange.cpp:210-218 `value_at`, with `get_value_block` 137-148. -/
noncomputable def valueAt (g : GSpline) (i : ℕ) : Res (List ℝ) :=
  if g.basis.dim * g.nIntervals ≤ i then .error .invalidArgument
  else
    let iv := i / g.basis.dim
    let k := i % g.basis.dim
    if g.nIntervals ≤ iv then .error .invalidArgument
    else do
      let seg ← segment g.coeffs (iv * (g.basis.dim * g.codim)) (g.basis.dim * g.codim)
      return (List.range g.codim).map fun c => vecOf seg (c * g.basis.dim + k)

/-- The loops of GaussLobattoLagrange.cpp:241-248, 456-459, 491-497, 520-523, 546-549: every entry `x` at row `k` and column `c` of the block of interval
`iv` is replaced. -/
def mapBlocks (g : GSpline) (F : ℕ → ℕ → ℕ → ℝ → Res ℝ) : Res GSpline := do
  let co ← forLoopM 0 g.nIntervals (fun iv l =>
    forLoopM 0 (g.basis.dim * g.codim) (fun y l => do
      let x ← rd l (iv * (g.basis.dim * g.codim) + y)
      let z ← F iv (y % g.basis.dim) (y / g.basis.dim) x
      return l.set (iv * (g.basis.dim * g.codim) + y) z) l) g.coeffs
  return { g with coeffs := co }

open Classical in
/-- GaussLobattoLagrange.cpp:223-358 `operator*` of two splines; `ra`, `rb`: is the object / the argument an rvalue? The operand that is the result is copied
unless it is an rvalue. -/
noncomputable def mul (ra rb : Bool) (a b : GSpline) : Res GSpline :=
  if ¬ sameDisc a b then .error .invalidArgument
  else if ¬ sameDomain a b then .error .invalidArgument
  else if ¬ (a.codim = 1 ∨ b.codim = 1) then .error .invalidArgument
  else do
    let scalar := if b.codim = 1 then b else a
    let vector := if b.codim ≠ 1 then b else a
    let r ← if (if b.codim ≠ 1 then rb else ra) then Except.ok vector else vector.copy
    mapBlocks r fun iv k _ x => do
      let s ← rd scalar.coeffs (iv * (scalar.basis.dim * scalar.codim) + k)
      return x * s

/-- GaussLobattoLagrange.cpp:359-377 `double * spline`, `spline * double`; `rv`: is the spline an rvalue? -/
def smul (rv : Bool) (a : ℝ) (g : GSpline) : Res GSpline := do
  let r ← if rv then Except.ok g else g.copy
  return { r with coeffs := r.coeffs.map (· * a) }

/-- GaussLobattoLagrange.cpp:378-388, unary minus. -/
def neg (rv : Bool) (g : GSpline) : Res GSpline := do
  let r ← if rv then Except.ok g else g.copy
  return { r with coeffs := r.coeffs.map (· * (-1)) }

/-- GaussLobattoLagrange.cpp:390-406 `norm`. `junk` is the content of the freshly allocated coefficients. -/
noncomputable def norm (g : GSpline) (jp jw junk : Vec) : Res GSpline :=
  if g.coeffs.length < g.nIntervals * (g.basis.dim * g.codim) then .error .ub
  else
    let co := GLL.segments g.basis.dim g.nIntervals
      (fun iv k => √(∑ c ∈ Finset.range g.codim, vecOf g.coeffs (iv * (g.basis.dim * g.codim) + c * g.basis.dim + k) ^ 2)) junk
    mk g.dom 1 g.nIntervals g.basis.dim ((List.range (g.basis.dim * g.nIntervals)).map co) g.tau jp jw

open Classical in
/-- `std::pow` on finite arguments: a negative base needs an integer exponent, a zero base an exponent that is not negative; otherwise the result is not a
number or infinite. -/
noncomputable def stdPow (x e : ℝ) : Res ℝ :=
  if (x < 0 ∧ ¬ ∃ z : ℤ, e = z) ∨ (x = 0 ∧ e < 0) then .error .notFinite else .ok (x ^ e)

/-- GaussLobattoLagrange.cpp:408-428 `pow`. -/
noncomputable def pow (rv : Bool) (g : GSpline) (e : ℝ) : Res GSpline :=
  if g.codim ≠ 1 then .error .invalidArgument
  else do
    let r ← if rv then Except.ok g else g.copy
    let co ← g.coeffs.mapM fun x => stdPow x e
    return { r with coeffs := co }

/-- GaussLobattoLagrange.cpp:448-482 `vector + spline`, `spline + vector`. -/
def addVec (rv : Bool) (v : List ℝ) (g : GSpline) : Res GSpline :=
  if v.length ≠ g.codim then .error .invalidArgument
  else do
    let r ← if rv then Except.ok g else g.copy
    mapBlocks r fun _ _ c x => .ok (x + vecOf v c)

/-- GaussLobattoLagrange.cpp:484-512 `vector - spline`: first the sign of the block is changed, then the vector is added. -/
def vecSub (rv : Bool) (v : List ℝ) (g : GSpline) : Res GSpline :=
  if v.length ≠ g.codim then .error .invalidArgument
  else do
    let r ← if rv then Except.ok g else g.copy
    mapBlocks r fun _ _ c x => .ok (-x + vecOf v c)

/-- GaussLobattoLagrange.cpp:513-538 `spline - vector`. -/
def subVec (rv : Bool) (g : GSpline) (v : List ℝ) : Res GSpline :=
  if v.length ≠ g.codim then .error .invalidArgument
  else do
    let r ← if rv then Except.ok g else g.copy
    mapBlocks r fun _ _ c x => .ok (x - vecOf v c)

open Classical in
/-- GaussLobattoLagrange.cpp:540-563 `double / spline`. -/
noncomputable def divBy (rv : Bool) (a : ℝ) (g : GSpline) : Res GSpline :=
  if g.codim ≠ 1 then .error .invalidArgument
  else do
    let r ← if rv then Except.ok g else g.copy
    mapBlocks r fun _ _ _ x => if x = 0 then .error .notFinite else .ok (a / x)

/-- GaussLobattoLagrange.cpp:49-53, the constructors from a `GSpline`: the base part is copied (or moved), whatever its basis is. -/
noncomputable def ofGSpline (g : GSpline) : Res GSpline := g.copy

/-- GaussLobattoLagrange.hpp:114-117 `get_domain_discretization`. -/
noncomputable def discretization (g : GSpline) (jp jw junk : Vec) : Res (List ℝ) := do
  let (p, _) ← GLL.pointsWeights g.basis.dim jp jw
  return (List.range (g.basis.dim * g.nIntervals)).map (GLL.gridPoints p g.dom g.basis.dim g.nIntervals junk)

end GSplines.Colloc
