import Verif.Model.Sobolev
import Verif.Model.Functionals

/-!
# What a call leaves behind when it does not return

Every function of this file models a member function that changes its object, statement by statement: the result is the object at the end of the call
*and* the outcome. In the rest of the model the object after an exception is dropped.

A call whose outcome is `Err.ub`, `Err.assertFail` or `Err.notFinite` did not throw, its object is of no interest.
-/

namespace GSplines.Failure

open GSplines Colloc

/-- `for (i = a; i < b; i++) body(i);` on an object; an exception ends the loop. -/
def loop {σ : Type} (a b : ℕ) (body : ℕ → σ → σ × Res Unit) (s : σ) : σ × Res Unit :=
  (List.range' a (b - a)).foldl (fun st i =>
    match st.2 with
    | .ok _ => body i st.1
    | .error e => (st.1, .error e)) (s, .ok ())

/-! ## Interpolator -/

open Classical in
/-- Interpolator.cpp:346-370 `solve_interpolation`. After the check of its size `fill_interpolating_matrix` does not throw (`Failure.fillMatrix_error`), so what
it has written by then does not matter. -/
noncomputable def solve (lu : LU) (tau : List ℝ) (w : Pts) (s : Interp) : Interp × Res (List ℝ) :=
  if ∃ x ∈ tau, x < 1 / 10 ^ 6 then (s, .error .invalidArgument)
  else
    match Interp.fillMatrix s.basis s.codim s.n tau s.mat with
    | .error e => (s, .error e)
    | .ok m =>
      match Interp.fillVector s.basis.dim s.codim s.n w s.vec with
      | .error e => ({ s with mat := m }, .error e)
      | .ok v =>
        let s := { s with mat := m, vec := v }
        if lu.succeeds s.size m = true then
          let x := (List.range s.size).map (lu.solve s.size m v)
          ({ s with sol := x }, .ok x)
        else (s, .ok s.sol)

/-- Interpolator.cpp:156-165 `interpolate`: the constructor of the spline comes after the solution and may throw. -/
noncomputable def interpolate (lu : LU) (tau : List ℝ) (w : Pts) (s : Interp) : Interp × Res GSpline :=
  match solve lu tau w s with
  | (s, .error e) => (s, .error e)
  | (s, .ok x) => (s, GSpline.make (0, tau.sum) s.codim s.n s.basis x tau)

open Classical in
/-- Interpolator.cpp:255-345 `get_coeff_derivative_wrt_tau`. -/
noncomputable def coeff (lu : LU) (y tau : List ℝ) (idx : ℕ) (s : Interp) : Interp × Res Vec :=
  if ∃ x ∈ tau, x < 1 / 10 ^ 6 then (s, .error .invalidArgument)
  else if tau.length ≠ s.n ∨ s.n ≤ idx then (s, .ok s.coef)
  else
    match Interp.fillDer s.basis s.codim s.n tau idx (s.ders idx) with
    | .error e => (s, .error e)
    | .ok d =>
      let s := { s with ders := setAt s.ders idx d }
      if y.length ≠ s.size then (s, .error .ub)
      else
        let rhs := d.mulVec s.size (vecOf y)
        match Interp.fillMatrix s.basis s.codim s.n tau s.mat with
        | .error e => ({ s with coef := rhs }, .error e)
        | .ok m =>
          if lu.succeeds s.size m = true then
            let x : Vec := fun i => - lu.solve s.size m rhs i
            ({ s with mat := m, coef := x }, .ok x)
          else ({ s with mat := m, coef := rhs }, .error .assertFail)

/-! ## SobolevNorm -/

/-- Sobolev.cpp:19-26 `operator()`. -/
noncomputable def cost (lu : LU) (tau : List ℝ) (s : Sobolev) : Sobolev × Res ℝ :=
  match solve lu tau s.points s.interp with
  | (i, .error e) => ({ s with interp := i }, .error e)
  | (i, .ok y) => ({ s with interp := i }, Sobolev.innerProd i.basis s.mem s.weights i.n i.codim tau y y)

/-- Sobolev.cpp:48-64: the number that one pass of the loop of `deriv_wrt_interval_len` writes. -/
noncomputable def gradValue (b : Basis) (mem : LagMem) (weights : List (ℕ × ℝ)) (n codim size : ℕ) (tau y : List ℝ) (dy : Vec) (idx : ℕ) : Res ℝ := do
  let t ← rd tau idx
  let m ← Sobolev.matrixDtau b mem weights t
  let r ← forLoopM 0 codim (fun c r => do
    let a ← Sobolev.seg b codim y idx c
    return r + Sobolev.form b.dim m (vecOf a) (vecOf a)) 0
  let p ← Sobolev.innerProd b mem weights n codim tau y ((List.range size).map dy)
  return r + 2 * p

/-- Sobolev.cpp:42-65: one pass of the loop; the state is the interpolator and the buffer of the caller. -/
noncomputable def gradPass (lu : LU) (s : Sobolev) (tau y : List ℝ) (idx : ℕ) (st : Interp × List ℝ) : (Interp × List ℝ) × Res Unit :=
  match coeff lu y tau idx st.1 with
  | (i, .error e) => ((i, st.2), .error e)
  | (i, .ok dy) =>
    match gradValue i.basis s.mem s.weights i.n i.codim i.size tau y dy idx with
    | .error e => ((i, st.2), .error e)
    | .ok r => if idx < st.2.length then ((i, st.2.set idx r), .ok ()) else ((i, st.2), .error .ub)

/-- Sobolev.cpp:28-66 `deriv_wrt_interval_len`: the object and the buffer of the caller afterwards. -/
noncomputable def grad (lu : LU) (tau buff : List ℝ) (s : Sobolev) : (Sobolev × List ℝ) × Res Unit :=
  match solve lu tau s.points s.interp with
  | (i, .error e) => (({ s with interp := i }, buff), .error e)
  | (i, .ok y) =>
    let st := loop 0 i.n (gradPass lu s tau y) (i, buff)
    (({ s with interp := st.1.1 }, st.1.2), st.2)

/-! ## GaussLobattoLagrangeSpline -/

/-- GaussLobattoLagrange.cpp:60-72 `operator=(const GaussLobattoLagrangeSpline&)`. -/
noncomputable def assign (a b : GSpline) : GSpline × Res Unit :=
  if ¬ (a.basis.dim = b.basis.dim ∧ a.nIntervals = b.nIntervals) then (a, .error .invalidArgument)
  else if a.codim ≠ b.codim then (a, .error .invalidArgument)
  else ({ a with dom := b.dom, coeffs := b.coeffs }, .ok ())

/-- GaussLobattoLagrange.cpp:104-119: one pass of the loop of `operator=(const FunctionBase&)`; the state is the object and `left_bound`. -/
noncomputable def assignFnPass (f : Fn.Ev) (iv : ℕ) (st : GSpline × ℝ) : (GSpline × ℝ) × Res Unit :=
  let a := st.1
  match f.run a.codim (a.basis.params.map fun x => (x + 1) * vecOf a.tau iv / 2 + st.2) with
  | .error e => (st, .error e)
  | .ok rows =>
    if a.coeffs.length < iv * a.basis.dim * a.codim + a.basis.dim * a.codim then (st, .error .ub)
    else
      (({ a with coeffs := (List.range a.coeffs.length).map (storeBlock a.basis.dim a.codim iv rows (vecOf a.coeffs)) }, st.2 + vecOf a.tau iv), .ok ())

/-- GaussLobattoLagrange.cpp:88-122 `operator=(const FunctionBase&)`. The function may be an object of any class, `f.run` is what its `value` does. -/
noncomputable def assignFn (f : Fn.Ev) (a : GSpline) : GSpline × Res Unit :=
  if a.codim ≠ f.codim then (a, .error .invalidArgument)
  else
    let a1 := { a with dom := f.dom }
    if a.tau.sum = 0 then (a1, .error .notFinite)
    else
      let a2 := { a1 with tau := a1.tau.map (· * ((f.dom.2 - f.dom.1) / a1.tau.sum)) }
      let st := loop 0 a2.nIntervals (assignFnPass f) (a2, a2.dom.1)
      (st.1.1, st.2)

/-- GaussLobattoLagrange.hpp:149-161: one pass of the loop of `set_from_array`; `vs` are the outcomes of the calls of the function of the caller. -/
def setPass (vs : List (Res (List ℝ))) (i : ℕ) (a : GSpline) : GSpline × Res Unit :=
  match vs.getD i (.ok []) with
  | .error e => (a, .error e)
  | .ok vec =>
    let iv := i / a.basis.dim
    if vec.length ≠ a.codim then (a, .error .ub)
    else if a.nIntervals ≤ iv then (a, .error .invalidArgument)
    else if a.coeffs.length < iv * (a.basis.dim * a.codim) + a.basis.dim * a.codim then (a, .error .ub)
    else
      ({ a with coeffs := (List.range a.coeffs.length).map (forLoop 0 a.codim (fun c v =>
          setAt v (iv * (a.basis.dim * a.codim) + c * a.basis.dim + i % a.basis.dim) (vec.getD c 0)) (vecOf a.coeffs)) }, .ok ())

/-- GaussLobattoLagrange.hpp:134-161 `set_from_array(domain, begin, end, fun)`: the domain is set before the number of elements is checked. -/
noncomputable def setFromArray (dom : ℝ × ℝ) (vs : List (Res (List ℝ))) (a : GSpline) : GSpline × Res Unit :=
  let a1 := { a with dom := dom }
  if vs.length ≠ a1.basis.dim * a1.nIntervals then (a1, .error .runtimeError)
  else if a1.tau.sum = 0 then (a1, .error .notFinite)
  else
    let a2 := { a1 with tau := a1.tau.map (· * ((dom.2 - dom.1) / a1.tau.sum)) }
    loop 0 vs.length (setPass vs) a2

/-! ## Linear functionals -/

/-- GaussLobattoLagrangeFunctionals.hpp:272-296 `TransposeLeftMultiplication::operator=(const FunctionBase&)`: the function is approximated before the first entry
is written. -/
noncomputable def tlmAssignFn (f : Fn) (jp jw junk : Vec) (T : TLM) : TLM × Res Unit :=
  if f.codim ≠ T.codim then (T, .error .invalidArgument)
  else
    match approximate f T.nglp T.nInt jp jw junk with
    | .error e => (T, .error e)
    | .ok a =>
      match TLM.fill T.nglp T.nInt T.codim a.coeffs T.lf.mat with
      | .error e => (T, .error e)
      | .ok m => ({ T with lf := { T.lf with mat := m } }, .ok ())

/-- GaussLobattoLagrangeFunctionals.hpp:298-320 `TransposeLeftMultiplication::operator=(const GaussLobattoLagrangeSpline&)`. -/
noncomputable def tlmAssign (g : GSpline) (T : TLM) : TLM × Res Unit :=
  if g.codim ≠ T.codim then (T, .error .invalidArgument)
  else
    match TLM.fill T.nglp T.nInt T.codim g.coeffs T.lf.mat with
    | .error e => (T, .error e)
    | .ok m => ({ T with lf := { T.lf with mat := m } }, .ok ())

/-- GaussLobattoLagrangeFunctionals.hpp:366-385: one pass of the loop of `MatrixLeftMultiplication::update(begin, end, fun)`; `Ms` are the outcomes of the calls
of the function of the caller. -/
def mlmPass (Ms : List (Res LF)) (i : ℕ) (L : MLM) : MLM × Res Unit :=
  match Ms.getD i (.ok ⟨0, 0, Mat.zero⟩) with
  | .error e => (L, .error e)
  | .ok M =>
    if M.cols ≠ L.cols ∨ M.rows ≠ L.rows then (L, .error .runtimeError)
    else ({ L with lf := { L.lf with mat := MLM.writeNode L.nglp L.rows L.cols i M.mat L.lf.mat } }, .ok ())

/-- GaussLobattoLagrangeFunctionals.hpp:357-386 `MatrixLeftMultiplication::update(begin, end, fun)`. -/
def mlmUpdateEach (Ms : List (Res LF)) (L : MLM) : MLM × Res Unit :=
  if Ms.length ≠ L.nglp * L.nInt then (L, .error .runtimeError)
  else loop 0 Ms.length (mlmPass Ms) L

/-- GaussLobattoLagrangeFunctionals.hpp:387-408 `MatrixLeftMultiplication::update(const Eigen::MatrixXd&)`: nothing throws after the check of the sizes. -/
def mlmUpdateAll (M : LF) (L : MLM) : MLM × Res Unit :=
  if M.rows ≠ L.rows ∨ M.cols ≠ L.cols then (L, .error .runtimeError)
  else
    match L.updateAll M with
    | .error e => (L, .error e)
    | .ok L' => (L', .ok ())

/-- GaussLobattoLagrangeFunctionals.cpp:75-81 `Integral::update(const Eigen::VectorXd&)`: the weights are computed before the assignment. -/
noncomputable def integUpdate (tau : List ℝ) (jp jw junk : Vec) (I : Integ) : Integ × Res Unit :=
  if tau.length * I.nglp ≠ I.lf.rows then (I, .error .invalidArgument)
  else
    match GLL.pointsWeights I.nglp jp jw with
    | .error e => (I, .error e)
    | .ok pw => ({ I with lf := ⟨1, I.nglp * tau.length, fun _ j => GLL.varWeights pw.2 I.nglp tau.length (vecOf tau) junk j⟩ }, .ok ())

end GSplines.Failure
