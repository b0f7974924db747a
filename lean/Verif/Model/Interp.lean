import Verif.Model.GSpline

/-!
# include/gsplines/Interpolator.hpp, src/Interpolator.cpp

The buffers `position_buffer_` and `derivative_buffer_tranposed_` are overwritten before each use, they are values here. Index arithmetic is done on
natural numbers (32 bit overflow is not modelled). A sparse matrix is the function of its entries; entries that were never inserted are `0`.
Eigen's `SparseLU` is a parameter.
-/

namespace GSplines

/-- Eigen's `SparseLU`: does the factorisation of a square matrix of the given size succeed (`info() == Success`), and `solve`. -/
structure LU where
  succeeds : ℕ → Mat → Bool
  solve : ℕ → Mat → Vec → Vec

/-- A dense matrix with its sizes (way points: one row per point). -/
structure Pts where
  rows : ℕ
  cols : ℕ
  at' : Mat

/-- Interpolator.hpp:15-32, without the buffers described above and the members that are never used. -/
structure Interp where
  basis : Basis
  codim : ℕ
  n : ℕ
  /-- `interpolating_matrix_` -/
  mat : Mat
  /-- `interpolating_vector_` -/
  vec : Vec
  /-- `coefficients_vector_` -/
  coef : Vec
  /-- `interpolation_matrix_ders_` -/
  ders : ℕ → Mat
  /-- `sol_buffer_` -/
  sol : List ℝ

namespace Interp

/-- Interpolator.cpp:13 `matrix_size_`. -/
def size (s : Interp) : ℕ := s.basis.dim * s.codim * s.n

/-- Interpolator.cpp:9-45, the constructor. `junk` is the content of the vector `coefficients_vector_`, which is not initialised. With dimension `0`
the number of columns in line 25 is negative. -/
def make (codim n : ℕ) (b : Basis) (junk : Vec) : Res Interp :=
  if b.dim % 2 ≠ 0 then .error .invalidArgument
  else if b.dim = 0 then .error .ub
  else .ok ⟨b, codim, n, Mat.zero, fun _ => 0, junk, fun _ => Mat.zero, []⟩

/-- Interpolator.cpp:182-193 `fill_position_block`. -/
def posBlock (dim codim i0 j0 : ℕ) (p : Vec) (m : Mat) : Mat :=
  forLoop 0 codim (fun c m => forLoop 0 dim (fun k m => setAt2 m (i0 + c) (j0 + dim * c + k) (p k)) m) m

/-- Interpolator.cpp:194-215 `fill_continuity_derivative_block`; `d k j` is the entry `(k, j)` of the buffer. -/
def contBlock (dim codim i0 j0 : ℕ) (minus : Bool) (d : Mat) (m : Mat) : Mat :=
  let mult : ℝ := if minus then -1 else 1
  forLoop 0 codim (fun c m =>
    forLoop 0 dim (fun k m =>
      forLoop 0 (dim - 2) (fun j m => setAt2 m (i0 + c * (dim - 2) + j) (j0 + dim * c + k) (mult * d k j)) m) m) m

/-- Interpolator.cpp:217-234 `fill_boundary_derivative_block`. -/
def bndBlock (dim codim i0 j0 : ℕ) (d : Mat) (m : Mat) : Mat :=
  forLoop 0 codim (fun c m =>
    forLoop 0 (dim / 2 - 1) (fun j m =>
      forLoop 0 dim (fun k m => setAt2 m (i0 + c * (dim / 2 - 1) + j) (j0 + dim * c + k) (d k j)) m) m) m

/-- Interpolator.cpp:235-243 `fill_buffers` and 245-253 `fill_buffers_deriv_wrt_tau`, with the function of the basis that they call: position buffer and
derivative buffer. -/
def buffers (ev : ℕ → Res Vec) (dim : ℕ) : Res (Vec × Mat) := do
  let p ← ev 0
  let d ← forLoopM 0 (dim - 2) (fun j (m : Mat) => do
    let v ← ev (j + 1)
    return fun k j' => if j' = j then v k else m k j') Mat.zero
  return (p, d)

/-- Interpolator.cpp:235-243 `fill_buffers`. -/
noncomputable def fillBuffers (b : Basis) (s tau : ℝ) : Res (Vec × Mat) := buffers (b.evalDerivOnWindow s tau) b.dim

/-- Interpolator.cpp:245-253 `fill_buffers_deriv_wrt_tau`. -/
noncomputable def fillBuffersTau (b : Basis) (s tau : ℝ) : Res (Vec × Mat) := buffers (b.evalDerivWrtTauOnWindow s tau) b.dim

/-- Interpolator.cpp:76-93: one middle interval; the state is the matrix, `i0` and `j0`. -/
noncomputable def middle (b : Basis) (codim : ℕ) (tau : List ℝ) (iv : ℕ) (st : Mat × ℕ × ℕ) : Res (Mat × ℕ × ℕ) := do
  let (m, i0, j0) := st
  let t ← rd tau iv
  let l ← fillBuffers b (-1) t
  let m := contBlock b.dim codim i0 j0 true l.2 m
  let i0 := i0 + codim * (b.dim - 2)
  let m := posBlock b.dim codim i0 j0 l.1 m
  let i0 := i0 + codim
  let r ← fillBuffers b 1 t
  let m := posBlock b.dim codim i0 j0 r.1 m
  let i0 := i0 + codim
  let m := contBlock b.dim codim i0 j0 false r.2 m
  let j0 := j0 + codim * b.dim
  return (m, i0, j0)

/-- Interpolator.cpp:94-110: the last interval. -/
noncomputable def final (b : Basis) (codim n : ℕ) (tau : List ℝ) (st : Mat × ℕ × ℕ) : Res Mat := do
  let (m, i0, j0) := st
  let t ← rd tau (n - 1)
  let l ← fillBuffers b (-1) t
  let m := contBlock b.dim codim i0 j0 true l.2 m
  let i0 := i0 + codim * (b.dim - 2)
  let m := posBlock b.dim codim i0 j0 l.1 m
  let i0 := i0 + codim
  let r ← fillBuffers b 1 t
  let m := bndBlock b.dim codim i0 j0 r.2 m
  let i0 := i0 + codim * (b.dim / 2 - 1)
  return posBlock b.dim codim i0 j0 r.1 m

/-- Interpolator.cpp:48-110 `fill_interpolating_matrix`: the new matrix. -/
noncomputable def fillMatrix (b : Basis) (codim n : ℕ) (tau : List ℝ) (m : Mat) : Res Mat :=
  if tau.length ≠ n then .error .logicError
  else do
    let t ← rd tau 0
    let l ← fillBuffers b (-1) t
    let m := posBlock b.dim codim 0 0 l.1 m
    let i0 := codim
    let m := bndBlock b.dim codim i0 0 l.2 m
    let i0 := i0 + codim * (b.dim / 2 - 1)
    let r ← fillBuffers b 1 t
    let m := posBlock b.dim codim i0 0 r.1 m
    let i0 := i0 + codim
    if n = 1 then return bndBlock b.dim codim i0 0 r.2 m
    else
      let m := contBlock b.dim codim i0 0 false r.2 m
      let st ← forLoopM 1 (n - 1) (middle b codim tau) (m, i0, codim * b.dim)
      final b codim n tau st

/-- Interpolator.cpp:118-121 (and the other loops of the function): `codim` entries from `vc` on become the row `w`. -/
def putRow (codim vc : ℕ) (w : Vec) (v : Vec) : Vec := forLoop 0 codim (fun c v => setAt v (vc + c) (w c)) v

/-- Interpolator.cpp:112-154 `fill_interpolating_vector`: the new vector. -/
def fillVector (dim codim n : ℕ) (w : Pts) (v : Vec) : Res Vec :=
  if 0 < codim ∧ (w.rows < n + 1 ∨ w.cols < codim) then .error .ub
  else
    let vc := 0
    let v := putRow codim vc (w.at' 0) v
    let vc := vc + codim
    let vc := vc + codim * (dim / 2 - 1)
    let v := putRow codim vc (w.at' 1) v
    let vc := vc + codim
    if n = 1 then .ok v
    else
      let vc := vc + codim * (dim - 2)
      let st := forLoop 1 (n - 1) (fun iv (st : Vec × ℕ) =>
        let v := putRow codim st.2 (w.at' iv) st.1
        let vc := st.2 + codim
        let v := putRow codim vc (w.at' (iv + 1)) v
        let vc := vc + codim
        (v, vc + codim * (dim - 2))) (v, vc)
      let v := putRow codim st.2 (w.at' (n - 1)) st.1
      let vc := st.2 + codim
      let vc := vc + codim * (dim / 2 - 1)
      .ok (putRow codim vc (w.at' n) v)

open Classical in
/-- Interpolator.cpp:346-370 `solve_interpolation`: new state and the returned vector, which is the member `sol_buffer_`. -/
noncomputable def solveInterpolation (lu : LU) (s : Interp) (tau : List ℝ) (w : Pts) : Res (Interp × List ℝ) :=
  if ∃ x ∈ tau, x < 1 / 10 ^ 6 then .error .invalidArgument
  else do
    let m ← fillMatrix s.basis s.codim s.n tau s.mat
    let v ← fillVector s.basis.dim s.codim s.n w s.vec
    let s := { s with mat := m, vec := v }
    if lu.succeeds s.size m = true then
      let x := (List.range s.size).map (lu.solve s.size m v)
      return ({ s with sol := x }, x)
    else return (s, s.sol)

/-- Interpolator.cpp:156-165 `interpolate`. -/
noncomputable def interpolate (lu : LU) (s : Interp) (tau : List ℝ) (w : Pts) : Res (Interp × GSpline) := do
  let (s, x) ← s.solveInterpolation lu tau w
  let g ← GSpline.make (0, tau.sum) s.codim s.n s.basis x tau
  return (s, g)

/-- Interpolator.cpp:269-339: the derivative of the matrix with respect to one interval length. -/
noncomputable def fillDer (b : Basis) (codim n : ℕ) (tau : List ℝ) (idx : ℕ) (m : Mat) : Res Mat := do
  let t ← rd tau idx
  let l ← fillBuffersTau b (-1) t
  let r ← fillBuffersTau b 1 t
  if idx = 0 then
    let m := posBlock b.dim codim 0 0 l.1 m
    let i0 := codim
    let m := bndBlock b.dim codim i0 0 l.2 m
    let i0 := i0 + codim * (b.dim / 2 - 1)
    let m := posBlock b.dim codim i0 0 r.1 m
    let i0 := i0 + codim
    if n = 1 then return bndBlock b.dim codim i0 0 r.2 m
    else return contBlock b.dim codim i0 0 false r.2 m
  else if 0 < idx ∧ idx < n - 1 then
    let i0 := 2 * codim + codim * (b.dim / 2 - 1)
    let i0 := i0 + (codim * (b.dim - 2) + 2 * codim) * (idx - 1)
    let j0 := idx * b.dim * codim
    let m := contBlock b.dim codim i0 j0 true l.2 m
    let i0 := i0 + codim * (b.dim - 2)
    let m := posBlock b.dim codim i0 j0 l.1 m
    let i0 := i0 + codim
    let m := posBlock b.dim codim i0 j0 r.1 m
    let i0 := i0 + codim
    return contBlock b.dim codim i0 j0 false r.2 m
  else if idx = n - 1 then
    let i0 := (b.dim / 2 + 1) * codim + b.dim * codim * (idx - 1)
    let j0 := idx * b.dim * codim
    let m := contBlock b.dim codim i0 j0 true l.2 m
    let i0 := i0 + codim * (b.dim - 2)
    let m := posBlock b.dim codim i0 j0 l.1 m
    let i0 := i0 + codim
    let m := bndBlock b.dim codim i0 j0 r.2 m
    let i0 := i0 + codim * (b.dim / 2 - 1)
    return posBlock b.dim codim i0 j0 r.1 m
  else return m

open Classical in
/-- Interpolator.cpp:255-345 `get_coeff_derivative_wrt_tau`: new state and the returned vector, which is the member `coefficients_vector_`. The
result of the factorisation is not tested; `solve` asserts that it succeeded. -/
noncomputable def coeffDerivative (lu : LU) (s : Interp) (y tau : List ℝ) (idx : ℕ) : Res (Interp × Vec) :=
  if ∃ x ∈ tau, x < 1 / 10 ^ 6 then .error .invalidArgument
  else if tau.length ≠ s.n ∨ s.n ≤ idx then .ok (s, s.coef)
  else do
    let d ← fillDer s.basis s.codim s.n tau idx (s.ders idx)
    if y.length ≠ s.size then .error .ub
    else
      let rhs := d.mulVec s.size (vecOf y)
      let m ← fillMatrix s.basis s.codim s.n tau s.mat
      if lu.succeeds s.size m = true then
        let x : Vec := fun i => - lu.solve s.size m rhs i
        return ({ s with mat := m, ders := setAt s.ders idx d, coef := x }, x)
      else .error .assertFail

end Interp

/-- Interpolator.cpp:372-377, the function `interpolate`. Without way points the number of intervals wraps around. -/
noncomputable def interpolateFn (lu : LU) (junk : Vec) (tau : List ℝ) (w : Pts) (b : Basis) : Res GSpline :=
  if w.rows = 0 then .error .ub
  else do
    let s ← Interp.make w.cols (w.rows - 1) b junk
    let (_, g) ← s.interpolate lu tau w
    return g

/-- Interpolator.cpp:379-384 `pw_polynomial_interpolation`. -/
noncomputable def pwPolynomialInterpolation (lu : LU) (junk : Vec) (tau : List ℝ) (w : Pts) (nc : ℕ) : Res GSpline :=
  interpolateFn lu junk tau w (.legendre nc)

end GSplines
