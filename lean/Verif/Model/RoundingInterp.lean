import Verif.Model.Rounding
import Verif.Model.Interp

/-!
# Interpolation with rounding errors: `eval_derivative_on_window` of the three bases and src/Interpolator.cpp

As in `Model/Rounding.lean` each operation on doubles may return any number within an error of the exact result, and the result of a program is a set of outcomes.
The library functions `sqrt`, `pow`, `exp`, `cos`, `sin` are rounded in the same way. Multiplications by `1.0` and `-1.0` that only choose a sign
(Interpolator.cpp:210-211) are exact, as they are for doubles. The linear solver is a parameter, as in `Model/Interp.lean`.
-/

namespace GSplines

namespace Rounded

open Nd

/-- Eigen `v *= c` for a vector of size `n`. -/
def scale (u : ℝ × ℝ) (n : ℕ) (c : ℝ) (v : Vec) : Nd Vec :=
  loop 0 n (fun i (v : Vec) => do
    let p ← near u (v i * c)
    return setAt v i p) v

/-- BasisLegendre.cpp:69-74, one step of the inner loop of `eval_derivative_on_window`. -/
noncomputable def legendreInner (u : ℝ × ℝ) (s : ℝ) (d : ℕ) (buff : Vec) (i : ℕ) (next : Vec) : Nd Vec := do
  let a ← near u ((d : ℝ) * buff i)
  let b ← near u (s * next i)
  let c ← near u (a + b)
  let term ← near u ((2 * (i : ℝ) + 1) * c)
  let q ← quot u 1 ((i : ℝ) + 1)
  let e ← near u ((i : ℝ) * next (i - 1))
  let f ← near u (term - e)
  let r ← near u (q * f)
  return setAt next (i + 1) r

/-- BasisLegendre.cpp:65-78, one step of the loop over the derivative orders; the state is `_buff`, `buff_next`, `aux`, `mutiplier`. -/
noncomputable def legendreOuter (u : ℝ × ℝ) (dim : ℕ) (s tau : ℝ) (d : ℕ) (st : Vec × Vec × ℝ × ℝ) : Nd (Vec × Vec × ℝ × ℝ) := do
  let next ← loop d (dim - 1) (legendreInner u s d st.1) (setAt (setAt st.2.1 (d - 1) 0) d st.2.2.1)
  let a ← quot u (2 * (d : ℝ) + 1) ((d : ℝ) + 1)
  let a ← near u (a * ((d : ℝ) + 1))
  let aux ← near u (a * st.2.2.1)
  let q ← quot u 2 tau
  let mult ← near u (st.2.2.2 * q)
  return (next, next, aux, mult)

/-- BasisLegendre.cpp:49-80 `eval_derivative_on_window`. -/
noncomputable def legendreDeriv (u : ℝ × ℝ) (dim : ℕ) (s tau : ℝ) (deg : ℕ) : Nd Vec :=
  if dim < 2 ∨ dim ≤ deg then lift (.error .ub)
  else do
    let v ← legendre u dim s
    let st ← loop 1 (deg + 1) (legendreOuter u dim s tau) (v, (fun _ => 0), 1, 1)
    scale u dim st.2.2.2 st.1

/-- Basis0101.cpp:71-80, one step of the loop of `eval_derivative_on_window`. -/
noncomputable def b0101Step (u : ℝ × ℝ) (k : ℝ) (v : Vec) : Nd Vec := do
  let v0 ← near u (v 0 - v 1)
  let v1 ← near u (v 0 + v 1)
  let v2 ← near u (-(v 2) - v 3)
  let v3 ← near u (v 2 - v 3)
  let k2 ← near u (k * 2)
  scale u 6 k2 (B0101.vec6 v0 v1 v2 v3 (v 5) 0)

/-- Basis0101.cpp:52-82 `eval_derivative_on_window`. -/
noncomputable def b0101Deriv (u : ℝ × ℝ) (alpha s tau : ℝ) (deg : ℕ) : Nd Vec := do
  let r2 ← near u (√2)
  let k ← near u (r2 / 4)
  let pa ← near u (alpha ^ (1 / 4 : ℝ))
  let k ← near u (k * pa)
  let d ← near u (1 - alpha)
  let pd ← near u (d ^ (1 / 4 : ℝ))
  let k ← quot u k pd
  let p ← near u (tau * k)
  let p ← near u (p * s)
  let expp ← near u (Real.exp p)
  let cosp ← near u (Real.cos p)
  let sinp ← near u (Real.sin p)
  let v0 ← near u (expp * cosp)
  let v1 ← near u (expp * sinp)
  let v2 ← quot u cosp expp
  let v3 ← quot u sinp expp
  loop 1 (deg + 1) (fun _ v => b0101Step u k v) (B0101.vec6 v0 v1 v2 v3 p 1)

/-- BasisLagrange.cpp:205-210, one entry of the first derivative matrix. -/
noncomputable def dmatEntry (u : ℝ × ℝ) (x bw : Vec) (i j : ℕ) (m : Mat) : Nd Mat :=
  if i ≠ j then do
    let a ← quot u (bw j) (bw i)
    let a ← near u (a * 1)
    let d ← near u (x i - x j)
    let e ← quot u a d
    let m := setAt2 m i j e
    let s ← near u (m i i + -(m i j))
    return setAt2 m i i s
  else return m

/-- BasisLagrange.cpp:191-214 `derivative_matrix(points)`. -/
noncomputable def dmat1 (u : ℝ × ℝ) (n : ℕ) (x : Vec) : Nd Mat := do
  let bw ← baryWeights u n x
  loop 0 n (fun i (m : Mat) => loop 0 n (fun j m => dmatEntry u x bw i j m) (setAt2 m i i 0)) Mat.zero

/-- BasisLagrange.cpp:236-241, one entry of the derivative matrix of order `k`, from the one of order `k - 1`. -/
noncomputable def dmatEntryK (u : ℝ × ℝ) (x bw : Vec) (k : ℕ) (buff : Mat) (i j : ℕ) (m : Mat) : Nd Mat :=
  if i ≠ j then do
    let d ← near u (x i - x j)
    let a ← quot u (k : ℝ) d
    let b ← quot u (bw j) (bw i)
    let b ← near u (b * buff i i)
    let c ← near u (b - buff i j)
    let e ← near u (a * c)
    let m := setAt2 m i j e
    let s ← near u (m i i + -(m i j))
    return setAt2 m i i s
  else return m

/-- BasisLagrange.cpp:216-249 `derivative_matrix(points, deg)`, called by `derivative_matrix_impl` (290-295). -/
noncomputable def dmat (u : ℝ × ℝ) (n : ℕ) (x : Vec) (deg : ℕ) : Nd Mat :=
  if deg = 0 then return Mat.id
  else if deg = 1 then dmat1 u n x
  else do
    let result ← dmat1 u n x
    let buff ← dmat1 u n x
    let bw ← baryWeights u n x
    let st ← loop 2 (deg + 1) (fun k (st : Mat × Mat) => do
      let r ← loop 0 n (fun i (m : Mat) => loop 0 n (fun j m => dmatEntryK u x bw k st.2 i j m) (setAt2 m i i 0)) st.1
      return (r, r)) (result, buff)
    return st.1

/-- BasisLagrange.cpp:81-112 `eval_derivative_on_window` of an object whose barycentric weights are `w`. In the last line the products of each scalar product
are summed in any order, then the result is multiplied by `term`. -/
noncomputable def lagrangeDeriv (u : ℝ × ℝ) (n : ℕ) (x w : Vec) (s tau : ℝ) (deg : ℕ) : Nd Vec := do
  let v ← lagrange u n x w s
  if deg = 0 then return v
  else
    let q ← quot u 2 tau
    let term ← near u (q ^ deg)
    let d ← dmat u n x deg
    loop 0 n (fun i (r : Vec) => do
      let a ← dot u ((List.range n).map fun k => d k i) ((List.range n).map v)
      let p ← near u (a * term)
      return setAt r i p) fun _ => 0

/-- `eval_derivative_on_window` of each class. -/
noncomputable def evalDerivOnWindow (u : ℝ × ℝ) (b : Basis) (s tau : ℝ) (deg : ℕ) : Nd Vec :=
  match b with
  | .legendre d => legendreDeriv u d s tau deg
  | .b0101 a => b0101Deriv u a s tau deg
  | .lagrange x => do
    let w ← baryWeights u x.length (vecOf x)
    lagrangeDeriv u x.length (vecOf x) w s tau deg

/-- Interpolator.cpp:235-243 `fill_buffers`: position buffer and derivative buffer. -/
noncomputable def fillBuffers (u : ℝ × ℝ) (b : Basis) (s tau : ℝ) : Nd (Vec × Mat) := do
  let p ← evalDerivOnWindow u b s tau 0
  let d ← loop 0 (b.dim - 2) (fun j (m : Mat) => do
    let v ← evalDerivOnWindow u b s tau (j + 1)
    return fun k j' => if j' = j then v k else m k j') Mat.zero
  return (p, d)

/-- Interpolator.cpp:82-96: one middle interval; the state is the matrix, `i0` and `j0`. -/
noncomputable def middle (u : ℝ × ℝ) (b : Basis) (codim : ℕ) (tau : List ℝ) (iv : ℕ) (st : Mat × ℕ × ℕ) : Nd (Mat × ℕ × ℕ) := do
  let t ← lift (rd tau iv)
  let l ← fillBuffers u b (-1) t
  let m := Interp.contBlock b.dim codim st.2.1 st.2.2 true l.2 st.1
  let i0 := st.2.1 + codim * (b.dim - 2)
  let m := Interp.posBlock b.dim codim i0 st.2.2 l.1 m
  let i0 := i0 + codim
  let r ← fillBuffers u b 1 t
  let m := Interp.posBlock b.dim codim i0 st.2.2 r.1 m
  let i0 := i0 + codim
  let m := Interp.contBlock b.dim codim i0 st.2.2 false r.2 m
  return (m, i0, st.2.2 + codim * b.dim)

/-- Interpolator.cpp:98-110: the last interval. -/
noncomputable def final (u : ℝ × ℝ) (b : Basis) (codim n : ℕ) (tau : List ℝ) (st : Mat × ℕ × ℕ) : Nd Mat := do
  let t ← lift (rd tau (n - 1))
  let l ← fillBuffers u b (-1) t
  let m := Interp.contBlock b.dim codim st.2.1 st.2.2 true l.2 st.1
  let i0 := st.2.1 + codim * (b.dim - 2)
  let m := Interp.posBlock b.dim codim i0 st.2.2 l.1 m
  let i0 := i0 + codim
  let r ← fillBuffers u b 1 t
  let m := Interp.bndBlock b.dim codim i0 st.2.2 r.2 m
  let i0 := i0 + codim * (b.dim / 2 - 1)
  return Interp.posBlock b.dim codim i0 st.2.2 r.1 m

/-- Interpolator.cpp:48-111 `fill_interpolating_matrix`: the new matrix. -/
noncomputable def fillMatrix (u : ℝ × ℝ) (b : Basis) (codim n : ℕ) (tau : List ℝ) (m : Mat) : Nd Mat :=
  if tau.length ≠ n then lift (.error .logicError)
  else do
    let t ← lift (rd tau 0)
    let l ← fillBuffers u b (-1) t
    let m := Interp.posBlock b.dim codim 0 0 l.1 m
    let i0 := codim
    let m := Interp.bndBlock b.dim codim i0 0 l.2 m
    let i0 := i0 + codim * (b.dim / 2 - 1)
    let r ← fillBuffers u b 1 t
    let m := Interp.posBlock b.dim codim i0 0 r.1 m
    let i0 := i0 + codim
    if n = 1 then return Interp.bndBlock b.dim codim i0 0 r.2 m
    else
      let st ← loop 1 (n - 1) (middle u b codim tau) (Interp.contBlock b.dim codim i0 0 false r.2 m, i0, codim * b.dim)
      final u b codim n tau st

open Classical in
/-- Interpolator.cpp:346-370 `solve_interpolation`: new state and the returned vector. The way points are copied without rounding. -/
noncomputable def solveInterpolation (u : ℝ × ℝ) (lu : LU) (s : Interp) (tau : List ℝ) (w : Pts) : Nd (Interp × List ℝ) :=
  if ∃ x ∈ tau, x < 1 / 10 ^ 6 then lift (.error .invalidArgument)
  else do
    let m ← fillMatrix u s.basis s.codim s.n tau s.mat
    let v ← lift (Interp.fillVector s.basis.dim s.codim s.n w s.vec)
    if lu.succeeds s.size m = true then
      return ({ s with mat := m, vec := v, sol := (List.range s.size).map (lu.solve s.size m v) }, (List.range s.size).map (lu.solve s.size m v))
    else return ({ s with mat := m, vec := v }, s.sol)

/-- Interpolator.cpp:156-165 `interpolate`: the end of the domain is a sum. -/
noncomputable def interpolate (u : ℝ × ℝ) (lu : LU) (s : Interp) (tau : List ℝ) (w : Pts) : Nd (Interp × GSpline) := do
  let r ← solveInterpolation u lu s tau w
  let e ← Nd.sum u tau
  let g ← lift (GSpline.make (0, e) r.1.codim r.1.n r.1.basis r.2 tau)
  return (r.1, g)

end Rounded

end GSplines
