import Verif.Model.Mat

/-!
# src/Basis/BasisLagrange.cpp

The vector of nodes is a function `x` with its size `n`.
-/

namespace GSplines.Lagrange

open GSplines

/-- BasisLagrange.cpp:20-29 `almost_equal`. -/
noncomputable def almostEqual (a b eps : ℝ) : Bool :=
  if |a| < eps ∨ |b| < eps then decide (|a - b| < eps)
  else decide (|a - b| < eps * |a| ∧ |a - b| < eps * |b|)

/-- BasisLagrange.cpp:178-184, the two nested loops of `barycentric_weights`. -/
noncomputable def baryProducts (n : ℕ) (x : Vec) : Vec :=
  forLoop 1 n (fun j r =>
    forLoop 0 j (fun k r =>
      let r1 := setAt r k (r k * (x k - x j))
      setAt r1 j (r1 j * (x j - x k))) r) (fun _ => 1)

/-- BasisLagrange.cpp:170-189 `barycentric_weights`. -/
noncomputable def baryWeights (n : ℕ) (x : Vec) : Vec := fun k => 1 / baryProducts n x k

/-- BasisLagrange.cpp:134-143: barycentric formula, `(buffer, s_book)`. -/
noncomputable def baryLoop (n : ℕ) (x : Vec) (s : ℝ) : Vec × ℝ :=
  forLoop 0 n (fun j (st : Vec × ℝ) =>
    let t := baryWeights n x j / (s - x j)
    (setAt st.1 j t, st.2 + t)) ((fun _ => 0), 0)

/-- BasisLagrange.cpp:121-144 `eval_on_window` (the interval length is ignored): a point within `1e-9` of a node gives
the unit vector of the first such node, otherwise the barycentric formula. -/
noncomputable def evalOnWindow (n : ℕ) (x : Vec) (s _tau : ℝ) : Vec :=
  match (List.range n).find? (fun j => almostEqual s (x j) tol9) with
  | some j => setAt (fun _ => 0) j 1
  | none =>
    let st := baryLoop n x s
    fun j => st.1 j / st.2

/-- BasisLagrange.cpp:203-211, one row of the first derivative matrix. -/
noncomputable def dmatRow (n : ℕ) (x : Vec) (bw : Vec) (i : ℕ) (m : Mat) : Mat :=
  forLoop 0 n (fun j m =>
    if i ≠ j then
      let m1 := setAt2 m i j (bw j / bw i * 1 / (x i - x j))
      setAt2 m1 i i (m1 i i + -(m1 i j))
    else m) (setAt2 m i i 0)

/-- BasisLagrange.cpp:191-214 `derivative_matrix(points)`. -/
noncomputable def dmat1 (n : ℕ) (x : Vec) : Mat :=
  forLoop 0 n (dmatRow n x (baryWeights n x)) Mat.zero

/-- BasisLagrange.cpp:233-243, one row of the derivative matrix of order `k`, `buff` is the matrix of order `k-1`. -/
noncomputable def dmatRowK (n : ℕ) (x : Vec) (bw : Vec) (k : ℕ) (buff : Mat) (i : ℕ) (m : Mat) : Mat :=
  forLoop 0 n (fun j m =>
    if i ≠ j then
      let m1 := setAt2 m i j ((k : ℝ) / (x i - x j) * (bw j / bw i * buff i i - buff i j))
      setAt2 m1 i i (m1 i i + -(m1 i j))
    else m) (setAt2 m i i 0)

/-- BasisLagrange.cpp:216-249 `derivative_matrix(points, deg)`; the state of the loop is `(result, buff)`. -/
noncomputable def dmat (n : ℕ) (x : Vec) (deg : ℕ) : Mat :=
  if deg = 0 then Mat.id
  else if deg = 1 then dmat1 n x
  else (forLoop 2 (deg + 1) (fun k (st : Mat × Mat) =>
      let r := forLoop 0 n (dmatRowK n x (baryWeights n x) k st.2) st.1
      (r, r)) (dmat1 n x, dmat1 n x)).1

/-- BasisLagrange.cpp:290-295 `derivative_matrix_impl`. -/
noncomputable def derivMatrixImpl (n : ℕ) (x : Vec) (deg : ℕ) : Mat :=
  if deg = 0 then Mat.id else dmat n x deg

/-- BasisLagrange.cpp:81-112 `eval_derivative_on_window`. -/
noncomputable def evalDerivOnWindow (n : ℕ) (x : Vec) (s tau : ℝ) (deg : ℕ) : Vec :=
  let b := evalOnWindow n x s tau
  if deg = 0 then b
  else fun i => (derivMatrixImpl n x deg).tr.mulVec n b i * (2 / tau) ^ deg

/-- BasisLagrange.cpp:114-119 `eval_derivative_wrt_tau_on_window`. -/
noncomputable def evalDerivWrtTauOnWindow (n : ℕ) (x : Vec) (s tau : ℝ) (deg : ℕ) : Vec :=
  fun i => evalDerivOnWindow n x s tau deg i * (-(1 / 2) * (deg : ℝ) * (2 / tau))

/-- BasisLagrange.cpp:269-283, one row of `change_interpolation_points`; the state is `(result, book_row_has_match)`. The flag is
not reset between rows, as in the code. -/
noncomputable def changeRow (n : ℕ) (old new : Vec) (k : ℕ) (st : Mat × Bool) : Mat × Bool :=
  let st1 := forLoop 0 n (fun j (st : Mat × Bool) =>
    let m := setAt2 st.1 k j 0
    if almostEqual (new k) (old j) tol9 then (setAt2 m k j 1, true) else (m, st.2)) st
  if st1.2 then st1
  else
    let st2 := forLoop 0 n (fun j (st : Mat × ℝ) =>
      let t := baryWeights n old j / (new k - old j)
      (setAt2 st.1 k j t, st.2 + t)) (st1.1, 0)
    ((fun a b => if a = k then st2.1 a b / st2.2 else st2.1 a b), st1.2)

/-- BasisLagrange.cpp:251-288 `change_interpolation_points(old, new)` with `n` old and `m` new points. `junk` is the content of the freshly
allocated result. -/
noncomputable def changePoints (n m : ℕ) (old new : Vec) (junk : Mat) : Mat :=
  (forLoop 0 m (changeRow n old new) (junk, false)).1

/-- BasisLagrange.cpp:43-46: the matrix that the constructor takes as Gram matrix. Only its diagonal is assigned
(Gauss-Lobatto weights `w`), the other entries are whatever the allocation contained (`junk`). -/
def l2Mat (w : Vec) (junk : Mat) : Mat := fun i j => if i = j then w i else junk i j

/-- BasisLagrange.cpp:48-54: the vector `derivative_matrices_buffer_` as a function of its index. -/
noncomputable def sobolevBuffer (n : ℕ) (x : Vec) (w : Vec) (junk : Mat) (k : ℕ) : Mat :=
  if k = 0 then l2Mat w junk
  else
    let d := if k = 1 then dmat1 n x else dmat n x k
    ((d.mul n (l2Mat w junk)).mul n d.tr)

/-- BasisLagrange.cpp:148 scale of `add_derivative_matrix`. -/
noncomputable def sobScale (tau : ℝ) (deg : ℕ) : ℝ :=
  if 0 < deg then (2 / tau) ^ (2 * deg - 1) else tau / 2

/-- BasisLagrange.cpp:160-161 scale of `add_derivative_matrix_deriv_wrt_tau`. -/
noncomputable def sobScaleDtau (tau : ℝ) (deg : ℕ) : ℝ :=
  if 0 < deg then -(1 / 2) * (2 * (deg : ℝ) - 1) * (2 / tau) ^ (2 * deg) else 1 / 2

/-- BasisLagrange.cpp:146-156 `add_derivative_matrix`. -/
noncomputable def addDerivativeMatrix (n : ℕ) (x : Vec) (w : Vec) (junk : Mat) (tau : ℝ) (deg : ℕ) (m : Mat) : Mat :=
  if deg < n + 1 then fun i j => m i j + sobolevBuffer n x w junk deg i j * sobScale tau deg else m

/-- BasisLagrange.cpp:158-168 `add_derivative_matrix_deriv_wrt_tau`. -/
noncomputable def addDerivativeMatrixDtau (n : ℕ) (x : Vec) (w : Vec) (junk : Mat) (tau : ℝ) (deg : ℕ) (m : Mat) : Mat :=
  if deg < n + 1 then fun i j => m i j + sobolevBuffer n x w junk deg i j * sobScaleDtau tau deg else m

end GSplines.Lagrange
