import Verif.Model.Interp

/-!
# include/gsplines/FunctionalAnalysis/Sobolev.hpp, src/FunctionalAnalysis/Sobolev.cpp:8-95, class `SobolevNorm`

The buffer `matrix_` is set to zero before each use, it is a value here; `matrix_2_` is never used.
-/

namespace GSplines

/-- What a Lagrange basis object computes or leaves in memory in its constructor (BasisLagrange.cpp:43-46) besides its nodes: the Gauss-Lobatto weights and the
entries of the Gram matrix that are never assigned. The other classes do not use it. -/
structure LagMem where
  w : Vec
  junk : Mat

/-- Basis.hpp:154-155 `add_derivative_matrix`, dispatched to the class of the object. -/
noncomputable def Basis.addDerivMatrix (b : Basis) (mem : LagMem) (tau : ℝ) (deg : ℕ) (m : Mat) : Res Mat :=
  match b with
  | .legendre d => .ok (Legendre.addDerivativeMatrix d tau deg m)
  | .lagrange x => .ok (Lagrange.addDerivativeMatrix x.length (vecOf x) mem.w mem.junk tau deg m)
  | .b0101 a => B0101.addDerivativeMatrix a tau deg m

/-- Basis.hpp:156-158 `add_derivative_matrix_deriv_wrt_tau`, dispatched to the class of the object. -/
noncomputable def Basis.addDerivMatrixDtau (b : Basis) (mem : LagMem) (tau : ℝ) (deg : ℕ) (m : Mat) : Res Mat :=
  match b with
  | .legendre d => .ok (Legendre.addDerivativeMatrixDtau d tau deg m)
  | .lagrange x => .ok (Lagrange.addDerivativeMatrixDtau x.length (vecOf x) mem.w mem.junk tau deg m)
  | .b0101 a => B0101.addDerivativeMatrixDtau a tau deg m

/-- Sobolev.hpp:24-30, the members that are used. `num_intervals_`, `codom_dim_` and `basis_` equal those of the interpolator. -/
structure Sobolev where
  interp : Interp
  weights : List (ℕ × ℝ)
  points : Pts
  mem : LagMem

namespace Sobolev

/-- Sobolev.cpp:10-17, the constructor. Without way points the number of intervals wraps around. -/
def make (w : Pts) (b : Basis) (weights : List (ℕ × ℝ)) (mem : LagMem) (junk : Vec) : Res Sobolev :=
  if w.rows = 0 then .error .ub
  else do
    let i ← Interp.make w.cols (w.rows - 1) b junk
    return ⟨i, weights, w, mem⟩

/-- Sobolev.cpp:79-84: the matrix of one interval: for each weight the matrix of its order is added and the sum is multiplied by the weight. -/
noncomputable def matrix (b : Basis) (mem : LagMem) (weights : List (ℕ × ℝ)) (tau : ℝ) : Res Mat :=
  weights.foldlM (fun m w => do
    let m ← b.addDerivMatrix mem tau w.1 m
    return fun i j => m i j * w.2) Mat.zero

/-- Sobolev.cpp:49-55: the same with the derivatives of the matrices. -/
noncomputable def matrixDtau (b : Basis) (mem : LagMem) (weights : List (ℕ × ℝ)) (tau : ℝ) : Res Mat :=
  weights.foldlM (fun m w => do
    let m ← b.addDerivMatrixDtau mem tau w.1 m
    return fun i j => m i j * w.2) Mat.zero

/-- `v1.transpose() * m * v2` for vectors of size `n` (Sobolev.cpp:61, 90). -/
def form (n : ℕ) (m : Mat) (v1 v2 : Vec) : ℝ := ∑ i ∈ Finset.range n, ∑ j ∈ Finset.range n, v1 i * m i j * v2 j

/-- GSpline.cpp:168-177 `get_coefficient_segment`. -/
def seg (b : Basis) (codim : ℕ) (v : List ℝ) (iv c : ℕ) : Res (List ℝ) := segment v (iv * b.dim * codim + b.dim * c) b.dim

/-- Sobolev.cpp:68-95 `inner_prod`. -/
noncomputable def innerProd (b : Basis) (mem : LagMem) (weights : List (ℕ × ℝ)) (n codim : ℕ) (tau v1 v2 : List ℝ) : Res ℝ :=
  forLoopM 0 n (fun iv r => do
    let t ← rd tau iv
    let m ← matrix b mem weights t
    forLoopM 0 codim (fun c r => do
      let a1 ← seg b codim v1 iv c
      let a2 ← seg b codim v2 iv c
      return r + form b.dim m (vecOf a1) (vecOf a2)) r) 0

/-- Sobolev.cpp:19-26 `operator()`: new state and value. -/
noncomputable def cost (lu : LU) (s : Sobolev) (tau : List ℝ) : Res (Sobolev × ℝ) := do
  let (i, y) ← s.interp.solveInterpolation lu tau s.points
  let r ← innerProd i.basis s.mem s.weights i.n i.codim tau y y
  return ({ s with interp := i }, r)

/-- Sobolev.cpp:42-65: one pass of the loop of `deriv_wrt_interval_len`; the state is the interpolator and the buffer of the result. -/
noncomputable def gradStep (lu : LU) (s : Sobolev) (tau y : List ℝ) (idx : ℕ) (st : Interp × List ℝ) : Res (Interp × List ℝ) := do
  let (i, dy) ← st.1.coeffDerivative lu y tau idx
  let t ← rd tau idx
  let m ← matrixDtau i.basis s.mem s.weights t
  let r ← forLoopM 0 i.codim (fun c r => do
    let a ← seg i.basis i.codim y idx c
    return r + form i.basis.dim m (vecOf a) (vecOf a)) 0
  let p ← innerProd i.basis s.mem s.weights i.n i.codim tau y ((List.range i.size).map dy)
  if idx < st.2.length then return (i, st.2.set idx (r + 2 * p)) else .error .ub

/-- Sobolev.cpp:28-66 `deriv_wrt_interval_len`: new state and content of the buffer. -/
noncomputable def grad (lu : LU) (s : Sobolev) (tau buff : List ℝ) : Res (Sobolev × List ℝ) := do
  let (i, y) ← s.interp.solveInterpolation lu tau s.points
  let st ← forLoopM 0 i.n (gradStep lu s tau y) (i, buff)
  return ({ s with interp := st.1 }, st.2)

end Sobolev

end GSplines
