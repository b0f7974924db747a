import Verif.Model.Mat

/-!
# src/Basis/BasisLegendre.cpp
-/

namespace GSplines.Legendre

open GSplines

/-- BasisLegendre.cpp:95-99 (and the identical loop 59-63): three term recurrence, entry `i+1` from entries `i`, `i-1`. -/
noncomputable def recBody (s : ℝ) (i : ℕ) (b : Vec) : Vec :=
  setAt b (i + 1) (1 / ((i : ℝ) + 1) * ((2 * (i : ℝ) + 1) * s * b i - (i : ℝ) * b (i - 1)))

/-- BasisLegendre.cpp:92-99: `setZero`, entries 0 and 1, loop. -/
noncomputable def values (dim : ℕ) (s : ℝ) : Vec :=
  forLoop 1 (dim - 1) (recBody s) (setAt (setAt (fun _ => 0) 0 1) 1 s)

/-- BasisLegendre.cpp:89-100 `eval_on_window` (the interval length is ignored).
`_buff(1) = _s` is out of range when the dimension is less than two. -/
noncomputable def evalOnWindow (dim : ℕ) (s _tau : ℝ) : Res Vec :=
  if dim < 2 then .error .ub else .ok (values dim s)

/-- Local variables of `eval_derivative_on_window`, BasisLegendre.cpp:52-56. -/
structure DState where
  buff : Vec
  next : Vec
  aux : ℝ
  mult : ℝ

/-- BasisLegendre.cpp:69-74, one step of the inner loop: writes `buff_next(i+1)`. -/
noncomputable def dInner (s : ℝ) (d : ℕ) (buff : Vec) (i : ℕ) (next : Vec) : Vec :=
  setAt next (i + 1) (1 / ((i : ℝ) + 1) *
    ((2 * (i : ℝ) + 1) * ((d : ℝ) * buff i + s * next i) - (i : ℝ) * next (i - 1)))

/-- BasisLegendre.cpp:65-78, one step of the loop over the derivative orders. -/
noncomputable def dOuter (dim : ℕ) (s tau : ℝ) (d : ℕ) (st : DState) : DState :=
  let next0 := setAt (setAt st.next (d - 1) 0) d st.aux
  let next := forLoop d (dim - 1) (dInner s d st.buff) next0
  { buff := next
    next := next
    aux := (2 * (d : ℝ) + 1) / ((d : ℝ) + 1) * ((d : ℝ) + 1) * st.aux
    mult := st.mult * (2 / tau) }

/-- BasisLegendre.cpp:49-80 `eval_derivative_on_window`. `_buff(1)` needs dimension two, `buff_next(d)` with `d = _deg`
needs `_deg < dim`. -/
noncomputable def evalDerivOnWindow (dim : ℕ) (s tau : ℝ) (deg : ℕ) : Res Vec :=
  if dim < 2 ∨ dim ≤ deg then .error .ub
  else
    let st := forLoop 1 (deg + 1) (dOuter dim s tau) ⟨values dim s, fun _ => 0, 1, 1⟩
    .ok (fun i => st.buff i * st.mult)

/-- BasisLegendre.cpp:82-87 `eval_derivative_wrt_tau_on_window`. -/
noncomputable def evalDerivWrtTauOnWindow (dim : ℕ) (s tau : ℝ) (deg : ℕ) : Res Vec := do
  let b ← evalDerivOnWindow dim s tau deg
  return fun i => b i * (-(1 / 2) * (deg : ℝ) * (2 / tau))

/-- BasisLegendre.cpp:101 `alpha`. -/
noncomputable def alpha (i : ℕ) : ℝ := ((i : ℝ) + 1) / (2 * (i : ℝ) + 1)

/-- BasisLegendre.cpp:103 `gamma`. -/
noncomputable def gamma (i : ℕ) : ℝ := (i : ℝ) / (2 * (i : ℝ) + 1)

/-- BasisLegendre.cpp:160-172 (identical to 111-123), entry `(i, j)` of the derivative matrix. -/
noncomputable def dmatEntry (m : Mat) (i j : ℕ) : ℝ :=
  if i = j + 1 then (i : ℝ) / alpha (i - 1)
  else if j + 1 < i then
    1 / alpha (i - 1) *
      (0 + (if 1 ≤ j then alpha (j - 1) * m (i - 1) (j - 1) else 0)
        + (if 1 ≤ i then gamma (j + 1) * m (i - 1) (j + 1) else 0)
        - (if 2 ≤ i then gamma (i - 1) * m (i - 2) j else 0))
  else 0

/-- BasisLegendre.cpp:153-177 `derivative_matrix` (identical to `gsplines_legendre_dmat`, 105-126). -/
noncomputable def dmat (dim : ℕ) : Mat :=
  forLoop 1 dim (fun i m => forLoop 0 (dim - 1) (fun j m => setAt2 m i j (dmatEntry m i j)) m) Mat.zero

/-- BasisLegendre.cpp:179-191 `derivative_matrix_impl`. -/
noncomputable def derivMatrixImpl (dim deg : ℕ) : Mat :=
  if deg = 0 then Mat.id
  else forLoop 2 (deg + 1) (fun _ r => r.mul dim (dmat dim).tr) (dmat dim).tr

/-- BasisLegendre.cpp:23-27: Gram matrix of the Legendre polynomials. -/
noncomputable def l2Mat : Mat := fun i j => if i = j then 2 / (2 * (i : ℝ) + 1) else 0

/-- BasisLegendre.cpp:29-34: the vector `derivative_matrices_buffer_`, as a function of its index; `k`-th entry pushed
with the running power of the derivative matrix in the variable `dmat`. -/
noncomputable def sobolevBuffer (dim : ℕ) (k : ℕ) : Mat :=
  if k = 0 then l2Mat
  else
    let d := forLoop 1 k (fun _ a => a.mul dim (dmat dim).tr) (dmat dim).tr
    ((d.mul dim l2Mat).mul dim d.tr)

/-- BasisLegendre.cpp:130 scale of `add_derivative_matrix`. -/
noncomputable def sobScale (tau : ℝ) (deg : ℕ) : ℝ :=
  if 0 < deg then (2 / tau) ^ (2 * deg - 1) else tau / 2

/-- BasisLegendre.cpp:142-143 scale of `add_derivative_matrix_deriv_wrt_tau`. -/
noncomputable def sobScaleDtau (tau : ℝ) (deg : ℕ) : ℝ :=
  if 0 < deg then -(1 / 2) * (2 * (deg : ℝ) - 1) * (2 / tau) ^ (2 * deg) else 1 / 2

/-- BasisLegendre.cpp:128-138 `add_derivative_matrix`. -/
noncomputable def addDerivativeMatrix (dim : ℕ) (tau : ℝ) (deg : ℕ) (m : Mat) : Mat :=
  if deg < dim + 1 then fun i j => m i j + sobolevBuffer dim deg i j * sobScale tau deg else m

/-- BasisLegendre.cpp:140-151 `add_derivative_matrix_deriv_wrt_tau`. -/
noncomputable def addDerivativeMatrixDtau (dim : ℕ) (tau : ℝ) (deg : ℕ) (m : Mat) : Mat :=
  if deg < dim + 1 then fun i j => m i j + sobolevBuffer dim deg i j * sobScaleDtau tau deg else m

end GSplines.Legendre
