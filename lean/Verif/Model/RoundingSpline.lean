import Verif.Model.RoundingInterp

/-!
# Derivatives and arithmetic of splines with rounding errors: include/gsplines/GSpline.hpp and `derivative_matrix_impl` of the three bases

As in `Model/Rounding.lean` each operation on doubles may return any number within an error of the exact result, and the result of a program is a set of outcomes.
-/

namespace GSplines

namespace Rounded

open Nd

/-! ## The derivative matrices -/

/-- BasisLegendre.cpp:101 `alpha`. -/
noncomputable def alpha (u : ℝ × ℝ) (i : ℕ) : Nd ℝ := quot u ((i : ℝ) + 1) (2 * (i : ℝ) + 1)

/-- BasisLegendre.cpp:103 `gamma`. -/
noncomputable def gamma (u : ℝ × ℝ) (i : ℕ) : Nd ℝ := quot u (i : ℝ) (2 * (i : ℝ) + 1)

/-- BasisLegendre.cpp:164, `secondTerm`. -/
noncomputable def second (u : ℝ × ℝ) (m : Mat) (i j : ℕ) : Nd ℝ :=
  if 1 ≤ j then do
    let a ← alpha u (j - 1)
    near u (a * m (i - 1) (j - 1))
  else return 0

/-- BasisLegendre.cpp:165, `thirdTerm`. -/
noncomputable def third (u : ℝ × ℝ) (m : Mat) (i j : ℕ) : Nd ℝ :=
  if 1 ≤ i then do
    let a ← gamma u (j + 1)
    near u (a * m (i - 1) (j + 1))
  else return 0

/-- BasisLegendre.cpp:166, `fourthTerm`. -/
noncomputable def fourth (u : ℝ × ℝ) (m : Mat) (i j : ℕ) : Nd ℝ :=
  if 2 ≤ i then do
    let a ← gamma u (i - 1)
    near u (a * m (i - 2) j)
  else return 0

/-- BasisLegendre.cpp:163-169, an entry below the subdiagonal. -/
noncomputable def lowerEntry (u : ℝ × ℝ) (m : Mat) (i j : ℕ) : Nd ℝ := do
  let t2 ← second u m i j
  let t3 ← third u m i j
  let t4 ← fourth u m i j
  let a ← alpha u (i - 1)
  let q ← quot u 1 a
  let s ← near u (0 + t2)
  let s ← near u (s + t3)
  let s ← near u (s - t4)
  near u (q * s)

/-- BasisLegendre.cpp:160-172, entry `(i, j)` of the derivative matrix. -/
noncomputable def legendreEntry (u : ℝ × ℝ) (m : Mat) (i j : ℕ) : Nd ℝ :=
  if i = j + 1 then do
    let a ← alpha u (i - 1)
    quot u (i : ℝ) a
  else if j + 1 < i then lowerEntry u m i j
  else return 0

/-- BasisLegendre.cpp:153-177 `derivative_matrix`. -/
noncomputable def legendreDmat (u : ℝ × ℝ) (dim : ℕ) : Nd Mat :=
  loop 1 dim (fun i (m : Mat) => loop 0 (dim - 1) (fun j (m : Mat) => do
    let e ← legendreEntry u m i j
    return setAt2 m i j e) m) Mat.zero

/-- Eigen `A * B` for square matrices of size `n`: each entry is a scalar product, computed in any order. -/
def matMul (u : ℝ × ℝ) (n : ℕ) (a b : Mat) : Nd Mat :=
  loop 0 n (fun i (m : Mat) => loop 0 n (fun j (m : Mat) => do
    let e ← dot u ((List.range n).map (a i)) ((List.range n).map fun k => b k j)
    return setAt2 m i j e) m) Mat.zero

/-- BasisLegendre.cpp:179-191 `derivative_matrix_impl`. -/
noncomputable def legendreBlock (u : ℝ × ℝ) (dim deg : ℕ) : Nd Mat :=
  if deg = 0 then return Mat.id
  else do
    let result ← legendreDmat u dim
    let dm ← legendreDmat u dim
    loop 2 (deg + 1) (fun _ r => matMul u dim r dm.tr) result.tr

/-- Basis0101.cpp:170, `Q *= tauk`. -/
noncomputable def b0101Scaled (u : ℝ × ℝ) (tauk : ℝ) : Nd Mat :=
  loop 0 6 (fun i (m : Mat) => loop 0 6 (fun j (m : Mat) => do
    let e ← near u (B0101.d1mat i j * tauk)
    return setAt2 m i j e) m) Mat.zero

/-- Basis0101.cpp:154-177 `derivative_matrix_impl`: `Q *= Q` at each step. -/
noncomputable def b0101Block (u : ℝ × ℝ) (al : ℝ) (deg : ℕ) : Nd Mat :=
  if deg = 0 then return Mat.id
  else do
    let r2 ← near u (√2)
    let k ← near u (r2 / 4)
    let pa ← near u (al ^ (1 / 4 : ℝ))
    let k ← near u (k * pa)
    let d ← near u (1 - al)
    let pd ← near u (d ^ (1 / 4 : ℝ))
    let k ← quot u k pd
    let tauk ← near u (k * 2)
    let q ← b0101Scaled u tauk
    loop 2 (deg + 1) (fun _ q => matMul u 6 q q) q

/-- Basis.hpp:140-152 `get_derivative_matrix_block(_deg)` with `derivative_matrix_impl` of each class. An earlier call may have computed the matrix. -/
noncomputable def derivBlock (u : ℝ × ℝ) (b : Basis) (deg : ℕ) : Nd Mat :=
  match b with
  | .legendre d => legendreBlock u d deg
  | .b0101 a => b0101Block u a deg
  | .lagrange x => dmat u x.length (vecOf x) deg

/-! ## `deriv` -/

/-- GSpline.hpp:121-130: the scale, with the special case of Basis0101. -/
noncomputable def derivScale (u : ℝ × ℝ) (b : Basis) (tau : ℝ) (deg : ℕ) : Nd ℝ :=
  match b with
  | .b0101 _ => return (if deg = 0 then 0 else 1)
  | _ => do
    let q ← quot u 2 tau
    near u (q ^ deg)

/-- GSpline.hpp:132-134: `D * segment * scale`, evaluated before it is stored. -/
def segmentProduct (u : ℝ × ℝ) (dim i0 : ℕ) (d : Mat) (scale : ℝ) (v : Vec) : Nd Vec :=
  loop 0 dim (fun i (r : Vec) => do
    let a ← dot u ((List.range dim).map (d i)) ((List.range dim).map fun k => v (i0 + k))
    let p ← near u (a * scale)
    return setAt r i p) fun _ => 0

/-- GSpline.hpp:132-134: the assignment to the segment. -/
def derivSegment (u : ℝ × ℝ) (dim i0 : ℕ) (d : Mat) (scale : ℝ) (v : Vec) : Nd Vec := do
  let r ← segmentProduct u dim i0 d scale v
  return fun x => if i0 ≤ x ∧ x < i0 + dim then r (x - i0) else v x

/-- GSpline.hpp:118-134: the body of the loops. -/
noncomputable def derivStep (u : ℝ × ℝ) (b : Basis) (codim deg : ℕ) (tau : List ℝ) (d : Mat) (i c : ℕ) (v : Vec) : Nd Vec := do
  let scale ← derivScale u b (vecOf tau i) deg
  derivSegment u b.dim (i * b.dim * codim + b.dim * c) d scale v

/-- GSpline.hpp:114-137: the loops over intervals and components. -/
noncomputable def derivCoeffs (u : ℝ × ℝ) (b : Basis) (codim deg : ℕ) (tau : List ℝ) (d : Mat) (v : Vec) : Nd Vec :=
  loop 0 tau.length (fun i v => loop 0 codim (fun c v => derivStep u b codim deg tau d i c v) v) v

/-- GSpline.hpp:133: the derivative matrix, which is not needed if there are no loops. -/
noncomputable def neededBlock (u : ℝ × ℝ) (g : GSpline) (deg : ℕ) : Nd Mat :=
  if g.nIntervals = 0 ∨ g.codim = 0 then return Mat.zero else derivBlock u g.basis deg

/-- GSpline.hpp:108-143 `deriv_impl`. The loops read and write the first `n * dim * codim` coefficients. -/
noncomputable def deriv (u : ℝ × ℝ) (g : GSpline) (deg : ℕ) : Nd GSpline :=
  if 0 < deg then
    if g.coeffs.length < g.nIntervals * g.basis.dim * g.codim then lift (.error .ub)
    else do
      let d ← neededBlock u g deg
      let v ← derivCoeffs u g.basis g.codim deg g.tau d (vecOf g.coeffs)
      lift (GSpline.make g.dom g.codim g.nIntervals g.basis ((List.range g.coeffs.length).map v) g.tau)
  else lift (GSpline.make g.dom g.codim g.nIntervals g.basis g.coeffs g.tau)

/-! ## Arithmetic -/

/-- `v += w`, `v -= w` of Eigen on vectors (the sizes must agree). -/
def zipRes (u : ℝ × ℝ) (f : ℝ → ℝ → ℝ) (a b : List ℝ) : Nd (List ℝ) :=
  if a.length = b.length then (List.zipWith f a b).mapM (near u) else lift (.error .ub)

/-- GSpline.hpp:150-157 `operator+(const Current&) const&`. The comparison of the spaces is without rounding: it subtracts and compares with tolerances (C75). -/
noncomputable def add (u : ℝ × ℝ) (a b : GSpline) : Nd GSpline :=
  if a.sameVectorSpace b then do
    let r ← lift a.copy
    let c ← zipRes u (· + ·) r.coeffs b.coeffs
    return { r with coeffs := c }
  else lift (.error .invalidArgument)

/-- GSpline.hpp:183-190 `operator-(const Current&) const&`. -/
noncomputable def sub (u : ℝ × ℝ) (a b : GSpline) : Nd GSpline :=
  if a.sameVectorSpace b then do
    let r ← lift a.copy
    let c ← zipRes u (· - ·) r.coeffs b.coeffs
    return { r with coeffs := c }
  else lift (.error .invalidArgument)

/-- GSpline.cpp:203-207 and 212 `a * g`, `g * a`. -/
def smul (u : ℝ × ℝ) (a : ℝ) (g : GSpline) : Nd GSpline := do
  let r ← lift g.copy
  let c ← (r.coeffs.map (· * a)).mapM (near u)
  return { r with coeffs := c }

end Rounded

end GSplines
