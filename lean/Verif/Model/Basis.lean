import Verif.Model.Legendre
import Verif.Model.Lagrange
import Verif.Model.B0101
import Verif.Model.Tools

/-!
# include/gsplines/Basis/Basis.hpp, src/Basis/Basis.cpp

The class hierarchy of bases is a sum type: dynamic dispatch is a `match`, `dynamic_cast` a pattern.
`BasisLagrangeGaussLobatto` (BasisLagrange.hpp:77-80) is `lagrange` with the Gauss-Lobatto nodes.
-/

namespace GSplines

/-- Basis.hpp:18-90: an object of one of the three classes derived from `Basis`, with its construction parameters
(BasisLegendre.cpp:15-36, BasisLagrange.cpp:33-63, Basis0101.cpp:22-27). -/
inductive Basis where
  | legendre (dim : ℕ)
  | lagrange (nodes : List ℝ)
  | b0101 (alpha : ℝ)

/-- Reading a list as a function of the index (entries past the end are `0`, never used for in-range accesses). -/
def vecOf (l : List ℝ) : Vec := fun i => l.getD i 0

/-- Eigen `v(i)`: out of range is undefined behaviour (an assertion of Eigen in debug builds). -/
def rd (l : List ℝ) (i : ℕ) : Res ℝ :=
  match l[i]? with
  | some x => .ok x
  | none => .error .ub

/-- Eigen `v.segment(i0, n)`. -/
def segment (l : List ℝ) (i0 n : ℕ) : Res (List ℝ) :=
  if i0 + n ≤ l.length then .ok ((l.drop i0).take n) else .error .ub

namespace Basis

/-- Basis.hpp:97 `get_dim`, with the dimension given by each constructor. -/
def dim : Basis → ℕ
  | legendre d => d
  | lagrange x => x.length
  | b0101 _ => 6

/-- Basis.hpp `get_name`, with the name given by each constructor. -/
def name : Basis → String
  | legendre _ => "legendre"
  | lagrange _ => "lagrange"
  | b0101 _ => "basis0101"

/-- Basis.hpp `get_parameters`, the vector `parameters_float_`. -/
def params : Basis → List ℝ
  | legendre _ => []
  | lagrange x => x
  | b0101 a => [a]

/-- `eval_on_window` of each class. -/
noncomputable def evalOnWindow (b : Basis) (s tau : ℝ) : Res Vec :=
  match b with
  | legendre d => Legendre.evalOnWindow d s tau
  | lagrange x => .ok (Lagrange.evalOnWindow x.length (vecOf x) s tau)
  | b0101 a => .ok (B0101.evalOnWindow a s tau)

/-- `eval_derivative_on_window` of each class. -/
noncomputable def evalDerivOnWindow (b : Basis) (s tau : ℝ) (deg : ℕ) : Res Vec :=
  match b with
  | legendre d => Legendre.evalDerivOnWindow d s tau deg
  | lagrange x => .ok (Lagrange.evalDerivOnWindow x.length (vecOf x) s tau deg)
  | b0101 a => .ok (B0101.evalDerivOnWindow a s tau deg)

/-- `eval_derivative_wrt_tau_on_window` of each class. -/
noncomputable def evalDerivWrtTauOnWindow (b : Basis) (s tau : ℝ) (deg : ℕ) : Res Vec :=
  match b with
  | legendre d => Legendre.evalDerivWrtTauOnWindow d s tau deg
  | lagrange x => .ok (Lagrange.evalDerivWrtTauOnWindow x.length (vecOf x) s tau deg)
  | b0101 a => .ok (B0101.evalDerivWrtTauOnWindow a s tau deg)

/-- `derivative_matrix_impl` of each class. -/
noncomputable def derivMatrixImpl (b : Basis) (deg : ℕ) : Mat :=
  match b with
  | legendre d => Legendre.derivMatrixImpl d deg
  | lagrange x => Lagrange.derivMatrixImpl x.length (vecOf x) deg
  | b0101 a => B0101.derivMatrixImpl a deg

/-- Basis.hpp:143-150: the loop that extends the cache until it has `_deg + 1` entries. -/
noncomputable def fillCache (b : Basis) (deg : ℕ) (cache : List Mat) : List Mat :=
  forLoop cache.length (deg + 1) (fun k c => c ++ [b.derivMatrixImpl k]) cache

/-- Basis.hpp:140-152 `get_derivative_matrix_block(_deg)`: new cache and returned matrix. -/
noncomputable def getBlock (b : Basis) (deg : ℕ) (cache : List Mat) : List Mat × Res Mat :=
  let c := b.fillCache deg cache
  (c, match c[deg]? with
    | some m => .ok m
    | none => .error .ub)

/-- Basis.hpp:74-76: cache of a new object. -/
def cache0 : List Mat := [Mat.id]

/-- What can happen to the cache of a basis object: a request, being copied (Basis.hpp:78-83, the copy has the same cache),
being moved from (85-90, `std::vector` is left empty). -/
inductive CacheOp where
  | request (deg : ℕ)
  | copied
  | movedFrom

/-- Effect of an operation on the cache. -/
noncomputable def cacheStep (b : Basis) (c : List Mat) : CacheOp → List Mat
  | .request d => (b.getBlock d c).1
  | .copied => c
  | .movedFrom => []

/-- `get_derivative_matrix_block(deg)` on an object with a fresh cache (the answer does not depend on the cache, `Props.C32_cache`). -/
noncomputable def derivBlock (b : Basis) (deg : ℕ) : Mat := b.derivMatrixImpl deg

/-- Basis.cpp:220-231 `operator==`. No class fills `parameters_int_`, its comparison is between empty vectors. -/
noncomputable def beq (a b : Basis) : Bool :=
  if a.name ≠ b.name then false
  else if a.dim ≠ b.dim then false
  else if a.params.length ≠ b.params.length then false
  else Tools.approxEqualV a.params b.params (1 / 10 ^ 6)

/-- Basis.cpp:23-43 `get_basis`. The constructor of `BasisLagrange` asks for the Gauss-Lobatto points of its dimension
(BasisLagrange.cpp:43-49), which is undefined behaviour for fewer than two nodes (`GLL.pointsWeights`). -/
def getBasis (name : String) (dim : ℕ) (params : List ℝ) : Res Basis :=
  if name = "lagrange" then if params.length < 2 then .error .ub else .ok (lagrange params)
  else if name = "legendre" then .ok (legendre dim)
  else if name = "basis0101" then
    if params.length ≠ 1 then .error .invalidArgument
    else do
      let a ← rd params 0
      return b0101 a
  else .error .invalidArgument

/-! ## Basis.cpp:45-156 continuity_matrix -/

/-- The result of reading a row of a matrix that exists because the dimension is positive. -/
def rowOf (m : Mat) (i dim : ℕ) : Res Vec := if i < dim then .ok (m i) else .error .ub

/-- Basis.cpp:60-72: the row `der` of `left_buffer` (`left = true`) or `right_buffer`. -/
noncomputable def contRow (b : Basis) (left : Bool) (der : ℕ) : Res Vec :=
  if der = 0 then b.evalDerivOnWindow (if left then -1 else 1) 2 0
  else rowOf (b.derivBlock der) (if left then 0 else b.dim - 1) b.dim

/-- Rows `0 … order` of a buffer. -/
noncomputable def contBuf (b : Basis) (left : Bool) : ℕ → Res Mat
  | 0 => do
    let r ← b.contRow left 0
    return setAt (fun _ _ => 0) 0 r
  | k + 1 => do
    let m ← b.contBuf left k
    let r ← b.contRow left (k + 1)
    return setAt m (k + 1) r

/-- Basis.cpp:76-104: the loops that insert the entries of the matrix that is cached. -/
noncomputable def contStatic (dim n codim order : ℕ) (left right : Mat) : Mat :=
  forLoop 0 (order + 1) (fun der m =>
    forLoop 0 (n - 1) (fun iv m =>
      let i0 := codim * (n - 1) * der + iv * codim
      let m1 := forLoop 0 codim (fun c m =>
        forLoop 0 dim (fun k m => setAt2 m (i0 + c) (iv * dim * codim + k + dim * c) (right der k)) m) m
      forLoop 0 codim (fun c m =>
        forLoop 0 dim (fun k m => setAt2 m (i0 + c) ((iv + 1) * dim * codim + k + dim * c) (-(left der k))) m) m1) m) Mat.zero

/-- Basis.cpp:128-152: rows from `codim (n-1)` on of the dynamic matrix become the static ones times `(2/tau_interval)^deg`. All
entries of the row that can be non-zero are stored, the others are zero in both matrices. -/
noncomputable def contScale (dim n codim order : ℕ) (tau : List ℝ) (src dest : Mat) : Mat :=
  forLoop (codim * (n - 1)) (codim * (n - 1) * (order + 1)) (fun k m =>
    fun r c => if r = k then src r c * (2 / vecOf tau (c / (dim * codim))) ^ (k / (codim * (n - 1))) else m r c) dest

/-- Key of the caches: number of intervals, codomain dimension, order. -/
abbrev CKey := ℕ × ℕ × ℕ

/-- Basis.hpp:29-41: the two caches `continuity_matrix_buff_`, `continuity_matrix_dynamic_buff_` (static, dynamic). -/
abbrev CCache := CKey → Option (Mat × Mat)

/-- Writing an entry of a `std::map`. -/
def CCache.set (c : CCache) (k : CKey) (v : Mat × Mat) : CCache := fun k' => if k' = k then some v else c k'

open Classical in
/-- Basis.cpp:45-156 `continuity_matrix`. `n = 0` makes `_number_of_intervals - 1` wrap around. The lengths are read
only if there are rows to scale. -/
noncomputable def continuityMatrix (b : Basis) (n codim order : ℕ) (tau : List ℝ) (cc : CCache) : CCache × Res Mat :=
  if n = 0 then (cc, .error .ub)
  else
    let go := fun (cc : CCache) (st dy : Mat) =>
      if 1 ≤ codim ∧ 2 ≤ n ∧ 1 ≤ order ∧ tau.length < n then (cc, (.error .ub : Res Mat))
      else if 1 ≤ codim ∧ 2 ≤ n ∧ 1 ≤ order ∧ 0 ∈ tau.take n then (cc, .error .notFinite)
      else
        let r := contScale b.dim n codim order tau st dy
        (cc.set (n, codim, order) (st, r), .ok r)
    match cc (n, codim, order) with
    | some (st, dy) => go cc st dy
    | none =>
      match b.contBuf true order, b.contBuf false order with
      | .ok l, .ok r =>
        let m := contStatic b.dim n codim order l r
        go (cc.set (n, codim, order) (m, m)) m m
      | .error e, _ => (cc, .error e)
      | _, .error e => (cc, .error e)

/-- Basis.cpp:169-181: the block diagonal matrix that is cached. -/
noncomputable def derivStatic (dim n codim : ℕ) (d : Mat) : Mat :=
  forLoop 0 (n * codim) (fun block m =>
    forLoop 0 dim (fun i m =>
      forLoop 0 dim (fun j m => setAt2 m (block * dim + i) (block * dim + j) (d i j)) m) m) Mat.zero

/-- Basis.cpp:199-214: every row is rescaled. -/
noncomputable def derivScale (dim n codim order : ℕ) (tau : List ℝ) (src dest : Mat) : Mat :=
  forLoop 0 (n * codim * dim) (fun k m =>
    fun r c => if r = k then src r c * (2 / vecOf tau (c / (dim * codim))) ^ order else m r c) dest

open Classical in
/-- Basis.cpp:158-218 `gspline_derivative_matrix`. -/
noncomputable def gsplineDerivativeMatrix (b : Basis) (n codim order : ℕ) (tau : List ℝ) (cc : CCache) : CCache × Res Mat :=
  let go := fun (cc : CCache) (st dy : Mat) =>
    if 1 ≤ codim ∧ 1 ≤ b.dim ∧ tau.length < n then (cc, (.error .ub : Res Mat))
    else if 1 ≤ codim ∧ 1 ≤ b.dim ∧ 1 ≤ order ∧ 0 ∈ tau.take n then (cc, .error .notFinite)
    else
      let r := derivScale b.dim n codim order tau st dy
      (cc.set (n, codim, order) (st, r), .ok r)
  match cc (n, codim, order) with
  | some (st, dy) => go cc st dy
  | none =>
    let m := derivStatic b.dim n codim (b.derivBlock order)
    go (cc.set (n, codim, order) (m, m)) m m

end Basis

end GSplines
