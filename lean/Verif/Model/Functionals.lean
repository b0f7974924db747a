import Verif.Model.Colloc
import Verif.Model.Integral

/-!
# include/gsplines/Collocation/GaussLobattoLagrangeFunctionals.hpp, src/Collocation/GaussLobattoLagrangeFunctionals.cpp

A `LinearFunctional` is a matrix; dense and sparse storage are not distinguished (`to_dense_matrix`, `to_sparse_matrix`, `set` and `makeCompressed` do not change
the entries; Model/LinFun.lean has them). Products and sums of matrices and vectors that do not fit are `Err.ub`. The reference points and weights are computed in freshly allocated
vectors; all of them are given the same contents `jp`, `jw` here, and by `C45_initialised` the contents do not matter.
-/

namespace GSplines.Colloc

open GSplines

/-- GaussLobattoLagrangeFunctionals.hpp:46-74 `LinearFunctional`: the member `mat_` with its size. -/
structure LF where
  rows : ℕ
  cols : ℕ
  mat : Mat

namespace LF

/-- `mat_ * vector`. -/
def apply (L : LF) (v : List ℝ) : Res (List ℝ) :=
  if v.length ≠ L.cols then .error .ub else .ok ((List.range L.rows).map (L.mat.mulVec L.cols (vecOf v)))

/-- hpp:138-141 `operator()`. -/
def call (L : LF) (g : GSpline) : Res (List ℝ) := L.apply g.coeffs

/-- hpp:143-155 `operator*(const GaussLobattoLagrangeSpline&)`. -/
noncomputable def actOn (L : LF) (g : GSpline) (jp jw : Vec) : Res GSpline := do
  let co ← L.apply g.coeffs
  if g.nIntervals = 0 ∨ g.basis.dim = 0 then .error .ub
  else Colloc.mk g.dom (L.rows / g.nIntervals / g.basis.dim) g.nIntervals g.basis.dim co g.tau jp jw

/-- hpp:118-121 `operator*(const LinearFunctional&)`. -/
def comp (A B : LF) : Res LF :=
  if A.cols ≠ B.rows then .error .ub else .ok ⟨A.rows, B.cols, Mat.mul A.cols A.mat B.mat⟩

/-- hpp:123-126 `operator+`. -/
def add (A B : LF) : Res LF :=
  if A.rows ≠ B.rows ∨ A.cols ≠ B.cols then .error .ub else .ok ⟨A.rows, A.cols, fun i j => A.mat i j + B.mat i j⟩

/-- hpp:127-130 `operator-`. -/
def sub (A B : LF) : Res LF :=
  if A.rows ≠ B.rows ∨ A.cols ≠ B.cols then .error .ub else .ok ⟨A.rows, A.cols, fun i j => A.mat i j - B.mat i j⟩

/-- hpp:132-136, unary minus. -/
def neg (A : LF) : LF := ⟨A.rows, A.cols, fun i j => A.mat i j * (-1)⟩

/-- hpp:189-200 `operator*(double, ...)`, both overloads. -/
def smul (x : ℝ) (A : LF) : LF := ⟨A.rows, A.cols, fun i j => A.mat i j * x⟩

/-- hpp:181-184 `differential`. -/
def differential (A : LF) (_ : GSpline) : LF := A

end LF

/-! ## Derivative -/

/-- hpp:206-213 `Derivative`: the matrix, the constants, and the basis with its matrix cache. -/
structure Deriv where
  lf : LF
  basis : Basis
  nInt : ℕ
  codim : ℕ
  deg : ℕ
  cache : Basis.CCache

namespace Deriv

/-- cpp:21-33, the constructor from interval lengths. -/
noncomputable def ofLengths (codim nglp : ℕ) (tau : List ℝ) (deg : ℕ) (jp jw : Vec) : Res Deriv := do
  let b ← glBasis nglp jp jw
  let r := b.gsplineDerivativeMatrix tau.length codim deg tau (fun _ => none)
  let m ← r.2
  return ⟨⟨tau.length * codim * b.dim, tau.length * codim * b.dim, m⟩, b, tau.length, codim, deg, r.1⟩

/-- cpp:13-19, the constructor from a domain. -/
noncomputable def ofDomain (dom : ℝ × ℝ) (codim nglp nInt deg : ℕ) (jp jw : Vec) : Res Deriv :=
  ofLengths codim nglp (List.replicate nInt ((dom.2 - dom.1) / nInt)) deg jp jw

/-- cpp:35-37, the constructor from a spline. -/
noncomputable def ofSpline (g : GSpline) (jp jw : Vec) : Res Deriv := ofLengths g.codim g.basis.dim g.tau 1 jp jw

/-- cpp:39-45 `update(const Eigen::VectorXd&)`. -/
noncomputable def update (d : Deriv) (tau : List ℝ) : Res Deriv := do
  let r := d.basis.gsplineDerivativeMatrix tau.length d.codim d.deg tau d.cache
  let m ← r.2
  return { d with lf := ⟨tau.length * d.codim * d.basis.dim, tau.length * d.codim * d.basis.dim, m⟩, cache := r.1 }

/-- cpp:47-53 `update(double)`. -/
noncomputable def updateConst (d : Deriv) (len : ℝ) : Res Deriv := do
  let tau := List.replicate d.nInt len
  let r := d.basis.gsplineDerivativeMatrix d.nInt d.codim d.deg tau d.cache
  let m ← r.2
  return { d with lf := ⟨d.nInt * d.codim * d.basis.dim, d.nInt * d.codim * d.basis.dim, m⟩, cache := r.1 }

end Deriv

/-! ## TransposeLeftMultiplication -/

/-- hpp:229-233 `TransposeLeftMultiplication`. -/
structure TLM where
  lf : LF
  nglp : ℕ
  nInt : ℕ
  codim : ℕ

namespace TLM

/-- hpp:257-269, 281-294, 305-318: the three loops that store a coefficient vector. All `nInt * nglp * codim` entries of the vector are read. -/
noncomputable def fill (nglp nInt codim : ℕ) (v : List ℝ) (m : Mat) : Res Mat :=
  if v.length < nInt * nglp * codim then .error .ub
  else .ok (forLoop 0 nInt (fun iv m =>
    forLoop 0 codim (fun c m =>
      forLoop 0 nglp (fun i m =>
        setAt2 m (iv * nglp + i) (c * nglp + iv * nglp * codim + i) (vecOf v (iv * nglp * codim + c * nglp + i))) m) m) m)

/-- hpp:236-240, the constructor from sizes. -/
def ofSizes (codim nglp nInt : ℕ) : TLM := ⟨⟨nglp * nInt, nglp * nInt * codim, Mat.zero⟩, nglp, nInt, codim⟩

/-- hpp:242-270, the constructor from a spline. -/
noncomputable def ofSpline (g : GSpline) : Res TLM := do
  let m ← fill g.basis.dim g.nIntervals g.codim g.coeffs Mat.zero
  return ⟨⟨g.basis.dim * g.nIntervals, g.basis.dim * g.nIntervals * g.codim, m⟩, g.basis.dim, g.nIntervals, g.codim⟩

/-- hpp:272-296 `operator=(const FunctionBase&)`: the new object. -/
noncomputable def assignFn (T : TLM) (f : Fn) (jp jw junk : Vec) : Res TLM :=
  if f.codim ≠ T.codim then .error .invalidArgument
  else do
    let a ← approximate f T.nglp T.nInt jp jw junk
    let m ← fill T.nglp T.nInt T.codim a.coeffs T.lf.mat
    return { T with lf := { T.lf with mat := m } }

/-- hpp:298-320 `operator=(const GaussLobattoLagrangeSpline&)`: the new object. Only the number of components is checked. -/
noncomputable def assign (T : TLM) (g : GSpline) : Res TLM :=
  if g.codim ≠ T.codim then .error .invalidArgument
  else do
    let m ← fill T.nglp T.nInt T.codim g.coeffs T.lf.mat
    return { T with lf := { T.lf with mat := m } }

end TLM

/-! ## MatrixLeftMultiplication -/

/-- hpp:322-327 `MatrixLeftMultiplication`. -/
structure MLM where
  lf : LF
  nglp : ℕ
  nInt : ℕ
  cols : ℕ
  rows : ℕ

namespace MLM

/-- hpp:330-355, the constructor: all entries of the pattern are stored as zeros. -/
def ofSizes (domDim nglp nInt codomDim : ℕ) : MLM := ⟨⟨nglp * nInt * codomDim, nglp * nInt * domDim, Mat.zero⟩, nglp, nInt, domDim, codomDim⟩

/-- hpp:375-384: the entries of node `index`. -/
def writeNode (nglp rows cols index : ℕ) (M : Mat) (m : Mat) : Mat :=
  forLoop 0 cols (fun col m =>
    forLoop 0 rows (fun row m =>
      setAt2 m (row * nglp + index / nglp * nglp * rows + index % nglp) (col * nglp + index / nglp * nglp * cols + index % nglp) (M row col)) m) m

/-- hpp:357-386 `update(begin, end, fun)`, from the matrices that `fun` returns. An exception in the middle of the loop leaves the first matrices stored,
see `Failure.mlmUpdateEach`. -/
def updateEach (L : MLM) (Ms : List LF) : Res MLM :=
  if Ms.length ≠ L.nglp * L.nInt then .error .runtimeError
  else do
    let m ← forLoopM 0 Ms.length (fun i m =>
      let M := Ms.getD i ⟨0, 0, Mat.zero⟩
      if M.cols ≠ L.cols ∨ M.rows ≠ L.rows then .error .runtimeError
      else .ok (writeNode L.nglp L.rows L.cols i M.mat m)) L.lf.mat
    return { L with lf := { L.lf with mat := m } }

/-- hpp:387-408 `update(const Eigen::MatrixXd&)`: the loop over rows runs to the number of columns and the argument is read transposed. -/
def updateAll (L : MLM) (M : LF) : Res MLM :=
  if M.rows ≠ L.rows ∨ M.cols ≠ L.cols then .error .runtimeError
  else do
    let m ← forLoopM 0 (L.nInt * L.nglp) (fun index m =>
      forLoopM 0 L.cols (fun col m =>
        forLoopM 0 L.cols (fun row m =>
          let j0 := col * L.nglp + index / L.nglp * L.nglp * L.cols + index % L.nglp
          let i0 := row * L.nglp + index / L.nglp * L.nglp * L.rows + index % L.nglp
          if L.lf.rows ≤ i0 ∨ L.lf.cols ≤ j0 ∨ M.rows ≤ col ∨ M.cols ≤ row then .error .ub
          else .ok (setAt2 m i0 j0 (M.mat col row))) m) m) L.lf.mat
    return { L with lf := { L.lf with mat := m } }

end MLM

/-! ## Integral -/

/-- hpp:447-448 `Integral`. -/
structure Integ where
  lf : LF
  nglp : ℕ

namespace Integ

/-- The row of weights of `legendre_gauss_lobatto_weights(domain, nglp, n_intervals)`. -/
noncomputable def row (dom : ℝ × ℝ) (nglp n : ℕ) (jp jw junk : Vec) : Res LF := do
  let (_, w) ← GLL.pointsWeights nglp jp jw
  return ⟨1, nglp * n, fun _ j => GLL.gridWeights w dom nglp n junk j⟩

/-- cpp:58-63. -/
noncomputable def ofDomain (dom : ℝ × ℝ) (nglp n : ℕ) (jp jw junk : Vec) : Res Integ := do
  let l ← row dom nglp n jp jw junk
  return ⟨l, nglp⟩

/-- cpp:65-67. -/
noncomputable def ofSpline (g : GSpline) (jp jw junk : Vec) : Res Integ := ofDomain g.dom g.basis.dim g.nIntervals jp jw junk

/-- cpp:69-73 `update(domain, nglp, n_intervals)`: `nglp_` keeps its value. -/
noncomputable def update (I : Integ) (dom : ℝ × ℝ) (nglp n : ℕ) (jp jw junk : Vec) : Res Integ := do
  let l ← row dom nglp n jp jw junk
  return { I with lf := l }

/-- cpp:75-81 `update(intervals)`: the size is compared with the number of rows. -/
noncomputable def updateLengths (I : Integ) (tau : List ℝ) (jp jw junk : Vec) : Res Integ :=
  if tau.length * I.nglp ≠ I.lf.rows then .error .invalidArgument
  else do
    let (_, w) ← GLL.pointsWeights I.nglp jp jw
    return { I with lf := ⟨1, I.nglp * tau.length, fun _ j => GLL.varWeights w I.nglp tau.length (vecOf tau) junk j⟩ }

end Integ

/-! ## SobolevDistance -/

/-- hpp:461-468 `SobolevDistance`; `diff` is the content of the object that `diff_` points to. -/
structure SobDist where
  approx : GSpline
  approxD : GSpline
  int : Integ
  der : Deriv
  diff : LF

namespace SobDist

/-- cpp:86-95, the constructor. The last argument `_deg` is not used; the content of `*diff_` is not initialised (`junkDiff`). -/
noncomputable def make (f : Fn) (nglp nInt _deg : ℕ) (jp jw junk : Vec) (junkDiff : Mat) : Res SobDist := do
  let a ← approximate f nglp nInt jp jw junk
  let fd ← f.derivate 1
  let ad ← approximate fd nglp nInt jp jw junk
  let i ← Integ.ofSpline a jp jw junk
  let d ← Deriv.ofSpline a jp jw
  return ⟨a, ad, i, d, ⟨1, nglp * nInt * f.codim, junkDiff⟩⟩

/-- cpp:99, 102, 107: `approx_ - _in`. -/
noncomputable def err (s : SobDist) (g : GSpline) : Res GSpline := s.approx.sub g

/-- cpp:100, 102, 108: `approx_d_ - der_ * _in`; the second operand is a temporary. -/
noncomputable def errD (s : SobDist) (g : GSpline) (jp jw : Vec) : Res GSpline := do
  let d ← s.der.lf.actOn g jp jw
  s.approxD.subToThat d

/-- cpp:97-103 `operator()`. -/
noncomputable def call (s : SobDist) (g : GSpline) (jp jw : Vec) : Res (List ℝ) := do
  let tr1 ← TLM.ofSpline (← s.err g)
  let tr2 ← TLM.ofSpline (← s.errD g jp jw)
  let a ← tr1.lf.actOn (← s.err g) jp jw
  let b ← tr2.lf.actOn (← s.errD g jp jw) jp jw
  let sum ← a.addInPlace b
  s.int.lf.call sum

/-- cpp:105-113 `differential`: the object afterwards. The result is the pointer `diff_`, so whoever holds it reads `diff`. -/
noncomputable def differential (s : SobDist) (g : GSpline) (jp jw : Vec) : Res SobDist := do
  let tr1 ← TLM.ofSpline (← s.err g)
  let tr2 ← TLM.ofSpline (← s.errD g jp jw)
  let c ← tr2.lf.comp s.der.lf
  let r ← tr1.lf.add c
  let d ← (LF.smul (-2) s.int.lf).comp r
  return { s with diff := d }

end SobDist

end GSplines.Colloc
