import Verif.Model.Functionals

/-!
# include/gsplines/Collocation/GaussLobattoLagrangeFunctionals.hpp:418-445, 480-588, src/Collocation/GaussLobattoLagrangeFunctionals.cpp:115-127

`ContinuityError`, and the classes that present a collocation spline and a functional to ifopt.

Of ifopt only `Composite::GetComponent(name)` is used: it returns the first component with that name and fails an assertion if there is none.
-/

namespace GSplines.Colloc

open GSplines

/-! ## ContinuityError -/

/-- hpp:418-424 `ContinuityError`: the matrix, the basis with its matrix cache and the constants. -/
structure ContErr where
  lf : LF
  basis : Basis
  cache : Basis.CCache
  codim : ℕ
  deg : ℕ

namespace ContErr

/-- The size of the result of `continuity_matrix` (Basis.cpp:56-58). -/
def size (n codim deg dim : ℕ) (m : Mat) : LF := ⟨(n - 1) * codim * (deg + 1), n * codim * dim, m⟩

/-- hpp:427-432, the constructor from a spline. `cc` is the matrix cache of the basis of the spline. The member `basis_` is a new object. -/
noncomputable def ofSpline (g : GSpline) (deg : ℕ) (cc : Basis.CCache) (jp jw : Vec) : Res ContErr := do
  let m ← (g.basis.continuityMatrix g.nIntervals g.codim deg g.tau cc).2
  let b ← glBasis g.basis.dim jp jw
  return ⟨size g.nIntervals g.codim deg g.basis.dim m, b, fun _ => none, g.codim, deg⟩

/-- hpp:434-439, the constructor from interval lengths: the matrix comes from a temporary basis. -/
noncomputable def ofLengths (nglp : ℕ) (tau : List ℝ) (codim deg : ℕ) (jp jw : Vec) : Res ContErr := do
  let t ← glBasis nglp jp jw
  let m ← (t.continuityMatrix tau.length codim deg tau (fun _ => none)).2
  let b ← glBasis nglp jp jw
  return ⟨size tau.length codim deg t.dim m, b, fun _ => none, codim, deg⟩

/-- hpp:441-444 `update`. -/
noncomputable def update (e : ContErr) (tau : List ℝ) : Res ContErr := do
  let r := e.basis.continuityMatrix tau.length e.codim e.deg tau e.cache
  let m ← r.2
  return { e with lf := size tau.length e.codim e.deg e.basis.dim m, cache := r.1 }

end ContErr

/-! ## The interface of functionals -/

/-- hpp:15-31 `Functional`: `get_codom_dim()`, `operator()` and the matrix of the object that `differential` returns, at the time of the call. -/
structure Functional where
  codim : ℕ
  call : GSpline → Res (List ℝ)
  differential : GSpline → Res LF

/-- A new `LinearFunctional` (hpp:46-74): `codom_dim_` is the number of rows. -/
def LF.functional (L : LF) : Functional := ⟨L.rows, L.call, fun g => .ok (L.differential g)⟩

/-- A `SobolevDistance` (GaussLobattoLagrangeFunctionals.cpp:86-113): `codom_dim_` is 1. -/
noncomputable def SobDist.functional (s : SobDist) (jp jw : Vec) : Functional :=
  ⟨1, fun g => s.call g jp jw, fun g => do
    let s' ← s.differential g jp jw
    return s'.diff⟩

/-! ## GLLSplineVariable -/

/-- `ifopt::Bounds`. -/
abbrev Bnd := EReal × EReal

/-- hpp:480-491 `GLLSplineVariable`: the number of variables given to `ifopt::VariableSet`, the spline and the bounds. The name is always `"GLL"`. -/
structure GLLVar where
  rows : ℕ
  spline : GSpline
  bounds : List Bnd

namespace GLLVar

/-- cpp:115-121, the constructor. -/
noncomputable def make (g : GSpline) : GLLVar := ⟨g.coeffs.length, g, List.replicate g.coeffs.length (⊥, ⊤)⟩

/-- cpp:122-124 `SetVariables`: the vector is stored whatever its size is. -/
def setVariables (v : GLLVar) (x : List ℝ) : GLLVar := { v with spline := { v.spline with coeffs := x } }

/-- cpp:125-127 `GetValues`. -/
def getValues (v : GLLVar) : List ℝ := v.spline.coeffs

/-- hpp:490 `GetBounds`. -/
def getBounds (v : GLLVar) : List Bnd := v.bounds

end GLLVar

/-- A component of the variables of an ifopt problem: a `GLLSplineVariable` or an object of another class. -/
inductive VarComp where
  | gll (v : GLLVar)
  | other

/-- `dynamic_pointer_cast<GaussLobattoLagrangeSpline>(GetVariables()->GetComponent("GLL"))` with the check that follows it (hpp:511-516, 525-529, 560-564, 573-577). -/
def theSpline (vars : List (String × VarComp)) : Res GSpline :=
  match vars.lookup "GLL" with
  | none => .error .assertFail
  | some .other => .error .logicError
  | some (.gll v) => .ok v.spline

/-- hpp:523-536, 571-584 `FillJacobianBlock`, the same text in both wrappers: the matrix that is stored. -/
def fillJacobian (F : Functional) (vars : List (String × VarComp)) (setName : String) : Res LF := do
  let s ← theSpline vars
  if setName = "GLL" then F.differential s else .error .logicError

/-- hpp:509-521 `CostWrapper::GetCost`. -/
def getCost (F : Functional) (vars : List (String × VarComp)) : Res ℝ := do
  let s ← theSpline vars
  let r ← F.call s
  rd r 0

/-- hpp:539-556 `ConstraintWrapper`: the functional, the number of rows and the bounds. -/
structure ConstraintW where
  F : Functional
  rows : ℕ
  bounds : List Bnd

namespace ConstraintW

/-- hpp:546-556, the constructor. -/
noncomputable def make (lo hi : ℝ) (F : Functional) : ConstraintW := ⟨F, F.codim, List.replicate F.codim ((lo : EReal), (hi : EReal))⟩

/-- hpp:558-567 `GetValues`. -/
def getValues (w : ConstraintW) (vars : List (String × VarComp)) : Res (List ℝ) := do
  let s ← theSpline vars
  w.F.call s

/-- hpp:569 `GetBounds`. -/
def getBounds (w : ConstraintW) : List Bnd := w.bounds

/-- hpp:571-584. -/
def fillJacobian (w : ConstraintW) (vars : List (String × VarComp)) (setName : String) : Res LF := Colloc.fillJacobian w.F vars setName

/-- A member function of the functional (such as `update`, hpp:441-444) replaces its matrix: `codom_dim_`, the number of rows and the bounds stay. -/
def setMatrix (w : ConstraintW) (L : LF) : ConstraintW := { w with F := { w.F with call := L.call, differential := fun g => .ok (L.differential g) } }

end ConstraintW

end GSplines.Colloc
