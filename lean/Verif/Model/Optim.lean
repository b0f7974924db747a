import Verif.Model.Sobolev

/-!
# include/gsplines/Optimization/ipopt_solver.hpp, ipopt_interface.hpp, src/Optimization/ipopt_solver.cpp, ipopt_interface.cpp

ifopt and ipopt are not part of the repository: the solver is a parameter, which receives the options and the problem that the code builds and either
throws or reports a status and leaves values in the variable set. `best_approximation` (ipopt_solver.hpp:74-76) is declared and never defined.
Component names and printing are dropped.
-/

namespace GSplines.Optim

/-! ## Options -/

/-- The three kinds of values of an option (the overloads of `set_option`, ipopt_solver.hpp:43-48). -/
inductive OptVal where
  | str (v : String)
  | int (v : ℤ)
  | dbl (v : ℝ)

/-- ipopt_solver.hpp:24-38, the members of `IpoptSolverOptions`. -/
structure Options where
  str : List (String × String)
  int : List (String × ℤ)
  dbl : List (String × ℝ)

/-- ipopt_solver.hpp:24-38, the values of a new object. -/
noncomputable def Options.initial : Options :=
  ⟨[("linear_solver", "mumps"), ("jacobian_approximation", "exact"), ("fast_step_computation", "yes"), ("derivative_test", "none"),
    ("hessian_approximation", "limited-memory"), ("jac_c_constant", "yes"), ("print_timing_statistics", "no"), ("dependency_detector", "none"),
    ("dependency_detection_with_rhs", "no")],
   [("print_level", 0)], [("tol", 1 / 10 ^ 3)]⟩

/-- ipopt_solver.cpp:41 and 45-50 `instance()`: the static optional is filled at the first use. -/
noncomputable def theInstance (st : Option Options) : Options := st.getD Options.initial

/-- ipopt_solver.cpp:54-63 (also 68-76 and 81-88): overwrite the first entry with the name, or append. -/
def setIn {α : Type} (l : List (String × α)) (name : String) (v : α) : List (String × α) :=
  match l with
  | [] => [(name, v)]
  | p :: ps => if p.1 = name then (p.1, v) :: ps else p :: setIn ps name v

/-- ipopt_solver.cpp:52-89, the three overloads of `set_option`: new value of the static optional. -/
noncomputable def setOption (st : Option Options) (name : String) (v : OptVal) : Option Options :=
  let o := theInstance st
  match v with
  | .str v => some { o with str := setIn o.str name v }
  | .int v => some { o with int := setIn o.int name v }
  | .dbl v => some { o with dbl := setIn o.dbl name v }

/-- ipopt_solver.cpp:90-102 `set_options_on_interface`: new value of the static optional and the calls of `SetOption` in their order. -/
noncomputable def forward (st : Option Options) : Option Options × List (String × OptVal) :=
  let o := theInstance st
  (some o, o.str.map (fun p => (p.1, .str p.2)) ++ o.int.map (fun p => (p.1, .int p.2)) ++ o.dbl.map (fun p => (p.1, .dbl p.2)))

/-! ## The problem -/

/-- ifopt's constant `inf` (ifopt/bounds.h): `1.0e20`. -/
noncomputable def ifoptInf : ℝ := 10 ^ 20

/-- ipopt_interface.hpp:15-27 `TimeSegmentLenghtsVar`; `rows` is ifopt's `GetRows()`. -/
structure TimeVar where
  exec : ℝ
  rows : ℕ
  values : List ℝ
  bounds : List (ℝ × ℝ)

/-- ipopt_interface.cpp:6-16, the constructor. -/
noncomputable def TimeVar.make (n : ℕ) (exec : ℝ) : TimeVar :=
  ⟨exec, n, (List.replicate n 1).map (· * (exec / n)), List.replicate n (0, ifoptInf)⟩

/-- ipopt_interface.cpp:18-20 `SetVariables`. -/
def TimeVar.setVariables (v : TimeVar) (x : List ℝ) : TimeVar := { v with values := x }

/-- ipopt_interface.hpp:29-44 `ExecTimeConstraint`. -/
structure TimeCon where
  bounds : List (ℝ × ℝ)

/-- ipopt_interface.cpp:28-33, the constructor. -/
def TimeCon.make (exec : ℝ) : TimeCon := ⟨[(exec, exec)]⟩

/-- ipopt_interface.cpp:35-41 `GetValues`. -/
def TimeCon.value (_ : TimeCon) (v : TimeVar) : List ℝ := [v.values.sum]

/-- ipopt_interface.cpp:46-54 `FillJacobianBlock`: the block with entries `(0, i)` written. -/
def TimeCon.fillJacobian (_ : TimeCon) (v : TimeVar) (jac : Mat) : Mat := forLoop 0 v.rows (fun i m => setAt2 m 0 i 1) jac

/-- ipopt_interface.hpp:46-65 `SobolevNorm`, the cost term. The members `basis_`, `weights_` and `waypoints_` are never read, `buff_1_` is overwritten before
each use. -/
structure CostTerm where
  sob : Sobolev
  buff2 : List ℝ

/-- ipopt_interface.cpp:56-67, the constructor; `buff` is the content of the vector `buff_2_`, which is not initialised. -/
def CostTerm.make (w : Pts) (b : Basis) (weights : List (ℕ × ℝ)) (mem : LagMem) (junk buff : Vec) : Res CostTerm := do
  let s ← Sobolev.make w b weights mem junk
  return ⟨s, (List.range (w.rows - 1)).map buff⟩

/-- ipopt_interface.cpp:69-73 `GetCost`: new state and value. -/
noncomputable def CostTerm.getCost (lu : LU) (c : CostTerm) (v : TimeVar) : Res (CostTerm × ℝ) := do
  let (s, r) ← c.sob.cost lu v.values
  return (⟨s, c.buff2⟩, r)

/-- ipopt_interface.cpp:74-87 `FillJacobianBlock`: new state and the block with entries `(0, i)` written. -/
noncomputable def CostTerm.fillJacobian (lu : LU) (c : CostTerm) (v : TimeVar) (jac : Mat) : Res (CostTerm × Mat) := do
  let (s, out) ← c.sob.grad lu v.values c.buff2
  let jac ← forLoopM 0 v.rows (fun i m => do
    let x ← rd out i
    return setAt2 m 0 i x) jac
  return (⟨s, out⟩, jac)

/-- ipopt_solver.cpp:131-134: what is added to `ifopt::Problem`. -/
structure Problem where
  var : TimeVar
  con : TimeCon
  cost : CostTerm

/-- `ifopt::IpoptSolver::Solve` with the options that were set before: it throws, or reports a status (`GetReturnStatus`) and leaves values in the variables. -/
structure Solver where
  run : List (String × OptVal) → Problem → Res (ℤ × List ℝ)

/-- Memory that constructors leave uninitialised: `coefficients_vector_` of the interpolators, `buff_2_`, and what a Lagrange basis holds. -/
structure Memory where
  junk1 : Vec
  junk2 : Vec
  buff : Vec
  lag : LagMem

/-- ipopt_solver.cpp:120-134. -/
noncomputable def problem (mem : Memory) (w : Pts) (b : Basis) (weights : List (ℕ × ℝ)) (exec : ℝ) : Res Problem := do
  let c ← CostTerm.make w b weights mem.lag mem.junk2 mem.buff
  return ⟨TimeVar.make (w.rows - 1) exec, TimeCon.make exec, c⟩

/-- ipopt_solver.cpp:104-154 `optimal_sobolev_norm`. `st` is the static optional with the options. Without way points the number of intervals wraps around. -/
noncomputable def optimalSobolevNorm (lu : LU) (solver : Solver) (st : Option Options) (mem : Memory) (w : Pts) (b : Basis) (weights : List (ℕ × ℝ)) (exec : ℝ) :
    Res (Option GSpline) :=
  if w.rows = 0 then .error .ub
  else do
    let inter ← Interp.make w.cols (w.rows - 1) b mem.junk1
    if w.rows - 1 = 1 then
      let (_, g) ← inter.interpolate lu [exec] w
      return some g
    else
      let p ← problem mem w b weights exec
      let (status, x) ← solver.run (forward st).2 p
      if status ≠ 0 then return none
      else
        let (_, g) ← inter.interpolate lu x w
        return some g

/-- ipopt_solver.cpp:161-164 (and the same lines of the other named optimisers): the end of the named optimisers. -/
noncomputable def scaleToOne (r : Option GSpline) : Res (Option GSpline) :=
  match r with
  | some g => do
    let s ← g.linearScaling 1
    return some s
  | none => return none

/-- ipopt_solver.cpp:156-165 `broken_lines_path`. -/
noncomputable def brokenLinesPath (lu : LU) (solver : Solver) (st : Option Options) (mem : Memory) (w : Pts) : Res (Option GSpline) := do
  let r ← optimalSobolevNorm lu solver st mem w (.legendre 2) [(1, 1)] ((w.rows : ℝ) - 1)
  scaleToOne r

/-- ipopt_solver.cpp:167-176 `minimum_acceleration_path`. -/
noncomputable def minimumAccelerationPath (lu : LU) (solver : Solver) (st : Option Options) (mem : Memory) (w : Pts) : Res (Option GSpline) := do
  let r ← optimalSobolevNorm lu solver st mem w (.legendre 4) [(2, 1)] ((w.rows : ℝ) - 1)
  scaleToOne r

/-- ipopt_solver.cpp:178-187 `minimum_jerk_path`. -/
noncomputable def minimumJerkPath (lu : LU) (solver : Solver) (st : Option Options) (mem : Memory) (w : Pts) : Res (Option GSpline) := do
  let r ← optimalSobolevNorm lu solver st mem w (.legendre 6) [(3, 1)] ((w.rows : ℝ) - 1)
  scaleToOne r

/-- ipopt_solver.cpp:189-198 `minimum_snap_path`. -/
noncomputable def minimumSnapPath (lu : LU) (solver : Solver) (st : Option Options) (mem : Memory) (w : Pts) : Res (Option GSpline) := do
  let r ← optimalSobolevNorm lu solver st mem w (.legendre 8) [(4, 1)] ((w.rows : ℝ) - 1)
  scaleToOne r

/-- ipopt_solver.cpp:200-209 `minimum_crackle_path`. -/
noncomputable def minimumCracklePath (lu : LU) (solver : Solver) (st : Option Options) (mem : Memory) (w : Pts) : Res (Option GSpline) := do
  let r ← optimalSobolevNorm lu solver st mem w (.legendre 10) [(5, 1)] ((w.rows : ℝ) - 1)
  scaleToOne r

/-- ipopt_solver.cpp:215: the execution time of `rojas_path`, for `ni` intervals. -/
noncomputable def rojasTime (ni : ℝ) : ℝ := 4 * ni / √2

/-- ipopt_solver.cpp:215-217: the parameter of `rojas_path`, for `ni` intervals. -/
noncomputable def rojasAlpha (ni k : ℝ) : ℝ :=
  let aux := 4 * ni * k / √2
  1 / (1 + (rojasTime ni / aux) ^ 4)

/-- ipopt_solver.cpp:211-226 `rojas_path`. With `k = 0` or no interval line 217 divides by zero. -/
noncomputable def rojasPath (lu : LU) (solver : Solver) (st : Option Options) (mem : Memory) (w : Pts) (k : ℝ) : Res (Option GSpline) := do
  let ni := (w.rows : ℝ) - 1
  if 4 * ni * k / √2 = 0 then .error .notFinite
  else
    let alpha := rojasAlpha ni k
    let r ← optimalSobolevNorm lu solver st mem w (.b0101 alpha) [(1, alpha), (3, 1 - alpha)] (rojasTime ni)
    scaleToOne r

end GSplines.Optim
