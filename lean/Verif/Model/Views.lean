import Verif.Model.Failure

/-!
# Vectors that an interpolator returns by reference

`solve_interpolation` and `get_coeff_derivative_wrt_tau` (Interpolator.hpp:58-65, Interpolator.cpp:255-370) return an `Eigen::Ref` to the members `sol_buffer_` and
`coefficients_vector_`. The models in `Model/Interp.lean` and `Model/Failure.lean` return the numbers at the end of the call; here the caller keeps the reference, looks at it
after later calls, and passes it to `get_coeff_derivative_wrt_tau`, whose parameter `_coeff` is a reference too.

Not modelled: references to members passed as interval lengths or way points.
-/

namespace GSplines.Views

open GSplines

/-- A reference to `sol_buffer_`, with the length that the vector had when the reference was made (`0` before the first solution, `matrix_size_` from then on, so
the vector is allocated only once), or to `coefficients_vector_` (Interpolator.cpp:23, always of length `matrix_size_`). -/
inductive View where
  | sol (len : ℕ)
  | coef

/-- The length of the vector. -/
def View.len (s : Interp) : View → ℕ
  | .sol len => len
  | .coef => s.size

/-- The numbers that the caller finds now. -/
def View.read (s : Interp) (v : View) : List ℝ :=
  match v with
  | .sol len => (List.range len).map (vecOf s.sol)
  | .coef => (List.range s.size).map s.coef

/-- The argument `_coeff`: a vector of the caller, or one that the object returned. -/
inductive Src where
  | own (y : List ℝ)
  | view (v : View)

/-- The length of the argument. -/
def Src.len (s : Interp) : Src → ℕ
  | .own y => y.length
  | .view v => v.len s

/-- The entries of the argument while `coefficients_vector_` has the content `r`. -/
def Src.now (s : Interp) (r : Vec) : Src → Vec
  | .own y => vecOf y
  | .view (.sol _) => vecOf s.sol
  | .view .coef => r

/-- Interpolator.cpp:339 `coefficients_vector_.noalias() = mat * _coeff` as Eigen's product of a sparse matrix, stored by columns, and a dense vector does it
(SparseDenseProduct.h: `dst.setZero()`; then for every column `j` the entry `rhs(j)` is read and its multiple of the column is added to the result). `now r` is the right hand
side while the result has the content `r`. -/
def product (size : ℕ) (d : Mat) (now : Vec → Vec) : Vec :=
  forLoop 0 size (fun j r => let x := now r j; fun i => r i + d i j * x) fun _ => 0

open Classical in
/-- Interpolator.cpp:255-345 `get_coeff_derivative_wrt_tau`: the object afterwards and the reference. -/
noncomputable def coeff (lu : LU) (a : Src) (tau : List ℝ) (idx : ℕ) (s : Interp) : Interp × Res View :=
  if ∃ x ∈ tau, x < 1 / 10 ^ 6 then (s, .error .invalidArgument)
  else if tau.length ≠ s.n ∨ s.n ≤ idx then (s, .ok .coef)
  else
    match Interp.fillDer s.basis s.codim s.n tau idx (s.ders idx) with
    | .error e => (s, .error e)
    | .ok d =>
      let s := { s with ders := setAt s.ders idx d }
      if a.len s ≠ s.size then (s, .error .ub)
      else
        let rhs := product s.size d fun r => a.now s r
        match Interp.fillMatrix s.basis s.codim s.n tau s.mat with
        | .error e => ({ s with coef := rhs }, .error e)
        | .ok m =>
          if lu.succeeds s.size m = true then
            ({ s with mat := m, coef := fun i => - lu.solve s.size m rhs i }, .ok .coef)
          else ({ s with mat := m, coef := rhs }, .error .assertFail)

/-- Interpolator.cpp:346-370 `solve_interpolation`: the object afterwards and the reference to its vector. -/
noncomputable def solve (lu : LU) (tau : List ℝ) (w : Pts) (s : Interp) : Interp × Res View :=
  let r := Failure.solve lu tau w s
  (r.1, r.2.map fun _ => .sol r.1.sol.length)

/-- The argument `_coeff` in a program: a vector of its own, or what call number `k` returned. -/
inductive Arg where
  | own (y : List ℝ)
  | held (k : ℕ)

/-- A call in a program. -/
inductive Call where
  | solve (tau : List ℝ) (w : Pts)
  | interpolate (tau : List ℝ) (w : Pts)
  | coeff (a : Arg) (tau : List ℝ) (idx : ℕ)

/-- A program: the object, and for every call so far the vector that it returned, by reference (`none` if the call threw, or returned a spline). -/
structure Prog where
  obj : Interp
  held : List (Option View)

/-- What the program passes. -/
def Prog.src (p : Prog) : Arg → Option Src
  | .own y => some (.own y)
  | .held k => (p.held[k]?).join.map .view

/-- The next call. Without the vector that it is to pass, the program does not make it. Interpolator.cpp:156-165: `interpolate` returns a spline with its own coefficients. -/
noncomputable def Call.run (lu : LU) (p : Prog) : Call → Prog
  | .solve tau w => let r := Views.solve lu tau w p.obj; ⟨r.1, p.held ++ [r.2.toOption]⟩
  | .interpolate tau w => ⟨(Failure.interpolate lu tau w p.obj).1, p.held ++ [none]⟩
  | .coeff a tau idx =>
    match p.src a with
    | none => ⟨p.obj, p.held ++ [none]⟩
    | some x => let r := Views.coeff lu x tau idx p.obj; ⟨r.1, p.held ++ [r.2.toOption]⟩

/-- A program. -/
noncomputable def run (lu : LU) (s : Interp) (l : List Call) : Prog := l.foldl (Call.run lu) ⟨s, []⟩

/-- The numbers that the program finds now in the vector that call number `k` returned. -/
def Prog.seen (p : Prog) (k : ℕ) : Option (List ℝ) := (p.held[k]?).join.map (View.read p.obj)

end GSplines.Views
