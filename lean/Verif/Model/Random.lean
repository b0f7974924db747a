import Verif.Model.Interp

/-!
# Random splines

GSpline.cpp:224-247. The random numbers are a parameter.
-/

namespace GSplines

/-- What is drawn: `uint_dist(mt)` (GSpline.cpp:234), `Eigen::VectorXd::Random(n)` (237) and `Eigen::MatrixXd::Random(n + 1, codim)` (243). -/
structure Draw where
  n : ℕ
  lengths : List ℝ
  points : ℕ → ℕ → ℝ

/-- GSpline.cpp:229-247 `random_gspline(domain, codom_dim, basis)`. -/
noncomputable def randomGspline (lu : LU) (junk : Vec) (draw : Draw) (dom : ℝ × ℝ) (codim : ℕ) (b : Basis) : Res GSpline := do
  let tau := draw.lengths.map fun r => 2 + r / 2
  let wp : Pts := ⟨draw.n + 1, codim, fun i j => 3 * draw.points i j⟩
  let result ← interpolateFn lu junk tau wp b
  result.linearScaling dom.2

/-- GSpline.cpp:224-227 `random_gspline(domain, codom_dim)`. -/
noncomputable def randomGspline2 (lu : LU) (junk : Vec) (draw : Draw) (dom : ℝ × ℝ) (codim : ℕ) : Res GSpline :=
  randomGspline lu junk draw dom codim (.legendre 6)

end GSplines
