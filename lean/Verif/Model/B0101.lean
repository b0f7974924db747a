import Verif.Model.Mat
import Mathlib.Analysis.SpecialFunctions.Pow.Real
import Mathlib.Analysis.SpecialFunctions.Trigonometric.Basic

/-!
# src/Basis/Basis0101.cpp

The six matrices at the end are a literal transcription of the C++ expressions (produced by a script from the text of the source).
-/

namespace GSplines.B0101

open GSplines Real

/-- `std::pow(x, n)` with a literal natural exponent. -/
def pw (x : ℝ) (n : ℕ) : ℝ := x ^ n

/-- A vector of six numbers. -/
def vec6 (a b c d e f : ℝ) : Vec := fun i =>
  match i with
  | 0 => a
  | 1 => b
  | 2 => c
  | 3 => d
  | 4 => e
  | 5 => f
  | _ => 0

/-- Basis0101.cpp:39-40 (also 56-57, 88-89, 164-165): `k = sqrt(2)/4 * pow(alpha, 0.25) / pow(1 - alpha, 0.25)`. -/
noncomputable def kOf (alpha : ℝ) : ℝ := √2 / 4 * alpha ^ (1 / 4 : ℝ) / (1 - alpha) ^ (1 / 4 : ℝ)

/-- Basis0101.cpp:183-184 (also 285-286, ...): the same constant as written in the blocks
(the literal `0.35355339059327379` is read as `√2/4`). -/
noncomputable def kQ (alpha : ℝ) : ℝ := √2 / 4 * alpha ^ (1 / 4 : ℝ) * (1 / (1 - alpha)) ^ (1 / 4 : ℝ)

/-- Basis0101.cpp:35-51 `eval_on_window`. -/
noncomputable def evalOnWindow (alpha s tau : ℝ) : Vec :=
  let p := tau * kOf alpha * s
  vec6 (exp p * cos p) (exp p * sin p) (cos p / exp p) (sin p / exp p) p 1

/-- Basis0101.cpp:70-79 (also 92-101), without the scaling. -/
def dstep (v : Vec) : Vec := vec6 (v 0 - v 1) (v 0 + v 1) (-(v 2) - v 3) (v 2 - v 3) (v 5) 0

/-- Basis0101.cpp:52-82 `eval_derivative_on_window`. -/
noncomputable def evalDerivOnWindow (alpha s tau : ℝ) (deg : ℕ) : Vec :=
  let p := tau * kOf alpha * s
  forLoop 1 (deg + 1) (fun _ v i => dstep v i * (kOf alpha * 2))
    (vec6 (exp p * cos p) (exp p * sin p) (cos p / exp p) (sin p / exp p) p 1)

/-- Basis0101.cpp:84-103 `eval_derivative_wrt_tau_on_window`. -/
noncomputable def evalDerivWrtTauOnWindow (alpha s tau : ℝ) (deg : ℕ) : Vec :=
  fun i => dstep (evalDerivOnWindow alpha s tau deg) i * (s * kOf alpha)

/-- Basis0101.cpp:155-157, the array `d1matrix`. -/
def d1array : List ℝ := [
      1, -1, 0, 0,  0, 0, 1, 1, 0, 0, 0, 0, 0, 0, -1, -1, 0, 0,
      0, 0,  1, -1, 0, 0, 0, 0, 0, 0, 0, 1, 0, 0, 0,  0,  0, 0]

/-- Basis0101.cpp:168: the array read as a column-major 6 x 6 matrix (`Eigen::Map<const Eigen::MatrixXd>`). -/
def d1mat : Mat := fun i j => d1array.getD (6 * j + i) 0

/-- Basis0101.cpp:154-177 `derivative_matrix_impl`: `Q *= Q` at each step. -/
noncomputable def derivMatrixImpl (alpha : ℝ) (deg : ℕ) : Mat :=
  if deg = 0 then Mat.id
  else forLoop 2 (deg + 1) (fun _ (q : Mat) => q.mul 6 q) (fun i j => d1mat i j * (kOf alpha * 2))

/-- Basis0101.cpp:181-281 `compute_Qd3_block`, as a function of the local variable `k`. -/
noncomputable def qd3 (tau k : ℝ) : Mat := fun i =>
  match i with
  | 0 => vec6
      (96 * pw k 5 * exp (2 * tau * k) * pw (sin (tau * k)) 2 + 64 * pw k 5 * exp (2 * tau * k) * sin (tau * k) * cos (tau * k) + 32 * pw k 5 * exp (2 * tau * k) * pw (cos (tau * k)) 2 - (96 * pw k 5 * pw (sin (tau * k)) 2 - 64 * pw k 5 * sin (tau * k) * cos (tau * k) + 32 * pw k 5 * pw (cos (tau * k)) 2) * exp (-2 * tau * k))
      (32 * pw k 5 * exp (2 * tau * k) * pw (sin (tau * k)) 2 - 64 * pw k 5 * exp (2 * tau * k) * sin (tau * k) * cos (tau * k) - 32 * pw k 5 * exp (2 * tau * k) * pw (cos (tau * k)) 2 + (-32 * pw k 5 * pw (sin (tau * k)) 2 - 64 * pw k 5 * sin (tau * k) * cos (tau * k) + 32 * pw k 5 * pw (cos (tau * k)) 2) * exp (-2 * tau * k))
      (-256 * pw k 5 * sin (tau * k) * cos (tau * k))
      (-256 * tau * pw k 6 * pw (sin (tau * k)) 2 - 256 * tau * pw k 6 * pw (cos (tau * k)) 2)
      (0)
      (0)
  | 1 => vec6
      (32 * pw k 5 * exp (2 * tau * k) * pw (sin (tau * k)) 2 - 64 * pw k 5 * exp (2 * tau * k) * sin (tau * k) * cos (tau * k) - 32 * pw k 5 * exp (2 * tau * k) * pw (cos (tau * k)) 2 + (-32 * pw k 5 * pw (sin (tau * k)) 2 - 64 * pw k 5 * sin (tau * k) * cos (tau * k) + 32 * pw k 5 * pw (cos (tau * k)) 2) * exp (-2 * tau * k))
      (32 * pw k 5 * exp (2 * tau * k) * pw (sin (tau * k)) 2 - 64 * pw k 5 * exp (2 * tau * k) * sin (tau * k) * cos (tau * k) + 96 * pw k 5 * exp (2 * tau * k) * pw (cos (tau * k)) 2 - (32 * pw k 5 * pw (sin (tau * k)) 2 + 64 * pw k 5 * sin (tau * k) * cos (tau * k) + 96 * pw k 5 * pw (cos (tau * k)) 2) * exp (-2 * tau * k))
      (256 * tau * pw k 6 * pw (sin (tau * k)) 2 + 256 * tau * pw k 6 * pw (cos (tau * k)) 2)
      (256 * pw k 5 * sin (tau * k) * cos (tau * k))
      (0)
      (0)
  | 2 => vec6
      (-256 * pw k 5 * sin (tau * k) * cos (tau * k))
      (256 * tau * pw k 6 * pw (sin (tau * k)) 2 + 256 * tau * pw k 6 * pw (cos (tau * k)) 2)
      (96 * pw k 5 * exp (2 * tau * k) * pw (sin (tau * k)) 2 + 64 * pw k 5 * exp (2 * tau * k) * sin (tau * k) * cos (tau * k) + 32 * pw k 5 * exp (2 * tau * k) * pw (cos (tau * k)) 2 - (96 * pw k 5 * pw (sin (tau * k)) 2 - 64 * pw k 5 * sin (tau * k) * cos (tau * k) + 32 * pw k 5 * pw (cos (tau * k)) 2) * exp (-2 * tau * k))
      (-32 * pw k 5 * exp (2 * tau * k) * pw (sin (tau * k)) 2 + 64 * pw k 5 * exp (2 * tau * k) * sin (tau * k) * cos (tau * k) + 32 * pw k 5 * exp (2 * tau * k) * pw (cos (tau * k)) 2 - (-32 * pw k 5 * pw (sin (tau * k)) 2 - 64 * pw k 5 * sin (tau * k) * cos (tau * k) + 32 * pw k 5 * pw (cos (tau * k)) 2) * exp (-2 * tau * k))
      (0)
      (0)
  | 3 => vec6
      (-256 * tau * pw k 6 * pw (sin (tau * k)) 2 - 256 * tau * pw k 6 * pw (cos (tau * k)) 2)
      (256 * pw k 5 * sin (tau * k) * cos (tau * k))
      (-32 * pw k 5 * exp (2 * tau * k) * pw (sin (tau * k)) 2 + 64 * pw k 5 * exp (2 * tau * k) * sin (tau * k) * cos (tau * k) + 32 * pw k 5 * exp (2 * tau * k) * pw (cos (tau * k)) 2 - (-32 * pw k 5 * pw (sin (tau * k)) 2 - 64 * pw k 5 * sin (tau * k) * cos (tau * k) + 32 * pw k 5 * pw (cos (tau * k)) 2) * exp (-2 * tau * k))
      (32 * pw k 5 * exp (2 * tau * k) * pw (sin (tau * k)) 2 - 64 * pw k 5 * exp (2 * tau * k) * sin (tau * k) * cos (tau * k) + 96 * pw k 5 * exp (2 * tau * k) * pw (cos (tau * k)) 2 - (32 * pw k 5 * pw (sin (tau * k)) 2 + 64 * pw k 5 * sin (tau * k) * cos (tau * k) + 96 * pw k 5 * pw (cos (tau * k)) 2) * exp (-2 * tau * k))
      (0)
      (0)
  | 4 => vec6
      (0)
      (0)
      (0)
      (0)
      (0)
      (0)
  | 5 => vec6
      (0)
      (0)
      (0)
      (0)
      (0)
      (0)
  | _ => fun _ => 0

/-- Basis0101.cpp:283-383 `compute_Qd3_dtau_block`, as a function of the local variable `k`. -/
noncomputable def qd3Dtau (tau k : ℝ) : Mat := fun i =>
  match i with
  | 0 => vec6
      (128 * pw k 6 * exp (2 * tau * k) * pw (sin (tau * k)) 2 + 256 * pw k 6 * exp (2 * tau * k) * sin (tau * k) * cos (tau * k) + 128 * pw k 6 * exp (2 * tau * k) * pw (cos (tau * k)) 2 + 1 * (128 * pw k 6 * pw (sin (tau * k)) 2 - 256 * pw k 6 * sin (tau * k) * cos (tau * k) + 128 * pw k 6 * pw (cos (tau * k)) 2) * exp (-2 * tau * k))
      (128 * pw k 6 * exp (2 * tau * k) * pw (sin (tau * k)) 2 - 128 * pw k 6 * exp (2 * tau * k) * pw (cos (tau * k)) 2 - 1 * (-128 * pw k 6 * pw (sin (tau * k)) 2 + 128 * pw k 6 * pw (cos (tau * k)) 2) * exp (-2 * tau * k))
      (256 * pw k 6 * pw (sin (tau * k)) 2 - 256 * pw k 6 * pw (cos (tau * k)) 2)
      (-256 * pw k 6 * pw (sin (tau * k)) 2 - 256 * pw k 6 * pw (cos (tau * k)) 2)
      (0)
      (0)
  | 1 => vec6
      (128 * pw k 6 * exp (2 * tau * k) * pw (sin (tau * k)) 2 - 128 * pw k 6 * exp (2 * tau * k) * pw (cos (tau * k)) 2 - 1 * (-128 * pw k 6 * pw (sin (tau * k)) 2 + 128 * pw k 6 * pw (cos (tau * k)) 2) * exp (-2 * tau * k))
      (128 * pw k 6 * exp (2 * tau * k) * pw (sin (tau * k)) 2 - 256 * pw k 6 * exp (2 * tau * k) * sin (tau * k) * cos (tau * k) + 128 * pw k 6 * exp (2 * tau * k) * pw (cos (tau * k)) 2 + 1 * (128 * pw k 6 * pw (sin (tau * k)) 2 + 256 * pw k 6 * sin (tau * k) * cos (tau * k) + 128 * pw k 6 * pw (cos (tau * k)) 2) * exp (-2 * tau * k))
      (256 * pw k 6 * pw (sin (tau * k)) 2 + 256 * pw k 6 * pw (cos (tau * k)) 2)
      (-256 * pw k 6 * pw (sin (tau * k)) 2 + 256 * pw k 6 * pw (cos (tau * k)) 2)
      (0)
      (0)
  | 2 => vec6
      (256 * pw k 6 * pw (sin (tau * k)) 2 - 256 * pw k 6 * pw (cos (tau * k)) 2)
      (256 * pw k 6 * pw (sin (tau * k)) 2 + 256 * pw k 6 * pw (cos (tau * k)) 2)
      (128 * pw k 6 * exp (2 * tau * k) * pw (sin (tau * k)) 2 + 256 * pw k 6 * exp (2 * tau * k) * sin (tau * k) * cos (tau * k) + 128 * pw k 6 * exp (2 * tau * k) * pw (cos (tau * k)) 2 + 1 * (128 * pw k 6 * pw (sin (tau * k)) 2 - 256 * pw k 6 * sin (tau * k) * cos (tau * k) + 128 * pw k 6 * pw (cos (tau * k)) 2) * exp (-2 * tau * k))
      (-128 * pw k 6 * exp (2 * tau * k) * pw (sin (tau * k)) 2 + 128 * pw k 6 * exp (2 * tau * k) * pw (cos (tau * k)) 2 + 1 * (-128 * pw k 6 * pw (sin (tau * k)) 2 + 128 * pw k 6 * pw (cos (tau * k)) 2) * exp (-2 * tau * k))
      (0)
      (0)
  | 3 => vec6
      (-256 * pw k 6 * pw (sin (tau * k)) 2 - 256 * pw k 6 * pw (cos (tau * k)) 2)
      (-256 * pw k 6 * pw (sin (tau * k)) 2 + 256 * pw k 6 * pw (cos (tau * k)) 2)
      (-128 * pw k 6 * exp (2 * tau * k) * pw (sin (tau * k)) 2 + 128 * pw k 6 * exp (2 * tau * k) * pw (cos (tau * k)) 2 + 1 * (-128 * pw k 6 * pw (sin (tau * k)) 2 + 128 * pw k 6 * pw (cos (tau * k)) 2) * exp (-2 * tau * k))
      (128 * pw k 6 * exp (2 * tau * k) * pw (sin (tau * k)) 2 - 256 * pw k 6 * exp (2 * tau * k) * sin (tau * k) * cos (tau * k) + 128 * pw k 6 * exp (2 * tau * k) * pw (cos (tau * k)) 2 + 1 * (128 * pw k 6 * pw (sin (tau * k)) 2 + 256 * pw k 6 * sin (tau * k) * cos (tau * k) + 128 * pw k 6 * pw (cos (tau * k)) 2) * exp (-2 * tau * k))
      (0)
      (0)
  | 4 => vec6
      (0)
      (0)
      (0)
      (0)
      (0)
      (0)
  | 5 => vec6
      (0)
      (0)
      (0)
      (0)
      (0)
      (0)
  | _ => fun _ => 0

/-- Basis0101.cpp:385-493 `compute_Qd1_block`, as a function of the local variable `k`. -/
noncomputable def qd1 (tau k : ℝ) : Mat := fun i =>
  match i with
  | 0 => vec6
      ((1 / 2) * k * exp (2 * tau * k) * pw (sin (tau * k)) 2 - k * exp (2 * tau * k) * sin (tau * k) * cos (tau * k) + (3 / 2) * k * exp (2 * tau * k) * pw (cos (tau * k)) 2 - (1 / 2) * (k * pw (sin (tau * k)) 2 + 2 * k * sin (tau * k) * cos (tau * k) + 3 * k * pw (cos (tau * k)) 2) * exp (-2 * tau * k))
      (-(1 / 2) * k * exp (2 * tau * k) * pw (sin (tau * k)) 2 + k * exp (2 * tau * k) * sin (tau * k) * cos (tau * k) + (1 / 2) * k * exp (2 * tau * k) * pw (cos (tau * k)) 2 - (1 / 2) * (-k * pw (sin (tau * k)) 2 - 2 * k * sin (tau * k) * cos (tau * k) + k * pw (cos (tau * k)) 2) * exp (-2 * tau * k))
      (-4 * k * sin (tau * k) * cos (tau * k))
      (4 * tau * pw k 2 * pw (sin (tau * k)) 2 + 4 * tau * pw k 2 * pw (cos (tau * k)) 2)
      (2 * k * exp (tau * k) * cos (tau * k) - 2 * k * exp (-tau * k) * cos (tau * k))
      (0)
  | 1 => vec6
      (-(1 / 2) * k * exp (2 * tau * k) * pw (sin (tau * k)) 2 + k * exp (2 * tau * k) * sin (tau * k) * cos (tau * k) + (1 / 2) * k * exp (2 * tau * k) * pw (cos (tau * k)) 2 - (1 / 2) * (-k * pw (sin (tau * k)) 2 - 2 * k * sin (tau * k) * cos (tau * k) + k * pw (cos (tau * k)) 2) * exp (-2 * tau * k))
      ((3 / 2) * k * exp (2 * tau * k) * pw (sin (tau * k)) 2 + k * exp (2 * tau * k) * sin (tau * k) * cos (tau * k) + (1 / 2) * k * exp (2 * tau * k) * pw (cos (tau * k)) 2 - (1 / 2) * (3 * k * pw (sin (tau * k)) 2 - 2 * k * sin (tau * k) * cos (tau * k) + k * pw (cos (tau * k)) 2) * exp (-2 * tau * k))
      (-4 * tau * pw k 2 * pw (sin (tau * k)) 2 - 4 * tau * pw k 2 * pw (cos (tau * k)) 2)
      (4 * k * sin (tau * k) * cos (tau * k))
      (2 * k * exp (tau * k) * sin (tau * k) + 2 * k * exp (-tau * k) * sin (tau * k))
      (0)
  | 2 => vec6
      (-4 * k * sin (tau * k) * cos (tau * k))
      (-4 * tau * pw k 2 * pw (sin (tau * k)) 2 - 4 * tau * pw k 2 * pw (cos (tau * k)) 2)
      ((1 / 2) * k * exp (2 * tau * k) * pw (sin (tau * k)) 2 - k * exp (2 * tau * k) * sin (tau * k) * cos (tau * k) + (3 / 2) * k * exp (2 * tau * k) * pw (cos (tau * k)) 2 - (1 / 2) * (k * pw (sin (tau * k)) 2 + 2 * k * sin (tau * k) * cos (tau * k) + 3 * k * pw (cos (tau * k)) 2) * exp (-2 * tau * k))
      ((1 / 2) * k * exp (2 * tau * k) * pw (sin (tau * k)) 2 - k * exp (2 * tau * k) * sin (tau * k) * cos (tau * k) - (1 / 2) * k * exp (2 * tau * k) * pw (cos (tau * k)) 2 + (1 / 2) * (-k * pw (sin (tau * k)) 2 - 2 * k * sin (tau * k) * cos (tau * k) + k * pw (cos (tau * k)) 2) * exp (-2 * tau * k))
      (-2 * k * exp (tau * k) * cos (tau * k) + 2 * k * exp (-tau * k) * cos (tau * k))
      (0)
  | 3 => vec6
      (4 * tau * pw k 2 * pw (sin (tau * k)) 2 + 4 * tau * pw k 2 * pw (cos (tau * k)) 2)
      (4 * k * sin (tau * k) * cos (tau * k))
      ((1 / 2) * k * exp (2 * tau * k) * pw (sin (tau * k)) 2 - k * exp (2 * tau * k) * sin (tau * k) * cos (tau * k) - (1 / 2) * k * exp (2 * tau * k) * pw (cos (tau * k)) 2 + (1 / 2) * (-k * pw (sin (tau * k)) 2 - 2 * k * sin (tau * k) * cos (tau * k) + k * pw (cos (tau * k)) 2) * exp (-2 * tau * k))
      ((3 / 2) * k * exp (2 * tau * k) * pw (sin (tau * k)) 2 + k * exp (2 * tau * k) * sin (tau * k) * cos (tau * k) + (1 / 2) * k * exp (2 * tau * k) * pw (cos (tau * k)) 2 - (1 / 2) * (3 * k * pw (sin (tau * k)) 2 - 2 * k * sin (tau * k) * cos (tau * k) + k * pw (cos (tau * k)) 2) * exp (-2 * tau * k))
      (2 * k * exp (tau * k) * sin (tau * k) + 2 * k * exp (-tau * k) * sin (tau * k))
      (0)
  | 4 => vec6
      (2 * k * exp (tau * k) * cos (tau * k) - 2 * k * exp (-tau * k) * cos (tau * k))
      (2 * k * exp (tau * k) * sin (tau * k) + 2 * k * exp (-tau * k) * sin (tau * k))
      (-2 * k * exp (tau * k) * cos (tau * k) + 2 * k * exp (-tau * k) * cos (tau * k))
      (2 * k * exp (tau * k) * sin (tau * k) + 2 * k * exp (-tau * k) * sin (tau * k))
      (4 * tau * pw k 2)
      (0)
  | 5 => vec6
      (0)
      (0)
      (0)
      (0)
      (0)
      (0)
  | _ => fun _ => 0

/-- Basis0101.cpp:495-635 `compute_Qd1_dtau_block`, as a function of the local variable `k`. -/
noncomputable def qd1Dtau (tau k : ℝ) : Mat := fun i =>
  match i with
  | 0 => vec6
      (2 * pw k 2 * exp (2 * tau * k) * pw (sin (tau * k)) 2 - 4 * pw k 2 * exp (2 * tau * k) * sin (tau * k) * cos (tau * k) + 2 * pw k 2 * exp (2 * tau * k) * pw (cos (tau * k)) 2 + 1 * (2 * pw k 2 * pw (sin (tau * k)) 2 + 4 * pw k 2 * sin (tau * k) * cos (tau * k) + 2 * pw k 2 * pw (cos (tau * k)) 2) * exp (-2 * tau * k))
      (-2 * pw k 2 * exp (2 * tau * k) * pw (sin (tau * k)) 2 + 2 * pw k 2 * exp (2 * tau * k) * pw (cos (tau * k)) 2 + 1 * (-2 * pw k 2 * pw (sin (tau * k)) 2 + 2 * pw k 2 * pw (cos (tau * k)) 2) * exp (-2 * tau * k))
      (4 * pw k 2 * pw (sin (tau * k)) 2 - 4 * pw k 2 * pw (cos (tau * k)) 2)
      (4 * pw k 2 * pw (sin (tau * k)) 2 + 4 * pw k 2 * pw (cos (tau * k)) 2)
      (-2 * pw k 2 * exp (tau * k) * sin (tau * k) + 2 * pw k 2 * exp (tau * k) * cos (tau * k) + 1 * (2 * pw k 2 * sin (tau * k) + 2 * pw k 2 * cos (tau * k)) * exp (-tau * k))
      (0)
  | 1 => vec6
      (-2 * pw k 2 * exp (2 * tau * k) * pw (sin (tau * k)) 2 + 2 * pw k 2 * exp (2 * tau * k) * pw (cos (tau * k)) 2 + 1 * (-2 * pw k 2 * pw (sin (tau * k)) 2 + 2 * pw k 2 * pw (cos (tau * k)) 2) * exp (-2 * tau * k))
      (2 * pw k 2 * exp (2 * tau * k) * pw (sin (tau * k)) 2 + 4 * pw k 2 * exp (2 * tau * k) * sin (tau * k) * cos (tau * k) + 2 * pw k 2 * exp (2 * tau * k) * pw (cos (tau * k)) 2 + 1 * (2 * pw k 2 * pw (sin (tau * k)) 2 - 4 * pw k 2 * sin (tau * k) * cos (tau * k) + 2 * pw k 2 * pw (cos (tau * k)) 2) * exp (-2 * tau * k))
      (-4 * pw k 2 * pw (sin (tau * k)) 2 - 4 * pw k 2 * pw (cos (tau * k)) 2)
      (-4 * pw k 2 * pw (sin (tau * k)) 2 + 4 * pw k 2 * pw (cos (tau * k)) 2)
      (2 * pw k 2 * exp (tau * k) * sin (tau * k) + 2 * pw k 2 * exp (tau * k) * cos (tau * k) + 1 * (-2 * pw k 2 * sin (tau * k) + 2 * pw k 2 * cos (tau * k)) * exp (-tau * k))
      (0)
  | 2 => vec6
      (4 * pw k 2 * pw (sin (tau * k)) 2 - 4 * pw k 2 * pw (cos (tau * k)) 2)
      (-4 * pw k 2 * pw (sin (tau * k)) 2 - 4 * pw k 2 * pw (cos (tau * k)) 2)
      (2 * pw k 2 * exp (2 * tau * k) * pw (sin (tau * k)) 2 - 4 * pw k 2 * exp (2 * tau * k) * sin (tau * k) * cos (tau * k) + 2 * pw k 2 * exp (2 * tau * k) * pw (cos (tau * k)) 2 + 1 * (2 * pw k 2 * pw (sin (tau * k)) 2 + 4 * pw k 2 * sin (tau * k) * cos (tau * k) + 2 * pw k 2 * pw (cos (tau * k)) 2) * exp (-2 * tau * k))
      (2 * pw k 2 * exp (2 * tau * k) * pw (sin (tau * k)) 2 - 2 * pw k 2 * exp (2 * tau * k) * pw (cos (tau * k)) 2 - 1 * (-2 * pw k 2 * pw (sin (tau * k)) 2 + 2 * pw k 2 * pw (cos (tau * k)) 2) * exp (-2 * tau * k))
      (2 * pw k 2 * exp (tau * k) * sin (tau * k) - 2 * pw k 2 * exp (tau * k) * cos (tau * k) - 1 * (2 * pw k 2 * sin (tau * k) + 2 * pw k 2 * cos (tau * k)) * exp (-tau * k))
      (0)
  | 3 => vec6
      (4 * pw k 2 * pw (sin (tau * k)) 2 + 4 * pw k 2 * pw (cos (tau * k)) 2)
      (-4 * pw k 2 * pw (sin (tau * k)) 2 + 4 * pw k 2 * pw (cos (tau * k)) 2)
      (2 * pw k 2 * exp (2 * tau * k) * pw (sin (tau * k)) 2 - 2 * pw k 2 * exp (2 * tau * k) * pw (cos (tau * k)) 2 - 1 * (-2 * pw k 2 * pw (sin (tau * k)) 2 + 2 * pw k 2 * pw (cos (tau * k)) 2) * exp (-2 * tau * k))
      (2 * pw k 2 * exp (2 * tau * k) * pw (sin (tau * k)) 2 + 4 * pw k 2 * exp (2 * tau * k) * sin (tau * k) * cos (tau * k) + 2 * pw k 2 * exp (2 * tau * k) * pw (cos (tau * k)) 2 + 1 * (2 * pw k 2 * pw (sin (tau * k)) 2 - 4 * pw k 2 * sin (tau * k) * cos (tau * k) + 2 * pw k 2 * pw (cos (tau * k)) 2) * exp (-2 * tau * k))
      (2 * pw k 2 * exp (tau * k) * sin (tau * k) + 2 * pw k 2 * exp (tau * k) * cos (tau * k) + 1 * (-2 * pw k 2 * sin (tau * k) + 2 * pw k 2 * cos (tau * k)) * exp (-tau * k))
      (0)
  | 4 => vec6
      (-2 * pw k 2 * exp (tau * k) * sin (tau * k) + 2 * pw k 2 * exp (tau * k) * cos (tau * k) + 1 * (2 * pw k 2 * sin (tau * k) + 2 * pw k 2 * cos (tau * k)) * exp (-tau * k))
      (2 * pw k 2 * exp (tau * k) * sin (tau * k) + 2 * pw k 2 * exp (tau * k) * cos (tau * k) + 1 * (-2 * pw k 2 * sin (tau * k) + 2 * pw k 2 * cos (tau * k)) * exp (-tau * k))
      (2 * pw k 2 * exp (tau * k) * sin (tau * k) - 2 * pw k 2 * exp (tau * k) * cos (tau * k) - 1 * (2 * pw k 2 * sin (tau * k) + 2 * pw k 2 * cos (tau * k)) * exp (-tau * k))
      (2 * pw k 2 * exp (tau * k) * sin (tau * k) + 2 * pw k 2 * exp (tau * k) * cos (tau * k) + 1 * (-2 * pw k 2 * sin (tau * k) + 2 * pw k 2 * cos (tau * k)) * exp (-tau * k))
      (4 * pw k 2)
      (0)
  | 5 => vec6
      (0)
      (0)
      (0)
      (0)
      (0)
      (0)
  | _ => fun _ => 0

/-- Basis0101.cpp:637-749 `compute_Qd2_block`, as a function of the local variable `k`. -/
noncomputable def qd2 (tau k : ℝ) : Mat := fun i =>
  match i with
  | 0 => vec6
      (3 * pw tau 2 * pw k 3 * exp (2 * tau * k) * pw (sin (tau * k)) 2 - 2 * pw tau 2 * pw k 3 * exp (2 * tau * k) * sin (tau * k) * cos (tau * k) + pw tau 2 * pw k 3 * exp (2 * tau * k) * pw (cos (tau * k)) 2 - (3 * pw tau 2 * pw k 3 * pw (sin (tau * k)) 2 + 2 * pw tau 2 * pw k 3 * sin (tau * k) * cos (tau * k) + pw tau 2 * pw k 3 * pw (cos (tau * k)) 2) * exp (-2 * tau * k))
      (-pw tau 2 * pw k 3 * exp (2 * tau * k) * pw (sin (tau * k)) 2 - 2 * pw tau 2 * pw k 3 * exp (2 * tau * k) * sin (tau * k) * cos (tau * k) + pw tau 2 * pw k 3 * exp (2 * tau * k) * pw (cos (tau * k)) 2 - (-pw tau 2 * pw k 3 * pw (sin (tau * k)) 2 + 2 * pw tau 2 * pw k 3 * sin (tau * k) * cos (tau * k) + pw tau 2 * pw k 3 * pw (cos (tau * k)) 2) * exp (-2 * tau * k))
      (-8 * pw tau 3 * pw k 4 + 8 * pw tau 2 * pw k 3 * sin (tau * k) * cos (tau * k))
      (0)
      (0)
      (0)
  | 1 => vec6
      (-pw tau 2 * pw k 3 * exp (2 * tau * k) * pw (sin (tau * k)) 2 - 2 * pw tau 2 * pw k 3 * exp (2 * tau * k) * sin (tau * k) * cos (tau * k) + pw tau 2 * pw k 3 * exp (2 * tau * k) * pw (cos (tau * k)) 2 - (-pw tau 2 * pw k 3 * pw (sin (tau * k)) 2 + 2 * pw tau 2 * pw k 3 * sin (tau * k) * cos (tau * k) + pw tau 2 * pw k 3 * pw (cos (tau * k)) 2) * exp (-2 * tau * k))
      (pw tau 2 * pw k 3 * exp (2 * tau * k) * pw (sin (tau * k)) 2 + 2 * pw tau 2 * pw k 3 * exp (2 * tau * k) * sin (tau * k) * cos (tau * k) + 3 * pw tau 2 * pw k 3 * exp (2 * tau * k) * pw (cos (tau * k)) 2 - (pw tau 2 * pw k 3 * pw (sin (tau * k)) 2 - 2 * pw tau 2 * pw k 3 * sin (tau * k) * cos (tau * k) + 3 * pw tau 2 * pw k 3 * pw (cos (tau * k)) 2) * exp (-2 * tau * k))
      (0)
      (-8 * pw tau 3 * pw k 4 - 8 * pw tau 2 * pw k 3 * sin (tau * k) * cos (tau * k))
      (0)
      (0)
  | 2 => vec6
      (-8 * pw tau 3 * pw k 4 + 8 * pw tau 2 * pw k 3 * sin (tau * k) * cos (tau * k))
      (0)
      (3 * pw tau 2 * pw k 3 * exp (2 * tau * k) * pw (sin (tau * k)) 2 - 2 * pw tau 2 * pw k 3 * exp (2 * tau * k) * sin (tau * k) * cos (tau * k) + pw tau 2 * pw k 3 * exp (2 * tau * k) * pw (cos (tau * k)) 2 - (3 * pw tau 2 * pw k 3 * pw (sin (tau * k)) 2 + 2 * pw tau 2 * pw k 3 * sin (tau * k) * cos (tau * k) + pw tau 2 * pw k 3 * pw (cos (tau * k)) 2) * exp (-2 * tau * k))
      (pw tau 2 * pw k 3 * exp (2 * tau * k) * pw (sin (tau * k)) 2 + 2 * pw tau 2 * pw k 3 * exp (2 * tau * k) * sin (tau * k) * cos (tau * k) - pw tau 2 * pw k 3 * exp (2 * tau * k) * pw (cos (tau * k)) 2 + (-pw tau 2 * pw k 3 * pw (sin (tau * k)) 2 + 2 * pw tau 2 * pw k 3 * sin (tau * k) * cos (tau * k) + pw tau 2 * pw k 3 * pw (cos (tau * k)) 2) * exp (-2 * tau * k))
      (0)
      (0)
  | 3 => vec6
      (0)
      (-8 * pw tau 3 * pw k 4 - 8 * pw tau 2 * pw k 3 * sin (tau * k) * cos (tau * k))
      (pw tau 2 * pw k 3 * exp (2 * tau * k) * pw (sin (tau * k)) 2 + 2 * pw tau 2 * pw k 3 * exp (2 * tau * k) * sin (tau * k) * cos (tau * k) - pw tau 2 * pw k 3 * exp (2 * tau * k) * pw (cos (tau * k)) 2 + (-pw tau 2 * pw k 3 * pw (sin (tau * k)) 2 + 2 * pw tau 2 * pw k 3 * sin (tau * k) * cos (tau * k) + pw tau 2 * pw k 3 * pw (cos (tau * k)) 2) * exp (-2 * tau * k))
      (pw tau 2 * pw k 3 * exp (2 * tau * k) * pw (sin (tau * k)) 2 + 2 * pw tau 2 * pw k 3 * exp (2 * tau * k) * sin (tau * k) * cos (tau * k) + 3 * pw tau 2 * pw k 3 * exp (2 * tau * k) * pw (cos (tau * k)) 2 - (pw tau 2 * pw k 3 * pw (sin (tau * k)) 2 - 2 * pw tau 2 * pw k 3 * sin (tau * k) * cos (tau * k) + 3 * pw tau 2 * pw k 3 * pw (cos (tau * k)) 2) * exp (-2 * tau * k))
      (0)
      (0)
  | 4 => vec6
      (0)
      (0)
      (0)
      (0)
      (0)
      (0)
  | 5 => vec6
      (0)
      (0)
      (0)
      (0)
      (0)
      (0)
  | _ => fun _ => 0

/-- Basis0101.cpp:751-911 `compute_Q_block`, as a function of the local variable `k`. -/
noncomputable def q0 (tau k : ℝ) : Mat := fun i =>
  match i with
  | 0 => vec6
      ((1 / 16) * (exp (4 * tau * k) * pw (sin (tau * k)) 2 + 2 * exp (4 * tau * k) * sin (tau * k) * cos (tau * k) + 3 * exp (4 * tau * k) * pw (cos (tau * k)) 2 - pw (sin (tau * k)) 2 + 2 * sin (tau * k) * cos (tau * k) - 3 * pw (cos (tau * k)) 2) * exp (-2 * tau * k) / k)
      (-(1 / 16) * (-exp (4 * tau * k) * pw (sin (tau * k)) 2 - 2 * exp (4 * tau * k) * sin (tau * k) * cos (tau * k) + exp (4 * tau * k) * pw (cos (tau * k)) 2 + pw (sin (tau * k)) 2 - 2 * sin (tau * k) * cos (tau * k) - pw (cos (tau * k)) 2) * exp (-2 * tau * k) / k)
      ((1 / 2) * tau + (1 / 2) * sin (tau * k) * cos (tau * k) / k)
      (0)
      ((1 / 4) * tau * exp (tau * k) * sin (tau * k) + (1 / 4) * tau * exp (tau * k) * cos (tau * k) + (1 / 4) * (-tau * k * sin (tau * k) + tau * k * cos (tau * k) - exp (2 * tau * k) * sin (tau * k) - sin (tau * k)) * exp (-tau * k) / k)
      ((1 / 4) * (exp (2 * tau * k) * sin (tau * k) + exp (2 * tau * k) * cos (tau * k) + sin (tau * k) - cos (tau * k)) * exp (-tau * k) / k)
  | 1 => vec6
      (-(1 / 16) * (-exp (4 * tau * k) * pw (sin (tau * k)) 2 - 2 * exp (4 * tau * k) * sin (tau * k) * cos (tau * k) + exp (4 * tau * k) * pw (cos (tau * k)) 2 + pw (sin (tau * k)) 2 - 2 * sin (tau * k) * cos (tau * k) - pw (cos (tau * k)) 2) * exp (-2 * tau * k) / k)
      ((1 / 16) * (3 * exp (4 * tau * k) * pw (sin (tau * k)) 2 - 2 * exp (4 * tau * k) * sin (tau * k) * cos (tau * k) + exp (4 * tau * k) * pw (cos (tau * k)) 2 - 3 * pw (sin (tau * k)) 2 - 2 * sin (tau * k) * cos (tau * k) - pw (cos (tau * k)) 2) * exp (-2 * tau * k) / k)
      (0)
      ((1 / 2) * tau - (1 / 2) * sin (tau * k) * cos (tau * k) / k)
      ((1 / 4) * tau * exp (tau * k) * sin (tau * k) - (1 / 4) * tau * exp (tau * k) * cos (tau * k) - (1 / 4) * (tau * k * sin (tau * k) + tau * k * cos (tau * k) - exp (2 * tau * k) * cos (tau * k) + cos (tau * k)) * exp (-tau * k) / k)
      (-(1 / 4) * (-exp (2 * tau * k) * sin (tau * k) + exp (2 * tau * k) * cos (tau * k) - sin (tau * k) - cos (tau * k)) * exp (-tau * k) / k)
  | 2 => vec6
      ((1 / 2) * tau + (1 / 2) * sin (tau * k) * cos (tau * k) / k)
      (0)
      ((1 / 16) * (exp (4 * tau * k) * pw (sin (tau * k)) 2 + 2 * exp (4 * tau * k) * sin (tau * k) * cos (tau * k) + 3 * exp (4 * tau * k) * pw (cos (tau * k)) 2 - pw (sin (tau * k)) 2 + 2 * sin (tau * k) * cos (tau * k) - 3 * pw (cos (tau * k)) 2) * exp (-2 * tau * k) / k)
      ((1 / 16) * (-exp (4 * tau * k) * pw (sin (tau * k)) 2 - 2 * exp (4 * tau * k) * sin (tau * k) * cos (tau * k) + exp (4 * tau * k) * pw (cos (tau * k)) 2 + pw (sin (tau * k)) 2 - 2 * sin (tau * k) * cos (tau * k) - pw (cos (tau * k)) 2) * exp (-2 * tau * k) / k)
      (-(1 / 4) * tau * exp (tau * k) * sin (tau * k) - (1 / 4) * tau * exp (tau * k) * cos (tau * k) - (1 / 4) * (-tau * k * sin (tau * k) + tau * k * cos (tau * k) - exp (2 * tau * k) * sin (tau * k) - sin (tau * k)) * exp (-tau * k) / k)
      ((1 / 4) * (exp (2 * tau * k) * sin (tau * k) + exp (2 * tau * k) * cos (tau * k) + sin (tau * k) - cos (tau * k)) * exp (-tau * k) / k)
  | 3 => vec6
      (0)
      ((1 / 2) * tau - (1 / 2) * sin (tau * k) * cos (tau * k) / k)
      ((1 / 16) * (-exp (4 * tau * k) * pw (sin (tau * k)) 2 - 2 * exp (4 * tau * k) * sin (tau * k) * cos (tau * k) + exp (4 * tau * k) * pw (cos (tau * k)) 2 + pw (sin (tau * k)) 2 - 2 * sin (tau * k) * cos (tau * k) - pw (cos (tau * k)) 2) * exp (-2 * tau * k) / k)
      ((1 / 16) * (3 * exp (4 * tau * k) * pw (sin (tau * k)) 2 - 2 * exp (4 * tau * k) * sin (tau * k) * cos (tau * k) + exp (4 * tau * k) * pw (cos (tau * k)) 2 - 3 * pw (sin (tau * k)) 2 - 2 * sin (tau * k) * cos (tau * k) - pw (cos (tau * k)) 2) * exp (-2 * tau * k) / k)
      ((1 / 4) * tau * exp (tau * k) * sin (tau * k) - (1 / 4) * tau * exp (tau * k) * cos (tau * k) - (1 / 4) * (tau * k * sin (tau * k) + tau * k * cos (tau * k) - exp (2 * tau * k) * cos (tau * k) + cos (tau * k)) * exp (-tau * k) / k)
      ((1 / 4) * (-exp (2 * tau * k) * sin (tau * k) + exp (2 * tau * k) * cos (tau * k) - sin (tau * k) - cos (tau * k)) * exp (-tau * k) / k)
  | 4 => vec6
      ((1 / 4) * tau * exp (tau * k) * sin (tau * k) + (1 / 4) * tau * exp (tau * k) * cos (tau * k) + (1 / 4) * (-tau * k * sin (tau * k) + tau * k * cos (tau * k) - exp (2 * tau * k) * sin (tau * k) - sin (tau * k)) * exp (-tau * k) / k)
      ((1 / 4) * tau * exp (tau * k) * sin (tau * k) - (1 / 4) * tau * exp (tau * k) * cos (tau * k) - (1 / 4) * (tau * k * sin (tau * k) + tau * k * cos (tau * k) - exp (2 * tau * k) * cos (tau * k) + cos (tau * k)) * exp (-tau * k) / k)
      (-(1 / 4) * tau * exp (tau * k) * sin (tau * k) - (1 / 4) * tau * exp (tau * k) * cos (tau * k) - (1 / 4) * (-tau * k * sin (tau * k) + tau * k * cos (tau * k) - exp (2 * tau * k) * sin (tau * k) - sin (tau * k)) * exp (-tau * k) / k)
      ((1 / 4) * tau * exp (tau * k) * sin (tau * k) - (1 / 4) * tau * exp (tau * k) * cos (tau * k) - (1 / 4) * (tau * k * sin (tau * k) + tau * k * cos (tau * k) - exp (2 * tau * k) * cos (tau * k) + cos (tau * k)) * exp (-tau * k) / k)
      ((1 / 3) * pw tau 3 * pw k 2)
      (0)
  | 5 => vec6
      ((1 / 4) * (exp (2 * tau * k) * sin (tau * k) + exp (2 * tau * k) * cos (tau * k) + sin (tau * k) - cos (tau * k)) * exp (-tau * k) / k)
      (-(1 / 4) * (-exp (2 * tau * k) * sin (tau * k) + exp (2 * tau * k) * cos (tau * k) - sin (tau * k) - cos (tau * k)) * exp (-tau * k) / k)
      ((1 / 4) * (exp (2 * tau * k) * sin (tau * k) + exp (2 * tau * k) * cos (tau * k) + sin (tau * k) - cos (tau * k)) * exp (-tau * k) / k)
      ((1 / 4) * (-exp (2 * tau * k) * sin (tau * k) + exp (2 * tau * k) * cos (tau * k) - sin (tau * k) - cos (tau * k)) * exp (-tau * k) / k)
      (0)
      (tau)
  | _ => fun _ => 0

/-- Basis0101.cpp:123-145 `add_derivative_matrix`. -/
noncomputable def addDerivativeMatrix (alpha tau : ℝ) (deg : ℕ) (m : Mat) : Res Mat :=
  match deg with
  | 0 => .ok (m.add (q0 tau (kQ alpha)))
  | 1 => .ok (m.add (qd1 tau (kQ alpha)))
  | 2 => .ok (m.add (qd2 tau (kQ alpha)))
  | 3 => .ok (m.add (qd3 tau (kQ alpha)))
  | _ => .error .invalidArgument

/-- Basis0101.cpp:105-121 `add_derivative_matrix_deriv_wrt_tau`. -/
noncomputable def addDerivativeMatrixDtau (alpha tau : ℝ) (deg : ℕ) (m : Mat) : Res Mat :=
  match deg with
  | 1 => .ok (m.add (qd1Dtau tau (kQ alpha)))
  | 3 => .ok (m.add (qd3Dtau tau (kQ alpha)))
  | _ => .error .invalidArgument

end GSplines.B0101
