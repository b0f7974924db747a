import Verif.Model.RoundingSpline
import Verif.Model.Sobolev

/-!
# The cost and its gradient with rounding errors: src/FunctionalAnalysis/Sobolev.cpp:19-95, Interpolator.cpp:255-345 and the functions of the bases that they call

As in `Model/Rounding.lean` each operation on doubles may return any number within an error of the exact result, and the result of a program is a set of outcomes.
The matrices that the bases keep in `derivative_matrices_buffer_` are computed in the constructor; here each call computes them anew, which only adds outcomes.
-/

namespace GSplines

/-- The expressions that occur in Basis0101.cpp:181-911, with the parentheses of C++. `rlit` is a literal that is not a double and therefore rounded. -/
inductive Ex
  | tau
  | k
  | lit (x : ℝ)
  | rlit (x : ℝ)
  | neg (a : Ex)
  | add (a b : Ex)
  | sub (a b : Ex)
  | mul (a b : Ex)
  | div (a b : Ex)
  | pw (a : Ex) (n : ℕ)
  | exp (a : Ex)
  | sin (a : Ex)
  | cos (a : Ex)

namespace Ex

instance : Neg Ex := ⟨neg⟩
instance : Add Ex := ⟨add⟩
instance : Sub Ex := ⟨sub⟩
instance : Mul Ex := ⟨mul⟩
instance : Div Ex := ⟨div⟩

/-- The value of an expression computed with rounding; changing the sign is exact. -/
noncomputable def run (u : ℝ × ℝ) (t κ : ℝ) : Ex → Nd ℝ
  | tau => return t
  | k => return κ
  | lit x => return x
  | rlit x => Nd.near u x
  | neg a => do
    let x ← a.run u t κ
    return -x
  | add a b => do
    let x ← a.run u t κ
    let y ← b.run u t κ
    Nd.near u (x + y)
  | sub a b => do
    let x ← a.run u t κ
    let y ← b.run u t κ
    Nd.near u (x - y)
  | mul a b => do
    let x ← a.run u t κ
    let y ← b.run u t κ
    Nd.near u (x * y)
  | div a b => do
    let x ← a.run u t κ
    let y ← b.run u t κ
    Nd.quot u x y
  | pw a n => do
    let x ← a.run u t κ
    Nd.near u (x ^ n)
  | exp a => do
    let x ← a.run u t κ
    Nd.near u (Real.exp x)
  | sin a => do
    let x ← a.run u t κ
    Nd.near u (Real.sin x)
  | cos a => do
    let x ← a.run u t κ
    Nd.near u (Real.cos x)

/-- A row of six expressions. -/
def row6 (a b c d e f : Ex) : ℕ → Ex := fun i =>
  match i with
  | 0 => a
  | 1 => b
  | 2 => c
  | 3 => d
  | 4 => e
  | 5 => f
  | _ => lit 0

/-- Basis0101.cpp:181-281 `compute_Qd3_block`: the expressions assigned to the entries. -/
noncomputable def qd3 : ℕ → ℕ → Ex := fun i =>
  match i with
  | 0 => row6
      (lit 96 * pw k 5 * exp (lit 2 * tau * k) * pw (sin (tau * k)) 2 + lit 64 * pw k 5 * exp (lit 2 * tau * k) * sin (tau * k) * cos (tau * k) + lit 32 * pw k 5 * exp (lit 2 * tau * k) * pw (cos (tau * k)) 2 - (lit 96 * pw k 5 * pw (sin (tau * k)) 2 - lit 64 * pw k 5 * sin (tau * k) * cos (tau * k) + lit 32 * pw k 5 * pw (cos (tau * k)) 2) * exp (-lit 2 * tau * k))
      (lit 32 * pw k 5 * exp (lit 2 * tau * k) * pw (sin (tau * k)) 2 - lit 64 * pw k 5 * exp (lit 2 * tau * k) * sin (tau * k) * cos (tau * k) - lit 32 * pw k 5 * exp (lit 2 * tau * k) * pw (cos (tau * k)) 2 + (-lit 32 * pw k 5 * pw (sin (tau * k)) 2 - lit 64 * pw k 5 * sin (tau * k) * cos (tau * k) + lit 32 * pw k 5 * pw (cos (tau * k)) 2) * exp (-lit 2 * tau * k))
      (-lit 256 * pw k 5 * sin (tau * k) * cos (tau * k))
      (-lit 256 * tau * pw k 6 * pw (sin (tau * k)) 2 - lit 256 * tau * pw k 6 * pw (cos (tau * k)) 2)
      (lit 0)
      (lit 0)
  | 1 => row6
      (lit 32 * pw k 5 * exp (lit 2 * tau * k) * pw (sin (tau * k)) 2 - lit 64 * pw k 5 * exp (lit 2 * tau * k) * sin (tau * k) * cos (tau * k) - lit 32 * pw k 5 * exp (lit 2 * tau * k) * pw (cos (tau * k)) 2 + (-lit 32 * pw k 5 * pw (sin (tau * k)) 2 - lit 64 * pw k 5 * sin (tau * k) * cos (tau * k) + lit 32 * pw k 5 * pw (cos (tau * k)) 2) * exp (-lit 2 * tau * k))
      (lit 32 * pw k 5 * exp (lit 2 * tau * k) * pw (sin (tau * k)) 2 - lit 64 * pw k 5 * exp (lit 2 * tau * k) * sin (tau * k) * cos (tau * k) + lit 96 * pw k 5 * exp (lit 2 * tau * k) * pw (cos (tau * k)) 2 - (lit 32 * pw k 5 * pw (sin (tau * k)) 2 + lit 64 * pw k 5 * sin (tau * k) * cos (tau * k) + lit 96 * pw k 5 * pw (cos (tau * k)) 2) * exp (-lit 2 * tau * k))
      (lit 256 * tau * pw k 6 * pw (sin (tau * k)) 2 + lit 256 * tau * pw k 6 * pw (cos (tau * k)) 2)
      (lit 256 * pw k 5 * sin (tau * k) * cos (tau * k))
      (lit 0)
      (lit 0)
  | 2 => row6
      (-lit 256 * pw k 5 * sin (tau * k) * cos (tau * k))
      (lit 256 * tau * pw k 6 * pw (sin (tau * k)) 2 + lit 256 * tau * pw k 6 * pw (cos (tau * k)) 2)
      (lit 96 * pw k 5 * exp (lit 2 * tau * k) * pw (sin (tau * k)) 2 + lit 64 * pw k 5 * exp (lit 2 * tau * k) * sin (tau * k) * cos (tau * k) + lit 32 * pw k 5 * exp (lit 2 * tau * k) * pw (cos (tau * k)) 2 - (lit 96 * pw k 5 * pw (sin (tau * k)) 2 - lit 64 * pw k 5 * sin (tau * k) * cos (tau * k) + lit 32 * pw k 5 * pw (cos (tau * k)) 2) * exp (-lit 2 * tau * k))
      (-lit 32 * pw k 5 * exp (lit 2 * tau * k) * pw (sin (tau * k)) 2 + lit 64 * pw k 5 * exp (lit 2 * tau * k) * sin (tau * k) * cos (tau * k) + lit 32 * pw k 5 * exp (lit 2 * tau * k) * pw (cos (tau * k)) 2 - (-lit 32 * pw k 5 * pw (sin (tau * k)) 2 - lit 64 * pw k 5 * sin (tau * k) * cos (tau * k) + lit 32 * pw k 5 * pw (cos (tau * k)) 2) * exp (-lit 2 * tau * k))
      (lit 0)
      (lit 0)
  | 3 => row6
      (-lit 256 * tau * pw k 6 * pw (sin (tau * k)) 2 - lit 256 * tau * pw k 6 * pw (cos (tau * k)) 2)
      (lit 256 * pw k 5 * sin (tau * k) * cos (tau * k))
      (-lit 32 * pw k 5 * exp (lit 2 * tau * k) * pw (sin (tau * k)) 2 + lit 64 * pw k 5 * exp (lit 2 * tau * k) * sin (tau * k) * cos (tau * k) + lit 32 * pw k 5 * exp (lit 2 * tau * k) * pw (cos (tau * k)) 2 - (-lit 32 * pw k 5 * pw (sin (tau * k)) 2 - lit 64 * pw k 5 * sin (tau * k) * cos (tau * k) + lit 32 * pw k 5 * pw (cos (tau * k)) 2) * exp (-lit 2 * tau * k))
      (lit 32 * pw k 5 * exp (lit 2 * tau * k) * pw (sin (tau * k)) 2 - lit 64 * pw k 5 * exp (lit 2 * tau * k) * sin (tau * k) * cos (tau * k) + lit 96 * pw k 5 * exp (lit 2 * tau * k) * pw (cos (tau * k)) 2 - (lit 32 * pw k 5 * pw (sin (tau * k)) 2 + lit 64 * pw k 5 * sin (tau * k) * cos (tau * k) + lit 96 * pw k 5 * pw (cos (tau * k)) 2) * exp (-lit 2 * tau * k))
      (lit 0)
      (lit 0)
  | 4 => row6
      (lit 0)
      (lit 0)
      (lit 0)
      (lit 0)
      (lit 0)
      (lit 0)
  | 5 => row6
      (lit 0)
      (lit 0)
      (lit 0)
      (lit 0)
      (lit 0)
      (lit 0)
  | _ => fun _ => lit 0

/-- Basis0101.cpp:283-383 `compute_Qd3_dtau_block`: the expressions assigned to the entries. -/
noncomputable def qd3Dtau : ℕ → ℕ → Ex := fun i =>
  match i with
  | 0 => row6
      (lit 128 * pw k 6 * exp (lit 2 * tau * k) * pw (sin (tau * k)) 2 + lit 256 * pw k 6 * exp (lit 2 * tau * k) * sin (tau * k) * cos (tau * k) + lit 128 * pw k 6 * exp (lit 2 * tau * k) * pw (cos (tau * k)) 2 + lit 1 * (lit 128 * pw k 6 * pw (sin (tau * k)) 2 - lit 256 * pw k 6 * sin (tau * k) * cos (tau * k) + lit 128 * pw k 6 * pw (cos (tau * k)) 2) * exp (-lit 2 * tau * k))
      (lit 128 * pw k 6 * exp (lit 2 * tau * k) * pw (sin (tau * k)) 2 - lit 128 * pw k 6 * exp (lit 2 * tau * k) * pw (cos (tau * k)) 2 - lit 1 * (-lit 128 * pw k 6 * pw (sin (tau * k)) 2 + lit 128 * pw k 6 * pw (cos (tau * k)) 2) * exp (-lit 2 * tau * k))
      (lit 256 * pw k 6 * pw (sin (tau * k)) 2 - lit 256 * pw k 6 * pw (cos (tau * k)) 2)
      (-lit 256 * pw k 6 * pw (sin (tau * k)) 2 - lit 256 * pw k 6 * pw (cos (tau * k)) 2)
      (lit 0)
      (lit 0)
  | 1 => row6
      (lit 128 * pw k 6 * exp (lit 2 * tau * k) * pw (sin (tau * k)) 2 - lit 128 * pw k 6 * exp (lit 2 * tau * k) * pw (cos (tau * k)) 2 - lit 1 * (-lit 128 * pw k 6 * pw (sin (tau * k)) 2 + lit 128 * pw k 6 * pw (cos (tau * k)) 2) * exp (-lit 2 * tau * k))
      (lit 128 * pw k 6 * exp (lit 2 * tau * k) * pw (sin (tau * k)) 2 - lit 256 * pw k 6 * exp (lit 2 * tau * k) * sin (tau * k) * cos (tau * k) + lit 128 * pw k 6 * exp (lit 2 * tau * k) * pw (cos (tau * k)) 2 + lit 1 * (lit 128 * pw k 6 * pw (sin (tau * k)) 2 + lit 256 * pw k 6 * sin (tau * k) * cos (tau * k) + lit 128 * pw k 6 * pw (cos (tau * k)) 2) * exp (-lit 2 * tau * k))
      (lit 256 * pw k 6 * pw (sin (tau * k)) 2 + lit 256 * pw k 6 * pw (cos (tau * k)) 2)
      (-lit 256 * pw k 6 * pw (sin (tau * k)) 2 + lit 256 * pw k 6 * pw (cos (tau * k)) 2)
      (lit 0)
      (lit 0)
  | 2 => row6
      (lit 256 * pw k 6 * pw (sin (tau * k)) 2 - lit 256 * pw k 6 * pw (cos (tau * k)) 2)
      (lit 256 * pw k 6 * pw (sin (tau * k)) 2 + lit 256 * pw k 6 * pw (cos (tau * k)) 2)
      (lit 128 * pw k 6 * exp (lit 2 * tau * k) * pw (sin (tau * k)) 2 + lit 256 * pw k 6 * exp (lit 2 * tau * k) * sin (tau * k) * cos (tau * k) + lit 128 * pw k 6 * exp (lit 2 * tau * k) * pw (cos (tau * k)) 2 + lit 1 * (lit 128 * pw k 6 * pw (sin (tau * k)) 2 - lit 256 * pw k 6 * sin (tau * k) * cos (tau * k) + lit 128 * pw k 6 * pw (cos (tau * k)) 2) * exp (-lit 2 * tau * k))
      (-lit 128 * pw k 6 * exp (lit 2 * tau * k) * pw (sin (tau * k)) 2 + lit 128 * pw k 6 * exp (lit 2 * tau * k) * pw (cos (tau * k)) 2 + lit 1 * (-lit 128 * pw k 6 * pw (sin (tau * k)) 2 + lit 128 * pw k 6 * pw (cos (tau * k)) 2) * exp (-lit 2 * tau * k))
      (lit 0)
      (lit 0)
  | 3 => row6
      (-lit 256 * pw k 6 * pw (sin (tau * k)) 2 - lit 256 * pw k 6 * pw (cos (tau * k)) 2)
      (-lit 256 * pw k 6 * pw (sin (tau * k)) 2 + lit 256 * pw k 6 * pw (cos (tau * k)) 2)
      (-lit 128 * pw k 6 * exp (lit 2 * tau * k) * pw (sin (tau * k)) 2 + lit 128 * pw k 6 * exp (lit 2 * tau * k) * pw (cos (tau * k)) 2 + lit 1 * (-lit 128 * pw k 6 * pw (sin (tau * k)) 2 + lit 128 * pw k 6 * pw (cos (tau * k)) 2) * exp (-lit 2 * tau * k))
      (lit 128 * pw k 6 * exp (lit 2 * tau * k) * pw (sin (tau * k)) 2 - lit 256 * pw k 6 * exp (lit 2 * tau * k) * sin (tau * k) * cos (tau * k) + lit 128 * pw k 6 * exp (lit 2 * tau * k) * pw (cos (tau * k)) 2 + lit 1 * (lit 128 * pw k 6 * pw (sin (tau * k)) 2 + lit 256 * pw k 6 * sin (tau * k) * cos (tau * k) + lit 128 * pw k 6 * pw (cos (tau * k)) 2) * exp (-lit 2 * tau * k))
      (lit 0)
      (lit 0)
  | 4 => row6
      (lit 0)
      (lit 0)
      (lit 0)
      (lit 0)
      (lit 0)
      (lit 0)
  | 5 => row6
      (lit 0)
      (lit 0)
      (lit 0)
      (lit 0)
      (lit 0)
      (lit 0)
  | _ => fun _ => lit 0

/-- Basis0101.cpp:385-493 `compute_Qd1_block`: the expressions assigned to the entries. -/
noncomputable def qd1 : ℕ → ℕ → Ex := fun i =>
  match i with
  | 0 => row6
      (lit (1 / 2) * k * exp (lit 2 * tau * k) * pw (sin (tau * k)) 2 - k * exp (lit 2 * tau * k) * sin (tau * k) * cos (tau * k) + lit (3 / 2) * k * exp (lit 2 * tau * k) * pw (cos (tau * k)) 2 - lit (1 / 2) * (k * pw (sin (tau * k)) 2 + lit 2 * k * sin (tau * k) * cos (tau * k) + lit 3 * k * pw (cos (tau * k)) 2) * exp (-lit 2 * tau * k))
      (-lit (1 / 2) * k * exp (lit 2 * tau * k) * pw (sin (tau * k)) 2 + k * exp (lit 2 * tau * k) * sin (tau * k) * cos (tau * k) + lit (1 / 2) * k * exp (lit 2 * tau * k) * pw (cos (tau * k)) 2 - lit (1 / 2) * (-k * pw (sin (tau * k)) 2 - lit 2 * k * sin (tau * k) * cos (tau * k) + k * pw (cos (tau * k)) 2) * exp (-lit 2 * tau * k))
      (-lit 4 * k * sin (tau * k) * cos (tau * k))
      (lit 4 * tau * pw k 2 * pw (sin (tau * k)) 2 + lit 4 * tau * pw k 2 * pw (cos (tau * k)) 2)
      (lit 2 * k * exp (tau * k) * cos (tau * k) - lit 2 * k * exp (-tau * k) * cos (tau * k))
      (lit 0)
  | 1 => row6
      (-lit (1 / 2) * k * exp (lit 2 * tau * k) * pw (sin (tau * k)) 2 + k * exp (lit 2 * tau * k) * sin (tau * k) * cos (tau * k) + lit (1 / 2) * k * exp (lit 2 * tau * k) * pw (cos (tau * k)) 2 - lit (1 / 2) * (-k * pw (sin (tau * k)) 2 - lit 2 * k * sin (tau * k) * cos (tau * k) + k * pw (cos (tau * k)) 2) * exp (-lit 2 * tau * k))
      (lit (3 / 2) * k * exp (lit 2 * tau * k) * pw (sin (tau * k)) 2 + k * exp (lit 2 * tau * k) * sin (tau * k) * cos (tau * k) + lit (1 / 2) * k * exp (lit 2 * tau * k) * pw (cos (tau * k)) 2 - lit (1 / 2) * (lit 3 * k * pw (sin (tau * k)) 2 - lit 2 * k * sin (tau * k) * cos (tau * k) + k * pw (cos (tau * k)) 2) * exp (-lit 2 * tau * k))
      (-lit 4 * tau * pw k 2 * pw (sin (tau * k)) 2 - lit 4 * tau * pw k 2 * pw (cos (tau * k)) 2)
      (lit 4 * k * sin (tau * k) * cos (tau * k))
      (lit 2 * k * exp (tau * k) * sin (tau * k) + lit 2 * k * exp (-tau * k) * sin (tau * k))
      (lit 0)
  | 2 => row6
      (-lit 4 * k * sin (tau * k) * cos (tau * k))
      (-lit 4 * tau * pw k 2 * pw (sin (tau * k)) 2 - lit 4 * tau * pw k 2 * pw (cos (tau * k)) 2)
      (lit (1 / 2) * k * exp (lit 2 * tau * k) * pw (sin (tau * k)) 2 - k * exp (lit 2 * tau * k) * sin (tau * k) * cos (tau * k) + lit (3 / 2) * k * exp (lit 2 * tau * k) * pw (cos (tau * k)) 2 - lit (1 / 2) * (k * pw (sin (tau * k)) 2 + lit 2 * k * sin (tau * k) * cos (tau * k) + lit 3 * k * pw (cos (tau * k)) 2) * exp (-lit 2 * tau * k))
      (lit (1 / 2) * k * exp (lit 2 * tau * k) * pw (sin (tau * k)) 2 - k * exp (lit 2 * tau * k) * sin (tau * k) * cos (tau * k) - lit (1 / 2) * k * exp (lit 2 * tau * k) * pw (cos (tau * k)) 2 + lit (1 / 2) * (-k * pw (sin (tau * k)) 2 - lit 2 * k * sin (tau * k) * cos (tau * k) + k * pw (cos (tau * k)) 2) * exp (-lit 2 * tau * k))
      (-lit 2 * k * exp (tau * k) * cos (tau * k) + lit 2 * k * exp (-tau * k) * cos (tau * k))
      (lit 0)
  | 3 => row6
      (lit 4 * tau * pw k 2 * pw (sin (tau * k)) 2 + lit 4 * tau * pw k 2 * pw (cos (tau * k)) 2)
      (lit 4 * k * sin (tau * k) * cos (tau * k))
      (lit (1 / 2) * k * exp (lit 2 * tau * k) * pw (sin (tau * k)) 2 - k * exp (lit 2 * tau * k) * sin (tau * k) * cos (tau * k) - lit (1 / 2) * k * exp (lit 2 * tau * k) * pw (cos (tau * k)) 2 + lit (1 / 2) * (-k * pw (sin (tau * k)) 2 - lit 2 * k * sin (tau * k) * cos (tau * k) + k * pw (cos (tau * k)) 2) * exp (-lit 2 * tau * k))
      (lit (3 / 2) * k * exp (lit 2 * tau * k) * pw (sin (tau * k)) 2 + k * exp (lit 2 * tau * k) * sin (tau * k) * cos (tau * k) + lit (1 / 2) * k * exp (lit 2 * tau * k) * pw (cos (tau * k)) 2 - lit (1 / 2) * (lit 3 * k * pw (sin (tau * k)) 2 - lit 2 * k * sin (tau * k) * cos (tau * k) + k * pw (cos (tau * k)) 2) * exp (-lit 2 * tau * k))
      (lit 2 * k * exp (tau * k) * sin (tau * k) + lit 2 * k * exp (-tau * k) * sin (tau * k))
      (lit 0)
  | 4 => row6
      (lit 2 * k * exp (tau * k) * cos (tau * k) - lit 2 * k * exp (-tau * k) * cos (tau * k))
      (lit 2 * k * exp (tau * k) * sin (tau * k) + lit 2 * k * exp (-tau * k) * sin (tau * k))
      (-lit 2 * k * exp (tau * k) * cos (tau * k) + lit 2 * k * exp (-tau * k) * cos (tau * k))
      (lit 2 * k * exp (tau * k) * sin (tau * k) + lit 2 * k * exp (-tau * k) * sin (tau * k))
      (lit 4 * tau * pw k 2)
      (lit 0)
  | 5 => row6
      (lit 0)
      (lit 0)
      (lit 0)
      (lit 0)
      (lit 0)
      (lit 0)
  | _ => fun _ => lit 0

/-- Basis0101.cpp:495-635 `compute_Qd1_dtau_block`: the expressions assigned to the entries. -/
noncomputable def qd1Dtau : ℕ → ℕ → Ex := fun i =>
  match i with
  | 0 => row6
      (lit 2 * pw k 2 * exp (lit 2 * tau * k) * pw (sin (tau * k)) 2 - lit 4 * pw k 2 * exp (lit 2 * tau * k) * sin (tau * k) * cos (tau * k) + lit 2 * pw k 2 * exp (lit 2 * tau * k) * pw (cos (tau * k)) 2 + lit 1 * (lit 2 * pw k 2 * pw (sin (tau * k)) 2 + lit 4 * pw k 2 * sin (tau * k) * cos (tau * k) + lit 2 * pw k 2 * pw (cos (tau * k)) 2) * exp (-lit 2 * tau * k))
      (-lit 2 * pw k 2 * exp (lit 2 * tau * k) * pw (sin (tau * k)) 2 + lit 2 * pw k 2 * exp (lit 2 * tau * k) * pw (cos (tau * k)) 2 + lit 1 * (-lit 2 * pw k 2 * pw (sin (tau * k)) 2 + lit 2 * pw k 2 * pw (cos (tau * k)) 2) * exp (-lit 2 * tau * k))
      (lit 4 * pw k 2 * pw (sin (tau * k)) 2 - lit 4 * pw k 2 * pw (cos (tau * k)) 2)
      (lit 4 * pw k 2 * pw (sin (tau * k)) 2 + lit 4 * pw k 2 * pw (cos (tau * k)) 2)
      (-lit 2 * pw k 2 * exp (tau * k) * sin (tau * k) + lit 2 * pw k 2 * exp (tau * k) * cos (tau * k) + lit 1 * (lit 2 * pw k 2 * sin (tau * k) + lit 2 * pw k 2 * cos (tau * k)) * exp (-tau * k))
      (lit 0)
  | 1 => row6
      (-lit 2 * pw k 2 * exp (lit 2 * tau * k) * pw (sin (tau * k)) 2 + lit 2 * pw k 2 * exp (lit 2 * tau * k) * pw (cos (tau * k)) 2 + lit 1 * (-lit 2 * pw k 2 * pw (sin (tau * k)) 2 + lit 2 * pw k 2 * pw (cos (tau * k)) 2) * exp (-lit 2 * tau * k))
      (lit 2 * pw k 2 * exp (lit 2 * tau * k) * pw (sin (tau * k)) 2 + lit 4 * pw k 2 * exp (lit 2 * tau * k) * sin (tau * k) * cos (tau * k) + lit 2 * pw k 2 * exp (lit 2 * tau * k) * pw (cos (tau * k)) 2 + lit 1 * (lit 2 * pw k 2 * pw (sin (tau * k)) 2 - lit 4 * pw k 2 * sin (tau * k) * cos (tau * k) + lit 2 * pw k 2 * pw (cos (tau * k)) 2) * exp (-lit 2 * tau * k))
      (-lit 4 * pw k 2 * pw (sin (tau * k)) 2 - lit 4 * pw k 2 * pw (cos (tau * k)) 2)
      (-lit 4 * pw k 2 * pw (sin (tau * k)) 2 + lit 4 * pw k 2 * pw (cos (tau * k)) 2)
      (lit 2 * pw k 2 * exp (tau * k) * sin (tau * k) + lit 2 * pw k 2 * exp (tau * k) * cos (tau * k) + lit 1 * (-lit 2 * pw k 2 * sin (tau * k) + lit 2 * pw k 2 * cos (tau * k)) * exp (-tau * k))
      (lit 0)
  | 2 => row6
      (lit 4 * pw k 2 * pw (sin (tau * k)) 2 - lit 4 * pw k 2 * pw (cos (tau * k)) 2)
      (-lit 4 * pw k 2 * pw (sin (tau * k)) 2 - lit 4 * pw k 2 * pw (cos (tau * k)) 2)
      (lit 2 * pw k 2 * exp (lit 2 * tau * k) * pw (sin (tau * k)) 2 - lit 4 * pw k 2 * exp (lit 2 * tau * k) * sin (tau * k) * cos (tau * k) + lit 2 * pw k 2 * exp (lit 2 * tau * k) * pw (cos (tau * k)) 2 + lit 1 * (lit 2 * pw k 2 * pw (sin (tau * k)) 2 + lit 4 * pw k 2 * sin (tau * k) * cos (tau * k) + lit 2 * pw k 2 * pw (cos (tau * k)) 2) * exp (-lit 2 * tau * k))
      (lit 2 * pw k 2 * exp (lit 2 * tau * k) * pw (sin (tau * k)) 2 - lit 2 * pw k 2 * exp (lit 2 * tau * k) * pw (cos (tau * k)) 2 - lit 1 * (-lit 2 * pw k 2 * pw (sin (tau * k)) 2 + lit 2 * pw k 2 * pw (cos (tau * k)) 2) * exp (-lit 2 * tau * k))
      (lit 2 * pw k 2 * exp (tau * k) * sin (tau * k) - lit 2 * pw k 2 * exp (tau * k) * cos (tau * k) - lit 1 * (lit 2 * pw k 2 * sin (tau * k) + lit 2 * pw k 2 * cos (tau * k)) * exp (-tau * k))
      (lit 0)
  | 3 => row6
      (lit 4 * pw k 2 * pw (sin (tau * k)) 2 + lit 4 * pw k 2 * pw (cos (tau * k)) 2)
      (-lit 4 * pw k 2 * pw (sin (tau * k)) 2 + lit 4 * pw k 2 * pw (cos (tau * k)) 2)
      (lit 2 * pw k 2 * exp (lit 2 * tau * k) * pw (sin (tau * k)) 2 - lit 2 * pw k 2 * exp (lit 2 * tau * k) * pw (cos (tau * k)) 2 - lit 1 * (-lit 2 * pw k 2 * pw (sin (tau * k)) 2 + lit 2 * pw k 2 * pw (cos (tau * k)) 2) * exp (-lit 2 * tau * k))
      (lit 2 * pw k 2 * exp (lit 2 * tau * k) * pw (sin (tau * k)) 2 + lit 4 * pw k 2 * exp (lit 2 * tau * k) * sin (tau * k) * cos (tau * k) + lit 2 * pw k 2 * exp (lit 2 * tau * k) * pw (cos (tau * k)) 2 + lit 1 * (lit 2 * pw k 2 * pw (sin (tau * k)) 2 - lit 4 * pw k 2 * sin (tau * k) * cos (tau * k) + lit 2 * pw k 2 * pw (cos (tau * k)) 2) * exp (-lit 2 * tau * k))
      (lit 2 * pw k 2 * exp (tau * k) * sin (tau * k) + lit 2 * pw k 2 * exp (tau * k) * cos (tau * k) + lit 1 * (-lit 2 * pw k 2 * sin (tau * k) + lit 2 * pw k 2 * cos (tau * k)) * exp (-tau * k))
      (lit 0)
  | 4 => row6
      (-lit 2 * pw k 2 * exp (tau * k) * sin (tau * k) + lit 2 * pw k 2 * exp (tau * k) * cos (tau * k) + lit 1 * (lit 2 * pw k 2 * sin (tau * k) + lit 2 * pw k 2 * cos (tau * k)) * exp (-tau * k))
      (lit 2 * pw k 2 * exp (tau * k) * sin (tau * k) + lit 2 * pw k 2 * exp (tau * k) * cos (tau * k) + lit 1 * (-lit 2 * pw k 2 * sin (tau * k) + lit 2 * pw k 2 * cos (tau * k)) * exp (-tau * k))
      (lit 2 * pw k 2 * exp (tau * k) * sin (tau * k) - lit 2 * pw k 2 * exp (tau * k) * cos (tau * k) - lit 1 * (lit 2 * pw k 2 * sin (tau * k) + lit 2 * pw k 2 * cos (tau * k)) * exp (-tau * k))
      (lit 2 * pw k 2 * exp (tau * k) * sin (tau * k) + lit 2 * pw k 2 * exp (tau * k) * cos (tau * k) + lit 1 * (-lit 2 * pw k 2 * sin (tau * k) + lit 2 * pw k 2 * cos (tau * k)) * exp (-tau * k))
      (lit 4 * pw k 2)
      (lit 0)
  | 5 => row6
      (lit 0)
      (lit 0)
      (lit 0)
      (lit 0)
      (lit 0)
      (lit 0)
  | _ => fun _ => lit 0

/-- Basis0101.cpp:637-749 `compute_Qd2_block`: the expressions assigned to the entries. -/
noncomputable def qd2 : ℕ → ℕ → Ex := fun i =>
  match i with
  | 0 => row6
      (lit 3 * pw tau 2 * pw k 3 * exp (lit 2 * tau * k) * pw (sin (tau * k)) 2 - lit 2 * pw tau 2 * pw k 3 * exp (lit 2 * tau * k) * sin (tau * k) * cos (tau * k) + pw tau 2 * pw k 3 * exp (lit 2 * tau * k) * pw (cos (tau * k)) 2 - (lit 3 * pw tau 2 * pw k 3 * pw (sin (tau * k)) 2 + lit 2 * pw tau 2 * pw k 3 * sin (tau * k) * cos (tau * k) + pw tau 2 * pw k 3 * pw (cos (tau * k)) 2) * exp (-lit 2 * tau * k))
      (-pw tau 2 * pw k 3 * exp (lit 2 * tau * k) * pw (sin (tau * k)) 2 - lit 2 * pw tau 2 * pw k 3 * exp (lit 2 * tau * k) * sin (tau * k) * cos (tau * k) + pw tau 2 * pw k 3 * exp (lit 2 * tau * k) * pw (cos (tau * k)) 2 - (-pw tau 2 * pw k 3 * pw (sin (tau * k)) 2 + lit 2 * pw tau 2 * pw k 3 * sin (tau * k) * cos (tau * k) + pw tau 2 * pw k 3 * pw (cos (tau * k)) 2) * exp (-lit 2 * tau * k))
      (-lit 8 * pw tau 3 * pw k 4 + lit 8 * pw tau 2 * pw k 3 * sin (tau * k) * cos (tau * k))
      (lit 0)
      (lit 0)
      (lit 0)
  | 1 => row6
      (-pw tau 2 * pw k 3 * exp (lit 2 * tau * k) * pw (sin (tau * k)) 2 - lit 2 * pw tau 2 * pw k 3 * exp (lit 2 * tau * k) * sin (tau * k) * cos (tau * k) + pw tau 2 * pw k 3 * exp (lit 2 * tau * k) * pw (cos (tau * k)) 2 - (-pw tau 2 * pw k 3 * pw (sin (tau * k)) 2 + lit 2 * pw tau 2 * pw k 3 * sin (tau * k) * cos (tau * k) + pw tau 2 * pw k 3 * pw (cos (tau * k)) 2) * exp (-lit 2 * tau * k))
      (pw tau 2 * pw k 3 * exp (lit 2 * tau * k) * pw (sin (tau * k)) 2 + lit 2 * pw tau 2 * pw k 3 * exp (lit 2 * tau * k) * sin (tau * k) * cos (tau * k) + lit 3 * pw tau 2 * pw k 3 * exp (lit 2 * tau * k) * pw (cos (tau * k)) 2 - (pw tau 2 * pw k 3 * pw (sin (tau * k)) 2 - lit 2 * pw tau 2 * pw k 3 * sin (tau * k) * cos (tau * k) + lit 3 * pw tau 2 * pw k 3 * pw (cos (tau * k)) 2) * exp (-lit 2 * tau * k))
      (lit 0)
      (-lit 8 * pw tau 3 * pw k 4 - lit 8 * pw tau 2 * pw k 3 * sin (tau * k) * cos (tau * k))
      (lit 0)
      (lit 0)
  | 2 => row6
      (-lit 8 * pw tau 3 * pw k 4 + lit 8 * pw tau 2 * pw k 3 * sin (tau * k) * cos (tau * k))
      (lit 0)
      (lit 3 * pw tau 2 * pw k 3 * exp (lit 2 * tau * k) * pw (sin (tau * k)) 2 - lit 2 * pw tau 2 * pw k 3 * exp (lit 2 * tau * k) * sin (tau * k) * cos (tau * k) + pw tau 2 * pw k 3 * exp (lit 2 * tau * k) * pw (cos (tau * k)) 2 - (lit 3 * pw tau 2 * pw k 3 * pw (sin (tau * k)) 2 + lit 2 * pw tau 2 * pw k 3 * sin (tau * k) * cos (tau * k) + pw tau 2 * pw k 3 * pw (cos (tau * k)) 2) * exp (-lit 2 * tau * k))
      (pw tau 2 * pw k 3 * exp (lit 2 * tau * k) * pw (sin (tau * k)) 2 + lit 2 * pw tau 2 * pw k 3 * exp (lit 2 * tau * k) * sin (tau * k) * cos (tau * k) - pw tau 2 * pw k 3 * exp (lit 2 * tau * k) * pw (cos (tau * k)) 2 + (-pw tau 2 * pw k 3 * pw (sin (tau * k)) 2 + lit 2 * pw tau 2 * pw k 3 * sin (tau * k) * cos (tau * k) + pw tau 2 * pw k 3 * pw (cos (tau * k)) 2) * exp (-lit 2 * tau * k))
      (lit 0)
      (lit 0)
  | 3 => row6
      (lit 0)
      (-lit 8 * pw tau 3 * pw k 4 - lit 8 * pw tau 2 * pw k 3 * sin (tau * k) * cos (tau * k))
      (pw tau 2 * pw k 3 * exp (lit 2 * tau * k) * pw (sin (tau * k)) 2 + lit 2 * pw tau 2 * pw k 3 * exp (lit 2 * tau * k) * sin (tau * k) * cos (tau * k) - pw tau 2 * pw k 3 * exp (lit 2 * tau * k) * pw (cos (tau * k)) 2 + (-pw tau 2 * pw k 3 * pw (sin (tau * k)) 2 + lit 2 * pw tau 2 * pw k 3 * sin (tau * k) * cos (tau * k) + pw tau 2 * pw k 3 * pw (cos (tau * k)) 2) * exp (-lit 2 * tau * k))
      (pw tau 2 * pw k 3 * exp (lit 2 * tau * k) * pw (sin (tau * k)) 2 + lit 2 * pw tau 2 * pw k 3 * exp (lit 2 * tau * k) * sin (tau * k) * cos (tau * k) + lit 3 * pw tau 2 * pw k 3 * exp (lit 2 * tau * k) * pw (cos (tau * k)) 2 - (pw tau 2 * pw k 3 * pw (sin (tau * k)) 2 - lit 2 * pw tau 2 * pw k 3 * sin (tau * k) * cos (tau * k) + lit 3 * pw tau 2 * pw k 3 * pw (cos (tau * k)) 2) * exp (-lit 2 * tau * k))
      (lit 0)
      (lit 0)
  | 4 => row6
      (lit 0)
      (lit 0)
      (lit 0)
      (lit 0)
      (lit 0)
      (lit 0)
  | 5 => row6
      (lit 0)
      (lit 0)
      (lit 0)
      (lit 0)
      (lit 0)
      (lit 0)
  | _ => fun _ => lit 0

/-- Basis0101.cpp:751-911 `compute_Q_block`: the expressions assigned to the entries. -/
noncomputable def q0 : ℕ → ℕ → Ex := fun i =>
  match i with
  | 0 => row6
      (lit (1 / 16) * (exp (lit 4 * tau * k) * pw (sin (tau * k)) 2 + lit 2 * exp (lit 4 * tau * k) * sin (tau * k) * cos (tau * k) + lit 3 * exp (lit 4 * tau * k) * pw (cos (tau * k)) 2 - pw (sin (tau * k)) 2 + lit 2 * sin (tau * k) * cos (tau * k) - lit 3 * pw (cos (tau * k)) 2) * exp (-lit 2 * tau * k) / k)
      (-lit (1 / 16) * (-exp (lit 4 * tau * k) * pw (sin (tau * k)) 2 - lit 2 * exp (lit 4 * tau * k) * sin (tau * k) * cos (tau * k) + exp (lit 4 * tau * k) * pw (cos (tau * k)) 2 + pw (sin (tau * k)) 2 - lit 2 * sin (tau * k) * cos (tau * k) - pw (cos (tau * k)) 2) * exp (-lit 2 * tau * k) / k)
      (lit (1 / 2) * tau + lit (1 / 2) * sin (tau * k) * cos (tau * k) / k)
      (lit 0)
      (lit (1 / 4) * tau * exp (tau * k) * sin (tau * k) + lit (1 / 4) * tau * exp (tau * k) * cos (tau * k) + lit (1 / 4) * (-tau * k * sin (tau * k) + tau * k * cos (tau * k) - exp (lit 2 * tau * k) * sin (tau * k) - sin (tau * k)) * exp (-tau * k) / k)
      (lit (1 / 4) * (exp (lit 2 * tau * k) * sin (tau * k) + exp (lit 2 * tau * k) * cos (tau * k) + sin (tau * k) - cos (tau * k)) * exp (-tau * k) / k)
  | 1 => row6
      (-lit (1 / 16) * (-exp (lit 4 * tau * k) * pw (sin (tau * k)) 2 - lit 2 * exp (lit 4 * tau * k) * sin (tau * k) * cos (tau * k) + exp (lit 4 * tau * k) * pw (cos (tau * k)) 2 + pw (sin (tau * k)) 2 - lit 2 * sin (tau * k) * cos (tau * k) - pw (cos (tau * k)) 2) * exp (-lit 2 * tau * k) / k)
      (lit (1 / 16) * (lit 3 * exp (lit 4 * tau * k) * pw (sin (tau * k)) 2 - lit 2 * exp (lit 4 * tau * k) * sin (tau * k) * cos (tau * k) + exp (lit 4 * tau * k) * pw (cos (tau * k)) 2 - lit 3 * pw (sin (tau * k)) 2 - lit 2 * sin (tau * k) * cos (tau * k) - pw (cos (tau * k)) 2) * exp (-lit 2 * tau * k) / k)
      (lit 0)
      (lit (1 / 2) * tau - lit (1 / 2) * sin (tau * k) * cos (tau * k) / k)
      (lit (1 / 4) * tau * exp (tau * k) * sin (tau * k) - lit (1 / 4) * tau * exp (tau * k) * cos (tau * k) - lit (1 / 4) * (tau * k * sin (tau * k) + tau * k * cos (tau * k) - exp (lit 2 * tau * k) * cos (tau * k) + cos (tau * k)) * exp (-tau * k) / k)
      (-lit (1 / 4) * (-exp (lit 2 * tau * k) * sin (tau * k) + exp (lit 2 * tau * k) * cos (tau * k) - sin (tau * k) - cos (tau * k)) * exp (-tau * k) / k)
  | 2 => row6
      (lit (1 / 2) * tau + lit (1 / 2) * sin (tau * k) * cos (tau * k) / k)
      (lit 0)
      (lit (1 / 16) * (exp (lit 4 * tau * k) * pw (sin (tau * k)) 2 + lit 2 * exp (lit 4 * tau * k) * sin (tau * k) * cos (tau * k) + lit 3 * exp (lit 4 * tau * k) * pw (cos (tau * k)) 2 - pw (sin (tau * k)) 2 + lit 2 * sin (tau * k) * cos (tau * k) - lit 3 * pw (cos (tau * k)) 2) * exp (-lit 2 * tau * k) / k)
      (lit (1 / 16) * (-exp (lit 4 * tau * k) * pw (sin (tau * k)) 2 - lit 2 * exp (lit 4 * tau * k) * sin (tau * k) * cos (tau * k) + exp (lit 4 * tau * k) * pw (cos (tau * k)) 2 + pw (sin (tau * k)) 2 - lit 2 * sin (tau * k) * cos (tau * k) - pw (cos (tau * k)) 2) * exp (-lit 2 * tau * k) / k)
      (-lit (1 / 4) * tau * exp (tau * k) * sin (tau * k) - lit (1 / 4) * tau * exp (tau * k) * cos (tau * k) - lit (1 / 4) * (-tau * k * sin (tau * k) + tau * k * cos (tau * k) - exp (lit 2 * tau * k) * sin (tau * k) - sin (tau * k)) * exp (-tau * k) / k)
      (lit (1 / 4) * (exp (lit 2 * tau * k) * sin (tau * k) + exp (lit 2 * tau * k) * cos (tau * k) + sin (tau * k) - cos (tau * k)) * exp (-tau * k) / k)
  | 3 => row6
      (lit 0)
      (lit (1 / 2) * tau - lit (1 / 2) * sin (tau * k) * cos (tau * k) / k)
      (lit (1 / 16) * (-exp (lit 4 * tau * k) * pw (sin (tau * k)) 2 - lit 2 * exp (lit 4 * tau * k) * sin (tau * k) * cos (tau * k) + exp (lit 4 * tau * k) * pw (cos (tau * k)) 2 + pw (sin (tau * k)) 2 - lit 2 * sin (tau * k) * cos (tau * k) - pw (cos (tau * k)) 2) * exp (-lit 2 * tau * k) / k)
      (lit (1 / 16) * (lit 3 * exp (lit 4 * tau * k) * pw (sin (tau * k)) 2 - lit 2 * exp (lit 4 * tau * k) * sin (tau * k) * cos (tau * k) + exp (lit 4 * tau * k) * pw (cos (tau * k)) 2 - lit 3 * pw (sin (tau * k)) 2 - lit 2 * sin (tau * k) * cos (tau * k) - pw (cos (tau * k)) 2) * exp (-lit 2 * tau * k) / k)
      (lit (1 / 4) * tau * exp (tau * k) * sin (tau * k) - lit (1 / 4) * tau * exp (tau * k) * cos (tau * k) - lit (1 / 4) * (tau * k * sin (tau * k) + tau * k * cos (tau * k) - exp (lit 2 * tau * k) * cos (tau * k) + cos (tau * k)) * exp (-tau * k) / k)
      (lit (1 / 4) * (-exp (lit 2 * tau * k) * sin (tau * k) + exp (lit 2 * tau * k) * cos (tau * k) - sin (tau * k) - cos (tau * k)) * exp (-tau * k) / k)
  | 4 => row6
      (lit (1 / 4) * tau * exp (tau * k) * sin (tau * k) + lit (1 / 4) * tau * exp (tau * k) * cos (tau * k) + lit (1 / 4) * (-tau * k * sin (tau * k) + tau * k * cos (tau * k) - exp (lit 2 * tau * k) * sin (tau * k) - sin (tau * k)) * exp (-tau * k) / k)
      (lit (1 / 4) * tau * exp (tau * k) * sin (tau * k) - lit (1 / 4) * tau * exp (tau * k) * cos (tau * k) - lit (1 / 4) * (tau * k * sin (tau * k) + tau * k * cos (tau * k) - exp (lit 2 * tau * k) * cos (tau * k) + cos (tau * k)) * exp (-tau * k) / k)
      (-lit (1 / 4) * tau * exp (tau * k) * sin (tau * k) - lit (1 / 4) * tau * exp (tau * k) * cos (tau * k) - lit (1 / 4) * (-tau * k * sin (tau * k) + tau * k * cos (tau * k) - exp (lit 2 * tau * k) * sin (tau * k) - sin (tau * k)) * exp (-tau * k) / k)
      (lit (1 / 4) * tau * exp (tau * k) * sin (tau * k) - lit (1 / 4) * tau * exp (tau * k) * cos (tau * k) - lit (1 / 4) * (tau * k * sin (tau * k) + tau * k * cos (tau * k) - exp (lit 2 * tau * k) * cos (tau * k) + cos (tau * k)) * exp (-tau * k) / k)
      (rlit (1 / 3) * pw tau 3 * pw k 2)
      (lit 0)
  | 5 => row6
      (lit (1 / 4) * (exp (lit 2 * tau * k) * sin (tau * k) + exp (lit 2 * tau * k) * cos (tau * k) + sin (tau * k) - cos (tau * k)) * exp (-tau * k) / k)
      (-lit (1 / 4) * (-exp (lit 2 * tau * k) * sin (tau * k) + exp (lit 2 * tau * k) * cos (tau * k) - sin (tau * k) - cos (tau * k)) * exp (-tau * k) / k)
      (lit (1 / 4) * (exp (lit 2 * tau * k) * sin (tau * k) + exp (lit 2 * tau * k) * cos (tau * k) + sin (tau * k) - cos (tau * k)) * exp (-tau * k) / k)
      (lit (1 / 4) * (-exp (lit 2 * tau * k) * sin (tau * k) + exp (lit 2 * tau * k) * cos (tau * k) - sin (tau * k) - cos (tau * k)) * exp (-tau * k) / k)
      (lit 0)
      (tau)
  | _ => fun _ => lit 0

end Ex

namespace Rounded

open Nd

/-! ## The matrices of the bases -/

/-- Assignment of a matrix of size `n`, entry by entry. -/
def fillMat (n : ℕ) (f : ℕ → ℕ → Nd ℝ) : Nd Mat :=
  loop 0 n (fun i (m : Mat) => loop 0 n (fun j (m : Mat) => do
    let e ← f i j
    return setAt2 m i j e) m) Mat.zero

/-- Basis0101.cpp:183-184 (and the same lines of the other blocks): `k`. The literal `0.35355339059327379` is `√2/4` rounded. -/
noncomputable def kQ (u : ℝ × ℝ) (alpha : ℝ) : Nd ℝ := do
  let c ← near u (√2 / 4)
  let pa ← near u (alpha ^ (1 / 4 : ℝ))
  let c ← near u (c * pa)
  let d ← near u (1 - alpha)
  let q ← quot u 1 d
  let pq ← near u (q ^ (1 / 4 : ℝ))
  near u (c * pq)

/-- Basis0101.cpp: one of the blocks, and its addition to `m` (line 144 or 120). -/
noncomputable def addBlock (u : ℝ × ℝ) (q : ℕ → ℕ → Ex) (alpha tau : ℝ) (m : Mat) : Nd Mat := do
  let k ← kQ u alpha
  let b ← fillMat 6 fun i j => (q i j).run u tau k
  fillMat 6 fun i j => near u (m i j + b i j)

/-- BasisLegendre.cpp:23-27: the Gram matrix of the Legendre polynomials. -/
noncomputable def legendreL2 (u : ℝ × ℝ) (dim : ℕ) : Nd Mat :=
  fillMat dim fun i j => if i = j then quot u 2 (2 * (i : ℝ) + 1) else return 0

/-- BasisLegendre.cpp:18-34: the entry of `derivative_matrices_buffer_` with index `k`. -/
noncomputable def legendreBuffer (u : ℝ × ℝ) (dim k : ℕ) : Nd Mat :=
  if k = 0 then legendreL2 u dim
  else do
    let l2 ← legendreL2 u dim
    let dm ← legendreDmat u dim
    let d ← loop 1 k (fun _ a => matMul u dim a dm.tr) dm.tr
    let p ← matMul u dim d l2
    matMul u dim p d.tr

/-- BasisLagrange.cpp:39-57: the entry of `derivative_matrices_buffer_` with index `k`. `mem` is the content of the matrix of lines 46-49: the computed weights on
the diagonal, and what was in the memory elsewhere. -/
noncomputable def lagrangeBuffer (u : ℝ × ℝ) (n : ℕ) (x : Vec) (mem : LagMem) (k : ℕ) : Nd Mat :=
  if k = 0 then return Lagrange.l2Mat mem.w mem.junk
  else do
    let d ← dmat u n x k
    let p ← matMul u n d (Lagrange.l2Mat mem.w mem.junk)
    matMul u n p d.tr

/-- BasisLegendre.cpp:130, BasisLagrange.cpp:148: the scale of `add_derivative_matrix`. -/
noncomputable def sobScale (u : ℝ × ℝ) (tau : ℝ) (deg : ℕ) : Nd ℝ :=
  if 0 < deg then do
    let q ← quot u 2 tau
    near u (q ^ (2 * deg - 1))
  else near u (tau / 2)

/-- BasisLegendre.cpp:142-143, BasisLagrange.cpp:160-161: the scale of `add_derivative_matrix_deriv_wrt_tau`. -/
noncomputable def sobScaleDtau (u : ℝ × ℝ) (tau : ℝ) (deg : ℕ) : Nd ℝ :=
  if 0 < deg then do
    let q ← quot u 2 tau
    let p ← near u (q ^ (2 * deg))
    let c ← near u (-(1 / 2) * (2 * (deg : ℝ) - 1))
    near u (c * p)
  else return 1 / 2

/-- BasisLegendre.cpp:136 and 149, BasisLagrange.cpp:154 and 166: `_mat.noalias() += buffer * scale`. -/
def addScaled (u : ℝ × ℝ) (n : ℕ) (q : Mat) (sc : ℝ) (m : Mat) : Nd Mat :=
  fillMat n fun i j => do
    let p ← near u (q i j * sc)
    near u (m i j + p)

/-- `add_derivative_matrix` and its derivative of the two polynomial bases: nothing is added for orders above the dimension. -/
noncomputable def addPoly (u : ℝ × ℝ) (n deg : ℕ) (buffer : Nd Mat) (scale : Nd ℝ) (m : Mat) : Nd Mat :=
  if deg < n + 1 then do
    let q ← buffer
    let sc ← scale
    addScaled u n q sc m
  else return m

/-- `add_derivative_matrix` of each class: BasisLegendre.cpp:128-138, BasisLagrange.cpp:146-156, Basis0101.cpp:123-145. -/
noncomputable def addDerivMatrix (u : ℝ × ℝ) (b : Basis) (mem : LagMem) (tau : ℝ) (deg : ℕ) (m : Mat) : Nd Mat :=
  match b with
  | .legendre d => addPoly u d deg (legendreBuffer u d deg) (sobScale u tau deg) m
  | .lagrange x => addPoly u x.length deg (lagrangeBuffer u x.length (vecOf x) mem deg) (sobScale u tau deg) m
  | .b0101 a =>
    match deg with
    | 0 => addBlock u Ex.q0 a tau m
    | 1 => addBlock u Ex.qd1 a tau m
    | 2 => addBlock u Ex.qd2 a tau m
    | 3 => addBlock u Ex.qd3 a tau m
    | _ => lift (.error .invalidArgument)

/-- `add_derivative_matrix_deriv_wrt_tau` of each class: BasisLegendre.cpp:140-151, BasisLagrange.cpp:158-168, Basis0101.cpp:105-121. -/
noncomputable def addDerivMatrixDtau (u : ℝ × ℝ) (b : Basis) (mem : LagMem) (tau : ℝ) (deg : ℕ) (m : Mat) : Nd Mat :=
  match b with
  | .legendre d => addPoly u d deg (legendreBuffer u d deg) (sobScaleDtau u tau deg) m
  | .lagrange x => addPoly u x.length deg (lagrangeBuffer u x.length (vecOf x) mem deg) (sobScaleDtau u tau deg) m
  | .b0101 a =>
    match deg with
    | 1 => addBlock u Ex.qd1Dtau a tau m
    | 3 => addBlock u Ex.qd3Dtau a tau m
    | _ => lift (.error .invalidArgument)

/-! ## The cost -/

/-- Sobolev.cpp:79-84 and 51-55: for each weight the matrix of its order is added by `add` and the sum is multiplied by the weight. -/
def weighted (u : ℝ × ℝ) (n : ℕ) (add : ℕ → Mat → Nd Mat) (weights : List (ℕ × ℝ)) : Nd Mat :=
  weights.foldlM (fun m w => do
    let m ← add w.1 m
    fillMat n fun i j => near u (m i j * w.2)) Mat.zero

/-- `v1.transpose() * m * v2` (Sobolev.cpp:61, 90): the row vector first, the sums in any order. -/
def form (u : ℝ × ℝ) (n : ℕ) (m : Mat) (v1 v2 : Vec) : Nd ℝ := do
  let r ← loop 0 n (fun j (r : Vec) => do
    let e ← dot u ((List.range n).map v1) ((List.range n).map fun i => m i j)
    return setAt r j e) fun _ => 0
  dot u ((List.range n).map r) ((List.range n).map v2)

/-- Sobolev.cpp:86-90: one component of one interval is added to `r`. -/
def addForm (u : ℝ × ℝ) (b : Basis) (codim : ℕ) (m : Mat) (v1 v2 : List ℝ) (iv c : ℕ) (r : ℝ) : Nd ℝ := do
  let a1 ← lift (Sobolev.seg b codim v1 iv c)
  let a2 ← lift (Sobolev.seg b codim v2 iv c)
  let f ← form u b.dim m (vecOf a1) (vecOf a2)
  near u (r + f)

/-- Sobolev.cpp:68-95 `inner_prod`. -/
noncomputable def innerProd (u : ℝ × ℝ) (b : Basis) (mem : LagMem) (weights : List (ℕ × ℝ)) (n codim : ℕ) (tau v1 v2 : List ℝ) : Nd ℝ :=
  loop 0 n (fun iv r => do
    let t ← lift (rd tau iv)
    let m ← weighted u b.dim (addDerivMatrix u b mem t) weights
    loop 0 codim (fun c r => addForm u b codim m v1 v2 iv c r) r) 0

/-- Sobolev.cpp:19-26 `operator()`: new state and value. -/
noncomputable def cost (u : ℝ × ℝ) (lu : LU) (s : Sobolev) (tau : List ℝ) : Nd (Sobolev × ℝ) := do
  let p ← solveInterpolation u lu s.interp tau s.points
  let r ← innerProd u p.1.basis s.mem s.weights p.1.n p.1.codim tau p.2 p.2
  return ({ s with interp := p.1 }, r)

/-! ## The gradient -/

/-- BasisLegendre.cpp:82-87, BasisLagrange.cpp:114-119: `_buff *= -0.5 * _deg * (2.0 / _tau)`. -/
noncomputable def tauScale (u : ℝ × ℝ) (dim : ℕ) (tau : ℝ) (deg : ℕ) (v : Vec) : Nd Vec := do
  let c ← near u (-(1 / 2) * (deg : ℝ))
  let q ← quot u 2 tau
  let c ← near u (c * q)
  scale u dim c v

/-- Basis0101.cpp:84-103 `eval_derivative_wrt_tau_on_window`. -/
noncomputable def b0101Tau (u : ℝ × ℝ) (alpha s tau : ℝ) (deg : ℕ) : Nd Vec := do
  let r2 ← near u (√2)
  let k ← near u (r2 / 4)
  let pa ← near u (alpha ^ (1 / 4 : ℝ))
  let k ← near u (k * pa)
  let d ← near u (1 - alpha)
  let pd ← near u (d ^ (1 / 4 : ℝ))
  let k ← quot u k pd
  let v ← b0101Deriv u alpha s tau deg
  let v0 ← near u (v 0 - v 1)
  let v1 ← near u (v 0 + v 1)
  let v2 ← near u (-(v 2) - v 3)
  let v3 ← near u (v 2 - v 3)
  let c ← near u (s * k)
  scale u 6 c (B0101.vec6 v0 v1 v2 v3 (v 5) 0)

/-- `eval_derivative_wrt_tau_on_window` of each class. -/
noncomputable def evalDerivWrtTau (u : ℝ × ℝ) (b : Basis) (s tau : ℝ) (deg : ℕ) : Nd Vec :=
  match b with
  | .b0101 a => b0101Tau u a s tau deg
  | b => do
    let v ← evalDerivOnWindow u b s tau deg
    tauScale u b.dim tau deg v

/-- Interpolator.cpp:245-253 `fill_buffers_deriv_wrt_tau`. -/
noncomputable def fillBuffersTau (u : ℝ × ℝ) (b : Basis) (s tau : ℝ) : Nd (Vec × Mat) := do
  let p ← evalDerivWrtTau u b s tau 0
  let d ← loop 0 (b.dim - 2) (fun j (m : Mat) => do
    let v ← evalDerivWrtTau u b s tau (j + 1)
    return fun k j' => if j' = j then v k else m k j') Mat.zero
  return (p, d)

/-- Interpolator.cpp:270-337: the blocks that are written, given the buffers `l` at `-1` and `r` at `1`. -/
def derBlocks (D codim n idx : ℕ) (l r : Vec × Mat) (m : Mat) : Mat :=
  if idx = 0 then
    let m := Interp.posBlock D codim 0 0 l.1 m
    let i0 := codim
    let m := Interp.bndBlock D codim i0 0 l.2 m
    let i0 := i0 + codim * (D / 2 - 1)
    let m := Interp.posBlock D codim i0 0 r.1 m
    let i0 := i0 + codim
    if n = 1 then Interp.bndBlock D codim i0 0 r.2 m else Interp.contBlock D codim i0 0 false r.2 m
  else if 0 < idx ∧ idx < n - 1 then
    let i0 := 2 * codim + codim * (D / 2 - 1)
    let i0 := i0 + (codim * (D - 2) + 2 * codim) * (idx - 1)
    let j0 := idx * D * codim
    let m := Interp.contBlock D codim i0 j0 true l.2 m
    let i0 := i0 + codim * (D - 2)
    let m := Interp.posBlock D codim i0 j0 l.1 m
    let i0 := i0 + codim
    let m := Interp.posBlock D codim i0 j0 r.1 m
    let i0 := i0 + codim
    Interp.contBlock D codim i0 j0 false r.2 m
  else if idx = n - 1 then
    let i0 := (D / 2 + 1) * codim + D * codim * (idx - 1)
    let j0 := idx * D * codim
    let m := Interp.contBlock D codim i0 j0 true l.2 m
    let i0 := i0 + codim * (D - 2)
    let m := Interp.posBlock D codim i0 j0 l.1 m
    let i0 := i0 + codim
    let m := Interp.bndBlock D codim i0 j0 r.2 m
    let i0 := i0 + codim * (D / 2 - 1)
    Interp.posBlock D codim i0 j0 r.1 m
  else m

/-- Interpolator.cpp:269-338: the derivative of the matrix with respect to one interval length. -/
noncomputable def fillDer (u : ℝ × ℝ) (b : Basis) (codim n : ℕ) (tau : List ℝ) (idx : ℕ) (m : Mat) : Nd Mat := do
  let t ← lift (rd tau idx)
  let l ← fillBuffersTau u b (-1) t
  let r ← fillBuffersTau u b 1 t
  return derBlocks b.dim codim n idx l r m

/-- Interpolator.cpp:339 `mat * _coeff`: the sum of each row in any order. (Products with entries that are not stored in the sparse matrix are zero: adding them changes
nothing, here they are rounded.) -/
def matVec (u : ℝ × ℝ) (n : ℕ) (d : Mat) (y : Vec) : Nd Vec :=
  loop 0 n (fun i (r : Vec) => do
    let e ← dot u ((List.range n).map (d i)) ((List.range n).map y)
    return setAt r i e) fun _ => 0

/-- Interpolator.cpp:339-345: the rest of `get_coeff_derivative_wrt_tau`, after the derivative `d` of the matrix is computed. -/
noncomputable def solveDerivative (u : ℝ × ℝ) (lu : LU) (s : Interp) (y tau : List ℝ) (idx : ℕ) (d : Mat) : Nd (Interp × Vec) :=
  if y.length ≠ s.size then lift (.error .ub)
  else do
    let rhs ← matVec u s.size d (vecOf y)
    let m ← fillMatrix u s.basis s.codim s.n tau s.mat
    if lu.succeeds s.size m = true then
      return ({ s with mat := m, ders := setAt s.ders idx d, coef := fun i => - lu.solve s.size m rhs i }, fun i => - lu.solve s.size m rhs i)
    else lift (.error .assertFail)

open Classical in
/-- Interpolator.cpp:255-345 `get_coeff_derivative_wrt_tau`. -/
noncomputable def coeffDerivative (u : ℝ × ℝ) (lu : LU) (s : Interp) (y tau : List ℝ) (idx : ℕ) : Nd (Interp × Vec) :=
  if ∃ x ∈ tau, x < 1 / 10 ^ 6 then lift (.error .invalidArgument)
  else if tau.length ≠ s.n ∨ s.n ≤ idx then return (s, s.coef)
  else do
    let d ← fillDer u s.basis s.codim s.n tau idx (s.ders idx)
    solveDerivative u lu s y tau idx d

/-- Sobolev.cpp:64: `_buff[interval_coor] = result`. -/
def store (buff : List ℝ) (idx : ℕ) (r : ℝ) : Res (List ℝ) := if idx < buff.length then .ok (buff.set idx r) else .error .ub

/-- Sobolev.cpp:48-63: the entry of the gradient, from the coefficients `y` and their derivatives `dy`. -/
noncomputable def gradEntry (u : ℝ × ℝ) (b : Basis) (mem : LagMem) (weights : List (ℕ × ℝ)) (n codim : ℕ) (tau y dy : List ℝ) (idx : ℕ) : Nd ℝ := do
  let t ← lift (rd tau idx)
  let m ← weighted u b.dim (addDerivMatrixDtau u b mem t) weights
  let r ← loop 0 codim (fun c r => addForm u b codim m y y idx c r) 0
  let p ← innerProd u b mem weights n codim tau y dy
  let p ← near u (2 * p)
  near u (r + p)

/-- Sobolev.cpp:42-65: one pass of the loop of `deriv_wrt_interval_len`; the state is the interpolator and the buffer of the result. -/
noncomputable def gradStep (u : ℝ × ℝ) (lu : LU) (s : Sobolev) (tau y : List ℝ) (idx : ℕ) (st : Interp × List ℝ) : Nd (Interp × List ℝ) := do
  let p ← coeffDerivative u lu st.1 y tau idx
  let r ← gradEntry u p.1.basis s.mem s.weights p.1.n p.1.codim tau y ((List.range p.1.size).map p.2) idx
  let l ← lift (store st.2 idx r)
  return (p.1, l)

/-- Sobolev.cpp:28-66 `deriv_wrt_interval_len`: new state and content of the buffer. -/
noncomputable def grad (u : ℝ × ℝ) (lu : LU) (s : Sobolev) (tau buff : List ℝ) : Nd (Sobolev × List ℝ) := do
  let p ← solveInterpolation u lu s.interp tau s.points
  let st ← loop 0 p.1.n (gradStep u lu s tau p.2) (p.1, buff)
  return ({ s with interp := st.1 }, st.2)

end Rounded

end GSplines
