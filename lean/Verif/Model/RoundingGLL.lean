import Verif.Model.Rounding
import Verif.Model.GLL

/-!
# The Gauss-Lobatto points and weights with rounding errors: src/Collocation/GaussLobattoPointsWeights.cpp:8-121

As in `Verif/Model/Rounding.lean` every operation on doubles may return any number within `u.1` times the size of the exact result plus `u.2`; integers, the
literals and comparisons are exact. `M_PI` is a rounded `π`, `std::cos` and `std::pow` are rounded.
-/

namespace GSplines.Rounded

open Nd

/-- GaussLobattoPointsWeights.cpp:18-22, the variables of the loop of `q_and_evaluation`: `l_n_minus_2`, `l_n_minus_1`, `lprime_n_minus_2`, `lprime_n_minus_1`
and `l_n`. -/
abbrev QVars := ℝ × ℝ × ℝ × ℝ × ℝ

/-- GaussLobattoPointsWeights.cpp:33-34 and 44-45: `(2 k - 1) / k * t * a - (k - 1) / k * b`. -/
noncomputable def bonnet (u : ℝ × ℝ) (t : ℝ) (k : ℕ) (a b : ℝ) : Nd ℝ := do
  let c ← quot u (2 * (k : ℝ) - 1) k
  let c ← near u (c * t)
  let c ← near u (c * a)
  let d ← quot u ((k : ℝ) - 1) k
  let d ← near u (d * b)
  near u (c - d)

/-- GaussLobattoPointsWeights.cpp:36 and 47: `b + (2 k - 1) * a`. -/
noncomputable def slope (u : ℝ × ℝ) (k : ℕ) (a b : ℝ) : Nd ℝ := do
  let c ← near u ((2 * (k : ℝ) - 1) * a)
  near u (b + c)

/-- GaussLobattoPointsWeights.cpp:33-42, the body of the loop. -/
noncomputable def qStep (u : ℝ × ℝ) (t : ℝ) (k : ℕ) (st : QVars) : Nd QVars := do
  let ln ← bonnet u t k st.2.1 st.1
  let pn ← slope u k st.2.1 st.2.2.1
  return (st.2.1, ln, st.2.2.2.1, pn, ln)

/-- GaussLobattoPointsWeights.cpp:8-55 `q_and_evaluation`. For `_n < 2` the variable `l_n` is read although it was never assigned. -/
noncomputable def qAndEval (u : ℝ × ℝ) (t : ℝ) (n : ℕ) : Nd (ℝ × ℝ × ℝ) :=
  if n < 2 then lift (.error .ub)
  else do
    let st ← loop 2 (n + 1) (qStep u t) ((1, t, 0, 1, 0) : QVars)
    let lp ← bonnet u t (n + 1) st.2.2.2.2 st.1
    let pp ← slope u (n + 1) st.2.2.2.2 st.2.2.1
    let q ← near u (lp - st.1)
    let qp ← near u (pp - st.2.2.1)
    return (q, qp, st.2.2.2.2)

/-- GaussLobattoPointsWeights.cpp:93-100: Newton's method, with the number of iterations that are left. -/
noncomputable def newton (u : ℝ × ℝ) (N : ℕ) : ℕ → ℝ → Nd ℝ
  | 0, x => return x
  | k + 1, x => do
    let r ← qAndEval u x N
    let delta ← quot u (-r.1) r.2.1
    let y ← near u (x + delta)
    let bound ← near u (tol9 * |y|)
    if |delta| < bound then return y else newton u N k y

/-- GaussLobattoPointsWeights.cpp:87-91: the first guess. -/
noncomputable def guess (u : ℝ × ℝ) (N j : ℕ) : Nd ℝ := do
  let pi ← near u Real.pi
  let a ← near u ((j : ℝ) + 1 / 4)
  let b ← near u (a * pi)
  let b ← quot u b N
  let c ← near u (8 * (N : ℝ) * pi)
  let c ← quot u 3 c
  let d ← quot u 1 a
  let e ← near u (c * d)
  let arg ← near u (b - e)
  let r ← near u (Real.cos arg)
  return -r

/-- GaussLobattoPointsWeights.cpp:104-107 and 112-115: the weight of a point. -/
noncomputable def weight (u : ℝ × ℝ) (N : ℕ) (x : ℝ) : Nd ℝ := do
  let r ← qAndEval u x N
  let s ← near u (r.2.2 ^ 2)
  let d ← near u ((N : ℝ) * ((N : ℝ) + 1) * s)
  quot u 2 d

/-- GaussLobattoPointsWeights.cpp:87-107: a point of the left half and its weight. -/
noncomputable def node (u : ℝ × ℝ) (N j : ℕ) : Nd (ℝ × ℝ) := do
  let x0 ← guess u N j
  let x ← newton u N 100 x0
  let w ← weight u N x
  return (x, w)

/-- GaussLobattoPointsWeights.cpp:85-110: one pass of the loop. -/
noncomputable def pwStep (u : ℝ × ℝ) (N j : ℕ) (st : Vec × Vec) : Nd (Vec × Vec) := do
  let q ← node u N j
  return (setAt (setAt st.1 j q.1) (N - j) (-q.1), setAt (setAt st.2 j q.2) (N - j) q.2)

/-- GaussLobattoPointsWeights.cpp:111-116: the point in the middle. -/
noncomputable def middleNode (u : ℝ × ℝ) (N : ℕ) (st : Vec × Vec) : Nd (Vec × Vec) :=
  if N % 2 = 0 then do
    let w ← weight u N 0
    return (setAt st.1 (N / 2) 0, setAt st.2 (N / 2) w)
  else return st

/-- GaussLobattoPointsWeights.cpp:57-121 `legendre_gauss_lobatto_points_and_weights`. `jp` and `jw` are the contents of the freshly allocated vectors. -/
noncomputable def pointsWeights (u : ℝ × ℝ) (n : ℕ) (jp jw : Vec) : Nd (Vec × Vec) :=
  if n < 2 then lift (.error .ub)
  else if n = 2 then return (setAt (setAt jp 0 (-1)) 1 1, setAt (setAt jw 0 1) 1 1)
  else do
    let N := n - 1
    let w0 ← quot u 2 ((N : ℝ) * ((N : ℝ) + 1))
    let st ← loop 1 (n / 2) (pwStep u N) (setAt (setAt jp 0 (-1)) N 1, setAt (setAt jw 0 w0) N w0)
    middleNode u N st

end GSplines.Rounded
