import Verif.Model.Mat
import Mathlib.Analysis.SpecialFunctions.Trigonometric.Basic

/-!
# src/Collocation/GaussLobattoPointsWeights.cpp
-/

namespace GSplines.GLL

/-- GaussLobattoPointsWeights.cpp:18-43, the variables of the loop of `q_and_evaluation`. -/
structure QSt where
  lm2 : ℝ
  lm1 : ℝ
  pm2 : ℝ
  pm1 : ℝ
  ln : ℝ

/-- GaussLobattoPointsWeights.cpp:33-42, the body of the loop. -/
noncomputable def qStep (t : ℝ) (k : ℕ) (st : QSt) : QSt :=
  let ln := (2 * (k : ℝ) - 1) / k * t * st.lm1 - ((k : ℝ) - 1) / k * st.lm2
  let pn := st.pm2 + (2 * (k : ℝ) - 1) * st.lm1
  ⟨st.lm1, ln, st.pm1, pn, ln⟩

/-- GaussLobattoPointsWeights.cpp:10-55 `q_and_evaluation`. For `_n < 2` the variable `l_n` is read although it was never assigned. -/
noncomputable def qAndEval (t : ℝ) (n : ℕ) : Res (ℝ × ℝ × ℝ) :=
  if n < 2 then .error .ub
  else
    let st := forLoop 2 (n + 1) (qStep t) ⟨1, t, 0, 1, 0⟩
    let k : ℝ := ((n + 1 : ℕ) : ℝ)
    let lp := (2 * k - 1) / k * t * st.ln - (k - 1) / k * st.lm2
    let pp := st.pm2 + (2 * k - 1) * st.ln
    .ok (lp - st.lm2, pp - st.pm2, st.ln)

/-- GaussLobattoPointsWeights.cpp:93-100: Newton's method, with the number of iterations that are left. -/
noncomputable def newton (N : ℕ) : ℕ → ℝ → Res ℝ
  | 0, x => .ok x
  | k + 1, x => do
    let r ← qAndEval x N
    if r.2.1 = 0 then .error .notFinite
    else
      let delta := -r.1 / r.2.1
      let x := x + delta
      if |delta| < tol9 * |x| then return x else newton N k x

/-- GaussLobattoPointsWeights.cpp:87-91: the first guess. -/
noncomputable def guess (N j : ℕ) : ℝ :=
  -Real.cos (((j : ℝ) + 1 / 4) * Real.pi / N - 3 / (8 * N * Real.pi) * (1 / ((j : ℝ) + 1 / 4)))

/-- GaussLobattoPointsWeights.cpp:104-107 and 112-115: the weight of a point. -/
noncomputable def weight (N : ℕ) (x : ℝ) : Res ℝ := do
  let r ← qAndEval x N
  if r.2.2 = 0 then .error .notFinite else return 2 / ((N : ℝ) * ((N : ℝ) + 1) * r.2.2 ^ 2)

/-- GaussLobattoPointsWeights.cpp:85-110: one pass of the loop. -/
noncomputable def pwStep (N j : ℕ) (st : Vec × Vec) : Res (Vec × Vec) := do
  let x ← newton N 100 (guess N j)
  let p := setAt (setAt st.1 j x) (N - j) (-x)
  let w ← weight N x
  return (p, setAt (setAt st.2 j w) (N - j) w)

/-- GaussLobattoPointsWeights.cpp:57-121 `legendre_gauss_lobatto_points_and_weights`. `jp` and `jw` are the contents of the freshly allocated vectors.
For `_n = 0` the index `_n - 1` wraps around, for `_n = 1` `q_and_evaluation` reads a variable that was never assigned. The bound
`trunc((book_n + 1) / 2) - 1` of the loop is `_n / 2 - 1`. -/
noncomputable def pointsWeights (n : ℕ) (jp jw : Vec) : Res (Vec × Vec) :=
  if n < 2 then .error .ub
  else if n = 2 then .ok (setAt (setAt jp 0 (-1)) 1 1, setAt (setAt jw 0 1) 1 1)
  else do
    let N := n - 1
    let w0 : ℝ := 2 / ((N : ℝ) * ((N : ℝ) + 1))
    let st ← forLoopM 1 (n / 2) (pwStep N) (setAt (setAt jp 0 (-1)) N 1, setAt (setAt jw 0 w0) N w0)
    if N % 2 = 0 then
      let w ← weight N 0
      return (setAt st.1 (N / 2) 0, setAt st.2 (N / 2) w)
    else return st

/-- A vector cut into consecutive segments of length `m`, segment `iv` being assigned `f iv`: the loops
GaussLobattoPointsWeights.cpp:150-156, 174-177, 191-197, 209-212. -/
def segments (m n : ℕ) (f : ℕ → Vec) (r : Vec) : Vec :=
  forLoop 0 n (fun iv r => forLoop 0 m (fun k r => setAt r (iv * m + k) (f iv k)) r) r

/-- GaussLobattoPointsWeights.cpp:136-158 `legendre_gauss_lobatto_points(domain, nglp, n_intervals)`, from the reference points. -/
noncomputable def gridPoints (p : Vec) (dom : ℝ × ℝ) (m n : ℕ) (junk : Vec) : Vec :=
  let len := (dom.2 - dom.1) / n
  segments m n (fun iv k => (p k + 1) * len / 2 + (dom.1 + iv * len)) junk

/-- GaussLobattoPointsWeights.cpp:160-179 `legendre_gauss_lobatto_weights(domain, nglp, n_intervals)`. -/
noncomputable def gridWeights (w : Vec) (dom : ℝ × ℝ) (m n : ℕ) (junk : Vec) : Vec :=
  let len := (dom.2 - dom.1) / n
  segments m n (fun _ k => w k * len / 2) junk

/-- GaussLobattoPointsWeights.cpp:181-199 `legendre_gauss_lobatto_points(left_bound, nglp, intervals)`. -/
noncomputable def varPoints (p : Vec) (left : ℝ) (m n : ℕ) (tau : Vec) (junk : Vec) : Vec :=
  segments m n (fun iv k => (p k + 1) * tau iv / 2 + (left + iv * tau iv)) junk

/-- GaussLobattoPointsWeights.cpp:201-214 `legendre_gauss_lobatto_weights(nglp, intervals)`. -/
noncomputable def varWeights (w : Vec) (m n : ℕ) (tau : Vec) (junk : Vec) : Vec :=
  segments m n (fun iv k => w k * tau iv / 2) junk

end GSplines.GLL
