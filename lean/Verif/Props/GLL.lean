import Verif.Proofs.GLL
import Mathlib.Analysis.SpecialFunctions.Trigonometric.Bounds
import Mathlib.Analysis.Real.Pi.Bounds
import Mathlib.Tactic.NormNum
import Mathlib.Tactic.IntervalCases

/-!
# Properties of the Gauss-Lobatto points and weights (C44 - C46)
-/

namespace GSplines.Props

open GSplines Spec GLL Finset Polynomial

/-! ## C44 -/

/-- **C44.** `q_and_evaluation(t, n)` returns `q(t)`, `q'(t)` and `P_n(t)`, where `q = P_{n+1} - P_{n-1}` and `P_k` are the Legendre polynomials. -/
theorem C44_q_and_evaluation (t : ℝ) (n : ℕ) (hn : 2 ≤ n) :
    qAndEval t n = .ok ((legendre (n + 1) - legendre (n - 1)).eval t, (derivative (legendre (n + 1) - legendre (n - 1))).eval t, (legendre n).eval t) := by
  rw [qAndEval_spec t n hn]
  obtain ⟨m, rfl⟩ : ∃ m, n = m + 1 := ⟨n - 1, by omega⟩
  have := deriv_diff_eval m t
  simp only [derivative_sub, eval_sub, show m + 1 - 1 = m by omega, Except.ok.injEq, Prod.mk.injEq, true_and, and_true]
  rw [show m + 1 + 1 = m + 2 by omega, this]
  push_cast
  ring

/-- **C44.** The derivative is `(2 n + 1) P_n`. -/
theorem C44_q_derivative (t : ℝ) (n : ℕ) (hn : 2 ≤ n) : ∃ q, qAndEval t n = .ok (q, (2 * (n : ℝ) + 1) * (legendre n).eval t, (legendre n).eval t) :=
  ⟨_, qAndEval_spec t n hn⟩

/-- For `n < 2` the function reads a variable that it never assigned. -/
theorem C44_small (t : ℝ) (n : ℕ) (hn : n < 2) : qAndEval t n = .error .ub := if_pos hn

/-- `q(t) = (5 t³ - 5 t) / 2`, `P_2(1/2) = -1/8`. -/
example : qAndEval (1 / 2) 2 = .ok (-15 / 16, -5 / 8, -1 / 8) := by
  unfold qAndEval
  simp only [forLoop, List.range', List.foldl, qStep]
  norm_num

/-! ## C45 -/

/-- **C45.** The points run from `-1` to `1` and are antisymmetric; the weights are symmetric, positive and equal to `2 / (N (N+1) P_N(x)²)`, `N = n - 1`,
at each returned point `x`. -/
theorem C45_points_weights (n : ℕ) (jp jw p w : Vec) (h : pointsWeights n jp jw = .ok (p, w)) :
    p 0 = -1 ∧ p (n - 1) = 1 ∧ (∀ i < n, p (n - 1 - i) = - p i) ∧ (∀ i < n, w (n - 1 - i) = w i) ∧ (∀ i < n, 0 < w i) ∧
      ∀ i < n, w i = 2 / ((((n - 1 : ℕ) : ℝ)) * (((n - 1 : ℕ) : ℝ) + 1) * (legendre (n - 1)).eval (p i) ^ 2) := by
  obtain ⟨hn, h0, hg⟩ := pointsWeights_spec h
  have hl := (hg 0 (by omega)).anti
  rw [Nat.sub_zero, h0, neg_neg] at hl
  have hN : (0 : ℝ) < ((n - 1 : ℕ) : ℝ) := by exact_mod_cast (by omega : 0 < n - 1)
  refine ⟨h0, hl, fun i hi => (hg i hi).anti, fun i hi => (hg i hi).symm, fun i hi => ?_, fun i hi => (hg i hi).val⟩
  rw [(hg i hi).val]
  have := (hg i hi).ne
  positivity

/-- **C45.** Every entry is assigned: the result does not depend on what the memory contained. -/
theorem C45_initialised (n : ℕ) (jp jw jp' jw' : Vec) :
    (∃ e, pointsWeights n jp jw = .error e ∧ pointsWeights n jp' jw' = .error e) ∨
      ∃ r r', pointsWeights n jp jw = .ok r ∧ pointsWeights n jp' jw' = .ok r' ∧ ∀ i < n, r.1 i = r'.1 i ∧ r.2 i = r'.2 i :=
  pointsWeights_junk n jp jw jp' jw'

/-- **C45.** A point that Newton's method returns after the test of convergence is the last step away from the point before it, and the step is the quotient
`-q / q'` there; if the last step is zero, the point is a zero of `q`. -/
theorem C45_newton (N : ℕ) (hN : 2 ≤ N) (k : ℕ) (x0 x : ℝ) (h : newton N k x0 = .ok x) :
    (∃ y, (legendre N).eval y ≠ 0 ∧ x = y - (legendre (N + 1) - legendre (N - 1)).eval y / ((2 * (N : ℝ) + 1) * (legendre N).eval y) ∧
        |x - y| < tol9 * |x|) ∨
      ∃ f : ℕ → ℝ, f 0 = x0 ∧ f k = x ∧ ∀ i < k, (legendre N).eval (f i) ≠ 0 ∧
        f (i + 1) = f i - (legendre (N + 1) - legendre (N - 1)).eval (f i) / ((2 * (N : ℝ) + 1) * (legendre N).eval (f i)) := by
  have h2N : (2 * (N : ℝ) + 1) ≠ 0 := by positivity
  induction k generalizing x0 with
  | zero =>
    unfold newton at h
    cases h
    exact .inr ⟨fun _ => x, rfl, rfl, fun i hi => absurd hi (by omega)⟩
  | succ k ih =>
    unfold newton at h
    rw [qAndEval_spec x0 N hN, GLL.ok_bind] at h
    dsimp only at h
    by_cases h0 : (2 * (N : ℝ) + 1) * (legendre N).eval x0 = 0
    · rw [if_pos h0] at h; cases h
    rw [if_neg h0] at h
    have hP : (legendre N).eval x0 ≠ 0 := right_ne_zero_of_mul h0
    set d := -(legendre (N + 1) - legendre (N - 1)).eval x0 / ((2 * (N : ℝ) + 1) * (legendre N).eval x0) with hd
    by_cases ht : |d| < tol9 * |x0 + d|
    · rw [if_pos ht] at h
      cases h
      exact .inl ⟨x0, hP, by rw [hd]; ring, by rw [add_sub_cancel_left]; exact ht⟩
    · rw [if_neg ht] at h
      rcases ih _ h with h1 | ⟨f, f0, fk, hf⟩
      · exact .inl h1
      · refine .inr ⟨fun i => if i = 0 then x0 else f (i - 1), rfl, by simp [fk], fun i hi => ?_⟩
        rcases Nat.eq_zero_or_pos i with rfl | hi0
        · simp only [if_pos, zero_add, one_ne_zero, if_false, Nat.sub_self]
          refine ⟨hP, ?_⟩
          rw [f0, hd]; ring
        · obtain ⟨j, rfl⟩ : ∃ j, i = j + 1 := ⟨i - 1, by omega⟩
          have := hf j (by omega)
          simpa using this

/-- Three points: Simpson's rule. -/
theorem three_points (jp jw : Vec) : ∃ p w, pointsWeights 3 jp jw = .ok (p, w) ∧ p 0 = -1 ∧ p 1 = 0 ∧ p 2 = 1 ∧ w 0 = 1 / 3 ∧ w 1 = 4 / 3 ∧ w 2 = 1 / 3 := by
  have h2 : (legendre 2).eval 0 = -1 / 2 := by
    have := LegendrePoly.bonnet_eval 0 0
    simp [LegendrePoly.legendre_zero, LegendrePoly.legendre_one] at this
    linarith
  unfold pointsWeights
  rw [if_neg (by norm_num), if_neg (by norm_num)]
  dsimp only
  rw [show forLoopM 1 (3 / 2) (pwStep (3 - 1)) (setAt (setAt jp 0 (-1)) (3 - 1) 1, setAt (setAt jw 0 (2 / (((3 - 1 : ℕ) : ℝ) * (((3 - 1 : ℕ) : ℝ) + 1)))) (3 - 1)
      (2 / (((3 - 1 : ℕ) : ℝ) * (((3 - 1 : ℕ) : ℝ) + 1)))) = .ok _ from rfl, GLL.ok_bind, if_pos (by norm_num), weight_ok (by norm_num) (by rw [h2]; norm_num), GLL.ok_bind]
  refine ⟨_, _, rfl, ?_⟩
  simp only [show 3 - 1 = 2 by norm_num, h2]
  simp [setAt]
  norm_num

/-- Two points: the trapezoidal rule. -/
theorem two_points (jp jw : Vec) : ∃ p w, pointsWeights 2 jp jw = .ok (p, w) ∧ p 0 = -1 ∧ p 1 = 1 ∧ w 0 = 1 ∧ w 1 = 1 :=
  ⟨_, _, rfl, by simp [setAt]⟩

/-- Four points: Newton's method does not leave `[-13/20, -1/6]`, where `P_3` does not vanish. -/
theorem newton_three (k : ℕ) (x : ℝ) (h1 : -13 / 20 ≤ x) (h2 : x ≤ -1 / 6) : ∃ y, newton 3 k x = .ok y ∧ -13 / 20 ≤ y ∧ y ≤ -1 / 6 := by
  induction k generalizing x with
  | zero => exact ⟨x, rfl, h1, h2⟩
  | succ k ih =>
    have e2 : (legendre 2).eval x = (3 * x ^ 2 - 1) / 2 := by
      have := LegendrePoly.bonnet_eval 0 x
      simp [LegendrePoly.legendre_zero, LegendrePoly.legendre_one] at this
      linarith
    have e3 : (legendre 3).eval x = (5 * x ^ 3 - 3 * x) / 2 := by
      have := LegendrePoly.bonnet_eval 1 x
      simp [LegendrePoly.legendre_one] at this
      rw [e2] at this
      linarith
    have e4 : (legendre 4).eval x = (35 * x ^ 4 - 30 * x ^ 2 + 3) / 8 := by
      have := LegendrePoly.bonnet_eval 2 x
      simp at this
      rw [e2, e3] at this
      linarith
    have hx : x ^ 2 ≤ 169 / 400 := by nlinarith
    have hx' : 1 / 36 ≤ x ^ 2 := by nlinarith
    have hpos : 0 < 5 * x ^ 3 - 3 * x := by nlinarith
    unfold newton
    rw [qAndEval_spec x 3 (by norm_num), GLL.ok_bind]
    dsimp only
    simp only [eval_sub, show 3 + 1 = 4 by norm_num, show 3 - 1 = 2 by norm_num, e2, e3, e4]
    rw [if_neg (by push_cast; nlinarith)]
    set d := -((35 * x ^ 4 - 30 * x ^ 2 + 3) / 8 - (3 * x ^ 2 - 1) / 2) / ((2 * ((3 : ℕ) : ℝ) + 1) * ((5 * x ^ 3 - 3 * x) / 2)) with hd
    have hd' : d = -(5 * x ^ 4 - 6 * x ^ 2 + 1) / (4 * (5 * x ^ 3 - 3 * x)) := by
      rw [hd]; push_cast; field_simp; ring
    have hE : 0 < 4 * (5 * x ^ 3 - 3 * x) := by linarith
    have b1 : -13 / 20 ≤ x + d := by
      have : -13 / 20 - x ≤ d := by
        rw [hd', le_div_iff₀ hE]
        nlinarith [mul_nonneg (sub_nonneg.mpr h1) (sub_nonneg.mpr h2), sq_nonneg (x ^ 2), sq_nonneg x, sq_nonneg (x + 9 / 20), sq_nonneg (x * (x + 9 / 20)),
          mul_nonneg (mul_nonneg (sub_nonneg.mpr h1) (sub_nonneg.mpr h2)) (sq_nonneg x)]
      linarith
    have b2 : x + d ≤ -1 / 6 := by
      have : d ≤ -1 / 6 - x := by
        rw [hd', div_le_iff₀ hE]
        nlinarith [mul_nonneg (sub_nonneg.mpr h1) (sub_nonneg.mpr h2), sq_nonneg (x ^ 2), sq_nonneg x, sq_nonneg (x + 9 / 20), sq_nonneg (x * (x + 9 / 20)),
          mul_nonneg (mul_nonneg (sub_nonneg.mpr h1) (sub_nonneg.mpr h2)) (sq_nonneg x)]
      linarith
    split_ifs
    · exact ⟨_, rfl, b1, b2⟩
    · exact ih _ b1 b2

/-- The hypotheses of C45 are met with four points, where Newton's method is used. -/
example (jp jw : Vec) : ∃ p w, pointsWeights 4 jp jw = .ok (p, w) := by
  have hpi := Real.pi_gt_three
  have hpi4 := Real.pi_le_four
  have harg : (((1 : ℕ) : ℝ) + 1 / 4) * Real.pi / ((3 : ℕ) : ℝ) - 3 / (8 * ((3 : ℕ) : ℝ) * Real.pi) * (1 / (((1 : ℕ) : ℝ) + 1 / 4)) = 5 * Real.pi / 12 - 1 / (10 * Real.pi) := by
    push_cast; field_simp; ring
  have hsmall : 1 / (10 * Real.pi) ≤ Real.pi / 12 := by
    rw [div_le_div_iff₀ (by positivity) (by norm_num)]; nlinarith
  have hsmall0 : 0 < 1 / (10 * Real.pi) := by positivity
  have g1 : -13 / 20 ≤ guess 3 1 := by
    unfold guess
    rw [harg]
    have : Real.cos (5 * Real.pi / 12 - 1 / (10 * Real.pi)) ≤ Real.cos (Real.pi / 3) :=
      Real.cos_le_cos_of_nonneg_of_le_pi (by positivity) (by linarith) (by linarith)
    rw [Real.cos_pi_div_three] at this
    linarith
  have g2 : guess 3 1 ≤ -1 / 6 := by
    unfold guess
    rw [harg]
    have h1 : Real.cos (5 * Real.pi / 12) ≤ Real.cos (5 * Real.pi / 12 - 1 / (10 * Real.pi)) :=
      Real.cos_le_cos_of_nonneg_of_le_pi (by linarith) (by linarith) (by linarith)
    have h2 : Real.cos (5 * Real.pi / 12) = Real.sin (Real.pi / 12) := by
      rw [← Real.cos_pi_div_two_sub]; congr 1; ring
    have h3 := Real.mul_le_sin (x := Real.pi / 12) (by positivity) (by linarith)
    have h4 : 2 / Real.pi * (Real.pi / 12) = 1 / 6 := by field_simp; norm_num
    linarith
  obtain ⟨y, hy, y1, y2⟩ := newton_three 100 _ g1 g2
  have hP : (legendre 3).eval y ≠ 0 := by
    have e2 : (legendre 2).eval y = (3 * y ^ 2 - 1) / 2 := by
      have := LegendrePoly.bonnet_eval 0 y
      simp [LegendrePoly.legendre_zero, LegendrePoly.legendre_one] at this
      linarith
    have e3 : (legendre 3).eval y = (5 * y ^ 3 - 3 * y) / 2 := by
      have := LegendrePoly.bonnet_eval 1 y
      simp [LegendrePoly.legendre_one] at this
      rw [e2] at this
      linarith
    have hx : y ^ 2 ≤ 169 / 400 := by nlinarith
    have hpos : 0 < 5 * y ^ 3 - 3 * y := by nlinarith
    rw [e3]; linarith
  unfold pointsWeights
  rw [if_neg (by norm_num), if_neg (by norm_num)]
  dsimp only
  have hs : ∀ st, pwStep 3 1 st = .ok (setAt (setAt st.1 1 y) (3 - 1) (-y), setAt (setAt st.2 1 (2 / (((3 : ℕ) : ℝ) * (((3 : ℕ) : ℝ) + 1) * (legendre 3).eval y ^ 2))) (3 - 1)
      (2 / (((3 : ℕ) : ℝ) * (((3 : ℕ) : ℝ) + 1) * (legendre 3).eval y ^ 2))) := by
    intro st
    unfold pwStep
    rw [hy, GLL.ok_bind, weight_ok (by norm_num) hP, GLL.ok_bind]
    rfl
  rw [show ∀ st, forLoopM 1 (4 / 2) (pwStep (4 - 1)) st = pwStep 3 1 st from fun st => by
    simp only [forLoopM, show 4 / 2 - 1 = 1 by norm_num, List.range'_one, List.foldlM_cons, List.foldlM_nil, show 4 - 1 = 3 by norm_num]
    exact bind_pure _, hs, GLL.ok_bind, if_neg (by norm_num)]
  exact ⟨_, _, rfl⟩

/-! ## C46 -/

/-- **C46.** Uniform grid: in every interval the points are the affine images of the reference points; the first one is the left end, the last one the right end. -/
theorem C46_uniform_points (m : ℕ) (jp jw p w junk : Vec) (h : pointsWeights m jp jw = .ok (p, w)) (dom : ℝ × ℝ) (n iv : ℕ) (hiv : iv < n) :
    (∀ k < m, gridPoints p dom m n junk (iv * m + k) = dom.1 + (dom.2 - dom.1) * iv / n + (p k + 1) / 2 * ((dom.2 - dom.1) / n)) ∧
    gridPoints p dom m n junk (iv * m) = dom.1 + (dom.2 - dom.1) * iv / n ∧
    gridPoints p dom m n junk (iv * m + (m - 1)) = dom.1 + (dom.2 - dom.1) * (iv + 1) / n := by
  obtain ⟨hm, -, -⟩ := pointsWeights_spec h
  obtain ⟨h0, h1, -⟩ := C45_points_weights m jp jw p w h
  have hn : (n : ℝ) ≠ 0 := by exact_mod_cast (by omega : n ≠ 0)
  have key : ∀ k < m, gridPoints p dom m n junk (iv * m + k) = dom.1 + (dom.2 - dom.1) * iv / n + (p k + 1) / 2 * ((dom.2 - dom.1) / n) := by
    intro k hk
    unfold gridPoints
    rw [segments_spec _ _ _ _ hiv hk]
    field_simp
    ring
  refine ⟨key, ?_, ?_⟩
  · have := key 0 (by omega)
    rw [h0] at this
    rw [add_zero] at this
    rw [this]; ring
  · rw [key (m - 1) (by omega), h1]; field_simp; ring

theorem sum_segments (m n : ℕ) (f : ℕ → Vec) (r : Vec) : ∑ i ∈ range (n * m), segments m n f r i = ∑ iv ∈ range n, ∑ k ∈ range m, f iv k := by
  have gen : ∀ (g : Vec) (n : ℕ), ∑ i ∈ range (n * m), g i = ∑ iv ∈ range n, ∑ k ∈ range m, g (iv * m + k) := by
    intro g n
    induction n with
    | zero => simp
    | succ n ih => rw [Nat.succ_mul, sum_range_add, ih, sum_range_succ]
  rw [gen]
  exact sum_congr rfl fun iv hiv => sum_congr rfl fun k hk => segments_spec _ _ _ _ (mem_range.mp hiv) (mem_range.mp hk)

/-- **C46.** Uniform grid: the weights sum to the length of the domain if the reference weights sum to two. -/
theorem C46_uniform_weights (m n : ℕ) (hn : 0 < n) (w junk : Vec) (dom : ℝ × ℝ) (hw : ∑ k ∈ range m, w k = 2) :
    ∑ i ∈ range (n * m), gridWeights w dom m n junk i = dom.2 - dom.1 := by
  unfold gridWeights
  rw [sum_segments]
  have : ∀ iv ∈ range n, ∑ k ∈ range m, w k * ((dom.2 - dom.1) / n) / 2 = (dom.2 - dom.1) / n := by
    intro iv _
    rw [← sum_div, ← sum_mul, hw]; ring
  rw [sum_congr rfl this, sum_const, card_range, nsmul_eq_mul]
  have hn' : (n : ℝ) ≠ 0 := by exact_mod_cast (by omega : n ≠ 0)
  field_simp

/-- **C46.** Intervals of different lengths: the weights sum to the total length. -/
theorem C46_lengths_weights (m n : ℕ) (w tau junk : Vec) (hw : ∑ k ∈ range m, w k = 2) :
    ∑ i ∈ range (n * m), varWeights w m n tau junk i = ∑ iv ∈ range n, tau iv := by
  unfold varWeights
  rw [sum_segments]
  refine sum_congr rfl fun iv _ => ?_
  rw [← sum_div, ← sum_mul, hw]; ring

/-- **C46** (partial: only where `iv` times the length of interval `iv` is the sum of the lengths before it, in particular for equal lengths). Intervals of
different lengths: the points of interval `iv` are the affine images of the reference points. -/
theorem C46_lengths_points_partial (m : ℕ) (jp jw p w junk : Vec) (h : pointsWeights m jp jw = .ok (p, w)) (left : ℝ) (n iv : ℕ) (hiv : iv < n) (tau : Vec)
    (ht : iv * tau iv = ∑ j ∈ range iv, tau j) :
    (∀ k < m, varPoints p left m n tau junk (iv * m + k) = left + ∑ j ∈ range iv, tau j + (p k + 1) / 2 * tau iv) ∧
    varPoints p left m n tau junk (iv * m) = left + ∑ j ∈ range iv, tau j ∧
    varPoints p left m n tau junk (iv * m + (m - 1)) = left + ∑ j ∈ range (iv + 1), tau j := by
  obtain ⟨hm, -, -⟩ := pointsWeights_spec h
  obtain ⟨h0, h1, -⟩ := C45_points_weights m jp jw p w h
  have key : ∀ k < m, varPoints p left m n tau junk (iv * m + k) = left + ∑ j ∈ range iv, tau j + (p k + 1) / 2 * tau iv := by
    intro k hk
    unfold varPoints
    rw [segments_spec _ _ _ _ hiv hk, ht]; ring
  refine ⟨key, ?_, ?_⟩
  · have := key 0 (by omega)
    rw [h0, add_zero] at this
    rw [this]; ring
  · rw [key (m - 1) (by omega), h1, sum_range_succ]; ring

/-- **C46 is violated** for intervals of different lengths: the first point of interval `iv` is its left end only if `iv` times its length is the sum of the
lengths before it. -/
theorem C46_lengths_points_false (m : ℕ) (jp jw p w junk : Vec) (h : pointsWeights m jp jw = .ok (p, w)) (left : ℝ) (n iv : ℕ) (hiv : iv < n) (tau : Vec) :
    varPoints p left m n tau junk (iv * m) = left + ∑ j ∈ range iv, tau j ↔ iv * tau iv = ∑ j ∈ range iv, tau j := by
  obtain ⟨hm, -, -⟩ := pointsWeights_spec h
  obtain ⟨h0, -⟩ := C45_points_weights m jp jw p w h
  have : varPoints p left m n tau junk (iv * m + 0) = _ := segments_spec _ _ _ _ hiv (by omega)
  rw [add_zero] at this
  rw [this, h0]
  constructor <;> intro h' <;> linarith

/-- Equal lengths meet the hypothesis of the partial theorem. -/
example (iv : ℕ) : iv * (fun _ => (2 : ℝ)) iv = ∑ j ∈ range iv, (fun _ => (2 : ℝ)) j := by simp

/-- Lengths `1` and `2`: the second interval starts at `1`, but its first point is `2`. -/
example (junk : Vec) : ∃ p w, pointsWeights 3 junk junk = .ok (p, w) ∧
    varPoints p 0 3 2 (fun i => (i : ℝ) + 1) junk (1 * 3) ≠ 0 + ∑ j ∈ range 1, ((j : ℝ) + 1) := by
  obtain ⟨p, w, h, -⟩ := three_points junk junk
  refine ⟨p, w, h, ?_⟩
  rw [Ne, C46_lengths_points_false 3 junk junk p w junk h 0 2 1 (by norm_num) (fun i => (i : ℝ) + 1)]
  norm_num

/-- Weights of three points on four intervals. -/
example (junk : Vec) : ∃ p w, pointsWeights 3 junk junk = .ok (p, w) ∧ ∑ i ∈ range (4 * 3), gridWeights w (1, 6) 3 4 junk i = 5 := by
  obtain ⟨p, w, h, -, -, -, w0, w1, w2⟩ := three_points junk junk
  refine ⟨p, w, h, ?_⟩
  rw [C46_uniform_weights 3 4 (by norm_num) w junk (1, 6) (by simp [sum_range_succ, w0, w1, w2]; norm_num)]
  norm_num

end GSplines.Props
