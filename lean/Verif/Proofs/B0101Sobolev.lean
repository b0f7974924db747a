import Verif.Proofs.B0101Gram

/-! # Basis0101: the transcribed blocks against the closed form, entry by entry -/

namespace GSplines.B0101

open GSplines Real Finset

set_option linter.unusedSimpArgs false

theorem antiD_zero (u : ℝ) (i j : ℕ) (hi : i < 6) (hj : j < 6) : antiD 0 u i j = anti u i j := by
  unfold antiD
  simp [cf, hi, hj]

theorem exp_two (tau k : ℝ) : exp (2 * tau * k) = exp (tau * k) ^ 2 := by rw [← exp_nat_mul]; congr 1; push_cast; ring
theorem exp_four (tau k : ℝ) : exp (4 * tau * k) = exp (tau * k) ^ 4 := by rw [← exp_nat_mul]; congr 1; push_cast; ring
theorem exp_m2 (tau k : ℝ) : exp (-2 * tau * k) = exp (-(tau * k)) ^ 2 := by rw [← exp_nat_mul]; congr 1; push_cast; ring
theorem exp_m1 (tau k : ℝ) : exp (-tau * k) = exp (-(tau * k)) := by congr 1; ring

/-- Expands one entry and closes the remaining identity in `e = exp x`, `f = exp(-x)`, `s = sin x`, `c = cos x`. -/
macro "entry" x:term : tactic => `(tactic| (
  have h1 := sin_sq_add_cos_sq ($x)
  have h2 : exp ($x) * exp (-($x)) = 1 := by rw [← exp_add]; simp
  simp only [q0, qd1, qd2, qd3, qd1Dtau, qd3Dtau, pw, antiD, cf, anti, wv2, vec6, sum_range_succ, sum_range_zero, Function.iterate_succ_apply,
    Function.iterate_zero, id, dstep, mul_zero, zero_mul, add_zero, zero_add, neg_neg,
    sub_self, zero_sub, sub_zero, neg_zero, sin_neg, cos_neg, exp_two, exp_m2, exp_four, exp_m1]
  try generalize exp ($x) = e at *
  try generalize exp (-($x)) = f at *
  try generalize sin ($x) = s at *
  try generalize cos ($x) = c at *
  try grind))

theorem q0_entries (tau k : ℝ) (hk : k ≠ 0) (i j : ℕ) (hi : i < 6) (hj : j < 6) :
    q0 tau k i j = (2 * k) ^ (2 * 0) / (2 * k) * (antiD 0 (tau * k) i j - antiD 0 (-(tau * k)) i j) := by
  rw [antiD_zero _ i j hi hj, antiD_zero _ i j hi hj]
  interval_cases i <;> interval_cases j <;> entry (tau * k)

set_option maxHeartbeats 2000000 in
theorem qd1_entries (tau k : ℝ) (hk : k ≠ 0) (i j : ℕ) (hi : i < 6) (hj : j < 6) :
    qd1 tau k i j = (2 * k) ^ (2 * 1) / (2 * k) * (antiD 1 (tau * k) i j - antiD 1 (-(tau * k)) i j) := by
  interval_cases i <;> interval_cases j <;> entry (tau * k)

set_option maxHeartbeats 2000000 in
theorem qd2_entries (tau k : ℝ) (hk : k ≠ 0) (i j : ℕ) (hi : i < 6) (hj : j < 6) :
    qd2 tau k i j = tau ^ 2 / 4 * ((2 * k) ^ (2 * 2) / (2 * k) * (antiD 2 (tau * k) i j - antiD 2 (-(tau * k)) i j)) := by
  interval_cases i <;> interval_cases j <;> entry (tau * k)

set_option maxHeartbeats 2000000 in
theorem qd3_entries (tau k : ℝ) (hk : k ≠ 0) (i j : ℕ) (hi : i < 6) (hj : j < 6) :
    qd3 tau k i j = (2 * k) ^ (2 * 3) / (2 * k) * (antiD 3 (tau * k) i j - antiD 3 (-(tau * k)) i j) := by
  interval_cases i <;> interval_cases j <;> entry (tau * k)

theorem dtau_of_entries (d : ℕ) (hd : d ≤ 3) (q : ℝ → ℝ) (tau k : ℝ) (i j : ℕ) (hi : i < 6) (hj : j < 6)
    (h : ∀ tau, q tau = (2 * k) ^ (2 * d) / (2 * k) * (antiD d (tau * k) i j - antiD d (-(tau * k)) i j)) :
    HasDerivAt q ((2 * k) ^ (2 * d) / (2 * k) * (dstep^[d] (wv (tau * k)) i * dstep^[d] (wv (tau * k)) j * k
      + dstep^[d] (wv (-(tau * k))) i * dstep^[d] (wv (-(tau * k))) j * k)) tau := by
  rw [show q = fun tau => (2 * k) ^ (2 * d) / (2 * k) * (antiD d (tau * k) i j - antiD d (-(tau * k)) i j) from funext h]
  have h1 : HasDerivAt (fun t : ℝ => t * k) k tau := by simpa using (hasDerivAt_id tau).mul_const k
  have h2 : HasDerivAt (fun t : ℝ => -(t * k)) (-k) tau := h1.neg
  have a1 := (antiD_hasDerivAt d hd (tau * k) i j hi hj).comp tau h1
  have a2 := (antiD_hasDerivAt d hd (-(tau * k)) i j hi hj).comp tau h2
  refine HasDerivAt.congr_deriv ((a1.sub a2).const_mul ((2 * k) ^ (2 * d) / (2 * k))) ?_
  ring

set_option maxHeartbeats 2000000 in
theorem qd1_dtau (tau k : ℝ) (hk : k ≠ 0) (i j : ℕ) (hi : i < 6) (hj : j < 6) :
    HasDerivAt (fun t => qd1 t k i j) (qd1Dtau tau k i j) tau := by
  refine (dtau_of_entries 1 (by norm_num) (fun t => qd1 t k i j) tau k i j hi hj (fun t => qd1_entries t k hk i j hi hj)).congr_deriv ?_
  interval_cases i <;> interval_cases j <;> entry (tau * k)

set_option maxHeartbeats 2000000 in
theorem qd3_dtau (tau k : ℝ) (hk : k ≠ 0) (i j : ℕ) (hi : i < 6) (hj : j < 6) :
    HasDerivAt (fun t => qd3 t k i j) (qd3Dtau tau k i j) tau := by
  refine (dtau_of_entries 3 (by norm_num) (fun t => qd3 t k i j) tau k i j hi hj (fun t => qd3_entries t k hk i j hi hj)).congr_deriv ?_
  interval_cases i <;> interval_cases j <;> entry (tau * k)

end GSplines.B0101
