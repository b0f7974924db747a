import Verif.Proofs.B0101Anti
import Verif.Spec.Gram

/-! # Basis0101: the Sobolev matrices in closed form -/

namespace GSplines.B0101

open GSplines Real Finset

theorem anti_hasDerivAt (u : ℝ) (i j : ℕ) (hi : i < 6) (hj : j < 6) : HasDerivAt (fun u => anti u i j) (wv u i * wv u j) u := by
  interval_cases i <;> interval_cases j
  · exact anti_0_0 u
  · exact anti_0_1 u
  · exact anti_0_2 u
  · exact anti_0_3 u
  · exact anti_0_4 u
  · exact anti_0_5 u
  · exact (anti_0_1 u).congr_deriv (mul_comm _ _)
  · exact anti_1_1 u
  · exact anti_1_2 u
  · exact anti_1_3 u
  · exact anti_1_4 u
  · exact anti_1_5 u
  · exact (anti_0_2 u).congr_deriv (mul_comm _ _)
  · exact (anti_1_2 u).congr_deriv (mul_comm _ _)
  · exact anti_2_2 u
  · exact anti_2_3 u
  · exact anti_2_4 u
  · exact anti_2_5 u
  · exact (anti_0_3 u).congr_deriv (mul_comm _ _)
  · exact (anti_1_3 u).congr_deriv (mul_comm _ _)
  · exact (anti_2_3 u).congr_deriv (mul_comm _ _)
  · exact anti_3_3 u
  · exact anti_3_4 u
  · exact anti_3_5 u
  · exact (anti_0_4 u).congr_deriv (mul_comm _ _)
  · exact (anti_1_4 u).congr_deriv (mul_comm _ _)
  · exact (anti_2_4 u).congr_deriv (mul_comm _ _)
  · exact (anti_3_4 u).congr_deriv (mul_comm _ _)
  · exact anti_4_4 u
  · exact anti_4_5 u
  · exact (anti_0_5 u).congr_deriv (mul_comm _ _)
  · exact (anti_1_5 u).congr_deriv (mul_comm _ _)
  · exact (anti_2_5 u).congr_deriv (mul_comm _ _)
  · exact (anti_3_5 u).congr_deriv (mul_comm _ _)
  · exact (anti_4_5 u).congr_deriv (mul_comm _ _)
  · exact anti_5_5 u

/-- Coefficients of `dstep^[d]` for `d ≤ 3`. -/
def cf (d : ℕ) : Mat := fun i =>
  match d, i with
  | 0, i => fun j => if i = j then 1 else 0
  | 1, 0 => vec6 1 (-1) 0 0 0 0
  | 1, 1 => vec6 1 1 0 0 0 0
  | 1, 2 => vec6 0 0 (-1) (-1) 0 0
  | 1, 3 => vec6 0 0 1 (-1) 0 0
  | 1, 4 => vec6 0 0 0 0 0 1
  | 2, 0 => vec6 0 (-2) 0 0 0 0
  | 2, 1 => vec6 2 0 0 0 0 0
  | 2, 2 => vec6 0 0 0 2 0 0
  | 2, 3 => vec6 0 0 (-2) 0 0 0
  | 3, 0 => vec6 (-2) (-2) 0 0 0 0
  | 3, 1 => vec6 2 (-2) 0 0 0 0
  | 3, 2 => vec6 0 0 2 (-2) 0 0
  | 3, 3 => vec6 0 0 2 2 0 0
  | _, _ => fun _ => 0

theorem iter_eq_cf (d : ℕ) (hd : d ≤ 3) (v : Vec) (i : ℕ) (hi : i < 6) :
    dstep^[d] v i = ∑ k ∈ range 6, cf d i k * v k := by
  interval_cases d
  · simp [cf, hi]
  all_goals
    interval_cases i <;>
      simp only [Function.iterate_succ_apply, Function.iterate_zero, id, sum_range_succ, sum_range_zero, cf, dstep, vec6] <;> ring

noncomputable def antiD (d : ℕ) (u : ℝ) (i j : ℕ) : ℝ :=
  ∑ k ∈ range 6, ∑ l ∈ range 6, cf d i k * cf d j l * anti u k l

theorem antiD_hasDerivAt (d : ℕ) (hd : d ≤ 3) (u : ℝ) (i j : ℕ) (hi : i < 6) (hj : j < 6) :
    HasDerivAt (fun u => antiD d u i j) (dstep^[d] (wv u) i * dstep^[d] (wv u) j) u := by
  have h : HasDerivAt (fun u => antiD d u i j)
      (∑ k ∈ range 6, ∑ l ∈ range 6, cf d i k * cf d j l * (wv u k * wv u l)) u := by
    unfold antiD
    refine HasDerivAt.fun_sum fun k hk => HasDerivAt.fun_sum fun l hl => ?_
    exact (anti_hasDerivAt u k l (mem_range.mp hk) (mem_range.mp hl)).const_mul _
  refine h.congr_deriv ?_
  rw [iter_eq_cf d hd _ i hi, iter_eq_cf d hd _ j hj, sum_mul_sum]
  refine sum_congr rfl fun k _ => sum_congr rfl fun l _ => ?_
  ring

theorem iter_wv_continuous (d i : ℕ) : Continuous (fun u => dstep^[d] (wv u) i) :=
  continuous_iff_continuousAt.mpr fun u => (iter_hasDerivAt d u i).continuousAt

/-- The basis functions of an interval of length `tau` as functions of the elapsed time. -/
noncomputable def phi (k tau : ℝ) (i : ℕ) (t : ℝ) : ℝ := wv (tau * k * Spec.window tau t) i

theorem gram_phi {k tau : ℝ} (hk : k ≠ 0) (ht : tau ≠ 0) (d : ℕ) (hd : d ≤ 3) (i j : ℕ) (hi : i < 6) (hj : j < 6) :
    Spec.gram (phi k tau) tau d i j = (2 * k) ^ (2 * d) / (2 * k) * (antiD d (tau * k) i j - antiD d (-(tau * k)) i j) := by
  unfold Spec.gram phi Spec.window
  simp only [iteratedDeriv_wv k ht]
  have hd' : ∀ t ∈ Set.uIcc 0 tau, HasDerivAt (fun t : ℝ => (2 * k) ^ (2 * d) / (2 * k) * antiD d (tau * k * (2 * t / tau - 1)) i j)
      ((2 * k) ^ d * dstep^[d] (wv (tau * k * (2 * t / tau - 1))) i * ((2 * k) ^ d * dstep^[d] (wv (tau * k * (2 * t / tau - 1))) j)) t := by
    intro t _
    have h1 : HasDerivAt (fun t : ℝ => tau * k * (2 * t / tau - 1)) (2 * k) t := by
      refine HasDerivAt.congr_deriv (((((hasDerivAt_id t).const_mul 2).div_const tau).sub_const 1).const_mul (tau * k)) ?_
      field_simp
    have h2 := ((antiD_hasDerivAt d hd (tau * k * (2 * t / tau - 1)) i j hi hj).comp t h1).const_mul ((2 * k) ^ (2 * d) / (2 * k))
    refine HasDerivAt.congr_deriv h2 ?_
    rw [pow_mul' (2 * k) 2 d]
    field_simp
  rw [intervalIntegral.integral_eq_sub_of_hasDerivAt hd']
  · have e1 : tau * k * (2 * tau / tau - 1) = tau * k := by field_simp; ring
    have e2 : tau * k * (2 * 0 / tau - 1) = -(tau * k) := by ring
    rw [e1, e2]; ring
  · refine Continuous.intervalIntegrable ?_ _ _
    have hc : Continuous (fun t : ℝ => tau * k * (2 * t / tau - 1)) := by fun_prop
    have a1 := (iter_wv_continuous d i).comp hc
    have a2 := (iter_wv_continuous d j).comp hc
    exact (continuous_const.mul a1).mul (continuous_const.mul a2)

theorem kQ_eq {alpha : ℝ} (h : alpha < 1) : kQ alpha = kOf alpha := by
  unfold kQ kOf
  rw [one_div (1 - alpha), inv_rpow (by linarith)]
  rfl

theorem kOf_pos {alpha : ℝ} (h0 : 0 < alpha) (h1 : alpha < 1) : 0 < kOf alpha := by
  unfold kOf
  have : 0 < 1 - alpha := by linarith
  positivity

end GSplines.B0101
