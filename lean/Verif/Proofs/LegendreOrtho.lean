import Verif.Proofs.LegendreModel
import Mathlib.Analysis.Calculus.Deriv.Polynomial
import Mathlib.Topology.Algebra.Polynomial
import Mathlib.Analysis.Calculus.IteratedDeriv.Lemmas
import Mathlib.MeasureTheory.Integral.IntervalIntegral.FundThmCalculus

/-! # Orthogonality of the Legendre polynomials -/

namespace GSplines.Legendre

open GSplines Polynomial GSplines.Spec GSplines.LegendrePoly Finset

/-- `∫_{-1}^{1} p`. -/
noncomputable def I (p : ℝ[X]) : ℝ := ∫ x in (-1 : ℝ)..1, p.eval x

theorem intervalIntegrable_poly (p : ℝ[X]) (a b : ℝ) :
    IntervalIntegrable (fun x => p.eval x) MeasureTheory.volume a b :=
  p.continuous.intervalIntegrable _ _

theorem I_add (p q : ℝ[X]) : I (p + q) = I p + I q := by
  simp only [I, eval_add]
  exact intervalIntegral.integral_add (intervalIntegrable_poly p _ _) (intervalIntegrable_poly q _ _)

theorem I_C_mul (c : ℝ) (p : ℝ[X]) : I (C c * p) = c * I p := by
  simp only [I, eval_mul, eval_C]
  exact intervalIntegral.integral_const_mul _ _

theorem I_zero : I 0 = 0 := by simp [I]

theorem I_sum {ι : Type} (s : Finset ι) (f : ι → ℝ[X]) : I (∑ i ∈ s, f i) = ∑ i ∈ s, I (f i) := by
  classical
  induction s using Finset.induction_on with
  | empty => simp [I_zero]
  | insert a s ha ih => rw [sum_insert ha, sum_insert ha, I_add, ih]

theorem I_derivative (p : ℝ[X]) : I (derivative p) = p.eval 1 - p.eval (-1) :=
  intervalIntegral.integral_eq_sub_of_hasDerivAt (fun x _ => p.hasDerivAt x)
    (intervalIntegrable_poly _ _ _)

theorem legendre_eval_one (n : ℕ) : (legendre n).eval 1 = 1 := by
  induction n with
  | zero => simp [legendre_zero]
  | succ n ih =>
    have := congrArg (eval 1) (legendre_B n)
    simp [ih] at this
    have h0 : ((n : ℝ) + 1) ≠ 0 := by positivity
    exact mul_left_cancel₀ h0 (by linarith)

theorem legendre_eval_neg_one (n : ℕ) : (legendre n).eval (-1) = (-1) ^ n := by
  induction n with
  | zero => simp [legendre_zero]
  | succ n ih =>
    have := congrArg (eval (-1)) (legendre_B n)
    simp [ih] at this
    have h0 : ((n : ℝ) + 1) ≠ 0 := by positivity
    refine mul_left_cancel₀ h0 ?_
    rw [this, pow_succ]; ring

theorem legendre_ortho {i j : ℕ} (h : i ≠ j) : I (legendre i * legendre j) = 0 := by
  have e : C ((i : ℝ) * (i + 1) - j * (j + 1)) * (legendre i * legendre j)
      = derivative ((X ^ 2 - 1) * (derivative (legendre i) * legendre j - legendre i * derivative (legendre j))) := by
    have h1 := ode i
    have h2 := ode j
    simp only [derivative_mul, derivative_sub, derivative_X_pow, derivative_one, Nat.cast_ofNat, C_two] at h1 h2 ⊢
    simp only [map_sub, map_mul, map_add, map_natCast, map_one]
    linear_combination -legendre j * h1 + legendre i * h2
  have h3 := congrArg I e
  rw [I_derivative, I_C_mul] at h3
  simp at h3
  rcases h3 with h3 | h3
  · exfalso
    have h4 : ((i : ℝ) - j) * (i + j + 1) = 0 := by linear_combination h3
    rcases mul_eq_zero.mp h4 with h5 | h5
    · exact h (by exact_mod_cast sub_eq_zero.mp h5)
    · have : (0 : ℝ) < i + j + 1 := by positivity
      exact this.ne' h5
  · exact h3

theorem X_mul_deriv (n : ℕ) : X * derivative (legendre (n + 1)) = ((n : ℝ[X]) + 1) * legendre (n + 1) + derivative (legendre n) := by
  have h1 := legendre_A (n + 1)
  have h2 := deriv_diff n
  push_cast at h1
  linear_combination h2 - h1

theorem legendre_norm (n : ℕ) : I (legendre n * legendre n) = 2 / (2 * (n : ℝ) + 1) := by
  have h0 : (2 * (n : ℝ) + 1) ≠ 0 := by positivity
  have hd : I (derivative (X * (legendre n * legendre n))) = 2 := by
    rw [I_derivative]
    simp only [eval_mul, eval_X, legendre_eval_one, legendre_eval_neg_one]
    rw [← mul_pow]; norm_num
  have hp : I (legendre n * (X * derivative (legendre n))) = n * I (legendre n * legendre n) := by
    rcases n with _ | n
    · simp [legendre_zero, I_zero]
    · rw [X_mul_deriv, mul_add, I_add, deriv_legendre_sum n, mul_sum, I_sum]
      have : ∀ j ∈ range n, I (legendre (n + 1) * (C (dmatC n j) * legendre j)) = 0 := by
        intro j hj
        have hj := mem_range.mp hj
        rw [show legendre (n + 1) * (C (dmatC n j) * legendre j) = C (dmatC n j) * (legendre (n + 1) * legendre j) by ring,
          I_C_mul, legendre_ortho (by omega), mul_zero]
      rw [sum_eq_zero this, add_zero]
      have e : legendre (n + 1) * (((n : ℝ[X]) + 1) * legendre (n + 1)) = C ((n : ℝ) + 1) * (legendre (n + 1) * legendre (n + 1)) := by
        simp only [map_add, map_natCast, map_one]; ring
      rw [e, I_C_mul]; push_cast; ring
  have he : derivative (X * (legendre n * legendre n)) = legendre n * legendre n + C 2 * (legendre n * (X * derivative (legendre n))) := by
    simp only [derivative_mul, derivative_X, C_two]; ring
  rw [he, I_add, I_C_mul, hp] at hd
  field_simp
  linarith

theorem I_legendre_mul (i j : ℕ) : I (legendre i * legendre j) = l2Mat i j := by
  unfold l2Mat
  split_ifs with h
  · subst h; exact legendre_norm i
  · exact legendre_ortho h

/-- Iterated derivative of a polynomial in the window variable. -/
theorem iteratedDeriv_window (p : ℝ[X]) (tau t0 : ℝ) (d : ℕ) :
    iteratedDeriv d (fun t => p.eval (2 * (t - t0) / tau - 1))
      = fun t => (2 / tau) ^ d * (derivative^[d] p).eval (2 * (t - t0) / tau - 1) := by
  induction d with
  | zero => simp
  | succ d ih =>
    rw [iteratedDeriv_succ, ih]
    funext t
    have h1 : HasDerivAt (fun t : ℝ => 2 * (t - t0) / tau - 1) (2 / tau) t := by
      have := ((((hasDerivAt_id t).sub_const t0).const_mul 2).div_const tau).sub_const 1
      simpa using this
    have h2 := ((derivative^[d] p).hasDerivAt (2 * (t - t0) / tau - 1)).comp t h1
    have h3 := h2.const_mul ((2 / tau) ^ d)
    have h4 := h3.deriv
    rw [show (fun t => (2 / tau) ^ d * eval (2 * (t - t0) / tau - 1) (derivative^[d] p))
      = fun y => (2 / tau) ^ d * ((fun x => eval x (derivative^[d] p)) ∘ fun t => 2 * (t - t0) / tau - 1) y from rfl, h4]
    rw [Function.iterate_succ_apply' derivative, pow_succ]
    ring

theorem integral_window (p : ℝ[X]) {tau : ℝ} (h : tau ≠ 0) :
    ∫ t in (0 : ℝ)..tau, p.eval (2 * t / tau - 1) = tau / 2 * I p := by
  have h1 : (fun t : ℝ => p.eval (2 * t / tau - 1)) = fun t => (fun x => p.eval x) ((2 / tau) * t - 1) := by
    funext t; congr 1; ring
  rw [h1, intervalIntegral.integral_comp_mul_sub (fun x => p.eval x) (by positivity : (2 / tau) ≠ 0)]
  simp only [I, smul_eq_mul]
  rw [show 2 / tau * 0 - 1 = -1 by ring, show 2 / tau * tau - 1 = 1 by field_simp; norm_num]
  congr 1
  field_simp

end GSplines.Legendre
