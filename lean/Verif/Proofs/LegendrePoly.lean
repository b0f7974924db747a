import Verif.Spec.Legendre
import Mathlib.Tactic.Ring
import Mathlib.Tactic.LinearCombination
import Mathlib.Tactic.FieldSimp
import Mathlib.Tactic.Linarith

/-! # Classical facts on Legendre polynomials, derived from Rodrigues' formula -/

namespace GSplines

open Polynomial GSplines.Spec

namespace LegendrePoly

@[simp] theorem C_two : (C (2 : ℝ) : ℝ[X]) = 2 := map_ofNat C 2
@[simp] theorem C_three : (C (3 : ℝ) : ℝ[X]) = 3 := map_ofNat C 3

/-- `u n = (x²-1)ⁿ` -/
noncomputable def u (n : ℕ) : ℝ[X] := (X ^ 2 - 1) ^ n
/-- `R n = dⁿ (x²-1)ⁿ` -/
noncomputable def R (n : ℕ) : ℝ[X] := derivative^[n] (u n)

theorem iter_X_mul (n : ℕ) (p : ℝ[X]) :
    derivative^[n + 1] (X * p) = X * derivative^[n + 1] p + ((n : ℝ[X]) + 1) * derivative^[n] p := by
  have := iterate_derivative_mul_X (n := n + 1) p
  rw [mul_comm X p, this]
  simp [mul_comm]

theorem deriv_u_succ (n : ℕ) : derivative (u (n + 1)) = (2 * ((n : ℝ[X]) + 1)) * (X * u n) := by
  simp only [u, derivative_pow_succ, derivative_sub, derivative_one]
  simp
  ring

theorem R_def_succ (m : ℕ) : R (m + 1) = derivative^[m] (derivative (u (m + 1))) :=
  Function.iterate_succ_apply _ _ _

theorem R_deriv (m : ℕ) : derivative (R m) = derivative^[m + 1] (u m) :=
  (Function.iterate_succ_apply' _ _ _).symm

theorem R_eq (m : ℕ) : R m = derivative^[m] (u m) := rfl

theorem R_deriv' (m : ℕ) : derivative (derivative^[m] (u (m + 1))) = R (m + 1) :=
  (Function.iterate_succ_apply' _ _ _).symm

/-- `R_{n+2} = 2(n+2) (x R_{n+1} + (n+1) dⁿ u_{n+1})` -/
theorem R_succ (n : ℕ) : R (n + 1 + 1) = 2 * ((n : ℝ[X]) + 2) * (X * R (n + 1) + ((n : ℝ[X]) + 1) * derivative^[n] (u (n + 1))) := by
  rw [R_def_succ, deriv_u_succ]
  have h2 : (2 * (((n + 1 : ℕ) : ℝ[X]) + 1)) * (X * u (n + 1)) = C (2 * ((n : ℝ) + 2)) * (X * u (n + 1)) := by
    simp only [map_mul, map_add, map_natCast, C_two, Nat.cast_add, Nat.cast_one]; ring
  rw [h2, iterate_derivative_C_mul, iter_X_mul, ← R_eq]
  simp only [map_mul, map_add, map_natCast, C_two]

theorem R_one : R 1 = 2 * X := by
  simp [R, u]
  norm_num

theorem R_zero : R 0 = 1 := by simp [R, u]

/-- Leibniz with `(x²-1)`. -/
theorem iter_sq_mul (n : ℕ) (p : ℝ[X]) :
    derivative^[n + 2] ((X ^ 2 - 1) * p) = (X ^ 2 - 1) * derivative^[n + 2] p
      + 2 * ((n : ℝ[X]) + 2) * X * derivative^[n + 1] p + ((n : ℝ[X]) + 1) * ((n : ℝ[X]) + 2) * derivative^[n] p := by
  have e : (X ^ 2 - 1) * p = X * (X * p) - p := by ring
  rw [e, iterate_derivative_sub, iter_X_mul, iter_X_mul, iter_X_mul]
  push_cast
  ring

theorem u_succ (m : ℕ) : u (m + 1) = (X ^ 2 - 1) * u m := by
  unfold u; rw [pow_succ, mul_comm]

/-- `(n+1)(n+2) dⁿ u_{n+1} = (x²-1) R_{n+1}'` -/
theorem Q_eq (n : ℕ) : ((n : ℝ[X]) + 1) * ((n : ℝ[X]) + 2) * derivative^[n] (u (n + 1)) = (X ^ 2 - 1) * derivative (R (n + 1)) := by
  have h1 := R_succ n
  have h2 : R (n + 1 + 1) = derivative^[n + 2] ((X ^ 2 - 1) * u (n + 1)) := by
    rw [R_eq, u_succ]
  rw [iter_sq_mul, h1, ← R_eq] at h2
  rw [R_deriv]
  linear_combination h2

noncomputable def c (n : ℕ) : ℝ := 1 / (2 ^ n * (n.factorial : ℝ))

theorem c_succ (n : ℕ) : 2 * ((n : ℝ) + 1) * c (n + 1) = c n := by
  unfold c
  rw [Nat.factorial_succ]
  have : (n.factorial : ℝ) ≠ 0 := by exact_mod_cast n.factorial_ne_zero
  push_cast
  field_simp
  ring

theorem legendre_eq (n : ℕ) : legendre n = C (c n) * R n := rfl

theorem legendre_zero : legendre 0 = 1 := by simp [legendre]

theorem legendre_one : legendre 1 = X := by
  rw [legendre_eq, R_one]
  rw [← mul_assoc, ← C_two, ← C_mul]
  simp [c]

/-- `(n+1) P_{n+1} = (n+1) x P_n + (x²-1) P_n'` -/
theorem legendre_B (n : ℕ) :
    ((n : ℝ[X]) + 1) * legendre (n + 1) = ((n : ℝ[X]) + 1) * X * legendre n + (X ^ 2 - 1) * derivative (legendre n) := by
  rcases n with _ | n
  · simp [legendre_one, legendre_zero]
  · have hR := R_succ n
    have hQ := Q_eq n
    have hc := c_succ (n + 1)
    have hc' : (2 : ℝ[X]) * ((n : ℝ[X]) + 2) * C (c (n + 2)) = C (c (n + 1)) := by
      rw [← hc]; simp only [map_mul, map_add, map_natCast, C_two, Nat.cast_add, Nat.cast_one, map_one]; ring
    simp only [legendre_eq, derivative_C_mul]
    push_cast
    linear_combination (C (c (n + 2))) * ((n : ℝ[X]) + 2) * hR + (2 * ((n : ℝ[X]) + 2)) * C (c (n + 2)) * hQ
      + (((n : ℝ[X]) + 2) * X * R (n + 1) + (X ^ 2 - 1) * derivative (R (n + 1))) * hc'

/-- `P_{n+1}' = (n+1) P_n + x P_n'` -/
theorem legendre_A (n : ℕ) :
    derivative (legendre (n + 1)) = ((n : ℝ[X]) + 1) * legendre n + X * derivative (legendre n) := by
  rcases n with _ | n
  · simp [legendre_one, legendre_zero]
  · have hR := congrArg derivative (R_succ n)
    have hc := c_succ (n + 1)
    have hc' : (2 : ℝ[X]) * ((n : ℝ[X]) + 2) * C (c (n + 2)) = C (c (n + 1)) := by
      rw [← hc]; simp only [map_mul, map_add, map_natCast, C_two, Nat.cast_add, Nat.cast_one, map_one]; ring
    have hd := R_deriv' n
    have e2 : 2 * ((n : ℝ[X]) + 2) = C (2 * ((n : ℝ) + 2)) := by simp
    have e1 : ((n : ℝ[X]) + 1) = C ((n : ℝ) + 1) := by simp
    rw [e2, e1, derivative_C_mul, derivative_add, derivative_mul, derivative_X, derivative_C_mul, hd, ← e2, ← e1] at hR
    simp only [legendre_eq, derivative_C_mul]
    push_cast
    linear_combination C (c (n + 2)) * hR + (R (n + 1) + X * derivative (R (n + 1)) + ((n : ℝ[X]) + 1) * R (n + 1)) * hc'

/-- Bonnet's recurrence. -/
theorem bonnet (n : ℕ) :
    ((n : ℝ[X]) + 2) * legendre (n + 2) = (2 * (n : ℝ[X]) + 3) * X * legendre (n + 1) - ((n : ℝ[X]) + 1) * legendre n := by
  have hB := legendre_B (n + 1)
  have hB' := legendre_B n
  have hA := legendre_A n
  push_cast at hB
  linear_combination hB + (X ^ 2 - 1) * hA - X * hB'

theorem bonnet_eval (n : ℕ) (s : ℝ) :
    ((n : ℝ) + 2) * (legendre (n + 2)).eval s = (2 * (n : ℝ) + 3) * s * (legendre (n + 1)).eval s - ((n : ℝ) + 1) * (legendre n).eval s := by
  have := congrArg (eval s) (bonnet n)
  simpa using this

/-- Bonnet's recurrence differentiated `d+1` times. -/
theorem bonnet_deriv (n d : ℕ) :
    ((n : ℝ[X]) + 2) * derivative^[d + 1] (legendre (n + 2)) =
      (2 * (n : ℝ[X]) + 3) * (((d : ℝ[X]) + 1) * derivative^[d] (legendre (n + 1)) + X * derivative^[d + 1] (legendre (n + 1)))
        - ((n : ℝ[X]) + 1) * derivative^[d + 1] (legendre n) := by
  have h := congrArg (derivative^[d + 1]) (bonnet n)
  have e2 : ((n : ℝ[X]) + 2) = C ((n : ℝ) + 2) := by simp
  have e1 : ((n : ℝ[X]) + 1) = C ((n : ℝ) + 1) := by simp
  have e3 : (2 * (n : ℝ[X]) + 3) = C (2 * (n : ℝ) + 3) := by simp
  rw [e2, e1, e3, mul_assoc, iterate_derivative_sub, iterate_derivative_C_mul, iterate_derivative_C_mul,
    iterate_derivative_C_mul, iter_X_mul] at h
  rw [e2, e1, e3, h]
  ring

/-- `P_{n+2}' - P_n' = (2n+3) P_{n+1}` -/
theorem deriv_diff (n : ℕ) :
    derivative (legendre (n + 2)) = (2 * (n : ℝ[X]) + 3) * legendre (n + 1) + derivative (legendre n) := by
  have hA := legendre_A (n + 1)
  have hA' := legendre_A n
  have hB := congrArg derivative (legendre_B n)
  have e1 : ((n : ℝ[X]) + 1) = C ((n : ℝ) + 1) := by simp
  -- x P_{n+1}' = (n+1) P_{n+1} + P_n'
  have hX : X * derivative (legendre (n + 1)) = ((n : ℝ[X]) + 1) * legendre (n + 1) + derivative (legendre n) := by
    have hb := legendre_B n
    linear_combination X * hA' - hb
  push_cast at hA
  linear_combination hA + hX

/-- Legendre's equation. -/
theorem ode (n : ℕ) :
    derivative ((X ^ 2 - 1) * derivative (legendre n)) = (n : ℝ[X]) * ((n : ℝ[X]) + 1) * legendre n := by
  have hB := congrArg derivative (legendre_B n)
  have hA := legendre_A n
  have e1 : ((n : ℝ[X]) + 1) = C ((n : ℝ) + 1) := by simp
  rw [derivative_add, mul_assoc, e1, derivative_C_mul, derivative_C_mul, derivative_mul, derivative_X, ← e1] at hB
  linear_combination -hB + ((n : ℝ[X]) + 1) * hA

theorem natDegree_legendre_le (n : ℕ) : (legendre n).natDegree ≤ n := by
  rw [legendre_eq]
  have h0 : (C (c n) * R n).natDegree ≤ (R n).natDegree :=
    natDegree_mul_le.trans (by simp)
  refine h0.trans ?_
  unfold R
  refine (natDegree_iterate_derivative _ _).trans ?_
  have : (u n).natDegree ≤ n * 2 := by
    unfold u
    refine (natDegree_pow_le).trans ?_
    refine Nat.mul_le_mul_left _ ?_
    exact (natDegree_sub_le _ _).trans (by simp)
  omega

end LegendrePoly
end GSplines
