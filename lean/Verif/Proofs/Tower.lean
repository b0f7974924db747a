import Mathlib.Analysis.Calculus.IteratedDeriv.Lemmas
import Mathlib.Analysis.Calculus.Deriv.Add
import Mathlib.Analysis.Calculus.Deriv.Mul

/-! # Towers of derivatives -/

namespace GSplines

open Finset

/-- `F d` is the `d`-th derivative of `F 0`, everywhere. -/
def Tower (F : ℕ → ℝ → ℝ) : Prop := ∀ d t, HasDerivAt (F d) (F (d + 1) t) t

theorem Tower.iteratedDeriv {F : ℕ → ℝ → ℝ} (h : Tower F) (d : ℕ) : iteratedDeriv d (F 0) = F d := by
  induction d with
  | zero => simp
  | succ d ih => rw [iteratedDeriv_succ, ih]; funext t; exact (h d t).deriv

theorem Tower.sum {n : ℕ} {F : ℕ → ℕ → ℝ → ℝ} (y : ℕ → ℝ) (h : ∀ k < n, Tower (F k)) :
    Tower (fun d t => ∑ k ∈ range n, y k * F k d t) := by
  intro d t
  exact HasDerivAt.fun_sum fun k hk => (h k (mem_range.mp hk) d t).const_mul (y k)

/-- A smooth function has the tower of its iterated derivatives. -/
theorem tower_of_contDiff {f : ℝ → ℝ} (h : ContDiff ℝ (⊤ : ℕ∞) f) : Tower (fun d => _root_.iteratedDeriv d f) := by
  intro d t
  beta_reduce
  rw [iteratedDeriv_succ]
  refine DifferentiableAt.hasDerivAt ?_
  exact (h.differentiable_iteratedDeriv d (by exact_mod_cast ENat.coe_lt_top d)) t

end GSplines
