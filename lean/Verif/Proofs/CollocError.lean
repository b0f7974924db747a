import Verif.Proofs.Approx
import Verif.Spec.Basis
import Mathlib.LinearAlgebra.Lagrange

/-! # Lagrange polynomials: bounds, and the error of interpolation on an interval -/

namespace GSplines.Approx

open Polynomial Finset

theorem prod_abs_le {ι : Type} [DecidableEq ι] (S : Finset ι) (a : ι → ℝ) {A : ℝ} (hA : 1 ≤ A) (ha : ∀ j ∈ S, |a j| ≤ A) : |∏ j ∈ S, a j| ≤ A ^ S.card := by
  rw [abs_prod]
  exact (prod_le_prod (fun j _ => abs_nonneg _) ha).trans (by rw [prod_const])

theorem prod_sub_le {ι : Type} [DecidableEq ι] (S : Finset ι) (a b : ι → ℝ) {A D : ℝ} (hA : 1 ≤ A) (ha : ∀ j ∈ S, |a j| ≤ A) (hb : ∀ j ∈ S, |b j| ≤ A)
    (hD : ∀ j ∈ S, |a j - b j| ≤ D) : |∏ j ∈ S, a j - ∏ j ∈ S, b j| ≤ S.card * A ^ S.card * D := by
  induction S using Finset.induction_on with
  | empty => simp
  | insert i S hi ih =>
    have ih := ih (fun j hj => ha j (mem_insert_of_mem hj)) (fun j hj => hb j (mem_insert_of_mem hj)) fun j hj => hD j (mem_insert_of_mem hj)
    rw [prod_insert hi, prod_insert hi, card_insert_of_notMem hi]
    have e : a i * ∏ j ∈ S, a j - b i * ∏ j ∈ S, b j = a i * (∏ j ∈ S, a j - ∏ j ∈ S, b j) + (a i - b i) * ∏ j ∈ S, b j := by ring
    have h1 := ha i (mem_insert_self _ _)
    have h2 := hD i (mem_insert_self _ _)
    have h3 := prod_abs_le S b hA fun j hj => hb j (mem_insert_of_mem hj)
    have hD0 : 0 ≤ D := (abs_nonneg _).trans h2
    have hp : 0 ≤ A ^ S.card := by positivity
    rw [e]
    refine (abs_add_le _ _).trans ?_
    rw [abs_mul, abs_mul]
    have k1 := mul_le_mul h1 ih (abs_nonneg _) (by linarith)
    have k2 := mul_le_mul h2 h3 (abs_nonneg _) hD0
    have k3 : D * A ^ S.card ≤ D * (A * A ^ S.card) := mul_le_mul_of_nonneg_left (by nlinarith) hD0
    rw [pow_succ]
    push_cast
    nlinarith

theorem basis_eval (n : ℕ) (x : ℕ → ℝ) (k : ℕ) (s : ℝ) : (_root_.Lagrange.basis (range n) x k).eval s = ∏ j ∈ (range n).erase k, (x k - x j)⁻¹ * (s - x j) := by
  unfold _root_.Lagrange.basis _root_.Lagrange.basisDivisor
  rw [eval_prod]
  simp

/-- Bounds of the Lagrange polynomials of nodes in `[-1, 1]` that are `η` apart, on `[-2, 2]`. -/
theorem basis_bounds {n : ℕ} {x : ℕ → ℝ} {η : ℝ} (hη : 0 < η) (hη1 : η ≤ 1) (hx : ∀ j < n, |x j| ≤ 1) (hs : ∀ i < n, ∀ j < n, i ≠ j → η ≤ |x i - x j|) {k : ℕ} (hk : k < n) {s s' : ℝ}
    (h1 : |s| ≤ 2) (h2 : |s'| ≤ 2) : |(_root_.Lagrange.basis (range n) x k).eval s| ≤ (3 / η) ^ n ∧
      |(_root_.Lagrange.basis (range n) x k).eval s - (_root_.Lagrange.basis (range n) x k).eval s'| ≤ n * (3 / η) ^ n / η * |s - s'| := by
  have hA : 1 ≤ 3 / η := by rw [le_div_iff₀ hη]; linarith
  have hinv : ∀ j ∈ (range n).erase k, |(x k - x j)⁻¹| ≤ 1 / η := fun j hj => by
    have hj' := mem_erase.mp hj
    rw [abs_inv, ← one_div]
    exact one_div_le_one_div_of_le hη (hs k hk j (mem_range.mp hj'.2) (Ne.symm hj'.1))
  have hf : ∀ s : ℝ, |s| ≤ 2 → ∀ j ∈ (range n).erase k, |(x k - x j)⁻¹ * (s - x j)| ≤ 3 / η := fun s hs j hj => by
    rw [abs_mul]
    have a := hinv j hj
    have b : |s - x j| ≤ 3 := (abs_sub _ _).trans (by have := hx j (mem_range.mp (mem_erase.mp hj).2); linarith)
    calc _ ≤ 1 / η * 3 := mul_le_mul a b (abs_nonneg _) (by positivity)
      _ = 3 / η := by ring
  have hcard : ((range n).erase k).card ≤ n := (card_le_card (erase_subset _ _)).trans (by simp)
  have hpow : (3 / η) ^ ((range n).erase k).card ≤ (3 / η) ^ n := pow_le_pow_right₀ hA hcard
  rw [basis_eval, basis_eval]
  refine ⟨(prod_abs_le _ _ hA (hf s h1)).trans hpow, ?_⟩
  refine (prod_sub_le _ _ _ (D := 1 / η * |s - s'|) hA (hf s h1) (hf s' h2) fun j hj => ?_).trans ?_
  · rw [← mul_sub, abs_mul, show s - x j - (s' - x j) = s - s' by ring]
    exact mul_le_mul_of_nonneg_right (hinv j hj) (abs_nonneg _)
  · have : (((range n).erase k).card : ℝ) ≤ n := by exact_mod_cast hcard
    have h3 : (((range n).erase k).card : ℝ) * (3 / η) ^ ((range n).erase k).card ≤ n * (3 / η) ^ n := mul_le_mul this hpow (by positivity) (by positivity)
    have h4 := mul_le_mul_of_nonneg_right h3 (by positivity : 0 ≤ 1 / η * |s - s'|)
    calc _ ≤ _ := h4
      _ = _ := by ring

/-- The error of the interpolation of a smooth function at `n` nodes of an interval of length `h`. -/
theorem interpolation_error {n : ℕ} {φ : ℝ → ℝ} (hφ : ContDiff ℝ n φ) {x : ℕ → ℝ} (hinj : Set.InjOn x (range n)) (hx : ∀ j < n, x j ∈ Set.Icc (-1 : ℝ) 1) (hn : 0 < n) {a h M : ℝ} (hh : 0 < h)
    (hM : ∀ t ∈ Set.Icc a (a + h), |iteratedDeriv n φ t| ≤ M) {s : ℝ} (hs : s ∈ Set.Icc (-1 : ℝ) 1) :
    |∑ k ∈ range n, φ (a + (x k + 1) / 2 * h) * (_root_.Lagrange.basis (range n) x k).eval s - φ (a + (s + 1) / 2 * h)| ≤ M * h ^ n / n.factorial := by
  set v : ℕ → ℝ := fun k => φ (a + (x k + 1) / 2 * h) with hv
  set Q := _root_.Lagrange.interpolate (range n) x v with hQ
  have hQe : ∀ s, Q.eval s = ∑ k ∈ range n, v k * (_root_.Lagrange.basis (range n) x k).eval s := fun s => by
    rw [hQ, _root_.Lagrange.interpolate_apply, eval_finsetSum]
    refine sum_congr rfl fun k _ => by rw [eval_mul, eval_C]
  have hQd : Q.natDegree < n := by
    have := _root_.Lagrange.degree_interpolate_lt v hinj
    rw [card_range] at this
    rcases eq_or_ne Q 0 with h0 | h0
    · rw [h0]; simpa using hn
    · exact (natDegree_lt_iff_degree_lt h0).mpr this
  set P := Q.comp (C (2 / h) * X + C (-(2 * a / h) - 1)) with hP
  have hPe : ∀ s, P.eval (a + (s + 1) / 2 * h) = Q.eval s := fun s => by
    rw [hP, eval_comp]
    congr 1
    simp only [eval_add, eval_mul, eval_C, eval_X]
    field_simp
    ring
  have hPd : P.natDegree < n := by
    have h1 : (C (2 / h) * X + C (-(2 * a / h) - 1) : ℝ[X]).natDegree ≤ 1 := natDegree_linear_le
    have h2 := natDegree_comp_le (p := Q) (q := C (2 / h) * X + C (-(2 * a / h) - 1))
    have h3 : Q.natDegree * (C (2 / h) * X + C (-(2 * a / h) - 1) : ℝ[X]).natDegree ≤ Q.natDegree := by nlinarith
    rw [← hP] at h2
    omega
  have hPc : ContDiff ℝ n fun t => P.eval t := by
    have : (fun t => P.eval t) = fun t => aeval t P := funext fun t => by simp [aeval_def]
    rw [this]
    exact P.contDiff_aeval n
  have hpt : ∀ s ∈ Set.Icc (-1 : ℝ) 1, a + (s + 1) / 2 * h ∈ Set.Icc a (a + h) := fun s hs => ⟨by nlinarith [hs.1], by nlinarith [hs.2]⟩
  have hinj' : Set.InjOn (fun j => a + (x j + 1) / 2 * h) (range n) := by
    intro i hi j hj e
    have e : a + (x i + 1) / 2 * h = a + (x j + 1) / 2 * h := e
    have := mul_right_cancel₀ hh.ne' (add_left_cancel e)
    exact hinj hi hj (by linarith)
  have hb := error_bound (e := fun t => φ t - P.eval t) (k := 0) (Nat.zero_le n) (hφ.sub hPc) (S := (range n).image fun j => a + (x j + 1) / 2 * h) (a := a) (b := a + h)
    (by rw [card_image_of_injOn hinj', card_range]) (fun y hy => by
      obtain ⟨j, hj, rfl⟩ := mem_image.mp hy
      refine ⟨hpt _ (hx j (mem_range.mp hj)), ?_⟩
      rw [hPe, hQ, _root_.Lagrange.eval_interpolate_at_node v hinj hj]
      exact sub_self _) (M := M) (fun t ht => by
      rw [iteratedDeriv_fun_sub hφ.contDiffAt hPc.contDiffAt, iteratedDeriv_eval, iterate_derivative_eq_zero hPd]
      simp only [eval_zero, sub_zero]
      exact hM t ht) (t := a + (s + 1) / 2 * h) (hpt s hs)
  rw [iteratedDeriv_zero, hPe, hQe, abs_sub_comm] at hb
  simpa using hb

end GSplines.Approx
