import Mathlib.Analysis.Calculus.LocalExtr.Rolle
import Mathlib.Analysis.Calculus.IteratedDeriv.Lemmas
import Mathlib.Analysis.Calculus.Deriv.Polynomial
import Mathlib.Analysis.Calculus.ContDiff.Polynomial
import Mathlib.Data.Finset.Sort
import Mathlib.Algebra.Polynomial.BigOperators

/-!
# The error of polynomial interpolation of smooth functions
-/

namespace GSplines.Approx

open Finset Polynomial

/-- Between `m + 1` zeros of a function there are `m` zeros of its derivative. -/
theorem rolle_step {f : ℝ → ℝ} (hf : Differentiable ℝ f) {a b : ℝ} {m : ℕ} {S : Finset ℝ} (hS : S.card = m + 1) (hz : ∀ x ∈ S, x ∈ Set.Icc a b ∧ f x = 0) :
    ∃ S' : Finset ℝ, S'.card = m ∧ ∀ x ∈ S', x ∈ Set.Icc a b ∧ deriv f x = 0 := by
  set x := S.orderEmbOfFin hS with hx
  have hmem : ∀ i, x i ∈ S := fun i => S.orderEmbOfFin_mem hS i
  have hlt : ∀ i : Fin m, x i.castSucc < x i.succ := fun i => x.strictMono (Fin.castSucc_lt_succ)
  have key : ∀ i : Fin m, ∃ ξ, x i.castSucc < ξ ∧ ξ < x i.succ ∧ deriv f ξ = 0 := fun i => by
    obtain ⟨ξ, h1, h2⟩ := exists_deriv_eq_zero (hlt i) hf.continuous.continuousOn (by rw [(hz _ (hmem _)).2, (hz _ (hmem _)).2])
    exact ⟨ξ, h1.1, h1.2, h2⟩
  choose ξ h1 h2 h3 using key
  have hmono : StrictMono ξ := by
    intro i j hij
    refine (h2 i).trans_le (le_trans ?_ (h1 j).le)
    refine x.monotone ?_
    rw [Fin.le_def]
    simp only [Fin.val_succ, Fin.val_castSucc]
    exact hij
  refine ⟨univ.image ξ, by rw [card_image_of_injective _ hmono.injective, card_univ, Fintype.card_fin], fun y hy => ?_⟩
  obtain ⟨i, -, rfl⟩ := mem_image.mp hy
  exact ⟨⟨(hz _ (hmem i.castSucc)).1.1.trans (h1 i).le, (h2 i).le.trans (hz _ (hmem i.succ)).1.2⟩, h3 i⟩

/-- A function with `m` zeros has `m - k` zeros of its derivative of order `k`. -/
theorem rolle_iter {f : ℝ → ℝ} {n m : ℕ} (hf : ContDiff ℝ n f) {a b : ℝ} {S : Finset ℝ} (hS : S.card = m) (hz : ∀ x ∈ S, x ∈ Set.Icc a b ∧ f x = 0) :
    ∀ k, k ≤ n → k ≤ m → ∃ S' : Finset ℝ, S'.card = m - k ∧ ∀ x ∈ S', x ∈ Set.Icc a b ∧ iteratedDeriv k f x = 0
  | 0, _, _ => ⟨S, by simpa using hS, by simpa using hz⟩
  | k + 1, hk, hm => by
    obtain ⟨S', hc, hz'⟩ := rolle_iter hf hS hz k (by omega) (by omega)
    have hd : Differentiable ℝ (iteratedDeriv k f) := hf.differentiable_iteratedDeriv k (by exact_mod_cast (by omega : k < n))
    rw [iteratedDeriv_succ]
    exact rolle_step hd (by omega) hz'

/-- The polynomial with the given zeros. -/
noncomputable def nodePoly (S : Finset ℝ) : ℝ[X] := ∏ x ∈ S, (X - C x)

theorem nodePoly_eval (S : Finset ℝ) (t : ℝ) : (nodePoly S).eval t = ∏ x ∈ S, (t - x) := by simp [nodePoly, eval_prod]

theorem iteratedDeriv_eval (k : ℕ) (P : ℝ[X]) : iteratedDeriv k (fun t => P.eval t) = fun t => (derivative^[k] P).eval t := by
  induction k with
  | zero => simp
  | succ k ih => rw [iteratedDeriv_succ, ih]; funext t; rw [Function.iterate_succ_apply', Polynomial.deriv]

theorem nodePoly_top (S : Finset ℝ) (x : ℝ) : iteratedDeriv S.card (fun t => (nodePoly S).eval t) x = S.card.factorial := by
  have h1 : (nodePoly S).natDegree = S.card := by unfold nodePoly; rw [natDegree_prod_of_monic _ _ fun x _ => monic_X_sub_C x]; simp
  have h2 : (nodePoly S).Monic := monic_prod_of_monic _ _ fun x _ => monic_X_sub_C x
  have h3 : (derivative^[S.card] (nodePoly S)) = C ((S.card.factorial : ℝ)) := by
    have hd : (derivative^[S.card] (nodePoly S)).natDegree ≤ 0 := (natDegree_iterate_derivative _ _).trans (by rw [h1]; omega)
    rw [eq_C_of_natDegree_le_zero hd, coeff_iterate_derivative]
    simp only [zero_add]
    rw [show (nodePoly S).coeff S.card = 1 by rw [← h1]; exact h2, Nat.descFactorial_self]
    simp
  rw [iteratedDeriv_eval, h3]
  simp

/-- **The remainder of interpolation.** A function with zeros `S` is its derivative of order `card S`, taken somewhere, times the polynomial with these zeros over the factorial. -/
theorem remainder {e : ℝ → ℝ} {S : Finset ℝ} (he : ContDiff ℝ S.card e) {a b : ℝ} (hz : ∀ x ∈ S, x ∈ Set.Icc a b ∧ e x = 0) {t : ℝ} (ht : t ∈ Set.Icc a b) :
    ∃ ξ ∈ Set.Icc a b, e t * S.card.factorial = iteratedDeriv S.card e ξ * ∏ x ∈ S, (t - x) := by
  by_cases hS : t ∈ S
  · refine ⟨t, ht, ?_⟩
    rw [(hz t hS).2, prod_eq_zero hS (sub_self t)]
    simp
  set n := S.card with hn
  have hW : ContDiff ℝ ⊤ (fun u => (nodePoly S).eval u) := by
    simpa using (nodePoly S).contDiff_aeval (𝕜 := ℝ) ⊤
  have hWn : ContDiff ℝ n (fun u => (nodePoly S).eval u) := hW.of_le le_top
  set ψ : ℝ → ℝ := fun u => (nodePoly S).eval t * e u - e t * (nodePoly S).eval u with hψ
  have hψc : ContDiff ℝ n ψ := (contDiff_const.mul he).sub (contDiff_const.mul hWn)
  have hzero : ∀ x ∈ insert t S, x ∈ Set.Icc a b ∧ ψ x = 0 := by
    intro x hx
    rcases mem_insert.mp hx with rfl | hx
    · exact ⟨ht, by simp only [hψ]; ring⟩
    · refine ⟨(hz x hx).1, ?_⟩
      simp only [hψ]
      rw [(hz x hx).2, nodePoly_eval S x, prod_eq_zero hx (sub_self x)]
      ring
  have hcard : (insert t S).card = n + 1 := card_insert_of_notMem hS
  -- a zero of the derivative of order `n`
  obtain ⟨S', hc', hz'⟩ := rolle_iter hψc hcard hzero n le_rfl (by omega)
  obtain ⟨ξ, hξ⟩ : S'.Nonempty := card_pos.mp (by omega)
  obtain ⟨hξ1, hξ2⟩ := hz' ξ hξ
  refine ⟨ξ, hξ1, ?_⟩
  have h1 : iteratedDeriv n ψ ξ = (nodePoly S).eval t * iteratedDeriv n e ξ - e t * n.factorial := by
    have e1 : iteratedDeriv n (fun u => (nodePoly S).eval t * e u - e t * (nodePoly S).eval u) ξ =
        iteratedDeriv n (fun u => (nodePoly S).eval t * e u) ξ - iteratedDeriv n (fun u => e t * (nodePoly S).eval u) ξ :=
      iteratedDeriv_fun_sub (contDiff_const.mul he).contDiffAt (contDiff_const.mul hWn).contDiffAt
    rw [hψ, e1, iteratedDeriv_const_mul_field, iteratedDeriv_const_mul_field, nodePoly_top]
  rw [h1, nodePoly_eval] at hξ2
  linarith

theorem iteratedDeriv_iter (j k : ℕ) (f : ℝ → ℝ) : iteratedDeriv j (iteratedDeriv k f) = iteratedDeriv (j + k) f := by
  rw [iteratedDeriv_eq_iterate, iteratedDeriv_eq_iterate, iteratedDeriv_eq_iterate, Function.iterate_add_apply]

/-- The bound of the remainder: `|e^(k)| ≤ M h^(n-k) / (n-k)!` for a function with `n` zeros in an interval of length `h` and derivative of order `n` bounded by `M`. -/
theorem error_bound {e : ℝ → ℝ} {n k : ℕ} (hk : k ≤ n) (he : ContDiff ℝ n e) {a b : ℝ} {S : Finset ℝ} (hS : S.card = n) (hz : ∀ x ∈ S, x ∈ Set.Icc a b ∧ e x = 0) {M : ℝ}
    (hM : ∀ t ∈ Set.Icc a b, |iteratedDeriv n e t| ≤ M) {t : ℝ} (ht : t ∈ Set.Icc a b) :
    |iteratedDeriv k e t| ≤ M * (b - a) ^ (n - k) / (n - k).factorial := by
  obtain ⟨S', hc, hz'⟩ := rolle_iter he hS hz k hk hk
  have hck : ContDiff ℝ S'.card (iteratedDeriv k e) := by
    rw [hc]
    refine contDiff_nat_iff_iteratedDeriv.mpr ⟨fun j hj => ?_, fun j hj => ?_⟩
    · have := he.continuous_iteratedDeriv (k + j) (by exact_mod_cast (by omega : k + j ≤ n))
      rwa [add_comm, ← iteratedDeriv_iter] at this
    · have := he.differentiable_iteratedDeriv (k + j) (by exact_mod_cast (by omega : k + j < n))
      rwa [add_comm, ← iteratedDeriv_iter] at this
  obtain ⟨ξ, hξ, e1⟩ := remainder hck hz' ht
  rw [hc, iteratedDeriv_iter, Nat.sub_add_cancel hk] at e1
  have hf : (0 : ℝ) < (n - k).factorial := by exact_mod_cast Nat.factorial_pos _
  have hM0 : 0 ≤ M := (abs_nonneg _).trans (hM t ht)
  rw [le_div_iff₀ hf, ← abs_of_pos hf, ← abs_mul, e1, abs_mul]
  refine mul_le_mul (hM ξ hξ) ?_ (abs_nonneg _) hM0
  rw [abs_prod, ← hc]
  refine (prod_le_prod (fun _ _ => abs_nonneg _) fun x hx => ?_).trans (le_of_eq (by rw [prod_const]))
  have hx := (hz' x hx).1
  rw [abs_le]
  constructor <;> linarith [ht.1, ht.2, hx.1, hx.2]

end GSplines.Approx
