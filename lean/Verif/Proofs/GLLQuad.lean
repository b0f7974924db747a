import Verif.Proofs.GLL
import Verif.Proofs.LegendreSobolev
import Mathlib.LinearAlgebra.Lagrange
import Mathlib.Analysis.Calculus.LocalExtr.Polynomial
import Mathlib.Algebra.Polynomial.Splits
import Mathlib.Algebra.Polynomial.Div

/-!
# Exactness of Gauss-Lobatto quadrature, and zeros of the polynomial whose zeros are the points
-/

namespace GSplines.GLL

open GSplines Polynomial Spec LegendrePoly Legendre Finset

/-! ## Orthogonality to polynomials of lower degree -/

theorem coeff_legendre_ne (m : ℕ) : (legendre m).coeff m ≠ 0 := by
  intro h
  have e := congrArg (fun p => p.coeff 0) (iter_deriv_legendre_self m)
  simp only [coeff_iterate_derivative, coeff_C_zero, zero_add, h, smul_zero] at e
  exact (lead_pos m).ne e

theorem ortho_lower {k : ℕ} (m : ℕ) : m ≤ k → ∀ g : ℝ[X], g.degree < m → I (legendre k * g) = 0 := by
  induction m with
  | zero =>
    intro _ g hg
    have : g = 0 := by
      rw [← degree_eq_bot]
      exact Nat.WithBot.lt_zero_iff.mp hg
    rw [this, mul_zero, I_zero]
  | succ m ih =>
    intro hm g hg
    set a := g.coeff m / (legendre m).coeff m with ha
    have hd : (g - C a * legendre m).degree < m := by
      rw [degree_lt_iff_coeff_zero]
      intro j hj
      rw [coeff_sub, coeff_C_mul]
      rcases Nat.eq_or_lt_of_le hj with rfl | hj'
      · rw [ha, div_mul_cancel₀ _ (coeff_legendre_ne _), sub_self]
      · rw [coeff_eq_zero_of_degree_lt (hg.trans_le (by exact_mod_cast hj')), coeff_eq_zero_of_natDegree_lt ((natDegree_legendre_le m).trans_lt hj')]
        simp
    have h1 := ih (by omega) _ hd
    have e : legendre k * g = legendre k * (g - C a * legendre m) + C a * (legendre k * legendre m) := by ring
    rw [e, I_add, h1, I_C_mul, legendre_ortho (by omega)]
    simp

/-! ## The kernel -/

/-- The polynomial whose zeros are the points. -/
noncomputable def qPoly (N : ℕ) : ℝ[X] := legendre (N + 1) - legendre (N - 1)

/-- Christoffel and Darboux. -/
theorem christoffel (N : ℕ) (y : ℝ) :
    (X - C y) * ∑ k ∈ range (N + 1), C ((2 * (k : ℝ) + 1) * (legendre k).eval y) * legendre k =
      C ((N : ℝ) + 1) * (C ((legendre N).eval y) * legendre (N + 1) - C ((legendre (N + 1)).eval y) * legendre N) := by
  induction N with
  | zero => simp [legendre_zero, legendre_one]
  | succ N ih =>
    rw [sum_range_succ, mul_add, ih]
    have b := bonnet N
    have be := bonnet_eval N y
    have e2 : ((N : ℝ[X]) + 2) = C ((N : ℝ) + 2) := by simp
    have e1 : ((N : ℝ[X]) + 1) = C ((N : ℝ) + 1) := by simp
    have e3 : (2 * (N : ℝ[X]) + 3) = C (2 * (N : ℝ) + 3) := by simp
    rw [e1, e2, e3] at b
    have be' := congrArg (C : ℝ → ℝ[X]) be
    simp only [map_mul, map_sub] at be'
    simp only [map_mul, Nat.cast_add, Nat.cast_one]
    rw [show (2 * ((N : ℝ) + 1) + 1) = 2 * (N : ℝ) + 3 by ring, show ((N : ℝ) + 1 + 1) = (N : ℝ) + 2 by ring, show N + 1 + 1 = N + 2 by ring]
    linear_combination (-C ((legendre (N + 1)).eval y)) * b + legendre (N + 1) * be'

/-- The kernel of the points. -/
noncomputable def kernel (N : ℕ) (y : ℝ) : ℝ[X] :=
  ∑ k ∈ range N, C ((2 * (N : ℝ) + 1) * ((2 * (k : ℝ) + 1) * (legendre k).eval y)) * legendre k + C ((N : ℝ) * (2 * N + 1) * (legendre N).eval y) * legendre N

theorem kernel_mul {N : ℕ} (hN : 1 ≤ N) (y : ℝ) :
    (X - C y) * kernel N y = C ((N : ℝ) * (N + 1)) * (C ((legendre N).eval y) * qPoly N - C ((qPoly N).eval y) * legendre N) := by
  obtain ⟨M, rfl⟩ : ∃ M, N = M + 1 := ⟨N - 1, by omega⟩
  have h1 := christoffel (M + 1) y
  have h2 := christoffel M y
  have e : kernel (M + 1) y = C ((M : ℝ) + 1) * ∑ k ∈ range (M + 1 + 1), C ((2 * (k : ℝ) + 1) * (legendre k).eval y) * legendre k +
      C ((M : ℝ) + 2) * ∑ k ∈ range (M + 1), C ((2 * (k : ℝ) + 1) * (legendre k).eval y) * legendre k := by
    rw [sum_range_succ (n := M + 1), mul_add, mul_sum, mul_sum, add_right_comm, ← sum_add_distrib]
    unfold kernel
    congr 1
    · refine sum_congr rfl fun k _ => ?_
      simp only [map_mul, map_add, Nat.cast_add, Nat.cast_one, map_one, map_natCast, C_ofNat]
      ring
    · rw [← mul_assoc, ← C_mul]
      push_cast
      congr 2
      ring
  rw [e]
  unfold qPoly
  simp only [show M + 1 - 1 = M by omega, eval_sub, map_sub, map_mul, map_add, Nat.cast_add, Nat.cast_one, map_one, map_natCast, C_two] at *

  linear_combination ((M : ℝ[X]) + 1) * h1 + ((M : ℝ[X]) + 2) * h2

theorem kernel_other {N : ℕ} (hN : 1 ≤ N) {x y : ℝ} (hx : (qPoly N).eval x = 0) (hy : (qPoly N).eval y = 0) (h : x ≠ y) : (kernel N y).eval x = 0 := by
  have := congrArg (eval x) (kernel_mul hN y)
  simp only [eval_mul, eval_sub, eval_X, eval_C, hx, hy, mul_zero, zero_mul, sub_zero] at this
  exact (mul_eq_zero.mp this).resolve_left (sub_ne_zero.mpr h)

theorem deriv_qPoly {N : ℕ} (hN : 1 ≤ N) : derivative (qPoly N) = C (2 * (N : ℝ) + 1) * legendre N := by
  obtain ⟨M, rfl⟩ : ∃ M, N = M + 1 := ⟨N - 1, by omega⟩
  unfold qPoly
  rw [derivative_sub, show M + 1 + 1 = M + 2 by ring, deriv_diff, show M + 1 - 1 = M by omega, add_sub_cancel_right]
  simp
  left
  ring

theorem kernel_self {N : ℕ} (hN : 1 ≤ N) {y : ℝ} (hy : (qPoly N).eval y = 0) :
    (kernel N y).eval y = (N : ℝ) * (N + 1) * (2 * N + 1) * (legendre N).eval y ^ 2 := by
  have := congrArg (fun p => (derivative p).eval y) (kernel_mul hN y)
  simp only [derivative_mul, derivative_sub, derivative_X, derivative_C, eval_add, eval_mul, eval_sub, eval_X, eval_C, hy, deriv_qPoly hN, sub_self, zero_mul,
    mul_zero, sub_zero, add_zero, one_mul, map_zero, eval_one, eval_zero, zero_add] at this
  rw [this]; ring

theorem I_legendre {k : ℕ} (hk : k ≠ 0) : I (legendre k) = 0 := by
  have := legendre_ortho (i := k) (j := 0) hk
  rwa [legendre_zero, mul_one] at this

theorem I_kernel {N : ℕ} (hN : 1 ≤ N) (y : ℝ) : I (kernel N y) = 2 * (2 * N + 1) := by
  unfold kernel
  rw [I_add, I_sum, I_C_mul, I_legendre (by omega : N ≠ 0), mul_zero, add_zero, sum_eq_single 0]
  · rw [I_C_mul, legendre_zero]
    have : I 1 = 2 := by simp [I]; norm_num
    rw [this]
    simp
    ring
  · intro k _ hk
    rw [I_C_mul, I_legendre hk, mul_zero]
  · intro h
    exact absurd (mem_range.mpr (by omega)) h

theorem degree_kernel (N : ℕ) (y : ℝ) : (kernel N y).degree < (N + 1 : ℕ) := by
  have h : ∀ k ≤ N, ∀ a : ℝ, (C a * legendre k).degree < (N + 1 : ℕ) := fun k hk a => by
    refine lt_of_le_of_lt degree_le_natDegree ?_
    have := (natDegree_C_mul_le a (legendre k)).trans (natDegree_legendre_le k)
    exact_mod_cast (by omega : (C a * legendre k).natDegree < N + 1)
  unfold kernel
  refine lt_of_le_of_lt (degree_add_le _ _) (max_lt ?_ (h N le_rfl _))
  refine lt_of_le_of_lt (degree_sum_le _ _) ((Finset.sup_lt_iff (WithBot.bot_lt_coe _)).mpr fun k hk => h k (mem_range.mp hk).le _)

/-! ## Exactness -/

theorem natDegree_qPoly_le (N : ℕ) : (qPoly N).natDegree ≤ N + 1 := by
  unfold qPoly
  refine (natDegree_sub_le _ _).trans (max_le (natDegree_legendre_le _) ((natDegree_legendre_le _).trans (by omega)))

theorem qPoly_ne {N : ℕ} (hN : 1 ≤ N) : qPoly N ≠ 0 := by
  intro h
  have := congrArg (eval 1) (deriv_qPoly hN)
  rw [h] at this
  simp [legendre_eval_one] at this
  have h2 : (0 : ℝ) < 2 * N + 1 := by positivity
  linarith

/-- Quadrature with the exact points integrates polynomials of degree up to `2 N - 1`. -/
theorem exact {N : ℕ} (hN : 1 ≤ N) {p : ℕ → ℝ} (hp : Set.InjOn p (range (N + 1))) (hq : ∀ i ≤ N, (qPoly N).eval (p i) = 0)
    (hP : ∀ i ≤ N, (legendre N).eval (p i) ≠ 0) {f : ℝ[X]} (hf : f.natDegree ≤ 2 * N - 1) :
    ∑ i ∈ range (N + 1), 2 / ((N : ℝ) * (N + 1) * (legendre N).eval (p i) ^ 2) * f.eval (p i) = I f := by
  have hN0 : (0 : ℝ) < N := by exact_mod_cast hN
  have hK : ∀ i ≤ N, (kernel N (p i)).eval (p i) ≠ 0 := fun i hi => by
    rw [kernel_self hN (hq i hi)]
    have := hP i hi
    positivity
  -- low degrees
  have low : ∀ r : ℝ[X], r.degree < (N + 1 : ℕ) → ∑ i ∈ range (N + 1), 2 / ((N : ℝ) * (N + 1) * (legendre N).eval (p i) ^ 2) * r.eval (p i) = I r := by
    intro r hr
    have e : r = ∑ i ∈ range (N + 1), C (r.eval (p i) / (kernel N (p i)).eval (p i)) * kernel N (p i) := by
      refine _root_.Polynomial.eq_of_degrees_lt_of_eval_index_eq (s := range (N + 1)) (v := p) hp (by rw [card_range]; exact hr) ?_ ?_
      · rw [card_range]
        refine lt_of_le_of_lt (degree_sum_le _ _) ((Finset.sup_lt_iff (WithBot.bot_lt_coe _)).mpr fun i _ => ?_)
        exact lt_of_le_of_lt ((C_mul' _ (kernel N (p i))).symm ▸ degree_smul_le _ _) (degree_kernel N (p i))
      · intro j hj
        rw [eval_finset_sum, sum_eq_single j]
        · rw [eval_mul, eval_C, div_mul_cancel₀ _ (hK j (by have := mem_range.mp hj; omega))]
        · intro i hi hne
          rw [eval_mul, kernel_other hN (hq j (by have := mem_range.mp hj; omega)) (hq i (by have := mem_range.mp hi; omega)), mul_zero]
          exact fun h => hne (hp hi hj h.symm)
        · exact fun h => absurd hj h
    conv_rhs => rw [e, I_sum]
    refine sum_congr rfl fun i hi => ?_
    have hi' : i ≤ N := by have := mem_range.mp hi; omega
    have := hP i hi'
    rw [I_C_mul, I_kernel hN, kernel_self hN (hq i hi')]
    have : (2 * (N : ℝ) + 1) ≠ 0 := by positivity
    field_simp
  -- division by the product of the linear factors
  set m : ℝ[X] := ∏ i ∈ range (N + 1), (X - C (p i)) with hm
  have hmon : m.Monic := monic_prod_of_monic _ _ fun i _ => monic_X_sub_C _
  have hdeg : m.natDegree = N + 1 := by rw [hm, natDegree_prod_of_monic _ _ fun i _ => monic_X_sub_C _]; simp
  have hdvd : m ∣ qPoly N := by
    refine prod_dvd_of_coprime ?_ fun i hi => dvd_iff_isRoot.mpr (hq i (by have := mem_range.mp hi; omega))
    intro i hi j hj hij
    exact isCoprime_X_sub_C_of_isUnit_sub (isUnit_iff_ne_zero.mpr (sub_ne_zero.mpr fun h => hij (hp hi hj h)))
  obtain ⟨c, hc⟩ := hdvd
  have hcdeg : c.natDegree = 0 := by
    have h1 := natDegree_qPoly_le N
    have hc0 : c ≠ 0 := by rintro rfl; exact qPoly_ne hN (by rw [hc, mul_zero])
    rw [hc, natDegree_mul hmon.ne_zero hc0, hdeg] at h1
    omega
  obtain ⟨a, ha⟩ : ∃ a : ℝ, c = C a := ⟨c.coeff 0, eq_C_of_natDegree_eq_zero hcdeg⟩
  have ha0 : a ≠ 0 := by rintro rfl; exact qPoly_ne hN (by rw [hc, ha, map_zero, mul_zero])
  have hdiv := modByMonic_add_div f m
  have hr : (f %ₘ m).degree < (N + 1 : ℕ) := by
    have := degree_modByMonic_lt f hmon
    rwa [degree_eq_natDegree hmon.ne_zero, hdeg] at this
  have hg : (f /ₘ m).degree < (N - 1 : ℕ) := by
    have h1 := natDegree_divByMonic f hmon
    by_cases hz : f /ₘ m = 0
    · rw [hz, degree_zero]; exact WithBot.bot_lt_coe _
    · have hlt : ¬ f.degree < m.degree := fun h => hz ((divByMonic_eq_zero_iff hmon).mpr h)
      have : N + 1 ≤ f.natDegree := by
        by_contra h
        push Not at h
        refine hlt ?_
        rw [degree_eq_natDegree hmon.ne_zero, hdeg]
        exact lt_of_le_of_lt degree_le_natDegree (by exact_mod_cast h)
      rw [degree_eq_natDegree hz, h1, hdeg]
      exact_mod_cast (by omega : f.natDegree - (N + 1) < N - 1)
  have hI : I (m * (f /ₘ m)) = 0 := by
    have h1 : a * I (m * (f /ₘ m)) = 0 := by
      rw [← I_C_mul]
      have e : C a * (m * (f /ₘ m)) = legendre (N + 1) * (f /ₘ m) + C (-1) * (legendre (N - 1) * (f /ₘ m)) := by
        rw [← mul_assoc, mul_comm (C a) m, ← ha, ← hc, qPoly]
        simp
        ring
      rw [e, I_add, I_C_mul, ortho_lower (N - 1) (by omega) _ hg, ortho_lower (N - 1) le_rfl _ hg]
      simp
    exact (mul_eq_zero.mp h1).resolve_left ha0
  have hev : ∀ i ≤ N, f.eval (p i) = (f %ₘ m).eval (p i) := by
    intro i hi
    have hroot : m.eval (p i) = 0 := by
      rw [hm, eval_prod]
      exact prod_eq_zero (mem_range.mpr (by omega : i < N + 1)) (by simp)
    conv_lhs => rw [← hdiv, eval_add, eval_mul, hroot, zero_mul, add_zero]
  rw [sum_congr rfl fun i hi => by rw [hev i (by have := mem_range.mp hi; omega)], low _ hr]
  conv_rhs => rw [← hdiv, I_add, hI, add_zero]

/-! ## The polynomial whose zeros are the points has only real zeros -/

theorem splits_derivative {p : ℝ[X]} (hp : p.Splits) : (derivative p).Splits := by
  rw [splits_iff_card_roots] at hp ⊢
  refine le_antisymm (card_roots' _) ?_
  have h1 := card_roots_le_derivative p
  have h2 := natDegree_derivative_le p
  omega

theorem splits_iterate {p : ℝ[X]} (hp : p.Splits) (n : ℕ) : (derivative^[n] p).Splits := by
  induction n with
  | zero => exact hp
  | succ n ih => rw [Function.iterate_succ_apply']; exact splits_derivative ih

theorem splits_sq : (X ^ 2 - 1 : ℝ[X]).Splits := by
  have : (X ^ 2 - 1 : ℝ[X]) = (X - C 1) * (X - C (-1)) := by simp; ring
  rw [this]
  exact (Splits.X_sub_C _).mul (Splits.X_sub_C _)

theorem splits_legendre (n : ℕ) : (legendre n).Splits := by
  rw [legendre_eq]
  exact (Splits.C _).mul (splits_iterate (splits_sq.pow n) n)

theorem qPoly_eq {N : ℕ} (hN : 1 ≤ N) : C ((N : ℝ) * (N + 1)) * qPoly N = C (2 * (N : ℝ) + 1) * ((X ^ 2 - 1) * derivative (legendre N)) := by
  obtain ⟨M, rfl⟩ : ∃ M, N = M + 1 := ⟨N - 1, by omega⟩
  have h1 := legendre_B (M + 1)
  have h2 := bonnet M
  unfold qPoly
  simp only [show M + 1 - 1 = M by omega, map_mul, map_add, Nat.cast_add, Nat.cast_one, map_one, map_natCast, C_ofNat] at *
  rw [show M + 1 + 1 = M + 2 by ring] at *
  linear_combination (2 * (M : ℝ[X]) + 3) * h1 - ((M : ℝ[X]) + 2) * h2

theorem splits_qPoly {N : ℕ} (hN : 1 ≤ N) : (qPoly N).Splits := by
  have hN0 : (0 : ℝ) < N := by exact_mod_cast hN
  have e : qPoly N = C ((2 * (N : ℝ) + 1) / (N * (N + 1))) * ((X ^ 2 - 1) * derivative (legendre N)) := by
    have hk : (N : ℝ) * (N + 1) ≠ 0 := by positivity
    refine mul_left_cancel₀ (C_ne_zero.mpr hk) ?_
    rw [qPoly_eq hN, ← mul_assoc (C ((N : ℝ) * (N + 1))), ← C_mul, mul_div_cancel₀ _ hk]
  rw [e]
  exact (Splits.C _).mul (splits_sq.mul (splits_derivative (splits_legendre N)))

/-- Near a point where the step of Newton's method is small there is a zero. -/
theorem zero_near {p : ℝ[X]} (hp : p.Splits) {y : ℝ} (hd : (derivative p).eval y ≠ 0) :
    ∃ r, p.eval r = 0 ∧ |y - r| ≤ p.natDegree * |p.eval y / (derivative p).eval y| := by
  by_cases h0 : p.eval y = 0
  · exact ⟨y, h0, by simp [h0]⟩
  have hsum := hp.eval_derivative_div_eval_of_ne_zero h0
  by_contra hcon
  push Not at hcon
  have hp0 : p ≠ 0 := by rintro rfl; simp at h0
  set s := |p.eval y / (derivative p).eval y| with hs
  have hspos : 0 < s := abs_pos.mpr (div_ne_zero h0 hd)
  have hdeg : 0 < p.natDegree := by
    rcases Nat.eq_zero_or_pos p.natDegree with h | h
    · rw [eq_C_of_natDegree_eq_zero h] at hd; simp at hd
    · exact h
  have hn : (0 : ℝ) < p.natDegree := by exact_mod_cast hdeg
  have hlt : ∀ r ∈ p.roots, |1 / (y - r)| < 1 / (p.natDegree * s) := by
    intro r hr
    have := hcon r ((mem_roots hp0).mp hr)
    rw [abs_div, abs_one]
    exact one_div_lt_one_div_of_lt (by positivity) this
  have hle : |(p.roots.map fun r => 1 / (y - r)).sum| < 1 / s := by
    have hne : p.roots ≠ 0 := by
      intro h
      have := hp.natDegree_eq_card_roots
      rw [h] at this; simp at this; omega
    calc |(p.roots.map fun r => 1 / (y - r)).sum| ≤ (p.roots.map fun r => |1 / (y - r)|).sum := by
          have := Multiset.abs_sum_le_sum_abs (s := p.roots.map fun r => 1 / (y - r))
          rwa [Multiset.map_map] at this
      _ < (p.roots.map fun _ => 1 / (p.natDegree * s)).sum := Multiset.sum_lt_sum_of_nonempty hne hlt
      _ = 1 / s := by
          rw [Multiset.map_const', Multiset.sum_replicate, ← hp.natDegree_eq_card_roots, nsmul_eq_mul]
          field_simp
  rw [← hsum] at hle
  have : |(derivative p).eval y / p.eval y| = 1 / s := by
    rw [hs, abs_div, abs_div, one_div_div]
  rw [this] at hle
  exact lt_irrefl _ hle

/-- The zeros are simple. -/
theorem legendre_ne_of_zero {N : ℕ} (hN : 1 ≤ N) {y : ℝ} (hy : (qPoly N).eval y = 0) : (legendre N).eval y ≠ 0 := by
  intro h
  have h1 := kernel_mul hN y
  rw [hy, h, map_zero, zero_mul, zero_mul, sub_zero, mul_zero] at h1
  have h2 : kernel N y = 0 := (mul_eq_zero.mp h1).resolve_left (X_sub_C_ne_zero y)
  have h3 := I_kernel hN y
  rw [h2, I_zero] at h3
  have : (0 : ℝ) < 2 * (2 * N + 1) := by positivity
  linarith

theorem natDegree_qPoly {N : ℕ} (hN : 1 ≤ N) : (qPoly N).natDegree = N + 1 := by
  refine le_antisymm (natDegree_qPoly_le N) (le_natDegree_of_ne_zero ?_)
  unfold qPoly
  rw [coeff_sub, coeff_eq_zero_of_natDegree_lt (lt_of_le_of_lt (natDegree_legendre_le (N - 1)) (by omega)), sub_zero]
  exact coeff_legendre_ne _

/-- There are `N + 1` zeros. -/
theorem card_zeros {N : ℕ} (hN : 1 ≤ N) : (qPoly N).roots.toFinset.card = N + 1 := by
  have hnd : (qPoly N).roots.Nodup := by
    rw [Multiset.nodup_iff_count_le_one]
    intro a
    rw [count_roots]
    by_contra hcon
    push Not at hcon
    have h1 := (one_lt_rootMultiplicity_iff_isRoot (qPoly_ne hN)).mp hcon
    have h2 := h1.2
    rw [IsRoot, deriv_qPoly hN, eval_mul, eval_C] at h2
    rcases mul_eq_zero.mp h2 with h3 | h3
    · have : (0 : ℝ) < 2 * N + 1 := by positivity
      linarith
    · exact legendre_ne_of_zero hN h1.1 h3
  rw [Multiset.toFinset_card_of_nodup hnd, ← (splits_qPoly hN).natDegree_eq_card_roots, natDegree_qPoly hN]

end GSplines.GLL
