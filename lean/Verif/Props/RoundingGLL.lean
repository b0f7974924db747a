import Verif.Proofs.RoundingGLL
import Verif.Props.GLLNodes
import Verif.Props.Rounding

/-!
# C86: the Gauss-Lobatto points and weights with rounding errors

`Rounded.pointsWeights u n jp jw o` says that `legendre_gauss_lobatto_points_and_weights(n)` may end with `o` when each operation on doubles has a relative error of at
most `u.1` plus an absolute error of at most `u.2`; `jp` and `jw` are the previous contents of the memory of the two vectors. An outcome is a pair of vectors or an error.
-/

namespace GSplines.Props

open GSplines Spec GLL Finset Polynomial Topology

/-- **C86.** Whatever the rounding errors, with two or more points no variable is read before it is assigned and no index is out of range. -/
theorem C86_in_range (u : ℝ × ℝ) (n : ℕ) (hn : 2 ≤ n) (jp jw : Vec) (o : Res (Vec × Vec)) (h : Rounded.pointsWeights u n jp jw o) : o ≠ .error .ub := by
  rcases Nat.eq_or_lt_of_le hn with rfl | hn3
  · unfold Rounded.pointsWeights at h
    rw [if_neg (by norm_num), if_pos rfl] at h
    cases h
    simp
  · rcases Rounded.pointsWeights_any u hn3 jp jw o h with ⟨e, he, rfl⟩ | ⟨a, -, rfl⟩
    · intro h; injection h with h; exact he h
    · simp

/-- **C86.** The result of exact arithmetic is among the possible ones. -/
theorem C86_exact (u : ℝ × ℝ) (h1 : 0 ≤ u.1) (h2 : 0 ≤ u.2) (n : ℕ) (jp jw : Vec) : Rounded.pointsWeights u n jp jw (pointsWeights n jp jw) := by
  cases h : pointsWeights n jp jw with
  | ok o => exact Rounded.pointsWeights_has h1 h2 h
  | error e =>
    have hn : n < 2 := by
      by_contra hc
      obtain ⟨p, w, h'⟩ := (C45_returns n jp jw).mpr (by omega)
      rw [h'] at h; cases h
    unfold pointsWeights at h
    rw [if_pos hn] at h
    cases h
    unfold Rounded.pointsWeights
    rw [if_pos hn]
    rfl

/-- **C86.** Whatever the rounding errors, the computed points run from exactly `-1` to exactly `1`, they are exactly antisymmetric, and the weights are exactly symmetric. -/
theorem C86_symmetric (u : ℝ × ℝ) (n : ℕ) (jp jw p w : Vec) (h : Rounded.pointsWeights u n jp jw (.ok (p, w))) :
    p 0 = -1 ∧ p (n - 1) = 1 ∧ ∀ i < n, p (n - 1 - i) = -p i ∧ w (n - 1 - i) = w i := by
  by_cases hn : n < 2
  · unfold Rounded.pointsWeights at h
    rw [if_pos hn] at h
    cases h
  rcases Nat.eq_or_lt_of_le (not_lt.mp hn) with rfl | hn3
  · unfold Rounded.pointsWeights at h
    rw [if_neg (by norm_num), if_pos rfl] at h
    injection h with h
    injection h with h1 h2
    subst h1; subst h2
    refine ⟨by simp [setAt], by simp [setAt], fun i hi => ?_⟩
    interval_cases i <;> simp [setAt]
  · rcases Rounded.pointsWeights_any u hn3 jp jw _ h with ⟨e, -, he⟩ | ⟨a, ⟨w0, X, wm, rfl⟩, ha⟩
    · cases he
    · injection ha with ha
      have H := Rounded.result_spec hn3 jp jw w0 X wm
      have A := fun i (hi : i < n) => Rounded.result_anti hn3 jp jw w0 X wm hi
      rw [← ha] at H A
      exact ⟨H.1.zero.1, H.1.zero.2.1, A⟩

/-- **C86.** Every entry is assigned: what can be returned does not depend on the previous contents of the memory. -/
theorem C86_initialised (u : ℝ × ℝ) (n : ℕ) (jp jw jp' jw' p w : Vec) (h : Rounded.pointsWeights u n jp jw (.ok (p, w))) :
    ∃ p' w', Rounded.pointsWeights u n jp' jw' (.ok (p', w')) ∧ ∀ i < n, p i = p' i ∧ w i = w' i := by
  have hn : 2 ≤ n := by
    by_contra hn
    unfold Rounded.pointsWeights at h
    rw [if_pos (by omega)] at h
    cases h
  obtain ⟨o, ho, hi⟩ := Rounded.pointsWeights_memory hn jp' jw' h
  exact ⟨o.1, o.2, ho, hi⟩

/-- The exact points. -/
theorem exact_points {n : ℕ} (hn : 2 ≤ n) : ∃ r : Vec, Arr n r ∧ ∀ i < n, (qPoly (n - 1)).eval (r i) = 0 := by
  obtain ⟨p, w, h⟩ := (C45_returns n (fun _ => 0) (fun _ => 0)).mpr hn
  obtain ⟨r, hr, hq, -⟩ := pw_exact h
  exact ⟨r, hr, hq⟩

/-- **C86.** If the errors are small enough, every run returns points and weights. Let `r` be the increasing enumeration of the zeros of `(1 - x²) P_{n-1}'(x)`: each
point is within `10⁻⁹ + ε` of its own size of the zero with the same index, and each weight is positive and within `ε` of `2 / (N (N + 1) P_N(x)²)`, `N = n - 1`, at
the returned point `x`. -/
theorem C86_accuracy (n : ℕ) (hn : 2 ≤ n) (ε : ℝ) (hε : 0 < ε) :
    ∃ r : Vec, (∀ i j, i < j → j < n → r i < r j) ∧ (∀ x : ℝ, (1 - x ^ 2) * (derivative (legendre (n - 1))).eval x = 0 ↔ ∃ i < n, x = r i) ∧
      ∃ d > 0, ∀ u, Small u d → ∀ jp jw o, Rounded.pointsWeights u n jp jw o → ∃ p w, o = .ok (p, w) ∧
        ∀ i < n, |p i - r i| ≤ (1 / 10 ^ 9 + ε) * |p i| ∧ 0 < w i ∧
          |w i - 2 / (((n - 1 : ℕ) : ℝ) * (((n - 1 : ℕ) : ℝ) + 1) * (legendre (n - 1)).eval (p i) ^ 2)| ≤ ε := by
  obtain ⟨r, hr, hq⟩ := exact_points hn
  refine ⟨r, fun i j hij hj => ?_, zeros_iff hr hq, ?_⟩
  · have := hr.lt hij hj
    have hpos : 0 < 2 / nu (n - 1) ^ 2 := by have := nu_pos (n - 1); positivity
    linarith
  obtain ⟨d, hd, H⟩ := small_of_nhds (Rounded.pointsWeights_near hn hr hq hε)
  refine ⟨d, hd, fun u hu jp jw o ho => ?_⟩
  rcases H u hu jp jw o ho with ⟨_, h, _⟩ | ⟨a, ha, rfl⟩
  · exact h.elim
  · obtain ⟨z, -, -, hz⟩ := ha.arr hn hε hr
    exact ⟨a.1, a.2, rfl, fun i hi => ⟨(hz i hi).2.2.1, (hz i hi).2.2.2.2, (hz i hi).2.2.2.1⟩⟩

/-- **C86.** If the errors are small enough, the points increase, and any two are at least `1 / (n - 1/2)²` apart. -/
theorem C86_order (n : ℕ) (hn : 2 ≤ n) :
    ∃ d > 0, ∀ u, Small u d → ∀ jp jw o, Rounded.pointsWeights u n jp jw o → ∃ p w, o = .ok (p, w) ∧ ∀ i j, i < j → j < n → 1 / ((n : ℝ) - 1 / 2) ^ 2 ≤ p j - p i := by
  obtain ⟨r, hr, hq⟩ := exact_points hn
  have hnu := nu_pos (n - 1)
  have hε : 0 < 1 / 2 * (1 / nu (n - 1) ^ 2) := by positivity
  obtain ⟨d, hd, H⟩ := small_of_nhds (Rounded.pointsWeights_near hn hr hq hε)
  refine ⟨d, hd, fun u hu jp jw o ho => ?_⟩
  rcases H u hu jp jw o ho with ⟨_, h, _⟩ | ⟨a, ha, rfl⟩
  · exact h.elim
  · obtain ⟨z, hA, -, hz⟩ := ha.arr hn hε hr
    refine ⟨a.1, a.2, rfl, fun i j hij hj => ?_⟩
    have h1 := hA.lt hij hj
    have h2 := abs_le.mp (hz i (by omega)).1
    have h3 := abs_le.mp (hz j hj).1
    rw [← nu_eq hn]
    have e : 2 / nu (n - 1) ^ 2 = 2 * (1 / nu (n - 1) ^ 2) := by ring
    rw [e] at h1
    linarith [h2.2, h3.1]

/-- **C86.** If the errors are small enough, the computed rule integrates the polynomials of degree at most `2 n - 3` up to the error of the rule of exact arithmetic
plus `η (L + M)`, where `L` is a Lipschitz constant and `M` a bound of the polynomial. -/
theorem C86_quadrature (n : ℕ) (h2 : 2 ≤ n) (hn : n ≤ 20000) (η : ℝ) (hη : 0 < η) :
    ∃ d > 0, ∀ u, Small u d → ∀ jp jw o, Rounded.pointsWeights u n jp jw o → ∃ p w, o = .ok (p, w) ∧ ∀ (F : ℝ[X]) (L M : ℝ), F.natDegree ≤ 2 * n - 3 →
      (∀ x ∈ Set.Icc (-1 : ℝ) 1, ∀ y ∈ Set.Icc (-1 : ℝ) 1, |F.eval x - F.eval y| ≤ L * |x - y|) → (∀ x ∈ Set.Icc (-1 : ℝ) 1, |F.eval x| ≤ M) →
      |∑ i ∈ range n, w i * F.eval (p i) - ∫ x in (-1 : ℝ)..1, F.eval x| ≤ 2 * (1 / 10 ^ 9) * L + 4 * (((n : ℝ) - 1 / 2) ^ 4 / 10 ^ 18) * M + η * (L + M) := by
  obtain ⟨r, hr, hq⟩ := exact_points h2
  have hnu := nu_pos (n - 1)
  have hn0 : (0 : ℝ) < n := by exact_mod_cast (by omega : 0 < n)
  have hsmall := small_points h2 hn
  set W := ∑ i ∈ range n, wt (n - 1) (r i) with hW
  have hW0 : ∀ x, 0 ≤ wt (n - 1) x := fun x => by unfold wt; positivity
  have hWp : 0 ≤ W := sum_nonneg fun i _ => hW0 _
  obtain ⟨ε, hε, e1, e2, e3⟩ : ∃ ε > 0, n * ε ≤ η ∧ 2 * W * ε ≤ η ∧ ε ≤ 2 / nu (n - 1) ^ 2 := by
    refine ⟨min (min (η / n) (η / (2 * W + 1))) (2 / nu (n - 1) ^ 2), by positivity, ?_, ?_, min_le_right _ _⟩
    · have : min (min (η / n) (η / (2 * W + 1))) (2 / nu (n - 1) ^ 2) ≤ η / n := (min_le_left _ _).trans (min_le_left _ _)
      have := mul_le_mul_of_nonneg_left this hn0.le
      rwa [mul_div_cancel₀ _ hn0.ne'] at this
    · have h1 : min (min (η / n) (η / (2 * W + 1))) (2 / nu (n - 1) ^ 2) ≤ η / (2 * W + 1) := (min_le_left _ _).trans (min_le_right _ _)
      have h3 := mul_le_mul_of_nonneg_left h1 (by positivity : 0 ≤ 2 * W)
      refine h3.trans ?_
      rw [mul_div_assoc', div_le_iff₀ (by positivity)]
      nlinarith
  obtain ⟨d, hd, H⟩ := small_of_nhds (Rounded.pointsWeights_near h2 hr hq hε)
  refine ⟨d, hd, fun u hu jp jw o ho => ?_⟩
  rcases H u hu jp jw o ho with ⟨_, h, _⟩ | ⟨a, ha, rfl⟩
  · exact h.elim
  obtain ⟨z, hA, hzr, hz⟩ := ha.arr h2 hε hr
  refine ⟨a.1, a.2, rfl, fun F L M hF hL hM => ?_⟩
  have hM0 : 0 ≤ M := (abs_nonneg _).trans (hM 0 (by constructor <;> norm_num))
  have hL0 : 0 ≤ L := by
    have := (abs_nonneg _).trans (hL 1 (by constructor <;> norm_num) 0 (by constructor <;> norm_num))
    norm_num at this; exact this
  have hq1 := quad_error_arr hA hr hq hzr (w := fun i => wt (n - 1) (z i)) (fun i _ => rfl) hsmall hF (F.continuous.intervalIntegrable (-1) 1) (ε := 0) (fun x _ => by simp) hL hM
  -- the points are in the interval
  have hends : a.1 0 = -1 ∧ a.1 (n - 1) = 1 := by
    have h1 := ha.anti 0 (by omega)
    rw [Nat.sub_zero, ha.first, neg_neg] at h1
    exact ⟨ha.first, h1⟩
  have hz1 : z (n - 1) = 1 := by
    have := hA.anti 0 (by omega)
    rwa [Nat.sub_zero, hA.first, neg_neg] at this
  have hmem : ∀ i < n, a.1 i ∈ Set.Icc (-1 : ℝ) 1 := by
    intro i hi
    have b := abs_le.mp (hz i hi).1
    constructor
    · rcases Nat.eq_zero_or_pos i with rfl | hp
      · rw [hends.1]
      · have := hA.lt hp hi
        rw [hA.first] at this
        linarith [b.1]
    · rcases Nat.lt_or_ge i (n - 1) with hp | hp
      · have := hA.lt hp (by omega)
        rw [hz1] at this
        linarith [b.2]
      · rw [show i = n - 1 by omega, hends.2]
  have hdiff : |∑ i ∈ range n, a.2 i * F.eval (a.1 i) - ∑ i ∈ range n, wt (n - 1) (z i) * F.eval (z i)| ≤ η * (L + M) := by
    rw [← sum_sub_distrib]
    have hterm : ∀ i ∈ range n, |a.2 i * F.eval (a.1 i) - wt (n - 1) (z i) * F.eval (z i)| ≤ ε * M + 2 * wt (n - 1) (r i) * (L * ε) := by
      intro i hi
      have hi := mem_range.mp hi
      obtain ⟨b1, b2, -⟩ := hz i hi
      have hzm := hA.mem hi
      obtain ⟨-, w2⟩ := arr_weights hA hr hq hzr hi
      have w3 : wt (n - 1) (z i) ≤ 2 * wt (n - 1) (r i) := by nlinarith [hW0 (z i)]
      rw [show a.2 i * F.eval (a.1 i) - wt (n - 1) (z i) * F.eval (z i) = (a.2 i - wt (n - 1) (z i)) * F.eval (a.1 i) + wt (n - 1) (z i) * (F.eval (a.1 i) - F.eval (z i)) by ring]
      refine (abs_add_le _ _).trans ?_
      rw [abs_mul, abs_mul, abs_of_nonneg (hW0 (z i))]
      refine add_le_add (mul_le_mul b2 (hM _ (hmem i hi)) (abs_nonneg _) hε.le) (mul_le_mul w3 ?_ (abs_nonneg _) (mul_nonneg (by norm_num) (hW0 _)))
      exact (hL _ (hmem i hi) _ ⟨hzm.1, hzm.2⟩).trans (mul_le_mul_of_nonneg_left b1 hL0)
    refine (abs_sum_le_sum_abs _ _).trans ((sum_le_sum hterm).trans ?_)
    rw [sum_add_distrib, sum_const, card_range, nsmul_eq_mul, ← sum_mul, ← mul_sum, ← hW]
    have c1 := mul_le_mul_of_nonneg_right e1 hM0
    have c2 := mul_le_mul_of_nonneg_right e2 hL0
    linarith
  rw [← nu_eq h2]
  have := abs_add_le (∑ i ∈ range n, a.2 i * F.eval (a.1 i) - ∑ i ∈ range n, wt (n - 1) (z i) * F.eval (z i))
    (∑ i ∈ range n, wt (n - 1) (z i) * F.eval (z i) - ∫ x in (-1 : ℝ)..1, F.eval x)
  rw [sub_add_sub_cancel] at this
  linarith

/-- Seven points: with small rounding errors there is a run, and in every run the second point is less than the third and all weights are positive. -/
example : ∃ d > 0, ∀ u, Small u d → ∀ jp jw, (∃ o, Rounded.pointsWeights u 7 jp jw o) ∧
    ∀ o, Rounded.pointsWeights u 7 jp jw o → ∃ p w, o = .ok (p, w) ∧ p 1 < p 2 ∧ ∀ i < 7, 0 < w i := by
  obtain ⟨d1, h1, H1⟩ := C86_order 7 (by norm_num)
  obtain ⟨r, -, -, d2, h2, H2⟩ := C86_accuracy 7 (by norm_num) 1 one_pos
  refine ⟨min d1 d2, lt_min h1 h2, fun u hu jp jw => ⟨⟨_, C86_exact u hu.1 hu.2.2.1 7 jp jw⟩, fun o ho => ?_⟩⟩
  obtain ⟨p, w, rfl, hp⟩ := H1 u ⟨hu.1, hu.2.1.trans (min_le_left _ _), hu.2.2.1, hu.2.2.2.trans (min_le_left _ _)⟩ jp jw o ho
  obtain ⟨p', w', e, hw⟩ := H2 u ⟨hu.1, hu.2.1.trans (min_le_right _ _), hu.2.2.1, hu.2.2.2.trans (min_le_right _ _)⟩ jp jw _ ho
  cases e
  refine ⟨p, w, rfl, ?_, fun i hi => (hw i hi).2.1⟩
  have := hp 1 2 (by norm_num) (by norm_num)
  have h3 : (0 : ℝ) < 1 / (((7 : ℕ) : ℝ) - 1 / 2) ^ 2 := by norm_num
  linarith

/-- Five points with a relative error of one hundredth: the run of exact arithmetic is possible, and the point in the middle is zero whatever the errors. -/
example (jp jw : Vec) : (∃ o, Rounded.pointsWeights (1 / 100, 0) 5 jp jw o) ∧ ∀ p w, Rounded.pointsWeights (1 / 100, 0) 5 jp jw (.ok (p, w)) → p 2 = 0 ∧ p 4 = 1 := by
  refine ⟨⟨_, C86_exact _ (by norm_num) (by norm_num) 5 jp jw⟩, fun p w h => ?_⟩
  obtain ⟨-, h1, h2⟩ := C86_symmetric _ 5 jp jw p w h
  have := (h2 2 (by norm_num)).1
  norm_num at this h1
  exact ⟨by linarith, h1⟩

end GSplines.Props
