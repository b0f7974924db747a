import Verif.Proofs.GLLError
import Verif.Props.Integral
import Verif.Props.Colloc
import Mathlib.MeasureTheory.Integral.IntervalIntegral.Basic

/-!
# Accuracy of the Gauss-Lobatto points and of the quadrature (C45, C46, C67)
-/

namespace GSplines.Props

open GSplines Spec GLL Finset Polynomial Fn

/-! ## C45 -/

/-- **C45.** The points and weights are computed for every number of points from two on: Newton's method always comes to an end at a point where the weight is
defined. -/
theorem C45_returns (n : ℕ) (jp jw : Vec) : (∃ p w, pointsWeights n jp jw = .ok (p, w)) ↔ 2 ≤ n :=
  ⟨fun ⟨_, _, h⟩ => (pointsWeights_spec h).1, fun h => pw_total h jp jw⟩

theorem nu_eq {n : ℕ} (hn : 2 ≤ n) : nu (n - 1) = (n : ℝ) - 1 / 2 := by
  unfold nu
  rw [Nat.cast_sub (by omega)]
  push_cast
  ring

/-- **C45.** The points increase, and any two are at least `2 / (n - 1/2)²` apart. -/
theorem C45_order (n : ℕ) (jp jw p w : Vec) (h : pointsWeights n jp jw = .ok (p, w)) (i j : ℕ) (hij : i < j) (hj : j < n) :
    2 / ((n : ℝ) - 1 / 2) ^ 2 ≤ p j - p i := by
  rw [← nu_eq (pointsWeights_spec h).1]
  exact (pw_arr h).lt hij hj

/-- The exact points: the zeros of `(1 - x²) P_{n-1}'(x)`. -/
theorem zeros_iff {n : ℕ} {r : Vec} (hr : Arr n r) (hq : ∀ i < n, (qPoly (n - 1)).eval (r i) = 0) (x : ℝ) :
    (1 - x ^ 2) * (derivative (legendre (n - 1))).eval x = 0 ↔ ∃ i < n, x = r i := by
  have hn := hr.two
  have hN : 1 ≤ n - 1 := by omega
  have hN0 : (0 : ℝ) < ((n - 1 : ℕ) : ℝ) := by exact_mod_cast hN
  have e := congrArg (eval x) (qPoly_eq hN)
  simp only [eval_mul, eval_C, eval_sub, eval_pow, eval_X, eval_one] at e
  have e1 : (1 - x ^ 2) * (derivative (legendre (n - 1))).eval x = 0 ↔ (qPoly (n - 1)).eval x = 0 := by
    constructor
    · intro h
      have : ((n - 1 : ℕ) : ℝ) * (((n - 1 : ℕ) : ℝ) + 1) * (qPoly (n - 1)).eval x = 0 := by
        rw [e]; linear_combination -(2 * ((n - 1 : ℕ) : ℝ) + 1) * h
      exact (mul_eq_zero.mp this).resolve_left (by positivity)
    · intro h
      rw [h, mul_zero] at e
      have : (2 * ((n - 1 : ℕ) : ℝ) + 1) * ((x ^ 2 - 1) * (derivative (legendre (n - 1))).eval x) = 0 := e.symm
      have := (mul_eq_zero.mp this).resolve_left (by positivity)
      linear_combination -this
  rw [e1]
  have hs : image r (range n) = (qPoly (n - 1)).roots.toFinset := by
    refine eq_of_subset_of_card_le (fun y hy => ?_) ?_
    · obtain ⟨i, hi, rfl⟩ := mem_image.mp hy
      rw [Multiset.mem_toFinset, mem_roots (qPoly_ne hN)]
      exact hq i (mem_range.mp hi)
    · rw [card_zeros hN, card_image_of_injOn hr.injOn, card_range]
      omega
  constructor
  · intro h
    have : x ∈ (qPoly (n - 1)).roots.toFinset := by rw [Multiset.mem_toFinset, mem_roots (qPoly_ne hN)]; exact h
    rw [← hs] at this
    obtain ⟨i, hi, rfl⟩ := mem_image.mp this
    exact ⟨i, mem_range.mp hi, rfl⟩
  · rintro ⟨i, hi, rfl⟩
    exact hq i hi

/-- **C45.** The points are the Gauss-Lobatto points up to the tolerance of Newton's method: there is an increasing enumeration `r` of all the zeros of
`(1 - x²) P_{n-1}'(x)`, and every returned point is within `10⁻⁹` of its own size of the one with the same index. -/
theorem C45_accuracy (n : ℕ) (jp jw p w : Vec) (h : pointsWeights n jp jw = .ok (p, w)) :
    ∃ r : Vec, (∀ i j, i < j → j < n → r i < r j) ∧
      (∀ x : ℝ, (1 - x ^ 2) * (derivative (legendre (n - 1))).eval x = 0 ↔ ∃ i < n, x = r i) ∧
      ∀ i < n, |p i - r i| ≤ 1 / 10 ^ 9 * |p i| := by
  obtain ⟨r, hr, hq, ha⟩ := pw_exact h
  refine ⟨r, fun i j hij hj => ?_, zeros_iff hr hq, ha⟩
  have := hr.lt hij hj
  have hpos : 0 < 2 / nu (n - 1) ^ 2 := by have := nu_pos (n - 1); positivity
  linarith

/-- Seven points are computed, they increase, and none is farther than `10⁻⁹` from a zero of `(1 - x²) P_6'(x)`. -/
example (jp jw : Vec) : ∃ p w, pointsWeights 7 jp jw = .ok (p, w) ∧ p 1 < p 2 ∧ p 2 < p 3 ∧
    ∃ x, (1 - x ^ 2) * (derivative (legendre 6)).eval x = 0 ∧ |p 2 - x| ≤ 1 / 10 ^ 9 * |p 2| := by
  obtain ⟨p, w, h⟩ := (C45_returns 7 jp jw).mpr (by norm_num)
  have h1 := C45_order 7 jp jw p w h 1 2 (by norm_num) (by norm_num)
  have h2 := C45_order 7 jp jw p w h 2 3 (by norm_num) (by norm_num)
  obtain ⟨r, -, hz, ha⟩ := C45_accuracy 7 jp jw p w h
  have hp : (0 : ℝ) < 2 / (((7 : ℕ) : ℝ) - 1 / 2) ^ 2 := by norm_num
  exact ⟨p, w, h, by linarith, by linarith, r 2, (hz _).mpr ⟨2, by norm_num, rfl⟩, ha 2 (by norm_num)⟩

/-- With up to 44000 points the comparison with tolerance `10⁻⁹` that the Lagrange basis uses tells the points apart. -/
theorem gll_nodes {n : ℕ} (hn : n ≤ 44000) {jp jw p w : Vec} (h : pointsWeights n jp jw = .ok (p, w)) : Nodes n p := by
  obtain ⟨h0, h1, -⟩ := C45_points_weights n jp jw p w h
  have h2 := (pointsWeights_spec h).1
  have hmem : ∀ k < n, -1 ≤ p k ∧ p k ≤ 1 := fun k hk => (pw_arr h).mem hk
  have hgap : (1 : ℝ) / 10 ^ 9 ≤ 2 / ((n : ℝ) - 1 / 2) ^ 2 := by
    have a : (n : ℝ) ≤ 44000 := by exact_mod_cast hn
    have b : (2 : ℝ) ≤ n := by exact_mod_cast h2
    rw [div_le_div_iff₀ (by norm_num) (by nlinarith)]
    nlinarith
  refine ⟨h2, h0, h1, fun i hi j hj e => ?_, hmem⟩
  have hclose : |p i - p j| < 1 / 10 ^ 9 := by
    unfold Lagrange.almostEqual tol9 at e
    split_ifs at e
    · exact of_decide_eq_true e
    · have := (of_decide_eq_true e).1
      have hi' : |p i| ≤ 1 := abs_le.mpr (hmem i hi)
      nlinarith
  by_contra hne
  rcases Nat.lt_or_gt_of_ne hne with c | c
  · have := C45_order n jp jw p w h i j c hj
    have := neg_abs_le (p i - p j)
    linarith
  · have := C45_order n jp jw p w h j i c hi
    have := le_abs_self (p i - p j)
    linarith

/-! ## C67: the quadrature integrates polynomials -/

theorem small_points {n : ℕ} (h2 : 2 ≤ n) (hn : n ≤ 20000) : nu (n - 1) ^ 4 / 10 ^ 18 ≤ 1 / 2 := by
  rw [nu_eq h2]
  have a : (n : ℝ) ≤ 20000 := by exact_mod_cast hn
  have b : (2 : ℝ) ≤ n := by exact_mod_cast h2
  have c : ((n : ℝ) - 1 / 2) ^ 4 ≤ 20000 ^ 4 := pow_le_pow_left₀ (by linarith) (by linarith) 4
  linarith

/-- **C67.** On `[-1, 1]` the weighted sum of a polynomial of degree at most `2 n - 3` with Lipschitz constant `L` and bound `M` differs from its integral by at most
`2 · 10⁻⁹ L + 4 δ M`, where `δ = (n - 1/2)⁴ / 10¹⁸`. -/
theorem C67_reference (n : ℕ) (hn : n ≤ 20000) (jp jw p w : Vec) (h : pointsWeights n jp jw = .ok (p, w)) (F : ℝ[X]) (hF : F.natDegree ≤ 2 * n - 3) (L M : ℝ)
    (hL : ∀ x ∈ Set.Icc (-1 : ℝ) 1, ∀ y ∈ Set.Icc (-1 : ℝ) 1, |F.eval x - F.eval y| ≤ L * |x - y|) (hM : ∀ x ∈ Set.Icc (-1 : ℝ) 1, |F.eval x| ≤ M) :
    |∑ i ∈ range n, w i * F.eval (p i) - ∫ x in (-1 : ℝ)..1, F.eval x| ≤ 2 * (1 / 10 ^ 9) * L + 4 * (((n : ℝ) - 1 / 2) ^ 4 / 10 ^ 18) * M := by
  have h2 := (pointsWeights_spec h).1
  rw [← nu_eq h2]
  exact quad_error h (small_points h2 hn) hF hL hM

/-- **C67.** The weights sum to two, up to `4 (n - 1/2)⁴ / 10¹⁸`. -/
theorem C67_weights (n : ℕ) (hn : n ≤ 20000) (jp jw p w : Vec) (h : pointsWeights n jp jw = .ok (p, w)) :
    |∑ i ∈ range n, w i - 2| ≤ 4 * (((n : ℝ) - 1 / 2) ^ 4 / 10 ^ 18) := by
  have := C67_reference n hn jp jw p w h 1 (by simp) 0 1 (by simp) (by simp)
  simp only [eval_one, mul_one, mul_zero, zero_add] at this
  convert this using 3
  simp; norm_num

/-- Points that are zeros of `(1 - x²) P_{n-1}'` give the integral exactly. -/
theorem quad_exact {n : ℕ} {jp jw p w : Vec} (h : pointsWeights n jp jw = .ok (p, w)) (hz : ∀ i < n, (qPoly (n - 1)).eval (p i) = 0) {F : ℝ[X]}
    (hF : F.natDegree ≤ 2 * n - 3) : ∑ i ∈ range n, w i * F.eval (p i) = ∫ x in (-1 : ℝ)..1, F.eval x := by
  obtain ⟨hn, -, hg⟩ := pointsWeights_spec h
  have hN : 1 ≤ n - 1 := by omega
  have := GLL.exact hN (p := p) (by rw [show n - 1 + 1 = n by omega]; exact (pw_arr h).injOn) (fun i hi => hz i (by omega)) (fun i hi => legendre_ne_of_zero hN (hz i (by omega)))
    (f := F) (by omega)
  rw [show n - 1 + 1 = n by omega] at this
  rw [← Legendre.I, ← this]
  exact sum_congr rfl fun i hi => by rw [(hg i (mem_range.mp hi)).val]

theorem natDegree_CX (a : ℝ) : (C a * X : ℝ[X]).natDegree ≤ 1 := (natDegree_C_mul_le a X).trans (natDegree_X_le)

theorem gridPoint_affine (d : ℝ × ℝ) (k iv : ℕ) (x : ℝ) : gridPoint d k iv x = (d.1 + (iv + 1 / 2) * ((d.2 - d.1) / k)) + (d.2 - d.1) / k / 2 * x := by
  unfold gridPoint; ring

theorem gridPoint_succ (d : ℝ × ℝ) (k iv : ℕ) : gridPoint d k iv 1 = gridPoint d k (iv + 1) (-1) := by
  unfold gridPoint; push_cast; ring

/-- The composite rule: if on every interval the sum is within `E` of the integral over `[-1, 1]`, the total is within `E` times half the length of the domain. -/
theorem composite {φ : ℝ → ℝ} {d : ℝ × ℝ} {n k : ℕ} (hk : 0 < k) (hd : d.1 ≤ d.2) {p w : Vec}
    (hint : ∀ iv < k, IntervalIntegrable φ MeasureTheory.volume (gridPoint d k iv (-1)) (gridPoint d k iv 1)) {E : ℝ}
    (h : ∀ iv < k, |∑ j ∈ range n, w j * φ (gridPoint d k iv (p j)) - ∫ x in (-1 : ℝ)..1, φ (gridPoint d k iv x)| ≤ E) :
    |quadrature φ d n k p w - ∫ t in d.1..d.2, φ t| ≤ (d.2 - d.1) / 2 * E := by
  have hk0 : (0 : ℝ) < k := by exact_mod_cast hk
  have hH : 0 ≤ (d.2 - d.1) / k / 2 := by have : 0 ≤ d.2 - d.1 := by linarith
                                          positivity
  have cell : ∀ iv, (d.2 - d.1) / k / 2 * ∫ x in (-1 : ℝ)..1, φ (gridPoint d k iv x) = ∫ t in gridPoint d k iv (-1)..gridPoint d k (iv + 1) (-1), φ t := by
    intro iv
    have := intervalIntegral.mul_integral_comp_add_mul (f := φ) (a := -1) (b := 1) ((d.2 - d.1) / k / 2) (d.1 + (iv + 1 / 2) * ((d.2 - d.1) / k))
    rw [← gridPoint_affine, ← gridPoint_affine] at this
    rw [← gridPoint_succ, ← this]
    simp only [gridPoint_affine]
  have total : ∑ iv ∈ range k, ∫ t in gridPoint d k iv (-1)..gridPoint d k (iv + 1) (-1), φ t = ∫ t in d.1..d.2, φ t := by
    rw [intervalIntegral.sum_integral_adjacent_intervals (a := fun iv => gridPoint d k iv (-1)) fun iv hiv => by
      have := hint iv hiv
      rwa [gridPoint_succ] at this]
    congr 1
    · unfold gridPoint; simp
    · unfold gridPoint; field_simp; ring
  unfold quadrature
  rw [← total, ← sum_sub_distrib]
  refine (abs_sum_le_sum_abs _ _).trans ?_
  have : ∀ iv ∈ range k, |(d.2 - d.1) / k / 2 * ∑ j ∈ range n, w j * φ (gridPoint d k iv (p j)) - ∫ t in gridPoint d k iv (-1)..gridPoint d k (iv + 1) (-1), φ t| ≤
      (d.2 - d.1) / k / 2 * E := by
    intro iv hiv
    rw [← cell, ← mul_sub, abs_mul, abs_of_nonneg hH]
    exact mul_le_mul_of_nonneg_left (h iv (mem_range.mp hiv)) hH
  refine (sum_le_sum this).trans (le_of_eq ?_)
  rw [sum_const, card_range, nsmul_eq_mul]
  field_simp

theorem gridPoint_mem {d : ℝ × ℝ} (hd : d.1 ≤ d.2) {k iv : ℕ} (hiv : iv < k) {x : ℝ} (hx : x ∈ Set.Icc (-1 : ℝ) 1) :
    gridPoint d k iv (-1) ≤ gridPoint d k iv x ∧ gridPoint d k iv x ≤ gridPoint d k iv 1 ∧ d.1 ≤ gridPoint d k iv x ∧ gridPoint d k iv x ≤ d.2 := by
  have hk0 : (0 : ℝ) < k := by exact_mod_cast (by omega : 0 < k)
  have hi : (iv : ℝ) + 1 ≤ k := by exact_mod_cast hiv
  have hH : 0 ≤ (d.2 - d.1) / k := div_nonneg (by linarith) hk0.le
  have hT : (k : ℝ) * ((d.2 - d.1) / k) = d.2 - d.1 := by field_simp
  obtain ⟨x1, x2⟩ := hx
  have i0 : (0 : ℝ) ≤ iv := Nat.cast_nonneg _
  unfold gridPoint
  set H := (d.2 - d.1) / k
  refine ⟨?_, ?_, ?_, ?_⟩
  · nlinarith
  · nlinarith
  · have : 0 ≤ ((iv : ℝ) + (x + 1) / 2) * H := mul_nonneg (by linarith) hH
    linarith
  · have : ((iv : ℝ) + (x + 1) / 2) * H ≤ k * H := mul_le_mul_of_nonneg_right (by linarith) hH
    linarith

/-- A function that is a polynomial on each interval: the polynomial on `[-1, 1]` it gives, and its integrability. -/
theorem poly_cell {φ : ℝ → ℝ} {d : ℝ × ℝ} (hd : d.1 ≤ d.2) {k m iv : ℕ} (hiv : iv < k) (h : PiecewisePoly φ d k m) :
    IntervalIntegrable φ MeasureTheory.volume (gridPoint d k iv (-1)) (gridPoint d k iv 1) ∧
      ∃ G : ℝ[X], G.natDegree ≤ m ∧ ∀ x ∈ Set.Icc (-1 : ℝ) 1, φ (gridPoint d k iv x) = G.eval x := by
  obtain ⟨F, hF, he⟩ := h iv hiv
  have hle : gridPoint d k iv (-1) ≤ gridPoint d k iv 1 := (gridPoint_mem hd hiv (x := 1) (by constructor <;> norm_num)).1
  refine ⟨?_, F.comp (C (d.1 + (iv + 1 / 2) * ((d.2 - d.1) / k)) + C ((d.2 - d.1) / k / 2) * X), ?_, fun x hx => ?_⟩
  · refine (F.continuous.intervalIntegrable _ _).congr ?_
    intro t ht
    rw [Set.uIoc_of_le hle] at ht
    exact (he t ht.1.le ht.2).symm
  · rw [natDegree_comp]
    have : (C (d.1 + (iv + 1 / 2) * ((d.2 - d.1) / k)) + C ((d.2 - d.1) / k / 2) * X : ℝ[X]).natDegree ≤ 1 := by
      refine (natDegree_add_le _ _).trans (max_le (by rw [natDegree_C]; exact Nat.zero_le _) (natDegree_CX _))
    calc _ ≤ F.natDegree * 1 := Nat.mul_le_mul_left _ this
      _ ≤ m := by omega
  · have := gridPoint_mem hd hiv hx
    rw [he _ this.1 this.2.1, gridPoint_affine]
    simp

/-- The error of the composite rule for a function that is a polynomial on each interval. -/
theorem quadrature_error (φ : ℝ → ℝ) {d : ℝ × ℝ} (hd : d.1 ≤ d.2) {n k : ℕ} (h2 : 2 ≤ n) (hn : n ≤ 20000) (hk : 0 < k) {jp jw p w : Vec}
    (hpw : pointsWeights n jp jw = .ok (p, w)) (hpoly : PiecewisePoly φ d k (2 * n - 3)) (L M : ℝ)
    (hL : ∀ s t, d.1 ≤ s → s ≤ d.2 → d.1 ≤ t → t ≤ d.2 → |φ s - φ t| ≤ L * |s - t|) (hM : ∀ t, d.1 ≤ t → t ≤ d.2 → |φ t| ≤ M) :
    |quadrature φ d n k p w - ∫ t in d.1..d.2, φ t| ≤ (d.2 - d.1) * (1 / 10 ^ 9 * L * ((d.2 - d.1) / k) / 2 + 2 * (((n : ℝ) - 1 / 2) ^ 4 / 10 ^ 18) * M) := by
  have hmem := fun k hk => (pw_arr hpw).mem (i := k) hk
  have hk0 : (0 : ℝ) < k := by exact_mod_cast hk
  have hH : 0 ≤ (d.2 - d.1) / k := div_nonneg (by linarith) hk0.le
  have key := composite (φ := φ) (d := d) (n := n) (p := p) (w := w) hk hd (fun iv hiv => (poly_cell hd hiv hpoly).1)
      (E := 2 * (1 / 10 ^ 9) * (L * ((d.2 - d.1) / k / 2)) + 4 * (((n : ℝ) - 1 / 2) ^ 4 / 10 ^ 18) * M) (fun iv hiv => ?_)
  · refine key.trans (le_of_eq ?_)
    ring
  · obtain ⟨-, G, hG, hg⟩ := poly_cell hd hiv hpoly
    have e1 : ∑ j ∈ range n, w j * φ (gridPoint d k iv (p j)) = ∑ j ∈ range n, w j * G.eval (p j) :=
      sum_congr rfl fun j hj => by rw [hg _ (hmem j (mem_range.mp hj))]
    have e2 : ∫ x in (-1 : ℝ)..1, φ (gridPoint d k iv x) = ∫ x in (-1 : ℝ)..1, G.eval x := by
      refine intervalIntegral.integral_congr fun x hx => ?_
      rw [Set.uIcc_of_le (by norm_num)] at hx
      exact hg x hx
    rw [e1, e2]
    refine C67_reference n hn jp jw p w hpw G hG _ _ (fun x hx y hy => ?_) (fun x hx => ?_)
    · rw [← hg x hx, ← hg y hy]
      obtain ⟨-, -, a, b⟩ := gridPoint_mem hd hiv hx
      obtain ⟨-, -, a', b'⟩ := gridPoint_mem hd hiv hy
      refine (hL _ _ a b a' b').trans (le_of_eq ?_)
      rw [gridPoint_affine, gridPoint_affine, add_sub_add_left_eq_sub, ← mul_sub, abs_mul, abs_of_nonneg (by linarith : 0 ≤ (d.2 - d.1) / k / 2)]
      ring
    · rw [← hg x hx]
      obtain ⟨-, -, a, b⟩ := gridPoint_mem hd hiv hx
      exact hM _ a b

/-- **C67.** `integral` of a scalar function that is a polynomial of degree at most `2 n - 3` on each of the `k` intervals returns its integral, up to
`(b - a) (10⁻⁹ L h / 2 + 2 δ M)`, where `h = (b - a) / k` is the length of the intervals, `L` a Lipschitz constant and `M` a bound of the function, and
`δ = (n - 1/2)⁴ / 10¹⁸`. -/
theorem C67_integral (f : Fn) (h1 : f.codim = 1) (hd : f.dom.1 ≤ f.dom.2) (n k : ℕ) (h2 : 2 ≤ n) (hn : n ≤ 20000) (hk : 0 < k) (jp jw : Vec)
    (he : ∀ t, f.dom.1 ≤ t → t ≤ f.dom.2 → ∃ x, f.call [t] = .ok [[x]]) (hpoly : PiecewisePoly (val f 0) f.dom k (2 * n - 3)) (L M : ℝ)
    (hL : ∀ s t, f.dom.1 ≤ s → s ≤ f.dom.2 → f.dom.1 ≤ t → t ≤ f.dom.2 → |val f 0 s - val f 0 t| ≤ L * |s - t|)
    (hM : ∀ t, f.dom.1 ≤ t → t ≤ f.dom.2 → |val f 0 t| ≤ M) :
    ∃ v, f.integral n k jp jw = .ok v ∧
      |v - ∫ t in f.dom.1..f.dom.2, val f 0 t| ≤
        (f.dom.2 - f.dom.1) * (1 / 10 ^ 9 * L * ((f.dom.2 - f.dom.1) / k) / 2 + 2 * (((n : ℝ) - 1 / 2) ^ 4 / 10 ^ 18) * M) := by
  obtain ⟨p, w, hpw⟩ := (C45_returns n jp jw).mpr h2
  have hmem := fun k hk => (pw_arr hpw).mem (i := k) hk
  refine ⟨_, ((C43_integral f n k jp jw).2 h1 _).mpr ⟨p, w, hpw, fun iv hiv j hj => ?_, rfl⟩, ?_⟩
  · obtain ⟨-, -, a, b⟩ := gridPoint_mem hd hiv (hmem j hj)
    exact he _ a b
  · exact quadrature_error _ hd h2 hn hk hpw hpoly L M hL hM

theorem two_zeros {p : Vec} (h0 : p 0 = -1) (h1 : p 1 = 1) : ∀ i < 2, (qPoly (2 - 1)).eval (p i) = 0 := by
  intro i hi
  interval_cases i
  · rw [h0]; exact qPoly_neg (by norm_num) (qPoly_one _)
  · rw [h1, qPoly_one]

/-- **C67.** With two or three points the rule is exact: the trapezoidal rule integrates linear functions, Simpson's rule cubic ones. -/
theorem C67_exact (f : Fn) (h1 : f.codim = 1) (hd : f.dom.1 ≤ f.dom.2) (n k : ℕ) (hn : n = 2 ∨ n = 3) (hk : 0 < k) (jp jw : Vec)
    (he : ∀ t, f.dom.1 ≤ t → t ≤ f.dom.2 → ∃ x, f.call [t] = .ok [[x]]) (hpoly : PiecewisePoly (val f 0) f.dom k (2 * n - 3)) :
    f.integral n k jp jw = .ok (∫ t in f.dom.1..f.dom.2, val f 0 t) := by
  obtain ⟨p, w, hpw, hz⟩ : ∃ p w, pointsWeights n jp jw = .ok (p, w) ∧ ∀ i < n, (qPoly (n - 1)).eval (p i) = 0 := by
    rcases hn with rfl | rfl
    · obtain ⟨p, w, h, p0, p1, -⟩ := two_points jp jw
      exact ⟨p, w, h, two_zeros p0 p1⟩
    · obtain ⟨p, w, h, p0, p1, p2, -⟩ := three_points jp jw
      refine ⟨p, w, h, fun i hi => ?_⟩
      interval_cases i
      · rw [p0]; exact qPoly_neg (by norm_num) (qPoly_one _)
      · have := LegendrePoly.bonnet_eval 1 0
        simp only [LegendrePoly.legendre_one, eval_X] at this
        unfold qPoly
        rw [p1, eval_sub, show 3 - 1 + 1 = 3 by norm_num, show 3 - 1 - 1 = 1 by norm_num, LegendrePoly.legendre_one, eval_X]
        norm_num at this ⊢
        exact this
      · rw [p2, qPoly_one]
  have hmem := fun k hk => (pw_arr hpw).mem (i := k) hk
  refine ((C43_integral f n k jp jw).2 h1 _).mpr ⟨p, w, hpw, fun iv hiv j hj => ?_, ?_⟩
  · obtain ⟨-, -, a, b⟩ := gridPoint_mem hd hiv (hmem j hj)
    exact he _ a b
  · have key := composite (φ := val f 0) (d := f.dom) (n := n) (p := p) (w := w) hk hd (fun iv hiv => (poly_cell hd hiv hpoly).1)
      (E := 0) (fun iv hiv => ?_)
    · rw [mul_zero] at key
      exact (sub_eq_zero.mp (abs_nonpos_iff.mp key)).symm
    · obtain ⟨-, G, hG, hg⟩ := poly_cell hd hiv hpoly
      have e1 : ∑ j ∈ range n, w j * val f 0 (gridPoint f.dom k iv (p j)) = ∑ j ∈ range n, w j * G.eval (p j) :=
        sum_congr rfl fun j hj => by rw [hg _ (hmem j (mem_range.mp hj))]
      have e2 : ∫ x in (-1 : ℝ)..1, val f 0 (gridPoint f.dom k iv x) = ∫ x in (-1 : ℝ)..1, G.eval x := by
        refine intervalIntegral.integral_congr fun x hx => ?_
        rw [Set.uIcc_of_le (by norm_num)] at hx
        exact hg x hx
      rw [e1, e2, quad_exact hpw hz hG, sub_self, abs_zero]

/-! ## C46: sums of the weights -/

/-- **C46.** Uniform grid: the weights sum to the length of the domain, up to `2 (n - 1/2)⁴ / 10¹⁸` of it. -/
theorem C46_uniform_weights_sum (m n : ℕ) (hm : m ≤ 20000) (hn : 0 < n) (jp jw p w junk : Vec) (h : pointsWeights m jp jw = .ok (p, w)) (dom : ℝ × ℝ) (hd : dom.1 ≤ dom.2) :
    |∑ i ∈ range (n * m), gridWeights w dom m n junk i - (dom.2 - dom.1)| ≤ 2 * (((m : ℝ) - 1 / 2) ^ 4 / 10 ^ 18) * (dom.2 - dom.1) := by
  have h1 := C67_weights m hm jp jw p w h
  unfold gridWeights
  rw [sum_segments]
  have : ∀ iv ∈ range n, ∑ k ∈ range m, w k * ((dom.2 - dom.1) / n) / 2 = (∑ k ∈ range m, w k) / 2 * ((dom.2 - dom.1) / n) := by
    intro iv _
    rw [← sum_div, ← sum_mul]; ring
  rw [sum_congr rfl this, sum_const, card_range, nsmul_eq_mul]
  have hn' : (n : ℝ) ≠ 0 := by exact_mod_cast (by omega : n ≠ 0)
  have e : (n : ℝ) * ((∑ k ∈ range m, w k) / 2 * ((dom.2 - dom.1) / n)) - (dom.2 - dom.1) = (∑ k ∈ range m, w k - 2) * ((dom.2 - dom.1) / 2) := by
    field_simp
  rw [e, abs_mul, abs_of_nonneg (by linarith : 0 ≤ (dom.2 - dom.1) / 2)]
  refine (mul_le_mul_of_nonneg_right h1 (by linarith)).trans (le_of_eq ?_)
  ring

/-- **C46.** Intervals of different lengths: the weights sum to the total length, up to `2 (n - 1/2)⁴ / 10¹⁸` of it. -/
theorem C46_lengths_weights_sum (m n : ℕ) (hm : m ≤ 20000) (jp jw p w tau junk : Vec) (h : pointsWeights m jp jw = .ok (p, w)) (ht : ∀ iv < n, 0 ≤ tau iv) :
    |∑ i ∈ range (n * m), varWeights w m n tau junk i - ∑ iv ∈ range n, tau iv| ≤ 2 * (((m : ℝ) - 1 / 2) ^ 4 / 10 ^ 18) * ∑ iv ∈ range n, tau iv := by
  have h1 := C67_weights m hm jp jw p w h
  unfold varWeights
  rw [sum_segments]
  have : ∀ iv ∈ range n, ∑ k ∈ range m, w k * tau iv / 2 = (∑ k ∈ range m, w k) / 2 * tau iv := by
    intro iv _
    rw [← sum_div, ← sum_mul]; ring
  have hs : 0 ≤ ∑ iv ∈ range n, tau iv := sum_nonneg fun iv hiv => ht iv (mem_range.mp hiv)
  rw [sum_congr rfl this, ← mul_sum]
  have e : (∑ k ∈ range m, w k) / 2 * ∑ iv ∈ range n, tau iv - ∑ iv ∈ range n, tau iv = (∑ k ∈ range m, w k - 2) * ((∑ iv ∈ range n, tau iv) / 2) := by ring
  rw [e, abs_mul, abs_of_nonneg (by linarith : 0 ≤ (∑ iv ∈ range n, tau iv) / 2)]
  refine (mul_le_mul_of_nonneg_right h1 (by linarith)).trans (le_of_eq ?_)
  ring

/-! ## C47 without conditions on the points -/

/-- **C47.** Any function that can be evaluated on its domain has an approximation with up to 44000 points per interval, and it takes the value of the function at every
collocation point. -/
theorem C47_collocation (f : Fn) (n m : ℕ) (h2 : 2 ≤ n) (hn : n ≤ 44000) (jp jw junk : Vec) (hd : f.dom.1 < f.dom.2)
    (he : ∀ t, f.dom.1 ≤ t → t ≤ f.dom.2 → ∃ r, f.call [t] = .ok [r]) :
    ∃ p w g, pointsWeights n jp jw = .ok (p, w) ∧ Colloc.approximate f n m jp jw junk = .ok g ∧
      ∀ iv < m, ∀ k < n, ∃ r, f.call [gridPoint f.dom m iv (p k)] = .ok [r] ∧ g.value (gridPoint f.dom m iv (p k)) = .ok r := by
  obtain ⟨p, w, hpw⟩ := (C45_returns n jp jw).mpr h2
  have hp := gll_nodes hn hpw
  obtain ⟨e1, -⟩ := C47_approximate f n m jp jw junk p w hpw hd.le
  obtain ⟨g, hg⟩ := e1.mpr fun iv hiv k hk => by
    obtain ⟨-, -, a, b⟩ := gridPoint_mem hd.le hiv (x := p k) (hp.mem k hk)
    exact he _ a b
  exact ⟨p, w, g, hpw, hg, fun iv hiv k hk => C47_interpolates f n m jp jw junk p w hpw hp hd g hg iv k hiv hk⟩

/-! ## Cases -/

/-- Six points on two intervals: the integral of `3 t` over `[0, 2]` is `6`, up to `10⁻⁷`. -/
example (jp jw : Vec) : ∃ v, (dil (0, 2) 3).integral 6 2 jp jw = .ok v ∧ |v - 6| ≤ 1 / 10 ^ 7 := by
  have hv : ∀ t, val (dil (0, 2) 3) 0 t = 3 * t := fun t => by rw [val_of_call (dil_call (0, 2) 3 t)]; simp
  obtain ⟨v, e, b⟩ := C67_integral (dil (0, 2) 3) rfl (by norm_num [dom]) 6 2 (by norm_num) (by norm_num) (by norm_num) jp jw
    (fun t _ _ => ⟨_, dil_call _ _ _⟩)
    (fun iv _ => ⟨C 3 * X, (natDegree_CX _).trans (by norm_num), fun t _ _ => by rw [hv]; simp⟩) 3 6
    (fun s t _ _ _ _ => by rw [hv, hv, ← mul_sub, abs_mul]; norm_num)
    (fun t a b => by rw [hv]; simp only [dom] at a b; rw [abs_le]; constructor <;> linarith)
  refine ⟨v, e, ?_⟩
  have hi : ∫ t in (dil (0, 2) 3).dom.1..(dil (0, 2) 3).dom.2, val (dil (0, 2) 3) 0 t = 6 := by
    simp only [hv, dom]
    rw [intervalIntegral.integral_const_mul, integral_id]; norm_num
  rw [hi] at b
  refine b.trans ?_
  norm_num [dom]

/-- Simpson's rule on one interval. -/
example (jp jw : Vec) : (dil (0, 2) 3).integral 3 1 jp jw = .ok 6 := by
  have hv : ∀ t, val (dil (0, 2) 3) 0 t = 3 * t := fun t => by rw [val_of_call (dil_call (0, 2) 3 t)]; simp
  rw [C67_exact (dil (0, 2) 3) rfl (by norm_num [dom]) 3 1 (.inr rfl) (by norm_num) jp jw
    (fun t _ _ => ⟨_, dil_call _ _ _⟩)
    (fun iv _ => ⟨C 3 * X, (natDegree_CX _).trans (by norm_num), fun t _ _ => by rw [hv]; simp⟩)]
  simp only [hv, dom]
  rw [intervalIntegral.integral_const_mul, integral_id]; norm_num

/-- The weights of ten points sum to two. -/
example (jp jw : Vec) : ∃ p w, pointsWeights 10 jp jw = .ok (p, w) ∧ |∑ i ∈ range 10, w i - 2| ≤ 1 / 10 ^ 13 := by
  obtain ⟨p, w, h⟩ := (C45_returns 10 jp jw).mpr (by norm_num)
  refine ⟨p, w, h, (C67_weights 10 (by norm_num) jp jw p w h).trans ?_⟩
  norm_num

/-- Eight points per interval, three intervals. -/
example (jp jw junk : Vec) : ∃ p w g, pointsWeights 8 jp jw = .ok (p, w) ∧ Colloc.approximate (dil (0, 2) 3) 8 3 jp jw junk = .ok g ∧
    g.value (gridPoint (0, 2) 3 1 (p 5)) = .ok [3 * gridPoint (0, 2) 3 1 (p 5)] := by
  obtain ⟨p, w, g, h, hg, hv⟩ := C47_collocation (dil (0, 2) 3) 8 3 (by norm_num) (by norm_num) jp jw junk (by norm_num [dom]) (fun t _ _ => ⟨_, dil_call _ _ _⟩)
  refine ⟨p, w, g, h, hg, ?_⟩
  obtain ⟨r, hr, hv⟩ := hv 1 (by norm_num) 5 (by norm_num)
  rw [dil_call] at hr
  injection hr with hr
  injection hr with hr
  exact hv.trans (by rw [← hr]; rfl)

end GSplines.Props
