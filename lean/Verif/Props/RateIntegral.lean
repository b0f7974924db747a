import Verif.Proofs.RateIntegral
import Verif.Props.RoundingIntegral
import Verif.Props.RateFn

/-!
# C100: the errors of the quadrature rule and of integrals are proportional to the rounding errors

As in C86 and C94, `Rounded.pointsWeights u n jp jw o` and `Rounded.integral u f n k jp jw o` say that the computation of the points and weights, and `integral(f, n, k)`,
may end with `o` when each operation on doubles has a relative error of at most `u.1` plus an absolute error of at most `u.2`.
-/

namespace GSplines.Props

open GSplines Spec Fn GLL Finset Polynomial

/-- A bound which holds for all tolerances just above a number holds for the number. -/
theorem le_of_tolerance {a b c K e0 : ℝ} (hK : 0 ≤ K) (h0 : c < e0) (h : ∀ e, c < e → e ≤ e0 → a ≤ b + K * e) : a ≤ b + K * c := by
  refine le_of_forall_pos_le_add fun t ht => ?_
  have hm : 0 < min (t / (K + 1)) (e0 - c) := lt_min (by positivity) (by linarith)
  have h1 := h (c + min (t / (K + 1)) (e0 - c)) (by linarith) (by linarith [min_le_right (t / (K + 1)) (e0 - c)])
  have h2 : K * min (t / (K + 1)) (e0 - c) ≤ t := by
    refine (mul_le_mul_of_nonneg_left (min_le_left _ _) hK).trans ?_
    rw [mul_div_assoc', div_le_iff₀ (by positivity)]
    nlinarith
  rw [mul_add] at h1
  linarith

/-- **C100.** There are constants `C` and `d > 0`, which depend on the number of points only, such that for errors below `d` every run returns points and weights. Let `r` be the
increasing enumeration of the zeros of `(1 - x²) P_{n-1}'(x)`: each point is within `10⁻⁹ + C (u.1 + u.2)` of its own size of the zero with the same index, and each weight
is positive and within `C (u.1 + u.2)` of `2 / (N (N + 1) P_N(x)²)`, `N = n - 1`, at the returned point `x`. -/
theorem C100_points (n : ℕ) (hn : 2 ≤ n) :
    ∃ r : Vec, (∀ i j, i < j → j < n → r i < r j) ∧ (∀ x : ℝ, (1 - x ^ 2) * (derivative (legendre (n - 1))).eval x = 0 ↔ ∃ i < n, x = r i) ∧
      ∃ C d, 0 < d ∧ ∀ u, Small u d → ∀ jp jw o, Rounded.pointsWeights u n jp jw o → ∃ p w, o = .ok (p, w) ∧
        ∀ i < n, |p i - r i| ≤ (1 / 10 ^ 9 + C * (u.1 + u.2)) * |p i| ∧ 0 < w i ∧
          |w i - 2 / (((n - 1 : ℕ) : ℝ) * (((n - 1 : ℕ) : ℝ) + 1) * (legendre (n - 1)).eval (p i) ^ 2)| ≤ C * (u.1 + u.2) := by
  obtain ⟨r, hr, hq⟩ := exact_points hn
  refine ⟨r, fun i j hij hj => ?_, zeros_iff hr hq, ?_⟩
  · have := hr.lt hij hj
    have hpos : 0 < 2 / nu (n - 1) ^ 2 := by have := nu_pos (n - 1); positivity
    linarith
  obtain ⟨C, hC, d, hd, H⟩ := Rounded.pointsWeights_rate hn hr hq
  refine ⟨C, d, hd, fun u hu jp jw o ho => ?_⟩
  have hs : 0 ≤ C * Nd.sz u := mul_nonneg hC (Nd.sz_nonneg hu)
  have key : ∀ e, C * Nd.sz u < e → ∀ a, o = .ok a → ∀ i < n, |a.1 i - r i| ≤ (1 / 10 ^ 9 + e) * |a.1 i| ∧ 0 < a.2 i ∧
      |a.2 i - 2 / (((n - 1 : ℕ) : ℝ) * (((n - 1 : ℕ) : ℝ) + 1) * (legendre (n - 1)).eval (a.1 i) ^ 2)| ≤ e := by
    rintro e he a rfl i hi
    rcases H u hu e he jp jw _ ho with ⟨_, h, _⟩ | ⟨a', ha, haa⟩
    · exact h.elim
    · cases haa
      obtain ⟨z, -, -, hz⟩ := ha.arr hn (by linarith) hr
      exact ⟨(hz i hi).2.2.1, (hz i hi).2.2.2.2, (hz i hi).2.2.2.1⟩
  rcases H u hu (C * Nd.sz u + 1) (by linarith) jp jw o ho with ⟨_, h, _⟩ | ⟨a, ha, rfl⟩
  · exact h.elim
  refine ⟨a.1, a.2, rfl, fun i hi => ⟨?_, (key (C * Nd.sz u + 1) (by linarith) a rfl i hi).2.1, ?_⟩⟩
  · have := le_of_tolerance (a := |a.1 i - r i|) (b := 1 / 10 ^ 9 * |a.1 i|) (c := C * Nd.sz u) (K := |a.1 i|) (e0 := C * Nd.sz u + 1) (abs_nonneg _) (by linarith) fun e he _ => by
      have := (key e he a rfl i hi).1
      linarith
    unfold Nd.sz at this
    linarith
  · have := le_of_tolerance (a := |a.2 i - 2 / (((n - 1 : ℕ) : ℝ) * (((n - 1 : ℕ) : ℝ) + 1) * (legendre (n - 1)).eval (a.1 i) ^ 2)|) (b := 0) (c := C * Nd.sz u) (K := 1)
      (e0 := C * Nd.sz u + 1) zero_le_one (by linarith) fun e he _ => by
        have := (key e he a rfl i hi).2.2
        linarith
    unfold Nd.sz at this
    linarith

/-- **C100.** Let `f` be a scalar function that does not jump on its domain and that is `2 n - 2` times continuously differentiable on each of the `k` intervals. There are constants `C`
and `δ > 0` such that for errors below `δ` every run of `integral` returns the integral of `f`, up to the error of exact arithmetic (C82) plus `C` times the size of the rounding
errors. -/
theorem C100_integral (f : Fn) (hg : Good f) (h1 : f.codim = 1) (hd : f.dom.1 < f.dom.2) (hst : ∀ t, f.dom.1 ≤ t → t ≤ f.dom.2 → Calm f t) (n k : ℕ) (h2 : 2 ≤ n) (hn : n ≤ 20000)
    (hk : 0 < k) (D : ℝ) (φ : ℕ → ℕ → ℝ → ℝ) (hs : SmoothPieces f k (2 * n - 2) D φ) (L M : ℝ)
    (hL : ∀ s t, f.dom.1 ≤ s → s ≤ f.dom.2 → f.dom.1 ≤ t → t ≤ f.dom.2 → |val f 0 s - val f 0 t| ≤ L * |s - t|)
    (hM : ∀ t, f.dom.1 ≤ t → t ≤ f.dom.2 → |val f 0 t| ≤ M) :
    ∃ C δ, 0 < δ ∧ ∀ u, Small u δ → ∀ jp jw o, Rounded.integral u f n k jp jw o → ∃ v, o = .ok v ∧
      |v - ∫ t in f.dom.1..f.dom.2, val f 0 t| ≤
        (f.dom.2 - f.dom.1) * (2 * (D * Spec.step f k ^ (2 * n - 2) / (2 * n - 2).factorial) + 1 / 10 ^ 9 * L * Spec.step f k / 2 + 2 * (((n : ℝ) - 1 / 2) ^ 4 / 10 ^ 18) * M) +
          C * (u.1 + u.2) := by
  obtain ⟨r, hr, hq⟩ := exact_points h2
  have hnu := nu_pos (n - 1)
  have hpts := small_points h2 hn
  have hL0 : 0 ≤ L := by
    have h := (abs_nonneg _).trans (hL f.dom.1 f.dom.2 le_rfl hd.le hd.le le_rfl)
    have h' : 0 < |f.dom.1 - f.dom.2| := abs_pos.mpr (by linarith)
    nlinarith
  have hM0 : 0 ≤ M := (abs_nonneg _).trans (hM f.dom.1 le_rfl hd.le)
  have hW0 : ∀ x, 0 ≤ wt (n - 1) x := fun x => by unfold wt; positivity
  set W := 2 * ∑ i ∈ range n, wt (n - 1) (r i) with hW
  have hWp : 0 ≤ W := mul_nonneg (by norm_num) (sum_nonneg fun i _ => hW0 _)
  set C := (f.dom.2 - f.dom.1) / 2 * (n * (M + W * (L * ((f.dom.2 - f.dom.1) / k / 2)))) with hC
  have hC0 : 0 ≤ C := by
    have : 0 ≤ f.dom.2 - f.dom.1 := by linarith
    positivity
  obtain ⟨C1, hC1, δ1, hδ1, H1⟩ := Rounded.pointsWeights_rate h2 hr hq
  obtain ⟨C2, hC2, δ2, hδ2, H2⟩ := Rounded.given_uniform hg h1 (n := n) hk hd.le hst (W + 1)
  set e0 := min 1 (2 / nu (n - 1) ^ 2) with he0
  have he0p : 0 < e0 := lt_min one_pos (by positivity)
  refine ⟨C * C1 + C2, min (min δ1 δ2) (e0 / (3 * (C1 + 1))), lt_min (lt_min hδ1 hδ2) (by positivity), fun u hu jp jw o ho => ?_⟩
  have u1 := Nd.small_mono ((min_le_left _ _).trans (min_le_left _ _)) hu
  have u2 := Nd.small_mono ((min_le_left _ _).trans (min_le_right _ _)) hu
  have hz0 := Nd.sz_nonneg hu
  have hsmall : C1 * Nd.sz u < e0 := by
    have b := (Nd.sz_le hu).trans (mul_le_mul_of_nonneg_left (min_le_right _ _) (by norm_num : (0 : ℝ) ≤ 2))
    have b' := mul_le_mul_of_nonneg_left b (by linarith : 0 ≤ C1 + 1)
    rw [show (C1 + 1) * (2 * (e0 / (3 * (C1 + 1)))) = 2 / 3 * e0 by field_simp] at b'
    nlinarith
  rw [Rounded.integral_given _ _ _ _ _ _ h1] at ho
  rcases ho with ⟨e, he, -⟩ | ⟨a, ha, ho⟩
  · rcases H1 u u1 e0 hsmall jp jw _ he with ⟨_, h, _⟩ | ⟨a, -, ha⟩
    · exact h.elim
    · cases ha
  have hpw : ∀ e, C1 * Nd.sz u < e → Rounded.PwOk n r e a.1 a.2 := by
    intro e he
    rcases H1 u u1 e he jp jw _ ha with ⟨_, h, _⟩ | ⟨a', hpw, haa⟩
    · exact h.elim
    · cases haa
      exact hpw
  have arr : ∀ e, C1 * Nd.sz u < e → e ≤ e0 → ∃ z, Arr n z ∧ (∀ i < n, |z i - r i| ≤ tol9 * |z i|) ∧ (∀ i < n, a.1 i ∈ Set.Icc (-1 : ℝ) 1) ∧
      ∀ i < n, |a.1 i - z i| ≤ e ∧ |a.2 i - wt (n - 1) (z i)| ≤ e ∧ |wt (n - 1) (z i)| ≤ W := by
    intro e he hee
    have hep : 0 < e := lt_of_le_of_lt (mul_nonneg hC1 hz0) he
    obtain ⟨z, hA, hzr, hz⟩ := (hpw e he).arr h2 hep hr
    refine ⟨z, hA, hzr, points_mem h2 (hpw e he) hA (hee.trans (min_le_right _ _)) fun i hi => (hz i hi).1, fun i hi => ⟨(hz i hi).1, (hz i hi).2.1, ?_⟩⟩
    obtain ⟨-, w2⟩ := arr_weights hA hr hq hzr hi
    have w3 : wt (n - 1) (z i) ≤ 2 * wt (n - 1) (r i) := by nlinarith [hW0 (z i)]
    rw [abs_of_nonneg (hW0 _)]
    have : wt (n - 1) (r i) ≤ ∑ i ∈ range n, wt (n - 1) (r i) := single_le_sum (f := fun i => wt (n - 1) (r i)) (fun j _ => hW0 _) (mem_range.mpr hi)
    linarith
  obtain ⟨z0, -, -, hmem, hz0'⟩ := arr e0 hsmall le_rfl
  obtain ⟨v, rfl, hv⟩ := H2 a (fun i hi => ⟨hmem i hi, by
    have := abs_sub_abs_le_abs_sub (a.2 i) (wt (n - 1) (z0 i))
    have := (hz0' i hi).2.1
    have := (hz0' i hi).2.2
    have : e0 ≤ 1 := min_le_left _ _
    linarith⟩) u u2 o ho
  refine ⟨v, rfl, ?_⟩
  have main := le_of_tolerance (a := |quadrature (val f 0) f.dom n k a.1 a.2 - ∫ t in f.dom.1..f.dom.2, val f 0 t|)
    (b := (f.dom.2 - f.dom.1) * (2 * (D * Spec.step f k ^ (2 * n - 2) / (2 * n - 2).factorial) + 1 / 10 ^ 9 * L * Spec.step f k / 2 + 2 * (((n : ℝ) - 1 / 2) ^ 4 / 10 ^ 18) * M))
    (c := C1 * Nd.sz u) (K := C) (e0 := e0) hC0 hsmall fun e he hee => by
      obtain ⟨z, hA, hzr, hm, hz⟩ := arr e he hee
      have hep : 0 < e := lt_of_le_of_lt (mul_nonneg hC1 hz0) he
      have c1 := quadrature_close (φ := val f 0) hd.le hk (p := a.1) (w := a.2) (z := z) (v := fun i => wt (n - 1) (z i)) (ε := e) (W := W) (L := L) (M := M) (n := n)
        hm (fun i hi => ⟨(hA.mem hi).1, (hA.mem hi).2⟩) (fun i hi => (hz i hi).1) (fun i hi => (hz i hi).2.1) (fun i hi => (hz i hi).2.2) hL0 hWp hep.le hL hM
      have c2 := quadrature_smooth_arr (val f 0) hd h2 hn hk hA hr hq hzr (w := fun i => wt (n - 1) (z i)) (fun i _ => rfl) (fun iv => φ iv 0) (fun iv hiv => hs.smooth iv hiv 0 (by omega))
        (fun iv hiv t a b => hs.agrees iv hiv 0 (by omega) t a b) (fun iv hiv t a b => hs.bound iv hiv 0 (by omega) t a b) L M hL hM
      have c4 := abs_sub_le (quadrature (val f 0) f.dom n k a.1 a.2) (quadrature (val f 0) f.dom n k z fun i => wt (n - 1) (z i)) (∫ t in f.dom.1..f.dom.2, val f 0 t)
      rw [← hC] at c1
      unfold Spec.step
      linarith
  have c3 := abs_sub_le v (quadrature (val f 0) f.dom n k a.1 a.2) (∫ t in f.dom.1..f.dom.2, val f 0 t)
  have e : (C * C1 + C2) * (u.1 + u.2) = C * (C1 * Nd.sz u) + C2 * Nd.sz u := by unfold Nd.sz; ring
  rw [e]
  linarith

/-! ## Cases -/

/-- The integral of the exponential function over `[0, 1]`, ten intervals with four points. -/
example : ∃ C δ, 0 < δ ∧ ∀ u, Small u δ → ∀ jp jw o, Rounded.integral u (Fn.exp (0, 1)) 4 10 jp jw o →
    ∃ v, o = .ok v ∧ |v - (Real.exp 1 - 1)| ≤ 1 / 10 ^ 8 + C * (u.1 + u.2) := by
  have hi : ∫ t in (Fn.exp (0, 1)).dom.1..(Fn.exp (0, 1)).dom.2, val (Fn.exp (0, 1)) 0 t = Real.exp 1 - 1 := by
    simp only [exp_val, dom]
    rw [integral_exp]; simp
  obtain ⟨C, δ, hδ, h⟩ := C100_integral (Fn.exp (0, 1)) (.exp _) rfl (by norm_num [dom]) (fun t _ _ => .exp _ t) 4 10 (by norm_num) (by norm_num) (by norm_num) 3 _
    (exp_pieces 10 (2 * 4 - 2)) 3 3 (fun s t _ a _ b => by rw [exp_val, exp_val]; exact exp_lip a b)
    (fun t _ b => by rw [exp_val, abs_of_pos (Real.exp_pos t)]; exact exp_le_three b)
  refine ⟨C, δ, hδ, fun u hu jp jw o ho => ?_⟩
  obtain ⟨v, e, b⟩ := h u hu jp jw o ho
  refine ⟨v, e, ?_⟩
  rw [hi] at b
  refine b.trans (add_le_add_left ?_ _)
  norm_num [Spec.step, dom, Nat.factorial]

/-- There are runs of the computation of the points. -/
example (u : ℝ × ℝ) (h1 : 0 ≤ u.1) (h2 : 0 ≤ u.2) (jp jw : Vec) : ∃ a, Rounded.pointsWeights u 7 jp jw (.ok a) := by
  obtain ⟨p, w, h⟩ := (C45_returns 7 jp jw).mpr (by norm_num)
  exact ⟨(p, w), h ▸ C86_exact u h1 h2 7 jp jw⟩

end GSplines.Props
