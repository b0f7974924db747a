import Verif.Proofs.RoundingIntegral
import Verif.Props.RoundingGLL
import Verif.Props.RoundingFn
import Verif.Props.Approx

/-!
# C94: integrals in floating point arithmetic

`Rounded.integral u f n k jp jw o` says that `integral(f, n, k)` may end with `o` when each operation on doubles has a relative error of at most `u.1` plus an absolute error
of at most `u.2`. The points and weights are computed by the same call, also with rounding errors.
-/

namespace GSplines.Props

open GSplines Spec Fn GLL Finset Polynomial Topology

/-- **C94.** Whatever the rounding errors, with two or more points no index is out of range and no variable is read before it is assigned. -/
theorem C94_in_range (u : ℝ × ℝ) (f : Fn) (hg : Good f) (n k : ℕ) (hn : 2 ≤ n) (jp jw : Vec) (o : Res ℝ) (h : Rounded.integral u f n k jp jw o) : o ≠ .error .ub := by
  by_cases hc : f.codim = 1
  · rw [Rounded.integral_given _ _ _ _ _ _ hc] at h
    rcases h with ⟨e, he, rfl⟩ | ⟨a, -, ho⟩
    · intro h
      injection h with h
      exact C86_in_range u n hn jp jw _ he (by rw [h])
    · exact Rounded.given_safe u hg hc n k a o ho
  · unfold Rounded.integral at h
    rw [if_pos hc] at h
    cases h
    simp

/-- **C94.** The result of exact arithmetic is among the possible ones. -/
theorem C94_exact (u : ℝ × ℝ) (h1 : 0 ≤ u.1) (h2 : 0 ≤ u.2) (f : Fn) (hg : Good f) (n k : ℕ) (jp jw : Vec) (v : ℝ) (h : f.integral n k jp jw = .ok v) :
    Rounded.integral u f n k jp jw (.ok v) := by
  have hc : f.codim = 1 := by
    by_contra hc
    rw [(C43_integral f n k jp jw).1 hc] at h
    cases h
  obtain ⟨p, w, hp, -, rfl⟩ := ((C43_integral f n k jp jw).2 hc v).mp h
  rw [Rounded.integral_given _ _ _ _ _ _ hc]
  exact Rounded.Has.bind (Rounded.pointsWeights_has h1 h2 hp) (Rounded.given_has h1 h2 hg hc n k (p, w))

/-- The influence of errors in points and weights on the composite sum. -/
theorem quadrature_close {φ : ℝ → ℝ} {d : ℝ × ℝ} (hd : d.1 ≤ d.2) {n k : ℕ} (hk : 0 < k) {p w z v : Vec} {ε W L M : ℝ}
    (hp : ∀ i < n, p i ∈ Set.Icc (-1 : ℝ) 1) (hz : ∀ i < n, z i ∈ Set.Icc (-1 : ℝ) 1) (h1 : ∀ i < n, |p i - z i| ≤ ε) (h2 : ∀ i < n, |w i - v i| ≤ ε) (h3 : ∀ i < n, |v i| ≤ W)
    (hL0 : 0 ≤ L) (hW : 0 ≤ W) (hε : 0 ≤ ε) (hL : ∀ s t, d.1 ≤ s → s ≤ d.2 → d.1 ≤ t → t ≤ d.2 → |φ s - φ t| ≤ L * |s - t|) (hM : ∀ t, d.1 ≤ t → t ≤ d.2 → |φ t| ≤ M) :
    |quadrature φ d n k p w - quadrature φ d n k z v| ≤ (d.2 - d.1) / 2 * (n * (M + W * (L * ((d.2 - d.1) / k / 2)))) * ε := by
  have hk0 : (0 : ℝ) < k := by exact_mod_cast hk
  have hH : 0 ≤ (d.2 - d.1) / k / 2 := div_nonneg (div_nonneg (by linarith) hk0.le) (by norm_num)
  unfold quadrature
  rw [← sum_sub_distrib]
  have hcell : ∀ iv ∈ range k, |(d.2 - d.1) / k / 2 * ∑ j ∈ range n, w j * φ (gridPoint d k iv (p j)) - (d.2 - d.1) / k / 2 * ∑ j ∈ range n, v j * φ (gridPoint d k iv (z j))| ≤
      (d.2 - d.1) / k / 2 * (n * (ε * M + W * (L * ((d.2 - d.1) / k / 2 * ε)))) := by
    intro iv hiv
    have hiv := mem_range.mp hiv
    rw [← mul_sub, abs_mul, abs_of_nonneg hH, ← sum_sub_distrib]
    refine mul_le_mul_of_nonneg_left ((abs_sum_le_sum_abs _ _).trans ?_) hH
    have hterm : ∀ j ∈ range n, |w j * φ (gridPoint d k iv (p j)) - v j * φ (gridPoint d k iv (z j))| ≤ ε * M + W * (L * ((d.2 - d.1) / k / 2 * ε)) := by
      intro j hj
      have hj := mem_range.mp hj
      obtain ⟨-, -, a1, a2⟩ := gridPoint_mem hd hiv (hp j hj)
      obtain ⟨-, -, b1, b2⟩ := gridPoint_mem hd hiv (hz j hj)
      rw [show w j * φ (gridPoint d k iv (p j)) - v j * φ (gridPoint d k iv (z j)) =
        (w j - v j) * φ (gridPoint d k iv (p j)) + v j * (φ (gridPoint d k iv (p j)) - φ (gridPoint d k iv (z j))) by ring]
      refine (abs_add_le _ _).trans ?_
      rw [abs_mul, abs_mul]
      refine add_le_add (mul_le_mul (h2 j hj) (hM _ a1 a2) (abs_nonneg _) hε) (mul_le_mul (h3 j hj) ?_ (abs_nonneg _) hW)
      refine (hL _ _ a1 a2 b1 b2).trans (mul_le_mul_of_nonneg_left ?_ hL0)
      rw [gridPoint_affine, gridPoint_affine, add_sub_add_left_eq_sub, ← mul_sub, abs_mul, abs_of_nonneg hH]
      exact mul_le_mul_of_nonneg_left (h1 j hj) hH
    refine (sum_le_sum hterm).trans (le_of_eq ?_)
    rw [sum_const, card_range, nsmul_eq_mul]
  refine (abs_sum_le_sum_abs _ _).trans ((sum_le_sum hcell).trans (le_of_eq ?_))
  rw [sum_const, card_range, nsmul_eq_mul]
  field_simp

/-- The points of a computed rule are in the interval. -/
theorem points_mem {n : ℕ} {r z p w : Vec} {ε : ℝ} (hn : 2 ≤ n) (ha : Rounded.PwOk n r ε p w) (hA : Arr n z) (hε : ε ≤ 2 / nu (n - 1) ^ 2) (hz : ∀ i < n, |p i - z i| ≤ ε) :
    ∀ i < n, p i ∈ Set.Icc (-1 : ℝ) 1 := by
  have hends : p 0 = -1 ∧ p (n - 1) = 1 := by
    have h1 := ha.anti 0 (by omega)
    rw [Nat.sub_zero, ha.first, neg_neg] at h1
    exact ⟨ha.first, h1⟩
  have hz1 : z (n - 1) = 1 := by
    have := hA.anti 0 (by omega)
    rwa [Nat.sub_zero, hA.first, neg_neg] at this
  intro i hi
  have b := abs_le.mp (hz i hi)
  constructor
  · rcases Nat.eq_zero_or_pos i with rfl | hp
    · rw [hends.1]
    · have := hA.lt hp hi
      rw [hA.first] at this
      linarith [b.1]
  · rcases Nat.lt_or_ge i (n - 1) with hp | hp
    · have := hA.lt hp (by omega)
      rw [hz1] at this
      linarith [b.2]
    · rw [show i = n - 1 by omega, hends.2]

/-- **C94.** Let `f` be a scalar function that does not jump on its domain and that is `2 n - 2` times continuously differentiable on each of the `k` intervals. If the rounding errors are small
enough then `integral` returns the integral of `f`, up to the error of exact arithmetic (C82) plus a number as small as wanted. -/
theorem C94_accuracy (f : Fn) (hg : Good f) (h1 : f.codim = 1) (hd : f.dom.1 < f.dom.2) (hst : ∀ t, f.dom.1 ≤ t → t ≤ f.dom.2 → Steady f t) (n k : ℕ) (h2 : 2 ≤ n) (hn : n ≤ 20000)
    (hk : 0 < k) (D : ℝ) (φ : ℕ → ℕ → ℝ → ℝ) (hs : SmoothPieces f k (2 * n - 2) D φ) (L M : ℝ)
    (hL : ∀ s t, f.dom.1 ≤ s → s ≤ f.dom.2 → f.dom.1 ≤ t → t ≤ f.dom.2 → |val f 0 s - val f 0 t| ≤ L * |s - t|)
    (hM : ∀ t, f.dom.1 ≤ t → t ≤ f.dom.2 → |val f 0 t| ≤ M) (η : ℝ) (hη : 0 < η) :
    ∃ δ > 0, ∀ u, Small u δ → ∀ jp jw o, Rounded.integral u f n k jp jw o → ∃ v, o = .ok v ∧
      |v - ∫ t in f.dom.1..f.dom.2, val f 0 t| ≤
        (f.dom.2 - f.dom.1) * (2 * (D * Spec.step f k ^ (2 * n - 2) / (2 * n - 2).factorial) + 1 / 10 ^ 9 * L * Spec.step f k / 2 + 2 * (((n : ℝ) - 1 / 2) ^ 4 / 10 ^ 18) * M) + η := by
  obtain ⟨r, hr, hq⟩ := exact_points h2
  have hnu := nu_pos (n - 1)
  have hsmall := small_points h2 hn
  have hL0 : 0 ≤ L := by
    have h := (abs_nonneg _).trans (hL f.dom.1 f.dom.2 le_rfl hd.le hd.le le_rfl)
    have h' : 0 < |f.dom.1 - f.dom.2| := abs_pos.mpr (by linarith)
    nlinarith
  have hM0 : 0 ≤ M := (abs_nonneg _).trans (hM f.dom.1 le_rfl hd.le)
  have hW0 : ∀ x, 0 ≤ wt (n - 1) x := fun x => by unfold wt; positivity
  set W := 2 * ∑ i ∈ range n, wt (n - 1) (r i) with hW
  have hWp : 0 ≤ W := mul_nonneg (by norm_num) (sum_nonneg fun i _ => hW0 _)
  set C := (f.dom.2 - f.dom.1) / 2 * (n * (M + W * (L * ((f.dom.2 - f.dom.1) / k / 2)))) with hC
  have hC0 : 0 ≤ C := by
    have : 0 ≤ f.dom.2 - f.dom.1 := by linarith
    positivity
  obtain ⟨ε, hε, e1, e2⟩ : ∃ ε > 0, C * ε ≤ η / 2 ∧ ε ≤ 2 / nu (n - 1) ^ 2 := by
    refine ⟨min (η / 2 / (C + 1)) (2 / nu (n - 1) ^ 2), by positivity, ?_, min_le_right _ _⟩
    refine (mul_le_mul_of_nonneg_left (min_le_left _ _) hC0).trans ?_
    rw [mul_div_assoc', div_le_iff₀ (by positivity)]
    nlinarith
  have hB : 0 ≤ W + ε := by linarith
  have hK : ∀ pw ∈ Rounded.box (W + ε), Nd.ConvAt (fun u pw => Rounded.given u f n k pw) pw (quadrature (val f 0) f.dom n k pw.1 pw.2) := by
    intro pw hpw
    refine Rounded.given_conv hg h1 hk fun iv hiv j _ => ?_
    obtain ⟨-, -, a, b⟩ := gridPoint_mem hd.le hiv (hpw.1 j trivial)
    exact hst _ a b
  have hU := Rounded.conv_uniform (Rounded.box_compact (W + ε)) hK (fun u a b pw _ => Rounded.given_has a b hg h1 n k pw) (half_pos hη)
  obtain ⟨δ, hδ, H⟩ := small_of_nhds ((Rounded.pointsWeights_near h2 hr hq hε).and hU)
  refine ⟨δ, hδ, fun u hu jp jw o ho => ?_⟩
  obtain ⟨H1, H2⟩ := H u hu
  rw [Rounded.integral_given _ _ _ _ _ _ h1] at ho
  rcases ho with ⟨e, he, -⟩ | ⟨a, ha, ho⟩
  · rcases H1 jp jw _ he with ⟨_, h, _⟩ | ⟨a, -, ha⟩
    · exact h.elim
    · cases ha
  rcases H1 jp jw _ ha with ⟨_, h, _⟩ | ⟨a', hpw, haa⟩
  · exact h.elim
  cases haa
  obtain ⟨z, hA, hzr, hz⟩ := hpw.arr h2 hε hr
  have hmem := points_mem h2 hpw hA e2 fun i hi => (hz i hi).1
  have hwz : ∀ i < n, |wt (n - 1) (z i)| ≤ W := by
    intro i hi
    obtain ⟨-, w2⟩ := arr_weights hA hr hq hzr hi
    have w3 : wt (n - 1) (z i) ≤ 2 * wt (n - 1) (r i) := by nlinarith [hW0 (z i)]
    rw [abs_of_nonneg (hW0 _)]
    have : wt (n - 1) (r i) ≤ ∑ i ∈ range n, wt (n - 1) (r i) := single_le_sum (f := fun i => wt (n - 1) (r i)) (fun j _ => hW0 _) (mem_range.mpr hi)
    linarith
  set b : Vec × Vec := (fun i => if i < n then a.1 i else 0, fun i => if i < n then a.2 i else 0) with hb
  have hba : ∀ i < n, a.1 i = b.1 i ∧ a.2 i = b.2 i := fun i hi => by rw [hb]; simp [hi]
  have hbox : b ∈ Rounded.box (W + ε) := by
    refine ⟨fun i _ => ?_, fun i _ => ?_⟩
    · by_cases hi : i < n
      · rw [← (hba i hi).1]; exact hmem i hi
      · simp [hb, hi]
    · by_cases hi : i < n
      · rw [← (hba i hi).2]
        have h3 := abs_le.mp (hz i hi).2.1
        have h4 := abs_le.mp (hwz i hi)
        constructor <;> linarith [h3.1, h3.2, h4.1, h4.2]
      · simp only [hb, hi, if_false]
        exact ⟨by linarith, hB⟩
  rw [Rounded.given_congr u n k hba] at ho
  obtain ⟨v, rfl, hv⟩ := H2 hu.1 hu.2.2.1 b hbox o ho
  refine ⟨v, rfl, ?_⟩
  have c1 := quadrature_close (φ := val f 0) hd.le hk (p := b.1) (w := b.2) (z := z) (v := fun i => wt (n - 1) (z i)) (ε := ε) (W := W) (L := L) (M := M) (n := n)
    (fun i _ => hbox.1 i trivial) (fun i hi => ⟨(hA.mem hi).1, (hA.mem hi).2⟩) (fun i hi => by rw [← (hba i hi).1]; exact (hz i hi).1)
    (fun i hi => by rw [← (hba i hi).2]; exact (hz i hi).2.1) hwz hL0 hWp hε.le hL hM
  have c2 := quadrature_smooth_arr (val f 0) hd h2 hn hk hA hr hq hzr (w := fun i => wt (n - 1) (z i)) (fun i _ => rfl) (fun iv => φ iv 0) (fun iv hiv => hs.smooth iv hiv 0 (by omega))
    (fun iv hiv t a b => hs.agrees iv hiv 0 (by omega) t a b) (fun iv hiv t a b => hs.bound iv hiv 0 (by omega) t a b) L M hL hM
  have c3 := abs_sub_le v (quadrature (val f 0) f.dom n k b.1 b.2) (∫ t in f.dom.1..f.dom.2, val f 0 t)
  have c4 := abs_sub_le (quadrature (val f 0) f.dom n k b.1 b.2) (quadrature (val f 0) f.dom n k z fun i => wt (n - 1) (z i)) (∫ t in f.dom.1..f.dom.2, val f 0 t)
  rw [← hC] at c1
  unfold Spec.step
  linarith

/-! ## Cases -/

/-- The integral of the exponential function over `[0, 1]`, ten intervals with four points: with small rounding errors every run returns `e - 1`, up to `10⁻⁷`. -/
example : ∃ δ > 0, ∀ u, Small u δ → ∀ jp jw o, Rounded.integral u (Fn.exp (0, 1)) 4 10 jp jw o → ∃ v, o = .ok v ∧ |v - (Real.exp 1 - 1)| ≤ 1 / 10 ^ 7 := by
  have hi : ∫ t in (Fn.exp (0, 1)).dom.1..(Fn.exp (0, 1)).dom.2, val (Fn.exp (0, 1)) 0 t = Real.exp 1 - 1 := by
    simp only [exp_val, dom]
    rw [integral_exp]; simp
  obtain ⟨δ, hδ, h⟩ := C94_accuracy (Fn.exp (0, 1)) (.exp _) rfl (by norm_num [dom]) (fun t _ _ => .exp _ t) 4 10 (by norm_num) (by norm_num) (by norm_num) 3 _
    (exp_pieces 10 (2 * 4 - 2)) 3 3 (fun s t _ a _ b => by rw [exp_val, exp_val]; exact exp_lip a b)
    (fun t _ b => by rw [exp_val, abs_of_pos (Real.exp_pos t)]; exact exp_le_three b) (1 / 10 ^ 8) (by norm_num)
  refine ⟨δ, hδ, fun u hu jp jw o ho => ?_⟩
  obtain ⟨v, e, b⟩ := h u hu jp jw o ho
  refine ⟨v, e, ?_⟩
  rw [hi] at b
  refine b.trans ?_
  norm_num [Spec.step, dom, Nat.factorial]

/-- There are such runs. -/
example (u : ℝ × ℝ) (h1 : 0 ≤ u.1) (h2 : 0 ≤ u.2) (jp jw : Vec) : ∃ v, Rounded.integral u (Fn.exp (0, 1)) 4 10 jp jw (.ok v) := by
  obtain ⟨v, e, -⟩ := C82_integral (Fn.exp (0, 1)) rfl (by norm_num [dom]) 4 10 (by norm_num) (by norm_num) (by norm_num) jp jw (fun t _ _ => ⟨_, exp_call _ _⟩) 3 _
    (exp_pieces 10 (2 * 4 - 2)) 3 3 (fun s t _ a _ b => by rw [exp_val, exp_val]; exact exp_lip a b)
    (fun t _ b => by rw [exp_val, abs_of_pos (Real.exp_pos t)]; exact exp_le_three b)
  exact ⟨v, C94_exact u h1 h2 _ (.exp _) 4 10 jp jw v e⟩

end GSplines.Props
