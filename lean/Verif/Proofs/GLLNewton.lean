import Verif.Proofs.GLLPhase
import Mathlib.Analysis.SpecialFunctions.Trigonometric.Bounds
import Mathlib.Analysis.Real.Pi.Bounds
import Mathlib.Topology.Order.IntermediateValue

/-!
# Newton's method converges to the Gauss-Lobatto points, for every number of points
-/

namespace GSplines.GLL

open GSplines Polynomial Spec LegendrePoly Legendre Real

/-! ## Trigonometric bounds -/

/-- `tan (π/4 + e) ≤ 1 + 11/5 e` for small `e`. -/
theorem tan_quarter_add {e : ℝ} (h0 : 0 ≤ e) (h1 : e ≤ 2 / 25) : tan (π / 4 + e) ≤ 1 + 11 / 5 * e := by
  have hpi := pi_gt_three
  have hs : sin e ≤ e := sin_le h0
  have hs0 : 0 ≤ sin e := sin_nonneg_of_nonneg_of_le_pi h0 (by linarith)
  have hc : 1 - e ^ 2 / 2 ≤ cos e := one_sub_sq_div_two_le_cos
  have hq : 0 < √2 / 2 := by positivity
  rw [tan_eq_sin_div_cos, sin_add, cos_add, sin_pi_div_four, cos_pi_div_four, ← mul_add, ← mul_sub, mul_div_mul_left _ _ hq.ne', div_le_iff₀ (by nlinarith)]
  nlinarith [mul_nonneg h0 h0, mul_nonneg (mul_nonneg h0 h0) h0, mul_le_mul_of_nonneg_left hs h0, mul_le_mul_of_nonneg_left hc h0]

/-- `tan (π/4 - z) ≤ (1 - z) / (1 + z)`. -/
theorem tan_quarter_sub {z : ℝ} (h0 : 0 ≤ z) (h1 : z < 1) : tan (π / 4 - z) ≤ (1 - z) / (1 + z) := by
  have hpi := pi_gt_three
  have hcos : 0 < cos z := cos_pos_of_mem_Ioo ⟨by linarith, by linarith⟩
  have hz : z * cos z ≤ sin z := by
    have := le_tan h0 (by linarith : z < π / 2)
    rwa [tan_eq_sin_div_cos, le_div_iff₀ hcos] at this
  have hs0 : 0 ≤ sin z := sin_nonneg_of_nonneg_of_le_pi h0 (by linarith)
  have hq : 0 < √2 / 2 := by positivity
  rw [tan_eq_sin_div_cos, sin_sub, cos_sub, sin_pi_div_four, cos_pi_div_four, ← mul_sub, ← mul_add, mul_div_mul_left _ _ hq.ne',
    div_le_div_iff₀ (by linarith) (by linarith)]
  nlinarith

theorem cot_le {θ : ℝ} (h0 : 0 < θ) (h1 : θ ≤ π / 2) : θ * cos θ ≤ sin θ := by
  rcases eq_or_lt_of_le h1 with rfl | h
  · simp
  · have hc : 0 < cos θ := cos_pos_of_mem_Ioo ⟨by linarith [pi_pos], h⟩
    have := le_tan h0.le h
    rwa [tan_eq_sin_div_cos, le_div_iff₀ hc] at this

/-! ## The windows -/

/-- The angle at the distance `s` from the beginning of window `j`. -/
noncomputable def ang (N j : ℕ) (s : ℝ) : ℝ := (j * π + s) / nu N

/-- The point at the distance `s` from the beginning of window `j`. -/
noncomputable def pt (N j : ℕ) (s : ℝ) : ℝ := -cos (ang N j s)

/-- Numbers of windows. -/
structure Win (N j : ℕ) : Prop where
  one : 1 ≤ j
  lt : 2 * j + 1 ≤ N

theorem Win.three {N j : ℕ} (h : Win N j) : 3 ≤ N := by have := h.one; have := h.lt; omega

theorem nu_ang (N j : ℕ) (s : ℝ) : nu N * ang N j s = j * π + s := by
  unfold ang; have := (nu_pos N).ne'; field_simp

theorem nu_ge {N j : ℕ} (h : Win N j) : 7 / 2 ≤ nu N := by
  have : (3 : ℝ) ≤ N := by exact_mod_cast h.three
  unfold nu; linarith

theorem ang_mem {N j : ℕ} (h : Win N j) {s : ℝ} (h0 : 0 ≤ s) (h1 : s ≤ π / 2) : 0 < ang N j s ∧ ang N j s ≤ π / 2 := by
  have hj : (1 : ℝ) ≤ j := by exact_mod_cast h.one
  have hjN : 2 * (j : ℝ) + 1 ≤ N := by exact_mod_cast h.lt
  have hn := nu_pos N
  have hpi := pi_pos
  refine ⟨by unfold ang; positivity, ?_⟩
  unfold ang
  rw [div_le_iff₀ hn]
  unfold nu
  nlinarith

theorem ang_mono (N j : ℕ) {s t : ℝ} (h : s < t) : ang N j s < ang N j t := by
  unfold ang
  exact div_lt_div_of_pos_right (by linarith) (nu_pos N)

theorem pt_mono {N j : ℕ} (h : Win N j) {s t : ℝ} (h0 : 0 ≤ s) (hst : s < t) (h1 : t ≤ π / 2) : pt N j s < pt N j t := by
  have := ang_mem h h0 (hst.le.trans h1)
  have := ang_mem h (h0.trans hst.le) h1
  exact neg_lt_neg (cos_lt_cos_of_nonneg_of_le_pi (by linarith) (by linarith [pi_pos]) (ang_mono N j hst))

theorem pt_mono_le {N j : ℕ} (h : Win N j) {s t : ℝ} (h0 : 0 ≤ s) (hst : s ≤ t) (h1 : t ≤ π / 2) : pt N j s ≤ pt N j t := by
  rcases eq_or_lt_of_le hst with rfl | h'
  · exact le_rfl
  · exact (pt_mono h h0 h' h1).le

/-- Every number between two points of the window is a point of the window. -/
theorem exists_pt (N j : ℕ) {s t x : ℝ} (hst : s ≤ t) (hx : x ∈ Set.Icc (pt N j s) (pt N j t)) : ∃ u ∈ Set.Icc s t, pt N j u = x := by
  have hc : ContinuousOn (pt N j) (Set.Icc s t) := by
    unfold pt ang
    fun_prop
  exact intermediate_value_Icc hst hc hx

/-- The correction of the phase. -/
noncomputable def corr (N j : ℕ) (s : ℝ) : ℝ := cos (ang N j s) / (4 * nu N * sin (ang N j s))

theorem sin_ang_pos {N j : ℕ} (h : Win N j) {s : ℝ} (h0 : 0 ≤ s) (h1 : s ≤ π / 2) : 0 < sin (ang N j s) := by
  have := ang_mem h h0 h1
  exact sin_pos_of_pos_of_lt_pi this.1 (by linarith [pi_pos])

theorem cos_ang_nonneg {N j : ℕ} (h : Win N j) {s : ℝ} (h0 : 0 ≤ s) (h1 : s ≤ π / 2) : 0 ≤ cos (ang N j s) := by
  have := ang_mem h h0 h1
  exact cos_nonneg_of_neg_pi_div_two_le_of_le (by linarith [pi_pos]) this.2

theorem corr_bounds {N j : ℕ} (h : Win N j) {s : ℝ} (h0 : 0 ≤ s) (h1 : s ≤ π / 2) : 0 ≤ corr N j s ∧ corr N j s * (4 * (π + s)) ≤ 1 := by
  have hS := sin_ang_pos h h0 h1
  have hC := cos_ang_nonneg h h0 h1
  have hn := nu_pos N
  have hm := ang_mem h h0 h1
  refine ⟨by unfold corr; positivity, ?_⟩
  unfold corr
  rw [div_mul_eq_mul_div, div_le_one (by positivity)]
  have h2 := cot_le hm.1 hm.2
  have h3 := nu_ang N j s
  have hj : (1 : ℝ) ≤ j := by exact_mod_cast h.one
  have hpi := pi_pos
  have h4 : π + s ≤ nu N * ang N j s := by rw [h3]; nlinarith
  calc cos (ang N j s) * (4 * (π + s)) ≤ cos (ang N j s) * (4 * (nu N * ang N j s)) := by
        apply mul_le_mul_of_nonneg_left _ hC; linarith
    _ = 4 * nu N * (ang N j s * cos (ang N j s)) := by ring
    _ ≤ 4 * nu N * sin (ang N j s) := mul_le_mul_of_nonneg_left h2 (by positivity)

/-- The step of Newton's method in the window. -/
theorem win_step {N j : ℕ} (h : Win N j) {s : ℝ} (h0 : 0 ≤ s) (h1 : s ≤ π / 2) :
    (legendre N).eval (pt N j s) ≠ 0 ∧ ∃ ψ, s - π / 4 - corr N j s ≤ ψ ∧ ψ ≤ s - π / 4 ∧
      hstep N (pt N j s) = (nu N * sin (ang N j s) * tan ψ + cos (ang N j s) / 2) / ((N : ℝ) * (N + 1)) := by
  obtain ⟨c0, c1⟩ := corr_bounds h h0 h1
  have hpi := pi_gt_three
  have hc : corr N j s ≤ 1 / 12 := by nlinarith
  have hm := ang_mem h h0 h1
  have e : nu N * ang N j s - π / 4 - j * π = s - π / 4 := by rw [nu_ang]; ring
  have := hstep_eq (by have := h.three; omega : 1 ≤ N) j hm.1 hm.2 (by rw [e]; change -(π / 2) < s - π / 4 - corr N j s; linarith) (by rw [e]; linarith)
  rw [e] at this
  exact this

/-! ## Newton's map -/

/-- One step of Newton's method. -/
noncomputable def nmap (N : ℕ) (x : ℝ) : ℝ := x - hstep N x

theorem nmap_deriv {N : ℕ} (hN : 1 ≤ N) {x : ℝ} (hx : x ^ 2 < 1) (hP : (legendre N).eval x ≠ 0) :
    HasDerivAt (nmap N) (-((N : ℝ) * (N + 1) / (1 - x ^ 2) * hstep N x ^ 2)) x := by
  have h2 : (2 * (N : ℝ) + 1) ≠ 0 := by positivity
  have hd := ((qPoly N).hasDerivAt x).div (((legendre N).hasDerivAt x).const_mul (2 * (N : ℝ) + 1)) (mul_ne_zero h2 hP)
  refine ((hasDerivAt_id x).sub hd).congr_deriv ?_
  rw [deriv_qPoly hN]
  have hq := congrArg (eval x) (qPoly_eq hN)
  simp only [eval_mul, eval_C, eval_sub, eval_pow, eval_X, eval_one] at hq ⊢
  unfold hstep
  have h1 : (1 - x ^ 2) ≠ 0 := by linarith
  field_simp
  linear_combination ((qPoly N).eval x) * hq

/-- On the window Newton's map decreases. -/
theorem nmap_anti {N j : ℕ} (h : Win N j) : AntitoneOn (nmap N) (Set.Icc (pt N j 0) (pt N j (π / 2))) := by
  have hpi := pi_pos
  have hd : ∀ x ∈ Set.Icc (pt N j 0) (pt N j (π / 2)), HasDerivAt (nmap N) (-((N : ℝ) * (N + 1) / (1 - x ^ 2) * hstep N x ^ 2)) x ∧ x ^ 2 < 1 := by
    intro x hx
    obtain ⟨u, hu, rfl⟩ := exists_pt N j (by linarith) hx
    have hlt : pt N j u ^ 2 < 1 := by
      unfold pt
      have := sin_ang_pos h hu.1 hu.2
      have := sin_sq_add_cos_sq (ang N j u)
      nlinarith
    exact ⟨nmap_deriv (by have := h.three; omega) hlt (win_step h hu.1 hu.2).1, hlt⟩
  refine antitoneOn_of_deriv_nonpos (convex_Icc _ _) (fun x hx => (hd x hx).1.continuousAt.continuousWithinAt)
    (fun x hx => (hd x (interior_subset hx)).1.differentiableAt.differentiableWithinAt) fun x hx => ?_
  obtain ⟨h1, h2⟩ := hd x (interior_subset hx)
  rw [h1.deriv]
  have : 0 < 1 - x ^ 2 := by linarith
  have : 0 ≤ (N : ℝ) * (N + 1) / (1 - x ^ 2) * hstep N x ^ 2 := by positivity
  linarith

/-- `1 / (N (N + 1))` in terms of `1 / ν`. -/
theorem inv_K {N j : ℕ} (h : Win N j) : nu N / ((N : ℝ) * (N + 1)) ≤ 49 / 48 * (1 / nu N) ∧ 1 / ((N : ℝ) * (N + 1)) ≤ 49 / 48 * (1 / nu N) ^ 2 ∧
    1 / nu N ≤ 2 / 7 ∧ 0 < 1 / nu N ∧ nu N ^ 2 / ((N : ℝ) * (N + 1)) ≤ 49 / 48 := by
  have hn := nu_ge h
  have hn0 := nu_pos N
  have hN : (3 : ℝ) ≤ N := by exact_mod_cast h.three
  have e : (N : ℝ) * (N + 1) = nu N ^ 2 - 1 / 4 := by unfold nu; ring
  have hK : 0 < nu N ^ 2 - 1 / 4 := by nlinarith
  rw [e]
  refine ⟨?_, ?_, ?_, by positivity, ?_⟩
  · rw [mul_one_div, div_le_div_iff₀ hK hn0]; nlinarith
  · rw [one_div_pow, mul_one_div, div_le_div_iff₀ hK (by positivity)]; nlinarith
  · rw [div_le_div_iff₀ hn0 (by norm_num)]; linarith
  · rw [div_le_div_iff₀ hK (by norm_num)]; nlinarith

theorem tan_le_tan' {x y : ℝ} (h0 : -(π / 2) < x) (h : x ≤ y) (h1 : y < π / 2) : tan x ≤ tan y := by
  rcases eq_or_lt_of_le h with rfl | h'
  · exact le_rfl
  · exact (tan_lt_tan_of_lt_of_lt_pi_div_two h0 h1 h').le

theorem right_core {S C y u sd cd h θ : ℝ} (hS : 0 ≤ S) (hC : 0 ≤ C) (hy : 0 < y) (hy' : y ≤ 2 / 7) (u1 : 1.4136 ≤ u) (u2 : u ≤ 1.4138)
    (s1 : u * y - (u * y) ^ 3 / 6 ≤ sd) (s2 : 1 - (u * y) ^ 2 / 2 ≤ cd) (hθ : 4.7122 * y ≤ θ) (hcot : θ * C ≤ S)
    (hh : h ≤ 49 / 48 * y * S + 49 / 96 * y ^ 2 * C) : -(C * cd + S * sd) ≤ -C - h := by
  have y2 : y ^ 2 ≤ 4 / 49 := by nlinarith
  have u3 : u ^ 2 ≤ 1.99884 := by nlinarith
  have u4 : u ^ 3 ≤ 2.826 := by nlinarith
  have A : (0.35 : ℝ) * y ≤ sd - 49 / 48 * y := by
    have e : (u * y) ^ 3 = u ^ 3 * y ^ 2 * y := by ring
    have b : u ^ 3 * y ^ 2 ≤ 2.826 * (4 / 49) := mul_le_mul u4 y2 (by positivity) (by norm_num)
    have b2 := mul_le_mul_of_nonneg_right b hy.le
    rw [e] at s1
    have b3 := mul_le_mul_of_nonneg_right u1 hy.le
    linarith
  have B : 1 - cd + 49 / 96 * y ^ 2 ≤ 1.511 * y ^ 2 := by
    have e : (u * y) ^ 2 = u ^ 2 * y ^ 2 := by ring
    rw [e] at s2
    have b := mul_le_mul_of_nonneg_right u3 (sq_nonneg y)
    linarith [sq_nonneg y]
  have hsC : 4.7122 * y * C ≤ S := (mul_le_mul_of_nonneg_right hθ hC).trans hcot
  have m1 := mul_le_mul_of_nonneg_left A hS
  have m2 := mul_le_mul_of_nonneg_left B hC
  have m3 : 4.7122 * y * C * (0.35 * y) ≤ S * (0.35 * y) := mul_le_mul_of_nonneg_right hsC (by positivity)
  have m4 : 0 ≤ C * y ^ 2 := mul_nonneg hC (sq_nonneg y)
  linarith

theorem left_core {S C y u sd cd h : ℝ} (hS : 0 ≤ S) (hC : 0 ≤ C) (hy : 0 < y) (hy' : y ≤ 2 / 7) (u1 : 1.178 ≤ u) (u2 : u ≤ 1.1782)
    (s1 : u * y - (u * y) ^ 3 / 6 ≤ sd) (s2 : 9 / 32 * y ^ 2 ≤ 1 - cd) (hh : -(49 / 48 * y * S + 49 / 960 * y ^ 2 * C) ≤ h) :
    -C - h ≤ -(C * cd - S * sd) := by
  have y2 : y ^ 2 ≤ 4 / 49 := by nlinarith
  have u3 : u ^ 2 ≤ 1.3882 := by nlinarith
  have u4 : u ^ 3 ≤ 1.6357 := by nlinarith
  have A : 0 ≤ sd - 49 / 48 * y := by
    have e : (u * y) ^ 3 = u ^ 3 * y ^ 2 * y := by ring
    have b : u ^ 3 * y ^ 2 ≤ 1.6357 * (4 / 49) := mul_le_mul u4 y2 (by positivity) (by norm_num)
    have b2 := mul_le_mul_of_nonneg_right b hy.le
    rw [e] at s1
    have b3 := mul_le_mul_of_nonneg_right u1 hy.le
    linarith
  have m1 := mul_nonneg hS A
  have m2 := mul_le_mul_of_nonneg_left s2 hC
  have m4 : 0 ≤ C * y ^ 2 := mul_nonneg hC (sq_nonneg y)
  linarith

/-- From the right end of the window Newton's method goes to the right of `π/20`. -/
theorem right_end {N j : ℕ} (h : Win N j) : pt N j (π / 20) ≤ nmap N (pt N j (π / 2)) := by
  have hpi1 := pi_gt_d4
  have hpi2 := pi_lt_d4
  obtain ⟨-, ψ, p1, p2, e⟩ := win_step h (s := π / 2) (by linarith) le_rfl
  obtain ⟨c0, c1⟩ := corr_bounds h (s := π / 2) (by linarith) le_rfl
  have hS := sin_ang_pos h (s := π / 2) (by linarith) le_rfl
  have hC := cos_ang_nonneg h (s := π / 2) (by linarith) le_rfl
  obtain ⟨k1, k2, k3, k4, -⟩ := inv_K h
  have hcot := cot_le (ang_mem h (s := π / 2) (by linarith) le_rfl).1 (ang_mem h (s := π / 2) (by linarith) le_rfl).2
  have htan : tan ψ ≤ 1 := by
    rw [← tan_pi_div_four]
    exact tan_le_tan' (by nlinarith) (by linarith) (by linarith)
  have hang : 3 * π / 2 * (1 / nu N) ≤ ang N j (π / 2) := by
    unfold ang
    rw [mul_one_div]
    refine div_le_div_of_nonneg_right ?_ (nu_pos N).le
    have : (1 : ℝ) ≤ j := by exact_mod_cast h.one
    nlinarith
  unfold nmap
  rw [e]
  have ea : ang N j (π / 20) = ang N j (π / 2) - 9 * π / 20 * (1 / nu N) := by
    unfold ang; have := (nu_pos N).ne'; field_simp; ring
  unfold pt
  rw [ea, cos_sub]
  set θ := ang N j (π / 2)
  set y := 1 / nu N
  set K := (N : ℝ) * (N + 1)
  have hK : 0 < K := by have : (3 : ℝ) ≤ N := by exact_mod_cast h.three
                        simp only [K]; positivity
  have hΔ : 0 < 9 * π / 20 * y := by positivity
  have s1 := sin_gt_sub_cube hΔ
  have s2 : 1 - (9 * π / 20 * y) ^ 2 / 2 ≤ cos (9 * π / 20 * y) := one_sub_sq_div_two_le_cos
  have b1 : (nu N * sin θ * tan ψ + cos θ / 2) / K ≤ 49 / 48 * y * sin θ + 49 / 96 * y ^ 2 * cos θ := by
    have t1 : nu N * sin θ * tan ψ ≤ nu N * sin θ := by
      have : 0 ≤ nu N * sin θ := mul_nonneg (nu_pos N).le hS.le
      nlinarith
    calc (nu N * sin θ * tan ψ + cos θ / 2) / K ≤ (nu N * sin θ + cos θ / 2) / K := div_le_div_of_nonneg_right (by linarith) hK.le
      _ = nu N / K * sin θ + 1 / K * (cos θ / 2) := by field_simp
      _ ≤ 49 / 48 * y * sin θ + 49 / 48 * y ^ 2 * (cos θ / 2) := add_le_add (mul_le_mul_of_nonneg_right k1 hS.le) (mul_le_mul_of_nonneg_right k2 (by linarith))
      _ = _ := by ring
  refine right_core hS.le hC k4 k3 (u := 9 * π / 20) (by linarith) (by linarith) s1.le s2 ?_ hcot b1
  have := mul_le_mul_of_nonneg_right (by linarith : 4.7122 ≤ 3 * π / 2) k4.le
  linarith

/-- From the left end of the window Newton's method goes to the left of `3π/8`. -/
theorem left_end {N j : ℕ} (h : Win N j) : nmap N (pt N j 0) ≤ pt N j (3 * π / 8) := by
  have hpi1 := pi_gt_d4
  have hpi2 := pi_lt_d4
  obtain ⟨-, ψ, p1, p2, e⟩ := win_step h (s := 0) le_rfl (by linarith)
  obtain ⟨c0, c1⟩ := corr_bounds h (s := 0) le_rfl (by linarith)
  have hS := sin_ang_pos h (s := 0) le_rfl (by linarith)
  have hC := cos_ang_nonneg h (s := 0) le_rfl (by linarith)
  obtain ⟨k1, k2, k3, k4, -⟩ := inv_K h
  have hc : corr N j 0 ≤ 2 / 25 := by nlinarith
  have htan : -(1 + 11 / 5 * corr N j 0) ≤ tan ψ := by
    have t1 := tan_quarter_add c0 hc
    have t2 : tan (-(π / 4 + corr N j 0)) ≤ tan ψ := tan_le_tan' (by linarith) (by linarith) (by linarith)
    rw [tan_neg] at t2
    linarith
  unfold nmap
  rw [e]
  have hcorr : nu N * sin (ang N j 0) * corr N j 0 = cos (ang N j 0) / 4 := by
    unfold corr
    have := (nu_pos N).ne'
    field_simp
  have ea : ang N j (3 * π / 8) = ang N j 0 + 3 * π / 8 * (1 / nu N) := by
    unfold ang; have := (nu_pos N).ne'; field_simp; ring
  unfold pt
  rw [ea, cos_add]
  set θ := ang N j 0
  set y := 1 / nu N
  set K := (N : ℝ) * (N + 1)
  have hK : 0 < K := by have : (3 : ℝ) ≤ N := by exact_mod_cast h.three
                        simp only [K]; positivity
  have hΔ : 0 < 3 * π / 8 * y := by positivity
  have s1 := sin_gt_sub_cube hΔ
  have s2 : (9 / 32 : ℝ) * y ^ 2 ≤ 1 - cos (3 * π / 8 * y) := by
    have a1 := mul_le_sin (x := 3 * π / 8 * y / 2) (by positivity) (by nlinarith)
    have a2 : 2 / π * (3 * π / 8 * y / 2) = 3 / 8 * y := by have := pi_pos.ne'; field_simp
    rw [a2] at a1
    have a3 : cos (3 * π / 8 * y) = 1 - 2 * sin (3 * π / 8 * y / 2) ^ 2 := by
      have := cos_sq_add_sin_sq (3 * π / 8 * y / 2)
      have h2 := cos_two_mul (3 * π / 8 * y / 2)
      rw [show 2 * (3 * π / 8 * y / 2) = 3 * π / 8 * y by ring] at h2
      linarith
    nlinarith
  have b1 : -(49 / 48 * y * sin θ + 49 / 960 * y ^ 2 * cos θ) ≤ (nu N * sin θ * tan ψ + cos θ / 2) / K := by
    have t1 : -(nu N * sin θ) - 11 / 20 * cos θ ≤ nu N * sin θ * tan ψ := by
      have : 0 ≤ nu N * sin θ := mul_nonneg (nu_pos N).le hS.le
      nlinarith
    calc -(49 / 48 * y * sin θ + 49 / 960 * y ^ 2 * cos θ) = -(49 / 48 * y * sin θ + 49 / 48 * y ^ 2 * (cos θ / 20)) := by ring
      _ ≤ -(nu N / K * sin θ + 1 / K * (cos θ / 20)) := neg_le_neg (add_le_add (mul_le_mul_of_nonneg_right k1 hS.le) (mul_le_mul_of_nonneg_right k2 (by linarith)))
      _ = (-(nu N * sin θ) - 1 / 20 * cos θ) / K := by field_simp; ring
      _ ≤ (nu N * sin θ * tan ψ + cos θ / 2) / K := div_le_div_of_nonneg_right (by linarith) hK.le
  exact left_core hS.le hC k4 k3 (u := 3 * π / 8) (by linarith) (by linarith) s1.le s2 b1

/-- Newton's map sends the window to its middle part. -/
theorem nmap_win {N j : ℕ} (h : Win N j) {x : ℝ} (hx : x ∈ Set.Icc (pt N j 0) (pt N j (π / 2))) : nmap N x ∈ Set.Icc (pt N j (π / 20)) (pt N j (3 * π / 8)) := by
  have hab : pt N j 0 ≤ pt N j (π / 2) := hx.1.trans hx.2
  have ha := nmap_anti h
  exact ⟨(right_end h).trans (ha hx (Set.right_mem_Icc.mpr hab) hx.2), (ha (Set.left_mem_Icc.mpr hab) hx hx.1).trans (left_end h)⟩

theorem mid_sub {N j : ℕ} (h : Win N j) : Set.Icc (pt N j (π / 20)) (pt N j (3 * π / 8)) ⊆ Set.Icc (pt N j 0) (pt N j (π / 2)) := by
  have hpi := pi_pos
  exact Set.Icc_subset_Icc (pt_mono_le h le_rfl (by linarith) (by linarith)) (pt_mono_le h (by linarith) (by linarith) le_rfl)

/-- Newton's map is a contraction of the middle part. -/
theorem nmap_contr {N j : ℕ} (h : Win N j) {x z : ℝ} (hx : x ∈ Set.Icc (pt N j (π / 20)) (pt N j (3 * π / 8)))
    (hz : z ∈ Set.Icc (pt N j (π / 20)) (pt N j (3 * π / 8))) : |nmap N x - nmap N z| ≤ 19 / 25 * |x - z| := by
  have hpi1 := pi_gt_d4
  have hpi2 := pi_lt_d4
  have hd : ∀ x ∈ Set.Icc (pt N j (π / 20)) (pt N j (3 * π / 8)),
      HasDerivWithinAt (nmap N) (-((N : ℝ) * (N + 1) / (1 - x ^ 2) * hstep N x ^ 2)) (Set.Icc (pt N j (π / 20)) (pt N j (3 * π / 8))) x ∧
        ‖-((N : ℝ) * (N + 1) / (1 - x ^ 2) * hstep N x ^ 2)‖ ≤ 19 / 25 := by
    intro x hx
    obtain ⟨s, hs, rfl⟩ := exists_pt N j (by linarith) hx
    have s0 : 0 ≤ s := by linarith [hs.1]
    have s1 : s ≤ π / 2 := by linarith [hs.2]
    obtain ⟨hP, ψ, p1, p2, e⟩ := win_step h s0 s1
    have hS := sin_ang_pos h s0 s1
    have hsq := sin_sq_add_cos_sq (ang N j s)
    have hlt : pt N j s ^ 2 < 1 := by unfold pt; nlinarith
    refine ⟨(nmap_deriv (by have := h.three; omega) hlt hP).hasDerivWithinAt, ?_⟩
    obtain ⟨c0, c1⟩ := corr_bounds h s0 s1
    obtain ⟨-, -, -, -, k5⟩ := inv_K h
    have hcor : cos (ang N j s) / sin (ang N j s) / (2 * nu N) = 2 * corr N j s := by
      unfold corr
      have := (nu_pos N).ne'
      field_simp
      norm_num
    have hc : corr N j s ≤ 0.076 := by nlinarith [hs.1]
    have t1 : tan ψ ≤ 0.44 := by
      have a1 : tan ψ ≤ tan (π / 4 - π / 8) := tan_le_tan' (by nlinarith [hs.1]) (by linarith [hs.2]) (by linarith)
      have a2 := tan_quarter_sub (z := π / 8) (by linarith) (by linarith)
      have a3 : (1 - π / 8) / (1 + π / 8) ≤ 0.44 := by rw [div_le_iff₀ (by linarith)]; linarith
      linarith
    have t2 : -0.86 ≤ tan ψ := by
      have a1 : tan (-(π / 4 - (π / 20 - corr N j s))) ≤ tan ψ := tan_le_tan' (by linarith) (by linarith [hs.1]) (by linarith [hs.2])
      have a2 := tan_quarter_sub (z := π / 20 - corr N j s) (by linarith) (by linarith)
      have a3 : (1 - (π / 20 - corr N j s)) / (1 + (π / 20 - corr N j s)) ≤ 0.86 := by rw [div_le_iff₀ (by linarith)]; linarith
      rw [tan_neg] at a1
      linarith
    rw [e]
    have hK : 0 < (N : ℝ) * (N + 1) := by have : (3 : ℝ) ≤ N := by exact_mod_cast h.three
                                          positivity
    have e2 : (N : ℝ) * (N + 1) / (1 - pt N j s ^ 2) * ((nu N * sin (ang N j s) * tan ψ + cos (ang N j s) / 2) / ((N : ℝ) * (N + 1))) ^ 2 =
        nu N ^ 2 / ((N : ℝ) * (N + 1)) * (tan ψ + 2 * corr N j s) ^ 2 := by
      rw [← hcor]
      have : 1 - pt N j s ^ 2 = sin (ang N j s) ^ 2 := by unfold pt; linarith
      rw [this]
      have := (nu_pos N).ne'
      field_simp
    rw [e2, norm_neg, norm_of_nonneg (by positivity)]
    have b1 : (tan ψ + 2 * corr N j s) ^ 2 ≤ 0.7396 := by nlinarith
    calc nu N ^ 2 / ((N : ℝ) * (N + 1)) * (tan ψ + 2 * corr N j s) ^ 2 ≤ 49 / 48 * 0.7396 := mul_le_mul k5 b1 (sq_nonneg _) (by norm_num)
      _ ≤ 19 / 25 := by norm_num
  have := (convex_Icc (pt N j (π / 20)) (pt N j (3 * π / 8))).norm_image_sub_le_of_norm_hasDerivWithin_le (f := nmap N)
    (f' := fun x => -((N : ℝ) * (N + 1) / (1 - x ^ 2) * hstep N x ^ 2)) (C := 19 / 25) (fun x hx => (hd x hx).1) (fun x hx => (hd x hx).2) hz hx
  simpa [Real.norm_eq_abs] using this

/-- The first guess is in the window. -/
theorem guess_win {N j : ℕ} (h : Win N j) : guess N j ∈ Set.Icc (pt N j 0) (pt N j (π / 2)) := by
  have hpi1 := pi_gt_d4
  have hpi2 := pi_lt_d4
  have hj : (1 : ℝ) ≤ j := by exact_mod_cast h.one
  have hjN : 2 * (j : ℝ) + 1 ≤ N := by exact_mod_cast h.lt
  have hN : (0 : ℝ) < N := by linarith
  set g : ℝ := ((j : ℝ) + 1 / 4) * π / N - 3 / (8 * N * π) * (1 / ((j : ℝ) + 1 / 4)) with hg
  have e : guess N j = pt N j (nu N * g - j * π) := by
    unfold guess pt ang
    rw [← hg, show ((j : ℝ) * π + (nu N * g - j * π)) / nu N = g by have := (nu_pos N).ne'; field_simp; ring]
  have es : nu N * g - j * π = π / 4 + ((j : ℝ) + 1 / 4) * π / (2 * N) - (1 + 1 / (2 * N)) * (3 / (8 * π * ((j : ℝ) + 1 / 4))) := by
    rw [hg]; unfold nu
    have := pi_pos.ne'
    have : (j : ℝ) + 1 / 4 ≠ 0 := by positivity
    field_simp
    ring
  have b1 : ((j : ℝ) + 1 / 4) * π / (2 * N) ≤ π / 4 := by
    rw [div_le_div_iff₀ (by positivity) (by norm_num)]; nlinarith
  have b2 : 0 ≤ ((j : ℝ) + 1 / 4) * π / (2 * N) := by positivity
  have b3 : 0 ≤ (1 + 1 / (2 * (N : ℝ))) * (3 / (8 * π * ((j : ℝ) + 1 / 4))) := by positivity
  have b4 : (1 + 1 / (2 * (N : ℝ))) * (3 / (8 * π * ((j : ℝ) + 1 / 4))) ≤ 7 / 6 * (1 / 8) := by
    refine mul_le_mul ?_ ?_ (by positivity) (by norm_num)
    · have : 1 / (2 * (N : ℝ)) ≤ 1 / 6 := one_div_le_one_div_of_le (by norm_num) (by linarith)
      linarith
    · rw [div_le_div_iff₀ (by positivity) (by norm_num)]; nlinarith
  rw [e, es]
  exact ⟨pt_mono_le h le_rfl (by linarith) (by linarith), pt_mono_le h (by linarith) (by linarith) le_rfl⟩

theorem pt_abs {N j : ℕ} (h : Win N j) {x : ℝ} (hx : x ∈ Set.Icc (pt N j (π / 20)) (pt N j (3 * π / 8))) : 3 / 4 * (1 / nu N) ≤ |x| := by
  have hpi := pi_pos
  have hn := nu_pos N
  have hjN : 2 * (j : ℝ) + 1 ≤ N := by exact_mod_cast h.lt
  have h1 : pt N j (3 * π / 8) ≤ -(3 / 4 * (1 / nu N)) := by
    unfold pt
    refine neg_le_neg ?_
    rw [← sin_pi_div_two_sub]
    have a1 : 3 * π / 8 * (1 / nu N) ≤ π / 2 - ang N j (3 * π / 8) := by
      unfold ang
      rw [mul_one_div, le_sub_iff_add_le, ← add_div, div_le_iff₀ hn]
      unfold nu
      nlinarith
    have a0 : 0 ≤ 3 * π / 8 * (1 / nu N) := by positivity
    have am := ang_mem h (s := 3 * π / 8) (by linarith) (by linarith)
    have a2 := mul_le_sin (x := π / 2 - ang N j (3 * π / 8)) (by linarith) (by linarith)
    refine le_trans ?_ a2
    calc 3 / 4 * (1 / nu N) = 2 / π * (3 * π / 8 * (1 / nu N)) := by field_simp; norm_num
      _ ≤ _ := mul_le_mul_of_nonneg_left a1 (by positivity)
  have h2 : x ≤ -(3 / 4 * (1 / nu N)) := hx.2.trans h1
  have h3 : 0 < 3 / 4 * (1 / nu N) := by positivity
  rw [abs_of_neg (by linarith)]
  linarith

theorem pt_width {N j : ℕ} (h : Win N j) {x z : ℝ} (hx : x ∈ Set.Icc (pt N j (π / 20)) (pt N j (3 * π / 8)))
    (hz : z ∈ Set.Icc (pt N j (π / 20)) (pt N j (3 * π / 8))) : |x - z| ≤ 2 * (1 / nu N) := by
  have hpi1 := pi_gt_d4
  have hpi2 := pi_lt_d4
  have hn := nu_pos N
  have h1 : pt N j (3 * π / 8) - pt N j (π / 20) ≤ 2 * (1 / nu N) := by
    unfold pt
    have h1 := (le_abs_self _).trans (abs_cos_sub_cos_le (ang N j (π / 20)) (ang N j (3 * π / 8)))
    have h2 : |ang N j (π / 20) - ang N j (3 * π / 8)| = 13 * π / 40 * (1 / nu N) := by
      rw [abs_sub_comm, abs_of_pos (sub_pos.mpr (ang_mono N j (by linarith)))]
      unfold ang
      field_simp
      ring
    have h3 : 13 * π / 40 * (1 / nu N) ≤ 2 * (1 / nu N) := mul_le_mul_of_nonneg_right (by linarith) (by positivity)
    linarith
  rw [abs_le]
  constructor <;> linarith [hx.1, hx.2, hz.1, hz.2]

/-- One pass of the loop of Newton's method in the window. -/
theorem newton_step {N j : ℕ} (h : Win N j) (k : ℕ) {x : ℝ} (hx : x ∈ Set.Icc (pt N j 0) (pt N j (π / 2))) :
    newton N (k + 1) x = if |nmap N x - x| < tol9 * |nmap N x| then .ok (nmap N x) else newton N k (nmap N x) := by
  have hN : 2 ≤ N := by have := h.three; omega
  obtain ⟨u, hu, rfl⟩ := exists_pt N j (by have := pi_pos; linarith) hx
  have hP := (win_step h hu.1 hu.2).1
  have h2 : (2 * (N : ℝ) + 1) ≠ 0 := by positivity
  conv_lhs => unfold newton
  rw [qAndEval_spec _ N hN, ok_bind]
  dsimp only
  rw [if_neg (mul_ne_zero h2 hP)]
  have e1 : pt N j u + -(legendre (N + 1) - legendre (N - 1)).eval (pt N j u) / ((2 * (N : ℝ) + 1) * (legendre N).eval (pt N j u)) = nmap N (pt N j u) := by
    unfold nmap hstep qPoly; ring
  have e2 : -(legendre (N + 1) - legendre (N - 1)).eval (pt N j u) / ((2 * (N : ℝ) + 1) * (legendre N).eval (pt N j u)) = nmap N (pt N j u) - pt N j u := by
    unfold nmap hstep qPoly; ring
  rw [e1, e2]
  rfl

/-- Newton's method from the middle part. -/
theorem newton_mid {N j : ℕ} (h : Win N j) (k : ℕ) {x d : ℝ} (hx : x ∈ Set.Icc (pt N j (π / 20)) (pt N j (3 * π / 8))) (hd : |nmap N x - x| ≤ d) :
    ∃ z ∈ Set.Icc (pt N j (π / 20)) (pt N j (3 * π / 8)), newton N (k + 1) x = .ok (nmap N z) ∧
      (|nmap N z - z| < tol9 * |nmap N z| ∨ |nmap N z - z| ≤ (19 / 25) ^ k * d) := by
  induction k generalizing x d with
  | zero =>
    refine ⟨x, hx, ?_, .inr (by rw [pow_zero, one_mul]; exact hd)⟩
    rw [newton_step h 0 (mid_sub h hx)]
    split_ifs <;> rfl
  | succ k ih =>
    rw [newton_step h _ (mid_sub h hx)]
    split_ifs with ht
    · exact ⟨x, hx, rfl, .inl ht⟩
    · have hm := nmap_win h (mid_sub h hx)
      obtain ⟨z, hz, e, hor⟩ := ih hm (d := 19 / 25 * d) ((nmap_contr h hm hx).trans (mul_le_mul_of_nonneg_left hd (by norm_num)))
      refine ⟨z, hz, e, hor.imp_right fun hle => hle.trans (le_of_eq ?_)⟩
      rw [pow_succ]; ring

/-- In the middle part of the window there is a zero. -/
theorem exists_zero {N j : ℕ} (h : Win N j) : ∃ r ∈ Set.Icc (pt N j (π / 20)) (pt N j (3 * π / 8)), (qPoly N).eval r = 0 := by
  have hpi := pi_pos
  have hab : pt N j (π / 20) ≤ pt N j (3 * π / 8) := pt_mono_le h (by linarith) (by linarith) (by linarith)
  have h1 := nmap_win h (mid_sub h (Set.left_mem_Icc.mpr hab))
  have h2 := nmap_win h (mid_sub h (Set.right_mem_Icc.mpr hab))
  have hc : ContinuousOn (fun x => nmap N x - x) (Set.Icc (pt N j (π / 20)) (pt N j (3 * π / 8))) := by
    refine ContinuousOn.sub (fun x hx => ?_) continuousOn_id
    obtain ⟨u, hu, rfl⟩ := exists_pt N j (by linarith) hx
    have hs := sin_ang_pos h (s := u) (by linarith [hu.1]) (by linarith [hu.2])
    have hsq := sin_sq_add_cos_sq (ang N j u)
    exact (nmap_deriv (by have := h.three; omega) (by unfold pt; nlinarith) (win_step h (by linarith [hu.1]) (by linarith [hu.2])).1).continuousAt.continuousWithinAt
  obtain ⟨r, hr, e⟩ := intermediate_value_Icc' hab hc (show (0 : ℝ) ∈ Set.Icc _ _ from ⟨by linarith [h2.2], by linarith [h1.1]⟩)
  refine ⟨r, hr, ?_⟩
  obtain ⟨u, hu, rfl⟩ := exists_pt N j (by linarith) hr
  have hP := (win_step h (s := u) (by linarith [hu.1]) (by linarith [hu.2])).1
  dsimp only at e
  unfold nmap hstep at e
  have h3 : (qPoly N).eval (pt N j u) / ((2 * (N : ℝ) + 1) * (legendre N).eval (pt N j u)) = 0 := by linarith
  rcases div_eq_zero_iff.mp h3 with h4 | h4
  · exact h4
  · exact absurd h4 (mul_ne_zero (by positivity) hP)

/-- **Newton's method converges.** -/
theorem newton_converges {N j : ℕ} (h : Win N j) : ∃ x ∈ Set.Icc (pt N j (π / 20)) (pt N j (3 * π / 8)), newton N 100 (guess N j) = .ok x ∧
    ∃ r ∈ Set.Icc (pt N j (π / 20)) (pt N j (3 * π / 8)), (qPoly N).eval r = 0 ∧ |x - r| ≤ tol9 * |x| := by
  obtain ⟨r, hr, hr0⟩ := exists_zero h
  have hfix : nmap N r = r := by unfold nmap hstep; rw [hr0, zero_div, sub_zero]
  -- the zero is between a point and its image
  have near : ∀ z ∈ Set.Icc (pt N j 0) (pt N j (π / 2)), |nmap N z - r| ≤ |nmap N z - z| := by
    intro z hz
    have ha := nmap_anti h
    rcases le_total z r with hle | hle
    · have := ha hz (mid_sub h hr) hle
      rw [hfix] at this
      rw [abs_of_nonneg (by linarith), abs_of_nonneg (by linarith)]; linarith
    · have := ha (mid_sub h hr) hz hle
      rw [hfix] at this
      rw [abs_of_nonpos (by linarith), abs_of_nonpos (by linarith)]; linarith
  have hg := guess_win h
  have hg1 := nmap_win h hg
  rw [newton_step h 99 hg]
  split_ifs with ht
  · exact ⟨_, hg1, rfl, r, hr, hr0, (near _ hg).trans ht.le⟩
  · obtain ⟨z, hz, e, hor⟩ := newton_mid h 98 hg1 (pt_width h (nmap_win h (mid_sub h hg1)) hg1)
    have hz1 := nmap_win h (mid_sub h hz)
    refine ⟨_, hz1, e, r, hr, hr0, (near _ (mid_sub h hz)).trans ?_⟩
    rcases hor with h1 | h1
    · exact h1.le
    · refine h1.trans ?_
      have h2 := pt_abs h hz1
      have h3 : 0 < 1 / nu N := by have := nu_pos N; positivity
      have h4 : ((19 : ℝ) / 25) ^ 98 * 2 ≤ tol9 * (3 / 4) := by unfold tol9; norm_num
      calc ((19 : ℝ) / 25) ^ 98 * (2 * (1 / nu N)) = (((19 : ℝ) / 25) ^ 98 * 2) * (1 / nu N) := by ring
        _ ≤ tol9 * (3 / 4) * (1 / nu N) := mul_le_mul_of_nonneg_right h4 h3.le
        _ = tol9 * (3 / 4 * (1 / nu N)) := by ring
        _ ≤ tol9 * |nmap N z| := mul_le_mul_of_nonneg_left h2 (by unfold tol9; positivity)

end GSplines.GLL
