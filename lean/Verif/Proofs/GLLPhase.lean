import Verif.Proofs.GLLQuad
import Mathlib.Analysis.SpecialFunctions.Trigonometric.Deriv
import Mathlib.Analysis.Calculus.MeanValue
import Mathlib.Analysis.Calculus.Deriv.MeanValue
import Mathlib.MeasureTheory.Integral.IntervalIntegral.FundThmCalculus

/-!
# The phase of the Legendre polynomials

With `x = -cos θ` the pair `(P_N, -(d/dθ + cot θ / 2) P_N / ν)`, `ν = N + 1/2`, turns around the origin with an angular velocity between `ν` and
`ν + 1 / (4 ν sin² θ)`. This locates the zeros of `P_N` and of `P_{N+1} - P_{N-1}` for all `N`.
-/

namespace GSplines.GLL

open GSplines Polynomial Spec LegendrePoly Legendre Real

/-- `P_N` at `-cos θ`. -/
noncomputable def pf (N : ℕ) (θ : ℝ) : ℝ := (legendre N).eval (-cos θ)
/-- Its derivative. -/
noncomputable def pd (N : ℕ) (θ : ℝ) : ℝ := sin θ * (derivative (legendre N)).eval (-cos θ)
noncomputable def nu (N : ℕ) : ℝ := (N : ℝ) + 1 / 2
noncomputable def vf (N : ℕ) (θ : ℝ) : ℝ := -(pd N θ + 1 / 2 * (cos θ / sin θ) * pf N θ) / nu N

theorem nu_pos (N : ℕ) : 0 < nu N := by unfold nu; positivity

theorem pf_deriv (N : ℕ) (θ : ℝ) : HasDerivAt (pf N) (pd N θ) θ := by
  have h := ((legendre N).hasDerivAt (-cos θ)).comp θ (hasDerivAt_cos θ).neg
  refine h.congr_deriv ?_
  unfold pd
  ring

theorem pd_deriv (N : ℕ) {θ : ℝ} (hs : sin θ ≠ 0) : HasDerivAt (pd N) (-(cos θ / sin θ) * pd N θ - (N : ℝ) * (N + 1) * pf N θ) θ := by
  have h1 := ((derivative (legendre N)).hasDerivAt (-cos θ)).comp θ (hasDerivAt_cos θ).neg
  refine ((hasDerivAt_sin θ).mul h1).congr_deriv ?_
  have ho := congrArg (eval (-cos θ)) (ode N)
  simp only [derivative_mul, derivative_sub, derivative_X_pow, derivative_one, eval_add, eval_mul, eval_sub, eval_pow, eval_X, eval_one, eval_C, eval_natCast, sub_zero] at ho
  unfold pd pf
  have e : sin θ ^ 2 = 1 - cos θ ^ 2 := by rw [sin_sq]
  simp only [Function.comp]
  push_cast at ho
  norm_num at ho
  have e2 : -(cos θ / sin θ) * (sin θ * eval (-cos θ) (derivative (legendre N))) = -cos θ * eval (-cos θ) (derivative (legendre N)) := by
    field_simp
  rw [e2]
  linear_combination -ho + (eval (-cos θ) (derivative (derivative (legendre N)))) * e

theorem pf_deriv' (N : ℕ) {θ : ℝ} (hs : sin θ ≠ 0) : HasDerivAt (pf N) (-nu N * vf N θ - 1 / 2 * (cos θ / sin θ) * pf N θ) θ := by
  refine (pf_deriv N θ).congr_deriv ?_
  have := (nu_pos N).ne'
  unfold vf
  field_simp
  ring

theorem vf_deriv (N : ℕ) {θ : ℝ} (hs : sin θ ≠ 0) :
    HasDerivAt (vf N) ((nu N + 1 / (4 * nu N * sin θ ^ 2)) * pf N θ - 1 / 2 * (cos θ / sin θ) * vf N θ) θ := by
  have hc : HasDerivAt (fun θ => cos θ / sin θ) (-1 / sin θ ^ 2) θ := by
    refine ((hasDerivAt_cos θ).div (hasDerivAt_sin θ) hs).congr_deriv ?_
    congr 1
    have := sin_sq_add_cos_sq θ
    linear_combination -this
  have h := (((pd_deriv N hs).add ((hc.const_mul (1 / 2)).mul (pf_deriv N θ))).neg).div_const (nu N)
  refine h.congr_deriv ?_
  have hn := (nu_pos N).ne'
  have e : sin θ ^ 2 = 1 - cos θ ^ 2 := by rw [sin_sq]
  have hN : (N : ℝ) * (N + 1) = nu N ^ 2 - 1 / 4 := by unfold nu; ring
  rw [hN]
  unfold vf
  field_simp
  linear_combination (-(4 : ℝ) * pf N θ) * e

theorem pf_vf_ne {N : ℕ} (hN : 1 ≤ N) {θ : ℝ} (hs : sin θ ≠ 0) : 0 < pf N θ ^ 2 + vf N θ ^ 2 := by
  rcases eq_or_ne (pf N θ) 0 with h | h
  · rcases eq_or_ne (vf N θ) 0 with h' | h'
    · exfalso
      have h2 : pd N θ = 0 := by
        unfold vf at h'
        rw [h, mul_zero, add_zero, div_eq_zero_iff] at h'
        rcases h' with h' | h'
        · linarith
        · exact absurd h' (nu_pos N).ne'
      have h3 : (derivative (legendre N)).eval (-cos θ) = 0 := (mul_eq_zero.mp h2).resolve_left hs
      have h4 := congrArg (eval (-cos θ)) (qPoly_eq hN)
      simp only [eval_mul, eval_C, h3, mul_zero] at h4
      have hk : (N : ℝ) * (N + 1) ≠ 0 := by
        have : (0 : ℝ) < N := by exact_mod_cast hN
        positivity
      exact legendre_ne_of_zero hN ((mul_eq_zero.mp h4).resolve_left hk) h
    · positivity
  · positivity

/-- The angular velocity. -/
noncomputable def omega (N : ℕ) (θ : ℝ) : ℝ :=
  ((nu N + 1 / (4 * nu N * sin θ ^ 2)) * pf N θ ^ 2 + nu N * vf N θ ^ 2) / (pf N θ ^ 2 + vf N θ ^ 2)

theorem sin_ne {θ : ℝ} (h : θ ∈ Set.Ioo 0 π) : sin θ ≠ 0 := (sin_pos_of_pos_of_lt_pi h.1 h.2).ne'

theorem omega_cont {N : ℕ} (hN : 1 ≤ N) : ContinuousOn (omega N) (Set.Ioo 0 π) := by
  have hp : ContinuousOn (pf N) (Set.Ioo 0 π) := fun θ _ => (pf_deriv N θ).continuousAt.continuousWithinAt
  have hv : ContinuousOn (vf N) (Set.Ioo 0 π) := fun θ h => (vf_deriv N (sin_ne h)).continuousAt.continuousWithinAt
  unfold omega
  refine ContinuousOn.div ?_ ((hp.pow 2).add (hv.pow 2)) fun θ h => (pf_vf_ne hN (sin_ne h)).ne'
  refine ((continuousOn_const.add (continuousOn_const.div (continuousOn_const.mul (continuousOn_sin.pow 2)) fun θ h => ?_)).mul (hp.pow 2)).add
    (continuousOn_const.mul (hv.pow 2))
  have h1 := sin_ne h
  have h2 := (nu_pos N).ne'
  show 4 * nu N * sin θ ^ 2 ≠ 0
  positivity

theorem omega_bounds {N : ℕ} (hN : 1 ≤ N) {θ : ℝ} (h : θ ∈ Set.Ioo 0 π) : nu N ≤ omega N θ ∧ omega N θ ≤ nu N + 1 / (4 * nu N * sin θ ^ 2) := by
  have hr := pf_vf_ne hN (sin_ne h)
  have hn := nu_pos N
  have hs := sin_ne h
  have hk : 0 < 1 / (4 * nu N * sin θ ^ 2) := by positivity
  unfold omega
  constructor
  · rw [le_div_iff₀ hr]
    nlinarith [mul_nonneg hk.le (sq_nonneg (pf N θ))]
  · rw [div_le_iff₀ hr]
    nlinarith [mul_nonneg hk.le (sq_nonneg (vf N θ))]

/-- The phase. -/
noncomputable def phase (N : ℕ) (θ : ℝ) : ℝ := N * π / 2 + ∫ s in (π / 2)..θ, omega N s

theorem mid_mem : π / 2 ∈ Set.Ioo 0 π := ⟨by positivity, by linarith [pi_pos]⟩

theorem phase_mid (N : ℕ) : phase N (π / 2) = N * π / 2 := by simp [phase]

theorem phase_deriv {N : ℕ} (hN : 1 ≤ N) {θ : ℝ} (h : θ ∈ Set.Ioo 0 π) : HasDerivAt (phase N) (omega N θ) θ := by
  have hc := omega_cont hN
  have h1 : IntervalIntegrable (omega N) MeasureTheory.volume (π / 2) θ := by
    refine (hc.mono fun x hx => ?_).intervalIntegrable
    exact Set.ordConnected_Ioo.uIcc_subset mid_mem h hx
  exact (intervalIntegral.integral_hasDerivAt_right h1 (hc.stronglyMeasurableAtFilter isOpen_Ioo θ h) (hc.continuousAt (isOpen_Ioo.mem_nhds h))).const_add _

theorem sin_half (N : ℕ) : pf N (π / 2) * sin (N * π / 2) = vf N (π / 2) * cos (N * π / 2) := by
  unfold vf pd
  rw [show pf N (π / 2) = (legendre N).eval 0 by unfold pf; simp]
  simp only [cos_pi_div_two, sin_pi_div_two, neg_zero, zero_div, mul_zero, zero_mul, add_zero, one_mul]
  rcases Nat.even_or_odd' N with ⟨m, rfl | rfl⟩
  · have h1 : sin (((2 * m : ℕ) : ℝ) * π / 2) = 0 := by
      rw [show ((2 * m : ℕ) : ℝ) * π / 2 = m * π by push_cast; ring]; exact sin_nat_mul_pi m
    have h2 : (derivative (legendre (2 * m))).eval 0 = 0 := by
      have hfun : (fun t : ℝ => (legendre (2 * m)).eval (-t)) = fun t => (legendre (2 * m)).eval t := by
        funext t; rw [legendre_neg]; simp
      have d1 : HasDerivAt (fun t : ℝ => (legendre (2 * m)).eval (-t)) (-(derivative (legendre (2 * m))).eval 0) 0 := by
        have := ((legendre (2 * m)).hasDerivAt (-0)).comp (0 : ℝ) (hasDerivAt_neg (0 : ℝ))
        refine this.congr_deriv ?_
        simp
      rw [hfun] at d1
      have := d1.unique ((legendre (2 * m)).hasDerivAt 0)
      linarith
    rw [h1, h2]; simp
  · have h1 : cos (((2 * m + 1 : ℕ) : ℝ) * π / 2) = 0 := by
      rw [show ((2 * m + 1 : ℕ) : ℝ) * π / 2 = m * π + π / 2 by push_cast; ring, cos_add_pi_div_two, sin_nat_mul_pi]; simp
    have h2 : (legendre (2 * m + 1)).eval 0 = 0 := by
      have := legendre_neg (2 * m + 1) 0
      rw [neg_zero, pow_succ, pow_mul] at this
      norm_num at this
      linarith
    rw [h1, h2]; simp

/-- The phase is the angle of the pair. -/
theorem phase_angle {N : ℕ} (hN : 1 ≤ N) {θ : ℝ} (h : θ ∈ Set.Ioo 0 π) : pf N θ * sin (phase N θ) = vf N θ * cos (phase N θ) := by
  set J : ℝ → ℝ := fun θ => (pf N θ * sin (phase N θ) - vf N θ * cos (phase N θ)) ^ 2 / (pf N θ ^ 2 + vf N θ ^ 2) with hJ
  have hd : ∀ θ ∈ Set.Ioo 0 π, HasDerivWithinAt J 0 (Set.Ioo 0 π) θ := by
    intro θ hθ
    have hs := sin_ne hθ
    have hr := pf_vf_ne hN hs
    have hp := pf_deriv' N hs
    have hv := vf_deriv N hs
    have hf := phase_deriv hN hθ
    have h1 := (((hp.mul hf.sin).sub (hv.mul hf.cos)).pow 2).div ((hp.pow 2).add (hv.pow 2)) hr.ne'
    refine (h1.congr_deriv ?_).hasDerivWithinAt
    rw [div_eq_zero_iff]
    left
    have e : omega N θ * (pf N θ ^ 2 + vf N θ ^ 2) = (nu N + 1 / (4 * nu N * sin θ ^ 2)) * pf N θ ^ 2 + nu N * vf N θ ^ 2 := by
      unfold omega; rw [div_mul_cancel₀ _ hr.ne']
    simp only [Nat.cast_ofNat, Nat.add_one_sub_one, pow_one, Pi.mul_apply, Pi.sub_apply, Pi.pow_apply, Pi.add_apply]
    set κ := 1 / (4 * nu N * sin θ ^ 2)
    set a := pf N θ
    set b := vf N θ
    set S := sin (phase N θ)
    set K := cos (phase N θ)
    linear_combination (2 * (a * S - b * K) * (a * K + b * S)) * e
  have := (convex_Ioo (0 : ℝ) π).norm_image_sub_le_of_norm_hasDerivWithin_le (f := J) (f' := fun _ => 0) (C := 0) hd (fun _ _ => by simp) mid_mem h
  rw [zero_mul, norm_le_zero_iff] at this
  have hmid : J (π / 2) = 0 := by
    rw [hJ]; dsimp only
    rw [phase_mid, sin_half, sub_self]; simp
  rw [hmid, sub_zero, hJ] at this
  rcases div_eq_zero_iff.mp this with h2 | h2
  · exact sub_eq_zero.mp (pow_eq_zero_iff (by norm_num) |>.mp h2)
  · exact absurd h2 (pf_vf_ne hN (sin_ne h)).ne'

/-- Where the phase is. -/
theorem phase_bounds {N : ℕ} (hN : 1 ≤ N) {θ : ℝ} (h0 : 0 < θ) (h1 : θ ≤ π / 2) :
    nu N * θ - π / 4 - cos θ / (4 * nu N * sin θ) ≤ phase N θ ∧ phase N θ ≤ nu N * θ - π / 4 := by
  have hmem : ∀ s ∈ Set.Icc θ (π / 2), s ∈ Set.Ioo 0 π := fun s hs => ⟨by linarith [hs.1], by linarith [hs.2, pi_pos]⟩
  have hn := nu_pos N
  have hmid : phase N (π / 2) = nu N * (π / 2) - π / 4 := by rw [phase_mid]; unfold nu; ring
  constructor
  · have hanti : AntitoneOn (fun s => phase N s - nu N * s + cos s / (4 * nu N * sin s)) (Set.Icc θ (π / 2)) := by
      have hd : ∀ s ∈ Set.Icc θ (π / 2), HasDerivAt (fun s => phase N s - nu N * s + cos s / (4 * nu N * sin s)) (omega N s - nu N - 1 / (4 * nu N * sin s ^ 2)) s := by
        intro s hs
        have hsn := sin_ne (hmem s hs)
        have hc : HasDerivAt (fun s => cos s / (4 * nu N * sin s)) (-(1 / (4 * nu N * sin s ^ 2))) s := by
          refine ((hasDerivAt_cos s).div ((hasDerivAt_sin s).const_mul (4 * nu N)) (by positivity)).congr_deriv ?_
          have := sin_sq_add_cos_sq s
          have hnn := hn.ne'
          field_simp
          linear_combination -this
        refine (((phase_deriv hN (hmem s hs)).sub ((hasDerivAt_id s).const_mul (nu N))).add hc).congr_deriv ?_
        ring
      refine antitoneOn_of_deriv_nonpos (convex_Icc _ _) (fun s hs => (hd s hs).continuousAt.continuousWithinAt)
        (fun s hs => (hd s (interior_subset hs)).differentiableAt.differentiableWithinAt) fun s hs => ?_
      rw [(hd s (interior_subset hs)).deriv]
      linarith [(omega_bounds hN (hmem s (interior_subset hs))).2]
    have := hanti (Set.left_mem_Icc.mpr h1) (Set.right_mem_Icc.mpr h1) h1
    simp only [hmid, cos_pi_div_two, zero_div, add_zero] at this
    linarith
  · have hmono : MonotoneOn (fun s => phase N s - nu N * s) (Set.Icc θ (π / 2)) := by
      have hd : ∀ s ∈ Set.Icc θ (π / 2), HasDerivAt (fun s => phase N s - nu N * s) (omega N s - nu N) s := by
        intro s hs
        refine ((phase_deriv hN (hmem s hs)).sub ((hasDerivAt_id s).const_mul (nu N))).congr_deriv ?_
        ring
      refine monotoneOn_of_deriv_nonneg (convex_Icc _ _) (fun s hs => (hd s hs).continuousAt.continuousWithinAt)
        (fun s hs => (hd s (interior_subset hs)).differentiableAt.differentiableWithinAt) fun s hs => ?_
      rw [(hd s (interior_subset hs)).deriv]
      linarith [(omega_bounds hN (hmem s (interior_subset hs))).1]
    have := hmono (Set.left_mem_Icc.mpr h1) (Set.right_mem_Icc.mpr h1) h1
    simp only [hmid] at this
    linarith

/-- The step of Newton's method. -/
noncomputable def hstep (N : ℕ) (x : ℝ) : ℝ := (qPoly N).eval x / ((2 * (N : ℝ) + 1) * (legendre N).eval x)

/-- The step of Newton's method in terms of the phase: `j` is the number of half turns. -/
theorem hstep_eq {N : ℕ} (hN : 1 ≤ N) (j : ℕ) {θ : ℝ} (h0 : 0 < θ) (h1 : θ ≤ π / 2)
    (hl : -(π / 2) < nu N * θ - π / 4 - j * π - cos θ / (4 * nu N * sin θ)) (hr : nu N * θ - π / 4 - j * π < π / 2) :
    (legendre N).eval (-cos θ) ≠ 0 ∧ ∃ ψ, nu N * θ - π / 4 - j * π - cos θ / (4 * nu N * sin θ) ≤ ψ ∧ ψ ≤ nu N * θ - π / 4 - j * π ∧
      hstep N (-cos θ) = (nu N * sin θ * tan ψ + cos θ / 2) / ((N : ℝ) * (N + 1)) := by
  have hmem : θ ∈ Set.Ioo 0 π := ⟨h0, by linarith [pi_pos]⟩
  obtain ⟨b1, b2⟩ := phase_bounds hN h0 h1
  set ψ := phase N θ - j * π with hψ
  have hcos : 0 < cos ψ := cos_pos_of_mem_Ioo ⟨by linarith, by linarith⟩
  have hang : pf N θ * sin ψ = vf N θ * cos ψ := by
    have := phase_angle hN hmem
    rw [hψ, sin_sub_nat_mul_pi, cos_sub_nat_mul_pi]
    linear_combination (-1) ^ j * this
  have hp : pf N θ ≠ 0 := by
    intro h
    have hv : vf N θ = 0 := by
      rw [h, zero_mul] at hang
      exact (mul_eq_zero.mp hang.symm).resolve_right hcos.ne'
    have := pf_vf_ne hN (sin_ne hmem)
    rw [h, hv] at this
    norm_num at this
  refine ⟨hp, ψ, by linarith, by linarith, ?_⟩
  have ht : tan ψ = vf N θ / pf N θ := by
    rw [tan_eq_sin_div_cos, div_eq_div_iff hcos.ne' hp]
    linear_combination hang
  have hN0 : (0 : ℝ) < N := by exact_mod_cast hN
  have hq := congrArg (eval (-cos θ)) (qPoly_eq hN)
  simp only [eval_mul, eval_C, eval_sub, eval_pow, eval_X, eval_one] at hq
  have e : sin θ ^ 2 = 1 - cos θ ^ 2 := by rw [sin_sq]
  have hs := sin_ne hmem
  have hn := (nu_pos N).ne'
  have h2 : (2 * (N : ℝ) + 1) ≠ 0 := by positivity
  have e3 : nu N * sin θ * tan ψ + cos θ / 2 = -(sin θ ^ 2 * (derivative (legendre N)).eval (-cos θ)) / pf N θ := by
    rw [ht]
    unfold vf pd
    field_simp
    ring
  rw [e3]
  unfold hstep
  change _ / (_ * pf N θ) = _
  rw [div_div, div_eq_div_iff (mul_ne_zero h2 hp) (mul_ne_zero hp (by positivity))]
  linear_combination (pf N θ) * hq + (2 * (N : ℝ) + 1) * pf N θ * (derivative (legendre N)).eval (-cos θ) * e

end GSplines.GLL
