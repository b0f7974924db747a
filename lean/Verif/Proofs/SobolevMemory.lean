import Verif.Proofs.SobolevGrad

/-! # A Lagrange basis whose unassigned memory is not symmetric -/

namespace GSplines.Sobolev

open GSplines Spec Finset Interp

/-- Four equidistant nodes. -/
noncomputable def thirds : List ℝ := [-1, -1 / 3, 1 / 3, 1]

theorem thirds_at {k : ℕ} (hk : k < 4) : vecOf thirds k = 2 * ((k : ℝ) / 3) - 1 := by
  interval_cases k <;> norm_num [vecOf, thirds]

theorem thirds_distinct : Lagrange.Distinct 4 (vecOf thirds) := by
  intro i hi j hj h
  simp only [coe_range, Set.mem_Iio] at hi hj
  rw [thirds_at hi, thirds_at hj] at h
  have : (i : ℝ) = j := by linarith
  exact_mod_cast this

/-- The combination whose coefficients are the values of a cubic polynomial. -/
theorem comb_cubic {tau : ℝ} {y : Vec} (a b c : ℝ) (h : ∀ k < 4, y k = a * ((k : ℝ) / 3) + b * ((k : ℝ) / 3) ^ 2 + c * ((k : ℝ) / 3) ^ 3) (t : ℝ) :
    comb (.lagrange thirds) tau y t = a * (t / tau) + b * (t / tau) ^ 2 + c * (t / tau) ^ 3 := by
  open Polynomial in
  have hp : (C a * (C (1 / 2) * (X + 1)) + C b * (C (1 / 2) * (X + 1)) ^ 2 + C c * (C (1 / 2) * (X + 1)) ^ 3 : ℝ[X]).degree < (4 : ℕ) := by
    refine lt_of_le_of_lt (b := ((3 : ℕ) : WithBot ℕ)) ?_ (by norm_num)
    compute_degree
    norm_num
  have h1 := Lagrange.interp thirds_distinct hp
  have h2 := congrArg (Polynomial.eval (window tau t)) h1
  rw [Polynomial.eval_finsetSum] at h2
  unfold comb
  have e : ∀ k ∈ range (Basis.lagrange thirds).dim, y k * basisFn (.lagrange thirds) tau k t = Polynomial.eval (window tau t)
      (Polynomial.C (Polynomial.eval (vecOf thirds k) (Polynomial.C a * (Polynomial.C (1 / 2) * (Polynomial.X + 1)) + Polynomial.C b * (Polynomial.C (1 / 2) * (Polynomial.X + 1)) ^ 2
        + Polynomial.C c * (Polynomial.C (1 / 2) * (Polynomial.X + 1)) ^ 3)) * Lagrange.card 4 (vecOf thirds) k) := by
    intro k hk
    have hk : k < 4 := mem_range.mp hk
    rw [Polynomial.eval_mul, Polynomial.eval_C, h k hk]
    congr 1
    rw [thirds_at hk]
    simp
  rw [sum_congr rfl e]
  refine h2.symm.trans ?_
  simp [window]
  ring

theorem iter_cubic (a b c tau : ℝ) :
    iteratedDeriv 1 (fun t : ℝ => a * (t / tau) + b * (t / tau) ^ 2 + c * (t / tau) ^ 3) = (fun t => a / tau + 2 * b / tau * (t / tau) + 3 * c / tau * (t / tau) ^ 2) ∧
    iteratedDeriv 2 (fun t : ℝ => a * (t / tau) + b * (t / tau) ^ 2 + c * (t / tau) ^ 3) = (fun t => 2 * b / tau ^ 2 + 6 * c / tau ^ 2 * (t / tau)) := by
  have h1 : deriv (fun t : ℝ => a * (t / tau) + b * (t / tau) ^ 2 + c * (t / tau) ^ 3) = fun t => a / tau + 2 * b / tau * (t / tau) + 3 * c / tau * (t / tau) ^ 2 := by
    funext t
    have hid : HasDerivAt (fun t : ℝ => t / tau) (1 / tau) t := (hasDerivAt_id t).div_const tau
    refine HasDerivAt.deriv ?_
    refine (((hid.const_mul a).add ((hid.pow 2).const_mul b)).add ((hid.pow 3).const_mul c)).congr_deriv ?_
    simp; ring
  refine ⟨by rw [iteratedDeriv_one, h1], ?_⟩
  rw [show (2 : ℕ) = 1 + 1 from rfl, iteratedDeriv_succ, iteratedDeriv_one, h1]
  funext t
  have hid : HasDerivAt (fun t : ℝ => t / tau) (1 / tau) t := (hasDerivAt_id t).div_const tau
  refine HasDerivAt.deriv ?_
  refine (((hasDerivAt_const t (a / tau)).add (hid.const_mul (2 * b / tau))).add ((hid.pow 2).const_mul (3 * c / tau))).congr_deriv ?_
  simp; ring

/-- Way points at 0, 0 and 1. -/
def late : Pts := ⟨3, 1, fun i _ => if i = 2 then 1 else 0⟩

/-- The velocity at the middle way point, for interval lengths `z` and 1. -/
noncomputable def midVel (z : ℝ) : ℝ := 3 * z / (2 * (z + 1))

/-- The coefficients of the spline through `late` with interval lengths `z` and 1. -/
noncomputable def lateSol (z : ℝ) : Vec := fun k =>
  if k < 4 then -(z * midVel z) * ((k : ℝ) / 3) ^ 2 + z * midVel z * ((k : ℝ) / 3) ^ 3
  else midVel z * ((k - 4 : ℕ) / 3 : ℝ) + (3 - 2 * midVel z) * ((k - 4 : ℕ) / 3 : ℝ) ^ 2 + (midVel z - 2) * ((k - 4 : ℕ) / 3 : ℝ) ^ 3

theorem late_pieces (z : ℝ) (tau : Vec) (h1 : tau 1 = 1) :
    piece (.lagrange thirds) 1 tau (lateSol z) 0 0 = (fun t => 0 * (t / tau 0) + -(z * midVel z) * (t / tau 0) ^ 2 + z * midVel z * (t / tau 0) ^ 3) ∧
    piece (.lagrange thirds) 1 tau (lateSol z) 1 0 = (fun t => midVel z * (t / 1) + (3 - 2 * midVel z) * (t / 1) ^ 2 + (midVel z - 2) * (t / 1) ^ 3) := by
  have hd : (Basis.lagrange thirds).dim = 4 := rfl
  constructor
  · funext t
    unfold piece
    refine comb_cubic _ _ _ (fun k hk => ?_) t
    rw [hd, show 0 * 4 * 1 + 4 * 0 + k = k by omega]
    simp only [lateSol, if_pos hk]; ring
  · funext t
    unfold piece
    rw [h1]
    refine comb_cubic _ _ _ (fun k hk => ?_) t
    rw [hd, show 1 * 4 * 1 + 4 * 0 + k = k + 4 by omega]
    simp only [lateSol, if_neg (show ¬ k + 4 < 4 by omega), Nat.add_sub_cancel]

theorem late_interpolates {z : ℝ} (hz : 0 < z) {tau : Vec} (h0 : tau 0 = z) (h1 : tau 1 = 1) :
    Interpolates (.lagrange thirds) 2 1 tau late.at' (lateSol z) := by
  obtain ⟨p0, p1⟩ := late_pieces z tau h1
  have hd : (Basis.lagrange thirds).dim = 4 := rfl
  have hz1 : z + 1 ≠ 0 := by positivity
  refine ⟨?_, ?_, ?_, ?_, ?_⟩
  · intro iv hiv c hc
    obtain rfl : c = 0 := by omega
    interval_cases iv
    · rw [p0]; simp [late]
    · rw [p1]; simp [late]
  · intro iv hiv c hc
    obtain rfl : c = 0 := by omega
    interval_cases iv
    · rw [p0, h0]; simp [late, hz.ne']
    · rw [p1, h1]; norm_num [late]; ring
  · intro c hc d d1 d2
    obtain rfl : c = 0 := by omega
    obtain rfl : d = 1 := by rw [hd] at d2; omega
    rw [p0, (iter_cubic _ _ _ _).1]; simp
  · intro c hc d d1 d2
    obtain rfl : c = 0 := by omega
    obtain rfl : d = 1 := by rw [hd] at d2; omega
    rw [p1, (iter_cubic _ _ _ _).1, h1]; norm_num; ring
  · intro iv hiv c hc d d1 d2
    obtain rfl : c = 0 := by omega
    obtain rfl : iv = 0 := by omega
    rw [hd] at d2
    obtain rfl | rfl : d = 1 ∨ d = 2 := by omega
    · rw [p0, p1, (iter_cubic _ _ _ _).1, (iter_cubic _ _ _ _).1, h0]
      field_simp
      ring
    · rw [p0, p1, (iter_cubic _ _ _ _).2, (iter_cubic _ _ _ _).2, h0]
      unfold midVel
      field_simp
      ring

/-- Memory with one entry off the diagonal, in row 1 and column 3. -/
def junk13 : Mat := fun i j => if i = 1 ∧ j = 3 then 1 else 0

theorem form_junk (w : Vec) (a : ℝ) (u v : Vec) :
    form 4 (fun i j => Lagrange.l2Mat w junk13 i j * a) u v = form 4 (fun i j => Lagrange.l2Mat w Mat.zero i j * a) u v + u 1 * a * v 3 := by
  simp [form, sum_range_succ, Lagrange.l2Mat, junk13, Mat.zero]
  ring

theorem wsum_q (w : Vec) (J : Mat) (t : ℝ) :
    wsum (q (.lagrange thirds) ⟨w, J⟩ t) [(0, 1)] Mat.zero = fun i j => Lagrange.l2Mat w J i j * (t / 2) := by
  funext i j
  simp [wsum, q, Basis.addDerivMatrix, Lagrange.addDerivativeMatrix, Lagrange.sobolevBuffer, Lagrange.sobScale, Mat.zero]

theorem wsum_dq (w : Vec) (J : Mat) (t : ℝ) :
    wsum (dq (.lagrange thirds) ⟨w, J⟩ t) [(0, 1)] Mat.zero = fun i j => Lagrange.l2Mat w J i j * (1 / 2) := by
  funext i j
  simp [wsum, dq, Basis.addDerivMatrixDtau, Lagrange.addDerivativeMatrixDtau, Lagrange.sobolevBuffer, Lagrange.sobScaleDtau, Mat.zero]

theorem total_junk (w : Vec) (tau y z : Vec) :
    total (.lagrange thirds) 2 1 (fun iv => wsum (q (.lagrange thirds) ⟨w, junk13⟩ (tau iv)) [(0, 1)] Mat.zero) y z
      = total (.lagrange thirds) 2 1 (fun iv => wsum (q (.lagrange thirds) ⟨w, Mat.zero⟩ (tau iv)) [(0, 1)] Mat.zero) y z
        + (y 1 * (tau 0 / 2) * z 3 + y 5 * (tau 1 / 2) * z 7) := by
  have hd : (Basis.lagrange thirds).dim = 4 := rfl
  simp only [total, sum_range_succ, sum_range_zero, wsum_q, hd, form_junk, part]
  ring

theorem gradFn_junk (w : Vec) (tau y d : Vec) :
    gradFn (.lagrange thirds) ⟨w, junk13⟩ [(0, 1)] 2 1 tau y d 0 = gradFn (.lagrange thirds) ⟨w, Mat.zero⟩ [(0, 1)] 2 1 tau y d 0
      + (y 1 * (1 / 2) * y 3 + 2 * (y 1 * (tau 0 / 2) * d 3 + y 5 * (tau 1 / 2) * d 7)) := by
  have hd : (Basis.lagrange thirds).dim = 4 := rfl
  simp only [gradFn, total_junk]
  simp only [sum_range_succ, sum_range_zero, wsum_dq, hd, form_junk, part]
  ring

theorem thirds_interpolable : Interpolable (.lagrange thirds) := by
  have hsep : ∀ i < 4, ∀ j < 4, Lagrange.almostEqual (vecOf thirds i) (vecOf thirds j) tol9 = true → i = j := by
    intro i hi j hj
    interval_cases i <;> interval_cases j <;> norm_num [Lagrange.almostEqual, thirds, vecOf, tol9, abs_of_pos, abs_of_neg]
  refine ⟨hsep, rfl, by simp [Basis.dim, thirds], ?_, ?_, by simp⟩
  · intro j hj h
    have := hsep 0 (by norm_num) j hj (by simpa [vecOf, thirds] using h)
    subst this; norm_num [vecOf, thirds]
  · intro j hj h
    have := hsep 3 (by norm_num) j hj (by simpa [vecOf, thirds] using h)
    subst this; norm_num [vecOf, thirds]

/-- The memory of `junk13` changes the cost. -/
theorem cost_memory {lu : LU} (hlu : LUContract lu) (w : Vec) {s t : Sobolev} (hs : SReach lu late (.lagrange thirds) [(0, 1)] ⟨w, Mat.zero⟩ s)
    (ht : SReach lu late (.lagrange thirds) [(0, 1)] ⟨w, junk13⟩ t) :
    ∃ r, (∃ s', s.cost lu [1, 1] = .ok (s', r)) ∧ ∃ t', t.cost lu [1, 1] = .ok (t', r + 5 / 27) := by
  have hb := thirds_interpolable
  have hl : ∀ t ∈ ([1, 1] : List ℝ), (1 : ℝ) / 10 ^ 6 ≤ t := by intro t h; simp at h; subst h; norm_num
  obtain ⟨s', h1⟩ := cost_eq hlu (by simp [late]) hb (fun _ _ => trivial) hs (tau := [1, 1]) rfl hl
  obtain ⟨t', h2⟩ := cost_eq hlu (by simp [late]) hb (fun _ _ => trivial) ht (tau := [1, 1]) rfl hl
  refine ⟨_, ⟨s', h1⟩, t', h2.trans ?_⟩
  have hdim : (Basis.lagrange thirds).dim = 4 := rfl
  have hsol : ∀ k < 8, sol (.lagrange thirds) 2 1 late.at' (vecOf [1, 1]) k = lateSol 1 k := by
    intro k hk
    refine ((sol_spec hb (n := 2) (codim := 1) (by norm_num) ?_).2 _ (late_interpolates (by norm_num) (by norm_num [vecOf]) (by norm_num [vecOf])) k (by rw [hdim]; omega)).symm
    intro i hi
    interval_cases i <;> norm_num [vecOf]
  congr 2
  change costFn (.lagrange thirds) ⟨w, junk13⟩ [(0, 1)] 2 1 late.at' (vecOf [1, 1]) = costFn (.lagrange thirds) ⟨w, Mat.zero⟩ [(0, 1)] 2 1 late.at' (vecOf [1, 1]) + 5 / 27
  unfold costFn
  rw [total_junk, hsol 1 (by norm_num), hsol 3 (by norm_num), hsol 5 (by norm_num), hsol 7 (by norm_num)]
  norm_num [lateSol, midVel, vecOf]

/-- With the memory of `junk13` the gradient is not the derivative of the cost. -/
theorem memory_wrong {lu : LU} (hlu : LUContract lu) (w : Vec) {s : Sobolev} (hs : SReach lu late (.lagrange thirds) [(0, 1)] ⟨w, junk13⟩ s) {buff : List ℝ} (hbuff : 2 ≤ buff.length) :
    ∃ s' out, s.grad lu [1, 1] buff = .ok (s', out) ∧ out.length = buff.length ∧
      ∃ F : ℝ → ℝ, (∀ᶠ z in nhds (1 : ℝ), ∃ s'', s.cost lu [z, 1] = .ok (s'', F z)) ∧ HasDerivAt F (vecOf out 0 + 1 / 36) 1 := by
  have hb := thirds_interpolable
  have ht : ∀ t ∈ ([1, 1] : List ℝ), (1 : ℝ) / 10 ^ 6 ≤ t := by intro t h; simp at h; subst h; norm_num
  obtain ⟨s', out, h1, h2, h3⟩ := grad_value hlu (by simp [late]) hb (fun _ _ => trivial) (fun _ _ => trivial) hs (tau := [1, 1]) rfl ht hbuff
  obtain ⟨d, hd, e⟩ := h3 0 (by simp)
  refine ⟨s', out, h1, h2, fun z => costFn (.lagrange thirds) ⟨w, junk13⟩ [(0, 1)] 2 1 late.at' (Function.update (vecOf [1, 1]) 0 z), ?_, ?_⟩
  · filter_upwards [lt_mem_nhds (show (1 : ℝ) / 10 ^ 6 < 1 by norm_num)] with z hz
    obtain ⟨s'', h⟩ := cost_eq hlu (by simp [late]) hb (fun _ _ => trivial) hs (tau := [z, 1]) rfl (by
      intro t h; simp at h
      rcases h with rfl | rfl
      · exact hz.le
      · norm_num)
    refine ⟨s'', h.trans ?_⟩
    rw [← vecOf_set (by simp)]
    rfl
  have hdim : (Basis.lagrange thirds).dim = 4 := rfl
  have hsol : ∀ z : ℝ, 0 < z → ∀ k < 8, sol (.lagrange thirds) 2 1 late.at' (Function.update (vecOf [1, 1]) 0 z) k = lateSol z k := by
    intro z hz k hk
    refine ((sol_spec hb (n := 2) (codim := 1) (by norm_num) ?_).2 _ (late_interpolates hz (Function.update_self ..) ?_) k (by rw [hdim]; omega)).symm
    · intro i hi
      interval_cases i
      · rw [Function.update_self]; exact hz
      · rw [Function.update_of_ne (by norm_num)]; norm_num [vecOf]
    · rw [Function.update_of_ne (by norm_num)]; norm_num [vecOf]
  have hself : Function.update (vecOf [1, 1]) 0 (1 : ℝ) = vecOf [1, 1] := by
    conv_lhs => rw [show (1 : ℝ) = vecOf [1, 1] 0 by norm_num [vecOf]]
    exact Function.update_eq_self _ _
  have hev : ∀ᶠ z in nhds (1 : ℝ), (0 : ℝ) < z := lt_mem_nhds (by norm_num)
  have at3 : ∀ z, lateSol z 3 = 0 := by intro z; norm_num [lateSol]
  have at7 : ∀ z, lateSol z 7 = 1 := by intro z; norm_num [lateSol]; ring
  have at5 : ∀ z, lateSol z 5 = 4 / 27 * midVel z + 7 / 27 := by intro z; norm_num [lateSol]; ring
  have hd' : ∀ k < 8, HasDerivAt (fun z => lateSol z k) (d k) 1 := by
    intro k hk
    have := hd k (by rw [hdim]; simpa [late] using hk)
    rw [show vecOf [1, 1] 0 = (1 : ℝ) by norm_num [vecOf]] at this
    refine this.congr_of_eventuallyEq ?_
    filter_upwards [hev] with z hz
    exact (hsol z hz k hk).symm
  have d3 : d 3 = 0 := (hd' 3 (by norm_num)).unique ((hasDerivAt_const (1 : ℝ) (0 : ℝ)).congr_of_eventuallyEq (.of_forall at3))
  have d7 : d 7 = 0 := (hd' 7 (by norm_num)).unique ((hasDerivAt_const (1 : ℝ) (1 : ℝ)).congr_of_eventuallyEq (.of_forall at7))
  have h0 := costFn_hasDerivAt (b := .lagrange thirds) (mem := ⟨w, Mat.zero⟩) (fun _ _ _ _ => rfl) (by simp) (ws := [(0, 1)]) (fun _ _ => trivial) (n := 2) (codim := 1) (w := late.at')
    (tau := vecOf [1, 1]) (by intro i hi; interval_cases i <;> norm_num [vecOf]) (idx := 0) (by norm_num) (d := d) hd
  rw [show vecOf [1, 1] 0 = (1 : ℝ) by norm_num [vecOf]] at h0
  have hv : HasDerivAt (fun z : ℝ => 1 / 2 * (4 / 27 * (3 * z / (2 * (z + 1))) + 7 / 27)) (1 / 36) 1 := by
    have a1 : HasDerivAt (fun z : ℝ => 3 * z) 3 1 := by simpa using (hasDerivAt_id (1 : ℝ)).const_mul 3
    have a2 : HasDerivAt (fun z : ℝ => 2 * (z + 1)) 2 1 := by simpa using ((hasDerivAt_id (1 : ℝ)).add_const 1).const_mul 2
    refine (((a1.div a2 (by norm_num)).const_mul (4 / 27)).add_const (7 / 27) |>.const_mul (1 / 2)).congr_deriv ?_
    norm_num
  have e0 : vecOf out 0 = gradFn (.lagrange thirds) ⟨w, Mat.zero⟩ [(0, 1)] 2 1 (vecOf [1, 1]) (sol (.lagrange thirds) 2 1 late.at' (vecOf [1, 1])) d 0 := by
    have e' : vecOf out 0 = gradFn (.lagrange thirds) ⟨w, junk13⟩ [(0, 1)] 2 1 (vecOf [1, 1]) (sol (.lagrange thirds) 2 1 late.at' (vecOf [1, 1])) d 0 := e
    have : sol (.lagrange thirds) 2 1 late.at' (vecOf [1, 1]) 3 = 0 := by
      have := hsol 1 (by norm_num) 3 (by norm_num)
      rw [hself, at3] at this; exact this
    rw [e', gradFn_junk, this, d3, d7]; ring
  rw [e0]
  refine (h0.add hv).congr_of_eventuallyEq ?_
  filter_upwards [hev] with z hz
  show costFn _ _ _ _ _ _ _ = costFn _ _ _ _ _ _ _ + _
  unfold costFn
  rw [total_junk, hsol z hz 3 (by norm_num), hsol z hz 5 (by norm_num), hsol z hz 7 (by norm_num), at3, at5, at7, Function.update_of_ne (show 1 ≠ 0 by norm_num)]
  simp [vecOf, midVel]
  ring

end GSplines.Sobolev
