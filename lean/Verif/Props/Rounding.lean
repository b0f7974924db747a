import Verif.Proofs.RoundingExact
import Verif.Props.Optimisers

/-!
# C70: evaluation with rounding errors

`Rounded.value u g t r` says that evaluating the spline `g` at `t` may end with `r`, when each operation on doubles has a relative error of at most `u.1` plus an
absolute error of at most `u.2` and the sums are taken in any order. A result is a row of numbers or an error.
-/

namespace GSplines.Props

open GSplines.Spec Topology

/-- **C70.** Whatever the rounding errors (even large ones), no evaluation reads outside the interval lengths, the coefficients or the buffers. -/
theorem C70_in_range (u : ℝ × ℝ) (g : GSpline) (hcon : Consistent g) (hne : g.tau ≠ []) (hb : ∀ d, g.basis = .legendre d → 2 ≤ d) (t : ℝ) (r : Res (List ℝ))
    (hr : Rounded.value u g t r) : r ≠ .error .ub := Rounded.safe_value u hb hcon hne t r hr

/-- **C70.** The result of exact arithmetic is among the possible ones (so the theorems on the exact model speak about one of the runs). -/
theorem C70_exact (u : ℝ × ℝ) (h1 : 0 ≤ u.1) (h2 : 0 ≤ u.2) (g : GSpline) (hb : g.basis.Valid) (hcon : Consistent g) (hp : Positive g) (t : ℝ) :
    Rounded.value u g t (g.value t) := Rounded.value_has h1 h2 hb hcon hp.1 hp.not_mem t

theorem small_of_nhds {P : ℝ × ℝ → Prop} (h : ∀ᶠ u in 𝓝 (0 : ℝ × ℝ), P u) : ∃ δ > 0, ∀ u, Small u δ → P u := by
  obtain ⟨ε, hε, hb⟩ := Metric.eventually_nhds_iff.mp h
  refine ⟨ε / 2, by linarith, fun u hu => hb ?_⟩
  rw [Prod.dist_eq, Real.dist_eq, Real.dist_eq]
  simp only [Prod.fst_zero, Prod.snd_zero, sub_zero]
  rw [abs_of_nonneg hu.1, abs_of_nonneg hu.2.2.1]
  exact max_lt (by linarith [hu.2.1]) (by linarith [hu.2.2.2])

/-- **C70.** If the errors are small enough, every evaluation succeeds, and all components are as near as wanted to the value of one piece whose interval touches `t`. -/
theorem C70_converges (g : GSpline) (hb : g.basis.Valid) (hcon : Consistent g) (hp : Positive g) (t : ℝ)
    (hc : ∀ i, Touches g t i → Clear g.basis (window (vecOf g.tau i) (t - brk g i))) (ε : ℝ) (hε : 0 < ε) :
    ∃ δ > 0, ∀ u, Small u δ → ∀ r, Rounded.value u g t r →
      ∃ v i, r = .ok v ∧ v.length = g.codim ∧ Touches g t i ∧ ∀ c < g.codim, |vecOf v c - curve g i c t| ≤ ε := by
  obtain ⟨δ, hδ, h⟩ := small_of_nhds (Rounded.value_conv hb hcon hp hc hε)
  refine ⟨δ, hδ, fun u hu r hr => ?_⟩
  obtain ⟨v, h1, h2, i, h3, h4⟩ := h u hu r hr
  exact ⟨v, i, h1, h2, h3, h4⟩

theorem touches_agree {g : GSpline} (hp : Positive g) (hj : Unbroken g) {t : ℝ} {i j : ℕ} (hi : Touches g t i) (hj' : Touches g t j) {c : ℕ} (hc : c < g.codim) :
    curve g i c t = curve g j c t := by
  have key : ∀ i j, Touches g t i → Touches g t j → i < j → curve g i c t = curve g j c t := by
    intro i j hi hj' hij
    have hlt := hj'.1
    have h1 : t ≤ brk g (i + 1) := hi.2.2.resolve_right (by omega)
    have h2 : brk g j ≤ t := hj'.2.1.resolve_right (by omega)
    have h3 : j = i + 1 := by
      by_contra h
      have a := GSpline.brk_lt_succ hp (i := i + 1) (by omega)
      have b := GSpline.brk_mono hp (i := i + 1 + 1) (j := j) (by omega) (by omega)
      linarith
    subst h3
    rw [le_antisymm h1 h2]
    exact hj i hlt c hc
  rcases lt_trichotomy i j with h | rfl | h
  · exact key i j hi hj' h
  · rfl
  · exact (key j i hj' hi h).symm

theorem clean_of_clear {b : Basis} {s : ℝ} (h : Clear b s) : b.CleanAt s := by
  cases b with
  | lagrange x =>
    intro j hj e
    refine (h (vecOf x j) ?_).resolve_right fun hlt => ?_
    · unfold vecOf
      rw [List.getD_eq_getElem?_getD, List.getElem?_eq_getElem hj]
      exact List.getElem_mem hj
    · unfold Lagrange.almostEqual tol9 at e
      have h0 := abs_nonneg s
      split_ifs at e
      · have := of_decide_eq_true e
        linarith
      · have := (of_decide_eq_true e).1
        linarith
  | _ => trivial

/-- **C70.** If the curve is continuous, the results converge to the result of exact arithmetic, at every time. -/
theorem C70_converges_to_value (g : GSpline) (hb : g.basis.Valid) (hcon : Consistent g) (hp : Positive g) (hj : Unbroken g) (t : ℝ)
    (hc : ∀ i, Touches g t i → Clear g.basis (window (vecOf g.tau i) (t - brk g i)))
    (ε : ℝ) (hε : 0 < ε) :
    ∃ e, g.value t = .ok e ∧ e.length = g.codim ∧ ∃ δ > 0, ∀ u, Small u δ → ∀ r, Rounded.value u g t r →
      ∃ v, r = .ok v ∧ v.length = g.codim ∧ ∀ c < g.codim, |vecOf v c - vecOf e c| ≤ ε := by
  obtain ⟨δ, hδ, h⟩ := C70_converges g hb hcon hp t hc ε hε
  obtain ⟨i, hi⟩ := GSpline.located_exists hp t
  have ht : Touches g t i := by
    refine ⟨hi.1, ?_, ?_⟩
    · rcases hi.2 with ⟨_, h⟩ | ⟨h, _⟩ | ⟨h, _⟩
      · exact .inr h
      · exact .inl h.le
      · exact .inl ((GSpline.brk_mono hp hi.1.le le_rfl).trans h.le)
    · rcases hi.2 with ⟨h, rfl⟩ | ⟨_, h⟩ | ⟨_, h⟩
      · exact .inl (h.trans (GSpline.brk_lt_succ hp hi.1).le)
      · exact .inl h
      · exact .inr h
  obtain ⟨e, h1, h2, h3⟩ := GSpline.value_spec hb hcon (GSpline.getInterval_of_located hp hi) hi.1 (vecOf_pos hp.2 hi.1).ne' (clean_of_clear (hc i ht))
  refine ⟨e, h1, h2, δ, hδ, fun u hu r hr => ?_⟩
  obtain ⟨v, j, e1, e2, e3, e4⟩ := h u hu r hr
  refine ⟨v, e1, e2, fun c hcc => ?_⟩
  have : vecOf e c = curve g i c t := by
    unfold vecOf
    rw [List.getD_eq_getElem?_getD, h3 c hcc]
    rfl
  rw [this, touches_agree hp hj ht e3 hcc]
  exact e4 c hcc

/-- **C70** for interpolated curves: `interpolate` returns a curve whose values, with a Legendre basis or Basis0101, converge at all times to those of exact arithmetic. -/
theorem C70_interpolated (lu : LU) (hlu : LUContract lu) (junk : Vec) (b : Basis) (hb : Interpolable b) (hnl : ∀ x, b ≠ .lagrange x) (tau : List ℝ) (hne : tau ≠ [])
    (ht : ∀ t ∈ tau, 1 / 10 ^ 6 ≤ t) (w : Pts) (hw : w.rows = tau.length + 1) :
    ∃ g, interpolateFn lu junk tau w b = .ok g ∧ ∀ t ε, 0 < ε → ∃ e, g.value t = .ok e ∧ e.length = w.cols ∧ ∃ δ > 0, ∀ u, Small u δ → ∀ r, Rounded.value u g t r →
      ∃ v, r = .ok v ∧ v.length = w.cols ∧ ∀ c < w.cols, |vecOf v c - vecOf e c| ≤ ε := by
  have hl := List.length_pos_of_ne_nil hne
  obtain ⟨s, h1, h2, -⟩ := interpolate_new hlu (w := w) (by omega) hb junk
  obtain ⟨s', g, f1, f2, f3, f4, f5, f6, f7⟩ := h2 tau (by omega) ht
  refine ⟨g, ?_, fun t ε hε => ?_⟩
  · unfold interpolateFn
    rw [if_neg (by omega), h1, Interp.ok_bind, f1]
    rfl
  · have hcr : ∀ s, Clear b s := fun s => by
      cases b with
      | lagrange x => exact absurd rfl (hnl x)
      | _ => trivial
    have hp : Positive g := ⟨by rw [f3]; exact hne, by rw [f3]; exact fun t h => lt_of_lt_of_le (by norm_num) (ht t h)⟩
    rw [← f4]
    refine C70_converges_to_value g (by rw [f5]; exact hb.valid) f6 hp (fun i hi c hc => ?_) t (fun i _ => by rw [f5]; exact hcr _) ε hε
    simpa using f7.joins i hi c hc 0 (Nat.zero_le _)

/-- The hypotheses hold: two intervals and Legendre polynomials of degree three. -/
example : LUContract exactLU ∧ Interpolable (.legendre 4) ∧ (∀ x, Basis.legendre 4 ≠ .lagrange x) ∧ (∀ t ∈ [(1 : ℝ), 2], 1 / 10 ^ 6 ≤ t) ∧
    (⟨3, 1, fun i _ => (i : ℝ)⟩ : Pts).rows = [(1 : ℝ), 2].length + 1 :=
  ⟨exactLU_contract, interpolable4, (fun x h => by cases h), by intro t ht; fin_cases ht <;> norm_num, rfl⟩

/-- A step from 0 to 1 at time 1. -/
noncomputable def step : GSpline := ⟨(0, 2), 1, .legendre 2, [0, 0, 1, 0], [1, 1]⟩

theorem step_consistent : Consistent step := by simp [Consistent, step, Basis.dim]

theorem step_positive : Positive step := ⟨by simp [step], by simp [step]⟩

/-- At a jump of the curve the result does not converge to the exact one: with any relative error the sum of the interval lengths may fall short of the time, and
the next interval is taken. -/
theorem C70_jump_false (u : ℝ × ℝ) (h1 : 0 < u.1) (h2 : 0 ≤ u.2) : step.value 1 = .ok [0] ∧ Rounded.value u step 1 (.ok [1]) := by
  constructor
  · obtain ⟨v, e1, e2, e3⟩ := GSpline.value_spec (g := step) (show 2 ≤ 2 from le_rfl) step_consistent (t := 1) (i := 0)
      (GSpline.getInterval_of_located step_positive ⟨by simp [step], .inr (.inl ⟨by simp [brk, step], by simp [brk, step]⟩)⟩) (by simp [step]) (by simp [step, vecOf]) trivial
    rw [e1]
    have h3 := e3 0 (by simp [step])
    have e2' : v.length = 1 := e2
    match v, e2' with
    | [x], _ =>
      have h3 : some x = some (curve step 0 0 1) := h3
      cases h3
      simp [curve, piece, comb, step, Basis.dim, vecOf, Finset.sum_range_succ]
  · open Rounded in
    have h1' := h1.le
    have hscan : Has (scan u 1 0 0 [1, 1]) (some 1) := by
      unfold scan
      refine Has.bind (a := 1 - min u.1 (1 / 2)) ⟨_, rfl, ?_⟩ ?_
      · have : 0 ≤ min u.1 (1 / 2) := le_min h1.le (by norm_num)
        have h3 := min_le_left u.1 (1 / 2)
        rw [show (1 : ℝ) - min u.1 (1 / 2) - (0 + 1) = -min u.1 (1 / 2) by ring, abs_neg, abs_of_nonneg this]
        simp only [zero_add, abs_one, mul_one]
        linarith
      · have h3 : 0 < min u.1 (1 / 2) := lt_min h1 (by norm_num)
        have h4 := min_le_right u.1 (1 / 2)
        rw [if_neg (by intro h; linarith [h.2])]
        unfold scan
        refine Has.bind (.near h1' h2 _) ?_
        rw [if_pos ⟨by linarith, by linarith⟩]
        exact Has.pure _
    have hi : Has (getInterval u step 1) 1 := by
      unfold getInterval
      rw [if_neg (by simp [step])]
      exact Has.bind (a := some 1) hscan (Has.pure _)
    have hs : Has (intervalToWindow u step 1 1) (-1) := by
      unfold intervalToWindow
      refine .bind (a := [1]) rfl (.bind (a := 1) rfl (.bind (.sum h1' h2 _) (.bind (.near h1' h2 _) (.bind (.near h1' h2 _) (.bind (.near h1' h2 _) (.bind (.quot h1' h2 _ one_ne_zero) ?_))))))
      convert Has.near h1' h2 _ using 1
      simp [step]
    refine Has.bind hi (Has.bind hs (Has.bind (a := 1) rfl (Has.bind (legendre_has h1' h2 le_rfl (-1)) ?_)))
    refine Has.mapM (g := fun _ => 1) fun c hc => ?_
    have hc0 : c = 0 := by simpa [step] using hc
    subst hc0
    refine Has.bind (a := [1, 0]) rfl ?_
    have h := dot_has h1' h2 (n := 2) (seg := [1, 0]) rfl (Legendre.values 2 (-1))
    rwa [show Vec.dot 2 (vecOf [1, 0]) (Legendre.values 2 (-1)) = 1 by simp [Vec.dot, Finset.sum_range_succ, vecOf, Legendre.values, forLoop, setAt]] at h

/-- The errors of the four operations on doubles. -/
noncomputable def doubles : ℝ × ℝ := (1 / 2 ^ 53, 1 / 2 ^ 1075)

/-- The hypotheses of the first two theorems hold, and the evaluation at 1 has two different results with the errors of doubles. -/
example : Consistent step ∧ step.tau ≠ [] ∧ step.basis.Valid ∧ Positive step ∧ Rounded.value doubles step 1 (.ok [0]) ∧ Rounded.value doubles step 1 (.ok [1]) := by
  have h1 : 0 < doubles.1 := by unfold doubles; positivity
  have h2 : 0 ≤ doubles.2 := by unfold doubles; positivity
  have hj := C70_jump_false doubles h1 h2
  refine ⟨step_consistent, step_positive.1, show 2 ≤ 2 from le_rfl, step_positive, ?_, hj.2⟩
  rw [← hj.1]
  exact C70_exact doubles h1.le h2 step (show 2 ≤ 2 from le_rfl) step_consistent step_positive 1

/-- A curve of three Lagrange nodes without jump: `t ↦ t²` on `[0, 1]` and on `[1, 2]`. -/
noncomputable def square : GSpline := ⟨(0, 2), 1, .lagrange [-1, 0, 1], [0, 1 / 4, 1, 1, 9 / 4, 4], [1, 1]⟩

theorem square_valid : square.basis.Valid := by
  have e : ∀ i < 3, vecOf [-1, 0, 1] i = threeNodes i := by
    intro i hi
    interval_cases i <;> norm_num [vecOf, threeNodes]
  intro i hi j hj h
  have hi' : i < 3 := hi
  have hj' : j < 3 := hj
  refine threeNodes_separated i hi' j hj' ?_
  rw [← e i hi', ← e j hj']
  exact h

/-- The hypotheses of the convergence theorems hold with Lagrange nodes, at the breakpoint (which is a node of both intervals) and between the nodes. -/
example : square.basis.Valid ∧ Consistent square ∧ Positive square ∧ Unbroken square ∧
    ∀ t ∈ [1, 1 / 4, 7 / 4], ∀ i, Touches square t i → Clear square.basis (window (vecOf square.tau i) (t - brk square i)) := by
  refine ⟨square_valid, by simp [Consistent, square, Basis.dim], ⟨by simp [square], by simp [square]⟩, ?_, ?_⟩
  · intro i hi c hc
    have hi0 : i = 0 := by simp [square] at hi; omega
    have hc0 : c = 0 := by simpa [square] using hc
    subst hi0 hc0
    have hd : Lagrange.Distinct 3 (vecOf [-1, 0, 1]) := Separated.distinct (n := 3) (x := vecOf [-1, 0, 1]) square_valid
    have e0 : ∀ k < 3, (_root_.Lagrange.basis (Finset.range 3) (vecOf [-1, 0, 1]) k).eval 1 = if k = 2 then 1 else 0 := by
      intro k hk
      rw [show (1 : ℝ) = vecOf [-1, 0, 1] 2 by simp [vecOf]]
      split_ifs with h
      · subst h; exact (_root_.Lagrange.eval_basis_self hd (by simp)).trans (by simp [vecOf])
      · exact _root_.Lagrange.eval_basis_of_ne h (by simp)
    have e1 : ∀ k < 3, (_root_.Lagrange.basis (Finset.range 3) (vecOf [-1, 0, 1]) k).eval (-1) = if k = 0 then 1 else 0 := by
      intro k hk
      rw [show (-1 : ℝ) = vecOf [-1, 0, 1] 0 by simp [vecOf]]
      split_ifs with h
      · subst h; exact (_root_.Lagrange.eval_basis_self hd (by simp))
      · exact _root_.Lagrange.eval_basis_of_ne h (by simp)
    have l : curve square 0 0 (brk square 1) = 1 := by
      simp only [curve, piece, comb, square, Basis.dim, basisFn, brk]
      rw [show window (vecOf [1, 1] 0) ((0 : ℝ) + (List.take 1 [1, 1]).sum - (0 + (List.take 0 [1, 1]).sum)) = 1 by norm_num [window, vecOf]]
      simp [Finset.sum_range_succ, e0, vecOf]
    have r : curve square 1 0 (brk square 1) = 1 := by
      simp only [curve, piece, comb, square, Basis.dim, basisFn, brk]
      rw [show window (vecOf [1, 1] 1) ((0 : ℝ) + (List.take 1 [1, 1]).sum - (0 + (List.take 1 [1, 1]).sum)) = -1 by norm_num [window, vecOf]]
      simp [Finset.sum_range_succ, e1, vecOf]
    rw [zero_add, l, r]
  · intro t ht i hi
    have hlt := hi.1
    simp only [square, List.length_cons, List.length_nil] at hlt
    have h1 := hi.2.1
    have h2 := hi.2.2
    simp only [List.mem_cons, List.not_mem_nil, or_false] at ht
    simp only [square, brk, Clear] at *
    interval_cases i <;> rcases ht with rfl | rfl | rfl <;> norm_num [window, vecOf, abs_of_pos, abs_of_neg] at * <;> norm_num [abs_of_pos, abs_of_neg]

end GSplines.Props
