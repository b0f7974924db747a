import Verif.Proofs.RoundingInterpExact
import Verif.Proofs.RoundingCurve
import Verif.Props.Residual
import Verif.Props.Rounding

/-!
# C85: interpolation with rounding errors

`Rounded.interpolate u lu s tau w r` says that the call `interpolate(tau, w)` of an interpolator object in state `s` may end with `r`, when each operation on doubles
has a relative error of at most `u.1` plus an absolute error of at most `u.2`, the sums are taken in any order and the linear systems are solved by `lu`. A result is
the new state of the object with the returned spline, or an error. `RReach` are the states that an object can be in after calls of that kind.
-/

namespace GSplines.Props

open GSplines Spec Interp Residual Finset Topology

/-- **C85.** Whatever the rounding errors (even large ones), the linear solver and the previous calls, interpolation does not access memory outside of its buffers if
there are enough way points. -/
theorem C85_in_range (u : ℝ × ℝ) (lu : LU) (codim n : ℕ) (hn : 0 < n) (b : Basis) (hb : Interpolable b) (s : Interp) (hs : RReach codim n b s) (tau : List ℝ) (w : Pts)
    (hw : n + 1 ≤ w.rows) (hc : codim ≤ w.cols) (r : Res (Interp × GSpline)) (hr : Rounded.interpolate u lu s tau w r) : r ≠ .error .ub := by
  have U := usable_of hb.valid hb.even hb.ne hb.left hb.right
  obtain ⟨-, rfl, rfl, rfl⟩ := Rounded.rreach_inv U.dim hn hs
  exact Rounded.safe_interpolate u lu U hn tau hw hc r hr

/-- **C85.** The outcome of exact arithmetic is among the possible ones, whatever it is (so the theorems on the exact model speak about one of the runs). -/
theorem C85_exact (u : ℝ × ℝ) (h1 : 0 ≤ u.1) (h2 : 0 ≤ u.2) (lu : LU) (codim n : ℕ) (hn : 0 < n) (b : Basis) (hb : Interpolable b) (s : Interp) (hs : RReach codim n b s)
    (tau : List ℝ) (w : Pts) : Rounded.interpolate u lu s tau w (s.interpolate lu tau w) := by
  have U := usable_of hb.valid hb.even hb.ne hb.left hb.right
  obtain ⟨-, rfl, rfl, rfl⟩ := Rounded.rreach_inv U.dim hn hs
  exact Rounded.interpolate_has h1 h2 U hn tau w

/-- What every outcome of a call looks like if the errors are small. -/
theorem interpolate_near {b : Basis} (hb : Interpolable b) (hcl : Clear b (-1)) (hcr : Clear b 1) {tau : List ℝ} (hne : tau ≠ []) (ht : ∀ t ∈ tau, 1 / 10 ^ 6 ≤ t) {w : Pts}
    (hw : w.rows = tau.length + 1) {y0 : Vec} (hy0 : Interpolates b tau.length w.cols (vecOf tau) w.at' y0) {ε : ℝ} (hε : 0 < ε) :
    ∃ δ > 0, ∀ u, Small u δ → ∀ η, 0 ≤ η → η ≤ δ → ∀ lu, StableLU η (b.dim * w.cols * tau.length) lu → ∀ s, RReach w.cols tau.length b s →
      ∀ r, Rounded.interpolate u lu s tau w r → ∃ s' x e, r = .ok (s', ⟨(0, e), w.cols, b, x, tau⟩) ∧ RReach w.cols tau.length b s' ∧ |e - tau.sum| ≤ ε ∧
        x.length = b.dim * w.cols * tau.length ∧ ∀ k < b.dim * w.cols * tau.length, |vecOf x k - y0 k| ≤ ε := by
  obtain ⟨δ, hδ, h⟩ := Rounded.solve_near hb hcl hcr hne ht hw hy0 hε
  have hsum : 0 < tau.sum := by
    refine List.sum_pos _ (fun t h => lt_of_lt_of_le (by norm_num) (ht t h)) hne
  have hS := Nd.ConvAt.sum (n := tau.length) (f := fun k (_ : Unit) => vecOf tau k) (x := ()) (fun k _ => continuousAt_const)
  have e1 : ∑ k ∈ range tau.length, vecOf tau k = tau.sum := by
    conv_rhs => rw [← Rounded.range_map_vecOf tau]
    rfl
  rw [e1] at hS
  have hS' := hS _ (Metric.closedBall_mem_nhds _ (lt_min hε hsum))
  have e : Filter.Tendsto (fun u : ℝ × ℝ => (u, ())) (𝓝 (0 : ℝ × ℝ)) (𝓝 ((0 : ℝ × ℝ), ())) := Continuous.tendsto (by fun_prop) _
  obtain ⟨δ', hδ', h'⟩ := small_of_nhds (h.and (e.eventually hS'))
  refine ⟨min δ δ', lt_min hδ hδ', fun u hu η hη hηδ lu hlu s hs r hr => ?_⟩
  obtain ⟨hsol, hend⟩ := h' u ⟨hu.1, hu.2.1.trans (min_le_right _ _), hu.2.2.1, hu.2.2.2.trans (min_le_right _ _)⟩
  have hsol := hsol η hη (hηδ.trans (min_le_left _ _)) lu hlu s hs
  rcases hr with ⟨e, he, rfl⟩ | ⟨⟨s', x⟩, hx, hr⟩
  · rcases hsol _ he with ⟨_, hf, -⟩ | ⟨_, -, hf⟩
    · exact hf.elim
    · cases hf
  obtain ⟨_, hf, -⟩ | ⟨_, ⟨g1, g2, g3, g4, g5, g6⟩, hq⟩ := hsol _ hx
  · exact hf.elim
  cases hq
  simp only at g1 g2 g3 g4 g5 g6
  rw [Rounded.range_map_vecOf] at hend
  rcases hr with ⟨e, he, rfl⟩ | ⟨e, he, hr⟩
  · obtain ⟨_, -, hf⟩ := hend _ he; cases hf
  obtain ⟨_, hd, hf⟩ := hend _ he
  cases hf
  rw [Metric.mem_closedBall, Real.dist_eq] at hd
  have hd2 := abs_le.mp (hd.trans (min_le_right _ _))
  have hmk : GSpline.make (0, e) s'.codim s'.n s'.basis x tau = .ok ⟨(0, e), w.cols, b, x, tau⟩ := by
    unfold GSpline.make
    rw [g2, g3, g4, if_pos (show (0 : ℝ) ≤ e by linarith [hd2.1]), if_neg (not_not.mpr (by rw [g5]; ring))]
  simp only at hr
  rw [hmk] at hr
  rcases hr with ⟨e', he', -⟩ | ⟨g, hg, hr⟩
  · cases he'
  cases hg
  exact ⟨s', x, e, hr, g1, hd.trans (min_le_left _ _), g5, g6⟩

/-- **C85** (convergence). For a basis, interval lengths, way points and an order: if the rounding errors and the backward error of the linear solver are small enough,
every call of `interpolate` succeeds, whatever the object was used for before. The spline has the given lengths, components and basis, and its domain ends as near as
wanted to the sum of the lengths. On the interval from zero to that sum the curve and its derivatives are as near as wanted to the interpolating curve of exact
arithmetic, and it meets the conditions of the interpolation problem up to an error as small as wanted. -/
theorem C85_converges (b : Basis) (hb : Interpolable b) (hcl : Clear b (-1)) (hcr : Clear b 1) (tau : List ℝ) (hne : tau ≠ []) (ht : ∀ t ∈ tau, 1 / 10 ^ 6 ≤ t) (w : Pts)
    (hw : w.rows = tau.length + 1) (D : ℕ) (ε : ℝ) (hε : 0 < ε) :
    ∃ δ > 0, ∀ u, Small u δ → ∀ η, 0 ≤ η → η ≤ δ → ∀ lu, StableLU η (b.dim * w.cols * tau.length) lu → ∀ s, RReach w.cols tau.length b s →
      ∀ r, Rounded.interpolate u lu s tau w r → ∃ s' g, r = .ok (s', g) ∧ RReach w.cols tau.length b s' ∧ g.tau = tau ∧ g.codim = w.cols ∧ g.basis = b ∧ Consistent g ∧
        g.dom.1 = 0 ∧ |g.dom.2 - tau.sum| ≤ ε ∧ MeetsWithin ε { g with dom := (0, tau.sum) } w.at' ∧
        ∀ lu0, LUContract lu0 → ∀ (junk : Vec) (g0 : GSpline), interpolateFn lu0 junk tau w b = .ok g0 → CloseUpTo D ε { g with dom := (0, tau.sum) } g0 := by
  have U := usable_of hb.valid hb.even hb.ne hb.left hb.right
  have hn : 0 < tau.length := List.length_pos_of_ne_nil hne
  have hpos : ∀ i < tau.length, 0 < vecOf tau i := fun i hi' => vecOf_pos (fun t h => lt_of_lt_of_le (by norm_num) (ht t h)) hi'
  obtain ⟨A, inv, S, hinv⟩ := system_inverse hb w.cols hne ht
  obtain ⟨B, hB0, hB⟩ := basis_bound b tau.length (vecOf tau) D
  obtain ⟨g1, hg1⟩ := Symmetry.interpolate_ok exactLU_contract (fun _ => 0) hb hne ht hw
  obtain ⟨x1, rfl, hI1, -⟩ := exact_coefficients exactLU_contract hb hne hw hg1
  obtain ⟨N, hN⟩ : ∃ N, N = b.dim * w.cols * tau.length := ⟨_, rfl⟩
  rw [← hN] at hinv
  obtain ⟨M, hM⟩ : ∃ M, M = ∑ i ∈ range N, ∑ r ∈ range N, |A i r| := ⟨_, rfl⟩
  have hM0 : 0 ≤ M := by rw [hM]; exact sum_nonneg fun i _ => sum_nonneg fun r _ => abs_nonneg _
  obtain ⟨κ, hκ⟩ : ∃ κ, κ = ε / (1 + M + b.dim * B) := ⟨_, rfl⟩
  have hD0 : 0 < 1 + M + b.dim * B := by positivity
  have hκ0 : 0 < κ := by rw [hκ]; positivity
  have hκε : (1 + M + b.dim * B) * κ = ε := by rw [hκ]; field_simp
  have hdB : 0 ≤ b.dim * B := by positivity
  obtain ⟨δ, hδ, h⟩ := interpolate_near hb hcl hcr hne ht hw hI1 hκ0
  refine ⟨δ, hδ, fun u hu η hη hηδ lu hlu s hs r hr => ?_⟩
  obtain ⟨s', x, e, rfl, hs', he, hxl, hx⟩ := h u hu η hη hηδ lu hlu s hs r hr
  rw [← hN] at hx hxl
  have hcon : ∀ e, Consistent ⟨(0, e), w.cols, b, x, tau⟩ := fun e => by
    unfold Consistent; simp only; rw [hxl, hN]; ring
  have hp : Positive ⟨(0, tau.sum), w.cols, b, x, tau⟩ := ⟨hne, fun t h => lt_of_lt_of_le (by norm_num) (ht t h)⟩
  refine ⟨s', _, rfl, hs', rfl, rfl, rfl, hcon e, rfl, he.trans ?_, ?_, fun lu0 hlu0 junk g0 hg0 => ?_⟩
  · nlinarith
  · refine meets_of_quantities hb hn rfl (hcon _) hp fun q => ?_
    have hq : q.quantity b (vecOf tau) (vecOf x1) = q.target w.at' := (interpolates_iff U hn _ _ _).mp hI1 q
    rw [← hq, ← S.sum U hn (fun i hi => (hpos i hi).ne') (vecOf x) q, ← S.sum U hn (fun i hi => (hpos i hi).ne') (vecOf x1) q, ← sum_sub_distrib, ← hN]
    have hr : row tau.length w.cols (b.dim / 2 - 1) q < N := by
      have := row_lt hn q
      rwa [← U.dim, ← hN] at this
    refine (abs_sum_le_sum_abs _ _).trans ?_
    calc ∑ k ∈ range N, |A (row tau.length w.cols (b.dim / 2 - 1) q) k * vecOf x k - A (row tau.length w.cols (b.dim / 2 - 1) q) k * vecOf x1 k|
        ≤ ∑ k ∈ range N, |A (row tau.length w.cols (b.dim / 2 - 1) q) k| * κ := sum_le_sum fun k hk => by
          rw [← mul_sub, abs_mul]
          exact mul_le_mul_of_nonneg_left (hx k (mem_range.mp hk)) (abs_nonneg _)
      _ = (∑ k ∈ range N, |A (row tau.length w.cols (b.dim / 2 - 1) q) k|) * κ := by rw [sum_mul]
      _ ≤ M * κ := mul_le_mul_of_nonneg_right (by
          rw [hM]
          exact single_le_sum (f := fun i => ∑ j ∈ range N, |A i j|) (fun i _ => sum_nonneg fun r _ => abs_nonneg _) (mem_range.mpr hr)) hκ0.le
      _ ≤ ε := by nlinarith
  · obtain ⟨x0, rfl, hI, hcon0⟩ := exact_coefficients hlu0 hb hne hw hg0
    have hx01 : ∀ k < N, vecOf x0 k = vecOf x1 k := by
      intro k hk
      have i1 := (interpolates_iff U hn _ _ _).mp hI1
      have i2 := (interpolates_iff U hn _ _ _).mp hI
      have s1 : ∀ r < N, ∑ j ∈ range N, A r j * vecOf x0 j = ∑ j ∈ range N, A r j * vecOf x1 j := by
        intro r hr
        rw [hN, U.dim] at hr
        obtain ⟨q, rfl⟩ := row_surj (n := tau.length) (c := w.cols) (h := b.dim / 2 - 1) hn hr
        rw [hN, S.sum U hn (fun i hi => (hpos i hi).ne') _ q, S.sum U hn (fun i hi => (hpos i hi).ne') _ q, i1 q, i2 q]
      have := solution_error (y := vecOf x0) (y0 := vecOf x1) (v := fun r => ∑ j ∈ range N, A r j * vecOf x1 j) (ε := 0) hinv (fun r _ => rfl)
        (fun r hr => by rw [s1 r hr, sub_self, abs_zero]) hk
      rw [mul_zero, abs_nonpos_iff] at this
      linarith
    have hclose := close_of (g := ⟨(0, tau.sum), w.cols, b, x, tau⟩) (g' := ⟨(0, tau.sum), w.cols, b, x0, tau⟩) hb.valid rfl (hcon _) hcon0 hp (by simp) rfl rfl rfl hB
      (δ := κ) (fun k hk => by rw [hx01 k (by rw [hN]; exact hk)]; exact hx k (by rw [hN]; exact hk))
    have hle : b.dim * B * κ ≤ ε := by nlinarith
    exact ⟨hclose.lengths, hclose.domain, hclose.codim, fun t h1 h2 ha => by
      obtain ⟨y, y', c1, c2, c3⟩ := hclose.values t h1 h2 ha
      exact ⟨y, y', c1, c2, fun c hc => (c3 c hc).trans hle⟩, fun t h1 h2 i hi c hc d hd => (hclose.derivatives t h1 h2 i hi c hc d hd).trans hle⟩

/-- **C85** (values). For a basis, interval lengths, way points and a time: if all errors are small enough, evaluating (with rounding errors) the spline that interpolation
returned (with rounding errors) succeeds and gives a value as near as wanted to the value of the interpolating curve in exact arithmetic. -/
theorem C85_values (b : Basis) (hb : Interpolable b) (hcl : Clear b (-1)) (hcr : Clear b 1) (tau : List ℝ) (hne : tau ≠ []) (ht : ∀ t ∈ tau, 1 / 10 ^ 6 ≤ t) (w : Pts)
    (hw : w.rows = tau.length + 1) (lu0 : LU) (hlu0 : LUContract lu0) (junk : Vec) (g0 : GSpline) (hg0 : interpolateFn lu0 junk tau w b = .ok g0) (t : ℝ)
    (hc : ∀ i, Touches g0 t i → Clear b (window (vecOf tau i) (t - brk g0 i))) (ε : ℝ) (hε : 0 < ε) :
    ∃ x0, g0.value t = .ok x0 ∧ x0.length = w.cols ∧ ∃ δ > 0, ∀ u u', Small u δ → Small u' δ → ∀ η, 0 ≤ η → η ≤ δ → ∀ lu, StableLU η (b.dim * w.cols * tau.length) lu →
      ∀ s, RReach w.cols tau.length b s → ∀ r, Rounded.interpolate u lu s tau w r → ∃ s' g, r = .ok (s', g) ∧
        ∀ r', Rounded.value u' g t r' → ∃ x, r' = .ok x ∧ x.length = w.cols ∧ ∀ c < w.cols, |vecOf x c - vecOf x0 c| ≤ ε := by
  obtain ⟨y0, rfl, hI, hcon0⟩ := exact_coefficients hlu0 hb hne hw hg0
  have hp : Positive ⟨(0, tau.sum), w.cols, b, y0, tau⟩ := ⟨hne, fun t h => lt_of_lt_of_le (by norm_num) (ht t h)⟩
  have hlen := List.length_pos_of_ne_nil hne
  have hj : Unbroken ⟨(0, tau.sum), w.cols, b, y0, tau⟩ := by
    obtain ⟨s, h1, h2, -⟩ := interpolate_new hlu0 (w := w) (by omega) hb junk
    obtain ⟨s', g, f1, f2, f3, f4, f5, f6, f7⟩ := h2 tau (by omega) ht
    have : interpolateFn lu0 junk tau w b = .ok g := by
      unfold interpolateFn
      rw [if_neg (by omega), h1, Interp.ok_bind, f1]
      rfl
    rw [hg0] at this
    cases this
    intro i hi c hc
    simpa using f7.joins i hi c hc 0 (Nat.zero_le _)
  obtain ⟨x0, hx0, hx0l, -⟩ := C70_converges_to_value ⟨(0, tau.sum), w.cols, b, y0, tau⟩ hb.valid hcon0 hp hj t hc ε hε
  refine ⟨x0, hx0, hx0l, ?_⟩
  -- the piece of the exact value
  obtain ⟨i0, hi0, hi0v⟩ : ∃ i, Touches ⟨(0, tau.sum), w.cols, b, y0, tau⟩ t i ∧ ∀ c < w.cols, vecOf x0 c = curve ⟨(0, tau.sum), w.cols, b, y0, tau⟩ i c t := by
    obtain ⟨i, hi⟩ := GSpline.located_exists hp t
    have ht : Touches ⟨(0, tau.sum), w.cols, b, y0, tau⟩ t i := by
      refine ⟨hi.1, ?_, ?_⟩
      · rcases hi.2 with ⟨_, h⟩ | ⟨h, _⟩ | ⟨h, _⟩
        · exact .inr h
        · exact .inl h.le
        · exact .inl ((GSpline.brk_mono hp hi.1.le le_rfl).trans h.le)
      · rcases hi.2 with ⟨h, rfl⟩ | ⟨_, h⟩ | ⟨_, h⟩
        · exact .inl (h.trans (GSpline.brk_lt_succ hp hi.1).le)
        · exact .inl h
        · exact .inr h
    obtain ⟨e, h1, h2, h3⟩ := GSpline.value_spec (g := ⟨(0, tau.sum), w.cols, b, y0, tau⟩) hb.valid hcon0 (GSpline.getInterval_of_located hp hi) hi.1 (vecOf_pos hp.2 hi.1).ne'
      (clean_of_clear (hc i ht))
    rw [hx0] at h1
    cases h1
    refine ⟨i, ht, fun c hcc => ?_⟩
    unfold vecOf
    rw [List.getD_eq_getElem?_getD, h3 c hcc]
    rfl
  obtain ⟨κ, hκ, hv⟩ := Rounded.value_near (g := ⟨(0, tau.sum), w.cols, b, y0, tau⟩) hb.valid hcon0 hp hc hε
  obtain ⟨δ1, hδ1, hv⟩ := small_of_nhds hv
  obtain ⟨δ2, hδ2, hint⟩ := interpolate_near hb hcl hcr hne ht hw hI hκ
  refine ⟨min δ1 δ2, lt_min hδ1 hδ2, fun u u' hu hu' η hη hηδ lu hlu s hs r hr => ?_⟩
  obtain ⟨s', x, e, rfl, -, -, hxl, hx⟩ := hint u ⟨hu.1, hu.2.1.trans (min_le_right _ _), hu.2.2.1, hu.2.2.2.trans (min_le_right _ _)⟩ η hη (hηδ.trans (min_le_right _ _)) lu hlu s hs r hr
  refine ⟨s', _, rfl, fun r' hr' => ?_⟩
  have hcl0 : y0.length = b.dim * w.cols * tau.length := by
    have : y0.length = tau.length * b.dim * w.cols := hcon0
    rw [this]; ring
  obtain ⟨v, e1, e2, i, hi, e3⟩ := hv u' ⟨hu'.1, hu'.2.1.trans (min_le_left _ _), hu'.2.2.1, hu'.2.2.2.trans (min_le_left _ _)⟩ x e (by rw [hxl]; exact hcl0.symm)
    (fun k hk => hx k (by rw [← hxl]; exact hk)) r' hr'
  refine ⟨v, e1, e2, fun c hcc => ?_⟩
  rw [hi0v c hcc, touches_agree hp hj hi0 hi hcc]
  exact e3 c hcc

/-! ## The hypotheses can be met -/

theorem newInterp_rreach : RReach 2 2 (.legendre 4) newInterp := RReach.make (junk := fun _ => 0) rfl

/-- The hypotheses of `C85_in_range` and `C85_exact` hold with the errors of doubles, for a linear solver that is not exact, and the call has a result. -/
example : ∃ s g, Rounded.interpolate doubles (offLU 1) newInterp [1, 2] corner (.ok (s, g)) ∧ RReach 2 2 (.legendre 4) newInterp ∧ 2 + 1 ≤ corner.rows ∧ 2 ≤ corner.cols := by
  obtain ⟨s, g, h, -⟩ := off_interpolate 1
  refine ⟨s, g, ?_, newInterp_rreach, by simp [corner], by simp [corner]⟩
  rw [← h]
  exact C85_exact doubles (by unfold doubles; positivity) (by unfold doubles; positivity) _ 2 2 (by norm_num) _ interpolable4 _ newInterp_rreach _ _

/-- The hypotheses of `C85_converges` and `C85_values` hold, for linear solvers with a backward error that is not zero. -/
example : Interpolable (.legendre 4) ∧ Clear (.legendre 4) (-1) ∧ Clear (.legendre 4) 1 ∧ (∀ t ∈ [(1 : ℝ), 2], 1 / 10 ^ 6 ≤ t) ∧ corner.rows = [(1 : ℝ), 2].length + 1 ∧
    (∀ η, 0 ≤ η → StableLU η ((Basis.legendre 4).dim * corner.cols * 2) (shrunkLU η)) ∧ RReach corner.cols 2 (.legendre 4) newInterp ∧
    (∃ g0, interpolateFn exactLU (fun _ => 0) [1, 2] corner (.legendre 4) = .ok g0) ∧
    ∀ u : ℝ × ℝ, 0 ≤ u.1 → 0 ≤ u.2 → ∀ η, ∃ r, Rounded.interpolate u (shrunkLU η) newInterp [1, 2] corner r :=
  ⟨interpolable4, trivial, trivial, by simp; norm_num, rfl, fun η h => shrunkLU_stable h _, newInterp_rreach, corner_ok _ interpolable4,
    fun u h1 h2 η => ⟨_, C85_exact u h1 h2 _ 2 2 (by norm_num) _ interpolable4 _ newInterp_rreach _ _⟩⟩

/-- After a call with rounding errors the object can be used again. -/
theorem rreach_interpolate {u : ℝ × ℝ} {lu : LU} {codim n : ℕ} {b : Basis} {s s' : Interp} {tau : List ℝ} {w : Pts} {g : GSpline} (hs : RReach codim n b s)
    (h : Rounded.interpolate u lu s tau w (.ok (s', g))) : RReach codim n b s' := by
  rcases h with ⟨e, -, h⟩ | ⟨⟨s1, x⟩, hx, ⟨e, -, h⟩ | ⟨e, -, ⟨e', -, h⟩ | ⟨g', -, h⟩⟩⟩
  · cases h
  · cases h
  · cases h
  · cases h
    exact RReach.solve hs hx

/-- A second call, with another size of the errors. -/
example : ∃ s g r, Rounded.interpolate doubles (offLU 1) newInterp [1, 2] corner (.ok (s, g)) ∧ RReach 2 2 (.legendre 4) s ∧
    Rounded.interpolate (1, 1) exactLU s [3, 4] corner r ∧ r ≠ .error .ub := by
  obtain ⟨s, g, h, -⟩ := off_interpolate 1
  have hr := C85_exact doubles (by unfold doubles; positivity) (by unfold doubles; positivity) (offLU 1) 2 2 (by norm_num) _ interpolable4 _ newInterp_rreach [1, 2] corner
  rw [h] at hr
  have hs := rreach_interpolate newInterp_rreach hr
  have h2 := C85_exact (1, 1) zero_le_one zero_le_one exactLU 2 2 (by norm_num) _ interpolable4 _ hs [3, 4] corner
  exact ⟨s, g, _, hr, hs, h2, C85_in_range _ _ 2 2 (by norm_num) _ interpolable4 _ hs _ _ (by simp [corner]) (by simp [corner]) _ h2⟩

end GSplines.Props
