import Verif.Proofs.RateSolve
import Verif.Proofs.RateCurve
import Verif.Props.Rate
import Verif.Props.EndToEnd

/-!
# C96: the error of interpolation is proportional to the rounding errors and the backward error of the linear solver

As in C85, `Rounded.interpolate u lu s tau w r` says that the call `interpolate(tau, w)` of an interpolator object in state `s` may end with `r`, when each operation on
doubles has a relative error of at most `u.1` plus an absolute error of at most `u.2`, and the linear systems are solved by `lu`. `StableLU η N lu` says that `lu` finds
solutions with a backward error of at most `η`.
-/

namespace GSplines.Props

open GSplines Spec Interp Residual Finset Nd

/-- The rates of all pieces that touch a point, with common constants, for coefficients near those of the spline. -/
theorem pieces_near {g : GSpline} (hb : g.basis.Valid) (hp : Positive g) {t₀ : ℝ}
    (hc : ∀ i, Touches g t₀ i → Clear g.basis (window (vecOf g.tau i) (t₀ - brk g i))) :
    ∃ C ≥ (0 : ℝ), ∃ δ > (0 : ℝ), ∀ i, Touches g t₀ i → ∀ u, Small u δ → ∀ t, |t - t₀| ≤ δ → ∀ κ, 0 ≤ κ → κ ≤ δ → ∀ y : Vec, close κ y (vecOf g.coeffs) →
      ∀ o, Rounded.pieceOf u g i (t, y) o →
      (∃ v, o = .ok v ∧ close (C * (sz u + |t - t₀| + κ)) v ((List.range g.codim).map fun c => curve g i c t₀)) ∧
      ∀ v e, o = .ok v → Rounded.pieceOf 0 g i (t, vecOf g.coeffs) (.ok e) → close (C * (sz u + κ)) v e := by
  have H : ∀ i, ∃ C ≥ (0 : ℝ), ∃ δ > (0 : ℝ), Touches g t₀ i → ∀ u, Small u δ → ∀ t, |t - t₀| ≤ δ → ∀ κ, 0 ≤ κ → κ ≤ δ → ∀ y : Vec, close κ y (vecOf g.coeffs) →
      ∀ o, Rounded.pieceOf u g i (t, y) o →
      (∃ v, o = .ok v ∧ close (C * (sz u + |t - t₀| + κ)) v ((List.range g.codim).map fun c => curve g i c t₀)) ∧
      ∀ v e, o = .ok v → Rounded.pieceOf 0 g i (t, vecOf g.coeffs) (.ok e) → close (C * (sz u + κ)) v e := by
    intro i
    by_cases ht : Touches g t₀ i
    swap
    · exact ⟨0, le_rfl, 1, one_pos, fun h => absurd h ht⟩
    obtain ⟨C, hC, δ, hδ, h⟩ := Rounded.pieceOf_rate hb hp ht.1 (hc i ht)
    refine ⟨C, hC, δ, hδ, fun _ u hu t htt κ hκ hκδ y hy o ho => ⟨?_, fun v e hv he => ?_⟩⟩
    · obtain ⟨v, e, h1⟩ := (h u hu (t, y) o ho).1 (max |t - t₀| κ) (le_max_of_le_right hκ) (max_le htt hκδ)
        ⟨Gauge.mono' (le_max_left _ _) (show close |t - t₀| t t₀ from le_refl (|t - t₀|)), Gauge.mono' (le_max_right _ _) hy⟩
      refine ⟨v, e, Gauge.mono' (mul_le_mul_of_nonneg_left ?_ hC) h1⟩
      have : max |t - t₀| κ ≤ |t - t₀| + κ := max_le (by linarith) (by linarith [abs_nonneg (t - t₀)])
      linarith
    · have htt' : close δ t t₀ := htt
      have := (h u hu (t, y) o ho).2 0 (t, vecOf g.coeffs) v e ⟨le_rfl, hδ.le, le_rfl, hδ.le⟩ ⟨htt', Gauge.mono' hκδ hy⟩ ⟨htt', Gauge.refl' _ hδ.le⟩ κ hκ
        ⟨Gauge.refl' t hκ, hy⟩ hv he
      simpa [sz] using this
  choose C hC δ hδ H using H
  obtain ⟨d, hd, hdm⟩ := min_pos hδ g.tau.length
  have hsum : ∀ i < g.tau.length, C i ≤ ∑ k ∈ Finset.range g.tau.length, C k := fun i hi =>
    Finset.single_le_sum (f := C) (fun k _ => hC k) (Finset.mem_range.mpr hi)
  refine ⟨∑ k ∈ Finset.range g.tau.length, C k, Finset.sum_nonneg fun k _ => hC k, d, hd, fun i ht u hu t htt κ hκ hκδ y hy o ho => ?_⟩
  obtain ⟨⟨v, h1, h2⟩, h3⟩ := H i ht u (small_mono (hdm i ht.1) hu) t (htt.trans (hdm i ht.1)) κ hκ (hκδ.trans (hdm i ht.1)) y hy o ho
  have hs := sz_nonneg hu
  refine ⟨⟨v, h1, Gauge.mono' (mul_le_mul_of_nonneg_right (hsum i ht.1) (by positivity)) h2⟩, fun v e hv he => ?_⟩
  exact Gauge.mono' (mul_le_mul_of_nonneg_right (hsum i ht.1) (by positivity)) (h3 v e hv he)

/-- Near one point, for coefficients near those of the spline. -/
theorem values_local {g : GSpline} (hb : g.basis.Valid) (hcon : Consistent g) (hp : Positive g) (hj : Unbroken g) {t₀ : ℝ}
    (hc : ∀ i, Touches g t₀ i → Clear g.basis (window (vecOf g.tau i) (t₀ - brk g i))) :
    ∃ C ≥ (0 : ℝ), ∃ δ > (0 : ℝ), ∀ t, |t - t₀| ≤ δ → ∀ u, Small u δ → ∀ κ, 0 ≤ κ → κ ≤ δ → ∀ (x : List ℝ) (d : ℝ), x.length = g.coeffs.length →
      (∀ k < x.length, |vecOf x k - vecOf g.coeffs k| ≤ κ) → ∀ r, Rounded.value u { g with dom := (g.dom.1, d), coeffs := x } t r →
      ∃ v e, r = .ok v ∧ g.value t = .ok e ∧ v.length = g.codim ∧ e.length = g.codim ∧ close (C * (sz u + κ)) v e := by
  obtain ⟨C, hC, δ, hδ, h⟩ := pieces_near hb hp hc
  obtain ⟨η, hη, hI⟩ := EvG.of_ev (F := fun u t => Rounded.getInterval u g t) (P := fun r => ∃ i, r = .ok i ∧ Touches g t₀ i) (Rounded.getInterval_at hp t₀)
  obtain ⟨D, hD, κ, hκ, hG⟩ := Rounded.getInterval_rate hp
  have hm : 0 < min δ (min η κ) := lt_min hδ (lt_min hη hκ)
  have l1 : min δ (min η κ) ≤ δ := min_le_left _ _
  have l2 : min δ (min η κ) ≤ η := (min_le_right _ _).trans (min_le_left _ _)
  have l3 : min δ (min η κ) ≤ κ := (min_le_right _ _).trans (min_le_right _ _)
  refine ⟨C + 2 * C * D, by positivity, min δ (min η κ), hm, fun t htt u hu κ' hκ' hκδ x d hxl hx r hr => ?_⟩
  have hs := sz_nonneg hu
  have h0 : Small (0 : ℝ × ℝ) (min δ (min η κ)) := ⟨le_rfl, hm.le, le_rfl, hm.le⟩
  have hex := Rounded.value_has (u := 0) le_rfl le_rfl hb hcon hp.1 hp.not_mem t
  -- the interval of a run
  have split : ∀ u, Small u (min δ (min η κ)) → ∀ (x : List ℝ) (d : ℝ), x.length = g.coeffs.length → ∀ r, Rounded.value u { g with dom := (g.dom.1, d), coeffs := x } t r → ∃ i, Touches g t₀ i ∧ (brk g i ≤ t + D * sz u ∨ i = 0) ∧
      (t ≤ brk g (i + 1) + D * sz u ∨ i + 1 = g.tau.length) ∧ Rounded.pieceOf u g i (t, vecOf x) r := by
    intro u hu x d hxl r hr
    have hI' := hI u (small_mono l2 hu) t (htt.trans l2)
    rw [Rounded.value_eq] at hr
    rcases hr with ⟨e, he, -⟩ | ⟨i, hi, hr⟩
    · obtain ⟨_, h, _⟩ := hI' _ he; cases h
    obtain ⟨_, h', ht⟩ := hI' _ hi
    cases h'
    obtain ⟨_, h', -, hg1, hg2⟩ := hG u (small_mono l3 hu) t _ hi
    cases h'
    rw [Rounded.pieceOf_eq u hcon ht.1 t d hxl] at hr
    exact ⟨i, ht, hg1, hg2, hr⟩
  obtain ⟨i, hti, gi1, gi2, hri⟩ := split u hu x d hxl r hr
  obtain ⟨k, htk, gk1, gk2, hrk⟩ := split 0 h0 g.coeffs g.dom.2 rfl _ hex
  have hy : close κ' (vecOf x) (vecOf g.coeffs) := fun k => by
    change |vecOf x k - vecOf g.coeffs k| ≤ κ'
    by_cases hk : k < x.length
    · exact hx k hk
    · unfold vecOf
      rw [List.getD_eq_getElem?_getD, List.getD_eq_getElem?_getD, List.getElem?_eq_none (by omega), List.getElem?_eq_none (by omega)]
      simpa using hκ'
  have e0 : sz (0 : ℝ × ℝ) = 0 := by simp [sz]
  rw [e0, mul_zero, add_zero] at gk1 gk2
  obtain ⟨⟨v, rfl, hv⟩, hv'⟩ := h i hti u (small_mono l1 hu) t (htt.trans l1) κ' hκ' (hκδ.trans l1) _ hy r hri
  obtain ⟨⟨e, he, hve⟩, -⟩ := h k htk 0 (small_mono l1 h0) t (htt.trans l1) 0 le_rfl hδ.le _ (Gauge.refl' _ le_rfl) _ hrk
  have hlen : ∀ {c : ℝ} {w : List ℝ} {f : ℕ → ℝ}, close c w ((List.range g.codim).map f) → w.length = g.codim := fun {c w f} hw => by
    have := List.Forall₂.length_eq (R := close c) hw
    rwa [List.length_map, List.length_range] at this
  refine ⟨v, e, rfl, he, hlen hv, hlen hve, ?_⟩
  by_cases hik : i = k
  · subst hik
    rw [he] at hrk
    refine Gauge.mono' ?_ (hv' v e rfl hrk)
    have h1 : 0 ≤ 2 * C * D * (sz u + κ') := by positivity
    linarith
  · have hrow : ((List.range g.codim).map fun c => curve g i c t₀) = (List.range g.codim).map fun c => curve g k c t₀ :=
      List.map_congr_left fun c hcm => touches_agree hp hj hti htk (List.mem_range.mp hcm)
    have key : ∀ i k, i < k → Touches g t₀ i → Touches g t₀ k → k = i + 1 ∧ t₀ = brk g k := by
      intro i k hik hi hk
      have h1 : t₀ ≤ brk g (i + 1) := hi.2.2.resolve_right (by have := hk.1; omega)
      have h2 : brk g k ≤ t₀ := hk.2.1.resolve_right (by omega)
      have h3 : k = i + 1 := by
        by_contra h
        have a := GSpline.brk_lt_succ hp (i := i + 1) (by have := hk.1; omega)
        have b := GSpline.brk_mono hp (i := i + 1 + 1) (j := k) (by omega) (by have := hk.1; omega)
        linarith
      subst h3
      exact ⟨rfl, le_antisymm h1 h2⟩
    have hDs : 0 ≤ D * sz u := mul_nonneg hD hs
    have hdist : |t - t₀| ≤ D * sz u := by
      rw [abs_le]
      rcases lt_or_gt_of_ne hik with h1 | h1
      · obtain ⟨rfl, e1⟩ := key i k h1 hti htk
        have a1 := gi2.resolve_right (by have := htk.1; omega)
        have a2 := gk1.resolve_right (by omega)
        rw [e1]
        constructor <;> linarith
      · obtain ⟨rfl, e1⟩ := key k i h1 htk hti
        have a1 := gk2.resolve_right (by have := hti.1; omega)
        have a2 := gi1.resolve_right (by omega)
        rw [e1]
        constructor <;> linarith
    rw [hrow] at hv
    refine Gauge.mono' ?_ (Gauge.trans' hv (Gauge.symm' hve))
    rw [e0]
    have h1 := mul_le_mul_of_nonneg_left hdist hC
    have h2 : 0 ≤ 2 * C * D * κ' := by positivity
    nlinarith

/-- The same on a compact set of times. -/
theorem values_uniform (g : GSpline) (hb : g.basis.Valid) (hcon : Consistent g) (hp : Positive g) (hj : Unbroken g) (K : Set ℝ) (hK : IsCompact K)
    (hc : ∀ t ∈ K, ∀ i, Touches g t i → Clear g.basis (window (vecOf g.tau i) (t - brk g i))) :
    ∃ C ≥ (0 : ℝ), ∃ δ, 0 < δ ∧ ∀ t ∈ K, ∀ u, Small u δ → ∀ κ, 0 ≤ κ → κ ≤ δ → ∀ (x : List ℝ) (d : ℝ), x.length = g.coeffs.length →
      (∀ k < x.length, |vecOf x k - vecOf g.coeffs k| ≤ κ) → ∀ r, Rounded.value u { g with dom := (g.dom.1, d), coeffs := x } t r →
      ∃ v e, r = .ok v ∧ g.value t = .ok e ∧ v.length = g.codim ∧ e.length = g.codim ∧ ∀ c < g.codim, |vecOf v c - vecOf e c| ≤ C * (u.1 + u.2 + κ) := by
  have H : ∃ C ≥ (0 : ℝ), ∃ δ > (0 : ℝ), ∀ t ∈ K, ∀ u, Small u δ → ∀ κ, 0 ≤ κ → κ ≤ δ → ∀ (x : List ℝ) (d : ℝ), x.length = g.coeffs.length →
      (∀ k < x.length, |vecOf x k - vecOf g.coeffs k| ≤ κ) → ∀ r, Rounded.value u { g with dom := (g.dom.1, d), coeffs := x } t r →
      ∃ v e, r = .ok v ∧ g.value t = .ok e ∧ v.length = g.codim ∧ e.length = g.codim ∧ close (C * (sz u + κ)) v e := by
    refine hK.induction_on (p := fun S => ∃ C ≥ (0 : ℝ), ∃ δ > (0 : ℝ), ∀ t ∈ S, ∀ u, Small u δ → ∀ κ, 0 ≤ κ → κ ≤ δ → ∀ (x : List ℝ) (d : ℝ), x.length = g.coeffs.length →
      (∀ k < x.length, |vecOf x k - vecOf g.coeffs k| ≤ κ) → ∀ r, Rounded.value u { g with dom := (g.dom.1, d), coeffs := x } t r →
      ∃ v e, r = .ok v ∧ g.value t = .ok e ∧ v.length = g.codim ∧ e.length = g.codim ∧ close (C * (sz u + κ)) v e) ?_ ?_ ?_ ?_
    · exact ⟨0, le_rfl, 1, one_pos, fun t ht => absurd ht (Set.notMem_empty t)⟩
    · rintro S T hST ⟨C, hC, δ, hδ, h⟩
      exact ⟨C, hC, δ, hδ, fun t ht => h t (hST ht)⟩
    · rintro S T ⟨C, hC, δ, hδ, h⟩ ⟨D, hD, η, hη, h'⟩
      refine ⟨max C D, le_max_of_le_left hC, min δ η, lt_min hδ hη, fun t ht u hu κ hκ hκδ x d hxl hx r hr => ?_⟩
      rcases ht with ht | ht
      · obtain ⟨v, e, a1, a2, a3, a4, a5⟩ := h t ht u (small_mono (min_le_left _ _) hu) κ hκ (hκδ.trans (min_le_left _ _)) x d hxl hx r hr
        exact ⟨v, e, a1, a2, a3, a4, Gauge.mono' (mul_le_mul_of_nonneg_right (le_max_left _ _) (add_nonneg (sz_nonneg hu) hκ)) a5⟩
      · obtain ⟨v, e, a1, a2, a3, a4, a5⟩ := h' t ht u (small_mono (min_le_right _ _) hu) κ hκ (hκδ.trans (min_le_right _ _)) x d hxl hx r hr
        exact ⟨v, e, a1, a2, a3, a4, Gauge.mono' (mul_le_mul_of_nonneg_right (le_max_right _ _) (add_nonneg (sz_nonneg hu) hκ)) a5⟩
    · intro t₀ ht₀
      obtain ⟨C, hC, δ, hδ, h⟩ := values_local hb hcon hp hj (hc t₀ ht₀)
      refine ⟨Metric.closedBall t₀ δ, mem_nhdsWithin_of_mem_nhds (Metric.closedBall_mem_nhds t₀ hδ), C, hC, δ, hδ, fun t ht => h t ?_⟩
      rwa [Metric.mem_closedBall, Real.dist_eq] at ht
  obtain ⟨C, hC, δ, hδ, h⟩ := H
  refine ⟨C, hC, δ, hδ, fun t ht u hu κ hκ hκδ x d hxl hx r hr => ?_⟩
  obtain ⟨v, e, a1, a2, a3, a4, a5⟩ := h t ht u hu κ hκ hκδ x d hxl hx r hr
  exact ⟨v, e, a1, a2, a3, a4, fun c hcc => close_row a5 (by omega)⟩

/-- What every outcome of a call looks like, with errors proportional to the rounding errors and the backward error. -/
theorem interpolate_rate {b : Basis} (hb : Interpolable b) (hcl : Clear b (-1)) (hcr : Clear b 1) {tau : List ℝ} (hne : tau ≠ []) (ht : ∀ t ∈ tau, 1 / 10 ^ 6 ≤ t) {w : Pts}
    (hw : w.rows = tau.length + 1) {y0 : Vec} (hy0 : Interpolates b tau.length w.cols (vecOf tau) w.at' y0) :
    ∃ C ≥ (0 : ℝ), ∃ δ > (0 : ℝ), ∀ u, Small u δ → ∀ η, 0 ≤ η → η ≤ δ → ∀ lu, StableLU η (b.dim * w.cols * tau.length) lu → ∀ s, RReach w.cols tau.length b s →
      ∀ r, Rounded.interpolate u lu s tau w r → ∃ s' x e, r = .ok (s', ⟨(0, e), w.cols, b, x, tau⟩) ∧ RReach w.cols tau.length b s' ∧ |e - tau.sum| ≤ C * sz u ∧
        x.length = b.dim * w.cols * tau.length ∧ ∀ k < b.dim * w.cols * tau.length, |vecOf x k - y0 k| ≤ C * (sz u + η) := by
  obtain ⟨C, hC, δ, hδ, h⟩ := Rounded.solve_rate hb hcl hcr hne ht hw hy0
  have hsum : 0 < tau.sum := by
    refine List.sum_pos _ (fun t h => lt_of_lt_of_le (by norm_num) (ht t h)) hne
  have hS := Nd.RateAt.sum (n := tau.length) (f := fun k (_ : Unit) => vecOf tau k) (x := ()) (fun k _ => LLip.const _ _)
  have e1 : ∑ k ∈ range tau.length, vecOf tau k = tau.sum := by
    conv_rhs => rw [← Rounded.range_map_vecOf tau]
    rfl
  rw [e1] at hS
  obtain ⟨D, hD, δ', hδ', hS'⟩ := Rounded.rate_unit hS
  have hm : 0 < min δ (min δ' (tau.sum / (2 * D + 1))) := lt_min hδ (lt_min hδ' (by positivity))
  refine ⟨max C D, le_max_of_le_left hC, _, hm, fun u hu η hη hηδ lu hlu s hs r hr => ?_⟩
  have hsol := h u (small_mono (min_le_left _ _) hu) η hη (hηδ.trans (min_le_left _ _)) lu hlu s hs
  have hend := hS' u (small_mono ((min_le_right _ _).trans (min_le_left _ _)) hu)
  have hsz := sz_nonneg hu
  rcases hr with ⟨e, he, rfl⟩ | ⟨⟨s', x⟩, hx, hr⟩
  · rcases hsol _ he with ⟨_, hf, -⟩ | ⟨_, -, hf⟩
    · exact hf.elim
    · cases hf
  obtain ⟨_, hf, -⟩ | ⟨_, ⟨g1, g2, g3, g4, g5, g6⟩, hq⟩ := hsol _ hx
  · exact hf.elim
  cases hq
  simp only at g1 g2 g3 g4 g5 g6
  rw [Rounded.range_map_vecOf] at hend
  rcases hr with ⟨e, he, rfl⟩ | ⟨e, he, hr⟩
  · obtain ⟨_, hf, -⟩ := hend _ he; cases hf
  obtain ⟨_, hf, hd⟩ := hend _ he
  cases hf
  have hd : |e - tau.sum| ≤ D * sz u := hd
  have hd3 : D * sz u ≤ tau.sum := by
    have h1 := mul_le_mul_of_nonneg_left (sz_le hu) hD
    have h2 : (2 * D + 1) * min δ (min δ' (tau.sum / (2 * D + 1))) ≤ (2 * D + 1) * (tau.sum / (2 * D + 1)) :=
      mul_le_mul_of_nonneg_left ((min_le_right _ _).trans (min_le_right _ _)) (by positivity)
    rw [mul_div_cancel₀ _ (by positivity : 2 * D + 1 ≠ 0)] at h2
    linarith
  have hd2 := abs_le.mp (hd.trans hd3)
  have hmk : GSpline.make (0, e) s'.codim s'.n s'.basis x tau = .ok ⟨(0, e), w.cols, b, x, tau⟩ := by
    unfold GSpline.make
    rw [g2, g3, g4, if_pos (show (0 : ℝ) ≤ e by linarith [hd2.1]), if_neg (not_not.mpr (by rw [g5]; ring))]
  simp only at hr
  rw [hmk] at hr
  rcases hr with ⟨e', he', -⟩ | ⟨g, hg, hr⟩
  · cases he'
  cases hg
  refine ⟨s', x, e, hr, g1, hd.trans (mul_le_mul_of_nonneg_right (le_max_right _ _) hsz), g5, fun k hk => (g6 k hk).trans ?_⟩
  exact mul_le_mul_of_nonneg_right (le_max_left _ _) (add_nonneg hsz hη)

/-- **C96** (the curve). For a basis, interval lengths, way points and an order there are a constant and a bound: if the rounding errors and the backward error of the
linear solver are below the bound, every call of `interpolate` succeeds, whatever the object was used for before, and the spline meets the conditions of the interpolation
problem, and agrees with the interpolating curve of exact arithmetic together with its derivatives, up to the constant times the size of the errors. -/
theorem C96_conditions (b : Basis) (hb : Interpolable b) (hcl : Clear b (-1)) (hcr : Clear b 1) (tau : List ℝ) (hne : tau ≠ []) (ht : ∀ t ∈ tau, 1 / 10 ^ 6 ≤ t) (w : Pts)
    (hw : w.rows = tau.length + 1) (D : ℕ) :
    ∃ C δ : ℝ, 0 < δ ∧ ∀ u, Small u δ → ∀ η, 0 ≤ η → η ≤ δ → ∀ lu, StableLU η (b.dim * w.cols * tau.length) lu → ∀ s, RReach w.cols tau.length b s →
      ∀ r, Rounded.interpolate u lu s tau w r → ∃ s' g, r = .ok (s', g) ∧ RReach w.cols tau.length b s' ∧ g.tau = tau ∧ g.codim = w.cols ∧ g.basis = b ∧ Consistent g ∧
        g.dom.1 = 0 ∧ |g.dom.2 - tau.sum| ≤ C * (u.1 + u.2) ∧ MeetsWithin (C * (u.1 + u.2 + η)) { g with dom := (0, tau.sum) } w.at' ∧
        ∀ lu0, LUContract lu0 → ∀ (junk : Vec) (g0 : GSpline), interpolateFn lu0 junk tau w b = .ok g0 → CloseUpTo D (C * (u.1 + u.2 + η)) { g with dom := (0, tau.sum) } g0 := by
  have U := usable_of hb.valid hb.even hb.ne hb.left hb.right
  have hn : 0 < tau.length := List.length_pos_of_ne_nil hne
  have hpos : ∀ i < tau.length, 0 < vecOf tau i := fun i hi' => vecOf_pos (fun t h => lt_of_lt_of_le (by norm_num) (ht t h)) hi'
  obtain ⟨A, inv, S, hinv⟩ := system_inverse hb w.cols hne ht
  obtain ⟨B, hB0, hB⟩ := basis_bound b tau.length (vecOf tau) D
  obtain ⟨g1, hg1⟩ := Symmetry.interpolate_ok exactLU_contract (fun _ => 0) hb hne ht hw
  obtain ⟨x1, rfl, hI1, -⟩ := exact_coefficients exactLU_contract hb hne hw hg1
  obtain ⟨N, hN⟩ : ∃ N, N = b.dim * w.cols * tau.length := ⟨_, rfl⟩
  rw [← hN] at hinv
  obtain ⟨M, hM⟩ : ∃ M, M = ∑ i ∈ range N, ∑ r ∈ range N, |A i r| := ⟨_, rfl⟩
  have hM0 : 0 ≤ M := by rw [hM]; exact sum_nonneg fun i _ => sum_nonneg fun r _ => abs_nonneg _
  have hdB : 0 ≤ b.dim * B := by positivity
  obtain ⟨C, hC, δ, hδ, h⟩ := interpolate_rate hb hcl hcr hne ht hw hI1
  refine ⟨(1 + M + b.dim * B) * C, δ, hδ, fun u hu η hη hηδ lu hlu s hs r hr => ?_⟩
  obtain ⟨s', x, e, rfl, hs', he, hxl, hx⟩ := h u hu η hη hηδ lu hlu s hs r hr
  have hsz := sz_nonneg hu
  obtain ⟨κ, hκ⟩ : ∃ κ, κ = C * (sz u + η) := ⟨_, rfl⟩
  have hκ0 : 0 ≤ κ := by rw [hκ]; positivity
  obtain ⟨ε, hε⟩ : ∃ ε, ε = (1 + M + b.dim * B) * C * (u.1 + u.2 + η) := ⟨_, rfl⟩
  have hκε : (1 + M + b.dim * B) * κ = ε := by rw [hκ, hε]; unfold sz; ring
  rw [← hκ] at hx
  rw [← hε]
  rw [← hN] at hx hxl
  have hcon : ∀ e, Consistent ⟨(0, e), w.cols, b, x, tau⟩ := fun e => by
    unfold Consistent; simp only; rw [hxl, hN]; ring
  have hp : Positive ⟨(0, tau.sum), w.cols, b, x, tau⟩ := ⟨hne, fun t h => lt_of_lt_of_le (by norm_num) (ht t h)⟩
  refine ⟨s', _, rfl, hs', rfl, rfl, rfl, hcon e, rfl, he.trans ?_, ?_, fun lu0 hlu0 junk g0 hg0 => ?_⟩
  · have h1 : 0 ≤ C * sz u := by positivity
    have h2 : (1 + M + b.dim * B) * C * (u.1 + u.2) = (1 + M + b.dim * B) * (C * sz u) := by unfold sz; ring
    rw [h2]
    nlinarith
  · refine meets_of_quantities hb hn rfl (hcon _) hp fun q => ?_
    have hq : q.quantity b (vecOf tau) (vecOf x1) = q.target w.at' := (interpolates_iff U hn _ _ _).mp hI1 q
    rw [← hq, ← S.sum U hn (fun i hi => (hpos i hi).ne') (vecOf x) q, ← S.sum U hn (fun i hi => (hpos i hi).ne') (vecOf x1) q, ← sum_sub_distrib, ← hN]
    have hr : row tau.length w.cols (b.dim / 2 - 1) q < N := by
      have := row_lt hn q
      rwa [← U.dim, ← hN] at this
    refine (abs_sum_le_sum_abs _ _).trans ?_
    calc ∑ k ∈ range N, |A (row tau.length w.cols (b.dim / 2 - 1) q) k * vecOf x k - A (row tau.length w.cols (b.dim / 2 - 1) q) k * vecOf x1 k|
        ≤ ∑ k ∈ range N, |A (row tau.length w.cols (b.dim / 2 - 1) q) k| * κ := sum_le_sum fun k hk => by
          rw [← mul_sub, abs_mul]
          exact mul_le_mul_of_nonneg_left (hx k (mem_range.mp hk)) (abs_nonneg _)
      _ = (∑ k ∈ range N, |A (row tau.length w.cols (b.dim / 2 - 1) q) k|) * κ := by rw [sum_mul]
      _ ≤ M * κ := mul_le_mul_of_nonneg_right (by
          rw [hM]
          exact single_le_sum (f := fun i => ∑ j ∈ range N, |A i j|) (fun i _ => sum_nonneg fun r _ => abs_nonneg _) (mem_range.mpr hr)) hκ0
      _ ≤ ε := by nlinarith
  · obtain ⟨x0, rfl, hI, hcon0⟩ := exact_coefficients hlu0 hb hne hw hg0
    have hx01 : ∀ k < N, vecOf x0 k = vecOf x1 k := by
      intro k hk
      have i1 := (interpolates_iff U hn _ _ _).mp hI1
      have i2 := (interpolates_iff U hn _ _ _).mp hI
      have s1 : ∀ r < N, ∑ j ∈ range N, A r j * vecOf x0 j = ∑ j ∈ range N, A r j * vecOf x1 j := by
        intro r hr
        rw [hN, U.dim] at hr
        obtain ⟨q, rfl⟩ := row_surj (n := tau.length) (c := w.cols) (h := b.dim / 2 - 1) hn hr
        rw [hN, S.sum U hn (fun i hi => (hpos i hi).ne') _ q, S.sum U hn (fun i hi => (hpos i hi).ne') _ q, i1 q, i2 q]
      have := solution_error (y := vecOf x0) (y0 := vecOf x1) (v := fun r => ∑ j ∈ range N, A r j * vecOf x1 j) (ε := 0) hinv (fun r _ => rfl)
        (fun r hr => by rw [s1 r hr, sub_self, abs_zero]) hk
      rw [mul_zero, abs_nonpos_iff] at this
      linarith
    have hclose := close_of (g := ⟨(0, tau.sum), w.cols, b, x, tau⟩) (g' := ⟨(0, tau.sum), w.cols, b, x0, tau⟩) hb.valid rfl (hcon _) hcon0 hp (by simp) rfl rfl rfl hB
      (δ := κ) (fun k hk => by rw [hx01 k (by rw [hN]; exact hk)]; exact hx k (by rw [hN]; exact hk))
    have hle : b.dim * B * κ ≤ ε := by nlinarith
    exact ⟨hclose.lengths, hclose.domain, hclose.codim, fun t h1 h2 ha => by
      obtain ⟨y, y', c1, c2, c3⟩ := hclose.values t h1 h2 ha
      exact ⟨y, y', c1, c2, fun c hc => (c3 c hc).trans hle⟩, fun t h1 h2 i hi c hc d hd => (hclose.derivatives t h1 h2 i hi c hc d hd).trans hle⟩

/-- **C96** (values). On a compact set of times (at which rounding does not decide whether a Lagrange node is hit) there are one constant and one bound for all times: for
errors below the bound, interpolation followed by evaluation succeeds, and every component of every possible result is off the result of exact arithmetic by at most the
constant times the sum of the errors: those of interpolation, of evaluation, and the backward error. -/
theorem C96_uniform (b : Basis) (hb : Interpolable b) (hcl : Clear b (-1)) (hcr : Clear b 1) (tau : List ℝ) (hne : tau ≠ []) (ht : ∀ t ∈ tau, 1 / 10 ^ 6 ≤ t) (w : Pts)
    (hw : w.rows = tau.length + 1) (lu0 : LU) (hlu0 : LUContract lu0) (junk : Vec) (g0 : GSpline) (hg0 : interpolateFn lu0 junk tau w b = .ok g0) (K : Set ℝ) (hK : IsCompact K)
    (hc : ∀ t ∈ K, ∀ i, Touches g0 t i → Clear b (window (vecOf tau i) (t - brk g0 i))) :
    ∃ C δ : ℝ, 0 < δ ∧ ∀ u u', Small u δ → Small u' δ → ∀ η, 0 ≤ η → η ≤ δ → ∀ lu, StableLU η (b.dim * w.cols * tau.length) lu → ∀ s, RReach w.cols tau.length b s →
      ∀ r, Rounded.interpolate u lu s tau w r → ∃ s' g, r = .ok (s', g) ∧ ∀ t ∈ K, ∀ r', Rounded.value u' g t r' →
        ∃ x x0, r' = .ok x ∧ g0.value t = .ok x0 ∧ x.length = w.cols ∧ x0.length = w.cols ∧ ∀ c < w.cols, |vecOf x c - vecOf x0 c| ≤ C * (u.1 + u.2 + u'.1 + u'.2 + η) := by
  obtain ⟨y0, rfl, hI, hcon0⟩ := exact_coefficients hlu0 hb hne hw hg0
  have hp : Positive ⟨(0, tau.sum), w.cols, b, y0, tau⟩ := ⟨hne, fun t h => lt_of_lt_of_le (by norm_num) (ht t h)⟩
  have hlen := List.length_pos_of_ne_nil hne
  have hj : Unbroken ⟨(0, tau.sum), w.cols, b, y0, tau⟩ := by
    obtain ⟨s, h1, h2, -⟩ := interpolate_new hlu0 (w := w) (by omega) hb junk
    obtain ⟨s', g, f1, f2, f3, f4, f5, f6, f7⟩ := h2 tau (by omega) ht
    have : interpolateFn lu0 junk tau w b = .ok g := by
      unfold interpolateFn
      rw [if_neg (by omega), h1, Interp.ok_bind, f1]
      rfl
    rw [hg0] at this
    cases this
    intro i hi c hc
    simpa using f7.joins i hi c hc 0 (Nat.zero_le _)
  obtain ⟨C, hC, δ1, hδ1, hv⟩ := values_uniform ⟨(0, tau.sum), w.cols, b, y0, tau⟩ hb.valid hcon0 hp hj K hK hc
  obtain ⟨D, hD, δ2, hδ2, hint⟩ := interpolate_rate hb hcl hcr hne ht hw hI
  have hm : 0 < min (min δ1 δ2) (δ1 / (3 * D + 1)) := lt_min (lt_min hδ1 hδ2) (by positivity)
  have l1 : min (min δ1 δ2) (δ1 / (3 * D + 1)) ≤ δ1 := (min_le_left _ _).trans (min_le_left _ _)
  have l2 : min (min δ1 δ2) (δ1 / (3 * D + 1)) ≤ δ2 := (min_le_left _ _).trans (min_le_right _ _)
  refine ⟨C * (D + 1), _, hm, fun u u' hu hu' η hη hηδ lu hlu s hs r hr => ?_⟩
  obtain ⟨s', x, e, rfl, -, -, hxl, hx⟩ := hint u (small_mono l2 hu) η hη (hηδ.trans l2) lu hlu s hs r hr
  have hsz := sz_nonneg hu
  have hsz' := sz_nonneg hu'
  refine ⟨s', _, rfl, fun t htK r' hr' => ?_⟩
  have hcl0 : y0.length = b.dim * w.cols * tau.length := by
    have : y0.length = tau.length * b.dim * w.cols := hcon0
    rw [this]; ring
  have hκ : D * (sz u + η) ≤ δ1 := by
    have h1 : (3 * D + 1) * min (min δ1 δ2) (δ1 / (3 * D + 1)) ≤ (3 * D + 1) * (δ1 / (3 * D + 1)) := mul_le_mul_of_nonneg_left (min_le_right _ _) (by positivity)
    rw [mul_div_cancel₀ _ (by positivity : 3 * D + 1 ≠ 0)] at h1
    have h2 : D * (sz u + η) ≤ D * (3 * min (min δ1 δ2) (δ1 / (3 * D + 1))) := mul_le_mul_of_nonneg_left (by linarith [sz_le hu]) hD
    linarith
  obtain ⟨v, x0, e1, e2, e3, e4, e5⟩ := hv t htK u' (small_mono l1 hu') (D * (sz u + η)) (by positivity) hκ x e (by rw [hxl]; exact hcl0.symm)
    (fun k hk => hx k (by rw [← hxl]; exact hk)) r' hr'
  refine ⟨v, x0, e1, e2, e3, e4, fun c hcc => (e5 c hcc).trans ?_⟩
  rw [mul_assoc]
  refine mul_le_mul_of_nonneg_left ?_ hC
  have h1 := mul_nonneg hD hsz'
  unfold sz at h1 hsz hsz' ⊢
  linarith

/-- **C96** (tracking). Let a curve with `dim` continuous derivatives, at rest at both ends, be sampled at the breakpoints with errors of at most `μ`. Interpolating the samples
and evaluating the result on a compact set of times gives the positions of the curve up to the error of exact interpolation between exact samples (C83), a constant times `μ`,
and another constant times the sum of the errors of the arithmetic and the backward error of the linear solver. The constants do not depend on the time or the errors, the first
does not depend on the samples either. -/
theorem C96_tracking (b : Basis) (hb : Interpolable b) (hcl : Clear b (-1)) (hcr : Clear b 1) (tau : List ℝ) (hne : tau ≠ []) (ht : ∀ t ∈ tau, 1 / 10 ^ 6 ≤ t) (codim : ℕ)
    (φ : ℕ → ℝ → ℝ) (hφ : ∀ c < codim, ContDiff ℝ b.dim (φ c)) (hrest : ∀ c < codim, AtRest (b.dim / 2) tau.sum (φ c)) (step : ℝ) (hstep : ∀ t ∈ tau, t ≤ step) :
    ∃ C : ℝ, 0 ≤ C ∧ ∀ w : Pts, w.rows = tau.length + 1 → w.cols = codim → ∀ μ : ℝ, (∀ i ≤ tau.length, ∀ c < codim, |w.at' i c - φ c (instant tau i)| ≤ μ) →
      ∀ K : Set ℝ, IsCompact K → (∀ t ∈ K, 0 ≤ t ∧ t ≤ tau.sum) →
      (∀ t ∈ K, ∀ i < tau.length, instant tau i ≤ t → t ≤ instant tau (i + 1) → Clear b (window (vecOf tau i) (t - instant tau i))) →
      ∃ D δ : ℝ, 0 < δ ∧ ∀ u u', Small u δ → Small u' δ → ∀ η, 0 ≤ η → η ≤ δ → ∀ lu, StableLU η (b.dim * codim * tau.length) lu → ∀ s, RReach codim tau.length b s →
        ∀ r, Rounded.interpolate u lu s tau w r → ∃ s' g, r = .ok (s', g) ∧ ∀ t ∈ K, ∀ r', Rounded.value u' g t r' → ∃ x, r' = .ok x ∧ x.length = codim ∧ ∀ c < codim,
          |vecOf x c - φ c t| ≤ √(step ^ (2 * b.dim - 1) * ∫ s in (0)..tau.sum, residual b (φ c) s ^ 2) + C * μ + D * (u.1 + u.2 + u'.1 + u'.2 + η) := by
  obtain ⟨C, hC, hway⟩ := C91_waypoints b hb codim tau hne ht 0
  refine ⟨C, hC, fun w hw hc μ hμ K hK hK0 hclear => ?_⟩
  obtain ⟨ge, hge, g1, g2, g3, g4, hacc⟩ := C83_interpolate_function exactLU exactLU_contract (fun _ => 0) b hb tau hne ht
    ⟨tau.length + 1, codim, fun i c => φ c (instant tau i)⟩ rfl φ hφ (fun _ _ _ _ => rfl) hrest step hstep
  obtain ⟨g0, ge', hg0, hge', hclose⟩ := hway w ⟨tau.length + 1, codim, fun i c => φ c (instant tau i)⟩ hw hc μ
    ⟨hw.symm, hc.symm, fun i hi c hcc => by rw [abs_sub_comm]; exact hμ i (by omega) c (by omega)⟩ exactLU exactLU exactLU_contract exactLU_contract (fun _ => 0) (fun _ => 0)
  rw [hge] at hge'
  cases hge'
  obtain ⟨G0, k1, k2, k3⟩ := Symmetry.good_of exactLU_contract hb hne ht hw hg0
  obtain ⟨Ge, -⟩ := Symmetry.good_of exactLU_contract hb hne ht (w := ⟨tau.length + 1, codim, fun i c => φ c (instant tau i)⟩) rfl hge
  have hd0 : g0.dom = (0, tau.sum) := by rw [G0.ends, k1]
  have hb0 : ∀ i, brk g0 i = instant tau i := fun i => by rw [brk_instant (by rw [hd0]), k1]
  have hbe : ∀ i, brk ge i = instant tau i := fun i => by rw [brk_instant (by rw [g1]), g2]
  have htouch : ∀ t ∈ K, ∀ i, Touches g0 t i → Clear b (window (vecOf tau i) (t - brk g0 i)) := by
    rintro t htK i ⟨a1, a2, a3⟩
    obtain ⟨h0, h1⟩ := hK0 t htK
    rw [k1] at a1
    rw [hb0] at a2 ⊢
    rw [hb0, k1] at a3
    refine hclear t htK i a1 ?_ ?_
    · rcases a2 with h | rfl
      · exact h
      · simpa [instant] using h0
    · rcases a3 with h | h
      · exact h
      · rw [h]; simpa [instant] using h1
  obtain ⟨D, δ, hδ, hround⟩ := C96_uniform b hb hcl hcr tau hne ht w hw exactLU exactLU_contract (fun _ => 0) g0 hg0 K hK htouch
  refine ⟨D, δ, hδ, ?_⟩
  rw [← hc]
  intro u u' hu hu' η hη hηδ lu hlu s hs r hr
  obtain ⟨s', g, hr', hval⟩ := hround u u' hu hu' η hη hηδ lu hlu s hs r hr
  refine ⟨s', g, hr', fun t htK r' hr' => ?_⟩
  obtain ⟨h0, h1⟩ := hK0 t htK
  obtain ⟨i, hi⟩ := GSpline.located_exists G0.pos t
  have hti : Touches g0 t i := by
    refine ⟨hi.1, ?_, ?_⟩
    · rcases hi.2 with ⟨_, h⟩ | ⟨h, _⟩ | ⟨h, _⟩
      · exact .inr h
      · exact .inl h.le
      · exact .inl ((GSpline.brk_mono G0.pos hi.1.le le_rfl).trans h.le)
    · rcases hi.2 with ⟨h, rfl⟩ | ⟨_, h⟩ | ⟨_, h⟩
      · exact .inl (h.trans (GSpline.brk_lt_succ G0.pos hi.1).le)
      · exact .inl h
      · exact .inr h
  have hclean : b.CleanAt (window (vecOf tau i) (t - instant tau i)) := by
    have := clean_of_clear (htouch t htK i hti)
    rwa [hb0] at this
  have hie : Located ge t i := by
    have := hi
    unfold Located at this ⊢
    simp only [hb0, hbe, k1, g2] at this ⊢
    exact this
  have haway : Away g0 t := fun j hj => by
    have : j = i := by
      have e1 := GSpline.getInterval_of_located G0.pos hj
      have e2 := GSpline.getInterval_of_located G0.pos hi
      omega
    rw [this, k3, k1, hb0]
    exact hclean
  obtain ⟨x, xe, hx, hxe, hxx⟩ := hclose.values t (by rw [hd0]; exact h0) (by rw [hd0]; exact h1) haway
  obtain ⟨y, x0, y1, hx0, y2, hx0l, y3⟩ := hval t htK r' hr'
  refine ⟨y, y1, y2, fun c hcc => ?_⟩
  have hcc' : c < codim := by omega
  -- the value of the exact spline through the given samples
  have e1 : vecOf x0 c = x c := by
    obtain ⟨v, v1, -, v3⟩ := hx
    rw [hx0] at v1
    cases v1
    have := v3 c (by rw [k2]; exact hcc)
    unfold vecOf
    rw [List.getD_eq_getElem?_getD, this]
    rfl
  -- the value of the exact spline through exact samples
  have e2 : xe c = curve ge i c t := by
    obtain ⟨v, v1, -, v3⟩ := hxe
    obtain ⟨v', w1, -, w3⟩ := C12_value ge (by rw [g4]; exact hb.valid) Ge.con Ge.pos t i hie (by rw [g4, g2, hbe]; exact hclean)
    rw [v1] at w1
    cases w1
    have a := v3 c (by rw [g3]; exact hcc')
    rw [w3 c (by rw [g3]; exact hcc')] at a
    exact (Option.some.inj a).symm
  have hm : 1 ≤ b.dim / 2 := by have := hb.ne; have := hb.even; omega
  have e3 : |curve ge i c t - φ c t| ≤ √(step ^ (2 * b.dim - 1) * ∫ s in (0)..tau.sum, residual b (φ c) s ^ 2) := by
    obtain ⟨gd, d1, d2⟩ := hacc.pointwise 0 (by rw [g4]; omega)
    obtain ⟨v, v1, v2, v3⟩ := d2 t (by rw [g1]; exact ⟨h0, h1⟩) i hie (by rw [g4, g2, hbe]; exact hclean)
    obtain ⟨gd', f1, f2, f3, f4, f5, f6, f7⟩ := C14_derivative_partial ge (by rw [g4]; exact hb.valid) Ge.con Ge.pos (by rw [g1]; exact h0.trans h1) 0 (by
      rw [g4]
      cases b with
      | b0101 a => exact Nat.zero_le 2
      | _ => trivial)
    rw [d1] at f1
    cases f1
    obtain ⟨v', w1, -, w3⟩ := f7 t i hie (by rw [g4, g2, hbe]; exact hclean)
    rw [v1] at w1
    cases w1
    obtain ⟨z, z1, z2⟩ := v3 c (by rw [g3]; exact hcc')
    rw [w3 c (by rw [g3]; exact hcc')] at z1
    cases z1
    rw [iteratedDeriv_zero, iteratedDeriv_zero, g4, g2, Nat.sub_zero] at z2
    exact Real.abs_le_sqrt z2
  have e4 := y3 c hcc
  have e5 := hxx c (by rw [k2]; exact hcc)
  rw [e1] at e4
  rw [e2] at e5
  calc |vecOf y c - φ c t| = |(vecOf y c - x c) + (x c - curve ge i c t) + (curve ge i c t - φ c t)| := by congr 1; ring
    _ ≤ |vecOf y c - x c| + |x c - curve ge i c t| + |curve ge i c t - φ c t| := abs_add_three _ _ _
    _ ≤ _ := by linarith

/-! ## The hypotheses can be met -/

/-- The hypotheses of `C96_conditions` and `C96_uniform` hold, on the whole domain, for linear solvers with a backward error that is not zero, and the calls have results. -/
example : Interpolable (.legendre 4) ∧ Clear (.legendre 4) (-1) ∧ Clear (.legendre 4) 1 ∧ (∀ t ∈ [(1 : ℝ), 2], 1 / 10 ^ 6 ≤ t) ∧ corner.rows = [(1 : ℝ), 2].length + 1 ∧
    (∀ η, 0 ≤ η → StableLU η ((Basis.legendre 4).dim * corner.cols * 2) (shrunkLU η)) ∧ RReach corner.cols 2 (.legendre 4) newInterp ∧
    (∃ g0, interpolateFn exactLU (fun _ => 0) [1, 2] corner (.legendre 4) = .ok g0 ∧
      ∀ t ∈ Set.Icc (0 : ℝ) 3, ∀ i, Touches g0 t i → Clear (.legendre 4) (window (vecOf [1, 2] i) (t - brk g0 i))) ∧
    ∀ u : ℝ × ℝ, 0 ≤ u.1 → 0 ≤ u.2 → ∀ η, ∃ r, Rounded.interpolate u (shrunkLU η) newInterp [1, 2] corner r := by
  obtain ⟨g0, hg0⟩ := corner_ok _ interpolable4
  exact ⟨interpolable4, trivial, trivial, by simp; norm_num, rfl, fun η h => shrunkLU_stable h _, newInterp_rreach, ⟨g0, hg0, fun _ _ _ _ => trivial⟩,
    fun u h1 h2 η => ⟨_, C85_exact u h1 h2 _ 2 2 (by norm_num) _ interpolable4 _ newInterp_rreach _ _⟩⟩

/-- `C96_tracking` applies to the movement `10 t³ - 15 t⁴ + 6 t⁵` from `0` to `1`, cut into two intervals and sampled exactly: on the whole domain every run with errors of
at most `e` stays within the error of C83 plus `5 D e` of the curve, with one `D` for all small `e`. -/
example : ∃ D δ : ℝ, 0 < δ ∧ ∀ e, 0 ≤ e → e ≤ δ → ∀ lu, StableLU e (4 * 1 * 2) lu → ∀ s, RReach 1 2 (.legendre 4) s →
    ∀ r, Rounded.interpolate (e, e) lu s [1 / 2, 1 / 2] ⟨3, 1, fun i _ => 10 * instant [1 / 2, 1 / 2] i ^ 3 - 15 * instant [1 / 2, 1 / 2] i ^ 4 + 6 * instant [1 / 2, 1 / 2] i ^ 5⟩ r →
      ∃ s' g, r = .ok (s', g) ∧ ∀ t ∈ Set.Icc (0 : ℝ) 1, ∀ r', Rounded.value (e, e) g t r' → ∃ x, r' = .ok x ∧
        |vecOf x 0 - (10 * t ^ 3 - 15 * t ^ 4 + 6 * t ^ 5)| ≤
          √((1 / 2) ^ 7 * ∫ s in (0)..1, residual (.legendre 4) (fun t => 10 * t ^ 3 - 15 * t ^ 4 + 6 * t ^ 5) s ^ 2) + D * (5 * e) := by
  have hsum : ([1 / 2, 1 / 2] : List ℝ).sum = 1 := by norm_num
  obtain ⟨C, hC, h⟩ := C96_tracking (.legendre 4) interpolable4 trivial trivial [1 / 2, 1 / 2] (by simp) (by norm_num) 1 (fun _ t => 10 * t ^ 3 - 15 * t ^ 4 + 6 * t ^ 5)
    (fun c _ => by fun_prop) (fun c _ d e1 e2 => by
      obtain rfl : d = 1 := by rw [show (Basis.legendre 4).dim = 4 from rfl] at e2; omega
      rw [quintic_deriv.1, hsum]
      norm_num) (1 / 2) (by norm_num)
  obtain ⟨D, δ, hδ, h⟩ := h ⟨3, 1, fun i _ => 10 * instant [1 / 2, 1 / 2] i ^ 3 - 15 * instant [1 / 2, 1 / 2] i ^ 4 + 6 * instant [1 / 2, 1 / 2] i ^ 5⟩ rfl rfl 0
    (fun i _ c _ => by simp) (Set.Icc 0 1) isCompact_Icc (fun t ht => by rw [hsum]; exact ht) (fun _ _ _ _ _ _ => trivial)
  refine ⟨D, δ, hδ, fun e he hed lu hlu s hs r hr => ?_⟩
  obtain ⟨s', g, e1, e2⟩ := h (e, e) (e, e) ⟨he, hed, he, hed⟩ ⟨he, hed, he, hed⟩ e he hed lu hlu s hs r hr
  refine ⟨s', g, e1, fun t ht r' hr' => ?_⟩
  obtain ⟨x, x1, -, x3⟩ := e2 t ht r' hr'
  refine ⟨x, x1, ?_⟩
  have := x3 0 (by norm_num)
  rw [hsum] at this
  simp only at this
  rw [show D * (5 * e) = C * 0 + D * (e + e + e + e + e) by ring, ← add_assoc]
  exact this

end GSplines.Props
