import Verif.Proofs.RateSplineOps
import Verif.Props.RateInterp
import Verif.Props.RoundingSpline

/-!
# C97: the errors of derivatives and of arithmetic of splines are proportional to the rounding errors

As in C87, `Rounded.deriv u g n r` says that `g.deriv(n)` may end with `r`, when each operation on doubles has a relative error of at most `u.1` plus an absolute error of at
most `u.2` and the sums are taken in any order. Likewise for `Rounded.add`, `Rounded.sub`, `Rounded.smul`.
-/

namespace GSplines.Props

open GSplines Spec Interp Residual Finset Nd

/-- The values at one point, for coefficients near those of a spline that may jump at its breakpoints. -/
theorem values_point {g : GSpline} (hb : g.basis.Valid) (hcon : Consistent g) (hp : Positive g) {t : ℝ}
    (hc : ∀ i, Touches g t i → Clear g.basis (window (vecOf g.tau i) (t - brk g i))) :
    ∃ C ≥ (0 : ℝ), ∃ δ > (0 : ℝ), ∀ u, Small u δ → ∀ κ, 0 ≤ κ → κ ≤ δ → ∀ (x : List ℝ) (d : ℝ), x.length = g.coeffs.length →
      (∀ k < x.length, |vecOf x k - vecOf g.coeffs k| ≤ κ) → ∀ r, Rounded.value u { g with dom := (g.dom.1, d), coeffs := x } t r →
      ∃ v i, r = .ok v ∧ v.length = g.codim ∧ Touches g t i ∧ ∀ c < g.codim, |vecOf v c - curve g i c t| ≤ C * (u.1 + u.2 + κ) := by
  obtain ⟨C, hC, δ, hδ, h⟩ := pieces_near hb hp hc
  obtain ⟨η, hη, hI⟩ := EvG.of_ev (F := fun u t => Rounded.getInterval u g t) (P := fun r => ∃ i, r = .ok i ∧ Touches g t i) (Rounded.getInterval_at hp t)
  refine ⟨C, hC, min δ η, lt_min hδ hη, fun u hu κ hκ hκδ x d hxl hx r hr => ?_⟩
  have htt : |t - t| ≤ δ := by rw [sub_self, abs_zero]; exact hδ.le
  have hI' := hI u (Nd.small_mono (min_le_right _ _) hu) t (Gauge.refl' _ hη.le)
  rw [Rounded.value_eq] at hr
  rcases hr with ⟨e, he, -⟩ | ⟨i, hi, hr⟩
  · obtain ⟨_, h, _⟩ := hI' _ he; cases h
  obtain ⟨_, h', ht⟩ := hI' _ hi
  cases h'
  rw [Rounded.pieceOf_eq u hcon ht.1 t d hxl] at hr
  obtain ⟨⟨v, rfl, hv⟩, -⟩ := h i ht u (Nd.small_mono (min_le_left _ _) hu) t htt κ hκ (hκδ.trans (min_le_left _ _)) _ (Rounded.vecOf_near hxl hκ hx) r hr
  have hl : v.length = g.codim := by
    have := List.Forall₂.length_eq (R := close _) hv
    rwa [List.length_map, List.length_range] at this
  refine ⟨v, i, rfl, hl, ht, fun c hcc => ?_⟩
  have := close_row hv (c := c) (by simpa using hcc)
  rw [vecOf_map_range hcc, sub_self, abs_zero, add_zero] at this
  exact this

/-- The value of an unbroken spline is that of every piece whose interval touches the time. -/
theorem value_of_touches {g : GSpline} (hb : g.basis.Valid) (hcon : Consistent g) (hp : Positive g) (hj : Unbroken g) {t : ℝ}
    (hc : ∀ i, Touches g t i → Clear g.basis (window (vecOf g.tau i) (t - brk g i))) {e : List ℝ} (he : g.value t = .ok e) {i : ℕ} (hi : Touches g t i) {c : ℕ} (hcc : c < g.codim) :
    vecOf e c = curve g i c t := by
  obtain ⟨k, hk⟩ := GSpline.located_exists hp t
  have htk : Touches g t k := by
    refine ⟨hk.1, ?_, ?_⟩
    · rcases hk.2 with ⟨_, h⟩ | ⟨h, _⟩ | ⟨h, _⟩
      · exact .inr h
      · exact .inl h.le
      · exact .inl ((GSpline.brk_mono hp hk.1.le le_rfl).trans h.le)
    · rcases hk.2 with ⟨h, rfl⟩ | ⟨_, h⟩ | ⟨_, h⟩
      · exact .inl (h.trans (GSpline.brk_lt_succ hp hk.1).le)
      · exact .inl h
      · exact .inr h
  obtain ⟨v, w1, -, w3⟩ := C12_value g hb hcon hp t k hk (clean_of_clear (hc k htk))
  rw [he] at w1
  cases w1
  rw [touches_agree hp hj hi htk hcc]
  unfold vecOf
  rw [List.getD_eq_getElem?_getD, w3 c hcc]
  rfl

/-- The values on a compact set of times, for coefficients near those of a spline without jumps. -/
theorem values_set {g : GSpline} (hb : g.basis.Valid) (hcon : Consistent g) (hp : Positive g) (hj : Unbroken g) {K : Set ℝ} (hK : IsCompact K)
    (hc : ∀ t ∈ K, ∀ i, Touches g t i → Clear g.basis (window (vecOf g.tau i) (t - brk g i))) :
    ∃ C ≥ (0 : ℝ), ∃ δ > (0 : ℝ), ∀ u, Small u δ → ∀ κ, 0 ≤ κ → κ ≤ δ → ∀ (x : List ℝ) (d : ℝ), x.length = g.coeffs.length →
      (∀ k < x.length, |vecOf x k - vecOf g.coeffs k| ≤ κ) → ∀ t ∈ K, ∀ r, Rounded.value u { g with dom := (g.dom.1, d), coeffs := x } t r →
      ∃ v, r = .ok v ∧ v.length = g.codim ∧ ∀ i, Touches g t i → ∀ c < g.codim, |vecOf v c - curve g i c t| ≤ C * (u.1 + u.2 + κ) := by
  obtain ⟨C, hC, δ, hδ, h⟩ := values_uniform g hb hcon hp hj K hK hc
  refine ⟨C, hC, δ, hδ, fun u hu κ hκ hκδ x d hxl hx t ht r hr => ?_⟩
  obtain ⟨v, e, e1, e2, e3, -, e5⟩ := h t ht u hu κ hκ hκδ x d hxl hx r hr
  refine ⟨v, e1, e3, fun i hi c hcc => ?_⟩
  rw [← value_of_touches hb hcon hp hj (hc t ht) e2 hi hcc]
  exact e5 c hcc

/-- From errors of coefficients to a bound that makes them small enough. -/
theorem budget {C δ δ' : ℝ} (hC : 0 ≤ C) (hδ : 0 < δ) (hδ' : 0 < δ') :
    ∃ d > 0, d ≤ δ ∧ d ≤ δ' ∧ ∀ s : ℝ, 0 ≤ s → s ≤ 4 * d → C * s ≤ δ := by
  have hd : 0 < δ / (4 * C + 1) := by positivity
  refine ⟨min (min δ δ') (δ / (4 * C + 1)), lt_min (lt_min hδ hδ') hd, (min_le_left _ _).trans (min_le_left _ _), (min_le_left _ _).trans (min_le_right _ _), fun s _ hs => ?_⟩
  have h1 : (4 * C + 1) * min (min δ δ') (δ / (4 * C + 1)) ≤ (4 * C + 1) * (δ / (4 * C + 1)) := mul_le_mul_of_nonneg_left (min_le_right _ _) (by positivity)
  rw [mul_div_cancel₀ _ (by positivity : 4 * C + 1 ≠ 0)] at h1
  have h2 := mul_le_mul_of_nonneg_left hs hC
  have h3 : 0 < min (min δ δ') (δ / (4 * C + 1)) := lt_min (lt_min hδ hδ') hd
  linarith

/-- The spline with the coefficients of the exact derivative. -/
theorem consistent_dco {g : GSpline} (hcon : Consistent g) (n : ℕ) : Consistent { g with coeffs := Rounded.dco g n } := by
  unfold Consistent; simp only; rw [Rounded.dco_length]; exact hcon

/-- **C97** (derivative at a time). For a spline, an order and a time there are a constant and a bound: if the rounding errors are below the bound, differentiation succeeds with
a spline that has the same domain, intervals, basis and components, and evaluating it gives, in all components, the derivative of one of the pieces whose interval touches `t`
up to the constant times the sum of the errors. For basis 0101 the order must be at most two (C14). -/
theorem C97_derivative (g : GSpline) (hb : g.basis.Valid) (hcon : Consistent g) (hp : Positive g) (hdom : g.dom.1 ≤ g.dom.2) (n : ℕ) (hn : g.basis.MatOrderOk n) (t : ℝ)
    (hc : ∀ i, Touches g t i → Clear g.basis (window (vecOf g.tau i) (t - brk g i))) :
    ∃ C δ : ℝ, 0 < δ ∧ ∀ u u', Small u δ → Small u' δ → ∀ r, Rounded.deriv u g n r →
      ∃ d, r = .ok d ∧ d.dom = g.dom ∧ d.codim = g.codim ∧ d.basis = g.basis ∧ d.tau = g.tau ∧ Consistent d ∧
        ∀ r', Rounded.value u' d t r' → ∃ v i, r' = .ok v ∧ v.length = g.codim ∧ Touches g t i ∧
          ∀ c < g.codim, |vecOf v c - iteratedDeriv n (curve g i c) t| ≤ C * (u.1 + u.2 + u'.1 + u'.2) := by
  have hz := zero_notMem hp
  obtain ⟨C, hC, δ1, hδ1, hv⟩ := values_point (g := { g with coeffs := Rounded.dco g n }) hb (consistent_dco hcon n) hp hc
  obtain ⟨D, hD, δ2, hδ2, hdn⟩ := Rounded.deriv_rate hb hcon hz n
  obtain ⟨d, hd, hd1, hd2, hdb⟩ := budget hD hδ1 hδ2
  refine ⟨C * (D + 1), d, hd, fun u u' hu hu' r hr => ?_⟩
  have hsz := sz_nonneg hu
  have hsz' := sz_nonneg hu'
  obtain ⟨y, rfl, hyl, hy⟩ := hdn u (Nd.small_mono hd2 hu) 0 le_rfl hδ2.le g.coeffs g.dom.2 hdom rfl (fun k _ => by simp) r hr
  refine ⟨_, rfl, rfl, rfl, rfl, rfl, by unfold Consistent; simp only; rw [hyl]; exact hcon, fun r' hr' => ?_⟩
  obtain ⟨v, i, e1, e2, hi, e3⟩ := hv u' (Nd.small_mono hd1 hu') (D * (sz u + 0)) (by positivity) (hdb _ (by positivity) (by linarith [sz_le hu])) y g.dom.2
    (by rw [hyl, Rounded.dco_length]) hy r' hr'
  refine ⟨v, i, e1, e2, hi, fun c hcc => ?_⟩
  rw [← GSpline.curve_deriv hb hdom hcon hz n hn (deriv_dco hdom hcon hz n) hi.1 (vecOf_pos hp.2 hi.1).ne' hcc]
  refine (e3 c hcc).trans ?_
  rw [mul_assoc]
  refine mul_le_mul_of_nonneg_left ?_ hC
  have h1 := mul_nonneg hD hsz'
  unfold sz at h1 hsz hsz' ⊢
  linarith

/-- The exact derivative has no jumps if the derivatives of the pieces agree at the breakpoints. -/
theorem unbroken_dco {g : GSpline} (hb : g.basis.Valid) (hcon : Consistent g) (hp : Positive g) (hdom : g.dom.1 ≤ g.dom.2) {n : ℕ} (hn : g.basis.MatOrderOk n)
    (hj : ∀ i, i + 1 < g.tau.length → ∀ c < g.codim, iteratedDeriv n (curve g i c) (brk g (i + 1)) = iteratedDeriv n (curve g (i + 1) c) (brk g (i + 1))) :
    Unbroken { g with coeffs := Rounded.dco g n } := by
  have hz := zero_notMem hp
  intro i hi c hcc
  have hi' : i + 1 < g.tau.length := hi
  have h := fun {k : ℕ} (hk : k < g.tau.length) => GSpline.curve_deriv hb hdom hcon hz n hn (deriv_dco hdom hcon hz n) hk (vecOf_pos hp.2 hk).ne' hcc
  rw [h (by omega), h hi']
  exact hj i hi' c hcc

/-- Differentiation followed by evaluation on a compact set, for coefficients that have errors too. -/
theorem deriv_values {g : GSpline} (hb : g.basis.Valid) (hcon : Consistent g) (hp : Positive g) (hdom : g.dom.1 ≤ g.dom.2) {n : ℕ} (hn : g.basis.MatOrderOk n)
    (hj : ∀ i, i + 1 < g.tau.length → ∀ c < g.codim, iteratedDeriv n (curve g i c) (brk g (i + 1)) = iteratedDeriv n (curve g (i + 1) c) (brk g (i + 1))) {K : Set ℝ} (hK : IsCompact K)
    (hc : ∀ t ∈ K, ∀ i, Touches g t i → Clear g.basis (window (vecOf g.tau i) (t - brk g i))) :
    ∃ C ≥ (0 : ℝ), ∃ δ > (0 : ℝ), ∀ u u', Small u δ → Small u' δ → ∀ κ, 0 ≤ κ → κ ≤ δ → ∀ (x : List ℝ) (e : ℝ), g.dom.1 ≤ e → x.length = g.coeffs.length →
      (∀ k < x.length, |vecOf x k - vecOf g.coeffs k| ≤ κ) → ∀ r, Rounded.deriv u { g with dom := (g.dom.1, e), coeffs := x } n r →
      ∃ d, r = .ok d ∧ d.dom = (g.dom.1, e) ∧ d.codim = g.codim ∧ d.basis = g.basis ∧ d.tau = g.tau ∧ Consistent d ∧
        ∀ t ∈ K, ∀ r', Rounded.value u' d t r' → ∃ v, r' = .ok v ∧ v.length = g.codim ∧
          ∀ i, Touches g t i → ∀ c < g.codim, |vecOf v c - iteratedDeriv n (curve g i c) t| ≤ C * (u.1 + u.2 + u'.1 + u'.2 + κ) := by
  have hz := zero_notMem hp
  obtain ⟨C, hC, δ1, hδ1, hv⟩ := values_set (g := { g with coeffs := Rounded.dco g n }) hb (consistent_dco hcon n) hp (unbroken_dco hb hcon hp hdom hn hj) hK hc
  obtain ⟨D, hD, δ2, hδ2, hdn⟩ := Rounded.deriv_rate hb hcon hz n
  obtain ⟨d, hd, hd1, hd2, hdb⟩ := budget hD hδ1 hδ2
  refine ⟨C * (D + 1), by positivity, d, hd, fun u u' hu hu' κ hκ hκd x e he hxl hx r hr => ?_⟩
  have hsz := sz_nonneg hu
  have hsz' := sz_nonneg hu'
  obtain ⟨y, rfl, hyl, hy⟩ := hdn u (Nd.small_mono hd2 hu) κ hκ (hκd.trans hd2) x e he hxl hx r hr
  refine ⟨_, rfl, rfl, rfl, rfl, rfl, by unfold Consistent; simp only; rw [hyl]; exact hcon, fun t ht r' hr' => ?_⟩
  obtain ⟨v, e1, e2, e3⟩ := hv u' (Nd.small_mono hd1 hu') (D * (sz u + κ)) (by positivity) (hdb _ (by positivity) (by linarith [sz_le hu])) y e
    (by rw [hyl, Rounded.dco_length]) hy t ht r' hr'
  refine ⟨v, e1, e2, fun i hi c hcc => ?_⟩
  rw [← GSpline.curve_deriv hb hdom hcon hz n hn (deriv_dco hdom hcon hz n) hi.1 (vecOf_pos hp.2 hi.1).ne' hcc]
  refine (e3 i hi c hcc).trans ?_
  rw [mul_assoc]
  refine mul_le_mul_of_nonneg_left ?_ hC
  have h1 := mul_nonneg hD hsz'
  unfold sz at h1 hsz hsz' ⊢
  linarith

/-- **C97** (derivative on a set of times). If the derivatives of the pieces agree at the breakpoints, one constant and one bound do for all times of a compact set, and it does not
matter which piece is taken at a breakpoint. -/
theorem C97_derivative_uniform (g : GSpline) (hb : g.basis.Valid) (hcon : Consistent g) (hp : Positive g) (hdom : g.dom.1 ≤ g.dom.2) (n : ℕ) (hn : g.basis.MatOrderOk n)
    (hj : ∀ i, i + 1 < g.tau.length → ∀ c < g.codim, iteratedDeriv n (curve g i c) (brk g (i + 1)) = iteratedDeriv n (curve g (i + 1) c) (brk g (i + 1))) (K : Set ℝ) (hK : IsCompact K)
    (hc : ∀ t ∈ K, ∀ i, Touches g t i → Clear g.basis (window (vecOf g.tau i) (t - brk g i))) :
    ∃ C δ : ℝ, 0 < δ ∧ ∀ u u', Small u δ → Small u' δ → ∀ r, Rounded.deriv u g n r →
      ∃ d, r = .ok d ∧ d.dom = g.dom ∧ d.codim = g.codim ∧ d.basis = g.basis ∧ d.tau = g.tau ∧ Consistent d ∧
        ∀ t ∈ K, ∀ r', Rounded.value u' d t r' → ∃ v, r' = .ok v ∧ v.length = g.codim ∧
          ∀ i, Touches g t i → ∀ c < g.codim, |vecOf v c - iteratedDeriv n (curve g i c) t| ≤ C * (u.1 + u.2 + u'.1 + u'.2) := by
  obtain ⟨C, -, δ, hδ, h⟩ := deriv_values hb hcon hp hdom hn hj hK hc
  refine ⟨C, δ, hδ, fun u u' hu hu' r hr => ?_⟩
  have := h u u' hu hu' 0 le_rfl hδ.le g.coeffs g.dom.2 hdom rfl (fun k _ => by simp) r hr
  simpa only [add_zero] using this

/-- **C97** (position, velocity, acceleration, … of an interpolating curve). For a basis, interval lengths, way points, an order up to `dim - 2` and a compact set of times there are
one constant and one bound: if the errors of all steps and the backward error of the linear solver are below the bound, then interpolating, differentiating and evaluating succeeds,
whatever the object was used for before, and gives the derivative of the interpolating curve of exact arithmetic up to the constant times the sum of all errors. -/
theorem C97_interpolated (b : Basis) (hb : Interpolable b) (hcl : Clear b (-1)) (hcr : Clear b 1) (tau : List ℝ) (hne : tau ≠ []) (ht : ∀ t ∈ tau, 1 / 10 ^ 6 ≤ t) (w : Pts)
    (hw : w.rows = tau.length + 1) (lu0 : LU) (hlu0 : LUContract lu0) (junk : Vec) (g0 : GSpline) (hg0 : interpolateFn lu0 junk tau w b = .ok g0) (n : ℕ) (hn : b.MatOrderOk n)
    (hnd : n ≤ b.dim - 2) (K : Set ℝ) (hK : IsCompact K) (hc : ∀ t ∈ K, ∀ i, Touches g0 t i → Clear b (window (vecOf tau i) (t - brk g0 i))) :
    ∃ C δ : ℝ, 0 < δ ∧ ∀ u u' u'', Small u δ → Small u' δ → Small u'' δ → ∀ η, 0 ≤ η → η ≤ δ → ∀ lu, StableLU η (b.dim * w.cols * tau.length) lu →
      ∀ s, RReach w.cols tau.length b s → ∀ r, Rounded.interpolate u lu s tau w r → ∃ s' g, r = .ok (s', g) ∧ ∀ r', Rounded.deriv u' g n r' → ∃ d, r' = .ok d ∧ d.dom = g.dom ∧ d.tau = tau ∧
        ∀ t ∈ K, ∀ r'', Rounded.value u'' d t r'' → ∃ v, r'' = .ok v ∧ v.length = w.cols ∧
          ∀ i, Touches g0 t i → ∀ c < w.cols, |vecOf v c - iteratedDeriv n (curve g0 i c) t| ≤ C * (u.1 + u.2 + u'.1 + u'.2 + u''.1 + u''.2 + η) := by
  obtain ⟨y0, rfl, hI, hcon0⟩ := exact_coefficients hlu0 hb hne hw hg0
  have hp : Positive ⟨(0, tau.sum), w.cols, b, y0, tau⟩ := ⟨hne, fun t h => lt_of_lt_of_le (by norm_num) (ht t h)⟩
  have hlen := List.length_pos_of_ne_nil hne
  have hsum : 0 < tau.sum := List.sum_pos _ (fun t h => lt_of_lt_of_le (by norm_num) (ht t h)) hne
  have hjoin : ∀ i, i + 1 < tau.length → ∀ c < w.cols, ∀ d ≤ b.dim - 2, iteratedDeriv d (curve ⟨(0, tau.sum), w.cols, b, y0, tau⟩ i c) (brk ⟨(0, tau.sum), w.cols, b, y0, tau⟩ (i + 1)) =
      iteratedDeriv d (curve ⟨(0, tau.sum), w.cols, b, y0, tau⟩ (i + 1) c) (brk ⟨(0, tau.sum), w.cols, b, y0, tau⟩ (i + 1)) := by
    obtain ⟨s, h1, h2, -⟩ := interpolate_new hlu0 (w := w) (by omega) hb junk
    obtain ⟨s', g, f1, f2, f3, f4, f5, f6, f7⟩ := h2 tau (by omega) ht
    have : interpolateFn lu0 junk tau w b = .ok g := by
      unfold interpolateFn
      rw [if_neg (by omega), h1, Interp.ok_bind, f1]
      rfl
    rw [hg0] at this
    cases this
    exact f7.joins
  obtain ⟨C, hC, δ1, hδ1, hv⟩ := deriv_values (g := ⟨(0, tau.sum), w.cols, b, y0, tau⟩) hb.valid hcon0 hp hsum.le hn (fun i hi c hcc => hjoin i hi c hcc n hnd) hK hc
  obtain ⟨D, hD, δ2, hδ2, hint⟩ := interpolate_rate hb hcl hcr hne ht hw hI
  have hmin : 0 < min δ1 tau.sum := lt_min hδ1 hsum
  obtain ⟨d, hd, hd1, hd2, hdb⟩ := budget hD hmin hδ2
  have hd1' := hd1.trans (min_le_left _ _)
  refine ⟨C * (D + 1), d, hd, fun u u' u'' hu hu' hu'' η hη hηδ lu hlu s hs r hr => ?_⟩
  have hsz := sz_nonneg hu
  have hsz' := sz_nonneg hu'
  have hsz'' := sz_nonneg hu''
  have hs4 := sz_le hu
  obtain ⟨s', x, e, rfl, -, he, hxl, hx⟩ := hint u (Nd.small_mono hd2 hu) η hη (hηδ.trans hd2) lu hlu s hs r hr
  refine ⟨s', _, rfl, fun r' hr' => ?_⟩
  have hcl0 : y0.length = b.dim * w.cols * tau.length := by
    have : y0.length = tau.length * b.dim * w.cols := hcon0
    rw [this]; ring
  have he0 : 0 ≤ e := by linarith [(abs_le.mp (he.trans ((hdb _ hsz (by linarith)).trans (min_le_right _ _)))).1]
  obtain ⟨d', rfl, d1, -, -, d4, -, d6⟩ := hv u' u'' (Nd.small_mono hd1' hu') (Nd.small_mono hd1' hu'') (D * (sz u + η)) (by positivity)
    ((hdb _ (by positivity) (by linarith)).trans (min_le_left _ _)) x e he0 (hxl.trans hcl0.symm) (fun k hk => hx k (by rw [← hxl]; exact hk)) r' hr'
  refine ⟨d', rfl, d1, d4, fun t htK r'' hr'' => ?_⟩
  obtain ⟨v, e1, e2, e3⟩ := d6 t htK r'' hr''
  refine ⟨v, e1, e2, fun i hi c hcc => (e3 i hi c hcc).trans ?_⟩
  rw [mul_assoc]
  refine mul_le_mul_of_nonneg_left ?_ hC
  have h1 := mul_nonneg hD hsz'
  have h2 := mul_nonneg hD hsz''
  unfold sz at h1 h2 hsz hsz' hsz'' ⊢
  linarith

/-! ## Sums, differences, multiples -/

/-- Rounding the coefficients. -/
theorem coeffs_rate (l : List ℝ) : ∃ C ≥ (0 : ℝ), ∀ u, ∀ d, Small u d → ∀ r, (l.mapM (Nd.near u)) r → ∃ y, r = .ok y ∧ y.length = l.length ∧
    ∀ k < y.length, |vecOf y k - vecOf l k| ≤ C * sz u := by
  obtain ⟨M, hM⟩ : ∃ M, M = ∑ k ∈ range l.length, |vecOf l k| := ⟨_, rfl⟩
  have hM0 : 0 ≤ M := by rw [hM]; exact sum_nonneg fun _ _ => abs_nonneg _
  refine ⟨M + 1, by positivity, fun u d hu r hr => ?_⟩
  obtain ⟨y, e, hl, hy⟩ := Rounded.nears_list hr
  refine ⟨y, e, hl, fun k hk => (hy k (hl ▸ hk)).trans ?_⟩
  have hk1 : |vecOf l k| ≤ M := by
    rw [hM]
    exact single_le_sum (f := fun k => |vecOf l k|) (fun _ _ => abs_nonneg _) (mem_range.mpr (hl ▸ hk))
  have h1 := mul_le_mul_of_nonneg_left hk1 hu.1
  have h2 := mul_nonneg hM0 hu.2.2.1
  have h3 := hu.1
  unfold sz
  nlinarith

/-- Evaluation, on a compact set of times, of a spline whose coefficients were rounded. -/
theorem rounded_values {g : GSpline} (hb : g.basis.Valid) (hcon : Consistent g) (hp : Positive g) (hj : Unbroken g) {K : Set ℝ} (hK : IsCompact K)
    (hc : ∀ t ∈ K, ∀ i, Touches g t i → Clear g.basis (window (vecOf g.tau i) (t - brk g i))) :
    ∃ C ≥ (0 : ℝ), ∃ δ > (0 : ℝ), ∀ u u', Small u δ → Small u' δ → ∀ r, (g.coeffs.mapM (Nd.near u)) r → ∃ y, r = .ok y ∧ Consistent { g with coeffs := y } ∧
      ∀ t ∈ K, ∀ r', Rounded.value u' { g with coeffs := y } t r' → ∃ v, r' = .ok v ∧ v.length = g.codim ∧
        ∀ i, Touches g t i → ∀ c < g.codim, |vecOf v c - curve g i c t| ≤ C * (u.1 + u.2 + u'.1 + u'.2) := by
  obtain ⟨C, hC, δ1, hδ1, hv⟩ := values_set hb hcon hp hj hK hc
  obtain ⟨D, hD, hr0⟩ := coeffs_rate g.coeffs
  obtain ⟨d, hd, hd1, -, hdb⟩ := budget hD hδ1 hδ1
  refine ⟨C * (D + 1), by positivity, d, hd, fun u u' hu hu' r hr => ?_⟩
  have hsz := sz_nonneg hu
  have hsz' := sz_nonneg hu'
  obtain ⟨y, rfl, hyl, hy⟩ := hr0 u d hu r hr
  refine ⟨y, rfl, by unfold Consistent; simp only; rw [hyl]; exact hcon, fun t ht r' hr' => ?_⟩
  obtain ⟨v, e1, e2, e3⟩ := hv u' (Nd.small_mono hd1 hu') (D * sz u) (by positivity) (hdb _ hsz (by linarith [sz_le hu])) y g.dom.2 hyl hy t ht r' hr'
  refine ⟨v, e1, e2, fun i hi c hcc => (e3 i hi c hcc).trans ?_⟩
  rw [mul_assoc]
  refine mul_le_mul_of_nonneg_left ?_ hC
  have h1 := mul_nonneg hD hsz'
  unfold sz at h1 hsz hsz' ⊢
  linarith

/-- A sum or difference of unbroken splines is unbroken. -/
theorem unbroken_zipWith {a b : GSpline} (ha : Consistent a) (hb : Consistent b) (h1 : b.basis = a.basis) (h2 : b.codim = a.codim) (h3 : b.tau = a.tau) (hd : b.dom.1 = a.dom.1)
    (ua : Unbroken a) (ub : Unbroken b) {f : ℝ → ℝ → ℝ} {p q : ℝ} (hf : ∀ x y, f x y = p * x + q * y) : Unbroken { a with coeffs := List.zipWith f a.coeffs b.coeffs } := by
  intro i hi c hcc
  have hi' : i + 1 < a.tau.length := hi
  have hbrk : brk b (i + 1) = brk a (i + 1) := by unfold brk; rw [hd, h3]
  have e : brk { a with coeffs := List.zipWith f a.coeffs b.coeffs } (i + 1) = brk a (i + 1) := rfl
  rw [e, curve_zipWith ha hb h1 h2 h3 hd hf (by omega) hcc, curve_zipWith ha hb h1 h2 h3 hd hf hi' hcc, ua i hi' c hcc]
  have := ub i (by rw [h3]; exact hi') c (by rw [h2]; exact hcc)
  rw [hbrk] at this
  rw [this]

/-- **C97** (sum and difference). For splines without jumps, with the same intervals, basis, components and start, and a compact set of times: if the errors are small enough, the
sum and the difference succeed, and evaluating the result gives the sum or the difference of the two curves up to a constant times the sum of the errors. -/
theorem C97_sum (a b : GSpline) (hv : a.basis.Valid) (ha : Consistent a) (hb : Consistent b) (hp : Positive a) (ua : Unbroken a) (ub : Unbroken b) (h1 : b.basis = a.basis)
    (h2 : b.codim = a.codim) (h3 : b.tau = a.tau) (hd : b.dom.1 = a.dom.1) (K : Set ℝ) (hK : IsCompact K)
    (hc : ∀ t ∈ K, ∀ i, Touches a t i → Clear a.basis (window (vecOf a.tau i) (t - brk a i))) :
    ∃ C δ : ℝ, 0 < δ ∧ ∀ u u', Small u δ → Small u' δ →
      (∀ r, Rounded.add u a b r → ∃ g, r = .ok g ∧ g.dom = a.dom ∧ g.codim = a.codim ∧ g.basis = a.basis ∧ g.tau = a.tau ∧ Consistent g ∧
        ∀ t ∈ K, ∀ r', Rounded.value u' g t r' → ∃ v, r' = .ok v ∧ v.length = a.codim ∧
          ∀ i, Touches a t i → ∀ c < a.codim, |vecOf v c - (curve a i c t + curve b i c t)| ≤ C * (u.1 + u.2 + u'.1 + u'.2)) ∧
      ∀ r, Rounded.sub u a b r → ∃ g, r = .ok g ∧ g.dom = a.dom ∧ g.codim = a.codim ∧ g.basis = a.basis ∧ g.tau = a.tau ∧ Consistent g ∧
        ∀ t ∈ K, ∀ r', Rounded.value u' g t r' → ∃ v, r' = .ok v ∧ v.length = a.codim ∧
          ∀ i, Touches a t i → ∀ c < a.codim, |vecOf v c - (curve a i c t - curve b i c t)| ≤ C * (u.1 + u.2 + u'.1 + u'.2) := by
  have hla : a.coeffs.length = a.tau.length * a.basis.dim * a.codim := ha
  have hlb : b.coeffs.length = b.tau.length * b.basis.dim * b.codim := hb
  have hll : a.coeffs.length = b.coeffs.length := by rw [hla, hlb, h1, h2, h3]
  have hs := C15_same_vector_space_complete a b h1 h2 h3
  have hcp := GSpline.copy_ok ha
  have hcz : ∀ f, Consistent { a with coeffs := List.zipWith f a.coeffs b.coeffs } := fun f => by
    unfold Consistent; simp only; rw [List.length_zipWith, ← hll, min_self]; exact ha
  have p1 : ∀ x y : ℝ, x + y = 1 * x + 1 * y := fun x y => by ring
  have p2 : ∀ x y : ℝ, x - y = 1 * x + (-1) * y := fun x y => by ring
  obtain ⟨C1, hC1, δ1, hδ1, k1⟩ := rounded_values (g := { a with coeffs := List.zipWith (· + ·) a.coeffs b.coeffs }) hv (hcz _) hp (unbroken_zipWith ha hb h1 h2 h3 hd ua ub p1) hK hc
  obtain ⟨C2, hC2, δ2, hδ2, k2⟩ := rounded_values (g := { a with coeffs := List.zipWith (· - ·) a.coeffs b.coeffs }) hv (hcz _) hp (unbroken_zipWith ha hb h1 h2 h3 hd ua ub p2) hK hc
  refine ⟨max C1 C2, min δ1 δ2, lt_min hδ1 hδ2, fun u u' hu hu' => ⟨fun r hr => ?_, fun r hr => ?_⟩⟩
  · have k1 := k1 u u' (Nd.small_mono (min_le_left _ _) hu) (Nd.small_mono (min_le_left _ _) hu')
    unfold Rounded.add at hr
    rw [if_pos hs, hcp] at hr
    rcases hr with ⟨e, he, -⟩ | ⟨g1, hg1, hr⟩
    · cases he
    cases hg1
    unfold Rounded.zipRes at hr
    rw [if_pos hll] at hr
    rcases hr with ⟨e, he, -⟩ | ⟨y, hy, hr⟩
    · obtain ⟨_, hf, -⟩ := k1 _ he; cases hf
    obtain ⟨_, hf, hcy, hval⟩ := k1 _ hy
    cases hf
    refine ⟨_, hr, rfl, rfl, rfl, rfl, hcy, fun t ht r' hr' => ?_⟩
    obtain ⟨v, e1, e2, e3⟩ := hval t ht r' hr'
    refine ⟨v, e1, e2, fun i hi c hcc => ?_⟩
    have := e3 i hi c hcc
    rw [curve_zipWith ha hb h1 h2 h3 hd p1 hi.1 hcc, one_mul, one_mul] at this
    have hs1 := sz_nonneg hu
    have hs2 := sz_nonneg hu'
    unfold sz at hs1 hs2
    exact this.trans (mul_le_mul_of_nonneg_right (le_max_left _ _) (by linarith))
  · have k2 := k2 u u' (Nd.small_mono (min_le_right _ _) hu) (Nd.small_mono (min_le_right _ _) hu')
    unfold Rounded.sub at hr
    rw [if_pos hs, hcp] at hr
    rcases hr with ⟨e, he, -⟩ | ⟨g1, hg1, hr⟩
    · cases he
    cases hg1
    unfold Rounded.zipRes at hr
    rw [if_pos hll] at hr
    rcases hr with ⟨e, he, -⟩ | ⟨y, hy, hr⟩
    · obtain ⟨_, hf, -⟩ := k2 _ he; cases hf
    obtain ⟨_, hf, hcy, hval⟩ := k2 _ hy
    cases hf
    refine ⟨_, hr, rfl, rfl, rfl, rfl, hcy, fun t ht r' hr' => ?_⟩
    obtain ⟨v, e1, e2, e3⟩ := hval t ht r' hr'
    refine ⟨v, e1, e2, fun i hi c hcc => ?_⟩
    have := e3 i hi c hcc
    rw [curve_zipWith ha hb h1 h2 h3 hd p2 hi.1 hcc, one_mul, neg_one_mul, ← sub_eq_add_neg] at this
    have hs1 := sz_nonneg hu
    have hs2 := sz_nonneg hu'
    unfold sz at hs1 hs2
    exact this.trans (mul_le_mul_of_nonneg_right (le_max_right _ _) (by linarith))

theorem curve_multiple (k : ℝ) {g : GSpline} (hcon : Consistent g) {i c : ℕ} (hi : i < g.tau.length) (hcc : c < g.codim) (t : ℝ) :
    curve { g with coeffs := g.coeffs.map (· * k) } i c t = k * curve g i c t := by
  have hcb := GSpline.coef_bound hcon hi hcc
  have hbrk' : brk { g with coeffs := g.coeffs.map (· * k) } i = brk g i := rfl
  unfold curve
  rw [hbrk']
  unfold piece comb
  simp only
  rw [mul_sum]
  refine sum_congr rfl fun j hj => ?_
  have hj' := mem_range.mp hj
  have : ∀ m, m < g.coeffs.length → vecOf (g.coeffs.map (· * k)) m = vecOf g.coeffs m * k := fun m hm => by
    unfold vecOf
    simp [List.getD_eq_getElem?_getD, List.getElem?_eq_getElem hm]
  rw [this _ (by omega)]
  ring

/-- **C97** (multiple). Likewise for the multiple of a spline without jumps by a number. -/
theorem C97_multiple (k : ℝ) (g : GSpline) (hb : g.basis.Valid) (hcon : Consistent g) (hp : Positive g) (hj : Unbroken g) (K : Set ℝ) (hK : IsCompact K)
    (hc : ∀ t ∈ K, ∀ i, Touches g t i → Clear g.basis (window (vecOf g.tau i) (t - brk g i))) :
    ∃ C δ : ℝ, 0 < δ ∧ ∀ u u', Small u δ → Small u' δ → ∀ r, Rounded.smul u k g r →
      ∃ d, r = .ok d ∧ d.dom = g.dom ∧ d.codim = g.codim ∧ d.basis = g.basis ∧ d.tau = g.tau ∧ Consistent d ∧
        ∀ t ∈ K, ∀ r', Rounded.value u' d t r' → ∃ v, r' = .ok v ∧ v.length = g.codim ∧
          ∀ i, Touches g t i → ∀ c < g.codim, |vecOf v c - k * curve g i c t| ≤ C * (u.1 + u.2 + u'.1 + u'.2) := by
  have hcm : Consistent { g with coeffs := g.coeffs.map (· * k) } := by unfold Consistent; simp only; rw [List.length_map]; exact hcon
  have hum : Unbroken { g with coeffs := g.coeffs.map (· * k) } := fun i hi c hcc => by
    have hi' : i + 1 < g.tau.length := hi
    have e : brk { g with coeffs := g.coeffs.map (· * k) } (i + 1) = brk g (i + 1) := rfl
    rw [e, curve_multiple k hcon (by omega) hcc, curve_multiple k hcon hi' hcc, hj i hi' c hcc]
  obtain ⟨C, -, δ, hδ, h⟩ := rounded_values (g := { g with coeffs := g.coeffs.map (· * k) }) hb hcm hp hum hK hc
  refine ⟨C, δ, hδ, fun u u' hu hu' r hr => ?_⟩
  have h := h u u' hu hu'
  unfold Rounded.smul at hr
  rw [GSpline.copy_ok hcon] at hr
  rcases hr with ⟨e, he, -⟩ | ⟨g1, hg1, hr⟩
  · cases he
  cases hg1
  rcases hr with ⟨e, he, -⟩ | ⟨y, hy, hr⟩
  · obtain ⟨_, hf, -⟩ := h _ he; cases hf
  obtain ⟨_, hf, hcy, hval⟩ := h _ hy
  cases hf
  refine ⟨_, hr, rfl, rfl, rfl, rfl, hcy, fun t ht r' hr' => ?_⟩
  obtain ⟨v, e1, e2, e3⟩ := hval t ht r' hr'
  refine ⟨v, e1, e2, fun i hi c hcc => ?_⟩
  rw [← curve_multiple k hcon hi.1 hcc]
  exact e3 i hi c hcc

/-! ## The hypotheses can be met -/

theorem line_curve {i : ℕ} (hi : i < 2) (t : ℝ) : curve line i 0 t = t := by
  interval_cases i <;>
    simp [curve, piece, comb, line, Basis.dim, vecOf, Finset.sum_range_succ, basisFn, window, brk, LegendrePoly.legendre_zero, LegendrePoly.legendre_one] <;> ring

theorem line_good : line.basis.Valid ∧ Consistent line ∧ Positive line ∧ Unbroken line ∧ line.dom.1 ≤ line.dom.2 := by
  refine ⟨show 2 ≤ 2 from le_rfl, by simp [Consistent, line, Basis.dim], ⟨by simp [line], by simp [line]⟩, fun i hi c hc => ?_, by norm_num [line]⟩
  have hi0 : i = 0 := by simp [line] at hi; omega
  have hc0 : c = 0 := by simpa [line] using hc
  subst hi0 hc0
  rw [line_curve (by norm_num), line_curve (by norm_num)]

/-- `C97_derivative_uniform`, `C97_sum` and `C97_multiple` apply to a curve with a breakpoint, on its whole domain, and the calls have results with the errors of doubles. -/
example : (line.basis.Valid ∧ Consistent line ∧ Positive line ∧ Unbroken line ∧ line.dom.1 ≤ line.dom.2) ∧ line.basis.MatOrderOk 1 ∧
    (∀ i, i + 1 < line.tau.length → ∀ c < line.codim, iteratedDeriv 1 (curve line i c) (brk line (i + 1)) = iteratedDeriv 1 (curve line (i + 1) c) (brk line (i + 1))) ∧
    (∀ t ∈ Set.Icc (0 : ℝ) 2, ∀ i, Touches line t i → Clear line.basis (window (vecOf line.tau i) (t - brk line i))) ∧
    (∃ d, Rounded.deriv doubles line 1 (.ok d)) ∧ (∃ r, Rounded.add doubles line line r) ∧ ∃ r, Rounded.smul doubles 3 line r := by
  have h1 : 0 ≤ doubles.1 := by unfold doubles; positivity
  have h2 : 0 ≤ doubles.2 := by unfold doubles; positivity
  obtain ⟨g1, g2, g3, g4, g5⟩ := line_good
  obtain ⟨e1, e2, -, e4⟩ := C87_exact doubles h1 h2 line line g1 (zero_notMem g3) 1 3
  rw [deriv_dco g5 g2 (zero_notMem g3)] at e1
  refine ⟨line_good, trivial, fun i hi c hc => ?_, fun _ _ _ _ => trivial, ⟨_, e1⟩, ⟨_, e2⟩, ⟨_, e4⟩⟩
  have hi0 : i = 0 := by simp [line] at hi; omega
  have hc0 : c = 0 := by simpa [line] using hc
  subst hi0 hc0
  rw [show curve line 0 0 = fun t => t from funext (line_curve (by norm_num)), show curve line (0 + 1) 0 = fun t => t from funext (line_curve (by norm_num))]

/-- What `C97_derivative_uniform` says for that curve: the velocity is `1` up to a constant times the errors, at all times. -/
example : ∃ C δ : ℝ, 0 < δ ∧ ∀ e, 0 ≤ e → e ≤ δ → ∀ r, Rounded.deriv (e, e) line 1 r → ∃ d, r = .ok d ∧ ∀ t ∈ Set.Icc (0 : ℝ) 1, ∀ r', Rounded.value (e, e) d t r' →
    ∃ v, r' = .ok v ∧ |vecOf v 0 - 1| ≤ C * (4 * e) := by
  obtain ⟨g1, g2, g3, g4, g5⟩ := line_good
  have hc : ∀ {i : ℕ}, i < 2 → curve line i 0 = fun t => t := fun hi => funext (line_curve hi)
  obtain ⟨C, δ, hδ, h⟩ := C97_derivative_uniform line g1 g2 g3 g5 1 trivial (fun i hi c hc' => by
    have hi0 : i = 0 := by simp [line] at hi; omega
    have hc0 : c = 0 := by simpa [line] using hc'
    subst hi0 hc0
    rw [hc (by norm_num), hc (by norm_num)]) (Set.Icc 0 1) isCompact_Icc (fun _ _ _ _ => trivial)
  refine ⟨C, δ, hδ, fun e h0 h1 r hr => ?_⟩
  obtain ⟨d, d1, -, -, -, -, -, d7⟩ := h (e, e) (e, e) ⟨h0, h1, h0, h1⟩ ⟨h0, h1, h0, h1⟩ r hr
  refine ⟨d, d1, fun t ht r' hr' => ?_⟩
  obtain ⟨v, v1, -, v3⟩ := d7 t ht r' hr'
  have := v3 0 ⟨by simp [line], .inr rfl, .inl (by simpa [brk, line, vecOf] using ht.2)⟩ 0 (by simp [line])
  rw [hc (by norm_num), iteratedDeriv_one] at this
  refine ⟨v, v1, ?_⟩
  rw [show deriv (fun t : ℝ => t) t = 1 from deriv_id t] at this
  rwa [show C * (4 * e) = C * (e + e + e + e) by ring]

/-- The hypotheses of `C97_derivative` hold with Lagrange nodes at a breakpoint. -/
example : square.basis.Valid ∧ Consistent square ∧ Positive square ∧ square.dom.1 ≤ square.dom.2 ∧ square.basis.MatOrderOk 3 ∧
    ∀ i, Touches square 1 i → Clear square.basis (window (vecOf square.tau i) (1 - brk square i)) := by
  refine ⟨square_valid, by simp [Consistent, square, Basis.dim], ⟨by simp [square], by simp [square]⟩, by norm_num [square], trivial, fun i hi => ?_⟩
  have hlt := hi.1
  simp only [square, List.length_cons, List.length_nil] at hlt
  simp only [square, brk, Clear]
  interval_cases i <;> norm_num [window, vecOf, abs_of_pos, abs_of_neg]

/-- The hypotheses of `C97_interpolated` hold, for velocity and acceleration, on the whole domain, for linear solvers with a backward error that is not zero. -/
example : Interpolable (.legendre 4) ∧ Clear (.legendre 4) (-1) ∧ Clear (.legendre 4) 1 ∧ (∀ t ∈ [(1 : ℝ), 2], 1 / 10 ^ 6 ≤ t) ∧ corner.rows = [(1 : ℝ), 2].length + 1 ∧
    (∀ n ≤ 2, (Basis.legendre 4).MatOrderOk n ∧ n ≤ (Basis.legendre 4).dim - 2) ∧
    (∀ η, 0 ≤ η → StableLU η ((Basis.legendre 4).dim * corner.cols * 2) (shrunkLU η)) ∧ RReach corner.cols 2 (.legendre 4) newInterp ∧
    ∃ g0, interpolateFn exactLU (fun _ => 0) [1, 2] corner (.legendre 4) = .ok g0 ∧
      ∀ t ∈ Set.Icc (0 : ℝ) 3, ∀ i, Touches g0 t i → Clear (.legendre 4) (window (vecOf [1, 2] i) (t - brk g0 i)) := by
  obtain ⟨g0, hg0⟩ := corner_ok _ interpolable4
  exact ⟨interpolable4, trivial, trivial, by simp; norm_num, rfl, fun n hn => ⟨trivial, hn⟩, fun η h => shrunkLU_stable h _, newInterp_rreach, g0, hg0, fun _ _ _ _ => trivial⟩

end GSplines.Props
