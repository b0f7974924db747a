import Verif.Proofs.RoundingSpline
import Verif.Props.RoundingInterp
import Verif.Props.GSpline

/-!
# C87: derivatives and arithmetic of splines with rounding errors

`Rounded.deriv u g n r` says that `g.deriv(n)` may end with `r`, when each operation on doubles has a relative error of at most `u.1` plus an absolute error of at
most `u.2` and the sums are taken in any order. Likewise for `Rounded.add`, `Rounded.sub`, `Rounded.smul`. The result is a spline, whose coefficients have errors, or
an exception. The evaluation of that spline, again with errors, is `Rounded.value` (C70).
-/

namespace GSplines.Props

open GSplines Spec Interp Residual Finset Topology

theorem small_mono {u : ℝ × ℝ} {δ δ' : ℝ} (h : Small u δ) (hle : δ ≤ δ') : Small u δ' := ⟨h.1, h.2.1.trans hle, h.2.2.1, h.2.2.2.trans hle⟩

/-- **C87.** Whatever the rounding errors (even large ones), derivatives of all orders, sums, differences and multiples of splines with the right number of coefficients do not
access memory outside of their arrays. -/
theorem C87_in_range (u : ℝ × ℝ) (g g' : GSpline) (hcon : Consistent g) (hcon' : Consistent g') (n : ℕ) (k : ℝ) (r : Res GSpline)
    (hr : Rounded.deriv u g n r ∨ Rounded.add u g g' r ∨ Rounded.sub u g g' r ∨ Rounded.smul u k g r) : r ≠ .error .ub := by
  have hl : g.sameVectorSpace g' = true → g.coeffs.length = g'.coeffs.length := fun h => by
    obtain ⟨-, h2, h3, h4, -⟩ := C15_same_vector_space_sound g g' h
    have e1 : g.coeffs.length = g.tau.length * g.basis.dim * g.codim := hcon
    have e2 : g'.coeffs.length = g'.tau.length * g'.basis.dim * g'.codim := hcon'
    rw [e1, e2, h2, h3, h4]
  have hcp := GSpline.copy_ok hcon
  have hz : ∀ f, g.sameVectorSpace g' = true → Nd.All (Rounded.zipRes u f g.coeffs g'.coeffs) Nd.Safe := fun f h => by
    unfold Rounded.zipRes
    rw [if_pos (hl h)]
    exact Nd.safe_mapM (fun _ _ => Nd.safe_near _ _)
  rcases hr with hr | hr | hr | hr
  · exact Rounded.safe_deriv u hcon n r hr
  · unfold Rounded.add at hr
    split_ifs at hr with h
    · rw [hcp] at hr
      rcases hr with ⟨e, he, rfl⟩ | ⟨g1, hg1, hr⟩
      · cases he
      · cases hg1
        exact Nd.safe_bind (hz _ h) (fun _ => Nd.safe_pure _) r hr
    · cases hr; simp
  · unfold Rounded.sub at hr
    split_ifs at hr with h
    · rw [hcp] at hr
      rcases hr with ⟨e, he, rfl⟩ | ⟨g1, hg1, hr⟩
      · cases he
      · cases hg1
        exact Nd.safe_bind (hz _ h) (fun _ => Nd.safe_pure _) r hr
    · cases hr; simp
  · unfold Rounded.smul at hr
    rw [hcp] at hr
    rcases hr with ⟨e, he, rfl⟩ | ⟨g1, hg1, hr⟩
    · cases he
    · cases hg1
      exact Nd.safe_bind (Nd.safe_mapM (fun _ _ => Nd.safe_near _ _)) (fun _ => Nd.safe_pure _) r hr

/-- **C87.** The outcome of exact arithmetic is among the possible ones. -/
theorem C87_exact (u : ℝ × ℝ) (h1 : 0 ≤ u.1) (h2 : 0 ≤ u.2) (g g' : GSpline) (hb : g.basis.Valid) (hz : 0 ∉ g.tau) (n : ℕ) (k : ℝ) :
    Rounded.deriv u g n (g.deriv n) ∧ Rounded.add u g g' (g.add g') ∧ Rounded.sub u g g' (g.sub g') ∧ Rounded.smul u k g (GSpline.smul k g) := by
  have hzip : ∀ f, ∀ a b : List ℝ, Rounded.zipRes u f a b (zipRes f a b) := fun f a b => by
    unfold Rounded.zipRes zipRes
    split_ifs
    · exact Rounded.nears_has h1 h2 _
    · rfl
  have hbin : ∀ f, (do
      let r ← Nd.lift g.copy
      let c ← Rounded.zipRes u f r.coeffs g'.coeffs
      return { r with coeffs := c } : Nd GSpline) (do
      let r ← g.copy
      let c ← zipRes f r.coeffs g'.coeffs
      return { r with coeffs := c }) := fun f => by
    rcases e : g.copy with e' | r
    · exact .inl ⟨e', rfl, rfl⟩
    · refine .inr ⟨r, rfl, ?_⟩
      have := hzip f r.coeffs g'.coeffs
      rcases e2 : zipRes f r.coeffs g'.coeffs with e' | c
      · rw [e2] at this
        exact .inl ⟨e', this, by change (zipRes f r.coeffs g'.coeffs >>= _) = _; rw [e2]; rfl⟩
      · rw [e2] at this
        exact .inr ⟨c, this, by change (zipRes f r.coeffs g'.coeffs >>= _) = _; rw [e2]; rfl⟩
  refine ⟨Rounded.deriv_has h1 h2 hb hz n, ?_, ?_, ?_⟩
  · unfold Rounded.add GSpline.add
    split_ifs
    · exact hbin _
    · rfl
  · unfold Rounded.sub GSpline.sub
    split_ifs
    · exact hbin _
    · rfl
  · unfold Rounded.smul GSpline.smul
    rcases e : g.copy with e' | r
    · exact .inl ⟨e', rfl, rfl⟩
    · exact .inr ⟨r, rfl, .inr ⟨_, Rounded.nears_has h1 h2 _, rfl⟩⟩

/-- The derivative in exact arithmetic. -/
theorem deriv_dco {g : GSpline} (hdom : g.dom.1 ≤ g.dom.2) (hcon : Consistent g) (hz : 0 ∉ g.tau) (n : ℕ) : g.deriv n = .ok { g with coeffs := Rounded.dco g n } :=
  GSpline.deriv_ok hdom hcon hz n

theorem zero_notMem {g : GSpline} (hp : Positive g) : (0 : ℝ) ∉ g.tau := fun h => lt_irrefl _ (hp.2 _ h)

/-- What differentiation followed by evaluation gives, for coefficients that have errors too. -/
theorem deriv_value_near {g : GSpline} (hb : g.basis.Valid) (hcon : Consistent g) (hp : Positive g) (hdom : g.dom.1 ≤ g.dom.2) {n : ℕ} (hn : g.basis.MatOrderOk n) {t : ℝ}
    (hc : ∀ i, Touches g t i → Clear g.basis (window (vecOf g.tau i) (t - brk g i))) {ε : ℝ} (hε : 0 < ε) :
    ∃ κ > 0, ∃ δ > 0, ∀ u u', Small u δ → Small u' δ → ∀ (x : List ℝ) (e : ℝ), g.dom.1 ≤ e → x.length = g.coeffs.length → (∀ k < x.length, |vecOf x k - vecOf g.coeffs k| ≤ κ) →
      ∀ r, Rounded.deriv u { g with dom := (g.dom.1, e), coeffs := x } n r → ∃ d, r = .ok d ∧ d.dom = (g.dom.1, e) ∧ d.codim = g.codim ∧ d.basis = g.basis ∧ d.tau = g.tau ∧ Consistent d ∧
        ∀ r', Rounded.value u' d t r' → ∃ v i, r' = .ok v ∧ v.length = g.codim ∧ Touches g t i ∧ ∀ c < g.codim, |vecOf v c - iteratedDeriv n (curve g i c) t| ≤ ε := by
  have hz := zero_notMem hp
  have hd := deriv_dco hdom hcon hz n
  have hconD : Consistent { g with coeffs := Rounded.dco g n } := by
    unfold Consistent; simp only; rw [Rounded.dco_length]; exact hcon
  obtain ⟨κ', hκ', hv⟩ := Rounded.value_near (g := { g with coeffs := Rounded.dco g n }) hb hconD hp hc hε
  obtain ⟨κ, hκ, hdn⟩ := Rounded.deriv_near hb hcon hz n hκ'
  obtain ⟨δ1, hδ1, hv⟩ := small_of_nhds hv
  obtain ⟨δ2, hδ2, hdn⟩ := small_of_nhds hdn
  refine ⟨κ, hκ, min δ1 δ2, lt_min hδ1 hδ2, fun u u' hu hu' x e he hxl hx r hr => ?_⟩
  obtain ⟨y, rfl, hyl, hy⟩ := hdn u (small_mono hu (min_le_right _ _)) x e he hxl hx r hr
  refine ⟨_, rfl, rfl, rfl, rfl, rfl, by unfold Consistent; simp only; rw [hyl]; exact hcon, fun r' hr' => ?_⟩
  obtain ⟨v, e1, e2, i, hi, e3⟩ := hv u' (small_mono hu' (min_le_left _ _)) y e (by rw [hyl, Rounded.dco_length]) hy r' hr'
  refine ⟨v, i, e1, e2, hi, fun c hcc => ?_⟩
  rw [← GSpline.curve_deriv hb hdom hcon hz n hn hd hi.1 (vecOf_pos hp.2 hi.1).ne' hcc]
  exact e3 c hcc

/-- **C87** (derivative). If the errors are small enough, `deriv` succeeds, the result is a spline with the same domain, intervals, basis and components, and evaluating it with
rounding errors gives, in all components, a number as near as wanted to the derivative of one of the pieces whose interval touches `t`. For basis 0101 the order must be at most two
(C14). -/
theorem C87_derivative (g : GSpline) (hb : g.basis.Valid) (hcon : Consistent g) (hp : Positive g) (hdom : g.dom.1 ≤ g.dom.2) (n : ℕ) (hn : g.basis.MatOrderOk n) (t : ℝ)
    (hc : ∀ i, Touches g t i → Clear g.basis (window (vecOf g.tau i) (t - brk g i))) (ε : ℝ) (hε : 0 < ε) :
    ∃ δ > 0, ∀ u u', Small u δ → Small u' δ → ∀ r, Rounded.deriv u g n r →
      ∃ d, r = .ok d ∧ d.dom = g.dom ∧ d.codim = g.codim ∧ d.basis = g.basis ∧ d.tau = g.tau ∧ Consistent d ∧
        ∀ r', Rounded.value u' d t r' → ∃ v i, r' = .ok v ∧ v.length = g.codim ∧ Touches g t i ∧ ∀ c < g.codim, |vecOf v c - iteratedDeriv n (curve g i c) t| ≤ ε := by
  obtain ⟨κ, hκ, δ, hδ, h⟩ := deriv_value_near hb hcon hp hdom hn hc hε
  exact ⟨δ, hδ, fun u u' hu hu' r hr => h u u' hu hu' g.coeffs g.dom.2 hdom rfl (fun k _ => by rw [sub_self, abs_zero]; exact hκ.le) r hr⟩

/-- **C87** (derivative of an interpolating curve). For a basis, interval lengths, way points, a time and an order: if all errors are small enough, then interpolating, differentiating and
evaluating, each step with rounding errors and the linear system solved with a small backward error, succeeds and gives numbers as near as wanted to the derivative of a piece, touching
the time, of the interpolating curve in exact arithmetic. For orders up to `dim - 2`, in which the curve is smooth, it does not matter which piece. -/
theorem C87_interpolated (b : Basis) (hb : Interpolable b) (hcl : Clear b (-1)) (hcr : Clear b 1) (tau : List ℝ) (hne : tau ≠ []) (ht : ∀ t ∈ tau, 1 / 10 ^ 6 ≤ t) (w : Pts)
    (hw : w.rows = tau.length + 1) (lu0 : LU) (hlu0 : LUContract lu0) (junk : Vec) (g0 : GSpline) (hg0 : interpolateFn lu0 junk tau w b = .ok g0) (n : ℕ) (hn : b.MatOrderOk n) (t : ℝ)
    (hc : ∀ i, Touches g0 t i → Clear b (window (vecOf tau i) (t - brk g0 i))) (ε : ℝ) (hε : 0 < ε) :
    ∃ δ > 0, ∀ u u' u'', Small u δ → Small u' δ → Small u'' δ → ∀ η, 0 ≤ η → η ≤ δ → ∀ lu, StableLU η (b.dim * w.cols * tau.length) lu → ∀ s, RReach w.cols tau.length b s →
      ∀ r, Rounded.interpolate u lu s tau w r → ∃ s' g, r = .ok (s', g) ∧ ∀ r', Rounded.deriv u' g n r' → ∃ d, r' = .ok d ∧ d.dom = g.dom ∧ d.tau = tau ∧
        ∀ r'', Rounded.value u'' d t r'' → ∃ v, r'' = .ok v ∧ v.length = w.cols ∧
          (∃ i, Touches g0 t i ∧ ∀ c < w.cols, |vecOf v c - iteratedDeriv n (curve g0 i c) t| ≤ ε) ∧
          (n ≤ b.dim - 2 → ∀ i, Touches g0 t i → ∀ c < w.cols, |vecOf v c - iteratedDeriv n (curve g0 i c) t| ≤ ε) := by
  obtain ⟨y0, rfl, hI, hcon0⟩ := exact_coefficients hlu0 hb hne hw hg0
  have hp : Positive ⟨(0, tau.sum), w.cols, b, y0, tau⟩ := ⟨hne, fun t h => lt_of_lt_of_le (by norm_num) (ht t h)⟩
  have hlen := List.length_pos_of_ne_nil hne
  have hsum : 0 < tau.sum := List.sum_pos _ (fun t h => lt_of_lt_of_le (by norm_num) (ht t h)) hne
  have hjoin : ∀ i, i + 1 < tau.length → ∀ c < w.cols, ∀ d ≤ b.dim - 2, iteratedDeriv d (curve ⟨(0, tau.sum), w.cols, b, y0, tau⟩ i c) (brk ⟨(0, tau.sum), w.cols, b, y0, tau⟩ (i + 1)) =
      iteratedDeriv d (curve ⟨(0, tau.sum), w.cols, b, y0, tau⟩ (i + 1) c) (brk ⟨(0, tau.sum), w.cols, b, y0, tau⟩ (i + 1)) := by
    obtain ⟨s, h1, h2, -⟩ := interpolate_new hlu0 (w := w) (by omega) hb junk
    obtain ⟨s', g, f1, f2, f3, f4, f5, f6, f7⟩ := h2 tau (by omega) ht
    have : interpolateFn lu0 junk tau w b = .ok g := by
      unfold interpolateFn
      rw [if_neg (by omega), h1, Interp.ok_bind, f1]
      rfl
    rw [hg0] at this
    cases this
    exact f7.joins
  have hz := zero_notMem hp
  obtain ⟨D, hD⟩ : ∃ D : GSpline, D = ⟨(0, tau.sum), w.cols, b, Rounded.dco ⟨(0, tau.sum), w.cols, b, y0, tau⟩ n, tau⟩ := ⟨_, rfl⟩
  have hder : ∀ {i c : ℕ}, i < tau.length → c < w.cols → curve D i c = iteratedDeriv n (curve ⟨(0, tau.sum), w.cols, b, y0, tau⟩ i c) := fun hi hcc => by
    rw [hD]
    exact GSpline.curve_deriv hb.valid hsum.le hcon0 hz n hn (deriv_dco hsum.le hcon0 hz n) hi (vecOf_pos hp.2 hi).ne' hcc
  obtain ⟨κ, hκ, δ1, hδ1, h⟩ := deriv_value_near (g := ⟨(0, tau.sum), w.cols, b, y0, tau⟩) hb.valid hcon0 hp hsum.le hn hc hε
  obtain ⟨δ2, hδ2, hint⟩ := interpolate_near hb hcl hcr hne ht hw hI (lt_min hκ hsum)
  refine ⟨min δ1 δ2, lt_min hδ1 hδ2, fun u u' u'' hu hu' hu'' η hη hηδ lu hlu s hs r hr => ?_⟩
  obtain ⟨s', x, e, rfl, -, he, hxl, hx⟩ := hint u (small_mono hu (min_le_right _ _)) η hη (hηδ.trans (min_le_right _ _)) lu hlu s hs r hr
  refine ⟨s', _, rfl, fun r' hr' => ?_⟩
  have hcl0 : y0.length = b.dim * w.cols * tau.length := by
    have : y0.length = tau.length * b.dim * w.cols := hcon0
    rw [this]; ring
  have he0 : 0 ≤ e := by linarith [(abs_le.mp (he.trans (min_le_right _ _))).1]
  obtain ⟨d, rfl, d1, -, -, d4, -, d6⟩ := h u' u'' (small_mono hu' (min_le_left _ _)) (small_mono hu'' (min_le_left _ _)) x e he0 (hxl.trans hcl0.symm)
    (fun k hk => (hx k (by rw [← hxl]; exact hk)).trans (min_le_left _ _)) r' hr'
  refine ⟨d, rfl, d1, d4, fun r'' hr'' => ?_⟩
  obtain ⟨v, i, e1, e2, hi, e3⟩ := d6 r'' hr''
  refine ⟨v, e1, e2, ⟨i, hi, e3⟩, fun hnd j hj c hcc => ?_⟩
  have hpD : Positive D := by rw [hD]; exact hp
  have hDt : ∀ {k}, Touches ⟨(0, tau.sum), w.cols, b, y0, tau⟩ t k → Touches D t k := fun hk => by rw [hD]; exact hk
  have hu : Unbroken D := fun k hk c hcc => by
    have hk' : k + 1 < tau.length := by rw [hD] at hk; exact hk
    have hcc' : c < w.cols := by rw [hD] at hcc; exact hcc
    have hb1 : brk D (k + 1) = brk ⟨(0, tau.sum), w.cols, b, y0, tau⟩ (k + 1) := by rw [hD]; rfl
    rw [hder (by omega) hcc', hder hk' hcc', hb1]
    exact hjoin k hk' c hcc' n hnd
  have hcD : c < D.codim := by rw [hD]; exact hcc
  have := touches_agree hpD hu (hDt hj) (hDt hi) hcD
  rw [hder hj.1 hcc, hder hi.1 hcc] at this
  rw [this]
  exact e3 c hcc

/-! ## Sums, differences, multiples -/

/-- Evaluation of a spline whose coefficients were rounded. -/
theorem rounded_coeffs {g : GSpline} (hb : g.basis.Valid) (hcon : Consistent g) (hp : Positive g) {t : ℝ}
    (hc : ∀ i, Touches g t i → Clear g.basis (window (vecOf g.tau i) (t - brk g i))) {ε : ℝ} (hε : 0 < ε) :
    ∃ δ > 0, ∀ u u', Small u δ → Small u' δ → ∀ r, (g.coeffs.mapM (Nd.near u)) r → ∃ y, r = .ok y ∧ Consistent { g with coeffs := y } ∧
      ∀ r', Rounded.value u' { g with coeffs := y } t r' → ∃ v i, r' = .ok v ∧ v.length = g.codim ∧ Touches g t i ∧ ∀ c < g.codim, |vecOf v c - curve g i c t| ≤ ε := by
  obtain ⟨κ, hκ, hv⟩ := Rounded.value_near hb hcon hp hc hε
  obtain ⟨δ, hδ, hv⟩ := small_of_nhds hv
  obtain ⟨M, hM⟩ : ∃ M, M = ∑ k ∈ range g.coeffs.length, |vecOf g.coeffs k| := ⟨_, rfl⟩
  have hM0 : 0 ≤ M := by rw [hM]; exact sum_nonneg fun _ _ => abs_nonneg _
  refine ⟨min δ (κ / (M + 1)), lt_min hδ (by positivity), fun u u' hu hu' r hr => ?_⟩
  obtain ⟨y, rfl, hyl, hy⟩ := Rounded.nears_list hr
  refine ⟨y, rfl, by unfold Consistent; simp only; rw [hyl]; exact hcon, fun r' hr' => ?_⟩
  have hκ' : κ / (M + 1) * (M + 1) = κ := by field_simp
  have h1 := hu.2.1.trans (min_le_right _ _)
  have h2 := hu.2.2.2.trans (min_le_right _ _)
  obtain ⟨v, e1, e2, i, hi, e3⟩ := hv u' (small_mono hu' (min_le_left _ _)) y g.dom.2 hyl (fun k hk => (hy k (hyl ▸ hk)).trans (by
    have hk1 : |vecOf g.coeffs k| ≤ M := by
      rw [hM]
      exact single_le_sum (f := fun k => |vecOf g.coeffs k|) (fun _ _ => abs_nonneg _) (mem_range.mpr (hyl ▸ hk))
    have := mul_le_mul h1 hk1 (abs_nonneg _) (by positivity)
    nlinarith)) r' hr'
  exact ⟨v, i, e1, e2, hi, e3⟩

theorem curve_zipWith {a b : GSpline} (ha : Consistent a) (hb : Consistent b) (h1 : b.basis = a.basis) (h2 : b.codim = a.codim) (h3 : b.tau = a.tau) (hd : b.dom.1 = a.dom.1)
    {f : ℝ → ℝ → ℝ} {p q : ℝ} (hf : ∀ x y, f x y = p * x + q * y) {i c : ℕ} (hi : i < a.tau.length) (hc : c < a.codim) (t : ℝ) :
    curve { a with coeffs := List.zipWith f a.coeffs b.coeffs } i c t = p * curve a i c t + q * curve b i c t := by
  have hla : a.coeffs.length = a.tau.length * a.basis.dim * a.codim := ha
  have hlb : b.coeffs.length = b.tau.length * b.basis.dim * b.codim := hb
  have hbrk : brk b i = brk a i := by unfold brk; rw [hd, h3]
  have hbrk' : brk { a with coeffs := List.zipWith f a.coeffs b.coeffs } i = brk a i := rfl
  have hcb := GSpline.coef_bound ha hi hc
  unfold curve
  rw [hbrk, hbrk']
  unfold piece comb
  simp only
  rw [h1, h2, h3, mul_sum, mul_sum, ← sum_add_distrib]
  refine sum_congr rfl fun k hk => ?_
  have hk' := mem_range.mp hk
  rw [vecOf_zipWith (by omega) (by rw [hlb, h1, h2, h3, ← hla]; omega), hf]
  ring

/-- **C87** (sum and difference). For splines with the same intervals, basis, components and start: if the errors are small enough, the sum and the difference succeed, and evaluating
the result with rounding errors gives numbers as near as wanted to the sum or the difference of the two curves, on an interval that touches the time. -/
theorem C87_sum (a b : GSpline) (hv : a.basis.Valid) (ha : Consistent a) (hb : Consistent b) (hp : Positive a) (h1 : b.basis = a.basis) (h2 : b.codim = a.codim) (h3 : b.tau = a.tau)
    (hd : b.dom.1 = a.dom.1) (t : ℝ) (hc : ∀ i, Touches a t i → Clear a.basis (window (vecOf a.tau i) (t - brk a i))) (ε : ℝ) (hε : 0 < ε) :
    ∃ δ > 0, ∀ u u', Small u δ → Small u' δ →
      (∀ r, Rounded.add u a b r → ∃ g, r = .ok g ∧ g.dom = a.dom ∧ g.codim = a.codim ∧ g.basis = a.basis ∧ g.tau = a.tau ∧ Consistent g ∧
        ∀ r', Rounded.value u' g t r' → ∃ v i, r' = .ok v ∧ v.length = a.codim ∧ Touches a t i ∧ ∀ c < a.codim, |vecOf v c - (curve a i c t + curve b i c t)| ≤ ε) ∧
      ∀ r, Rounded.sub u a b r → ∃ g, r = .ok g ∧ g.dom = a.dom ∧ g.codim = a.codim ∧ g.basis = a.basis ∧ g.tau = a.tau ∧ Consistent g ∧
        ∀ r', Rounded.value u' g t r' → ∃ v i, r' = .ok v ∧ v.length = a.codim ∧ Touches a t i ∧ ∀ c < a.codim, |vecOf v c - (curve a i c t - curve b i c t)| ≤ ε := by
  have hla : a.coeffs.length = a.tau.length * a.basis.dim * a.codim := ha
  have hlb : b.coeffs.length = b.tau.length * b.basis.dim * b.codim := hb
  have hll : a.coeffs.length = b.coeffs.length := by rw [hla, hlb, h1, h2, h3]
  have hs := C15_same_vector_space_complete a b h1 h2 h3
  have hcp := GSpline.copy_ok ha
  have hcz : ∀ f, Consistent { a with coeffs := List.zipWith f a.coeffs b.coeffs } := fun f => by
    unfold Consistent; simp only; rw [List.length_zipWith, ← hll, min_self]; exact ha
  obtain ⟨δ1, hδ1, k1⟩ := rounded_coeffs (g := { a with coeffs := List.zipWith (· + ·) a.coeffs b.coeffs }) hv (hcz _) hp hc hε
  obtain ⟨δ2, hδ2, k2⟩ := rounded_coeffs (g := { a with coeffs := List.zipWith (· - ·) a.coeffs b.coeffs }) hv (hcz _) hp hc hε
  refine ⟨min δ1 δ2, lt_min hδ1 hδ2, fun u u' hu hu' => ⟨fun r hr => ?_, fun r hr => ?_⟩⟩
  · have k1 := k1 u u' (small_mono hu (min_le_left _ _)) (small_mono hu' (min_le_left _ _))
    unfold Rounded.add at hr
    rw [if_pos hs, hcp] at hr
    rcases hr with ⟨e, he, -⟩ | ⟨g1, hg1, hr⟩
    · cases he
    cases hg1
    unfold Rounded.zipRes at hr
    rw [if_pos hll] at hr
    rcases hr with ⟨e, he, -⟩ | ⟨y, hy, hr⟩
    · obtain ⟨_, hf, -⟩ := k1 _ he; cases hf
    obtain ⟨_, hf, hcy, hval⟩ := k1 _ hy
    cases hf
    refine ⟨_, hr, rfl, rfl, rfl, rfl, hcy, fun r' hr' => ?_⟩
    obtain ⟨v, i, e1, e2, hi, e3⟩ := hval r' hr'
    refine ⟨v, i, e1, e2, hi, fun c hcc => ?_⟩
    have := e3 c hcc
    rw [curve_zipWith ha hb h1 h2 h3 hd (p := 1) (q := 1) (fun x y => by ring) hi.1 hcc, one_mul, one_mul] at this
    exact this
  · have k2 := k2 u u' (small_mono hu (min_le_right _ _)) (small_mono hu' (min_le_right _ _))
    unfold Rounded.sub at hr
    rw [if_pos hs, hcp] at hr
    rcases hr with ⟨e, he, -⟩ | ⟨g1, hg1, hr⟩
    · cases he
    cases hg1
    unfold Rounded.zipRes at hr
    rw [if_pos hll] at hr
    rcases hr with ⟨e, he, -⟩ | ⟨y, hy, hr⟩
    · obtain ⟨_, hf, -⟩ := k2 _ he; cases hf
    obtain ⟨_, hf, hcy, hval⟩ := k2 _ hy
    cases hf
    refine ⟨_, hr, rfl, rfl, rfl, rfl, hcy, fun r' hr' => ?_⟩
    obtain ⟨v, i, e1, e2, hi, e3⟩ := hval r' hr'
    refine ⟨v, i, e1, e2, hi, fun c hcc => ?_⟩
    have := e3 c hcc
    rw [curve_zipWith ha hb h1 h2 h3 hd (p := 1) (q := -1) (fun x y => by ring) hi.1 hcc, one_mul, neg_one_mul, ← sub_eq_add_neg] at this
    exact this

/-- **C87** (multiple). Likewise for the multiple of a spline by a number. -/
theorem C87_multiple (k : ℝ) (g : GSpline) (hb : g.basis.Valid) (hcon : Consistent g) (hp : Positive g) (t : ℝ)
    (hc : ∀ i, Touches g t i → Clear g.basis (window (vecOf g.tau i) (t - brk g i))) (ε : ℝ) (hε : 0 < ε) :
    ∃ δ > 0, ∀ u u', Small u δ → Small u' δ → ∀ r, Rounded.smul u k g r →
      ∃ d, r = .ok d ∧ d.dom = g.dom ∧ d.codim = g.codim ∧ d.basis = g.basis ∧ d.tau = g.tau ∧ Consistent d ∧
        ∀ r', Rounded.value u' d t r' → ∃ v i, r' = .ok v ∧ v.length = g.codim ∧ Touches g t i ∧ ∀ c < g.codim, |vecOf v c - k * curve g i c t| ≤ ε := by
  have hcm : Consistent { g with coeffs := g.coeffs.map (· * k) } := by unfold Consistent; simp only; rw [List.length_map]; exact hcon
  obtain ⟨δ, hδ, h⟩ := rounded_coeffs (g := { g with coeffs := g.coeffs.map (· * k) }) hb hcm hp hc hε
  refine ⟨δ, hδ, fun u u' hu hu' r hr => ?_⟩
  have h := h u u' hu hu'
  unfold Rounded.smul at hr
  rw [GSpline.copy_ok hcon] at hr
  rcases hr with ⟨e, he, -⟩ | ⟨g1, hg1, hr⟩
  · cases he
  cases hg1
  rcases hr with ⟨e, he, -⟩ | ⟨y, hy, hr⟩
  · obtain ⟨_, hf, -⟩ := h _ he; cases hf
  obtain ⟨_, hf, hcy, hval⟩ := h _ hy
  cases hf
  refine ⟨_, hr, rfl, rfl, rfl, rfl, hcy, fun r' hr' => ?_⟩
  obtain ⟨v, i, e1, e2, hi, e3⟩ := hval r' hr'
  refine ⟨v, i, e1, e2, hi, fun c hcc => ?_⟩
  have e : curve { g with coeffs := g.coeffs.map (· * k) } i c t = k * curve g i c t := by
    have hcb := GSpline.coef_bound hcon hi.1 hcc
    have hbrk' : brk { g with coeffs := g.coeffs.map (· * k) } i = brk g i := rfl
    unfold curve
    rw [hbrk']
    unfold piece comb
    simp only
    rw [mul_sum]
    refine sum_congr rfl fun j hj => ?_
    have hj' := mem_range.mp hj
    have : ∀ m, m < g.coeffs.length → vecOf (g.coeffs.map (· * k)) m = vecOf g.coeffs m * k := fun m hm => by
      unfold vecOf
      simp [List.getD_eq_getElem?_getD, List.getElem?_eq_getElem hm]
    rw [this _ (by omega)]
    ring
  rw [← e]
  exact e3 c hcc

/-! ## The hypotheses can be met -/

/-- The hypotheses of `C87_in_range` and `C87_exact` hold with the errors of doubles, and the derivative, the sum and the multiple have results. -/
example : Consistent exSpline ∧ exSpline.basis.Valid ∧ 0 ∉ exSpline.tau ∧ (∃ d, Rounded.deriv doubles exSpline 1 (.ok d)) ∧ (∃ d, Rounded.add doubles exSpline exSpline (.ok d)) ∧
    ∃ d, Rounded.smul doubles 3 exSpline (.ok d) := by
  have h1 : 0 ≤ doubles.1 := by unfold doubles; positivity
  have h2 : 0 ≤ doubles.2 := by unfold doubles; positivity
  have hz := zero_notMem exSpline_positive
  obtain ⟨e1, e2, -, e4⟩ := C87_exact doubles h1 h2 exSpline exSpline exSpline_valid hz 1 3
  rw [deriv_dco (by norm_num [exSpline]) exSpline_consistent hz] at e1
  obtain ⟨r, hr⟩ := (C15_throws_iff .add exSpline exSpline exSpline_consistent exSpline_consistent).mpr (C15_same_vector_space_complete _ _ rfl rfl rfl)
  have hr' : exSpline.add exSpline = .ok r := hr
  rw [hr'] at e2
  rw [(C15_scalar 3 exSpline exSpline_consistent exSpline_positive.1).1] at e4
  exact ⟨exSpline_consistent, exSpline_valid, hz, ⟨_, e1⟩, ⟨_, e2⟩, ⟨_, e4⟩⟩

/-- The hypotheses of `C87_derivative`, `C87_sum` and `C87_multiple` hold with Lagrange nodes at the breakpoint, and there are outcomes with the errors of doubles. -/
example : square.basis.Valid ∧ Consistent square ∧ Positive square ∧ square.dom.1 ≤ square.dom.2 ∧ square.basis.MatOrderOk 3 ∧
    (∀ i, Touches square 1 i → Clear square.basis (window (vecOf square.tau i) (1 - brk square i))) ∧
    (∃ d, Rounded.deriv doubles square 3 (.ok d)) ∧ ∃ r, Rounded.add doubles square square r := by
  have h1 : 0 ≤ doubles.1 := by unfold doubles; positivity
  have h2 : 0 ≤ doubles.2 := by unfold doubles; positivity
  have hcon : Consistent square := by simp [Consistent, square, Basis.dim]
  have hp : Positive square := ⟨by simp [square], by simp [square]⟩
  have hdom : square.dom.1 ≤ square.dom.2 := by norm_num [square]
  obtain ⟨e1, e2, -, -⟩ := C87_exact doubles h1 h2 square square square_valid (zero_notMem hp) 3 3
  rw [deriv_dco hdom hcon (zero_notMem hp)] at e1
  refine ⟨square_valid, hcon, hp, hdom, trivial, fun i hi => ?_, ⟨_, e1⟩, ⟨_, e2⟩⟩
  have hlt := hi.1
  simp only [square, List.length_cons, List.length_nil] at hlt
  simp only [square, brk, Clear]
  interval_cases i <;> norm_num [window, vecOf, abs_of_pos, abs_of_neg]

/-- The hypotheses of `C87_interpolated` hold, for a solver with a backward error that is not zero, and the steps have outcomes. -/
example : Interpolable (.legendre 4) ∧ Clear (.legendre 4) (-1) ∧ Clear (.legendre 4) 1 ∧ (∀ t ∈ [(1 : ℝ), 2], 1 / 10 ^ 6 ≤ t) ∧ corner.rows = [(1 : ℝ), 2].length + 1 ∧
    (Basis.legendre 4).MatOrderOk 2 ∧ 2 ≤ (Basis.legendre 4).dim - 2 ∧ (∃ g0, interpolateFn exactLU (fun _ => 0) [1, 2] corner (.legendre 4) = .ok g0) ∧
    ∀ u : ℝ × ℝ, 0 ≤ u.1 → 0 ≤ u.2 → ∃ s g, Rounded.interpolate u (offLU 1) newInterp [1, 2] corner (.ok (s, g)) ∧ ∃ r, Rounded.deriv u g 2 r := by
  refine ⟨interpolable4, trivial, trivial, by simp; norm_num, rfl, trivial, by simp [Basis.dim], corner_ok _ interpolable4, fun u h1 h2 => ?_⟩
  obtain ⟨s, x, h, -, hl, hb, hn, hc, -, -⟩ := off_solve 1
  have hg : newInterp.interpolate (offLU 1) [1, 2] corner = .ok (s, ⟨(0, ([1, 2] : List ℝ).sum), s.codim, s.basis, x, [1, 2]⟩) := by
    unfold Interp.interpolate
    rw [h, ok_bind]
    dsimp only
    rw [GSpline.make_ok (by norm_num) (by rw [hl]; unfold Interp.size; ring), ok_bind]
    rfl
  have hr := C85_exact u h1 h2 (offLU 1) 2 2 (by norm_num) _ interpolable4 _ newInterp_rreach [1, 2] corner
  rw [hg] at hr
  exact ⟨s, _, hr, _, (C87_exact u h1 h2 _ exSpline (by simp only; rw [hb]; exact interpolable4.valid) (by simp) 2 1).1⟩

end GSplines.Props
