import Verif.Proofs.RatePerturb
import Verif.Proofs.RateScaling
import Verif.Props.RateInterp

/-!
# C103: the values of a spline change in proportion to the errors of its data

`NearSpline ε r g` (Verif/Spec/Perturb.lean) says that `r` is `g` with interval lengths, coefficients and parameter changed by at most `ε`.
-/

namespace GSplines.Props

open GSplines.Spec GSplines.Nd

/-- The rates of all pieces that touch a point, with common constants. -/
theorem dataPieces_rate {g : GSpline} (hb : g.basis.Valid) (hpos : ∀ a, g.basis = .b0101 a → 0 < a) (hp : Positive g) {t₀ : ℝ}
    (hc : ∀ i, Touches g t₀ i → Clear g.basis (window (vecOf g.tau i) (t₀ - brk g i))) :
    ∃ C ≥ (0 : ℝ), ∃ δ > (0 : ℝ), ∀ i, Touches g t₀ i → ∀ u, Small u δ → ∀ q ρ, 0 ≤ ρ → ρ ≤ δ → close ρ q (Rounded.dataOf g t₀) →
      ∀ o, Rounded.pieceV u g.dom.1 g.basis g.codim i q o →
      (∃ v, o = .ok v ∧ close (C * (sz u + ρ)) v ((List.range g.codim).map fun c => curve g i c t₀)) ∧
      ∀ q' ε v e, 0 ≤ ε → close ε q q' → close δ q' (Rounded.dataOf g t₀) → o = .ok v → Rounded.pieceV 0 g.dom.1 g.basis g.codim i q' (.ok e) → close (C * (sz u + ε)) v e := by
  have H : ∀ i, ∃ C ≥ (0 : ℝ), ∃ δ > (0 : ℝ), Touches g t₀ i → ∀ u, Small u δ → ∀ q ρ, 0 ≤ ρ → ρ ≤ δ → close ρ q (Rounded.dataOf g t₀) →
      ∀ o, Rounded.pieceV u g.dom.1 g.basis g.codim i q o →
      (∃ v, o = .ok v ∧ close (C * (sz u + ρ)) v ((List.range g.codim).map fun c => curve g i c t₀)) ∧
      ∀ q' ε v e, 0 ≤ ε → close ε q q' → close δ q' (Rounded.dataOf g t₀) → o = .ok v → Rounded.pieceV 0 g.dom.1 g.basis g.codim i q' (.ok e) → close (C * (sz u + ε)) v e := by
    intro i
    by_cases ht : Touches g t₀ i
    swap
    · exact ⟨0, le_rfl, 1, one_pos, fun h => absurd h ht⟩
    obtain ⟨C, hC, δ, hδ, h⟩ := Rounded.pieceV_rate hb hpos hp ht.1 (hc i ht)
    refine ⟨C, hC, δ, hδ, fun _ u hu q ρ hρ hρδ hq o ho => ⟨(h u hu q o ho).1 _ hρ hρδ hq, fun q' ε v e hε hqq hq' hv he => ?_⟩⟩
    have := (h u hu q o ho).2 0 q' v e ⟨le_rfl, hδ.le, le_rfl, hδ.le⟩ (Gauge.mono' hρδ hq) hq' ε hε hqq hv he
    simpa [sz] using this
  choose C hC δ hδ H using H
  obtain ⟨d, hd, hdm⟩ := min_pos hδ g.tau.length
  have hsum : ∀ i < g.tau.length, C i ≤ ∑ k ∈ Finset.range g.tau.length, C k := fun i hi =>
    Finset.single_le_sum (f := C) (fun k _ => hC k) (Finset.mem_range.mpr hi)
  refine ⟨∑ k ∈ Finset.range g.tau.length, C k, Finset.sum_nonneg fun k _ => hC k, d, hd, fun i ht u hu q ρ hρ hρδ hq o ho => ?_⟩
  obtain ⟨⟨v, h1, h2⟩, h3⟩ := H i ht u (small_mono (hdm i ht.1) hu) q ρ hρ (hρδ.trans (hdm i ht.1)) hq o ho
  refine ⟨⟨v, h1, Gauge.mono' (mul_le_mul_of_nonneg_right (hsum i ht.1) (add_nonneg (sz_nonneg hu) hρ)) h2⟩, fun q' ε v e hε hqq hq' hv he => ?_⟩
  exact Gauge.mono' (mul_le_mul_of_nonneg_right (hsum i ht.1) (add_nonneg (sz_nonneg hu) hε)) (h3 q' ε v e hε hqq (Gauge.mono' (hdm i ht.1) hq') hv he)

theorem nearSpline_refl {ε : ℝ} (hε : 0 ≤ ε) (g : GSpline) : NearSpline ε g g :=
  ⟨rfl, rfl, rfl, fun i _ => by simpa using hε, rfl, fun i _ => by simpa using hε, .inl rfl⟩

/-- The statement of `C103_near` near one point. -/
theorem near_local {g : GSpline} (hb : g.basis.Valid) (hpos : ∀ a, g.basis = .b0101 a → 0 < a) (hcon : Consistent g) (hp : Positive g) (hj : Unbroken g) {t₀ : ℝ}
    (hc : ∀ i, Touches g t₀ i → Clear g.basis (window (vecOf g.tau i) (t₀ - brk g i))) :
    ∃ C ≥ (0 : ℝ), ∃ δ > (0 : ℝ), ∀ t, |t - t₀| ≤ δ → ∀ u, Small u δ → ∀ ε, 0 ≤ ε → ε ≤ δ → ∀ r, NearSpline ε r g → ∀ t', |t' - t| ≤ ε → ∀ o, Rounded.value u r t' o →
      ∃ v e, o = .ok v ∧ g.value t = .ok e ∧ v.length = g.codim ∧ e.length = g.codim ∧ close (C * (sz u + ε)) v e := by
  obtain ⟨C, hC, δ, hδ, h⟩ := dataPieces_rate hb hpos hp hc
  obtain ⟨η, hη, hI⟩ := EvG.of_ev (F := fun u t => Rounded.getInterval u g t) (P := fun r => ∃ i, r = .ok i ∧ Touches g t₀ i) (Rounded.getInterval_at hp t₀)
  obtain ⟨D, hD, κ, hκ, hG⟩ := Rounded.getInterval_rate hp
  set m := min 1 (min δ (min η κ)) / 3 with hmdef
  have hm : 0 < m := div_pos (lt_min one_pos (lt_min hδ (lt_min hη hκ))) (by norm_num)
  have l0 : 3 * m ≤ 1 := by
    have := min_le_left 1 (min δ (min η κ)); rw [hmdef]; linarith
  have l1 : 3 * m ≤ δ := by
    have := (min_le_right 1 (min δ (min η κ))).trans (min_le_left _ _); rw [hmdef]; linarith
  have l2 : 3 * m ≤ η := by
    have := (min_le_right 1 (min δ (min η κ))).trans ((min_le_right _ _).trans (min_le_left _ _)); rw [hmdef]; linarith
  have l3 : 3 * m ≤ κ := by
    have := (min_le_right 1 (min δ (min η κ))).trans ((min_le_right _ _).trans (min_le_right _ _)); rw [hmdef]; linarith
  refine ⟨2 * C + 2 * C * (2 * D + 1), by positivity, m, hm, fun t htt u hu ε hε hεm r hr t' ht' o ho => ?_⟩
  have hs := sz_nonneg hu
  have hS : 0 ≤ sz u + ε := by linarith
  have h0 : Small (0 : ℝ × ℝ) m := ⟨le_rfl, hm.le, le_rfl, hm.le⟩
  have hex := Rounded.value_has (u := 0) le_rfl le_rfl hb hcon hp.1 hp.not_mem t
  -- the interval of a run
  have split : ∀ u, Small u m → ∀ ε, 0 ≤ ε → ε ≤ m → ∀ r, NearSpline ε r g → ∀ t', |t' - t| ≤ ε → ∀ o, Rounded.value u r t' o → ∃ i, Touches g t₀ i ∧
      (brk g i ≤ t + (2 * D + 1) * (sz u + ε) ∨ i = 0) ∧ (t ≤ brk g (i + 1) + (2 * D + 1) * (sz u + ε) ∨ i + 1 = g.tau.length) ∧
      Rounded.pieceV u g.dom.1 g.basis g.codim i (Rounded.dataOf r t') o := by
    intro u hu ε hε hεm r hr t' ht' o ho
    have hs := sz_nonneg hu
    have hu' : ∀ d, 3 * m ≤ d → Small (u.1, u.2 + 2 * ε) d := fun d hd =>
      ⟨hu.1, by linarith [hu.2.1], by have := hu.2.2.1; dsimp only; linarith, by have := hu.2.2.2; dsimp only; linarith⟩
    have hz : sz (u.1, u.2 + 2 * ε) = sz u + 2 * ε := by unfold sz; ring
    have htt' : |t' - t₀| ≤ 2 * m := by
      have := abs_sub_le t' t t₀
      linarith
    have hI' := hI _ (hu' η l2) t' (htt'.trans (by linarith))
    rw [Rounded.value_eq] at ho
    have hu1 : Small u 1 := small_mono (by linarith) hu
    rcases ho with ⟨e, he, -⟩ | ⟨i, hi, ho⟩
    · obtain ⟨_, h, _⟩ := hI' _ (Rounded.getInterval_near hu1 hε hr t' he); cases h
    have hi := Rounded.getInterval_near hu1 hε hr t' hi
    obtain ⟨_, h', ht⟩ := hI' _ hi
    cases h'
    obtain ⟨_, h', -, hg1, hg2⟩ := hG _ (hu' κ l3) t' _ hi
    cases h'
    rw [hz] at hg1 hg2
    rw [Rounded.pieceValue_eq hε hr hcon ht.1] at ho
    obtain ⟨q1, q2⟩ := abs_le.mp ht'
    have hb : D * (sz u + 2 * ε) + ε ≤ (2 * D + 1) * (sz u + ε) := by
      have : 0 ≤ D * sz u := mul_nonneg hD hs
      nlinarith
    exact ⟨i, ht, hg1.imp_left (fun h => by linarith), hg2.imp_left (fun h => by linarith), ho⟩
  obtain ⟨i, hti, gi1, gi2, hri⟩ := split u hu ε hε hεm r hr t' ht' o ho
  obtain ⟨k, htk, gk1, gk2, hrk⟩ := split 0 h0 0 le_rfl hm.le g (nearSpline_refl le_rfl g) t (by simp) _ hex
  have e0 : sz (0 : ℝ × ℝ) = 0 := by simp [sz]
  rw [e0, add_zero, mul_zero, add_zero] at gk1 gk2
  have c1 : close ε (Rounded.dataOf r t') (Rounded.dataOf g t) := Rounded.near_data hε hr ht'
  have c2 : close |t - t₀| (Rounded.dataOf g t) (Rounded.dataOf g t₀) := Rounded.near_data (abs_nonneg _) (nearSpline_refl (abs_nonneg _) g) le_rfl
  have c3 := Gauge.trans' c1 c2
  obtain ⟨⟨v, rfl, hv⟩, hv'⟩ := h i hti u (small_mono (by linarith) hu) _ _ (by positivity) (by linarith) c3 o hri
  obtain ⟨⟨e, he, hve⟩, -⟩ := h k htk 0 (small_mono (by linarith) h0) _ _ (abs_nonneg _) (by linarith) c2 _ hrk
  have hlen : ∀ {c : ℝ} {w : List ℝ} {f : ℕ → ℝ}, close c w ((List.range g.codim).map f) → w.length = g.codim := fun {c w f} hw => by
    have := List.Forall₂.length_eq (R := close c) hw
    rwa [List.length_map, List.length_range] at this
  refine ⟨v, e, rfl, he, hlen hv, hlen hve, ?_⟩
  by_cases hik : i = k
  · subst hik
    rw [he] at hrk
    refine Gauge.mono' ?_ (hv' _ ε v e hε c1 (Gauge.mono' (by linarith) c2) rfl hrk)
    have : 0 ≤ (C + 2 * C * (2 * D + 1)) * (sz u + ε) := by positivity
    linarith
  · have hrow : ((List.range g.codim).map fun c => curve g i c t₀) = (List.range g.codim).map fun c => curve g k c t₀ :=
      List.map_congr_left fun c hcm => touches_agree hp hj hti htk (List.mem_range.mp hcm)
    have key : ∀ i k, i < k → Touches g t₀ i → Touches g t₀ k → k = i + 1 ∧ t₀ = brk g k := by
      intro i k hik hi hk
      have h1 : t₀ ≤ brk g (i + 1) := hi.2.2.resolve_right (by have := hk.1; omega)
      have h2 : brk g k ≤ t₀ := hk.2.1.resolve_right (by omega)
      have h3 : k = i + 1 := by
        by_contra h
        have a := GSpline.brk_lt_succ hp (i := i + 1) (by have := hk.1; omega)
        have b := GSpline.brk_mono hp (i := i + 1 + 1) (j := k) (by omega) (by have := hk.1; omega)
        linarith
      subst h3
      exact ⟨rfl, le_antisymm h1 h2⟩
    have hDs : 0 ≤ (2 * D + 1) * (sz u + ε) := by positivity
    have hdist : |t - t₀| ≤ (2 * D + 1) * (sz u + ε) := by
      rw [abs_le]
      rcases lt_or_gt_of_ne hik with h1 | h1
      · obtain ⟨rfl, e1⟩ := key i k h1 hti htk
        have a1 := gi2.resolve_right (by have := htk.1; omega)
        have a2 := gk1.resolve_right (by omega)
        rw [e1]
        constructor <;> linarith
      · obtain ⟨rfl, e1⟩ := key k i h1 htk hti
        have a1 := gk2.resolve_right (by have := hti.1; omega)
        have a2 := gi1.resolve_right (by omega)
        rw [e1]
        constructor <;> linarith
    rw [hrow] at hv
    refine Gauge.mono' ?_ (Gauge.trans' hv (Gauge.symm' hve))
    rw [e0]
    have := mul_le_mul_of_nonneg_left hdist hC
    have h2 : 0 ≤ C * (sz u + ε) := by positivity
    nlinarith

/-- **C103.** On a compact set of times (at which rounding does not decide whether a Lagrange node is hit) there are one constant and one bound: when the interval lengths, the
coefficients, the parameter and the time are off by at most `ε` and the operations are rounded, every component of every possible result is off the value of the intended spline
at the intended time by at most the constant times the sum of the errors. -/
theorem C103_near (g : GSpline) (hb : g.basis.Valid) (hpos : ∀ a, g.basis = .b0101 a → 0 < a) (hcon : Consistent g) (hp : Positive g) (hj : Unbroken g) (K : Set ℝ) (hK : IsCompact K)
    (hc : ∀ t ∈ K, ∀ i, Touches g t i → Clear g.basis (window (vecOf g.tau i) (t - brk g i))) :
    ∃ C δ : ℝ, 0 ≤ C ∧ 0 < δ ∧ ∀ t ∈ K, ∀ u, Small u δ → ∀ ε, 0 ≤ ε → ε ≤ δ → ∀ r, NearSpline ε r g → ∀ t', |t' - t| ≤ ε → ∀ o, Rounded.value u r t' o →
      ∃ v e, o = .ok v ∧ g.value t = .ok e ∧ v.length = g.codim ∧ e.length = g.codim ∧ ∀ c < g.codim, |vecOf v c - vecOf e c| ≤ C * (u.1 + u.2 + ε) := by
  have H : ∃ C ≥ (0 : ℝ), ∃ δ > (0 : ℝ), ∀ t ∈ K, ∀ u, Small u δ → ∀ ε, 0 ≤ ε → ε ≤ δ → ∀ r, NearSpline ε r g → ∀ t', |t' - t| ≤ ε → ∀ o, Rounded.value u r t' o →
      ∃ v e, o = .ok v ∧ g.value t = .ok e ∧ v.length = g.codim ∧ e.length = g.codim ∧ close (C * (sz u + ε)) v e := by
    refine hK.induction_on (p := fun S => ∃ C ≥ (0 : ℝ), ∃ δ > (0 : ℝ), ∀ t ∈ S, ∀ u, Small u δ → ∀ ε, 0 ≤ ε → ε ≤ δ → ∀ r, NearSpline ε r g → ∀ t', |t' - t| ≤ ε → ∀ o, Rounded.value u r t' o →
      ∃ v e, o = .ok v ∧ g.value t = .ok e ∧ v.length = g.codim ∧ e.length = g.codim ∧ close (C * (sz u + ε)) v e) ?_ ?_ ?_ ?_
    · exact ⟨0, le_rfl, 1, one_pos, fun t ht => absurd ht (Set.notMem_empty t)⟩
    · rintro S T hST ⟨C, hC, δ, hδ, h⟩
      exact ⟨C, hC, δ, hδ, fun t ht => h t (hST ht)⟩
    · rintro S T ⟨C, hC, δ, hδ, h⟩ ⟨D, hD, η, hη, h'⟩
      refine ⟨max C D, le_max_of_le_left hC, min δ η, lt_min hδ hη, fun t ht u hu ε hε hεm r hr t' ht' o ho => ?_⟩
      have hS : 0 ≤ sz u + ε := add_nonneg (sz_nonneg hu) hε
      rcases ht with ht | ht
      · obtain ⟨v, e, a1, a2, a3, a4, a5⟩ := h t ht u (small_mono (min_le_left _ _) hu) ε hε (hεm.trans (min_le_left _ _)) r hr t' ht' o ho
        exact ⟨v, e, a1, a2, a3, a4, Gauge.mono' (mul_le_mul_of_nonneg_right (le_max_left _ _) hS) a5⟩
      · obtain ⟨v, e, a1, a2, a3, a4, a5⟩ := h' t ht u (small_mono (min_le_right _ _) hu) ε hε (hεm.trans (min_le_right _ _)) r hr t' ht' o ho
        exact ⟨v, e, a1, a2, a3, a4, Gauge.mono' (mul_le_mul_of_nonneg_right (le_max_right _ _) hS) a5⟩
    · intro t₀ ht₀
      obtain ⟨C, hC, δ, hδ, h⟩ := near_local hb hpos hcon hp hj (hc t₀ ht₀)
      refine ⟨Metric.closedBall t₀ δ, mem_nhdsWithin_of_mem_nhds (Metric.closedBall_mem_nhds t₀ hδ), C, hC, δ, hδ, fun t ht => h t ?_⟩
      rwa [Metric.mem_closedBall, Real.dist_eq] at ht
  obtain ⟨C, hC, δ, hδ, h⟩ := H
  refine ⟨C, δ, hC, hδ, fun t ht u hu ε hε hεm r hr t' ht' o ho => ?_⟩
  obtain ⟨v, e, a1, a2, a3, a4, a5⟩ := h t ht u hu ε hε hεm r hr t' ht' o ho
  exact ⟨v, e, a1, a2, a3, a4, fun c hcc => close_row a5 (by omega)⟩

theorem scaled_positive {g : GSpline} (hp : Positive g) {f : ℝ} (hf : 0 < f) (e : ℝ) : Positive (g.scaled f e) :=
  ⟨by simpa [GSpline.scaled] using hp.1, fun x hx => by
    obtain ⟨y, hy, rfl⟩ := List.mem_map.mp hx
    exact mul_pos (hp.2 y hy) hf⟩

theorem scaled_unbroken {g : GSpline} (hb : GSpline.ParamOk g.basis) (hj : Unbroken g) {f : ℝ} (hf : 0 < f) (e : ℝ) : Unbroken (g.scaled f e) := by
  intro i hi c hc
  have hi' : i + 1 < g.tau.length := by simpa [GSpline.scaled] using hi
  have e1 : g.dom.1 - f⁻¹ * g.dom.1 + f⁻¹ * (g.dom.1 + f * (brk g (i + 1) - g.dom.1)) = brk g (i + 1) := by
    field_simp
    ring
  rw [GSpline.brk_scaled, GSpline.curve_scaled hb hf e (by omega), GSpline.curve_scaled hb hf e hi']
  dsimp only
  rw [e1]
  exact hj i hi' c hc

theorem scaled_touches {g : GSpline} {f : ℝ} (hf : 0 < f) (e t : ℝ) {i : ℕ} (h : Touches (g.scaled f e) (g.dom.1 + f * (t - g.dom.1)) i) : Touches g t i := by
  obtain ⟨h1, h2, h3⟩ := h
  rw [GSpline.brk_scaled] at h2 h3
  have hl : (g.scaled f e).tau.length = g.tau.length := by simp [GSpline.scaled]
  rw [hl] at h1 h3
  refine ⟨h1, h2.imp_left fun h => ?_, h3.imp_left fun h => ?_⟩
  · have : f * (brk g i - g.dom.1) ≤ f * (t - g.dom.1) := by linarith
    have := le_of_mul_le_mul_left this hf
    linarith
  · have : f * (t - g.dom.1) ≤ f * (brk g (i + 1) - g.dom.1) := by linarith
    have := le_of_mul_le_mul_left this hf
    linarith

theorem scaled_clear {g : GSpline} {f : ℝ} (hf : 0 < f) (e t : ℝ) {i : ℕ} (hi : i < g.tau.length) (h : Clear g.basis (window (vecOf g.tau i) (t - brk g i))) :
    Clear (g.scaled f e).basis (window (vecOf (g.scaled f e).tau i) (g.dom.1 + f * (t - g.dom.1) - brk (g.scaled f e) i)) := by
  have hw : window (vecOf (g.scaled f e).tau i) (g.dom.1 + f * (t - g.dom.1) - brk (g.scaled f e) i) = window (vecOf g.tau i) (t - brk g i) := by
    rw [GSpline.brk_scaled]
    simp only [GSpline.scaled]
    rw [vecOf_map hi]
    unfold window
    rw [show 2 * (g.dom.1 + f * (t - g.dom.1) - (g.dom.1 + f * (brk g i - g.dom.1))) = 2 * (t - brk g i) * f by ring, mul_div_mul_right _ _ hf.ne']
  rw [hw]
  unfold GSpline.scaled
  cases hg : g.basis with
  | b0101 a => trivial
  | legendre d => trivial
  | lagrange x => rw [hg] at h; exact h

theorem scaledAlpha_pos {a f : ℝ} (h0 : 0 < a) (h1 : a < 1) (hf : 0 < f) : 0 < GSpline.scaledAlpha a f := by
  have : 0 < 1 - a := by linarith
  have h2 : 0 < a ^ (1 / 4 : ℝ) := Real.rpow_pos_of_pos h0 _
  have h3 : 0 < (1 - a) ^ (1 / 4 : ℝ) := Real.rpow_pos_of_pos this _
  unfold GSpline.scaledAlpha
  positivity

/-- **C103** (scaling in time). Scale to the execution time `T` a spline whose data are off by at most `ε`, with rounded operations, and evaluate the result, with rounded operations,
at a time off by at most `ε`: the scaled spline exists, starts where the spline starts, ends after `T` up to an error that is proportional to the errors, and every component of
every possible value is off the value of the intended spline at the corresponding time by at most a constant times the sum of the errors. -/
theorem C103_scaled (g : GSpline) (hb : g.basis.Valid) (hpos : ∀ a, g.basis = .b0101 a → 0 < a) (hcon : Consistent g) (hp : Positive g) (hj : Unbroken g) (hlen : 0 < g.domainLength)
    (T : ℝ) (hT : 1 / 10 ^ 8 ≤ T) (K : Set ℝ) (hK : IsCompact K) (hc : ∀ t ∈ K, ∀ i, Touches g t i → Clear g.basis (window (vecOf g.tau i) (t - brk g i))) :
    ∃ C δ : ℝ, 0 ≤ C ∧ 0 < δ ∧ ∀ u u', Small u δ → Small u' δ → ∀ ε, 0 ≤ ε → ε ≤ δ → ∀ r, NearSpline ε r g → |r.dom.2 - g.dom.2| ≤ ε → ∀ o, Rounded.linearScaling u r T o →
      ∃ s, o = .ok s ∧ s.dom.1 = g.dom.1 ∧ |s.dom.2 - (g.dom.1 + T)| ≤ C * (u.1 + u.2 + ε) ∧ s.codim = g.codim ∧ s.coeffs = r.coeffs ∧ s.tau.length = g.tau.length ∧
        ∀ t ∈ K, ∀ t', |t' - (g.dom.1 + T / g.domainLength * (t - g.dom.1))| ≤ ε → ∀ o', Rounded.value u' s t' o' →
          ∃ v e, o' = .ok v ∧ g.value t = .ok e ∧ v.length = g.codim ∧ e.length = g.codim ∧ ∀ c < g.codim, |vecOf v c - vecOf e c| ≤ C * (u.1 + u.2 + u'.1 + u'.2 + ε) := by
  have hT0 : 0 < T := lt_of_lt_of_le (by norm_num) hT
  have hf : 0 < T / g.domainLength := div_pos hT0 hlen
  have hpo := GSpline.paramOk_of_valid hb
  obtain ⟨D, hD, δ2, hδ2, hS⟩ := Rounded.linearScaling_near hb hpos hcon hlen hT
  obtain ⟨C, δ1, hC, hδ1, hV⟩ := C103_near (g.scaled (T / g.domainLength) (g.dom.1 + T)) (GSpline.scaledBasis_valid hb _) (fun a ha => by
      cases hg : g.basis with
      | b0101 a0 =>
        simp only [GSpline.scaled, hg, GSpline.scaledBasis, Basis.b0101.injEq] at ha
        rw [← ha]
        rw [hg] at hb
        exact scaledAlpha_pos (hpos a0 hg) hb.2 hf
      | legendre d => simp [GSpline.scaled, hg, GSpline.scaledBasis] at ha
      | lagrange x => simp [GSpline.scaled, hg, GSpline.scaledBasis] at ha)
    (GSpline.consistent_scaled hcon _ _) (scaled_positive hp hf _) (scaled_unbroken hpo hj hf _) ((fun t => g.dom.1 + T / g.domainLength * (t - g.dom.1)) '' K)
    (hK.image (by fun_prop)) (by
      rintro _ ⟨t, ht, rfl⟩ i hi
      have hi' := scaled_touches hf _ t hi
      exact scaled_clear hf _ t hi'.1 (hc t ht i hi'))
  have hm : 0 < min (min δ1 δ2) (δ1 / (3 * (D + 1))) := lt_min (lt_min hδ1 hδ2) (by positivity)
  have l1 : min (min δ1 δ2) (δ1 / (3 * (D + 1))) ≤ δ1 := (min_le_left _ _).trans (min_le_left _ _)
  have l2 : min (min δ1 δ2) (δ1 / (3 * (D + 1))) ≤ δ2 := (min_le_left _ _).trans (min_le_right _ _)
  refine ⟨C * (D + 2) + D, _, by positivity, hm, fun u u' hu hu' ε hε hεm r hr hr2 o ho => ?_⟩
  have hsz := sz_nonneg hu
  have hsz' := sz_nonneg hu'
  obtain ⟨s, rfl, hns, hend, hsc⟩ := hS u (small_mono l2 hu) ε hε (hεm.trans l2) r hr hr2 o ho
  have hκ : (D + 1) * (sz u + ε) ≤ δ1 := by
    have h1 : (3 * (D + 1)) * min (min δ1 δ2) (δ1 / (3 * (D + 1))) ≤ (3 * (D + 1)) * (δ1 / (3 * (D + 1))) := mul_le_mul_of_nonneg_left (min_le_right _ _) (by positivity)
    rw [mul_div_cancel₀ _ (by positivity : 3 * (D + 1) ≠ 0)] at h1
    have h2 : (D + 1) * (sz u + ε) ≤ (D + 1) * (3 * min (min δ1 δ2) (δ1 / (3 * (D + 1)))) := mul_le_mul_of_nonneg_left (by linarith [sz_le hu]) (by positivity)
    linarith
  have hDS : 0 ≤ D * (sz u + ε) := by positivity
  refine ⟨s, rfl, hns.start, hend.trans ?_, hns.codim, hsc, by rw [hns.intervals]; simp [GSpline.scaled], fun t ht t' ht' o' ho' => ?_⟩
  · have : 0 ≤ C * (D + 2) * (sz u + ε) := by positivity
    change _ ≤ (C * (D + 2) + D) * (sz u + ε)
    linarith
  have hns' : NearSpline ((D + 1) * (sz u + ε)) s (g.scaled (T / g.domainLength) (g.dom.1 + T)) :=
    ⟨hns.start, hns.codim, hns.intervals, fun i hi => (hns.tau i hi).trans (by linarith), hns.size, fun k hk => (hns.coeffs k hk).trans (by linarith),
      hns.basis.imp_right fun ⟨a, a', h1, h2, h3⟩ => ⟨a, a', h1, h2, h3.trans (by linarith)⟩⟩
  obtain ⟨v, e, e1, e2, e3, e4, e5⟩ := hV _ ⟨t, ht, rfl⟩ u' (small_mono l1 hu') _ (by positivity) hκ s hns' t' (ht'.trans (by linarith)) o' ho'
  rw [GSpline.value_scaled hpo hcon hp.1 hf] at e2
  refine ⟨v, e, e1, e2, e3, e4, fun c hcc => (e5 c hcc).trans ?_⟩
  have a1 : 0 ≤ C * sz u := by positivity
  have a2 : 0 ≤ C * ε := by positivity
  have a3 : 0 ≤ C * (D + 1) * sz u' := by positivity
  have a4 : 0 ≤ D * (sz u + sz u' + ε) := by positivity
  change C * (sz u' + (D + 1) * (sz u + ε)) ≤ (C * (D + 2) + D) * (u.1 + u.2 + u'.1 + u'.2 + ε)
  rw [show u.1 + u.2 + u'.1 + u'.2 + ε = sz u + sz u' + ε by unfold sz; ring]
  nlinarith

/-- **C103** (interpolation, then scaling, then evaluation), every step with rounded operations and a backward stable solver: the scaled curve passes the corresponding times within a
constant times the sum of the errors of the curve that interpolates exactly. -/
theorem C103_interpolated (b : Basis) (hb : Interpolable b) (hpos : ∀ a, b = .b0101 a → 0 < a) (hcl : Clear b (-1)) (hcr : Clear b 1) (tau : List ℝ) (hne : tau ≠ [])
    (ht : ∀ t ∈ tau, 1 / 10 ^ 6 ≤ t) (w : Pts) (hw : w.rows = tau.length + 1) (lu0 : LU) (hlu0 : LUContract lu0) (junk : Vec) (g0 : GSpline)
    (hg0 : interpolateFn lu0 junk tau w b = .ok g0) (T : ℝ) (hT : 1 / 10 ^ 8 ≤ T) (K : Set ℝ) (hK : IsCompact K)
    (hc : ∀ t ∈ K, ∀ i, Touches g0 t i → Clear b (window (vecOf tau i) (t - brk g0 i))) :
    ∃ C δ : ℝ, 0 ≤ C ∧ 0 < δ ∧ ∀ u u' u'', Small u δ → Small u' δ → Small u'' δ → ∀ η, 0 ≤ η → η ≤ δ → ∀ lu, StableLU η (b.dim * w.cols * tau.length) lu →
      ∀ s, RReach w.cols tau.length b s → ∀ r, Rounded.interpolate u lu s tau w r → ∃ s' g, r = .ok (s', g) ∧ ∀ o, Rounded.linearScaling u' g T o →
        ∃ d, o = .ok d ∧ d.dom.1 = 0 ∧ |d.dom.2 - T| ≤ C * (u.1 + u.2 + u'.1 + u'.2 + η) ∧ ∀ t ∈ K, ∀ o', Rounded.value u'' d (T / tau.sum * t) o' →
          ∃ v e, o' = .ok v ∧ g0.value t = .ok e ∧ v.length = w.cols ∧ e.length = w.cols ∧
            ∀ c < w.cols, |vecOf v c - vecOf e c| ≤ C * (u.1 + u.2 + u'.1 + u'.2 + u''.1 + u''.2 + η) := by
  obtain ⟨y0, rfl, hI, hcon0⟩ := exact_coefficients hlu0 hb hne hw hg0
  have hp : Positive ⟨(0, tau.sum), w.cols, b, y0, tau⟩ := ⟨hne, fun t h => lt_of_lt_of_le (by norm_num) (ht t h)⟩
  have hsum : 0 < tau.sum := List.sum_pos _ (fun t h => lt_of_lt_of_le (by norm_num) (ht t h)) hne
  have hlen := List.length_pos_of_ne_nil hne
  have hj : Unbroken ⟨(0, tau.sum), w.cols, b, y0, tau⟩ := by
    obtain ⟨s, h1, h2, -⟩ := interpolate_new hlu0 (w := w) (by omega) hb junk
    obtain ⟨s', g, f1, f2, f3, f4, f5, f6, f7⟩ := h2 tau (by omega) ht
    have : interpolateFn lu0 junk tau w b = .ok g := by
      unfold interpolateFn
      rw [if_neg (by omega), h1, Interp.ok_bind, f1]
      rfl
    rw [hg0] at this
    cases this
    intro i hi c hc
    simpa using f7.joins i hi c hc 0 (Nat.zero_le _)
  have hdl : (⟨(0, tau.sum), w.cols, b, y0, tau⟩ : GSpline).domainLength = tau.sum := by simp [GSpline.domainLength]
  obtain ⟨C, δ1, hC, hδ1, hv⟩ := C103_scaled ⟨(0, tau.sum), w.cols, b, y0, tau⟩ hb.valid hpos hcon0 hp hj (by rw [hdl]; exact hsum) T hT K hK hc
  obtain ⟨D, hD, δ2, hδ2, hint⟩ := interpolate_rate hb hcl hcr hne ht hw hI
  have hm : 0 < min (min δ1 δ2) (δ1 / (3 * D + 1)) := lt_min (lt_min hδ1 hδ2) (by positivity)
  have l1 : min (min δ1 δ2) (δ1 / (3 * D + 1)) ≤ δ1 := (min_le_left _ _).trans (min_le_left _ _)
  have l2 : min (min δ1 δ2) (δ1 / (3 * D + 1)) ≤ δ2 := (min_le_left _ _).trans (min_le_right _ _)
  refine ⟨C * (D + 1), _, by positivity, hm, fun u u' u'' hu hu' hu'' η hη hηδ lu hlu s hs r hr => ?_⟩
  obtain ⟨s', x, e, rfl, -, he, hxl, hx⟩ := hint u (small_mono l2 hu) η hη (hηδ.trans l2) lu hlu s hs r hr
  have hsz := sz_nonneg hu
  have hsz' := sz_nonneg hu'
  have hsz'' := sz_nonneg hu''
  have hcl0 : y0.length = b.dim * w.cols * tau.length := by
    have : y0.length = tau.length * b.dim * w.cols := hcon0
    rw [this]; ring
  have hκ : D * (sz u + η) ≤ δ1 := by
    have h1 : (3 * D + 1) * min (min δ1 δ2) (δ1 / (3 * D + 1)) ≤ (3 * D + 1) * (δ1 / (3 * D + 1)) := mul_le_mul_of_nonneg_left (min_le_right _ _) (by positivity)
    rw [mul_div_cancel₀ _ (by positivity : 3 * D + 1 ≠ 0)] at h1
    have h2 : D * (sz u + η) ≤ D * (3 * min (min δ1 δ2) (δ1 / (3 * D + 1))) := mul_le_mul_of_nonneg_left (by linarith [sz_le hu]) hD
    linarith
  have hDn : 0 ≤ D * (sz u + η) := by positivity
  refine ⟨s', _, rfl, fun o ho => ?_⟩
  obtain ⟨d, rfl, d1, d2, -, -, -, d3⟩ := hv u' u'' (small_mono l1 hu') (small_mono l1 hu'') _ hDn hκ ⟨(0, e), w.cols, b, x, tau⟩
    ⟨rfl, rfl, rfl, fun i _ => by simpa using hDn, by rw [hcl0]; exact hxl, fun k hk => hx k (by rw [← hcl0]; exact hk), .inl rfl⟩
    (he.trans (mul_le_mul_of_nonneg_left (by linarith) hD)) o ho
  have key : ∀ z, 0 ≤ z → C * (z + D * (sz u + η)) ≤ C * (D + 1) * (sz u + z + η) := fun z hz => by
    rw [mul_assoc]
    refine mul_le_mul_of_nonneg_left ?_ hC
    have := mul_nonneg hD hz
    nlinarith
  refine ⟨d, rfl, d1, ?_, fun t htK o' ho' => ?_⟩
  · rw [zero_add] at d2
    refine d2.trans ((key (sz u') hsz').trans (le_of_eq ?_))
    unfold sz
    ring
  · obtain ⟨v, x0, e1, e2, e3, e4, e5⟩ := d3 t htK (T / tau.sum * t) (by simpa [GSpline.domainLength] using hDn) o' ho'
    refine ⟨v, x0, e1, e2, e3, e4, fun c hcc => (e5 c hcc).trans ?_⟩
    have := key (sz u' + sz u'') (by positivity)
    unfold sz at this ⊢
    refine le_trans (le_of_eq ?_) (this.trans (le_of_eq ?_)) <;> ring

open Rounded in
theorem linearScaling_has {u : ℝ × ℝ} (h1 : 0 ≤ u.1) (h2 : 0 ≤ u.2) {g : GSpline} (hb : g.basis.Valid) (hcon : Consistent g) (hlen : 0 < g.domainLength) {T : ℝ} (hT : 1 / 10 ^ 8 ≤ T) :
    Has (linearScaling u g T) (g.scaled (T / g.domainLength) (g.dom.1 + T)) := by
  have hT0 : 0 < T := lt_of_lt_of_le (by norm_num) hT
  have hf : 0 < T / g.domainLength := div_pos hT0 hlen
  unfold linearScaling
  rw [if_neg (by linarith)]
  refine Has.bind (Has.near h1 h2 _) (Has.bind (Has.quot h1 h2 _ hlen.ne') (Has.bind (a := g.tau.map (· * (T / g.domainLength))) ?_ (Has.bind (Has.near h1 h2 _)
    (Has.bind (a := GSpline.scaledBasis g.basis (T / g.domainLength)) ?_ ?_))))
  · have := Has.mapM (l := g.tau.map (· * (T / g.domainLength))) (f := near u) (g := id) fun x _ => Has.near h1 h2 x
    rwa [List.map_id] at this
  · cases hg : g.basis with
    | legendre d => exact Has.pure _
    | lagrange x => exact Has.pure _
    | b0101 a =>
      rw [hg] at hb
      have hd : (0 : ℝ) < 1 - a := by linarith [hb.2]
      unfold scaledBasis
      simp only [if_pos (show 0 ≤ a ∧ a < 1 from hb)]
      refine Has.bind (a := GSpline.scaledAlpha a (T / g.domainLength)) ?_ (Has.pure _)
      unfold scaledAlpha
      exact Has.bind (Has.near h1 h2 _) (Has.bind (Has.near h1 h2 _) (Has.bind (Has.near h1 h2 _) (Has.bind (Has.near h1 h2 _) (Has.bind (Has.near h1 h2 _) (Has.bind (Has.near h1 h2 _)
        (Has.bind (Has.quot h1 h2 _ (Real.rpow_pos_of_pos hd _).ne') (Has.bind (Has.quot h1 h2 _ hf.ne') (Has.bind (Has.near h1 h2 _) (Has.bind (Has.near h1 h2 _) (Has.bind (Has.near h1 h2 _)
        (Has.quot h1 h2 _ (by positivity))))))))))))
  · exact (GSpline.make_ok (by simp [hT0.le]) (by rw [GSpline.scaledBasis_dim]; exact hcon)).symm

/-- The constant one on `[0, 1]` and `[1, 3]`, with Basis0101. -/
noncomputable def flat : GSpline := ⟨(0, 3), 1, .b0101 (1 / 2), [0, 0, 0, 0, 0, 1, 0, 0, 0, 0, 0, 1], [1, 2]⟩

/-- The hypotheses of `C103_near` and `C103_scaled` hold for a curve with a breakpoint and Basis0101, on the whole domain. -/
example : flat.basis.Valid ∧ (∀ a, flat.basis = .b0101 a → 0 < a) ∧ Consistent flat ∧ Positive flat ∧ Unbroken flat ∧ 0 < flat.domainLength ∧ IsCompact (Set.Icc (0 : ℝ) 3) ∧
    ∀ t ∈ Set.Icc (0 : ℝ) 3, ∀ i, Touches flat t i → Clear flat.basis (window (vecOf flat.tau i) (t - brk flat i)) := by
  refine ⟨⟨by norm_num, by norm_num⟩, fun a h => ?_, by simp [Consistent, flat, Basis.dim], ⟨by simp [flat], by simp [flat]⟩, ?_, by norm_num [GSpline.domainLength, flat], isCompact_Icc,
    fun _ _ _ _ => trivial⟩
  · simp only [flat, Basis.b0101.injEq] at h
    rw [← h]
    norm_num
  · intro i hi c hc
    have hi0 : i = 0 := by simp [flat] at hi; omega
    have hc0 : c = 0 := by simpa [flat] using hc
    subst hi0 hc0
    simp [curve, piece, comb, flat, Basis.dim, vecOf, Finset.sum_range_succ, basisFn, phi0101]
    rfl

/-- A spline near `flat` that is not `flat`: the second interval and the parameter are longer, the last coefficient is smaller. -/
example (ε : ℝ) (h : 0 ≤ ε) : NearSpline ε ⟨(0, 3 + ε), 1, .b0101 (1 / 2 + ε), [0, 0, 0, 0, 0, 1, 0, 0, 0, 0, 0, 1 - ε], [1, 2 + ε]⟩ flat := by
  refine ⟨rfl, rfl, rfl, fun i hi => ?_, rfl, fun k hk => ?_, .inr ⟨1 / 2, 1 / 2 + ε, rfl, rfl, by simp [abs_of_nonneg h]⟩⟩
  · have hi' : i < 2 := hi
    interval_cases i <;> simp [vecOf, flat, abs_of_nonneg h, h]
  · have hk' : k < 12 := hk
    interval_cases k <;> simp [vecOf, flat, abs_of_nonneg h, h]

/-- There are such runs: the exact scaling is one. -/
example (u : ℝ × ℝ) (h1 : 0 ≤ u.1) (h2 : 0 ≤ u.2) : ∃ s, Rounded.linearScaling u flat 2 (.ok s) :=
  ⟨_, linearScaling_has h1 h2 (g := flat) (T := 2) (show (0 : ℝ) ≤ 1 / 2 ∧ (1 / 2 : ℝ) < 1 by norm_num) (by simp [Consistent, flat, Basis.dim]) (by norm_num [GSpline.domainLength, flat]) (by norm_num)⟩

/-- The hypotheses of `C103_interpolated` hold. -/
example : Interpolable (.legendre 4) ∧ (∀ a, Basis.legendre 4 = .b0101 a → 0 < a) ∧ Clear (.legendre 4) (-1) ∧ Clear (.legendre 4) 1 ∧ [(1 : ℝ), 2] ≠ [] ∧
    (∀ t ∈ [(1 : ℝ), 2], 1 / 10 ^ 6 ≤ t) ∧ (⟨3, 1, fun i _ => (i : ℝ)⟩ : Pts).rows = [(1 : ℝ), 2].length + 1 ∧ LUContract exactLU ∧ (1 : ℝ) / 10 ^ 8 ≤ 5 ∧
    (∃ g0, interpolateFn exactLU (fun _ => 0) [1, 2] ⟨3, 1, fun i _ => (i : ℝ)⟩ (.legendre 4) = .ok g0) := by
  refine ⟨interpolable4, (fun a h => by cases h), trivial, trivial, by simp, by intro t ht; fin_cases ht <;> norm_num, rfl, exactLU_contract, by norm_num, ?_⟩
  obtain ⟨g, hg, -⟩ := C95_interpolated exactLU exactLU_contract (fun _ => 0) (.legendre 4) interpolable4 (fun x h => by cases h) [1, 2] (by simp)
    (by intro t ht; fin_cases ht <;> norm_num) ⟨3, 1, fun i _ => (i : ℝ)⟩ rfl 0 1
  exact ⟨g, hg⟩

end GSplines.Props
