import Verif.Proofs.RateSpline
import Verif.Props.Rounding

/-!
# C95: rounding changes the values of a spline in proportion to the rounding errors

As in C70, `Rounded.value u g t r` says that evaluating `g` at `t` may end with `r` when each operation has a relative error of at most `u.1` plus an absolute
error of at most `u.2`.
-/

namespace GSplines.Props

open GSplines.Spec GSplines.Nd

theorem close_row {C : ℝ} {v e : List ℝ} (h : close C v e) {c : ℕ} (hc : c < e.length) : |vecOf v c - vecOf e c| ≤ C := by
  have hF : List.Forall₂ (close C) v e := h
  have hl := hF.length_eq
  have := (List.forall₂_iff_get.mp hF).2 c (by omega) hc
  unfold vecOf
  rw [List.getD_eq_getElem?_getD, List.getElem?_eq_getElem (by omega), List.getD_eq_getElem?_getD, List.getElem?_eq_getElem hc]
  exact this

theorem vecOf_row {n : ℕ} (f : ℕ → ℝ) {c : ℕ} (hc : c < n) : vecOf ((List.range n).map f) c = f c := by
  unfold vecOf
  rw [List.getD_eq_getElem?_getD, List.getElem?_eq_getElem (by simpa using hc)]
  simp

theorem min_pos {δ : ℕ → ℝ} (h : ∀ i, 0 < δ i) (n : ℕ) : ∃ d > 0, ∀ i < n, d ≤ δ i := by
  induction n with
  | zero => exact ⟨1, one_pos, fun i hi => by omega⟩
  | succ n ih =>
    obtain ⟨d, hd, h'⟩ := ih
    refine ⟨min d (δ n), lt_min hd (h n), fun i hi => ?_⟩
    rcases Nat.lt_succ_iff_lt_or_eq.mp hi with h1 | rfl
    · exact (min_le_left _ _).trans (h' i h1)
    · exact min_le_right _ _

/-- The rates of all pieces that touch a point, with common constants. -/
theorem pieces_rate {g : GSpline} (hb : g.basis.Valid) (hcon : Consistent g) (hp : Positive g) {t₀ : ℝ}
    (hc : ∀ i, Touches g t₀ i → Clear g.basis (window (vecOf g.tau i) (t₀ - brk g i))) :
    ∃ C ≥ (0 : ℝ), ∃ δ > (0 : ℝ), ∀ i, Touches g t₀ i → ∀ u, Small u δ → ∀ t, |t - t₀| ≤ δ → ∀ o, Rounded.pieceValue u g i t o →
      (∃ v, o = .ok v ∧ close (C * (sz u + |t - t₀|)) v ((List.range g.codim).map fun c => curve g i c t₀)) ∧
      ∀ v e, o = .ok v → Rounded.pieceValue 0 g i t (.ok e) → close (C * sz u) v e := by
  have H : ∀ i, ∃ C ≥ (0 : ℝ), ∃ δ > (0 : ℝ), Touches g t₀ i → ∀ u, Small u δ → ∀ t, |t - t₀| ≤ δ → ∀ o, Rounded.pieceValue u g i t o →
      (∃ v, o = .ok v ∧ close (C * (sz u + |t - t₀|)) v ((List.range g.codim).map fun c => curve g i c t₀)) ∧
      ∀ v e, o = .ok v → Rounded.pieceValue 0 g i t (.ok e) → close (C * sz u) v e := by
    intro i
    by_cases ht : Touches g t₀ i
    swap
    · exact ⟨0, le_rfl, 1, one_pos, fun h => absurd h ht⟩
    obtain ⟨C, hC, δ, hδ, h⟩ := Rounded.pieceValue_rate hb hcon hp ht.1 (hc i ht)
    refine ⟨C, hC, δ, hδ, fun _ u hu t htt o ho => ⟨(h u hu t o ho).1 _ (abs_nonneg _) htt (le_refl (|t - t₀|)), fun v e hv he => ?_⟩⟩
    have := (h u hu t o ho).2 0 t v e ⟨le_rfl, hδ.le, le_rfl, hδ.le⟩ htt htt 0 le_rfl (Gauge.refl' t le_rfl) hv he
    simpa [sz] using this
  choose C hC δ hδ H using H
  obtain ⟨d, hd, hdm⟩ := min_pos hδ g.tau.length
  have hsum : ∀ i < g.tau.length, C i ≤ ∑ k ∈ Finset.range g.tau.length, C k := fun i hi =>
    Finset.single_le_sum (f := C) (fun k _ => hC k) (Finset.mem_range.mpr hi)
  refine ⟨∑ k ∈ Finset.range g.tau.length, C k, Finset.sum_nonneg fun k _ => hC k, d, hd, fun i ht u hu t htt o ho => ?_⟩
  obtain ⟨⟨v, h1, h2⟩, h3⟩ := H i ht u (small_mono (hdm i ht.1) hu) t (htt.trans (hdm i ht.1)) o ho
  refine ⟨⟨v, h1, Gauge.mono' (mul_le_mul_of_nonneg_right (hsum i ht.1) (add_nonneg (sz_nonneg hu) (abs_nonneg _))) h2⟩, fun v e hv he => ?_⟩
  exact Gauge.mono' (mul_le_mul_of_nonneg_right (hsum i ht.1) (sz_nonneg hu)) (h3 v e hv he)

/-- **C95.** At a given time, and at times near it: there are a constant and a bound such that, for errors below the bound, every evaluation succeeds and every component is off
the value of one touching piece by at most the constant times the size of the errors plus the error of the time. -/
theorem C95_inexact_point (g : GSpline) (hb : g.basis.Valid) (hcon : Consistent g) (hp : Positive g) (t : ℝ)
    (hc : ∀ i, Touches g t i → Clear g.basis (window (vecOf g.tau i) (t - brk g i))) :
    ∃ C δ, 0 < δ ∧ ∀ u, Small u δ → ∀ t', |t' - t| ≤ δ → ∀ r, Rounded.value u g t' r →
      ∃ v i, r = .ok v ∧ v.length = g.codim ∧ Touches g t i ∧ ∀ c < g.codim, |vecOf v c - curve g i c t| ≤ C * (u.1 + u.2 + |t' - t|) := by
  obtain ⟨C, hC, δ, hδ, h⟩ := pieces_rate hb hcon hp hc
  obtain ⟨η, hη, hI⟩ := EvG.of_ev (F := fun u t => Rounded.getInterval u g t) (P := fun r => ∃ i, r = .ok i ∧ Touches g t i) (Rounded.getInterval_at hp t)
  refine ⟨C, min δ η, lt_min hδ hη, fun u hu t' ht' r hr => ?_⟩
  have hI' := hI u (small_mono (min_le_right _ _) hu) t' (ht'.trans (min_le_right _ _))
  rw [Rounded.value_eq] at hr
  rcases hr with ⟨e, he, -⟩ | ⟨i, hi, hr⟩
  · obtain ⟨_, h, _⟩ := hI' _ he; cases h
  obtain ⟨_, h', ht⟩ := hI' _ hi
  cases h'
  obtain ⟨⟨v, rfl, hv⟩, -⟩ := h i ht u (small_mono (min_le_left _ _) hu) t' (ht'.trans (min_le_left _ _)) r hr
  have hl := List.Forall₂.length_eq (R := close (C * (sz u + |t' - t|))) hv
  rw [List.length_map, List.length_range] at hl
  refine ⟨v, i, rfl, hl, ht, fun c hcc => ?_⟩
  have := close_row hv (c := c) (by simpa using hcc)
  rwa [vecOf_row _ hcc] at this

/-- The statement of `C95_uniform` near one point. -/
theorem value_local {g : GSpline} (hb : g.basis.Valid) (hcon : Consistent g) (hp : Positive g) (hj : Unbroken g) {t₀ : ℝ}
    (hc : ∀ i, Touches g t₀ i → Clear g.basis (window (vecOf g.tau i) (t₀ - brk g i))) :
    ∃ C ≥ (0 : ℝ), ∃ δ > (0 : ℝ), ∀ t, |t - t₀| ≤ δ → ∀ u, Small u δ → ∀ r, Rounded.value u g t r →
      ∃ v e, r = .ok v ∧ g.value t = .ok e ∧ v.length = g.codim ∧ e.length = g.codim ∧ close (C * sz u) v e := by
  obtain ⟨C, hC, δ, hδ, h⟩ := pieces_rate hb hcon hp hc
  obtain ⟨η, hη, hI⟩ := EvG.of_ev (F := fun u t => Rounded.getInterval u g t) (P := fun r => ∃ i, r = .ok i ∧ Touches g t₀ i) (Rounded.getInterval_at hp t₀)
  obtain ⟨D, hD, κ, hκ, hG⟩ := Rounded.getInterval_rate hp
  have hm : 0 < min δ (min η κ) := lt_min hδ (lt_min hη hκ)
  have l1 : min δ (min η κ) ≤ δ := min_le_left _ _
  have l2 : min δ (min η κ) ≤ η := (min_le_right _ _).trans (min_le_left _ _)
  have l3 : min δ (min η κ) ≤ κ := (min_le_right _ _).trans (min_le_right _ _)
  refine ⟨C + 2 * C * D, by positivity, min δ (min η κ), hm, fun t htt u hu r hr => ?_⟩
  have hs := sz_nonneg hu
  have h0 : Small (0 : ℝ × ℝ) (min δ (min η κ)) := ⟨le_rfl, hm.le, le_rfl, hm.le⟩
  have hex := Rounded.value_has (u := 0) le_rfl le_rfl hb hcon hp.1 hp.not_mem t
  -- the interval of a run
  have split : ∀ u, Small u (min δ (min η κ)) → ∀ r, Rounded.value u g t r → ∃ i, Touches g t₀ i ∧ (brk g i ≤ t + D * sz u ∨ i = 0) ∧
      (t ≤ brk g (i + 1) + D * sz u ∨ i + 1 = g.tau.length) ∧ Rounded.pieceValue u g i t r := by
    intro u hu r hr
    have hI' := hI u (small_mono l2 hu) t (htt.trans l2)
    rw [Rounded.value_eq] at hr
    rcases hr with ⟨e, he, -⟩ | ⟨i, hi, hr⟩
    · obtain ⟨_, h, _⟩ := hI' _ he; cases h
    obtain ⟨_, h', ht⟩ := hI' _ hi
    cases h'
    obtain ⟨_, h', -, hg1, hg2⟩ := hG u (small_mono l3 hu) t _ hi
    cases h'
    exact ⟨i, ht, hg1, hg2, hr⟩
  obtain ⟨i, hti, gi1, gi2, hri⟩ := split u hu r hr
  obtain ⟨k, htk, gk1, gk2, hrk⟩ := split 0 h0 _ hex
  have e0 : sz (0 : ℝ × ℝ) = 0 := by simp [sz]
  rw [e0, mul_zero, add_zero] at gk1 gk2
  obtain ⟨⟨v, rfl, hv⟩, hv'⟩ := h i hti u (small_mono l1 hu) t (htt.trans l1) r hri
  obtain ⟨⟨e, he, hve⟩, -⟩ := h k htk 0 (small_mono l1 h0) t (htt.trans l1) _ hrk
  have hlen : ∀ {c : ℝ} {w : List ℝ} {f : ℕ → ℝ}, close c w ((List.range g.codim).map f) → w.length = g.codim := fun {c w f} hw => by
    have := List.Forall₂.length_eq (R := close c) hw
    rwa [List.length_map, List.length_range] at this
  refine ⟨v, e, rfl, he, hlen hv, hlen hve, ?_⟩
  by_cases hik : i = k
  · subst hik
    rw [he] at hrk
    refine Gauge.mono' ?_ (hv' v e rfl hrk)
    have : 0 ≤ 2 * C * D * sz u := by positivity
    linarith
  · have hrow : ((List.range g.codim).map fun c => curve g i c t₀) = (List.range g.codim).map fun c => curve g k c t₀ :=
      List.map_congr_left fun c hcm => touches_agree hp hj hti htk (List.mem_range.mp hcm)
    have key : ∀ i k, i < k → Touches g t₀ i → Touches g t₀ k → k = i + 1 ∧ t₀ = brk g k := by
      intro i k hik hi hk
      have h1 : t₀ ≤ brk g (i + 1) := hi.2.2.resolve_right (by have := hk.1; omega)
      have h2 : brk g k ≤ t₀ := hk.2.1.resolve_right (by omega)
      have h3 : k = i + 1 := by
        by_contra h
        have a := GSpline.brk_lt_succ hp (i := i + 1) (by have := hk.1; omega)
        have b := GSpline.brk_mono hp (i := i + 1 + 1) (j := k) (by omega) (by have := hk.1; omega)
        linarith
      subst h3
      exact ⟨rfl, le_antisymm h1 h2⟩
    have hDs : 0 ≤ D * sz u := mul_nonneg hD hs
    have hdist : |t - t₀| ≤ D * sz u := by
      rw [abs_le]
      rcases lt_or_gt_of_ne hik with h1 | h1
      · obtain ⟨rfl, e1⟩ := key i k h1 hti htk
        have a1 := gi2.resolve_right (by have := htk.1; omega)
        have a2 := gk1.resolve_right (by omega)
        rw [e1]
        constructor <;> linarith
      · obtain ⟨rfl, e1⟩ := key k i h1 htk hti
        have a1 := gk2.resolve_right (by have := hti.1; omega)
        have a2 := gi1.resolve_right (by omega)
        rw [e1]
        constructor <;> linarith
    rw [hrow] at hv
    refine Gauge.mono' ?_ (Gauge.trans' hv (Gauge.symm' hve))
    rw [e0]
    have := mul_le_mul_of_nonneg_left hdist hC
    nlinarith

/-- **C95.** On a compact set of times (at which rounding does not decide whether a Lagrange node is hit) there are one constant and one bound for all times: for errors
below the bound every component of every possible result is off the result of exact arithmetic by at most the constant times the size of the errors. -/
theorem C95_uniform (g : GSpline) (hb : g.basis.Valid) (hcon : Consistent g) (hp : Positive g) (hj : Unbroken g) (K : Set ℝ) (hK : IsCompact K)
    (hc : ∀ t ∈ K, ∀ i, Touches g t i → Clear g.basis (window (vecOf g.tau i) (t - brk g i))) :
    ∃ C δ, 0 < δ ∧ ∀ t ∈ K, ∀ u, Small u δ → ∀ r, Rounded.value u g t r →
      ∃ v e, r = .ok v ∧ g.value t = .ok e ∧ v.length = g.codim ∧ e.length = g.codim ∧ ∀ c < g.codim, |vecOf v c - vecOf e c| ≤ C * (u.1 + u.2) := by
  have H : ∃ C ≥ (0 : ℝ), ∃ δ > (0 : ℝ), ∀ t ∈ K, ∀ u, Small u δ → ∀ r, Rounded.value u g t r →
      ∃ v e, r = .ok v ∧ g.value t = .ok e ∧ v.length = g.codim ∧ e.length = g.codim ∧ close (C * sz u) v e := by
    refine hK.induction_on (p := fun S => ∃ C ≥ (0 : ℝ), ∃ δ > (0 : ℝ), ∀ t ∈ S, ∀ u, Small u δ → ∀ r, Rounded.value u g t r →
      ∃ v e, r = .ok v ∧ g.value t = .ok e ∧ v.length = g.codim ∧ e.length = g.codim ∧ close (C * sz u) v e) ?_ ?_ ?_ ?_
    · exact ⟨0, le_rfl, 1, one_pos, fun t ht => absurd ht (Set.notMem_empty t)⟩
    · rintro S T hST ⟨C, hC, δ, hδ, h⟩
      exact ⟨C, hC, δ, hδ, fun t ht => h t (hST ht)⟩
    · rintro S T ⟨C, hC, δ, hδ, h⟩ ⟨D, hD, η, hη, h'⟩
      refine ⟨max C D, le_max_of_le_left hC, min δ η, lt_min hδ hη, fun t ht u hu r hr => ?_⟩
      rcases ht with ht | ht
      · obtain ⟨v, e, a1, a2, a3, a4, a5⟩ := h t ht u (small_mono (min_le_left _ _) hu) r hr
        exact ⟨v, e, a1, a2, a3, a4, Gauge.mono' (mul_le_mul_of_nonneg_right (le_max_left _ _) (sz_nonneg hu)) a5⟩
      · obtain ⟨v, e, a1, a2, a3, a4, a5⟩ := h' t ht u (small_mono (min_le_right _ _) hu) r hr
        exact ⟨v, e, a1, a2, a3, a4, Gauge.mono' (mul_le_mul_of_nonneg_right (le_max_right _ _) (sz_nonneg hu)) a5⟩
    · intro t₀ ht₀
      obtain ⟨C, hC, δ, hδ, h⟩ := value_local hb hcon hp hj (hc t₀ ht₀)
      refine ⟨Metric.closedBall t₀ δ, mem_nhdsWithin_of_mem_nhds (Metric.closedBall_mem_nhds t₀ hδ), C, hC, δ, hδ, fun t ht u hu r hr => h t ?_ u hu r hr⟩
      rwa [Metric.mem_closedBall, Real.dist_eq] at ht
  obtain ⟨C, hC, δ, hδ, h⟩ := H
  refine ⟨C, δ, hδ, fun t ht u hu r hr => ?_⟩
  obtain ⟨v, e, a1, a2, a3, a4, a5⟩ := h t ht u hu r hr
  exact ⟨v, e, a1, a2, a3, a4, fun c hcc => close_row a5 (by omega)⟩

/-- **C95** for interpolated curves with a Legendre basis or Basis0101: one constant for all times of the domain (and of any larger interval). -/
theorem C95_interpolated (lu : LU) (hlu : LUContract lu) (junk : Vec) (b : Basis) (hb : Interpolable b) (hnl : ∀ x, b ≠ .lagrange x) (tau : List ℝ) (hne : tau ≠ [])
    (ht : ∀ t ∈ tau, 1 / 10 ^ 6 ≤ t) (w : Pts) (hw : w.rows = tau.length + 1) (lo hi : ℝ) :
    ∃ g, interpolateFn lu junk tau w b = .ok g ∧ ∃ C δ, 0 < δ ∧ ∀ t, lo ≤ t → t ≤ hi → ∀ u, Small u δ → ∀ r, Rounded.value u g t r →
      ∃ v e, r = .ok v ∧ g.value t = .ok e ∧ v.length = w.cols ∧ e.length = w.cols ∧ ∀ c < w.cols, |vecOf v c - vecOf e c| ≤ C * (u.1 + u.2) := by
  have hl := List.length_pos_of_ne_nil hne
  obtain ⟨s, h1, h2, -⟩ := interpolate_new hlu (w := w) (by omega) hb junk
  obtain ⟨s', g, f1, f2, f3, f4, f5, f6, f7⟩ := h2 tau (by omega) ht
  refine ⟨g, ?_, ?_⟩
  · unfold interpolateFn
    rw [if_neg (by omega), h1, Interp.ok_bind, f1]
    rfl
  · have hcr : ∀ s, Clear b s := fun s => by
      cases b with
      | lagrange x => exact absurd rfl (hnl x)
      | _ => trivial
    have hp : Positive g := ⟨by rw [f3]; exact hne, by rw [f3]; exact fun t h => lt_of_lt_of_le (by norm_num) (ht t h)⟩
    rw [← f4]
    obtain ⟨C, δ, hδ, h⟩ := C95_uniform g (by rw [f5]; exact hb.valid) f6 hp (fun i hi c hc => by simpa using f7.joins i hi c hc 0 (Nat.zero_le _)) (Set.Icc lo hi) isCompact_Icc
      fun t _ i _ => by rw [f5]; exact hcr _
    exact ⟨C, δ, hδ, fun t h1 h2 => h t ⟨h1, h2⟩⟩

/-- The hypotheses of `C95_interpolated` hold. -/
example : LUContract exactLU ∧ Interpolable (.legendre 4) ∧ (∀ x, Basis.legendre 4 ≠ .lagrange x) ∧ (∀ t ∈ [(1 : ℝ), 2], 1 / 10 ^ 6 ≤ t) ∧
    (⟨3, 1, fun i _ => (i : ℝ)⟩ : Pts).rows = [(1 : ℝ), 2].length + 1 :=
  ⟨exactLU_contract, interpolable4, (fun x h => by cases h), by intro t ht; fin_cases ht <;> norm_num, rfl⟩

/-- The identity, from its values at two nodes. -/
noncomputable def ramp : GSpline := ⟨(0, 1), 1, .lagrange [0, 1], [0, 1], [1]⟩

theorem ramp_valid : ramp.basis.Valid := by
  intro i hi j hj h
  have hi' : i < 2 := hi
  have hj' : j < 2 := hj
  change Lagrange.almostEqual (vecOf [0, 1] i) (vecOf [0, 1] j) tol9 = true at h
  unfold Lagrange.almostEqual tol9 at h
  interval_cases i <;> interval_cases j <;> norm_num [vecOf] at h
  all_goals rfl

/-- `t ↦ t` on `[0, 1]` and `[1, 2]`, with Legendre polynomials. -/
noncomputable def line : GSpline := ⟨(0, 2), 1, .legendre 2, [1 / 2, 1 / 2, 3 / 2, 1 / 2], [1, 1]⟩

/-- The hypotheses of `C95_uniform` hold, on the whole domain, for a curve with a breakpoint. -/
example : line.basis.Valid ∧ Consistent line ∧ Positive line ∧ Unbroken line ∧ IsCompact (Set.Icc (0 : ℝ) 2) ∧
    ∀ t ∈ Set.Icc (0 : ℝ) 2, ∀ i, Touches line t i → Clear line.basis (window (vecOf line.tau i) (t - brk line i)) := by
  refine ⟨show 2 ≤ 2 from le_rfl, by simp [Consistent, line, Basis.dim], ⟨by simp [line], by simp [line]⟩, ?_, isCompact_Icc, fun _ _ _ _ => trivial⟩
  intro i hi c hc
  have hi0 : i = 0 := by simp [line] at hi; omega
  have hc0 : c = 0 := by simpa [line] using hc
  subst hi0 hc0
  simp [curve, piece, comb, line, Basis.dim, vecOf, Finset.sum_range_succ, basisFn, window, brk, LegendrePoly.legendre_zero, LegendrePoly.legendre_one]
  norm_num

/-- Where rounding decides whether a Lagrange node is hit, the error is not proportional to the rounding errors: however small they are, a result may be off by `1e-9`. -/
theorem C95_node_false (u : ℝ × ℝ) (h1 : 0 < u.1) (h2 : 0 ≤ u.2) :
    ramp.value (1 / 2 + 1 / (2 * 10 ^ 9)) = .ok [1 / 10 ^ 9] ∧ Rounded.value u ramp (1 / 2 + 1 / (2 * 10 ^ 9)) (.ok [0]) := by
  have hcon : Consistent ramp := by simp [Consistent, ramp, Basis.dim]
  have hp : Positive ramp := ⟨by simp [ramp], by simp [ramp]⟩
  have hw : window (vecOf ramp.tau 0) (1 / 2 + 1 / (2 * 10 ^ 9) - brk ramp 0) = 1 / 10 ^ 9 := by norm_num [window, ramp, vecOf, brk]
  constructor
  · obtain ⟨v, e1, e2, e3⟩ := GSpline.value_spec (g := ramp) ramp_valid hcon (t := 1 / 2 + 1 / (2 * 10 ^ 9)) (i := 0)
      (GSpline.getInterval_of_located hp ⟨by simp [ramp], .inr (.inl ⟨by norm_num [brk, ramp], by norm_num [brk, ramp]⟩)⟩) (by simp [ramp]) (by simp [ramp, vecOf]) (by
        rw [hw]
        intro j hj e
        have hj' : j < 2 := hj
        change Lagrange.almostEqual (1 / 10 ^ 9) (vecOf [0, 1] j) tol9 = true at e
        unfold Lagrange.almostEqual tol9 at e
        interval_cases j <;> norm_num [vecOf, abs_of_pos, abs_of_neg] at e)
    rw [e1]
    have h3 := e3 0 (by simp [ramp])
    have e2' : v.length = 1 := e2
    match v, e2' with
    | [x], _ =>
      have h3 : some x = some (curve ramp 0 0 (1 / 2 + 1 / (2 * 10 ^ 9))) := h3
      cases h3
      unfold curve piece comb
      have hd : ramp.basis.dim = 2 := rfl
      rw [hd, Finset.sum_range_succ, Finset.sum_range_one]
      simp only [basisFn, ramp]
      change (.ok [_] : Res (List ℝ)) = _
      have hw' : window (vecOf [1] 0) (1 / 2 + 1 / (2 * 10 ^ 9) - brk ramp 0) = 1 / 10 ^ 9 := hw
      simp only [ramp] at hw'
      rw [hw']
      have : (Finset.range 2).erase 1 = {0} := by decide
      simp [_root_.Lagrange.basis, this, _root_.Lagrange.basisDivisor, vecOf]
  · open Rounded in
    have h1' := h1.le
    have hi : Has (getInterval u ramp (1 / 2 + 1 / (2 * 10 ^ 9))) 0 := by
      have := getInterval_has h1' h2 ramp (1 / 2 + 1 / (2 * 10 ^ 9))
      rwa [GSpline.getInterval_of_located hp (i := 0) ⟨by simp [ramp], .inr (.inl ⟨by norm_num [brk, ramp], by norm_num [brk, ramp]⟩)⟩] at this
    have hs : Has (intervalToWindow u ramp (1 / 2 + 1 / (2 * 10 ^ 9)) 0) (1 / 10 ^ 9) := by
      unfold intervalToWindow
      refine .bind (a := []) rfl (.bind (a := 1) rfl (.bind (.sum h1' h2 _) (.bind (.near h1' h2 _) (.bind (.near h1' h2 _) (.bind (.near h1' h2 _) (.bind (.quot h1' h2 _ one_ne_zero) ?_))))))
      convert Has.near h1' h2 _ using 1
      norm_num [ramp]
    have hd : Lagrange.Distinct 2 (vecOf [0, 1]) := Separated.distinct (n := 2) (x := vecOf [0, 1]) ramp_valid
    have hf : Has (findNode u (vecOf [0, 1]) (1 / 10 ^ 9) (List.range 2)) (some 0) := by
      change Has (findNode u (vecOf [0, 1]) (1 / 10 ^ 9) (0 :: [1])) (some 0)
      unfold findNode
      refine Has.bind (a := true) ?_ (Has.pure _)
      unfold almostEqual
      refine Has.bind (a := 1 / 10 ^ 9 * (1 - min u.1 (1 / 2))) ⟨_, rfl, ?_⟩ ?_
      · have : 0 ≤ min u.1 (1 / 2) := le_min h1.le (by norm_num)
        have h3 := min_le_left u.1 (1 / 2)
        rw [show vecOf [0, 1] 0 = 0 by simp [vecOf], sub_zero, show (1 : ℝ) / 10 ^ 9 * (1 - min u.1 (1 / 2)) - 1 / 10 ^ 9 = -(1 / 10 ^ 9 * min u.1 (1 / 2)) by ring, abs_neg,
          abs_of_nonneg (by positivity), abs_of_nonneg (by positivity)]
        linarith
      · have h3 : 0 < min u.1 (1 / 2) := lt_min h1 (by norm_num)
        have h4 := min_le_right u.1 (1 / 2)
        rw [if_pos (.inr (by norm_num [vecOf, tol9]))]
        have : |(1 : ℝ) / 10 ^ 9 * (1 - min u.1 (1 / 2))| < tol9 := by
          rw [abs_of_nonneg (mul_nonneg (by norm_num) (by linarith))]
          unfold tol9
          linarith
        rw [decide_eq_true this]
        exact Has.pure _
    have he : Has (evalOnWindow u ramp.basis (1 / 10 ^ 9) 1) (setAt (fun _ => 0) 0 1) :=
      Has.bind (baryWeights_has h1' h2 hd) (Has.bind hf (Has.pure _))
    refine Has.bind hi (Has.bind hs (Has.bind (a := 1) rfl (Has.bind he ?_)))
    refine Has.mapM (g := fun _ => 0) fun c hc => ?_
    have hc0 : c = 0 := by simpa [ramp] using hc
    subst hc0
    refine Has.bind (a := [0, 1]) rfl ?_
    have h := dot_has h1' h2 (n := 2) (seg := [0, 1]) rfl (setAt (fun _ => 0) 0 1)
    rwa [show Vec.dot 2 (vecOf [0, 1]) (setAt (fun _ => 0) 0 1) = 0 by simp [Vec.dot, vecOf, setAt]] at h

/-- The hypotheses of `C95_node_false` and of `C95_inexact_point` hold. -/
example : 0 < doubles.1 ∧ 0 ≤ doubles.2 ∧ line.basis.Valid ∧ Consistent line ∧ Positive line := by
  refine ⟨by unfold doubles; positivity, by unfold doubles; positivity, show 2 ≤ 2 from le_rfl, by simp [Consistent, line, Basis.dim], by simp [line], by simp [line]⟩

end GSplines.Props
