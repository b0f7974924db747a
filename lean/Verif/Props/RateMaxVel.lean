import Verif.Proofs.RateMaxVel
import Verif.Props.RateOps
import Verif.Props.RatePerturb
import Verif.Spec.Samples

/-!
# C104: scaling to bounds of velocity and acceleration is accurate with rounded arithmetic

`Rounded.maxVelAcc u g vb ab dt o` says that `linear_scaling_new_execution_time_max_velocity_max_acceleration` may end with `o` when each operation on doubles has a relative
error of at most `u.1` plus an absolute error of at most `u.2`.
-/

namespace GSplines.Props

open GSplines.Spec GSplines.Nd

theorem mem_linSpaced {g : GSpline} {n : ℕ} {s : ℝ} : s ∈ GSpline.linSpaced (n + 1) g.dom.1 g.dom.2 ↔ IsSample g n s := by
  unfold GSpline.linSpaced IsSample
  rw [List.mem_map]
  by_cases hn : n = 0
  · subst hn
    simp [eq_comm]
  · have h1 : n + 1 ≠ 1 := by omega
    simp only [if_neg h1, hn, false_and, false_or, ne_eq, not_false_eq_true, true_and]
    constructor
    · rintro ⟨i, hi, rfl⟩
      exact ⟨i, by have := List.mem_range.mp hi; omega, by push_cast; rw [add_sub_cancel_right]⟩
    · rintro ⟨i, hi, rfl⟩
      exact ⟨i, List.mem_range.mpr (by omega), by push_cast; rw [add_sub_cancel_right]⟩

/-- Some piece touches every time. -/
theorem touches_exists {g : GSpline} (hp : Positive g) (t : ℝ) : ∃ i, Touches g t i := by
  obtain ⟨k, hk⟩ := GSpline.located_exists hp t
  refine ⟨k, hk.1, ?_, ?_⟩
  · rcases hk.2 with ⟨_, h⟩ | ⟨h, _⟩ | ⟨h, _⟩
    · exact .inr h
    · exact .inl h.le
    · exact .inl ((GSpline.brk_mono hp hk.1.le le_rfl).trans h.le)
  · rcases hk.2 with ⟨h, rfl⟩ | ⟨_, h⟩ | ⟨_, h⟩
    · exact .inl (h.trans (GSpline.brk_lt_succ hp hk.1).le)
    · exact .inl h
    · exact .inr h

/-- Rounding changes the number of segments only if the length is a multiple of the step. -/
theorem segments_count {g : GSpline} (hdom : g.dom.1 < g.dom.2) {dt : ℝ} (hdt : 0 < dt) :
    ∃ δ > (0 : ℝ), ∀ u, Small u δ → ∀ e, |e - g.dom.2| ≤ δ → ∀ x, All (Rounded.segments u { g with dom := (g.dom.1, e), coeffs := x } dt) fun o =>
      ∃ n, o = .ok n ∧ SegmentCount (g.dom.2 - g.dom.1) dt n := by
  have hR : RateAt (fun u (e : ℝ) => (near u (e - g.dom.1) >>= fun l => quot u l dt)) g.dom.2 ((g.dom.2 - g.dom.1) / dt) := by
    refine RateAt.bind (RateAt.near (f := fun e : ℝ => e - g.dom.1) (by fun_prop)) ?_
    exact (RateAt.quot (f := fun q : ℝ × ℝ => q.2) (g := fun _ => dt) (by fun_prop) (by fun_prop) hdt.ne')
  obtain ⟨C, hC, δ, hδ, H⟩ := hR
  set x := (g.dom.2 - g.dom.1) / dt with hx
  have hx0 : 0 < x := div_pos (by linarith) hdt
  set N := ⌊x⌋₊ with hN
  have hN1 : (N : ℝ) ≤ x := Nat.floor_le hx0.le
  have hN2 : x < N + 1 := Nat.lt_floor_add_one x
  -- a distance to the next integers
  have hgap : ∃ η > (0 : ℝ), η < 1 ∧ η ≤ x / 2 ∧ x + η < N + 1 ∧ ((N : ℝ) = x ∨ (N : ℝ) ≤ x - η) := by
    rcases eq_or_lt_of_le hN1 with h | h
    · have hm : 0 < min (min (1 / 2) (x / 2)) ((N + 1 - x) / 2) := lt_min (lt_min (by norm_num) (by linarith)) (by linarith)
      have h1 := (min_le_left (min (1 / 2) (x / 2)) ((N + 1 - x) / 2))
      have h2 := (min_le_right (min (1 / 2) (x / 2)) ((N + 1 - x) / 2))
      exact ⟨_, hm, by linarith [min_le_left (1 / 2) (x / 2)], by linarith [min_le_right (1 / 2) (x / 2)], by linarith, .inl h⟩
    · have hm : 0 < min (min (1 / 2) (x / 2)) (min ((N + 1 - x) / 2) (x - N)) := lt_min (lt_min (by norm_num) (by linarith)) (lt_min (by linarith) (by linarith))
      have h1 := (min_le_left (min (1 / 2) (x / 2)) (min ((N + 1 - x) / 2) (x - N)))
      have h2 := (min_le_right (min (1 / 2) (x / 2)) (min ((N + 1 - x) / 2) (x - N)))
      have h3 := min_le_left ((N + 1 - x) / 2) (x - N)
      have h4 := min_le_right ((N + 1 - x) / 2) (x - N)
      exact ⟨_, hm, by linarith [min_le_left (1 / 2) (x / 2)], by linarith [min_le_right (1 / 2) (x / 2)], by linarith, .inr (by linarith)⟩
  obtain ⟨η, hη, hη1, hη2, hη3, hη4⟩ := hgap
  refine ⟨min δ (η / (3 * C + 1)), lt_min hδ (by positivity), fun u hu e he y o ho => ?_⟩
  have hCs : C * (sz u + min δ (η / (3 * C + 1))) ≤ η := by
    have h1 := sz_le hu
    have h2 : (3 * C + 1) * min δ (η / (3 * C + 1)) ≤ η := by
      have := mul_le_mul_of_nonneg_left (min_le_right δ (η / (3 * C + 1))) (show (0 : ℝ) ≤ 3 * C + 1 by positivity)
      rwa [mul_div_cancel₀ _ (by positivity : 3 * C + 1 ≠ 0)] at this
    have h3 := mul_le_mul_of_nonneg_left h1 hC
    have h4 : 0 ≤ min δ (η / (3 * C + 1)) := (lt_min hδ (by positivity)).le
    linarith
  have ho' : ∃ o', (near u (e - g.dom.1) >>= fun l => quot u l dt) o' ∧ (∀ q, o' = .ok q → o = .ok ⌊q⌋₊) := by
    unfold Rounded.segments at ho
    rcases ho with ⟨e, he, rfl⟩ | ⟨l, hl, ho⟩
    · exact ⟨.error e, .inl ⟨e, he, rfl⟩, fun q h => by cases h⟩
    rcases ho with ⟨e, he, rfl⟩ | ⟨q, hq, ho⟩
    · exact ⟨.error e, .inr ⟨l, hl, he⟩, fun q h => by cases h⟩
    · exact ⟨.ok q, .inr ⟨l, hl, hq⟩, fun q' h => by cases h; exact ho⟩
  obtain ⟨o', h1, h2⟩ := ho'
  obtain ⟨q, rfl, hq⟩ := (H u (Nd.small_mono (min_le_left _ _) hu) e o' h1).1 _ ((abs_nonneg _).trans he) (min_le_left _ _) he
  have hq' : |q - x| ≤ C * (sz u + min δ (η / (3 * C + 1))) := hq
  obtain ⟨q1, q2⟩ := abs_le.mp hq'
  have q0 : 0 ≤ q := by linarith
  refine ⟨_, h2 q rfl, ?_⟩
  by_cases hle : (N : ℝ) ≤ q
  · refine .inl ?_
    rw [← hx, ← hN]
    rw [Nat.floor_eq_iff q0]
    exact ⟨hle, by linarith⟩
  · push Not at hle
    rcases hη4 with h | h
    swap
    · linarith
    have hNpos : 0 < N := by
      rcases Nat.eq_zero_or_pos N with h0 | h0
      · rw [h0] at h; simp at h; linarith
      · exact h0
    have : ⌊q⌋₊ = N - 1 := by
      rw [Nat.floor_eq_iff q0]
      rw [Nat.cast_sub hNpos]
      push_cast
      constructor <;> linarith
    refine .inr ?_
    rw [this, Nat.cast_sub hNpos, ← hx]
    push_cast
    linarith

/-- Two rounded derivatives are near the exact ones. -/
theorem derivs_near {g : GSpline} (hb : g.basis.Valid) (hcon : Consistent g) (hz : (0 : ℝ) ∉ g.tau) :
    ∃ C ≥ (0 : ℝ), ∃ δ > (0 : ℝ), ∀ u, Small u δ → ∀ κ, 0 ≤ κ → κ ≤ δ → ∀ (x : List ℝ) (e : ℝ), g.dom.1 ≤ e → x.length = g.coeffs.length →
      (∀ k < x.length, |vecOf x k - vecOf g.coeffs k| ≤ κ) → ∀ o, Rounded.deriv u { g with dom := (g.dom.1, e), coeffs := x } 1 o →
      ∃ d1, o = .ok d1 ∧ NearSpline (C * (sz u + κ)) d1 { g with coeffs := Rounded.dco g 1 } ∧
      ∀ o', Rounded.deriv u d1 1 o' → ∃ d2, o' = .ok d2 ∧
        NearSpline (C * (sz u + κ)) d2 { g with coeffs := Rounded.dco { g with coeffs := Rounded.dco g 1 } 1 } := by
  obtain ⟨C, hC, δ1, hδ1, H1⟩ := Rounded.deriv_rate hb hcon hz 1
  obtain ⟨D, hD, δ2, hδ2, H2⟩ := Rounded.deriv_rate (g := { g with coeffs := Rounded.dco g 1 }) hb (consistent_dco hcon 1) hz 1
  have hm : 0 < min (min δ1 δ2) (δ2 / (3 * C + 1)) := lt_min (lt_min hδ1 hδ2) (by positivity)
  refine ⟨C + D * (1 + C), by positivity, _, hm, fun u hu κ hκ hκm x e hde hxl hx o ho => ?_⟩
  have hs : 0 ≤ sz u + κ := add_nonneg (sz_nonneg hu) hκ
  have hs0 := sz_nonneg hu
  have hCs : C * (sz u + κ) ≤ δ2 := by
    have h2 : (3 * C + 1) * min (min δ1 δ2) (δ2 / (3 * C + 1)) ≤ δ2 := by
      have := mul_le_mul_of_nonneg_left (min_le_right (min δ1 δ2) (δ2 / (3 * C + 1))) (show (0 : ℝ) ≤ 3 * C + 1 by positivity)
      rwa [mul_div_cancel₀ _ (by positivity : 3 * C + 1 ≠ 0)] at this
    have h3 := mul_le_mul_of_nonneg_left (sz_le hu) hC
    have h4 := mul_le_mul_of_nonneg_left hκm hC
    linarith
  have hn : 0 ≤ (C + D * (1 + C)) * (sz u + κ) := by positivity
  have b1 : C * (sz u + κ) ≤ (C + D * (1 + C)) * (sz u + κ) := mul_le_mul_of_nonneg_right (le_add_of_nonneg_right (by positivity)) hs
  have b2 : D * (sz u + C * (sz u + κ)) ≤ (C + D * (1 + C)) * (sz u + κ) := by
    have : 0 ≤ C * (sz u + κ) := by positivity
    have : 0 ≤ D * κ := by positivity
    nlinarith
  obtain ⟨y, rfl, hyl, hy⟩ := H1 u (Nd.small_mono ((min_le_left _ _).trans (min_le_left _ _)) hu) κ hκ (hκm.trans ((min_le_left _ _).trans (min_le_left _ _))) x e hde hxl hx o ho
  refine ⟨_, rfl, ⟨rfl, rfl, rfl, fun i _ => by simpa using hn, by rw [Rounded.dco_length]; exact hyl, fun k hk => ?_, .inl rfl⟩, fun o' ho' => ?_⟩
  · have hk' : k < y.length := by rw [hyl, ← Rounded.dco_length g 1]; exact hk
    exact (hy k hk').trans b1
  obtain ⟨z, rfl, hzl, hzz⟩ := H2 u (Nd.small_mono ((min_le_left _ _).trans (min_le_right _ _)) hu) (C * (sz u + κ)) (by positivity) hCs y e hde (by rw [hyl, Rounded.dco_length]) hy o' ho'
  refine ⟨_, rfl, ⟨rfl, rfl, rfl, fun i _ => by simpa using hn, by rw [Rounded.dco_length]; exact hzl, fun k hk => ?_, .inl rfl⟩⟩
  have hk' : k < z.length := by rw [hzl, ← Rounded.dco_length { g with coeffs := Rounded.dco g 1 } 1]; exact hk
  exact (hzz k hk').trans b2

theorem near_mono {ε ε' : ℝ} (h : ε ≤ ε') {r g : GSpline} (H : NearSpline ε r g) : NearSpline ε' r g :=
  ⟨H.start, H.codim, H.intervals, fun i hi => (H.tau i hi).trans h, H.size, fun k hk => (H.coeffs k hk).trans h,
    H.basis.imp_right fun ⟨a, a', h1, h2, h3⟩ => ⟨a, a', h1, h2, h3.trans h⟩⟩

/-- The largest absolute values of the columns of sampled values. -/
theorem columns_near {n : ℕ} {S : List ℝ} (hS : S ≠ []) {A : ℕ → ℝ → ℝ} {η : ℝ} {vel : List (List ℝ)} (h : List.Forall₂ (fun s v => ∀ c < n, |vecOf v c - A c s| ≤ η) S vel)
    {c : ℕ} (hc : c < n) : 0 ≤ Tools.maxAbs (GSpline.column vel c) ∧ |Tools.maxAbs (GSpline.column vel c) - Tools.maxAbs (S.map (A c))| ≤ η := by
  have hne : vel ≠ [] := by
    rintro rfl
    have := h.length_eq
    simp at this
    exact hS this
  constructor
  · obtain ⟨v, vs, rfl⟩ := List.exists_cons_of_ne_nil hne
    exact (abs_nonneg _).trans (Tools.le_maxAbs (l := GSpline.column (v :: vs) c) (x := v.getD c 0) (by simp [GSpline.column]))
  · refine Tools.maxAbs_near (by simpa using hS) ?_
    unfold GSpline.column
    rw [List.forall₂_map_left_iff, List.forall₂_map_right_iff]
    exact (h.imp fun s v hv => hv c hc).flip

/-- The factor for `n` segments: its errors are proportional to the rounding errors; the exact one is the least that brings the velocity and the acceleration within the bounds. -/
theorem factorAt_near {g : GSpline} (hb : g.basis.Valid) (hpos : ∀ a, g.basis = .b0101 a → 0 < a) (hcon : Consistent g) (hp : Positive g) (hdom : g.dom.1 ≤ g.dom.2) (hcod : 0 < g.codim)
    {vb ab : List ℝ} (hvp : ∀ c < g.codim, 0 < vecOf vb c) (hap : ∀ c < g.codim, 0 < vecOf ab c)
    (hj1 : ∀ i, i + 1 < g.tau.length → ∀ c < g.codim, iteratedDeriv 1 (curve g i c) (brk g (i + 1)) = iteratedDeriv 1 (curve g (i + 1) c) (brk g (i + 1)))
    (hj2 : ∀ i, i + 1 < g.tau.length → ∀ c < g.codim, iteratedDeriv 2 (curve g i c) (brk g (i + 1)) = iteratedDeriv 2 (curve g (i + 1) c) (brk g (i + 1))) {n : ℕ}
    (hc : ∀ s, IsSample g n s → ∀ i, Touches g s i → Clear g.basis (window (vecOf g.tau i) (s - brk g i)))
    (hmove : ∃ s, IsSample g n s ∧ ∃ i, Touches g s i ∧ ∃ c < g.codim, iteratedDeriv 1 (curve g i c) s ≠ 0 ∨ iteratedDeriv 2 (curve g i c) s ≠ 0) :
    ∃ f > 0, (∀ s, IsSample g n s → ∀ i, Touches g s i → ∀ c < g.codim, |iteratedDeriv 1 (curve g i c) s| ≤ f * vecOf vb c ∧ |iteratedDeriv 2 (curve g i c) s| ≤ f ^ 2 * vecOf ab c) ∧
      (∃ s, IsSample g n s ∧ ∃ i, Touches g s i ∧ ∃ c < g.codim, |iteratedDeriv 1 (curve g i c) s| = f * vecOf vb c ∨ |iteratedDeriv 2 (curve g i c) s| = f ^ 2 * vecOf ab c) ∧
      ∃ C ≥ (0 : ℝ), ∃ δ > (0 : ℝ), ∀ u, Small u δ → ∀ κ, 0 ≤ κ → κ ≤ δ → ∀ (x : List ℝ) (e : ℝ), g.dom.1 ≤ e → |e - g.dom.2| ≤ κ → x.length = g.coeffs.length →
        (∀ k < x.length, |vecOf x k - vecOf g.coeffs k| ≤ κ) →
        All (Rounded.factorAt u { g with dom := (g.dom.1, e), coeffs := x } vb ab n) fun o => ∃ f', o = .ok f' ∧ |f' - f| ≤ C * (sz u + κ) := by
  have hz := zero_notMem hp
  set g1 : GSpline := { g with coeffs := Rounded.dco g 1 } with hg1
  set g2 : GSpline := { g with coeffs := Rounded.dco g1 1 } with hg2
  have hcon1 : Consistent g1 := consistent_dco hcon 1
  have hcon2 : Consistent g2 := consistent_dco hcon1 1
  have hp1 : Positive g1 := hp
  have hp2 : Positive g2 := hp
  have hn1 : g.basis.MatOrderOk 1 := by cases hg : g.basis <;> simp [Basis.MatOrderOk]
  have cv1 : ∀ i < g.tau.length, ∀ c < g.codim, curve g1 i c = iteratedDeriv 1 (curve g i c) := fun i hi c hcc =>
    GSpline.curve_deriv hb hdom hcon hz 1 hn1 (deriv_dco hdom hcon hz 1) hi (vecOf_pos hp.2 hi).ne' hcc
  have cv2 : ∀ i < g.tau.length, ∀ c < g.codim, curve g2 i c = iteratedDeriv 2 (curve g i c) := fun i hi c hcc => by
    have h := GSpline.curve_deriv (g := g1) hb hdom hcon1 hz 1 hn1 (deriv_dco (g := g1) hdom hcon1 hz 1) hi (vecOf_pos hp.2 hi).ne' hcc
    have h' : curve g2 i c = iteratedDeriv 1 (curve g1 i c) := h
    rw [h', cv1 i hi c hcc, iteratedDeriv_one, iteratedDeriv_succ (n := 1)]
  have hu1 : Unbroken g1 := unbroken_dco hb hcon hp hdom hn1 hj1
  have hu2 : Unbroken g2 := by
    intro i hi c hcc
    have hi' : i + 1 < g.tau.length := hi
    rw [cv2 i (by omega) c hcc, cv2 (i + 1) hi' c hcc]
    exact hj2 i hi' c hcc
  set S := GSpline.linSpaced (n + 1) g.dom.1 g.dom.2 with hS
  have hSne : S ≠ [] := by rw [hS]; unfold GSpline.linSpaced; simp
  have hK : IsCompact {s | s ∈ S} := (List.finite_toSet S).isCompact
  obtain ⟨C1, δ1, hC1, hδ1, H1⟩ := C103_near g1 hb hpos hcon1 hp1 hu1 {s | s ∈ S} hK (fun s hs i hi => hc s (mem_linSpaced.mp hs) i hi)
  obtain ⟨C2, δ2, hC2, hδ2, H2⟩ := C103_near g2 hb hpos hcon2 hp2 hu2 {s | s ∈ S} hK (fun s hs i hi => hc s (mem_linSpaced.mp hs) i hi)
  obtain ⟨CL, hCL, δL, hδL, HL⟩ := Rounded.linSpaced_near n g.dom.1 g.dom.2
  obtain ⟨CD, hCD, δD, hδD, HD⟩ := derivs_near hb hcon hz
  -- the components at the samples
  have comp1 : ∀ s ∈ S, ∀ i, Touches g s i → ∀ c < g.codim, comp g1 c s = iteratedDeriv 1 (curve g i c) s := by
    intro s hs i hi c hcc
    obtain ⟨v, hv, -⟩ := GSpline.value_total (g := g1) hb hcon1 hp.1 hz s
    rw [← cv1 i hi.1 c hcc, ← value_of_touches (g := g1) hb hcon1 hp1 hu1 (fun i hi => hc s (mem_linSpaced.mp hs) i hi) hv hi hcc, comp_of_value hv]
    rfl
  have comp2 : ∀ s ∈ S, ∀ i, Touches g s i → ∀ c < g.codim, comp g2 c s = iteratedDeriv 2 (curve g i c) s := by
    intro s hs i hi c hcc
    obtain ⟨v, hv, -⟩ := GSpline.value_total (g := g2) hb hcon2 hp.1 hz s
    rw [← cv2 i hi.1 c hcc, ← value_of_touches (g := g2) hb hcon2 hp2 hu2 (fun i hi => hc s (mem_linSpaced.mp hs) i hi) hv hi hcc, comp_of_value hv]
    rfl
  set Mv : ℕ → ℝ := fun c => Tools.maxAbs (S.map (comp g1 c)) with hMv
  set Ma : ℕ → ℝ := fun c => Tools.maxAbs (S.map (comp g2 c)) with hMa
  have lev : ∀ s ∈ S, ∀ c, |comp g1 c s| ≤ Mv c := fun s hs c => Tools.le_maxAbs (List.mem_map.mpr ⟨s, hs, rfl⟩)
  have lea : ∀ s ∈ S, ∀ c, |comp g2 c s| ≤ Ma c := fun s hs c => Tools.le_maxAbs (List.mem_map.mpr ⟨s, hs, rfl⟩)
  obtain ⟨s0, hs0⟩ := List.exists_mem_of_ne_nil S hSne
  have hMa0 : ∀ c < g.codim, 0 ≤ Ma c := fun c _ => (abs_nonneg _).trans (lea s0 hs0 c)
  set F := Rounded.factor0 g.codim Mv Ma vb ab with hF
  have Fv : ∀ c < g.codim, Mv c / vecOf vb c ≤ F := fun c hc =>
    (Tools.le_maxCoeff (l := (List.range g.codim).map fun c => Mv c / vecOf vb c) (List.mem_map.mpr ⟨c, List.mem_range.mpr hc, rfl⟩)).trans (le_max_left _ _)
  have Fa : ∀ c < g.codim, √(Ma c / vecOf ab c) ≤ F := fun c hc =>
    (Tools.le_maxCoeff (l := (List.range g.codim).map fun c => √(Ma c / vecOf ab c)) (List.mem_map.mpr ⟨c, List.mem_range.mpr hc, rfl⟩)).trans (le_max_right _ _)
  have hFpos : 0 < F := by
    obtain ⟨s, hs, i, hi, c, hcc, h | h⟩ := hmove
    · have hs' := mem_linSpaced.mpr hs
      rw [← comp1 s hs' i hi c hcc] at h
      exact lt_of_lt_of_le (div_pos (lt_of_lt_of_le (abs_pos.mpr h) (lev s hs' c)) (hvp c hcc)) (Fv c hcc)
    · have hs' := mem_linSpaced.mpr hs
      rw [← comp2 s hs' i hi c hcc] at h
      exact lt_of_lt_of_le (Real.sqrt_pos.mpr (div_pos (lt_of_lt_of_le (abs_pos.mpr h) (lea s hs' c)) (hap c hcc))) (Fa c hcc)
  obtain ⟨CF, hCF, δF, hδF, HF⟩ := Rounded.factor_rate hcod hvp hap hMa0 hFpos
  refine ⟨F, hFpos, fun s hs i hi c hcc => ?_, ?_, ?_⟩
  · have hs' := mem_linSpaced.mpr hs
    rw [← comp1 s hs' i hi c hcc, ← comp2 s hs' i hi c hcc]
    constructor
    · have := Fv c hcc
      rw [div_le_iff₀ (hvp c hcc)] at this
      exact (lev s hs' c).trans this
    · have := Fa c hcc
      rw [Real.sqrt_le_left hFpos.le, div_le_iff₀ (hap c hcc)] at this
      exact (lea s hs' c).trans this
  · have hr : ((List.range g.codim).map fun c => Mv c / vecOf vb c) ≠ [] := by simp; omega
    have hr' : ((List.range g.codim).map fun c => √(Ma c / vecOf ab c)) ≠ [] := by simp; omega
    rcases max_choice (Tools.maxCoeff ((List.range g.codim).map fun c => Mv c / vecOf vb c)) (Tools.maxCoeff ((List.range g.codim).map fun c => √(Ma c / vecOf ab c))) with hm | hm
    · obtain ⟨x, hx, e⟩ := Tools.exists_maxCoeff hr
      obtain ⟨c, hcm, rfl⟩ := List.mem_map.mp hx
      have hcc := List.mem_range.mp hcm
      have h3 : F = Mv c / vecOf vb c := by rw [hF]; unfold Rounded.factor0; rw [hm, e]
      obtain ⟨y, hy, e'⟩ := Tools.exists_maxAbs (l := S.map (comp g1 c)) (by simpa using hSne)
      obtain ⟨s, hs, rfl⟩ := List.mem_map.mp hy
      obtain ⟨i, hi⟩ := touches_exists hp s
      refine ⟨s, mem_linSpaced.mp hs, i, hi, c, hcc, .inl ?_⟩
      rw [← comp1 s hs i hi c hcc, h3, div_mul_cancel₀ _ (hvp c hcc).ne']
      exact e'.symm
    · obtain ⟨x, hx, e⟩ := Tools.exists_maxCoeff hr'
      obtain ⟨c, hcm, rfl⟩ := List.mem_map.mp hx
      have hcc := List.mem_range.mp hcm
      have h3 : F = √(Ma c / vecOf ab c) := by rw [hF]; unfold Rounded.factor0; rw [hm, e]
      obtain ⟨y, hy, e'⟩ := Tools.exists_maxAbs (l := S.map (comp g2 c)) (by simpa using hSne)
      obtain ⟨s, hs, rfl⟩ := List.mem_map.mp hy
      obtain ⟨i, hi⟩ := touches_exists hp s
      refine ⟨s, mem_linSpaced.mp hs, i, hi, c, hcc, .inr ?_⟩
      rw [← comp2 s hs i hi c hcc, h3, Real.sq_sqrt (div_nonneg (hMa0 c hcc) (hap c hcc).le), div_mul_cancel₀ _ (hap c hcc).ne']
      exact e'.symm
  -- the errors
  set E := CL + CD with hE
  have hE0 : 0 ≤ E := by positivity
  set V := (C1 + C2) * (1 + E) with hV
  have hV0 : 0 ≤ V := by positivity
  set d := min (min δL δD) (min (min δ1 δ2) δF / (3 * (E + V) + 1)) with hd
  have hd0 : 0 < d := lt_min (lt_min hδL hδD) (div_pos (lt_min (lt_min hδ1 hδ2) hδF) (by positivity))
  have dL : d ≤ δL := (min_le_left _ _).trans (min_le_left _ _)
  have dD : d ≤ δD := (min_le_left _ _).trans (min_le_right _ _)
  have dq : d * (3 * (E + V) + 1) ≤ min (min δ1 δ2) δF := by
    have := min_le_right (min δL δD) (min (min δ1 δ2) δF / (3 * (E + V) + 1))
    rwa [le_div_iff₀ (by positivity)] at this
  have dm : d ≤ min (min δ1 δ2) δF := by
    have : 0 ≤ d * (3 * (E + V)) := by positivity
    linarith
  have m1 := (min_le_left (min δ1 δ2) δF).trans (min_le_left _ _)
  have m2 := (min_le_left (min δ1 δ2) δF).trans (min_le_right _ _)
  have m3 := min_le_right (min δ1 δ2) δF
  refine ⟨CF * (1 + V), by positivity, d, hd0, fun u hu κ hκ hκd x e hde hee hxl hx o ho => ?_⟩
  have hs0 := sz_nonneg hu
  set z := sz u + κ with hzd
  have hs : 0 ≤ z := by positivity
  have hs2 : z ≤ 3 * d := by have := sz_le hu; linarith
  have hEs : E * z ≤ min (min δ1 δ2) δF := by
    have := mul_le_mul_of_nonneg_left hs2 hE0
    have : 0 ≤ V * d := by positivity
    linarith
  have hVs : V * z ≤ δF := by
    have := mul_le_mul_of_nonneg_left hs2 hV0
    have : 0 ≤ E * d := by positivity
    linarith
  have hE0s : 0 ≤ E * z := by positivity
  have eL : CL * z ≤ E * z := mul_le_mul_of_nonneg_right (by rw [hE]; linarith) hs
  have eD : CD * z ≤ E * z := mul_le_mul_of_nonneg_right (by rw [hE]; linarith) hs
  have hsz : sz u ≤ z := by linarith
  have v1 : C1 * (sz u + E * z) ≤ V * z := by
    have : 0 ≤ C2 * (1 + E) * z := by positivity
    have := mul_le_mul_of_nonneg_left hsz hC1
    rw [hV]; linarith
  have v2 : C2 * (sz u + E * z) ≤ V * z := by
    have : 0 ≤ C1 * (1 + E) * z := by positivity
    have := mul_le_mul_of_nonneg_left hsz hC2
    rw [hV]; linarith
  unfold Rounded.factorAt at ho
  have hLr := HL u (Nd.small_mono dL hu) κ hκ (hκd.trans dL) e hee
  rcases ho with ⟨e, he, -⟩ | ⟨ts, hts, ho⟩
  · obtain ⟨_, h, _⟩ := hLr _ he; cases h
  obtain ⟨_, h, hts⟩ := hLr _ hts
  cases h
  have htF : List.Forall₂ (fun t s => |t - s| ≤ E * z) ts S := hts.imp fun t s h => le_trans h eL
  have hDr := HD u (Nd.small_mono dD hu) κ hκ (hκd.trans dD) x e hde hxl hx
  rcases ho with ⟨e, he, -⟩ | ⟨x1, hx1, ho⟩
  · obtain ⟨_, h, _⟩ := hDr _ he; cases h
  obtain ⟨_, h, near1, hDr2⟩ := hDr _ hx1
  cases h
  rcases ho with ⟨e, he, -⟩ | ⟨x2, hx2, ho⟩
  · obtain ⟨_, h, _⟩ := hDr2 _ he; cases h
  obtain ⟨_, h, near2⟩ := hDr2 _ hx2
  cases h
  have a1 := Rounded.all_mapM2 (f := Rounded.value u x1) (P := fun s v => ∀ c < g.codim, |vecOf v c - comp g1 c s| ≤ V * z) htF (fun t s hs ht o ho => by
    obtain ⟨v, e, q1, q2, -, -, q5⟩ := H1 s hs u (Nd.small_mono (dm.trans m1) hu) _ hE0s (hEs.trans m1) x1 (near_mono eD near1) t ht o ho
    refine ⟨v, q1, fun c hcc => ?_⟩
    rw [comp_of_value q2]
    exact (q5 c hcc).trans v1)
  have a2 := Rounded.all_mapM2 (f := Rounded.value u x2) (P := fun s v => ∀ c < g.codim, |vecOf v c - comp g2 c s| ≤ V * z) htF (fun t s hs ht o ho => by
    obtain ⟨v, e, q1, q2, -, -, q5⟩ := H2 s hs u (Nd.small_mono (dm.trans m2) hu) _ hE0s (hEs.trans m2) x2 (near_mono eD near2) t ht o ho
    refine ⟨v, q1, fun c hcc => ?_⟩
    rw [comp_of_value q2]
    exact (q5 c hcc).trans v2)
  rcases ho with ⟨e, he, -⟩ | ⟨vel, hvel, ho⟩
  · obtain ⟨_, h, _⟩ := a1 _ he; cases h
  obtain ⟨_, h, hvel⟩ := a1 _ hvel
  cases h
  rcases ho with ⟨e, he, -⟩ | ⟨acc, hacc, ho⟩
  · obtain ⟨_, h, _⟩ := a2 _ he; cases h
  obtain ⟨_, h, hacc⟩ := a2 _ hacc
  cases h
  rw [if_neg hcod.ne'] at ho
  obtain ⟨f', e, hf'⟩ := HF u (Nd.small_mono (dm.trans m3) hu) (V * z) (by positivity) hVs vel acc (fun c hcc => (columns_near hSne hvel hcc).2) (fun c hcc => columns_near hSne hacc hcc) o ho
  refine ⟨f', e, hf'.trans ?_⟩
  have := mul_le_mul_of_nonneg_left (show sz u + V * z ≤ (1 + V) * z by linarith) hCF
  linarith

theorem touches_scaled {g : GSpline} {f : ℝ} (hf : 0 < f) (e t : ℝ) {i : ℕ} (h : Touches g t i) : Touches (g.scaled f e) (g.dom.1 + f * (t - g.dom.1)) i := by
  obtain ⟨h1, h2, h3⟩ := h
  have hl : (g.scaled f e).tau.length = g.tau.length := by simp [GSpline.scaled]
  unfold Touches
  rw [GSpline.brk_scaled, GSpline.brk_scaled, hl]
  refine ⟨h1, h2.imp_left fun h => ?_, h3.imp_left fun h => ?_⟩
  · have := mul_le_mul_of_nonneg_left (sub_le_sub_right h g.dom.1) hf.le
    linarith
  · have := mul_le_mul_of_nonneg_left (sub_le_sub_right h g.dom.1) hf.le
    linarith

/-- **C104** (inexact data). As `C104_bounds`, for a spline whose coefficients and end of the domain are off those of `g` by at most `κ`: up to errors proportional to the rounding errors
and `κ`, the result is `g` itself run `f` times slower, with the bounds respected by this exact curve. -/
theorem C104_perturbed (g : GSpline) (hb : g.basis.Valid) (hpos : ∀ a, g.basis = .b0101 a → 0 < a) (hcon : Consistent g) (hp : Positive g) (hdom : g.dom.1 < g.dom.2) (hcod : 0 < g.codim)
    (vb ab : List ℝ) (hv : vb.length = g.codim) (ha : ab.length = g.codim) (hvp : ∀ c < g.codim, 0 < vecOf vb c) (hap : ∀ c < g.codim, 0 < vecOf ab c) (dt : ℝ) (hdt : 1 / 10 ^ 8 ≤ dt)
    (hj : ∀ d ≤ 2, ∀ i, i + 1 < g.tau.length → ∀ c < g.codim, iteratedDeriv d (curve g i c) (brk g (i + 1)) = iteratedDeriv d (curve g (i + 1) c) (brk g (i + 1)))
    (hc : ∀ n, SegmentCount (g.dom.2 - g.dom.1) dt n → ∀ s, IsSample g n s → ∀ i, Touches g s i → Clear g.basis (window (vecOf g.tau i) (s - brk g i)))
    (hmove : ∀ n, SegmentCount (g.dom.2 - g.dom.1) dt n → ∃ s, IsSample g n s ∧ ∃ i, Touches g s i ∧ ∃ c < g.codim,
      iteratedDeriv 1 (curve g i c) s ≠ 0 ∨ iteratedDeriv 2 (curve g i c) s ≠ 0)
    (K : Set ℝ) (hK : IsCompact K) (hcK : ∀ t ∈ K, ∀ i, Touches g t i → Clear g.basis (window (vecOf g.tau i) (t - brk g i))) :
    ∃ C δ : ℝ, 0 ≤ C ∧ 0 < δ ∧ ∀ u, Small u δ → ∀ κ, 0 ≤ κ → κ ≤ δ → ∀ (x : List ℝ) (e : ℝ), |e - g.dom.2| ≤ κ → x.length = g.coeffs.length →
      (∀ k < x.length, |vecOf x k - vecOf g.coeffs k| ≤ κ) → ∀ o, Rounded.maxVelAcc u { g with dom := (g.dom.1, e), coeffs := x } vb ab dt o → ∃ r r0 n f, o = .ok r ∧ SegmentCount (g.dom.2 - g.dom.1) dt n ∧ 0 < f ∧
      r0.dom = (g.dom.1, g.dom.1 + f * g.tau.sum) ∧ (∀ t, r0.value (g.dom.1 + f * (t - g.dom.1)) = g.value t) ∧
      (∀ s, IsSample g n s → ∀ i, Touches r0 (g.dom.1 + f * (s - g.dom.1)) i → ∀ c < g.codim,
        |iteratedDeriv 1 (curve r0 i c) (g.dom.1 + f * (s - g.dom.1))| ≤ vecOf vb c ∧ |iteratedDeriv 2 (curve r0 i c) (g.dom.1 + f * (s - g.dom.1))| ≤ vecOf ab c) ∧
      (∃ s, IsSample g n s ∧ ∃ i, Touches r0 (g.dom.1 + f * (s - g.dom.1)) i ∧ ∃ c < g.codim,
        |iteratedDeriv 1 (curve r0 i c) (g.dom.1 + f * (s - g.dom.1))| = vecOf vb c ∨ |iteratedDeriv 2 (curve r0 i c) (g.dom.1 + f * (s - g.dom.1))| = vecOf ab c) ∧
      NearSpline (C * (u.1 + u.2 + κ)) r r0 ∧ r.coeffs = x ∧ |r.dom.2 - r0.dom.2| ≤ C * (u.1 + u.2 + κ) ∧
      ∀ u', Small u' δ → ∀ ε, 0 ≤ ε → ε ≤ δ → ∀ t ∈ K, ∀ t', |t' - (g.dom.1 + f * (t - g.dom.1))| ≤ ε → ∀ o', Rounded.value u' r t' o' →
        ∃ v e, o' = .ok v ∧ g.value t = .ok e ∧ v.length = g.codim ∧ e.length = g.codim ∧ ∀ c < g.codim, |vecOf v c - vecOf e c| ≤ C * (u.1 + u.2 + κ + u'.1 + u'.2 + ε) := by
  have hpo := GSpline.paramOk_of_valid hb
  have hdt0 : 0 < dt := lt_of_lt_of_le (by norm_num) hdt
  have hub : Unbroken g := fun i hi c hcc => by simpa using hj 0 (by norm_num) i hi c hcc
  set L := g.dom.2 - g.dom.1 with hL
  have hcore : ∃ C ≥ (0 : ℝ), ∃ δ > (0 : ℝ), ∀ n < ⌊L / dt⌋₊ + 1, SegmentCount L dt n → ∃ f > 0,
      ((∀ s, IsSample g n s → ∀ i, Touches g s i → ∀ c < g.codim, |iteratedDeriv 1 (curve g i c) s| ≤ f * vecOf vb c ∧ |iteratedDeriv 2 (curve g i c) s| ≤ f ^ 2 * vecOf ab c) ∧
      (∃ s, IsSample g n s ∧ ∃ i, Touches g s i ∧ ∃ c < g.codim, |iteratedDeriv 1 (curve g i c) s| = f * vecOf vb c ∨ |iteratedDeriv 2 (curve g i c) s| = f ^ 2 * vecOf ab c)) ∧
      ∀ u, Small u δ → ∀ κ, 0 ≤ κ → κ ≤ δ → ∀ (x : List ℝ) (e : ℝ), g.dom.1 ≤ e → |e - g.dom.2| ≤ κ → x.length = g.coeffs.length → (∀ k < x.length, |vecOf x k - vecOf g.coeffs k| ≤ κ) →
        ∀ o, (Rounded.factorAt u { g with dom := (g.dom.1, e), coeffs := x } vb ab n >>= fun f => Rounded.scaleBy u { g with dom := (g.dom.1, e), coeffs := x } f) o → ∃ r, o = .ok r ∧
        NearSpline (C * (sz u + κ)) r (g.scaled f (g.dom.1 + f * g.tau.sum)) ∧ r.coeffs = x ∧ |r.dom.2 - (g.dom.1 + f * g.tau.sum)| ≤ C * (sz u + κ) ∧
        ∀ u', Small u' δ → ∀ ε, 0 ≤ ε → ε ≤ δ → ∀ t ∈ K, ∀ t', |t' - (g.dom.1 + f * (t - g.dom.1))| ≤ ε → ∀ o', Rounded.value u' r t' o' →
          ∃ v e, o' = .ok v ∧ g.value t = .ok e ∧ v.length = g.codim ∧ e.length = g.codim ∧ ∀ c < g.codim, |vecOf v c - vecOf e c| ≤ C * (sz u + κ + sz u' + ε) := by
    refine Rounded.common_consts _ ?_ ?_
    · intro n C C' δ δ' hCC hδδ H hn
      obtain ⟨f, hf, hfacts, H⟩ := H hn
      refine ⟨f, hf, hfacts, fun u hu κ hκ hκδ x e hde hee hxl hx o ho => ?_⟩
      have hs : 0 ≤ sz u + κ := add_nonneg (sz_nonneg hu) hκ
      obtain ⟨r, e1, e2, e3, e4, e5⟩ := H u (Nd.small_mono hδδ hu) κ hκ (hκδ.trans hδδ) x e hde hee hxl hx o ho
      refine ⟨r, e1, near_mono (mul_le_mul_of_nonneg_right hCC hs) e2, e3, e4.trans (mul_le_mul_of_nonneg_right hCC hs), fun u' hu' ε hε hεδ t ht t' ht' o' ho' => ?_⟩
      obtain ⟨v, e, q1, q2, q3, q4, q5⟩ := e5 u' (Nd.small_mono hδδ hu') ε hε (hεδ.trans hδδ) t ht t' ht' o' ho'
      exact ⟨v, e, q1, q2, q3, q4, fun c hcc => (q5 c hcc).trans (mul_le_mul_of_nonneg_right hCC (by have := sz_nonneg hu'; positivity))⟩
    · intro n hnN
      by_cases hn : SegmentCount L dt n
      swap
      · exact ⟨0, le_rfl, 1, one_pos, fun h => absurd h hn⟩
      obtain ⟨f, hf, hf1, hf2, CF, hCF, δF, hδF, HF⟩ := factorAt_near hb hpos hcon hp hdom.le hcod hvp hap (hj 1 (by norm_num)) (hj 2 le_rfl) (hc n hn) (hmove n hn)
      obtain ⟨CS, hCS, δS, hδS, HS⟩ := Rounded.scaleBy_near hb hpos hcon hp hf
      obtain ⟨CV, δV, hCV, hδV, HV⟩ := C103_near (g.scaled f (g.dom.1 + f * g.tau.sum)) (GSpline.scaledBasis_valid hb _) (fun a ha => by
          cases hg : g.basis with
          | b0101 a0 =>
            simp only [GSpline.scaled, hg, GSpline.scaledBasis, Basis.b0101.injEq] at ha
            rw [← ha]
            rw [hg] at hb
            exact scaledAlpha_pos (hpos a0 hg) hb.2 hf
          | legendre d => simp [GSpline.scaled, hg, GSpline.scaledBasis] at ha
          | lagrange x => simp [GSpline.scaled, hg, GSpline.scaledBasis] at ha)
        (GSpline.consistent_scaled hcon _ _) (scaled_positive hp hf _) (scaled_unbroken hpo hub hf _) ((fun t => g.dom.1 + f * (t - g.dom.1)) '' K)
        (hK.image (by fun_prop)) (by
          rintro _ ⟨t, ht, rfl⟩ i hi
          have hi' := scaled_touches hf _ t hi
          exact scaled_clear hf _ t hi'.1 (hcK t ht i hi'))
      set D := CS * (1 + CF) with hD
      have hD0 : 0 ≤ D := by positivity
      set d := min (min δF δS) (min δS δV / (4 * (CF + D + 1))) with hd
      have hd0 : 0 < d := lt_min (lt_min hδF hδS) (div_pos (lt_min hδS hδV) (by positivity))
      have dF : d ≤ δF := (min_le_left _ _).trans (min_le_left _ _)
      have dS : d ≤ δS := (min_le_left _ _).trans (min_le_right _ _)
      have dq : d * (4 * (CF + D + 1)) ≤ min δS δV := by
        have := min_le_right (min δF δS) (min δS δV / (4 * (CF + D + 1)))
        rwa [le_div_iff₀ (by positivity)] at this
      have mS := min_le_left δS δV
      have mV := min_le_right δS δV
      have p1 : 0 ≤ CF * d := by positivity
      have p2 : 0 ≤ D * d := by positivity
      have dV : d ≤ δV := by linarith
      refine ⟨CV * (D + 2) + D, by positivity, d, hd0, fun _ => ⟨f, hf, ⟨hf1, hf2⟩, fun u hu κ hκ hκd x e hde hee hxl hx o ho => ?_⟩⟩
      have hs0 := sz_nonneg hu
      set z := sz u + κ with hzd
      have hs : 0 ≤ z := by positivity
      have hs2 : z ≤ 3 * d := by have := sz_le hu; linarith
      have qF : CF * z ≤ CF * (3 * d) := mul_le_mul_of_nonneg_left hs2 hCF
      have qD : D * z ≤ D * (3 * d) := mul_le_mul_of_nonneg_left hs2 hD0
      have hr : ∃ r, o = .ok r ∧ NearSpline (D * z) r (g.scaled f (g.dom.1 + f * g.tau.sum)) ∧ |r.dom.2 - (g.dom.1 + f * g.tau.sum)| ≤ D * z ∧ r.coeffs = x := by
        have HF' := HF u (Nd.small_mono dF hu) κ hκ (hκd.trans dF) x e hde hee hxl hx
        rcases ho with ⟨e, he, -⟩ | ⟨f', hf', ho⟩
        · obtain ⟨_, h, _⟩ := HF' _ he; cases h
        obtain ⟨_, h, hff⟩ := HF' _ hf'
        cases h
        have hCFz : 0 ≤ CF * z := by positivity
        obtain ⟨r, q1, q2, q3, q4⟩ := HS u (Nd.small_mono dS hu) (CF * z + κ) (by positivity) (by linarith) f' (hff.trans (by linarith)) x e hxl (fun k hk => (hx k hk).trans (by linarith)) o ho
        have hE : CS * (sz u + (CF * z + κ)) = D * z := by rw [hD, hzd]; ring
        rw [hE] at q2 q3
        exact ⟨r, q1, q2, q3, q4⟩
      obtain ⟨r, rfl, hnear, hend, hco⟩ := hr
      have hDs : 0 ≤ D * z := by positivity
      have hle : D * z ≤ (CV * (D + 2) + D) * z := mul_le_mul_of_nonneg_right (le_add_of_nonneg_left (by positivity)) hs
      refine ⟨r, rfl, near_mono hle hnear, hco, hend.trans hle, fun u' hu' ε hε hεd t ht t' ht' o' ho' => ?_⟩
      have hs' := sz_nonneg hu'
      have hns : NearSpline (D * z + ε) r (g.scaled f (g.dom.1 + f * g.tau.sum)) := near_mono (by linarith) hnear
      obtain ⟨v, e, e1, e2, e3, e4, e5⟩ := HV _ ⟨t, ht, rfl⟩ u' (Nd.small_mono dV hu') (D * z + ε) (by positivity) (by linarith) r hns t' (ht'.trans (by linarith)) o' ho'
      rw [GSpline.value_scaled hpo hcon hp.1 hf] at e2
      refine ⟨v, e, e1, e2, e3, e4, fun c hcc => (e5 c hcc).trans ?_⟩
      have a1 : 0 ≤ CV * z := by positivity
      have a2 : 0 ≤ CV * ε := by positivity
      have a3 : 0 ≤ CV * sz u' := by positivity
      have a4 : 0 ≤ D * (z + sz u' + ε) := by positivity
      have a5 : 0 ≤ CV * D * sz u' := by positivity
      have a6 : 0 ≤ CV * D * ε := by positivity
      change CV * (sz u' + (D * z + ε)) ≤ (CV * (D + 2) + D) * (z + sz u' + ε)
      nlinarith
  obtain ⟨C, hC, δ, hδ, H⟩ := hcore
  obtain ⟨η, hη, hseg⟩ := segments_count hdom hdt0
  refine ⟨C, min (min δ η) L, hC, lt_min (lt_min hδ hη) (by rw [hL]; linarith), fun u hu κ hκ hκδ x e hee hxl hx o ho => ?_⟩
  have hde : g.dom.1 ≤ e := by
    have h1 := (abs_le.mp hee).1
    have h2 := hκδ.trans (min_le_right _ _)
    rw [hL] at h2
    linarith
  have l1 : min (min δ η) L ≤ δ := (min_le_left _ _).trans (min_le_left _ _)
  have l2 : min (min δ η) L ≤ η := (min_le_left _ _).trans (min_le_right _ _)
  unfold Rounded.maxVelAcc at ho
  rw [if_neg (not_lt.mpr hdt), if_neg (by simp [hv, ha])] at ho
  have hseg := hseg u (Nd.small_mono l2 hu) e (hee.trans (hκδ.trans l2)) x
  rcases ho with ⟨e, he, -⟩ | ⟨n, hn, ho⟩
  · obtain ⟨_, h, _⟩ := hseg _ he; cases h
  obtain ⟨_, h, hn⟩ := hseg _ hn
  cases h
  have hnN : n < ⌊L / dt⌋₊ + 1 := by
    rcases hn with h | h
    · rw [h]; exact Nat.lt_succ_self _
    · exact Nat.lt_succ_of_le (Nat.le_floor (by rw [← hL] at h; linarith))
  obtain ⟨f, hf, ⟨hf1, hf2⟩, Hn⟩ := H n hnN hn
  obtain ⟨r, rfl, e2, e3, e4, e5⟩ := Hn u (Nd.small_mono l1 hu) κ hκ (hκδ.trans l1) x e hde hee hxl hx o ho
  have eq1 : ∀ i < g.tau.length, ∀ c s, |iteratedDeriv 1 (curve (g.scaled f (g.dom.1 + f * g.tau.sum)) i c) (g.dom.1 + f * (s - g.dom.1))| = |iteratedDeriv 1 (curve g i c) s| / f := by
    intro i hi c s
    rw [GSpline.iteratedDeriv_scaled hpo hf _ hi, abs_mul, abs_of_pos (by positivity), pow_one, inv_mul_eq_div]
  have eq2 : ∀ i < g.tau.length, ∀ c s, |iteratedDeriv 2 (curve (g.scaled f (g.dom.1 + f * g.tau.sum)) i c) (g.dom.1 + f * (s - g.dom.1))| = |iteratedDeriv 2 (curve g i c) s| / f ^ 2 := by
    intro i hi c s
    rw [GSpline.iteratedDeriv_scaled hpo hf _ hi, abs_mul, abs_of_pos (by positivity), inv_pow, inv_mul_eq_div]
  refine ⟨r, g.scaled f (g.dom.1 + f * g.tau.sum), n, f, rfl, hn, hf, rfl, fun t => GSpline.value_scaled hpo hcon hp.1 hf _ t, fun s hs i hi c hcc => ?_, ?_, e2, e3, e4,
    fun u' hu' ε hε hεδ t ht t' ht' o' ho' => ?_⟩
  · have hi' := scaled_touches hf _ s hi
    rw [eq1 i hi'.1, eq2 i hi'.1, div_le_iff₀ hf, div_le_iff₀ (by positivity), mul_comm (vecOf vb c), mul_comm (vecOf ab c)]
    exact hf1 s hs i hi' c hcc
  · obtain ⟨s, hs, i, hi, c, hcc, h⟩ := hf2
    refine ⟨s, hs, i, touches_scaled hf _ s hi, c, hcc, ?_⟩
    rw [eq1 i hi.1, eq2 i hi.1, div_eq_iff hf.ne', div_eq_iff (by positivity), mul_comm (vecOf vb c), mul_comm (vecOf ab c)]
    exact h
  · obtain ⟨v, e, q1, q2, q3, q4, q5⟩ := e5 u' (Nd.small_mono l1 hu') ε hε (hεδ.trans l1) t ht t' ht' o' ho'
    refine ⟨v, e, q1, q2, q3, q4, fun c hcc => (q5 c hcc).trans (le_of_eq ?_)⟩
    unfold sz
    ring

/-- **C104.** Scale a spline, of which position, velocity and acceleration have no jumps and which moves at some sample, to bounds of the velocity and the acceleration, with rounded
operations. If the rounding errors are small enough the call succeeds. Up to errors of the interval lengths, of the parameter of the basis and of the end of the domain that are
proportional to the rounding errors, the result is the original run `f` times slower, which respects both bounds at all samples in all components and attains one of them. Evaluating
the result, with rounded operations, gives the original at the corresponding time up to a constant times the sum of the errors. -/
theorem C104_bounds (g : GSpline) (hb : g.basis.Valid) (hpos : ∀ a, g.basis = .b0101 a → 0 < a) (hcon : Consistent g) (hp : Positive g) (hdom : g.dom.1 < g.dom.2) (hcod : 0 < g.codim)
    (vb ab : List ℝ) (hv : vb.length = g.codim) (ha : ab.length = g.codim) (hvp : ∀ c < g.codim, 0 < vecOf vb c) (hap : ∀ c < g.codim, 0 < vecOf ab c) (dt : ℝ) (hdt : 1 / 10 ^ 8 ≤ dt)
    (hj : ∀ d ≤ 2, ∀ i, i + 1 < g.tau.length → ∀ c < g.codim, iteratedDeriv d (curve g i c) (brk g (i + 1)) = iteratedDeriv d (curve g (i + 1) c) (brk g (i + 1)))
    (hc : ∀ n, SegmentCount (g.dom.2 - g.dom.1) dt n → ∀ s, IsSample g n s → ∀ i, Touches g s i → Clear g.basis (window (vecOf g.tau i) (s - brk g i)))
    (hmove : ∀ n, SegmentCount (g.dom.2 - g.dom.1) dt n → ∃ s, IsSample g n s ∧ ∃ i, Touches g s i ∧ ∃ c < g.codim,
      iteratedDeriv 1 (curve g i c) s ≠ 0 ∨ iteratedDeriv 2 (curve g i c) s ≠ 0)
    (K : Set ℝ) (hK : IsCompact K) (hcK : ∀ t ∈ K, ∀ i, Touches g t i → Clear g.basis (window (vecOf g.tau i) (t - brk g i))) :
    ∃ C δ : ℝ, 0 ≤ C ∧ 0 < δ ∧ ∀ u, Small u δ → ∀ o, Rounded.maxVelAcc u g vb ab dt o → ∃ r r0 n f, o = .ok r ∧ SegmentCount (g.dom.2 - g.dom.1) dt n ∧ 0 < f ∧
      r0.dom = (g.dom.1, g.dom.1 + f * g.tau.sum) ∧ (∀ t, r0.value (g.dom.1 + f * (t - g.dom.1)) = g.value t) ∧
      (∀ s, IsSample g n s → ∀ i, Touches r0 (g.dom.1 + f * (s - g.dom.1)) i → ∀ c < g.codim,
        |iteratedDeriv 1 (curve r0 i c) (g.dom.1 + f * (s - g.dom.1))| ≤ vecOf vb c ∧ |iteratedDeriv 2 (curve r0 i c) (g.dom.1 + f * (s - g.dom.1))| ≤ vecOf ab c) ∧
      (∃ s, IsSample g n s ∧ ∃ i, Touches r0 (g.dom.1 + f * (s - g.dom.1)) i ∧ ∃ c < g.codim,
        |iteratedDeriv 1 (curve r0 i c) (g.dom.1 + f * (s - g.dom.1))| = vecOf vb c ∨ |iteratedDeriv 2 (curve r0 i c) (g.dom.1 + f * (s - g.dom.1))| = vecOf ab c) ∧
      NearSpline (C * (u.1 + u.2)) r r0 ∧ r.coeffs = g.coeffs ∧ |r.dom.2 - r0.dom.2| ≤ C * (u.1 + u.2) ∧
      ∀ u', Small u' δ → ∀ ε, 0 ≤ ε → ε ≤ δ → ∀ t ∈ K, ∀ t', |t' - (g.dom.1 + f * (t - g.dom.1))| ≤ ε → ∀ o', Rounded.value u' r t' o' →
        ∃ v e, o' = .ok v ∧ g.value t = .ok e ∧ v.length = g.codim ∧ e.length = g.codim ∧ ∀ c < g.codim, |vecOf v c - vecOf e c| ≤ C * (u.1 + u.2 + u'.1 + u'.2 + ε) := by
  obtain ⟨C, δ, hC, hδ, H⟩ := C104_perturbed g hb hpos hcon hp hdom hcod vb ab hv ha hvp hap dt hdt hj hc hmove K hK hcK
  refine ⟨C, δ, hC, hδ, fun u hu o ho => ?_⟩
  have := H u hu 0 le_rfl hδ.le g.coeffs g.dom.2 (by simp) rfl (fun k _ => by simp) o ho
  simpa only [add_zero] using this

/-- **C104** (interpolation, then scaling to bounds, then evaluation), every step with rounded operations and a backward stable solver. With at least four basis
functions the velocity and the acceleration of an interpolating curve have no jumps. -/
theorem C104_interpolated (b : Basis) (hb : Interpolable b) (hpos : ∀ a, b = .b0101 a → 0 < a) (hcl : Clear b (-1)) (hcr : Clear b 1) (tau : List ℝ) (hne : tau ≠ [])
    (ht : ∀ t ∈ tau, 1 / 10 ^ 6 ≤ t) (w : Pts) (hw : w.rows = tau.length + 1) (lu0 : LU) (hlu0 : LUContract lu0) (junk : Vec) (g0 : GSpline)
    (hg0 : interpolateFn lu0 junk tau w b = .ok g0) (hcod : 0 < w.cols) (hdim : 4 ≤ b.dim)
    (vb ab : List ℝ) (hv : vb.length = w.cols) (ha : ab.length = w.cols) (hvp : ∀ c < w.cols, 0 < vecOf vb c) (hap : ∀ c < w.cols, 0 < vecOf ab c) (dt : ℝ) (hdt : 1 / 10 ^ 8 ≤ dt)
    (hc : ∀ n, SegmentCount tau.sum dt n → ∀ s, IsSample g0 n s → ∀ i, Touches g0 s i → Clear b (window (vecOf tau i) (s - brk g0 i)))
    (hmove : ∀ n, SegmentCount tau.sum dt n → ∃ s, IsSample g0 n s ∧ ∃ i, Touches g0 s i ∧ ∃ c < w.cols, iteratedDeriv 1 (curve g0 i c) s ≠ 0 ∨ iteratedDeriv 2 (curve g0 i c) s ≠ 0)
    (K : Set ℝ) (hK : IsCompact K) (hcK : ∀ t ∈ K, ∀ i, Touches g0 t i → Clear b (window (vecOf tau i) (t - brk g0 i))) :
    ∃ C δ : ℝ, 0 ≤ C ∧ 0 < δ ∧ ∀ u u', Small u δ → Small u' δ → ∀ η, 0 ≤ η → η ≤ δ → ∀ lu, StableLU η (b.dim * w.cols * tau.length) lu →
      ∀ s, RReach w.cols tau.length b s → ∀ r, Rounded.interpolate u lu s tau w r → ∃ s' g, r = .ok (s', g) ∧ ∀ o, Rounded.maxVelAcc u' g vb ab dt o →
        ∃ d r0 n f, o = .ok d ∧ SegmentCount tau.sum dt n ∧ 0 < f ∧ r0.dom = (0, f * tau.sum) ∧ (∀ t, r0.value (f * t) = g0.value t) ∧
          (∀ s, IsSample g0 n s → ∀ i, Touches r0 (f * s) i → ∀ c < w.cols, |iteratedDeriv 1 (curve r0 i c) (f * s)| ≤ vecOf vb c ∧ |iteratedDeriv 2 (curve r0 i c) (f * s)| ≤ vecOf ab c) ∧
          (∃ s, IsSample g0 n s ∧ ∃ i, Touches r0 (f * s) i ∧ ∃ c < w.cols, |iteratedDeriv 1 (curve r0 i c) (f * s)| = vecOf vb c ∨ |iteratedDeriv 2 (curve r0 i c) (f * s)| = vecOf ab c) ∧
          NearSpline (C * (u.1 + u.2 + u'.1 + u'.2 + η)) d r0 ∧ |d.dom.2 - r0.dom.2| ≤ C * (u.1 + u.2 + u'.1 + u'.2 + η) ∧
          ∀ u'', Small u'' δ → ∀ t ∈ K, ∀ ε, 0 ≤ ε → ε ≤ δ → ∀ t', |t' - f * t| ≤ ε → ∀ o', Rounded.value u'' d t' o' →
            ∃ v e, o' = .ok v ∧ g0.value t = .ok e ∧ v.length = w.cols ∧ e.length = w.cols ∧
              ∀ c < w.cols, |vecOf v c - vecOf e c| ≤ C * (u.1 + u.2 + u'.1 + u'.2 + u''.1 + u''.2 + η + ε) := by
  obtain ⟨y0, rfl, hI, hcon0⟩ := exact_coefficients hlu0 hb hne hw hg0
  have hp : Positive ⟨(0, tau.sum), w.cols, b, y0, tau⟩ := ⟨hne, fun t h => lt_of_lt_of_le (by norm_num) (ht t h)⟩
  have hsum : 0 < tau.sum := List.sum_pos _ (fun t h => lt_of_lt_of_le (by norm_num) (ht t h)) hne
  have hlen := List.length_pos_of_ne_nil hne
  have hj : ∀ d ≤ 2, ∀ i, i + 1 < tau.length → ∀ c < w.cols, iteratedDeriv d (curve ⟨(0, tau.sum), w.cols, b, y0, tau⟩ i c) (brk ⟨(0, tau.sum), w.cols, b, y0, tau⟩ (i + 1))
      = iteratedDeriv d (curve ⟨(0, tau.sum), w.cols, b, y0, tau⟩ (i + 1) c) (brk ⟨(0, tau.sum), w.cols, b, y0, tau⟩ (i + 1)) := by
    obtain ⟨s, h1, h2, -⟩ := interpolate_new hlu0 (w := w) (by omega) hb junk
    obtain ⟨s', g, f1, f2, f3, f4, f5, f6, f7⟩ := h2 tau (by omega) ht
    have : interpolateFn lu0 junk tau w b = .ok g := by
      unfold interpolateFn
      rw [if_neg (by omega), h1, Interp.ok_bind, f1]
      rfl
    rw [hg0] at this
    cases this
    intro d hd i hi c hc
    exact f7.joins i hi c hc d (by change d ≤ b.dim - 2; omega)
  have hL : ((⟨(0, tau.sum), w.cols, b, y0, tau⟩ : GSpline).dom.2 - (⟨(0, tau.sum), w.cols, b, y0, tau⟩ : GSpline).dom.1) = tau.sum := by simp
  obtain ⟨C, δ1, hC, hδ1, hvv⟩ := C104_perturbed ⟨(0, tau.sum), w.cols, b, y0, tau⟩ hb.valid hpos hcon0 hp hsum hcod vb ab hv ha hvp hap dt hdt hj (by rw [hL]; exact hc) (by rw [hL]; exact hmove) K hK hcK
  rw [hL] at hvv
  obtain ⟨D, hD, δ2, hδ2, hint⟩ := interpolate_rate hb hcl hcr hne ht hw hI
  have hm : 0 < min (min δ1 δ2) (δ1 / (3 * D + 1)) := lt_min (lt_min hδ1 hδ2) (by positivity)
  have l1 : min (min δ1 δ2) (δ1 / (3 * D + 1)) ≤ δ1 := (min_le_left _ _).trans (min_le_left _ _)
  have l2 : min (min δ1 δ2) (δ1 / (3 * D + 1)) ≤ δ2 := (min_le_left _ _).trans (min_le_right _ _)
  refine ⟨C * (D + 1), _, by positivity, hm, fun u u' hu hu' η hη hηδ lu hlu s hs r hr => ?_⟩
  obtain ⟨s', x, e, rfl, -, he, hxl, hx⟩ := hint u (Nd.small_mono l2 hu) η hη (hηδ.trans l2) lu hlu s hs r hr
  have hsz := sz_nonneg hu
  have hsz' := sz_nonneg hu'
  have hcl0 : y0.length = b.dim * w.cols * tau.length := by
    have : y0.length = tau.length * b.dim * w.cols := hcon0
    rw [this]; ring
  have hκ : D * (sz u + η) ≤ δ1 := by
    have h1 : (3 * D + 1) * min (min δ1 δ2) (δ1 / (3 * D + 1)) ≤ (3 * D + 1) * (δ1 / (3 * D + 1)) := mul_le_mul_of_nonneg_left (min_le_right _ _) (by positivity)
    rw [mul_div_cancel₀ _ (by positivity : 3 * D + 1 ≠ 0)] at h1
    have h2 : D * (sz u + η) ≤ D * (3 * min (min δ1 δ2) (δ1 / (3 * D + 1))) := mul_le_mul_of_nonneg_left (by linarith [sz_le hu]) hD
    linarith
  have hDn : 0 ≤ D * (sz u + η) := by positivity
  refine ⟨s', _, rfl, fun o ho => ?_⟩
  have key : ∀ z, 0 ≤ z → C * (z + D * (sz u + η)) ≤ C * (D + 1) * (sz u + z + η) := fun z hz => by
    rw [mul_assoc]
    refine mul_le_mul_of_nonneg_left ?_ hC
    have := mul_nonneg hD hz
    nlinarith
  obtain ⟨d, r0, n, f, rfl, d1, d2, d3, d4, d5, d6, d7, -, d8, d9⟩ := hvv u' (Nd.small_mono l1 hu') _ hDn hκ x e
    (he.trans (mul_le_mul_of_nonneg_left (by linarith) hD)) (by rw [hcl0]; exact hxl) (fun k hk => hx k (by rw [← hxl]; exact hk)) o ho
  simp only [zero_add, sub_zero] at d3 d4 d5 d6 d9
  have k1 : C * (u'.1 + u'.2 + D * (sz u + η)) ≤ C * (D + 1) * (u.1 + u.2 + u'.1 + u'.2 + η) := by
    refine (key (sz u') hsz').trans (le_of_eq ?_)
    unfold sz
    ring
  refine ⟨d, r0, n, f, rfl, d1, d2, d3, d4, d5, d6, near_mono k1 d7, d8.trans k1, fun u'' hu'' t htK ε hε hεd t' ht' o' ho' => ?_⟩
  have hsz'' := sz_nonneg hu''
  obtain ⟨v, x0, e1, e2, e3, e4, e5⟩ := d9 u'' (Nd.small_mono l1 hu'') ε hε (hεd.trans l1) t htK t' ht' o' ho'
  refine ⟨v, x0, e1, e2, e3, e4, fun c hcc => (e5 c hcc).trans ?_⟩
  have := key (sz u' + sz u'' + ε) (by positivity)
  unfold sz at this ⊢
  refine le_trans (le_of_eq ?_) (this.trans (le_of_eq ?_)) <;> ring

/-- **C104** (arguments). With a step below `1e-8`, or with a number of bounds that is not the number of components, the only outcome is the exception for invalid arguments. -/
theorem C104_arguments (u : ℝ × ℝ) (g : GSpline) (vb ab : List ℝ) (dt : ℝ) (h : dt < 1 / 10 ^ 8 ∨ vb.length ≠ g.codim ∨ ab.length ≠ g.codim) (o : Res GSpline) :
    Rounded.maxVelAcc u g vb ab dt o ↔ o = .error .invalidArgument := by
  unfold Rounded.maxVelAcc
  by_cases hd : dt < 1 / 10 ^ 8
  · rw [if_pos hd]; rfl
  · rw [if_neg hd, if_pos (h.resolve_left hd)]; rfl

/-- **C103** (arguments). To scale to an execution time below `1e-8` the only outcome is the exception for invalid arguments. -/
theorem C103_arguments (u : ℝ × ℝ) (g : GSpline) (T : ℝ) (h : T < 1 / 10 ^ 8) (o : Res GSpline) : Rounded.linearScaling u g T o ↔ o = .error .invalidArgument := by
  unfold Rounded.linearScaling
  rw [if_pos h]; rfl

open Rounded in
theorem linSpaced_has {u : ℝ × ℝ} (h1 : 0 ≤ u.1) (h2 : 0 ≤ u.2) (n : ℕ) (a b : ℝ) : Has (linSpaced u (n + 1) a b) (GSpline.linSpaced (n + 1) a b) := by
  unfold linSpaced GSpline.linSpaced
  by_cases hn : n = 0
  · subst hn
    simp only [zero_add, if_true, List.range_one, List.map_cons, List.map_nil]
    exact Has.pure _
  · have hn1 : n + 1 ≠ 1 := by omega
    have hn0 : ((n + 1 : ℕ) : ℝ) - 1 ≠ 0 := by
      push_cast
      rw [add_sub_cancel_right]
      exact_mod_cast hn
    simp only [if_neg hn1]
    refine Has.bind (Has.near h1 h2 _) (Has.bind (Has.quot h1 h2 _ hn0) (Has.mapM fun i hi => ?_))
    have e1 : b = a + (((n + 1 : ℕ) : ℝ) - 1) * ((b - a) / (((n + 1 : ℕ) : ℝ) - 1)) := by
      rw [mul_div_cancel₀ _ hn0]; ring
    by_cases hf : |b| < |a|
    · simp only [if_pos hf]
      by_cases hi0 : i = 0
      · simp only [if_pos hi0]
        subst hi0
        rw [Nat.cast_zero, zero_mul, add_zero]
        exact Has.pure _
      · simp only [if_neg hi0]
        have e2 : a + (i : ℝ) * ((b - a) / (((n + 1 : ℕ) : ℝ) - 1)) = b - (((n + 1 : ℕ) : ℝ) - 1 - i) * ((b - a) / (((n + 1 : ℕ) : ℝ) - 1)) := by nlinarith [e1]
        rw [e2]
        exact Has.bind (Has.near h1 h2 _) (Has.near h1 h2 _)
    · simp only [if_neg hf]
      by_cases hi0 : i + 1 = n + 1
      · simp only [if_pos hi0]
        have : (i : ℝ) = ((n + 1 : ℕ) : ℝ) - 1 := by
          rw [← hi0]; push_cast; ring
        rw [this, ← e1]
        exact Has.pure _
      · simp only [if_neg hi0]
        exact Has.bind (Has.near h1 h2 _) (Has.near h1 h2 _)

open Rounded in
theorem scaleFactor_has {u : ℝ × ℝ} (h1 : 0 ≤ u.1) (h2 : 0 ≤ u.2) {codim : ℕ} {vel acc : List (List ℝ)} (hacc : acc ≠ []) {vb ab : List ℝ} (hvp : ∀ c < codim, 0 < vecOf vb c)
    (hap : ∀ c < codim, 0 < vecOf ab c) : Has (scaleFactor u codim vel acc vb ab) (GSpline.scaleFactor codim vel acc vb ab) := by
  refine Has.bind (Has.mapM fun c hc => Has.quot h1 h2 _ (hvp c (List.mem_range.mp hc)).ne') (Has.bind (a := (List.range codim).map fun c =>
    √(Tools.maxAbs (GSpline.column acc c) / vecOf ab c)) (Has.mapM fun c hc => ?_) (Has.pure _))
  have hpos := hap c (List.mem_range.mp hc)
  have h0 : 0 ≤ Tools.maxAbs (GSpline.column acc c) := by
    obtain ⟨v, vs, rfl⟩ := List.exists_cons_of_ne_nil hacc
    exact (abs_nonneg _).trans (Tools.le_maxAbs (l := GSpline.column (v :: vs) c) (x := v.getD c 0) (by simp [GSpline.column]))
  have hq : 0 ≤ Tools.maxAbs (GSpline.column acc c) / vecOf ab c := div_nonneg h0 hpos.le
  refine Has.bind (a := Tools.maxAbs (GSpline.column acc c) / vecOf ab c) ⟨Has.quot h1 h2 _ hpos.ne', fun q e h => by cases e; exact h⟩ ?_
  unfold root
  rw [if_neg (not_lt.mpr hq)]
  exact Has.near h1 h2 _

open Rounded in
theorem scaleBy_has {u : ℝ × ℝ} (h1 : 0 ≤ u.1) (h2 : 0 ≤ u.2) {g : GSpline} (hb : g.basis.Valid) (hcon : Consistent g) (hp : Positive g) {f : ℝ} (hf : 0 < f) :
    Has (scaleBy u g f) (g.scaled f (g.dom.1 + (g.tau.map (· * f)).sum)) := by
  unfold scaleBy
  have hsum : 0 < (g.tau.map (· * f)).sum := by
    rw [GSpline.sum_map_mul]
    exact mul_pos (List.sum_pos _ hp.2 hp.1) hf
  refine Has.bind (a := g.tau.map (· * f)) ?_ (Has.bind (Has.sum h1 h2 _) (Has.bind (Has.near h1 h2 _) (Has.bind (a := GSpline.scaledBasis g.basis f) ?_ ?_)))
  · have := Has.mapM (l := g.tau.map (· * f)) (f := near u) (g := id) fun x _ => Has.near h1 h2 x
    rwa [List.map_id] at this
  · cases hg : g.basis with
    | legendre d => exact Has.pure _
    | lagrange x => exact Has.pure _
    | b0101 a =>
      rw [hg] at hb
      have hd : (0 : ℝ) < 1 - a := by linarith [hb.2]
      unfold scaledBasis
      simp only [if_pos (show 0 ≤ a ∧ a < 1 from hb)]
      refine Has.bind (a := GSpline.scaledAlpha a f) ?_ (Has.pure _)
      unfold scaledAlpha
      exact Has.bind (Has.near h1 h2 _) (Has.bind (Has.near h1 h2 _) (Has.bind (Has.near h1 h2 _) (Has.bind (Has.near h1 h2 _) (Has.bind (Has.near h1 h2 _) (Has.bind (Has.near h1 h2 _)
        (Has.bind (Has.quot h1 h2 _ (Real.rpow_pos_of_pos hd _).ne') (Has.bind (Has.quot h1 h2 _ hf.ne') (Has.bind (Has.near h1 h2 _) (Has.bind (Has.near h1 h2 _) (Has.bind (Has.near h1 h2 _)
        (Has.quot h1 h2 _ (by positivity))))))))))))
  · exact (GSpline.make_ok (by simpa using hsum.le) (by rw [GSpline.scaledBasis_dim]; exact hcon)).symm

open Rounded in
/-- **C104** (exact result). The result of the same call with exact arithmetic (C17) is one of the possible outcomes. -/
theorem C104_exact (u : ℝ × ℝ) (hu1 : 0 ≤ u.1) (hu2 : 0 ≤ u.2) (g : GSpline) (hb : g.basis.Valid) (hcon : Consistent g) (hp : Positive g) (hdom : g.dom.1 ≤ g.dom.2) (hcod : 0 < g.codim)
    (vb ab : List ℝ) (hv : vb.length = g.codim) (ha : ab.length = g.codim) (hvp : ∀ c < g.codim, 0 < vecOf vb c) (hap : ∀ c < g.codim, 0 < vecOf ab c)
    (dt : ℝ) (hdt : 1 / 10 ^ 8 ≤ dt) (g1 g2 : GSpline) (h1 : g.derivate 1 = .ok g1) (h2 : g1.derivate 1 = .ok g2)
    (hmove : ∃ s ∈ g.samples dt, ∃ c < g.codim, comp g1 c s ≠ 0 ∨ comp g2 c s ≠ 0) :
    Rounded.maxVelAcc u g vb ab dt (g.maxVelAcc (some vb) (some ab) dt) := by
  have hz := hp.not_mem
  have hdt0 : 0 < dt := lt_of_lt_of_le (by norm_num) hdt
  obtain ⟨r, r1, r2, f, hr, -, -, hf, -⟩ := C17_bounds_partial g hb hcon hp hdom hcod vb ab hv ha hvp hap dt hdt g1 g2 h1 h2 hmove
  rw [GSpline.derivate_ok hdom hcon hz] at h1
  have e1 := h1
  rw [deriv_dco hdom hcon hz 1] at e1
  have e1 := Except.ok.inj e1
  have hcon1 : Consistent g1 := by rw [← e1]; exact consistent_dco hcon 1
  have hb1 : g1.basis.Valid := by rw [← e1]; exact hb
  have ht1 : g1.tau = g.tau := by rw [← e1]
  have hd1 : g1.dom = g.dom := by rw [← e1]
  rw [GSpline.derivate_ok (hd1 ▸ hdom) hcon1 (ht1 ▸ hz)] at h2
  have e2 := h2
  rw [deriv_dco (g := g1) (hd1 ▸ hdom) hcon1 (ht1 ▸ hz) 1] at e2
  have e2 := Except.ok.inj e2
  have hcon2 : Consistent g2 := by rw [← e2]; exact consistent_dco hcon1 1
  have hb2 : g2.basis.Valid := by rw [← e2]; exact hb1
  have ht2 : g2.tau = g.tau := by rw [← e2]; exact ht1
  choose V1 hV1 _ using fun t => GSpline.value_total (g := g1) hb1 hcon1 (ht1 ▸ hp.1) (ht1 ▸ hz) t
  choose V2 hV2 _ using fun t => GSpline.value_total (g := g2) hb2 hcon2 (ht2 ▸ hp.1) (ht2 ▸ hz) t
  have vals : ∀ {d : GSpline} {V : ℝ → List ℝ}, (∀ t, d.value t = .ok (V t)) → ∀ l : List ℝ, d.values l = .ok (l.map V) := by
    intro d V hV l
    unfold GSpline.values
    induction l with
    | nil => rfl
    | cons a l ih => rw [List.mapM_cons, hV a, ih]; rfl
  have hSne : g.samples dt ≠ [] := by unfold GSpline.samples GSpline.linSpaced; simp
  have hr' := hr
  unfold GSpline.maxVelAcc at hr'
  simp only [Option.isNone_some, Bool.false_eq_true, false_and, if_false, not_lt.mpr hdt, hv, ha, ne_eq, not_true_eq_false, or_self] at hr'
  rw [GSpline.derivate_ok hdom hcon hz, h1, Interp.ok_bind, GSpline.derivate_ok (hd1 ▸ hdom) hcon1 (ht1 ▸ hz), h2, Interp.ok_bind, vals hV1, Interp.ok_bind, vals hV2, Interp.ok_bind,
    if_neg hcod.ne'] at hr'
  split_ifs at hr' with hfin
  set F := GSpline.scaleFactor g.codim ((g.samples dt).map V1) ((g.samples dt).map V2) vb ab with hF
  have hFpos : 0 < F := by
    have Fv : ∀ s ∈ g.samples dt, ∀ c < g.codim, |comp g1 c s| / vecOf vb c ≤ F := fun s hs c hcc => by
      refine le_trans ?_ (le_max_left _ _)
      refine le_trans ?_ (Tools.le_maxCoeff (List.mem_map.mpr ⟨c, List.mem_range.mpr hcc, rfl⟩))
      refine div_le_div_of_nonneg_right ?_ (hvp c hcc).le
      refine Tools.le_maxAbs ?_
      rw [comp_of_value (hV1 s)]
      unfold GSpline.column
      rw [List.map_map]
      exact List.mem_map.mpr ⟨s, hs, rfl⟩
    have Fa : ∀ s ∈ g.samples dt, ∀ c < g.codim, √(|comp g2 c s| / vecOf ab c) ≤ F := fun s hs c hcc => by
      refine le_trans ?_ (le_max_right _ _)
      refine le_trans ?_ (Tools.le_maxCoeff (List.mem_map.mpr ⟨c, List.mem_range.mpr hcc, rfl⟩))
      refine Real.sqrt_le_sqrt (div_le_div_of_nonneg_right ?_ (hap c hcc).le)
      refine Tools.le_maxAbs ?_
      rw [comp_of_value (hV2 s)]
      unfold GSpline.column
      rw [List.map_map]
      exact List.mem_map.mpr ⟨s, hs, rfl⟩
    obtain ⟨s, hs, c, hcc, h | h⟩ := hmove
    · exact lt_of_lt_of_le (div_pos (abs_pos.mpr h) (hvp c hcc)) (Fv s hs c hcc)
    · exact lt_of_lt_of_le (Real.sqrt_pos.mpr (div_pos (abs_pos.mpr h) (hap c hcc))) (Fa s hs c hcc)
  have hsum : 0 < (g.tau.map (· * F)).sum := by
    rw [GSpline.sum_map_mul]
    exact mul_pos (List.sum_pos _ hp.2 hp.1) hFpos
  have hmk : r = g.scaled F (g.dom.1 + (g.tau.map (· * F)).sum) := by
    have h3 : GSpline.make (g.dom.1, g.dom.1 + (g.tau.map (· * F)).sum) g.codim g.nIntervals (GSpline.scaledBasis g.basis F) g.coeffs (g.tau.map (· * F)) = .ok r := hr'
    rw [GSpline.make_ok (by simpa using hsum.le) (by rw [GSpline.scaledBasis_dim]; exact hcon)] at h3
    exact (Except.ok.inj h3).symm
  rw [hr]
  change Has (Rounded.maxVelAcc u g vb ab dt) r
  unfold Rounded.maxVelAcc
  rw [if_neg (not_lt.mpr hdt), if_neg (by simp [hv, ha])]
  refine Has.bind (a := ⌊g.domainLength / dt⌋₊) (Has.bind (Has.near hu1 hu2 _) (Has.bind (Has.quot hu1 hu2 _ hdt0.ne') (Has.pure _))) (Has.bind (a := F) ?_ ?_)
  · unfold factorAt
    refine Has.bind (linSpaced_has hu1 hu2 _ _ _) ?_
    refine Has.bind (a := g1) (by have := deriv_has hu1 hu2 hb hz 1; rw [h1] at this; exact this) ?_
    refine Has.bind (a := g2) (by have := deriv_has hu1 hu2 hb1 (ht1 ▸ hz) 1; rw [h2] at this; exact this) ?_
    refine Has.bind (a := (g.samples dt).map V1) (Has.mapM fun t _ => ?_) (Has.bind (a := (g.samples dt).map V2) (Has.mapM fun t _ => ?_) ?_)
    · have := value_has hu1 hu2 hb1 hcon1 (ht1 ▸ hp.1) (ht1 ▸ hz) t
      rw [hV1 t] at this
      exact this
    · have := value_has hu1 hu2 hb2 hcon2 (ht2 ▸ hp.1) (ht2 ▸ hz) t
      rw [hV2 t] at this
      exact this
    · rw [if_neg hcod.ne']
      exact scaleFactor_has hu1 hu2 (by simpa using hSne) hvp hap
  · rw [hmk]
    exact scaleBy_has hu1 hu2 hb hcon hp hFpos

/-- The identity on `[0, 1]` and `[1, 2]`, with Legendre polynomials of degree below two. -/
noncomputable def slope2 : GSpline := ⟨(0, 2), 1, .legendre 2, [1 / 2, 1 / 2, 3 / 2, 1 / 2], [1, 1]⟩

theorem slope2_curve {i : ℕ} (hi : i < 2) : curve slope2 i 0 = fun t => t := by
  funext t
  have h : i = 0 ∨ i = 1 := by omega
  rcases h with rfl | rfl
  · simp [curve, piece, comb, slope2, Basis.dim, vecOf, Finset.sum_range_succ, basisFn, legendre, window, brk]
    ring
  · simp [curve, piece, comb, slope2, Basis.dim, vecOf, Finset.sum_range_succ, basisFn, legendre, window, brk]
    ring

/-- The hypotheses of `C104_bounds` and `C104_exact` hold for a curve with a breakpoint and a step that divides its length. -/
example : slope2.basis.Valid ∧ Consistent slope2 ∧ Positive slope2 ∧ slope2.dom.1 < slope2.dom.2 ∧ 0 < slope2.codim ∧
    (∀ d ≤ 2, ∀ i, i + 1 < slope2.tau.length → ∀ c < slope2.codim, iteratedDeriv d (curve slope2 i c) (brk slope2 (i + 1)) = iteratedDeriv d (curve slope2 (i + 1) c) (brk slope2 (i + 1))) ∧
    (∀ n, SegmentCount (slope2.dom.2 - slope2.dom.1) (1 / 2) n → ∀ s, IsSample slope2 n s → ∀ i, Touches slope2 s i → Clear slope2.basis (window (vecOf slope2.tau i) (s - brk slope2 i))) ∧
    (∀ n, SegmentCount (slope2.dom.2 - slope2.dom.1) (1 / 2) n → ∃ s, IsSample slope2 n s ∧ ∃ i, Touches slope2 s i ∧ ∃ c < slope2.codim,
      iteratedDeriv 1 (curve slope2 i c) s ≠ 0 ∨ iteratedDeriv 2 (curve slope2 i c) s ≠ 0) ∧
    SegmentCount (slope2.dom.2 - slope2.dom.1) (1 / 2) 4 ∧ SegmentCount (slope2.dom.2 - slope2.dom.1) (1 / 2) 3 := by
  have hp : Positive slope2 := ⟨by simp [slope2], by simp [slope2]⟩
  refine ⟨by simp [slope2, Basis.Valid], by simp [Consistent, slope2, Basis.dim], hp, by norm_num [slope2], by simp [slope2], ?_, fun _ _ _ _ _ _ => trivial, ?_, ?_, ?_⟩
  · intro d _ i hi c hc
    have hi' : i + 1 < 2 := by simpa [slope2] using hi
    have hc0 : c = 0 := by simpa [slope2] using hc
    subst hc0
    rw [slope2_curve (by omega), slope2_curve hi']
  · intro n _
    have hs : ∃ s, IsSample slope2 n s := by
      by_cases hn : n = 0
      · exact ⟨_, .inl ⟨hn, rfl⟩⟩
      · exact ⟨_, .inr ⟨hn, 0, Nat.zero_le _, rfl⟩⟩
    obtain ⟨s, hs⟩ := hs
    obtain ⟨i, hi⟩ := touches_exists hp s
    refine ⟨s, hs, i, hi, 0, by simp [slope2], .inl ?_⟩
    have hi' : i < 2 := by simpa [slope2] using hi.1
    rw [slope2_curve hi', iteratedDeriv_one]
    simp
  · refine .inl ?_
    rw [show (slope2.dom.2 - slope2.dom.1) / (1 / 2) = ((4 : ℕ) : ℝ) by norm_num [slope2], Nat.floor_natCast]
  · refine .inr ?_
    norm_num [slope2]

/-- One component that goes from 0 to 1. -/
def step1 : Pts := ⟨2, 1, fun i _ => i⟩

/-- The coefficients of `3 t² - 2 t³` for one interval of length one. -/
noncomputable def step1Coeffs : Vec := fun k => if k = 0 then 1 / 2 else if k = 1 then 3 / 5 else if k = 3 then -1 / 10 else 0

theorem legendre3 (s : ℝ) : (legendre 3).eval s = (5 * s ^ 3 - 3 * s) / 2 := by
  unfold legendre
  rw [show ((Polynomial.X ^ 2 - 1) ^ 3 : Polynomial ℝ) = Polynomial.X ^ 6 - 3 * Polynomial.X ^ 4 + 3 * Polynomial.X ^ 2 - 1 by ring]
  simp [Nat.factorial, Polynomial.derivative_X_pow]
  ring

theorem step1_piece : piece (.legendre 4) 1 (vecOf [1]) step1Coeffs 0 0 = fun t => 3 * t ^ 2 - 2 * t ^ 3 := by
  funext t
  simp [piece, comb, Basis.dim, vecOf, step1Coeffs, Finset.sum_range_succ, basisFn, legendre3, LegendrePoly.legendre_zero, LegendrePoly.legendre_one, window]
  ring

theorem step1_deriv : deriv (fun t : ℝ => 3 * t ^ 2 - 2 * t ^ 3) = fun t => 6 * t - 6 * t ^ 2 := by
  funext t
  have h := (((hasDerivAt_pow 2 t).const_mul 3).sub ((hasDerivAt_pow 3 t).const_mul 2))
  refine h.deriv.trans ?_
  norm_num
  ring

theorem step1_deriv2 : deriv (fun t : ℝ => 6 * t - 6 * t ^ 2) = fun t => 6 - 12 * t := by
  funext t
  have h := (((hasDerivAt_id t).const_mul 6).sub ((hasDerivAt_pow 2 t).const_mul 6))
  refine h.deriv.trans ?_
  norm_num
  ring

theorem step1_curve {g : GSpline} (h : interpolateFn exactLU (fun _ => 0) [1] step1 (.legendre 4) = .ok g) :
    g.dom = (0, 1) ∧ g.tau = [1] ∧ curve g 0 0 = fun t => 3 * t ^ 2 - 2 * t ^ 3 := by
  obtain ⟨x, rfl, hI, -⟩ := exact_coefficients exactLU_contract interpolable4 (by simp) rfl h
  refine ⟨by simp, rfl, ?_⟩
  have hp : ∀ i < 1, 0 < vecOf [1] i := by intro i hi; interval_cases i; norm_num [vecOf]
  have H : Interpolates (.legendre 4) 1 1 (vecOf [1]) step1.at' step1Coeffs := by
    refine ⟨?_, ?_, ?_, ?_, fun iv h => absurd h (by omega)⟩
    · intro iv hiv c hc
      obtain rfl : iv = 0 := by omega
      obtain rfl : c = 0 := by omega
      rw [step1_piece]; norm_num [step1]
    · intro iv hiv c hc
      obtain rfl : iv = 0 := by omega
      obtain rfl : c = 0 := by omega
      rw [step1_piece]; norm_num [step1, vecOf]
    · intro c hc d h1 h2
      obtain rfl : c = 0 := by omega
      obtain rfl : d = 1 := by simp [Basis.dim] at h2; omega
      rw [step1_piece, iteratedDeriv_one, step1_deriv]; norm_num
    · intro c hc d h1 h2
      obtain rfl : c = 0 := by omega
      obtain rfl : d = 1 := by simp [Basis.dim] at h2; omega
      rw [step1_piece, iteratedDeriv_one, step1_deriv]; norm_num [vecOf]
  obtain ⟨z, -, hu⟩ := C57_unique_solution 1 1 (by norm_num) (.legendre 4) valid_legendre4 rfl (by simp [Basis.dim]) trivial trivial (by simp) (vecOf [1]) hp step1.at'
  have key : ∀ k < 4, vecOf x k = step1Coeffs k := fun k hk => (hu _ hI k hk).trans (hu _ H k hk).symm
  rw [← step1_piece]
  funext t
  simp only [curve, piece, comb, step1, Basis.dim, brk, sub_zero]
  refine Finset.sum_congr rfl fun k hk => ?_
  have := key k (Finset.mem_range.mp hk)
  simp only [Nat.zero_mul, Nat.zero_add, Nat.mul_zero, Nat.add_zero] at this ⊢
  simp [this]

/-- The hypotheses of `C104_interpolated` hold for the movement `3 t² - 2 t³` and every step: its acceleration at the end is `-6`. -/
example : Interpolable (.legendre 4) ∧ Clear (.legendre 4) (-1) ∧ Clear (.legendre 4) 1 ∧ (∀ t ∈ [(1 : ℝ)], 1 / 10 ^ 6 ≤ t) ∧ step1.rows = [(1 : ℝ)].length + 1 ∧ 0 < step1.cols ∧
    4 ≤ (Basis.legendre 4).dim ∧ (∀ η, 0 ≤ η → StableLU η ((Basis.legendre 4).dim * step1.cols * 1) (shrunkLU η)) ∧ (∃ s, RReach step1.cols 1 (.legendre 4) s) ∧
    ∃ g0, interpolateFn exactLU (fun _ => 0) [1] step1 (.legendre 4) = .ok g0 ∧
      (∀ n, ∀ s, IsSample g0 n s → ∀ i, Touches g0 s i → Clear (.legendre 4) (window (vecOf [1] i) (s - brk g0 i))) ∧
      (∀ n, ∃ s, IsSample g0 n s ∧ ∃ i, Touches g0 s i ∧ ∃ c < step1.cols, iteratedDeriv 1 (curve g0 i c) s ≠ 0 ∨ iteratedDeriv 2 (curve g0 i c) s ≠ 0) ∧
      ∀ t ∈ Set.Icc (0 : ℝ) 1, ∀ i, Touches g0 t i → Clear (.legendre 4) (window (vecOf [1] i) (t - brk g0 i)) := by
  have ⟨g0, hg0⟩ : ∃ g0, interpolateFn exactLU (fun _ => 0) [1] step1 (.legendre 4) = .ok g0 := by
    obtain ⟨s, h1, h2, -⟩ := interpolate_new exactLU_contract (w := step1) (by simp [step1]) interpolable4 (fun _ => 0)
    obtain ⟨s', g, f1, -⟩ := h2 [1] rfl (by simp; norm_num)
    refine ⟨g, ?_⟩
    unfold interpolateFn
    rw [if_neg (by simp [step1]), h1, Interp.ok_bind, f1]
    rfl
  obtain ⟨k1, k2, k3⟩ := step1_curve hg0
  refine ⟨interpolable4, trivial, trivial, by simp; norm_num, rfl, by simp [step1], by simp [Basis.dim], fun η h => shrunkLU_stable h _,
    ⟨_, RReach.make (junk := fun _ => 0) rfl⟩, g0, hg0, fun _ _ _ _ _ => trivial, fun n => ?_, fun _ _ _ _ => trivial⟩
  have hs : IsSample g0 n 1 := by
    by_cases hn : n = 0
    · exact .inl ⟨hn, by rw [k1]⟩
    · refine .inr ⟨hn, n, le_rfl, ?_⟩
      have : (n : ℝ) ≠ 0 := by exact_mod_cast hn
      rw [k1]
      field_simp
      norm_num
  have hp : Positive g0 := ⟨by simp [k2], by simp [k2]⟩
  obtain ⟨i, hi⟩ := touches_exists hp 1
  have hi' : i < 1 := by simpa [k2] using hi.1
  obtain rfl : i = 0 := by omega
  refine ⟨1, hs, 0, hi, 0, by simp [step1], .inr ?_⟩
  rw [k3, iteratedDeriv_succ, iteratedDeriv_one, step1_deriv, step1_deriv2]
  norm_num

end GSplines.Props
