import Verif.Proofs.RoundingList

/-! # Evaluation of a spline with rounding errors at a point that is itself not exact -/

namespace GSplines.Rounded

open Nd Filter Topology Spec

/-- The loop of `get_interval` near `t`, when the left end is known to be before the point. -/
theorem scan_at (t : ℝ) : ∀ (xs : List ℝ) (i : ℕ) (L : ℝ), ∀ᶠ q in 𝓝 ((0 : ℝ × ℝ), (L, t)), q.2.1 < q.2.2 → All (scan q.1 q.2.2 i q.2.1 xs) fun r =>
    (∃ j < xs.length, r = .ok (some (i + j)) ∧ L + (xs.take j).sum ≤ t ∧ t ≤ L + (xs.take (j + 1)).sum) ∨ (r = .ok none ∧ L + xs.sum ≤ t) := by
  intro xs
  have snd : ∀ L : ℝ, Tendsto (fun q : (ℝ × ℝ) × (ℝ × ℝ) => q.2.2 - q.2.1) (𝓝 ((0 : ℝ × ℝ), (L, t))) (𝓝 (t - L)) := fun L =>
    Continuous.tendsto (f := fun q : (ℝ × ℝ) × (ℝ × ℝ) => q.2.2 - q.2.1) (by fun_prop) ((0 : ℝ × ℝ), (L, t))
  induction xs with
  | nil =>
    intro i L
    by_cases hL : L ≤ t
    · exact Eventually.of_forall fun q _ r hr => .inr ⟨hr, by simpa using hL⟩
    · filter_upwards [(snd L).eventually (gt_mem_nhds (sub_neg.mpr (not_le.mp hL)))] with q h1 h2
      linarith
  | cons x xs ih =>
    intro i L
    by_cases hL : L ≤ t
    · have h2 := ih (i + 1) (L + x)
      have e : Tendsto (fun q : ((ℝ × ℝ) × ℝ) × ℝ => (q.1.1, (q.2, q.1.2))) (𝓝 (((0 : ℝ × ℝ), t), L + x)) (𝓝 ((0 : ℝ × ℝ), (L + x, t))) :=
        Continuous.tendsto (f := fun q : ((ℝ × ℝ) × ℝ) × ℝ => (q.1.1, (q.2, q.1.2))) (by fun_prop) (((0 : ℝ × ℝ), t), L + x)
      have h3 := e.eventually h2
      rw [nhds_prod_eq (x := ((0 : ℝ × ℝ), t))] at h3
      obtain ⟨p, hp, V, hV, h4⟩ := eventually_prod_iff.mp h3
      obtain ⟨W, hW, h5⟩ := hV.exists_mem
      have h6 := ConvAt.near (x := (L, t)) (f := fun l : ℝ × ℝ => l.1 + x) (by fun_prop) W hW
      have h7 : ∀ᶠ q in 𝓝 ((0 : ℝ × ℝ), (L, t)), All (near q.1 (q.2.1 + x)) fun r => ∀ y, r = .ok y → q.2.2 ≤ y → t ≤ L + x := by
        by_cases hx : t ≤ L + x
        · exact Eventually.of_forall fun q r _ y _ _ => hx
        · have hlt := not_le.mp hx
          obtain ⟨m, hm1, hm2⟩ := exists_between hlt
          have hm : ∀ᶠ q : (ℝ × ℝ) × (ℝ × ℝ) in 𝓝 ((0 : ℝ × ℝ), (L, t)), m < q.2.2 :=
            (Continuous.tendsto (f := fun q : (ℝ × ℝ) × (ℝ × ℝ) => q.2.2) (by fun_prop) ((0 : ℝ × ℝ), (L, t))).eventually (lt_mem_nhds hm2)
          filter_upwards [ConvAt.near (x := (L, t)) (f := fun l : ℝ × ℝ => l.1 + x) (by fun_prop) _ (Iio_mem_nhds hm1), hm] with q h hmq r hr y hy ht
          obtain ⟨y', hy', e⟩ := h r hr
          rw [hy] at e
          cases e
          have : y < m := hy'
          linarith
      have hp' : ∀ᶠ q : (ℝ × ℝ) × (ℝ × ℝ) in 𝓝 ((0 : ℝ × ℝ), (L, t)), p (q.1, q.2.2) := by
        have : Tendsto (fun q : (ℝ × ℝ) × (ℝ × ℝ) => (q.1, q.2.2)) (𝓝 ((0 : ℝ × ℝ), (L, t))) (𝓝 ((0 : ℝ × ℝ), t)) :=
          Continuous.tendsto (f := fun q : (ℝ × ℝ) × (ℝ × ℝ) => (q.1, q.2.2)) (by fun_prop) ((0 : ℝ × ℝ), (L, t))
        exact this.eventually hp
      filter_upwards [h6, h7, hp'] with q q6 q7 qp hlt r hr
      unfold scan at hr
      rcases hr with ⟨e, he, -⟩ | ⟨right, hright, hr⟩
      · obtain ⟨_, _, h⟩ := q6 _ he; cases h
      obtain ⟨_, hmem, h⟩ := q6 _ hright; cases h
      split_ifs at hr with hb
      · exact .inl ⟨0, by simp, hr, by simpa using hL, by simpa using q7 _ hright _ rfl hb.2⟩
      · have hlt' : right < q.2.2 := by
          by_contra hc
          exact hb ⟨hlt, not_lt.mp hc⟩
        rcases h4 qp (h5 right hmem) hlt' r hr with ⟨j, hj, e, b1, b2⟩ | ⟨e, b⟩
        · refine .inl ⟨j + 1, by simpa using hj, by rw [e]; congr 2; omega, ?_, ?_⟩
          · rw [List.take_succ_cons, List.sum_cons]; linarith
          · rw [List.take_succ_cons, List.sum_cons]; linarith
        · exact .inr ⟨e, by rw [List.sum_cons]; linarith⟩
    · filter_upwards [(snd L).eventually (gt_mem_nhds (sub_neg.mpr (not_le.mp hL)))] with q h1 h2
      linarith

theorem getInterval_at {g : GSpline} (hp : Positive g) (t : ℝ) :
    ∀ᶠ q in 𝓝 ((0 : ℝ × ℝ), t), All (getInterval q.1 g q.2) fun r => ∃ i, r = .ok i ∧ Touches g t i := by
  have hn : 0 < g.tau.length := List.length_pos_iff.mpr hp.1
  have e : Tendsto (fun q : (ℝ × ℝ) × ℝ => (q.1, (g.dom.1, q.2))) (𝓝 ((0 : ℝ × ℝ), t)) (𝓝 ((0 : ℝ × ℝ), (g.dom.1, t))) :=
    Continuous.tendsto (f := fun q : (ℝ × ℝ) × ℝ => (q.1, (g.dom.1, q.2))) (by fun_prop) ((0 : ℝ × ℝ), t)
  have h0 : ∀ᶠ q : (ℝ × ℝ) × ℝ in 𝓝 ((0 : ℝ × ℝ), t), q.2 ≤ g.dom.1 → t ≤ g.dom.1 := by
    by_cases h : t ≤ g.dom.1
    · exact Eventually.of_forall fun _ _ => h
    · have : Tendsto (fun q : (ℝ × ℝ) × ℝ => q.2) (𝓝 ((0 : ℝ × ℝ), t)) (𝓝 t) := continuous_snd.tendsto _
      filter_upwards [this.eventually (lt_mem_nhds (not_le.mp h))] with q h1 h2
      exact absurd h2 (not_le.mpr h1)
  filter_upwards [e.eventually (scan_at t g.tau 0 g.dom.1), h0] with q hu h0 r hr
  unfold getInterval at hr
  by_cases h : q.2 ≤ g.dom.1
  · rw [if_pos h] at hr
    refine ⟨0, hr, hn, .inr rfl, .inl ?_⟩
    have := GSpline.brk_lt_succ hp hn
    rw [GSpline.brk_zero] at this
    linarith [h0 h]
  · have h' : g.dom.1 < q.2 := not_le.mp h
    rw [if_neg h] at hr
    rcases hr with ⟨e, he, -⟩ | ⟨o, ho, hr⟩
    · rcases hu h' _ he with ⟨_, _, h, _⟩ | ⟨h, _⟩ <;> cases h
    · rcases hu h' _ ho with ⟨j, hj, h, b1, b2⟩ | ⟨h, b⟩
      · cases h
        exact ⟨0 + j, hr, by omega, .inl (by rw [Nat.zero_add]; exact b1), .inl (by rw [Nat.zero_add]; exact b2)⟩
      · cases h
        have hr' : r = .ok (g.tau.length - 1) := by
          have : r = .ok (if g.nIntervals = 0 then 2 ^ 64 - 1 else g.nIntervals - 1) := hr
          rwa [if_neg (show g.nIntervals ≠ 0 from by unfold GSpline.nIntervals; omega)] at this
        refine ⟨_, hr', by omega, ?_, .inr (by omega)⟩
        by_cases h1 : g.tau.length - 1 = 0
        · exact .inr h1
        · refine .inl ?_
          have := GSpline.brk_mono hp (i := g.tau.length - 1) (j := g.tau.length) (by omega) le_rfl
          have e2 : brk g g.tau.length = g.dom.1 + g.tau.sum := by unfold brk; rw [List.take_length]
          linarith

theorem intervalToWindow_at {g : GSpline} {i : ℕ} (hi : i < g.tau.length) (hz : vecOf g.tau i ≠ 0) (t : ℝ) :
    ConvAt (fun u t => intervalToWindow u g t i) t (window (vecOf g.tau i) (t - brk g i)) := by
  unfold intervalToWindow
  simp only [segment_ok (show 0 + i ≤ g.tau.length by omega), rd_ok hi, lift_ok, LawfulMonad.pure_bind]
  rw [← range_map_vecOf (List.take i (List.drop 0 g.tau))]
  refine ConvAt.bind (ConvAt.sum (f := fun k _ => vecOf (List.take i (List.drop 0 g.tau)) k) fun k _ => continuousAt_const) ?_
  refine ConvAt.bind (ConvAt.near (by fun_prop)) ?_
  refine ConvAt.bind (ConvAt.near (by fun_prop)) ?_
  refine ConvAt.bind (ConvAt.near (by fun_prop)) ?_
  refine ConvAt.bind (ConvAt.quot (by fun_prop) (by fun_prop) hz) ?_
  refine (ConvAt.near (by fun_prop)).congr ?_
  have : ∑ k ∈ Finset.range (List.take i (List.drop 0 g.tau)).length, vecOf (List.take i (List.drop 0 g.tau)) k = (g.tau.take i).sum := by
    change ((List.range (List.take i (List.drop 0 g.tau)).length).map (vecOf (List.take i (List.drop 0 g.tau)))).sum = _
    rw [range_map_vecOf, List.drop_zero]
  unfold window brk
  simp only [this]

theorem value_at {g : GSpline} (hb : g.basis.Valid) (hcon : Consistent g) (hp : Positive g) {t : ℝ}
    (hc : ∀ i, Touches g t i → Clear g.basis (window (vecOf g.tau i) (t - brk g i))) {ε : ℝ} (hε : 0 < ε) :
    ∀ᶠ q in 𝓝 ((0 : ℝ × ℝ), t), All (value q.1 g q.2) fun r => ∃ v, r = .ok v ∧ v.length = g.codim ∧ ∃ i, Touches g t i ∧ ∀ c < g.codim, |vecOf v c - curve g i c t| ≤ ε := by
  have key : ∀ i ∈ Finset.range g.tau.length, ∀ᶠ q in 𝓝 ((0 : ℝ × ℝ), t), Touches g t i → All (do
      let s ← intervalToWindow q.1 g q.2 i
      let tau ← lift (rd g.tau i)
      let buf ← evalOnWindow q.1 g.basis s tau
      (List.range g.codim).mapM fun c => do
        let seg ← lift (g.coefficientSegment i c)
        dot q.1 seg ((List.range g.basis.dim).map buf)) fun r => ∃ v, r = .ok v ∧ v.length = g.codim ∧ ∀ c < g.codim, |vecOf v c - curve g i c t| ≤ ε := by
    intro i hi
    have hin := Finset.mem_range.mp hi
    by_cases ht : Touches g t i
    swap
    · exact Eventually.of_forall fun u h => absurd h ht
    have hz : vecOf g.tau i ≠ 0 := (vecOf_pos hp.2 hin).ne'
    obtain ⟨buf, hbuf, hv⟩ := evalOnWindow_conv hb (vecOf g.tau i) (t - brk g i) (hc i ht)
    have h1 := ConvAt.bind (F := fun u t => intervalToWindow u g t i) (G := fun u _ s => evalOnWindow u g.basis s (vecOf g.tau i)) (intervalToWindow_at hin hz t)
      (ConvAt.comp (x := (t, window (vecOf g.tau i) (t - brk g i))) (f := fun q : ℝ × ℝ => q.2) hbuf (by fun_prop))
    have h2 : Ev (fun u (b : Vec) => (List.range g.codim).mapM fun c => do
        let seg ← lift (g.coefficientSegment i c)
        dot u seg ((List.range g.basis.dim).map b)) buf fun r => ∃ v, r = .ok v ∧ v.length = g.codim ∧ ∀ c < g.codim, |vecOf v c - curve g i c t| ≤ ε := by
      have h3 : ∀ c ∈ Finset.range g.codim, ∀ᶠ q in 𝓝 ((0 : ℝ × ℝ), buf), All (do
          let seg ← lift (g.coefficientSegment i c)
          dot q.1 seg ((List.range g.basis.dim).map q.2)) fun r => ∃ y, r = .ok y ∧ |y - curve g i c t| ≤ ε := by
        intro c hcm
        have hcc := Finset.mem_range.mp hcm
        have hbd := GSpline.coef_bound hcon hin hcc
        have hseg := segment_ok hbd
        have hlen : ((g.coeffs.drop (i * g.basis.dim * g.codim + g.basis.dim * c)).take g.basis.dim).length = g.basis.dim := by
          simp; omega
        filter_upwards [dot_conv (n := g.basis.dim) hlen buf _ (Metric.closedBall_mem_nhds _ hε)] with q hq r hr
        unfold GSpline.coefficientSegment at hr
        rw [hseg, lift_ok, LawfulMonad.pure_bind] at hr
        obtain ⟨y, hy, e⟩ := hq r hr
        refine ⟨y, e, ?_⟩
        rw [Metric.mem_closedBall, Real.dist_eq] at hy
        convert hy using 3
        unfold curve piece comb Vec.dot
        exact Finset.sum_congr rfl fun k hk => by rw [hv k (Finset.mem_range.mp hk), vecOf_segment (Finset.mem_range.mp hk)]
      filter_upwards [(Filter.eventually_all_finset _).mpr h3] with q hq r hr
      obtain ⟨v, e, hF⟩ := All.mapM (P := fun c y => |y - curve g i c t| ≤ ε) (fun c hcm => hq c (by simpa using hcm)) r hr
      have hl := hF.length_eq
      rw [List.length_range] at hl
      refine ⟨v, e, hl.symm, fun c hcc => ?_⟩
      have h1 : c < (List.range g.codim).length := by simpa using hcc
      have h2 : c < v.length := by omega
      have := (List.forall₂_iff_get.mp hF).2 c h1 h2
      unfold vecOf
      rw [List.getD_eq_getElem?_getD, List.getElem?_eq_getElem h2]
      simpa using this
    have h4 := Ev.bind (G := fun u _ (b : Vec) => (List.range g.codim).mapM fun c => do
        let seg ← lift (g.coefficientSegment i c)
        dot u seg ((List.range g.basis.dim).map b)) h1 (Ev.comp (x := (t, buf)) (f := fun q : ℝ × Vec => q.2) h2 (by fun_prop))
    filter_upwards [h4] with u hu _ r hr
    refine hu r ?_
    simp only [LawfulMonad.bind_assoc]
    simp only [rd_ok hin, lift_ok, LawfulMonad.pure_bind] at hr
    exact hr
  filter_upwards [(Filter.eventually_all_finset _).mpr key, getInterval_at hp t] with u hu hI r hr
  rcases hr with ⟨e, he, -⟩ | ⟨i, hi, hr⟩
  · obtain ⟨_, h, _⟩ := hI _ he; cases h
  · obtain ⟨_, h, ht⟩ := hI _ hi; cases h
    obtain ⟨v, h1, h2, h3⟩ := hu i (Finset.mem_range.mpr ht.1) ht r hr
    exact ⟨v, h1, h2, i, ht, h3⟩

end GSplines.Rounded
