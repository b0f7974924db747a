import Verif.Proofs.Rounding
import Verif.Proofs.GSpline
import Verif.Spec.Rounding

/-! # Evaluation of a spline with rounding errors -/

namespace GSplines.Rounded

open Nd Filter Topology Spec

theorem range_map_vecOf (l : List ℝ) : (List.range l.length).map (vecOf l) = l := by
  refine List.ext_getElem (by simp) fun k h1 h2 => ?_
  simp only [List.getElem_map, List.getElem_range]
  unfold vecOf
  rw [List.getD_eq_getElem?_getD, List.getElem?_eq_getElem h2]
  rfl

theorem lift_ok {α : Type} (a : α) : (lift (.ok a) : Nd α) = pure a := rfl

/-- The loop of `get_interval`, when the left end is known to be before `t`. -/
theorem scan_conv (t : ℝ) : ∀ (xs : List ℝ) (i : ℕ) (L : ℝ), ∀ᶠ q in 𝓝 ((0 : ℝ × ℝ), L), q.2 < t → All (scan q.1 t i q.2 xs) fun r =>
    (∃ j < xs.length, r = .ok (some (i + j)) ∧ L + (xs.take j).sum ≤ t ∧ t ≤ L + (xs.take (j + 1)).sum) ∨ (r = .ok none ∧ L + xs.sum ≤ t) := by
  intro xs
  have snd : ∀ L : ℝ, Tendsto (fun q : (ℝ × ℝ) × ℝ => q.2) (𝓝 ((0 : ℝ × ℝ), L)) (𝓝 L) := by
    intro L
    rw [nhds_prod_eq (x := (0 : ℝ × ℝ))]; exact tendsto_snd
  induction xs with
  | nil =>
    intro i L
    by_cases hL : L ≤ t
    · exact Eventually.of_forall fun q _ r hr => .inr ⟨hr, by simpa using hL⟩
    · filter_upwards [(snd L).eventually (lt_mem_nhds (not_le.mp hL))] with q h1 h2
      exact absurd h2 (not_lt.mpr h1.le)
  | cons x xs ih =>
    intro i L
    by_cases hL : L ≤ t
    · have h2 := ih (i + 1) (L + x)
      rw [nhds_prod_eq (x := (0 : ℝ × ℝ))] at h2
      obtain ⟨p, hp, V, hV, h4⟩ := eventually_prod_iff.mp h2
      obtain ⟨W, hW, h5⟩ := hV.exists_mem
      have h6 := ConvAt.near (x := L) (f := fun l : ℝ => l + x) (by fun_prop) W hW
      have h7 : ∀ᶠ q in 𝓝 ((0 : ℝ × ℝ), L), All (near q.1 (q.2 + x)) fun r => ∀ y, r = .ok y → t ≤ y → t ≤ L + x := by
        by_cases hx : t ≤ L + x
        · exact Eventually.of_forall fun q r _ y _ _ => hx
        · filter_upwards [ConvAt.near (x := L) (f := fun l : ℝ => l + x) (by fun_prop) _ (Iio_mem_nhds (not_le.mp hx))] with q h r hr y hy ht
          obtain ⟨y', hy', e⟩ := h r hr
          rw [hy] at e
          cases e
          exact absurd ht (not_le.mpr hy')
      have hp' : ∀ᶠ q in 𝓝 ((0 : ℝ × ℝ), L), p q.1 := by
        rw [nhds_prod_eq (x := (0 : ℝ × ℝ))]
        exact tendsto_fst.eventually hp
      filter_upwards [h6, h7, hp'] with q q6 q7 qp hlt r hr
      unfold scan at hr
      rcases hr with ⟨e, he, -⟩ | ⟨right, hright, hr⟩
      · obtain ⟨_, _, h⟩ := q6 _ he; cases h
      obtain ⟨_, hmem, h⟩ := q6 _ hright; cases h
      split_ifs at hr with hb
      · exact .inl ⟨0, by simp, hr, by simpa using hL, by simpa using q7 _ hright _ rfl hb.2⟩
      · have hlt' : right < t := by
          by_contra hc
          exact hb ⟨hlt, not_lt.mp hc⟩
        rcases h4 qp (h5 right hmem) hlt' r hr with ⟨j, hj, e, b1, b2⟩ | ⟨e, b⟩
        · refine .inl ⟨j + 1, by simpa using hj, by rw [e]; congr 2; omega, ?_, ?_⟩
          · rw [List.take_succ_cons, List.sum_cons]; linarith
          · rw [List.take_succ_cons, List.sum_cons]; linarith
        · exact .inr ⟨e, by rw [List.sum_cons]; linarith⟩
    · filter_upwards [(snd L).eventually (lt_mem_nhds (not_le.mp hL))] with q h1 h2
      exact absurd h2 (not_lt.mpr h1.le)

theorem getInterval_conv {g : GSpline} (hp : Positive g) (t : ℝ) : ∀ᶠ u in 𝓝 (0 : ℝ × ℝ), All (getInterval u g t) fun r => ∃ i, r = .ok i ∧ Touches g t i := by
  have hn : 0 < g.tau.length := List.length_pos_iff.mpr hp.1
  unfold getInterval
  by_cases h : t ≤ g.dom.1
  · refine Eventually.of_forall fun u r hr => ?_
    rw [if_pos h] at hr
    refine ⟨0, hr, hn, .inr rfl, .inl ?_⟩
    have := GSpline.brk_lt_succ hp hn
    rw [GSpline.brk_zero] at this
    linarith
  · have h' := not_le.mp h
    have e : Tendsto (fun u : ℝ × ℝ => (u, g.dom.1)) (𝓝 (0 : ℝ × ℝ)) (𝓝 ((0 : ℝ × ℝ), g.dom.1)) := Continuous.tendsto (by fun_prop) _
    filter_upwards [e.eventually (scan_conv t g.tau 0 g.dom.1)] with u hu r hr
    rw [if_neg h] at hr
    rcases hr with ⟨e, he, -⟩ | ⟨o, ho, hr⟩
    · rcases hu h' _ he with ⟨_, _, h, _⟩ | ⟨h, _⟩ <;> cases h
    · rcases hu h' _ ho with ⟨j, hj, h, b1, b2⟩ | ⟨h, b⟩
      · cases h
        exact ⟨0 + j, hr, by omega, .inl (by rw [Nat.zero_add]; exact b1), .inl (by rw [Nat.zero_add]; exact b2)⟩
      · cases h
        have hr' : r = .ok (g.tau.length - 1) := by
          have : r = .ok (if g.nIntervals = 0 then 2 ^ 64 - 1 else g.nIntervals - 1) := hr
          rwa [if_neg (show g.nIntervals ≠ 0 from by unfold GSpline.nIntervals; omega)] at this
        refine ⟨_, hr', by omega, ?_, .inr (by omega)⟩
        by_cases h1 : g.tau.length - 1 = 0
        · exact .inr h1
        · refine .inl ?_
          have := GSpline.brk_mono hp (i := g.tau.length - 1) (j := g.tau.length) (by omega) le_rfl
          have e2 : brk g g.tau.length = g.dom.1 + g.tau.sum := by unfold brk; rw [List.take_length]
          linarith

theorem intervalToWindow_conv {g : GSpline} {i : ℕ} (hi : i < g.tau.length) (hz : vecOf g.tau i ≠ 0) (t : ℝ) :
    ConvAt (fun u (_ : Unit) => intervalToWindow u g t i) () (window (vecOf g.tau i) (t - brk g i)) := by
  unfold intervalToWindow
  simp only [segment_ok (show 0 + i ≤ g.tau.length by omega), rd_ok hi, lift_ok, LawfulMonad.pure_bind]
  rw [← range_map_vecOf (List.take i (List.drop 0 g.tau))]
  refine ConvAt.bind (ConvAt.sum (f := fun k _ => vecOf (List.take i (List.drop 0 g.tau)) k) fun k _ => continuousAt_const) ?_
  refine ConvAt.bind (ConvAt.near (by fun_prop)) ?_
  refine ConvAt.bind (ConvAt.near (by fun_prop)) ?_
  refine ConvAt.bind (ConvAt.near (by fun_prop)) ?_
  refine ConvAt.bind (ConvAt.quot (by fun_prop) (by fun_prop) hz) ?_
  refine (ConvAt.near (by fun_prop)).congr ?_
  have : ∑ k ∈ Finset.range (List.take i (List.drop 0 g.tau)).length, vecOf (List.take i (List.drop 0 g.tau)) k = (g.tau.take i).sum := by
    change ((List.range (List.take i (List.drop 0 g.tau)).length).map (vecOf (List.take i (List.drop 0 g.tau)))).sum = _
    rw [range_map_vecOf, List.drop_zero]
  unfold window brk
  simp only [this]

theorem evalOnWindow_conv {b : Basis} (hb : b.Valid) (tau t : ℝ) (hc : Clear b (window tau t)) :
    ∃ v : Vec, ConvAt (fun u s => evalOnWindow u b s tau) (window tau t) v ∧ ∀ k < b.dim, v k = basisFn b tau k t := by
  cases b with
  | legendre d =>
    obtain ⟨v, e, h⟩ := Basis.evalOnWindow_spec (b := .legendre d) hb tau t trivial
    refine ⟨_, legendre_conv hb _, ?_⟩
    simp only [Basis.evalOnWindow, Legendre.evalOnWindow, if_neg (show ¬ d < 2 from not_lt.mpr hb)] at e
    cases e
    exact h
  | b0101 a =>
    obtain ⟨v, e, h⟩ := Basis.evalOnWindow_spec (b := .b0101 a) hb tau t trivial
    refine ⟨_, b0101_conv hb.2 tau _, ?_⟩
    cases e
    exact h
  | lagrange x =>
    have hb' : Props.Separated x.length (vecOf x) := hb
    obtain ⟨v, hv, hv'⟩ := lagrange_conv (n := x.length) hb'.distinct (s := window tau t) fun j hj => by
      refine hc (vecOf x j) ?_
      unfold vecOf
      rw [List.getD_eq_getElem?_getD, List.getElem?_eq_getElem hj]
      exact List.getElem_mem hj
    exact ⟨v, ConvAt.bind (baryWeights_conv hb'.distinct _) hv, hv'⟩

theorem value_conv {g : GSpline} (hb : g.basis.Valid) (hcon : Consistent g) (hp : Positive g) {t : ℝ}
    (hc : ∀ i, Touches g t i → Clear g.basis (window (vecOf g.tau i) (t - brk g i))) {ε : ℝ} (hε : 0 < ε) :
    ∀ᶠ u in 𝓝 (0 : ℝ × ℝ), All (value u g t) fun r => ∃ v, r = .ok v ∧ v.length = g.codim ∧ ∃ i, Touches g t i ∧ ∀ c < g.codim, |vecOf v c - curve g i c t| ≤ ε := by
  have key : ∀ i ∈ Finset.range g.tau.length, ∀ᶠ u in 𝓝 (0 : ℝ × ℝ), Touches g t i → All (do
      let s ← intervalToWindow u g t i
      let tau ← lift (rd g.tau i)
      let buf ← evalOnWindow u g.basis s tau
      (List.range g.codim).mapM fun c => do
        let seg ← lift (g.coefficientSegment i c)
        dot u seg ((List.range g.basis.dim).map buf)) fun r => ∃ v, r = .ok v ∧ v.length = g.codim ∧ ∀ c < g.codim, |vecOf v c - curve g i c t| ≤ ε := by
    intro i hi
    have hin := Finset.mem_range.mp hi
    by_cases ht : Touches g t i
    swap
    · exact Eventually.of_forall fun u h => absurd h ht
    have hz : vecOf g.tau i ≠ 0 := (vecOf_pos hp.2 hin).ne'
    obtain ⟨buf, hbuf, hv⟩ := evalOnWindow_conv hb (vecOf g.tau i) (t - brk g i) (hc i ht)
    have h1 := ConvAt.bind (F := fun u (_ : Unit) => intervalToWindow u g t i) (G := fun u _ s => evalOnWindow u g.basis s (vecOf g.tau i)) (intervalToWindow_conv hin hz t)
      (ConvAt.comp (x := ((), window (vecOf g.tau i) (t - brk g i))) (f := fun q : Unit × ℝ => q.2) hbuf (by fun_prop))
    have h2 : Ev (fun u (b : Vec) => (List.range g.codim).mapM fun c => do
        let seg ← lift (g.coefficientSegment i c)
        dot u seg ((List.range g.basis.dim).map b)) buf fun r => ∃ v, r = .ok v ∧ v.length = g.codim ∧ ∀ c < g.codim, |vecOf v c - curve g i c t| ≤ ε := by
      have h3 : ∀ c ∈ Finset.range g.codim, ∀ᶠ q in 𝓝 ((0 : ℝ × ℝ), buf), All (do
          let seg ← lift (g.coefficientSegment i c)
          dot q.1 seg ((List.range g.basis.dim).map q.2)) fun r => ∃ y, r = .ok y ∧ |y - curve g i c t| ≤ ε := by
        intro c hcm
        have hcc := Finset.mem_range.mp hcm
        have hbd := GSpline.coef_bound hcon hin hcc
        have hseg := segment_ok hbd
        have hlen : ((g.coeffs.drop (i * g.basis.dim * g.codim + g.basis.dim * c)).take g.basis.dim).length = g.basis.dim := by
          simp; omega
        filter_upwards [dot_conv (n := g.basis.dim) hlen buf _ (Metric.closedBall_mem_nhds _ hε)] with q hq r hr
        unfold GSpline.coefficientSegment at hr
        rw [hseg, lift_ok, LawfulMonad.pure_bind] at hr
        obtain ⟨y, hy, e⟩ := hq r hr
        refine ⟨y, e, ?_⟩
        rw [Metric.mem_closedBall, Real.dist_eq] at hy
        convert hy using 3
        unfold curve piece comb Vec.dot
        exact Finset.sum_congr rfl fun k hk => by rw [hv k (Finset.mem_range.mp hk), vecOf_segment (Finset.mem_range.mp hk)]
      filter_upwards [(Filter.eventually_all_finset _).mpr h3] with q hq r hr
      obtain ⟨v, e, hF⟩ := All.mapM (P := fun c y => |y - curve g i c t| ≤ ε) (fun c hcm => hq c (by simpa using hcm)) r hr
      have hl := hF.length_eq
      rw [List.length_range] at hl
      refine ⟨v, e, hl.symm, fun c hcc => ?_⟩
      have h1 : c < (List.range g.codim).length := by simpa using hcc
      have h2 : c < v.length := by omega
      have := (List.forall₂_iff_get.mp hF).2 c h1 h2
      unfold vecOf
      rw [List.getD_eq_getElem?_getD, List.getElem?_eq_getElem h2]
      simpa using this
    have h4 := Ev.bind (G := fun u _ (b : Vec) => (List.range g.codim).mapM fun c => do
        let seg ← lift (g.coefficientSegment i c)
        dot u seg ((List.range g.basis.dim).map b)) h1 (Ev.comp (x := ((), buf)) (f := fun q : Unit × Vec => q.2) h2 (by fun_prop))
    have e : Tendsto (fun u : ℝ × ℝ => (u, ())) (𝓝 (0 : ℝ × ℝ)) (𝓝 ((0 : ℝ × ℝ), ())) := Continuous.tendsto (by fun_prop) _
    filter_upwards [e.eventually h4] with u hu _ r hr
    refine hu r ?_
    simp only [LawfulMonad.bind_assoc]
    simp only [rd_ok hin, lift_ok, LawfulMonad.pure_bind] at hr
    exact hr
  filter_upwards [(Filter.eventually_all_finset _).mpr key, getInterval_conv hp t] with u hu hI r hr
  rcases hr with ⟨e, he, -⟩ | ⟨i, hi, hr⟩
  · obtain ⟨_, h, _⟩ := hI _ he; cases h
  · obtain ⟨_, h, ht⟩ := hI _ hi; cases h
    obtain ⟨v, h1, h2, h3⟩ := hu i (Finset.mem_range.mpr ht.1) ht r hr
    exact ⟨v, h1, h2, i, ht, h3⟩

end GSplines.Rounded
