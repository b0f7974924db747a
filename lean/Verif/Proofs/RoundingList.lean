import Verif.Proofs.RoundingEval
import Mathlib.Topology.List

/-! # Convergence of rounded operations on rows -/

namespace GSplines.Nd

open Filter Topology

variable {α β γ : Type} [TopologicalSpace α] [TopologicalSpace β] [TopologicalSpace γ]

theorem nhds_cons_map (a : α) (l : List α) : 𝓝 (a :: l) = (𝓝 a ×ˢ 𝓝 l).map fun p : α × List α => p.1 :: p.2 := by
  simp only [nhds_cons, Filter.prod_eq, (Filter.map_def _ _).symm, (Filter.seq_eq_filter_seq _ _).symm]
  simp [-Filter.map_def, Function.comp_def, functor_norm]

theorem _root_.ContinuousAt.cons' {f : α → β} {g : α → List β} {x : α} (hf : ContinuousAt f x) (hg : ContinuousAt g x) : ContinuousAt (fun a => f a :: g a) x :=
  Filter.Tendsto.cons hf hg

/-- A program on lists near a list that is not empty. -/
theorem ConvAt.cons {F : ℝ × ℝ → List α → Nd β} {a : α} {l : List α} {z : β} (h : ConvAt (fun u (p : α × List α) => F u (p.1 :: p.2)) (a, l) z) :
    ConvAt F (a :: l) z := by
  intro U hU
  have := h U hU
  rw [nhds_prod_eq (x := (0 : ℝ × ℝ)), nhds_prod_eq (x := a)] at this
  rw [nhds_prod_eq (x := (0 : ℝ × ℝ)), nhds_cons_map, ← Filter.map_id (f := 𝓝 (0 : ℝ × ℝ)), Filter.prod_map_map_eq, Filter.eventually_map]
  exact this

theorem ConvAt.nil {F : ℝ × ℝ → List α → Nd β} {z : β} (h : ∀ u r, F u [] r → r = .ok z) : ConvAt F [] z := by
  intro U hU
  rw [nhds_prod_eq (x := (0 : ℝ × ℝ)), nhds_nil]
  have : ∀ᶠ q : (ℝ × ℝ) × List α in 𝓝 (0 : ℝ × ℝ) ×ˢ (Pure.pure [] : Filter (List α)), q.2 = [] := tendsto_snd.eventually (p := fun l => l = []) (eventually_pure.mpr rfl)
  filter_upwards [this] with q hq r hr
  rw [hq] at hr
  exact ⟨z, mem_of_mem_nhds hU, h _ _ hr⟩

theorem ConvAt.mapM {F : ℝ × ℝ → α → Nd β} {f : α → β} (l : List α) (h : ∀ a ∈ l, ConvAt F a (f a)) : ConvAt (fun u l => l.mapM (F u)) l (l.map f) := by
  induction l with
  | nil => exact ConvAt.nil fun u r hr => hr
  | cons a l ih =>
    refine ConvAt.cons ?_
    simp only [List.mapM_cons, List.map_cons]
    refine ConvAt.bind (ConvAt.comp (x := (a, l)) (f := Prod.fst) (h a (by simp)) continuousAt_fst) ?_
    refine ConvAt.bind (ConvAt.comp (x := ((a, l), f a)) (f := fun q : (α × List α) × β => q.1.2) (ih fun b hb => h b (by simp [hb])) (by fun_prop)) ?_
    exact ConvAt.pure (x := (((a, l), f a), l.map f)) (f := fun q : ((α × List α) × β) × List β => q.1.2 :: q.2)
      (ContinuousAt.cons' (by fun_prop) (by fun_prop))

theorem ConvAt.mapNear (l : List ℝ) : ConvAt (fun u (l : List ℝ) => l.mapM (Nd.near u)) l l := by
  have := ConvAt.mapM (F := fun u a => Nd.near u a) (f := fun a => a) l fun a _ => ConvAt.near (f := fun a : ℝ => a) continuousAt_id
  rwa [List.map_id'] at this

theorem continuous_zipWith {op : ℝ → ℝ → ℝ} (ho : Continuous fun p : ℝ × ℝ => op p.1 p.2) (l m : List ℝ) :
    ContinuousAt (fun p : List ℝ × List ℝ => List.zipWith op p.1 p.2) (l, m) := by
  unfold ContinuousAt
  rw [nhds_prod_eq]
  induction l generalizing m with
  | nil =>
    rw [nhds_nil]
    have : ∀ᶠ q : List ℝ × List ℝ in pure [] ×ˢ 𝓝 m, q.1 = [] := tendsto_fst.eventually (p := fun l => l = []) (eventually_pure.mpr rfl)
    refine tendsto_const_nhds.congr' ?_
    filter_upwards [this] with q hq
    simp [hq]
  | cons a l ih =>
    cases m with
    | nil =>
      rw [nhds_nil]
      have : ∀ᶠ q : List ℝ × List ℝ in 𝓝 (a :: l) ×ˢ pure [], q.2 = [] := tendsto_snd.eventually (p := fun l => l = []) (eventually_pure.mpr rfl)
      refine tendsto_const_nhds.congr' ?_
      filter_upwards [this] with q hq
      simp [hq]
    | cons b m =>
      rw [nhds_cons_map, nhds_cons_map, Filter.prod_map_map_eq, tendsto_map'_iff]
      refine Filter.Tendsto.cons (f := fun p : (ℝ × List ℝ) × (ℝ × List ℝ) => op p.1.1 p.2.1) (g := fun p => List.zipWith op p.1.2 p.2.2) ?_ ?_
      · exact (ho.tendsto (a, b)).comp ((tendsto_fst.comp tendsto_fst).prodMk_nhds (tendsto_fst.comp tendsto_snd))
      · exact (ih m).comp ((tendsto_snd.comp tendsto_fst).prodMk (tendsto_snd.comp tendsto_snd))

theorem continuous_mapOp {op : ℝ → α → ℝ} (ho : Continuous fun p : ℝ × α => op p.1 p.2) (l : List ℝ) (x : α) :
    ContinuousAt (fun p : List ℝ × α => p.1.map fun y => op y p.2) (l, x) := by
  unfold ContinuousAt
  rw [nhds_prod_eq]
  induction l with
  | nil =>
    rw [nhds_nil]
    have : ∀ᶠ q : List ℝ × α in pure [] ×ˢ 𝓝 x, q.1 = [] := tendsto_fst.eventually (p := fun l => l = []) (eventually_pure.mpr rfl)
    refine tendsto_const_nhds.congr' ?_
    filter_upwards [this] with q hq
    simp [hq]
  | cons a l ih =>
    rw [nhds_cons_map, ← Filter.map_id (f := 𝓝 x), Filter.prod_map_map_eq, tendsto_map'_iff]
    refine Filter.Tendsto.cons (f := fun p : (ℝ × List ℝ) × α => op p.1.1 p.2) (g := fun p : (ℝ × List ℝ) × α => p.1.2.map fun y => op y p.2) ?_ ?_
    · exact (ho.tendsto (a, x)).comp ((tendsto_fst.comp tendsto_fst).prodMk_nhds tendsto_snd)
    · exact ih.comp ((tendsto_snd.comp tendsto_fst).prodMk tendsto_snd)

theorem continuous_map {f : ℝ → ℝ} (hf : Continuous f) (l : List ℝ) : ContinuousAt (fun l : List ℝ => l.map f) l := by
  have := continuous_mapOp (α := Unit) (op := fun y _ => f y) (by fun_prop) l ()
  exact ContinuousAt.comp (x := l) (f := fun l : List ℝ => (l, ())) (g := fun p : List ℝ × Unit => p.1.map f) this (by fun_prop)

theorem continuousAt_headD {l : List ℝ} (h : l ≠ []) : ContinuousAt (fun l : List ℝ => l.headD 0) l := by
  cases l with
  | nil => exact absurd rfl h
  | cons a l =>
    unfold ContinuousAt
    rw [List.tendsto_cons_iff]
    exact tendsto_fst

theorem list_nhds {l : List ℝ} : ∀ {U : Set (List ℝ)}, U ∈ 𝓝 l → ∃ ε > 0, ∀ l' : List ℝ, l'.length = l.length → (∀ k < l.length, |vecOf l' k - vecOf l k| ≤ ε) → l' ∈ U := by
  induction l with
  | nil =>
    intro U hU
    refine ⟨1, one_pos, fun l' h _ => ?_⟩
    rw [List.length_eq_zero_iff.mp h]
    exact mem_of_mem_nhds hU
  | cons a l ih =>
    intro U hU
    rw [nhds_cons_map, Filter.mem_map, Filter.mem_prod_iff] at hU
    obtain ⟨A, hA, B, hB, hAB⟩ := hU
    obtain ⟨ε1, h1, hb⟩ := Metric.nhds_basis_closedBall.mem_iff.mp hA
    obtain ⟨ε2, h2, hl⟩ := ih hB
    refine ⟨min ε1 ε2, lt_min h1 h2, fun l' hl' hk => ?_⟩
    cases l' with
    | nil => simp at hl'
    | cons a' l' =>
      have : (a', l') ∈ A ×ˢ B := by
        refine ⟨hb ?_, hl l' (by simpa using hl') fun k hk' => ?_⟩
        · rw [Metric.mem_closedBall, Real.dist_eq]
          exact (hk 0 (by simp)).trans (min_le_left _ _)
        · have := hk (k + 1) (by simpa using hk')
          exact this.trans (min_le_right _ _)
      exact hAB this

theorem nhds_list_close {l : List ℝ} {ε : ℝ} (hε : 0 < ε) : ∀ᶠ l' in 𝓝 l, l'.length = l.length ∧ ∀ k < l.length, |vecOf l' k - vecOf l k| ≤ ε := by
  induction l with
  | nil => simp [nhds_nil]
  | cons a l ih =>
    rw [nhds_cons_map, Filter.eventually_map]
    have h1 : ∀ᶠ x in 𝓝 a, |x - a| ≤ ε := by
      have := Metric.closedBall_mem_nhds a hε
      filter_upwards [this] with x hx
      rwa [Metric.mem_closedBall, Real.dist_eq] at hx
    filter_upwards [h1.prod_mk ih] with p hp
    refine ⟨by simpa using hp.2.1, fun k hk => ?_⟩
    cases k with
    | zero => exact hp.1
    | succ k => exact hp.2.2 k (by simpa using hk)

/-- The sum of a row. -/
theorem ConvAt.sumList (l : List ℝ) : ConvAt (fun u (l : List ℝ) => Nd.sum u l) l l.sum := by
  have h1 : ContinuousAt (fun l : List ℝ => l.sum) l := List.continuous_sum.continuousAt
  have h2 : ContinuousAt (fun l : List ℝ => (l.map abs).sum) l :=
    ContinuousAt.comp (x := l) (f := fun l : List ℝ => l.map abs) (g := List.sum) List.continuous_sum.continuousAt (continuous_map continuous_abs l)
  intro U hU
  obtain ⟨ε, hε, hball⟩ := Metric.mem_nhds_iff.mp hU
  have h3 := sumErr_tendsto (n := l.length - 1) h2
  have h4 : Tendsto (fun q : (ℝ × ℝ) × List ℝ => |q.2.sum - l.sum|) (𝓝 ((0 : ℝ × ℝ), l)) (𝓝 0) := by
    have h5 : Tendsto (fun q : (ℝ × ℝ) × List ℝ => q.2.sum) (𝓝 ((0 : ℝ × ℝ), l)) (𝓝 l.sum) := h1.tendsto.comp (continuous_snd.tendsto _)
    simpa using (h5.sub_const l.sum).abs
  have h5 := h3.add h4
  rw [add_zero] at h5
  have h6 : ∀ᶠ q : (ℝ × ℝ) × List ℝ in 𝓝 ((0 : ℝ × ℝ), l), q.2.length = l.length := by
    have : Tendsto (fun q : (ℝ × ℝ) × List ℝ => q.2) (𝓝 ((0 : ℝ × ℝ), l)) (𝓝 l) := continuous_snd.tendsto _
    exact this.eventually ((nhds_list_close one_pos).mono fun _ h => h.1)
  filter_upwards [h5.eventually (gt_mem_nhds hε), h6] with q hq hlen r hr
  obtain ⟨y, rfl, hy⟩ := hr
  refine ⟨y, hball ?_, rfl⟩
  rw [Metric.mem_ball, Real.dist_eq]
  have hb := (hy.mono (v := (|q.1.1|, |q.1.2|)) (le_abs_self _) (le_abs_self _)).bound (abs_nonneg _) (abs_nonneg _)
  rw [hlen] at hb
  have := abs_sub_le y q.2.sum l.sum
  linarith

end GSplines.Nd

namespace GSplines.Rounded

open Nd Filter Topology

/-- The scalar product of two rows. -/
theorem dotList_conv (a b : List ℝ) : ConvAt (fun u (p : List ℝ × List ℝ) => dot u p.1 p.2) (a, b) (List.zipWith (· * ·) a b).sum := by
  unfold dot
  refine ConvAt.bind (ConvAt.comp (x := (a, b)) (f := fun p : List ℝ × List ℝ => List.zipWith (· * ·) p.1 p.2) (ConvAt.mapNear _) (continuous_zipWith continuous_mul a b)) ?_
  exact ConvAt.comp (x := ((a, b), List.zipWith (· * ·) a b)) (f := fun p : (List ℝ × List ℝ) × List ℝ => p.2) (ConvAt.sumList _) (by fun_prop)

end GSplines.Rounded
