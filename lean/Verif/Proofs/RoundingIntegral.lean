import Verif.Proofs.RoundingFnExact
import Verif.Proofs.RoundingGLL
import Verif.Props.Integral

/-! # Convergence of the rounded integral -/

namespace GSplines.Rounded

open Nd Filter Topology Spec Fn

/-- The part of `integral` after the computation of points and weights. -/
noncomputable def given (u : ℝ × ℝ) (f : Fn) (n k : ℕ) (pw : Vec × Vec) : Nd ℝ :=
  if k = 0 then pure 0
  else do
    let d ← near u (f.dom.2 - f.dom.1)
    let len ← quot u d k
    loop 0 k (integralStep u f n len pw.1 pw.2) 0

theorem integral_given (u : ℝ × ℝ) (f : Fn) (n k : ℕ) (jp jw : Vec) (hc : f.codim = 1) : integral u f n k jp jw = pointsWeights u n jp jw >>= given u f n k := by
  unfold integral
  rw [if_neg (not_not.mpr hc)]
  rfl

theorem gridPoint_conv (q : ℝ × ℝ × ℝ) : ConvAt (fun u (q : ℝ × ℝ × ℝ) => gridPoint u q.1 q.2.1 q.2.2) q ((q.2.2 + 1) * q.1 / 2 + q.2.1) := by
  unfold gridPoint
  refine ConvAt.bind (ConvAt.near (f := fun q : ℝ × ℝ × ℝ => q.2.2 + 1) (by fun_prop)) ?_
  refine ConvAt.bind (ConvAt.near (f := fun p : (ℝ × ℝ × ℝ) × ℝ => p.2 * p.1.1) (by fun_prop)) ?_
  refine ConvAt.bind (ConvAt.near (f := fun p : ((ℝ × ℝ × ℝ) × ℝ) × ℝ => p.2 / 2) (by fun_prop)) ?_
  exact ConvAt.near (f := fun p : (((ℝ × ℝ × ℝ) × ℝ) × ℝ) × ℝ => p.2 + p.1.1.1.2.1) (by fun_prop)

theorem zip_continuous (w : Vec) : ∀ (v : List (List ℝ)) (l : List ℕ), (∀ r ∈ v, r ≠ []) →
    ContinuousAt (fun p : List (List ℝ) × Vec => List.zipWith (fun row k => row.headD 0 * p.2 k) p.1 l) (v, w) := by
  intro v
  induction v with
  | nil =>
    intro l _
    unfold ContinuousAt
    rw [nhds_prod_eq, nhds_nil]
    have : ∀ᶠ q : List (List ℝ) × Vec in Pure.pure [] ×ˢ 𝓝 w, q.1 = [] := tendsto_fst.eventually (p := fun l => l = []) (eventually_pure.mpr rfl)
    refine tendsto_const_nhds.congr' ?_
    filter_upwards [this] with q hq
    simp [hq]
  | cons a v ih =>
    intro l hv
    cases l with
    | nil => simpa using continuousAt_const
    | cons k l =>
      unfold ContinuousAt
      rw [nhds_prod_eq, nhds_cons_map, ← Filter.map_id (f := 𝓝 w), Filter.prod_map_map_eq, tendsto_map'_iff]
      refine Filter.Tendsto.cons (f := fun p : (List ℝ × List (List ℝ)) × Vec => p.1.1.headD 0 * p.2 k)
        (g := fun p : (List ℝ × List (List ℝ)) × Vec => List.zipWith (fun row k => row.headD 0 * p.2 k) p.1.2 l) ?_ ?_
      · have h1 : Tendsto (fun r : List ℝ => r.headD 0) (𝓝 a) (𝓝 (a.headD 0)) := continuousAt_headD (hv a (by simp))
        have h2 : Tendsto (fun w : Vec => w k) (𝓝 w) (𝓝 (w k)) := (continuous_apply k).tendsto w
        exact (h1.comp (tendsto_fst.comp tendsto_fst)).mul (h2.comp tendsto_snd)
      · have := ih l fun r hr => hv r (by simp [hr])
        unfold ContinuousAt at this
        rw [nhds_prod_eq] at this
        exact this.comp ((tendsto_snd.comp tendsto_fst).prodMk tendsto_snd)

/-- The points of one interval. -/
noncomputable def pts (n : ℕ) (len left : ℝ) (p : Vec) : List ℝ := (List.range n).map fun k => (p k + 1) * len / 2 + left

theorem pts_conv (n : ℕ) (len left : ℝ) (p : Vec) :
    ConvAt (fun u (q : ℝ × ℝ × Vec) => (List.range n).mapM fun k => gridPoint u q.1 q.2.1 (q.2.2 k)) (len, left, p) (pts n len left p) := by
  have e : ∀ u (q : ℝ × ℝ × Vec), ((List.range n).mapM fun k => gridPoint u q.1 q.2.1 (q.2.2 k)) =
      ((List.range n).map fun k => (q.1, q.2.1, q.2.2 k)).mapM fun q : ℝ × ℝ × ℝ => gridPoint u q.1 q.2.1 q.2.2 := by
    intro u q
    rw [List.mapM_map]
    rfl
  simp only [e]
  have h := ConvAt.mapM (F := fun u (q : ℝ × ℝ × ℝ) => gridPoint u q.1 q.2.1 q.2.2) (f := fun q => (q.2.2 + 1) * q.1 / 2 + q.2.1)
    ((List.range n).map fun k => (len, left, p k)) fun a _ => gridPoint_conv a
  refine (ConvAt.comp (x := (len, left, p)) (f := fun q : ℝ × ℝ × Vec => (List.range n).map fun k => (q.1, q.2.1, q.2.2 k)) h ?_).congr ?_
  · exact map_range_continuousAt fun k _ => by fun_prop
  · unfold pts; rw [List.map_map]; rfl

/-- The sum over one interval in exact arithmetic. -/
noncomputable def cell (f : Fn) (n : ℕ) (len : ℝ) (p w : Vec) (iv : ℕ) (r : ℝ) : ℝ :=
  r + (List.zipWith (fun row k => row.headD 0 * w k) ((pts n len (f.dom.1 + iv * len) p).map (vals f)) (List.range n)).sum * len / 2

variable {f : Fn}

theorem step_conv (hg : Good f) (hc : f.codim = 1) {n iv : ℕ} {p w : Vec} {len : ℝ} (hs : ∀ t ∈ pts n len (f.dom.1 + iv * len) p, Steady f t) (r : ℝ) :
    ConvAt (fun u (q : ((Vec × Vec) × ℝ) × ℝ) => integralStep u f n q.1.2 q.1.1.1 q.1.1.2 iv q.2) (((p, w), len), r) (cell f n len p w iv r) := by
  unfold integralStep
  refine ConvAt.bind (ConvAt.near (f := fun q : ((Vec × Vec) × ℝ) × ℝ => iv * q.1.2) (by fun_prop)) ?_
  refine ConvAt.bind (ConvAt.near (f := fun q : (((Vec × Vec) × ℝ) × ℝ) × ℝ => f.dom.1 + q.2) (by fun_prop)) ?_
  refine ConvAt.bind (ConvAt.comp (x := (((((p, w), len), r), iv * len), f.dom.1 + iv * len)) (f := fun q : ((((Vec × Vec) × ℝ) × ℝ) × ℝ) × ℝ => (q.1.1.1.2, q.2, q.1.1.1.1.1)) (pts_conv n len (f.dom.1 + iv * len) p) (by fun_prop)) ?_
  refine ConvAt.bind (ConvAt.comp (f := fun q : (((((Vec × Vec) × ℝ) × ℝ) × ℝ) × ℝ) × List ℝ => q.2)
    (ConvAt.mapM (F := fun u t => row u f 1 t) (f := vals f) (pts n len (f.dom.1 + iv * len) p) fun t ht => by
      have := cv_of_good hg (hs t ht)
      unfold Cv at this
      rwa [hc] at this) (by fun_prop)) ?_
  refine ConvAt.bind (ConvAt.comp (f := fun q : ((((((Vec × Vec) × ℝ) × ℝ) × ℝ) × ℝ) × List ℝ) × List (List ℝ) =>
    List.zipWith (fun row k => row.headD 0 * q.1.1.1.1.1.1.2 k) q.2 (List.range n)) (ConvAt.mapNear _) ?_) ?_
  · refine ContinuousAt.comp (x := (((((((p, w), len), r), iv * len), f.dom.1 + iv * len), pts n len (f.dom.1 + iv * len) p), (pts n len (f.dom.1 + iv * len) p).map (vals f)))
      (f := fun q : ((((((Vec × Vec) × ℝ) × ℝ) × ℝ) × ℝ) × List ℝ) × List (List ℝ) => (q.2, q.1.1.1.1.1.1.2))
      (g := fun p : List (List ℝ) × Vec => List.zipWith (fun row k => row.headD 0 * p.2 k) p.1 (List.range n)) (zip_continuous _ _ _ ?_) (by fun_prop)
    intro v hv
    obtain ⟨t, -, rfl⟩ := List.mem_map.mp hv
    rw [vals_one hc]; simp
  refine ConvAt.bind (ConvAt.comp (f := fun q : (((((((Vec × Vec) × ℝ) × ℝ) × ℝ) × ℝ) × List ℝ) × List (List ℝ)) × List ℝ => q.2) (ConvAt.sumList _) (by fun_prop)) ?_
  refine ConvAt.bind (ConvAt.near (f := fun q : ((((((((Vec × Vec) × ℝ) × ℝ) × ℝ) × ℝ) × List ℝ) × List (List ℝ)) × List ℝ) × ℝ => q.2 * q.1.1.1.1.1.1.1.2) (by fun_prop)) ?_
  refine ConvAt.bind (ConvAt.near (f := fun q : (((((((((Vec × Vec) × ℝ) × ℝ) × ℝ) × ℝ) × List ℝ) × List (List ℝ)) × List ℝ) × ℝ) × ℝ => q.2 / 2) (by fun_prop)) ?_
  exact ConvAt.near (f := fun q : ((((((((((Vec × Vec) × ℝ) × ℝ) × ℝ) × ℝ) × List ℝ) × List (List ℝ)) × List ℝ) × ℝ) × ℝ) × ℝ => q.1.1.1.1.1.1.1.1.2 + q.2) (by fun_prop)

theorem pts_grid {n k : ℕ} (iv : ℕ) (d : ℝ × ℝ) (p : Vec) :
    pts n ((d.2 - d.1) / k) (d.1 + iv * ((d.2 - d.1) / k)) p = (List.range n).map fun j => Spec.gridPoint d k iv (p j) := by
  unfold pts
  refine List.map_congr_left fun j _ => ?_
  unfold Spec.gridPoint; ring

theorem zip_sum (φ : ℕ → ℝ) (w : Vec) (l : List ℕ) : (List.zipWith (fun (row : List ℝ) k => row.headD 0 * w k) (l.map fun j => [φ j]) l).sum = (l.map fun j => w j * φ j).sum := by
  induction l with
  | nil => rfl
  | cons a l ih => rw [List.map_cons, List.zipWith_cons_cons, List.sum_cons, ih, List.map_cons, List.sum_cons, List.headD_cons, mul_comm]

theorem cell_eq (hc : f.codim = 1) (n k : ℕ) (p w : Vec) (iv : ℕ) (r : ℝ) : cell f n ((f.dom.2 - f.dom.1) / k) p w iv r =
    r + (f.dom.2 - f.dom.1) / k / 2 * ∑ j ∈ Finset.range n, w j * val f 0 (Spec.gridPoint f.dom k iv (p j)) := by
  unfold cell
  rw [pts_grid, List.map_map]
  have : ((List.range n).map (vals f ∘ fun j => Spec.gridPoint f.dom k iv (p j))) = (List.range n).map fun j => [val f 0 (Spec.gridPoint f.dom k iv (p j))] :=
    List.map_congr_left fun j _ => vals_one hc _
  rw [this, zip_sum (fun j => val f 0 (Spec.gridPoint f.dom k iv (p j)))]
  rw [show ∀ g : ℕ → ℝ, ((List.range n).map g).sum = ∑ j ∈ Finset.range n, g j from fun g => rfl]
  ring

theorem loop_cell (hc : f.codim = 1) (n k : ℕ) (p w : Vec) : forLoop 0 k (cell f n ((f.dom.2 - f.dom.1) / k) p w) 0 = quadrature (val f 0) f.dom n k p w := by
  unfold quadrature
  have : ∀ m, forLoop 0 m (cell f n ((f.dom.2 - f.dom.1) / k) p w) 0 =
      ∑ iv ∈ Finset.range m, (f.dom.2 - f.dom.1) / k / 2 * ∑ j ∈ Finset.range n, w j * val f 0 (Spec.gridPoint f.dom k iv (p j)) := by
    intro m
    induction m with
    | zero => rfl
    | succ m ih =>
      rw [Finset.sum_range_succ, ← ih, ← cell_eq hc]
      unfold forLoop
      rw [Nat.sub_zero, Nat.sub_zero, List.range'_concat, List.foldl_append]
      simp
  exact this k

theorem given_conv (hg : Good f) (hc : f.codim = 1) {n k : ℕ} (hk : 0 < k) {p w : Vec} (hs : ∀ iv < k, ∀ j < n, Steady f (Spec.gridPoint f.dom k iv (p j))) :
    ConvAt (fun u pw => given u f n k pw) (p, w) (quadrature (val f 0) f.dom n k p w) := by
  have hk0 : (k : ℝ) ≠ 0 := by exact_mod_cast hk.ne'
  unfold given
  simp only [if_neg hk.ne']
  refine ConvAt.bind (ConvAt.near (f := fun _ : Vec × Vec => f.dom.2 - f.dom.1) continuousAt_const) ?_
  refine ConvAt.bind (ConvAt.quot (f := fun q : (Vec × Vec) × ℝ => q.2) (g := fun _ => (k : ℝ)) (by fun_prop) continuousAt_const hk0) ?_
  rw [← loop_cell hc]
  have h := ConvAt.loop (a := 0) (b := k) (s := 0) (x := ((p, w), (f.dom.2 - f.dom.1) / k)) (body := fun u iv (q : (Vec × Vec) × ℝ) r => integralStep u f n q.2 q.1.1 q.1.2 iv r)
    (exact := cell f n ((f.dom.2 - f.dom.1) / k) p w) fun iv _ hiv r => step_conv hg hc (fun t ht => by
      rw [pts_grid] at ht
      obtain ⟨j, hj, rfl⟩ := List.mem_map.mp ht
      exact hs iv hiv j (List.mem_range.mp hj)) r
  exact ConvAt.comp (x := (((p, w), f.dom.2 - f.dom.1), (f.dom.2 - f.dom.1) / (k : ℝ))) (f := fun q : ((Vec × Vec) × ℝ) × ℝ => ((q.1.1, q.2), (0 : ℝ))) h (by fun_prop)

theorem given_has {u : ℝ × ℝ} (h1 : 0 ≤ u.1) (h2 : 0 ≤ u.2) (hg : Good f) (hc : f.codim = 1) (n k : ℕ) (pw : Vec × Vec) :
    Has (given u f n k pw) (quadrature (val f 0) f.dom n k pw.1 pw.2) := by
  unfold given
  by_cases hk : k = 0
  · rw [if_pos hk]
    subst hk
    simp only [quadrature, Finset.range_zero, Finset.sum_empty]
    exact Has.pure _
  rw [if_neg hk, ← loop_cell hc]
  refine Has.bind (Has.near h1 h2 _) (Has.bind (Has.quot h1 h2 _ (by exact_mod_cast hk)) (Has.loop (fun iv _ _ r => ?_) _))
  unfold integralStep
  refine Has.bind (Has.near h1 h2 _) (Has.bind (Has.near h1 h2 _) ?_)
  refine Has.bind (a := pts n ((f.dom.2 - f.dom.1) / k) (f.dom.1 + iv * ((f.dom.2 - f.dom.1) / k)) pw.1) (Has.mapM fun j _ => ?_) ?_
  · exact Has.bind (Has.near h1 h2 _) (Has.bind (Has.near h1 h2 _) (Has.bind (Has.near h1 h2 _) (Has.near h1 h2 _)))
  refine Has.bind (Has.mapM (g := vals f) fun t _ => ?_) ?_
  · have := row_has h1 h2 hg t
    rwa [hc] at this
  exact Has.bind (has_mapNear h1 h2 _) (Has.bind (Has.sum h1 h2 _) (Has.bind (Has.near h1 h2 _) (Has.bind (Has.near h1 h2 _) (Has.near h1 h2 _))))

theorem given_safe (u : ℝ × ℝ) (hg : Good f) (hc : f.codim = 1) (n k : ℕ) (pw : Vec × Vec) : All (given u f n k pw) Safe := by
  unfold given
  split_ifs
  · exact safe_pure _
  refine safe_bind (safe_near _ _) fun _ => safe_bind (safe_quot _ _ _) fun _ => safe_loop (fun iv r => ?_) _
  unfold integralStep gridPoint
  refine safe_bind (safe_near _ _) fun _ => safe_bind (safe_near _ _) fun _ => safe_bind (safe_mapM fun j _ => ?_) fun _ => safe_bind (safe_mapM fun t _ => ?_) fun _ =>
    safe_bind (safe_mapM fun _ _ => safe_near _ _) fun _ => safe_bind (safe_sum _ _) fun _ => safe_bind (safe_near _ _) fun _ => safe_bind (safe_near _ _) fun _ => safe_near _ _
  · exact safe_bind (safe_near _ _) fun _ => safe_bind (safe_near _ _) fun _ => safe_bind (safe_near _ _) fun _ => safe_near _ _
  · intro r hr
    have := row_fit u hg t r (by rwa [hc])
    exact this.1

/-- A program that converges at every point of a compact set, and has the exact outcome, converges uniformly. -/
theorem conv_uniform {α : Type} [TopologicalSpace α] {F : ℝ × ℝ → α → Nd ℝ} {z : α → ℝ} {K : Set α} (hK : IsCompact K) (h : ∀ x ∈ K, ConvAt F x (z x))
    (hex : ∀ u : ℝ × ℝ, 0 ≤ u.1 → 0 ≤ u.2 → ∀ x ∈ K, Has (F u x) (z x)) {ε : ℝ} (hε : 0 < ε) :
    ∀ᶠ u in 𝓝 (0 : ℝ × ℝ), 0 ≤ u.1 → 0 ≤ u.2 → ∀ x ∈ K, All (F u x) fun r => ∃ v, r = .ok v ∧ |v - z x| ≤ ε := by
  have loc : ∀ x ∈ K, ∃ U ∈ 𝓝 x, ∀ᶠ u in 𝓝 (0 : ℝ × ℝ), 0 ≤ u.1 → 0 ≤ u.2 → ∀ y ∈ U, y ∈ K → All (F u y) fun r => ∃ v, r = .ok v ∧ |v - z y| ≤ ε := by
    intro x hx
    have h1 := h x hx _ (Metric.closedBall_mem_nhds (z x) (half_pos hε))
    rw [nhds_prod_eq, Filter.eventually_prod_iff] at h1
    obtain ⟨pa, ha, pb, hb, hab⟩ := h1
    refine ⟨{y | pb y}, hb, ha.mono fun u hu h1 h2 y hy hyK r hr => ?_⟩
    obtain ⟨v, hv, e⟩ := hab hu hy r hr
    obtain ⟨v', hv', e'⟩ := hab hu hy _ (hex u h1 h2 y hyK)
    cases e'
    rw [Metric.mem_closedBall, Real.dist_eq] at hv hv'
    refine ⟨v, e, ?_⟩
    have := abs_sub_le v (z x) (z y)
    rw [abs_sub_comm (z x)] at this
    linarith
  choose! U hU hev using loc
  obtain ⟨S, hS, hcov⟩ := hK.elim_nhds_subcover U hU
  have : ∀ᶠ u in 𝓝 (0 : ℝ × ℝ), ∀ s ∈ S, 0 ≤ u.1 → 0 ≤ u.2 → ∀ y ∈ U s, y ∈ K → All (F u y) fun r => ∃ v, r = .ok v ∧ |v - z y| ≤ ε :=
    (Filter.eventually_all_finset S).mpr fun s hs => hev s (hS s hs)
  refine this.mono fun u hu h1 h2 x hx => ?_
  obtain ⟨s, hs, hxs⟩ : ∃ s ∈ S, x ∈ U s := by simpa using hcov hx
  exact hu s hs h1 h2 x hxs hx

/-- The points in `[-1, 1]` and weights of at most `B`. -/
def box (B : ℝ) : Set (Vec × Vec) := (Set.univ.pi fun _ => Set.Icc (-1) 1) ×ˢ (Set.univ.pi fun _ => Set.Icc (-B) B)

theorem box_compact (B : ℝ) : IsCompact (box B) := (isCompact_univ_pi fun _ => isCompact_Icc).prod (isCompact_univ_pi fun _ => isCompact_Icc)

/-- Only the first `n` entries are used. -/
theorem given_congr (u : ℝ × ℝ) (n k : ℕ) {pw pw' : Vec × Vec} (h : ∀ i < n, pw.1 i = pw'.1 i ∧ pw.2 i = pw'.2 i) : given u f n k pw = given u f n k pw' := by
  have hz : ∀ (l : List ℕ) (v : List (List ℝ)), (∀ i ∈ l, i < n) → List.zipWith (fun row k => row.headD 0 * pw.2 k) v l = List.zipWith (fun row k => row.headD 0 * pw'.2 k) v l := by
    intro l
    induction l with
    | nil => intro v _; simp
    | cons a l ih =>
      intro v hv
      cases v with
      | nil => simp
      | cons r v => simp only [List.zipWith_cons_cons]; rw [ih v fun i hi => hv i (by simp [hi]), (h a (hv a (by simp))).2]
  have : ∀ len, integralStep u f n len pw.1 pw.2 = integralStep u f n len pw'.1 pw'.2 := by
    intro len
    funext iv r
    unfold integralStep
    have e : ∀ left, ((List.range n).mapM fun k => gridPoint u len left (pw.1 k)) = (List.range n).mapM fun k => gridPoint u len left (pw'.1 k) := by
      intro left
      have e1 : ∀ q : Vec, ((List.range n).mapM fun k => gridPoint u len left (q k)) = ((List.range n).map q).mapM (gridPoint u len left) := fun q => by rw [List.mapM_map]; rfl
      rw [e1, e1, List.map_congr_left fun j hj => (h j (List.mem_range.mp hj)).1]
    simp only [e, hz _ _ fun i hi => List.mem_range.mp hi]
  unfold given
  simp only [this]

end GSplines.Rounded
