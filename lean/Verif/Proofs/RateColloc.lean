import Verif.Proofs.RateIntegral
import Verif.Model.RoundingColloc
import Verif.Proofs.Colloc
import Verif.Spec.Approx
import Verif.Spec.Colloc
import Verif.Props.Rate

/-! # Collocation: errors proportional to the rounding errors -/

namespace GSplines.Nd

open Rounded Spec

/-- Programs with a list of `n` numbers in a compact set as argument, and a further number near `a`: the constants do not depend on the list. -/
theorem RateAt.uniform {β : Type} [Gauge β] {n : ℕ} {F : ℝ × ℝ → ℝ × Vec → Nd β} {z : Vec → β} {a : ℝ} {K : Set (Fin n → ℝ)} (hK : IsCompact K)
    (h : ∀ q ∈ K, RateAt F (a, pad q) (z (pad q))) (hx : ∀ q ∈ K, F 0 (a, pad q) (.ok (z (pad q)))) :
    ∃ C ≥ (0 : ℝ), ∃ δ > (0 : ℝ), ∀ q ∈ K, ∀ u, Small u δ → ∀ b, |b - a| ≤ δ → All (F u (b, pad q)) fun o => ∃ y, o = .ok y ∧ close (C * (sz u + |b - a|)) y (z (pad q)) := by
  have main : ∃ C ≥ (0 : ℝ), ∃ δ > (0 : ℝ), ∀ q ∈ K, q ∈ K → ∀ u, Small u δ → ∀ b, |b - a| ≤ δ →
      All (F u (b, pad q)) fun o => ∃ y, o = .ok y ∧ close (C * (sz u + |b - a|)) y (z (pad q)) := by
    refine hK.induction_on (p := fun S => ∃ C ≥ (0 : ℝ), ∃ δ > (0 : ℝ), ∀ q ∈ S, q ∈ K → ∀ u, Small u δ → ∀ b, |b - a| ≤ δ →
      All (F u (b, pad q)) fun o => ∃ y, o = .ok y ∧ close (C * (sz u + |b - a|)) y (z (pad q))) ?_ ?_ ?_ ?_
    · exact ⟨0, le_rfl, 1, one_pos, fun t ht => absurd ht (Set.notMem_empty t)⟩
    · rintro S T hST ⟨C, hC, δ, hδ, h⟩
      exact ⟨C, hC, δ, hδ, fun t ht => h t (hST ht)⟩
    · rintro S T ⟨C, hC, δ, hδ, h⟩ ⟨D, hD, η, hη, h'⟩
      refine ⟨max C D, le_max_of_le_left hC, min δ η, lt_min hδ hη, fun t ht htK u hu b hb r hr => ?_⟩
      have hn := add_nonneg (sz_nonneg hu) (abs_nonneg (b - a))
      rcases ht with ht | ht
      · obtain ⟨v, a1, a2⟩ := h t ht htK u (small_mono (min_le_left _ _) hu) b (hb.trans (min_le_left _ _)) r hr
        exact ⟨v, a1, Gauge.mono' (mul_le_mul_of_nonneg_right (le_max_left _ _) hn) a2⟩
      · obtain ⟨v, a1, a2⟩ := h' t ht htK u (small_mono (min_le_right _ _) hu) b (hb.trans (min_le_right _ _)) r hr
        exact ⟨v, a1, Gauge.mono' (mul_le_mul_of_nonneg_right (le_max_right _ _) hn) a2⟩
    · intro q hq
      obtain ⟨C, hC, δ, hδ, h⟩ := h q hq
      refine ⟨Metric.closedBall q δ, mem_nhdsWithin_of_mem_nhds (Metric.closedBall_mem_nhds q hδ), C, hC, δ, hδ, fun q' hq' hqK u hu b hb o ho => ?_⟩
      have hcl : ∀ b, |b - a| ≤ δ → close δ (b, pad q') (a, pad q) := fun b hb => ⟨hb, pad_close (Metric.mem_closedBall.mp hq')⟩
      obtain ⟨h1, h2⟩ := h u hu _ o ho
      obtain ⟨v, e, -⟩ := h1 δ hδ.le le_rfl (hcl b hb)
      have h0 : Small (0 : ℝ × ℝ) δ := ⟨le_rfl, hδ.le, le_rfl, hδ.le⟩
      have := h2 0 _ v _ h0 (hcl b hb) (hcl a (by simpa using hδ.le)) |b - a| (abs_nonneg _) ⟨le_refl |b - a|, Gauge.refl' (pad q') (abs_nonneg (b - a))⟩ e (hx q' hqK)
      have e0 : sz (0 : ℝ × ℝ) = 0 := by simp [sz]
      rw [e0, add_zero] at this
      exact ⟨v, e, this⟩
  obtain ⟨C, hC, δ, hδ, h⟩ := main
  exact ⟨C, hC, δ, hδ, fun q hq => h q hq hq⟩

/-- The outcomes of a loop whose last pass is `m`. -/
theorem loop_succ {σ : Type} (m : ℕ) (body : ℕ → σ → Nd σ) (s : σ) : loop 0 (m + 1) body s = loop 0 m body s >>= body m := by
  unfold loop
  rw [Nat.sub_zero, Nat.sub_zero, List.range'_concat, List.foldlM_append]
  simp

end GSplines.Nd

namespace GSplines.Rounded

open Nd Spec Fn

variable {f : Fn}

theorem cellRows_rate (hg : Good f) {n iv : ℕ} {p : Vec} {len : ℝ} (hs : ∀ t ∈ pts n len (f.dom.1 + iv * len) p, Calm f t) :
    RateAt (fun u (q : ℝ × Vec) => cellRows u f n q.1 q.2 iv) (len, p) ((pts n len (f.dom.1 + iv * len) p).map (vals f)) := by
  unfold cellRows
  refine RateAt.bind (RateAt.near (f := fun q : ℝ × Vec => iv * q.1) (by fun_prop)) ?_
  refine RateAt.bind (RateAt.near (f := fun q : (ℝ × Vec) × ℝ => f.dom.1 + q.2) (by fun_prop)) ?_
  refine RateAt.bind (RateAt.comp (x := (((len, p), iv * len), f.dom.1 + iv * len)) (f := fun q : ((ℝ × Vec) × ℝ) × ℝ => (q.1.1.1, q.2, q.1.1.2)) (pts_rate n len (f.dom.1 + iv * len) p) (by fun_prop)) ?_
  exact RateAt.comp (f := fun q : (((ℝ × Vec) × ℝ) × ℝ) × List ℝ => q.2)
    (RateAt.mapVar (F := fun u t => row u f f.codim t) (z := vals f) (pts n len (f.dom.1 + iv * len) p) fun t ht => rv_of_good hg (hs t ht)) (by fun_prop)

theorem cellRows_has {u : ℝ × ℝ} (h1 : 0 ≤ u.1) (h2 : 0 ≤ u.2) (hg : Good f) (n : ℕ) (len : ℝ) (p : Vec) (iv : ℕ) :
    Has (cellRows u f n len p iv) ((pts n len (f.dom.1 + iv * len) p).map (vals f)) := by
  unfold cellRows
  refine Has.bind (Has.near h1 h2 _) (Has.bind (Has.near h1 h2 _) ?_)
  refine Has.bind (a := pts n len (f.dom.1 + iv * len) p) (Has.mapM fun j _ => ?_) (Has.mapM (g := vals f) fun t _ => row_has h1 h2 hg t)
  exact Has.bind (Has.near h1 h2 _) (Has.bind (Has.near h1 h2 _) (Has.bind (Has.near h1 h2 _) (Has.near h1 h2 _)))

theorem cellRows_congr (u : ℝ × ℝ) {n : ℕ} (len : ℝ) {p p' : Vec} (h : ∀ i < n, p i = p' i) (iv : ℕ) : cellRows u f n len p iv = cellRows u f n len p' iv := by
  unfold cellRows
  have : ∀ left, ((List.range n).mapM fun k => gridPoint u len left (p k)) = (List.range n).mapM fun k => gridPoint u len left (p' k) := fun left => by
    have e1 : ∀ q : Vec, ((List.range n).mapM fun k => gridPoint u len left (q k)) = ((List.range n).map q).mapM (gridPoint u len left) := fun q => by rw [List.mapM_map]; rfl
    rw [e1, e1, List.map_congr_left fun j hj => h j (List.mem_range.mp hj)]
  simp only [this]

theorem cellRows_uniform (hg : Good f) {n m iv : ℕ} (hd : f.dom.1 ≤ f.dom.2) (hs : ∀ t, f.dom.1 ≤ t → t ≤ f.dom.2 → Calm f t) (hiv : iv < m) :
    ∃ C ≥ (0 : ℝ), ∃ δ > (0 : ℝ), ∀ p : Vec, (∀ i < n, p i ∈ Set.Icc (-1 : ℝ) 1) → ∀ u, Small u δ → ∀ len, |len - Spec.step f m| ≤ δ →
      All (cellRows u f n len p iv) fun o => ∃ y, o = .ok y ∧ close (C * (Nd.sz u + |len - Spec.step f m|)) y ((List.range n).map fun j => vals f (Spec.gridPoint f.dom m iv (p j))) := by
  have eg : ∀ p : Vec, (pts n (Spec.step f m) (f.dom.1 + iv * Spec.step f m) p).map (vals f) = (List.range n).map fun j => vals f (Spec.gridPoint f.dom m iv (p j)) := fun p => by
    unfold Spec.step
    rw [pts_grid, List.map_map]; rfl
  obtain ⟨C, hC, δ, hδ, h⟩ := RateAt.uniform (n := n) (F := fun u (q : ℝ × Vec) => cellRows u f n q.1 q.2 iv) (a := Spec.step f m)
    (z := fun p => (List.range n).map fun j => vals f (Spec.gridPoint f.dom m iv (p j))) (K := Set.univ.pi fun _ => Set.Icc (-1 : ℝ) 1) (isCompact_univ_pi fun _ => isCompact_Icc)
    (fun q hq => by
      rw [← eg]
      refine cellRows_rate hg fun t ht => ?_
      unfold Spec.step at ht
      rw [pts_grid] at ht
      obtain ⟨j, hj, rfl⟩ := List.mem_map.mp ht
      have hj := List.mem_range.mp hj
      have hm : pad q j ∈ Set.Icc (-1 : ℝ) 1 := by
        unfold pad
        rw [dif_pos hj]
        exact hq _ trivial
      obtain ⟨-, -, a, b⟩ := Props.gridPoint_mem hd hiv hm
      exact hs _ a b)
    (fun q _ => by
      rw [← eg]
      exact cellRows_has (u := 0) le_rfl le_rfl hg n _ _ iv)
  refine ⟨C, hC, δ, hδ, fun p hp u hu len hl o ho => ?_⟩
  have hb : ∀ i < n, p i = pad (fun j : Fin n => p j) i := fun i hi => by unfold pad; simp [hi]
  rw [cellRows_congr u len hb] at ho
  obtain ⟨y, e, hy⟩ := h (fun j => p j) (fun j _ => hp j j.2) u hu len hl o ho
  refine ⟨y, e, ?_⟩
  rwa [show ((List.range n).map fun j => vals f (Spec.gridPoint f.dom m iv (p j))) = (List.range n).map fun j => vals f (Spec.gridPoint f.dom m iv (pad (fun j : Fin n => p j) j)) from
    List.map_congr_left fun j hj => by rw [← hb j (List.mem_range.mp hj)]]

/-- The outcomes of the loop over the intervals. -/
theorem loop_blocks {u : ℝ × ℝ} {n : ℕ} {len : ℝ} {p : Vec} {P : ℕ → List (List ℝ) → Prop} (m : ℕ)
    (h : ∀ iv < m, All (cellRows u f n len p iv) fun o => ∃ R, o = .ok R ∧ P iv R) (junk : Vec) :
    All (loop 0 m (collocStep u f n len p) junk) fun o => ∃ co : Vec, o = .ok co ∧
      ∀ iv < m, ∃ R, P iv R ∧ ∀ y < n * f.codim, co (iv * n * f.codim + y) = Colloc.entry R (y % n) (y / n) := by
  induction m with
  | zero =>
    intro o ho
    exact ⟨junk, ho, fun iv hiv => absurd hiv (Nat.not_lt_zero _)⟩
  | succ m ih =>
    intro o ho
    rw [loop_succ] at ho
    rcases ho with ⟨e, he, -⟩ | ⟨v, hv, ho⟩
    · obtain ⟨_, h', -⟩ := ih (fun iv hiv => h iv (by omega)) _ he; cases h'
    obtain ⟨_, h', hb⟩ := ih (fun iv hiv => h iv (by omega)) _ hv
    cases h'
    rcases ho with ⟨e, he, -⟩ | ⟨R, hR, ho⟩
    · obtain ⟨_, h', -⟩ := h m (by omega) _ he; cases h'
    obtain ⟨_, h', hP⟩ := h m (by omega) _ hR
    cases h'
    obtain ⟨e1, e2⟩ := Colloc.storeBlock_spec n f.codim m R v
    refine ⟨_, ho, fun iv hiv => ?_⟩
    rcases Nat.lt_succ_iff_lt_or_eq.mp hiv with hlt | rfl
    · obtain ⟨R', hP', hy⟩ := hb iv hlt
      refine ⟨R', hP', fun y hyy => ?_⟩
      rw [e2 _ (.inl (Colloc.idx_lt hlt hyy))]
      exact hy y hyy
    · exact ⟨R, hP, e1⟩

/-- What `approximate` returns, given the points: the rounding errors of the lengths and of the values are at most `ε`. -/
structure CollocOk (f : Fn) (n m : ℕ) (p : Vec) (ε : ℝ) (g : GSpline) : Prop where
  dom : g.dom = f.dom
  codim : g.codim = f.codim
  basis : g.basis = .lagrange ((List.range n).map p)
  len : g.tau.length = m
  con : Consistent g
  tau : ∀ i < m, |vecOf g.tau i - Spec.step f m| ≤ ε
  nodal : ∀ iv < m, ∀ c < f.codim, ∀ k < n, |Spec.nodal g iv c k - val f c (Spec.gridPoint f.dom m iv (p k))| ≤ ε

theorem collocGiven_uniform (hg : Good f) {n m : ℕ} (hm : 0 < m) (hd : f.dom.1 ≤ f.dom.2) (hs : ∀ t, f.dom.1 ≤ t → t ≤ f.dom.2 → Calm f t) :
    ∃ C ≥ (0 : ℝ), ∃ δ > (0 : ℝ), ∀ p : Vec, (∀ i < n, p i ∈ Set.Icc (-1 : ℝ) 1) → ∀ u, Small u δ → ∀ junk, All (collocGiven u f n m p junk) fun o =>
      ∃ g, o = .ok g ∧ CollocOk f n m p (C * Nd.sz u) g := by
  have hm0 : (m : ℝ) ≠ 0 := by exact_mod_cast hm.ne'
  obtain ⟨C0, hC0, δ0, hδ0, H0⟩ : RateAt (fun u (_ : Unit) => near u (f.dom.2 - f.dom.1) >>= fun d => quot u d m) () (Spec.step f m) :=
    RateAt.bind (RateAt.near (f := fun _ : Unit => f.dom.2 - f.dom.1) (LLip.const _ _))
      (RateAt.quot (f := fun q : Unit × ℝ => q.2) (g := fun _ => (m : ℝ)) (by fun_prop) (LLip.const _ _) hm0)
  have HC : ∀ iv, ∃ C ≥ (0 : ℝ), ∃ δ > (0 : ℝ), iv < m → ∀ p : Vec, (∀ i < n, p i ∈ Set.Icc (-1 : ℝ) 1) → ∀ u, Small u δ → ∀ len, |len - Spec.step f m| ≤ δ →
      All (cellRows u f n len p iv) fun o => ∃ y, o = .ok y ∧ close (C * (Nd.sz u + |len - Spec.step f m|)) y ((List.range n).map fun j => vals f (Spec.gridPoint f.dom m iv (p j))) := by
    intro iv
    by_cases hiv : iv < m
    · obtain ⟨C, hC, δ, hδ, h⟩ := cellRows_uniform hg (n := n) hd hs hiv
      exact ⟨C, hC, δ, hδ, fun _ => h⟩
    · exact ⟨0, le_rfl, 1, one_pos, fun h => absurd h hiv⟩
  choose C hC δ hδ HC using HC
  obtain ⟨d, hdp, hdm⟩ := Props.min_pos hδ m
  set S := ∑ k ∈ Finset.range m, C k with hS
  have hsum : ∀ i < m, C i ≤ S := fun i hi => Finset.single_le_sum (f := C) (fun k _ => hC k) (Finset.mem_range.mpr hi)
  have hS0 : 0 ≤ S := Finset.sum_nonneg fun k _ => hC k
  obtain ⟨T, hT, η, hη, HT⟩ : RateAt (fun u (len : ℝ) => (List.replicate m (1 * len)).mapM (near u)) (Spec.step f m) (List.replicate m (1 * Spec.step f m)) := by
    refine RateAt.comp (f := fun len : ℝ => List.replicate m (1 * len)) (RateAt.mapNear _) ?_
    have : (fun len : ℝ => List.replicate m (1 * len)) = fun len : ℝ => (List.range m).map fun _ => 1 * len := by
      funext len
      rw [List.map_const', List.length_range]
    rw [this]
    exact LLip.mapList (F := fun (len : ℝ) (_ : ℕ) => 1 * len) _ fun _ _ => by fun_prop
  set κ := min (min δ0 d) (min η (min d η / (3 * (C0 + 1)))) with hκ
  have hκ0 : 0 < κ := lt_min (lt_min hδ0 hdp) (lt_min hη (by positivity))
  refine ⟨S * (1 + C0) + T * (1 + C0), by positivity, κ, hκ0, fun p hp u hu junk o ho => ?_⟩
  have hz := Nd.sz_nonneg hu
  unfold collocGiven at ho
  rw [if_neg hm.ne'] at ho
  have k1 : κ ≤ δ0 := (min_le_left _ _).trans (min_le_left _ _)
  have k2 : κ ≤ d := (min_le_left _ _).trans (min_le_right _ _)
  have k3 : κ ≤ η := (min_le_right _ _).trans (min_le_left _ _)
  have k4 : κ ≤ min d η / (3 * (C0 + 1)) := (min_le_right _ _).trans (min_le_right _ _)
  have hsmall : C0 * Nd.sz u ≤ min d η := by
    have b := (Nd.sz_le hu).trans (mul_le_mul_of_nonneg_left k4 (by norm_num : (0 : ℝ) ≤ 2))
    have b' := mul_le_mul_of_nonneg_left b (by linarith : 0 ≤ C0 + 1)
    have hme : 0 < min d η := lt_min hdp hη
    rw [show (C0 + 1) * (2 * (min d η / (3 * (C0 + 1)))) = 2 / 3 * min d η by field_simp] at b'
    nlinarith
  -- the length
  have hlen : All (near u (f.dom.2 - f.dom.1) >>= fun d => quot u d m) fun o => ∃ len, o = .ok len ∧ |len - Spec.step f m| ≤ C0 * Nd.sz u := fun o ho => by
    obtain ⟨b, e, hb⟩ := (H0 u (Nd.small_mono k1 hu) () o ho).1 0 le_rfl hδ0.le (Gauge.refl' _ le_rfl)
    rw [add_zero] at hb
    exact ⟨b, e, hb⟩
  rw [← LawfulMonad.bind_assoc] at ho
  rcases ho with ⟨e, he, -⟩ | ⟨len, hl, ho⟩
  · obtain ⟨_, h', -⟩ := hlen _ he; cases h'
  obtain ⟨_, h', hlb⟩ := hlen _ hl
  cases h'
  -- the values
  have hcells := loop_blocks (u := u) (f := f) (n := n) (len := len) (p := p)
    (P := fun iv R => close (S * (1 + C0) * Nd.sz u) R ((List.range n).map fun j => vals f (Spec.gridPoint f.dom m iv (p j)))) m (fun iv hiv o ho => by
      obtain ⟨y, e, hy⟩ := HC iv hiv p hp u (Nd.small_mono (k2.trans (hdm iv hiv)) hu) len (hlb.trans (hsmall.trans ((min_le_left _ _).trans (hdm iv hiv)))) o ho
      refine ⟨y, e, Gauge.mono' ?_ hy⟩
      have h1 : Nd.sz u + |len - Spec.step f m| ≤ (1 + C0) * Nd.sz u := by linarith
      have h2 : 0 ≤ Nd.sz u + |len - Spec.step f m| := by positivity
      calc C iv * (Nd.sz u + |len - Spec.step f m|) ≤ S * (Nd.sz u + |len - Spec.step f m|) := mul_le_mul_of_nonneg_right (hsum iv hiv) h2
        _ ≤ S * ((1 + C0) * Nd.sz u) := mul_le_mul_of_nonneg_left h1 hS0
        _ = _ := by ring) junk
  rcases ho with ⟨e, he, -⟩ | ⟨co, hco, ho⟩
  · obtain ⟨_, h', -⟩ := hcells _ he; cases h'
  obtain ⟨_, h', hco'⟩ := hcells _ hco
  cases h'
  -- the lengths
  have htau : All ((List.replicate m (1 * len)).mapM (near u)) fun o => ∃ tau, o = .ok tau ∧ close (T * (1 + C0) * Nd.sz u) tau (List.replicate m (1 * Spec.step f m)) := fun o ho => by
    obtain ⟨b, e, hb⟩ := (HT u (Nd.small_mono k3 hu) len o ho).1 (C0 * Nd.sz u) (by positivity) (hsmall.trans (min_le_right _ _)) hlb
    refine ⟨b, e, ?_⟩
    rwa [show T * (1 + C0) * Nd.sz u = T * (Nd.sz u + C0 * Nd.sz u) by ring]
  rcases ho with ⟨e, he, -⟩ | ⟨tau, ht, ho⟩
  · obtain ⟨_, h', -⟩ := htau _ he; cases h'
  obtain ⟨_, h', htc⟩ := htau _ ht
  cases h'
  have htl : tau.length = m := by rw [close_length htc, List.length_replicate]
  have hdim : (Basis.lagrange ((List.range n).map p)).dim = n := by simp [Basis.dim]
  have hmake : GSpline.make f.dom f.codim m (.lagrange ((List.range n).map p)) ((List.range (f.codim * n * m)).map co) tau =
      .ok ⟨f.dom, f.codim, .lagrange ((List.range n).map p), (List.range (f.codim * n * m)).map co, tau⟩ := by
    unfold GSpline.make
    rw [if_pos hd, if_neg]
    rw [not_not, hdim, List.length_map, List.length_range]
    ring
  rw [hmake] at ho
  have hTe : T * (1 + C0) * Nd.sz u ≤ (S * (1 + C0) + T * (1 + C0)) * Nd.sz u := by
    have : 0 ≤ S * (1 + C0) * Nd.sz u := by positivity
    linarith
  have hSe : S * (1 + C0) * Nd.sz u ≤ (S * (1 + C0) + T * (1 + C0)) * Nd.sz u := by
    have : 0 ≤ T * (1 + C0) * Nd.sz u := by positivity
    linarith
  refine ⟨_, ho, rfl, rfl, rfl, htl, ?_, fun i hi => ?_, fun iv hiv c hc k hk => ?_⟩
  · unfold Consistent
    simp only [hdim, List.length_map, List.length_range, htl]
    ring
  · have := close_vecOf (by positivity) htc i
    have e : vecOf (List.replicate m (1 * Spec.step f m)) i = Spec.step f m := by
      unfold vecOf
      rw [List.getD_eq_getElem?_getD, List.getElem?_eq_getElem (by simpa using hi)]
      simp
    rw [e] at this
    exact this.trans hTe
  · obtain ⟨R, hR, hy⟩ := hco' iv hiv
    have hidx : n * c + k < n * f.codim := by nlinarith
    have hlt : iv * n * f.codim + (n * c + k) < f.codim * n * m := by
      have : (iv + 1) * (n * f.codim) ≤ m * (n * f.codim) := Nat.mul_le_mul_right _ hiv
      nlinarith
    have e1 : Spec.nodal ⟨f.dom, f.codim, .lagrange ((List.range n).map p), (List.range (f.codim * n * m)).map co, tau⟩ iv c k = Colloc.entry R k c := by
      unfold Spec.nodal
      simp only [hdim]
      rw [add_assoc, show vecOf ((List.range (f.codim * n * m)).map co) (iv * n * f.codim + (n * c + k)) = co (iv * n * f.codim + (n * c + k)) from Props.vecOf_row co hlt, hy _ hidx,
        Colloc.entry_col hk]
    rw [e1]
    have h1 := close_getD [] (by positivity) hR k
    have e2 : ((List.range n).map fun j => vals f (Spec.gridPoint f.dom m iv (p j))).getD k [] = vals f (Spec.gridPoint f.dom m iv (p k)) := by
      rw [List.getD_eq_getElem?_getD, List.getElem?_eq_getElem (by simpa using hk)]
      simp
    rw [e2] at h1
    have h2 := close_vecOf (by positivity) h1 c
    have e3 : vecOf (vals f (Spec.gridPoint f.dom m iv (p k))) c = val f c (Spec.gridPoint f.dom m iv (p k)) := Props.vecOf_row _ hc
    rw [e3] at h2
    exact h2.trans hSe

end GSplines.Rounded
