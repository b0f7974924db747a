import Verif.Proofs.RateColloc
import Verif.Proofs.RateSpline
import Verif.Proofs.RateList
import Verif.Proofs.RoundingExact
import Verif.Proofs.CollocError

/-! # Evaluation at points and nodes that are all variable: errors proportional to the rounding errors, with one constant for a compact set -/

namespace GSplines.Nd

open Rounded Spec Filter Topology

/-- Programs with arguments in a compact set: the constants do not depend on the argument. -/
theorem RateAt.compact {T α β : Type} [TopologicalSpace T] [Gauge α] [Gauge β] {F : ℝ × ℝ → α → Nd β} {e : T → α} {z : T → β} {K : Set T} (hK : IsCompact K)
    (he : ∀ q ∈ K, ∀ δ > (0 : ℝ), ∀ᶠ q' in 𝓝[K] q, close δ (e q') (e q))
    (h : ∀ q ∈ K, RateAt F (e q) (z q)) (hx : ∀ q ∈ K, F 0 (e q) (.ok (z q))) :
    ∃ C ≥ (0 : ℝ), ∃ δ > (0 : ℝ), ∀ q ∈ K, ∀ u, Small u δ → ∀ a r, 0 ≤ r → r ≤ δ → close r a (e q) → All (F u a) fun o => ∃ y, o = .ok y ∧ close (C * (sz u + r)) y (z q) := by
  have main : ∃ C ≥ (0 : ℝ), ∃ δ > (0 : ℝ), ∀ q ∈ K, q ∈ K → ∀ u, Small u δ → ∀ a r, 0 ≤ r → r ≤ δ → close r a (e q) →
      All (F u a) fun o => ∃ y, o = .ok y ∧ close (C * (sz u + r)) y (z q) := by
    refine hK.induction_on (p := fun S => ∃ C ≥ (0 : ℝ), ∃ δ > (0 : ℝ), ∀ q ∈ S, q ∈ K → ∀ u, Small u δ → ∀ a r, 0 ≤ r → r ≤ δ → close r a (e q) →
      All (F u a) fun o => ∃ y, o = .ok y ∧ close (C * (sz u + r)) y (z q)) ?_ ?_ ?_ ?_
    · exact ⟨0, le_rfl, 1, one_pos, fun t ht => absurd ht (Set.notMem_empty t)⟩
    · rintro S T hST ⟨C, hC, δ, hδ, h⟩
      exact ⟨C, hC, δ, hδ, fun t ht => h t (hST ht)⟩
    · rintro S T ⟨C, hC, δ, hδ, h⟩ ⟨D, hD, η, hη, h'⟩
      refine ⟨max C D, le_max_of_le_left hC, min δ η, lt_min hδ hη, fun t ht htK u hu a r hr hrd hc o ho => ?_⟩
      have hn := add_nonneg (sz_nonneg hu) hr
      rcases ht with ht | ht
      · obtain ⟨v, a1, a2⟩ := h t ht htK u (small_mono (min_le_left _ _) hu) a r hr (hrd.trans (min_le_left _ _)) hc o ho
        exact ⟨v, a1, Gauge.mono' (mul_le_mul_of_nonneg_right (le_max_left _ _) hn) a2⟩
      · obtain ⟨v, a1, a2⟩ := h' t ht htK u (small_mono (min_le_right _ _) hu) a r hr (hrd.trans (min_le_right _ _)) hc o ho
        exact ⟨v, a1, Gauge.mono' (mul_le_mul_of_nonneg_right (le_max_right _ _) hn) a2⟩
    · intro q hq
      obtain ⟨C, hC, δ, hδ, h⟩ := h q hq
      refine ⟨{q' | close (δ / 2) (e q') (e q)}, he q hq (δ / 2) (by linarith), C, hC, δ / 2, by linarith, fun q' hq' hqK u hu a r hr hrd hc o ho => ?_⟩
      have hq'' : close (δ / 2) (e q') (e q) := hq'
      have c1 : close δ a (e q) := Gauge.mono' (by linarith) (Gauge.trans' hc hq'')
      obtain ⟨h1, h2⟩ := h u (small_mono (by linarith) hu) _ o ho
      obtain ⟨v, ev, -⟩ := h1 δ hδ.le le_rfl c1
      have h0 : Small (0 : ℝ × ℝ) δ := ⟨le_rfl, hδ.le, le_rfl, hδ.le⟩
      have := h2 0 (e q') v _ h0 c1 (Gauge.mono' (by linarith) hq'') r hr hc ev (hx q' hqK)
      have e0 : sz (0 : ℝ × ℝ) = 0 := by simp [sz]
      rw [e0, add_zero] at this
      exact ⟨v, ev, this⟩
  obtain ⟨C, hC, δ, hδ, h⟩ := main
  exact ⟨C, hC, δ, hδ, fun q hq => h q hq hq⟩

end GSplines.Nd

namespace GSplines.Rounded

open Nd Spec Filter Topology

/-! ## The barycentric formula -/

theorem baryStepV_rate (j k : ℕ) (x r : Vec) : RateAt (fun u (q : Vec × Vec) => baryStep u q.1 j k q.2) (x, r)
    (setAt (setAt r k (r k * (x k - x j))) j (setAt r k (r k * (x k - x j)) j * (x j - x k))) := by
  unfold baryStep
  refine RateAt.bind (RateAt.near (by fun_prop)) ?_
  refine RateAt.bind (RateAt.near (by fun_prop)) ?_
  refine RateAt.bind (RateAt.near (by fun_prop)) ?_
  have e : ∀ q : (((Vec × Vec) × ℝ) × ℝ) × ℝ, LLip (fun q : (((Vec × Vec) × ℝ) × ℝ) × ℝ => setAt q.1.1.1.2 k q.1.2 j) q := fun q =>
    LLip.comp (g := fun v : Vec => v j) (LLip.apply j _) (f := fun q : (((Vec × Vec) × ℝ) × ℝ) × ℝ => setAt q.1.1.1.2 k q.1.2) (by fun_prop)
  refine RateAt.bind (RateAt.near (LLip.mul (e _) (by fun_prop))) ?_
  exact (RateAt.pure (by fun_prop)).congr rfl

theorem baryWeightsV_rate {n : ℕ} {x : Vec} (h : Lagrange.Distinct n x) : RateAt (fun u (x : Vec) => baryWeights u n x) x (exactW n x) := by
  have h1 := RateAt.loop (a := 1) (b := n) (α := Vec) (σ := Vec) (body := fun u j x r => Nd.loop 0 j (fun k r => baryStep u x j k r) r)
    (exact := fun j r => forLoop 0 j (fun k r => setAt (setAt r k (r k * (x k - x j))) j (setAt r k (r k * (x k - x j)) j * (x j - x k))) r) (x := x) (s := fun _ => 1)
    fun j _ _ s => RateAt.loop (a := 0) (b := j) (α := Vec) (body := fun u k x r => baryStep u x j k r) fun k _ _ r => baryStepV_rate j k x r
  have h1' : RateAt (fun u (x : Vec) => Nd.loop 1 n (fun j r => Nd.loop 0 j (fun k r => baryStep u x j k r) r) fun _ => 1) x (Lagrange.baryProducts n x) :=
    RateAt.comp (f := fun x : Vec => (x, (fun _ => (1 : ℝ) : Vec))) h1 (LLip.prodMk (LLip.id _) (LLip.const _ _))
  unfold baryWeights
  refine RateAt.bind h1' ?_
  have h2 := RateAt.loop (a := 0) (b := n) (α := Vec × Vec) (σ := Vec) (body := fun u k q (w : Vec) => do
      let q ← quot u 1 (q.2 k)
      return setAt w k q) (exact := fun k w => setAt w k (1 / Lagrange.baryProducts n x k)) (x := (x, Lagrange.baryProducts n x)) (s := fun _ => 0)
    fun k _ hk s => RateAt.bind (RateAt.quot (by fun_prop) (by fun_prop) (products_ne_zero h hk)) ((RateAt.pure (by fun_prop)).congr rfl)
  exact RateAt.comp (x := (x, Lagrange.baryProducts n x)) (f := fun q : Vec × Vec => (q, (fun _ => (0 : ℝ) : Vec))) h2 (LLip.prodMk (LLip.id _) (LLip.const _ _))

theorem baryFormulaV_rate {n : ℕ} {x : Vec} (h : Lagrange.Distinct n x) {s : ℝ} (hs : ∀ j < n, s ≠ x j) :
    ∃ v : Vec, RateAt (fun u (q : (ℝ × Vec) × Vec) => baryFormula u n q.1.2 q.2 q.1.1) ((s, x), exactW n x) v ∧ ∀ j < n, v j = (_root_.Lagrange.basis (Finset.range n) x j).eval s := by
  have h1 := RateAt.loop (a := 0) (b := n) (α := (ℝ × Vec) × Vec) (σ := Vec × ℝ) (body := fun u j q st => do
      let d ← near u (q.1.1 - q.1.2 j)
      let t ← quot u (q.2 j) d
      let sb ← near u (st.2 + t)
      return (setAt st.1 j t, sb)) (exact := fun j st => (setAt st.1 j (exactW n x j / (s - x j)), st.2 + exactW n x j / (s - x j))) (x := ((s, x), exactW n x)) (s := ((fun _ => 0), 0))
    fun j _ hj st => by
      refine RateAt.bind (RateAt.near (by fun_prop)) ?_
      refine RateAt.bind (RateAt.quot (by fun_prop) (by fun_prop) (sub_ne_zero.mpr (hs j hj))) ?_
      refine RateAt.bind (RateAt.near (by fun_prop)) ?_
      exact (RateAt.pure (by fun_prop)).congr rfl
  generalize hst : forLoop 0 n (fun j (st : Vec × ℝ) => (setAt st.1 j (exactW n x j / (s - x j)), st.2 + exactW n x j / (s - x j))) ((fun _ => 0), 0) = st at h1
  obtain ⟨k1, hne⟩ := book_loop h hs hst
  have h2 := RateAt.loop (a := 0) (b := n) (α := ((ℝ × Vec) × Vec) × (Vec × ℝ)) (σ := Vec) (body := fun u j q (v : Vec) => do
      let q ← quot u (q.2.1 j) q.2.2
      return setAt v j q) (exact := fun j v => setAt v j (st.1 j / st.2)) (x := (((s, x), exactW n x), st)) (s := fun _ => 0)
    fun j _ hj v => RateAt.bind (RateAt.quot (by fun_prop) (by fun_prop) (hne j hj)) ((RateAt.pure (by fun_prop)).congr rfl)
  refine ⟨forLoop 0 n (fun j v => setAt v j (st.1 j / st.2)) fun _ => 0, ?_, fun j hj => ?_⟩
  · unfold baryFormula
    refine RateAt.bind (RateAt.comp (x := ((s, x), exactW n x)) (f := fun q : (ℝ × Vec) × Vec => (q, (((fun _ => 0), 0) : Vec × ℝ))) h1 (LLip.prodMk (LLip.id _) (LLip.const _ _))) ?_
    exact RateAt.comp (x := (((s, x), exactW n x), st)) (f := fun q : ((ℝ × Vec) × Vec) × (Vec × ℝ) => (q, (fun _ => (0 : ℝ) : Vec))) h2 (LLip.prodMk (LLip.id _) (LLip.const _ _))
  · rw [fill_loop (f := fun j => st.1 j / st.2) hj, k1 j hj]

/-- The weights and the formula, as a list. -/
noncomputable def bary (u : ℝ × ℝ) (n : ℕ) (q : ℝ × Vec) : Nd (List ℝ) := do
  let w ← baryWeights u n q.2
  let v ← baryFormula u n q.2 w q.1
  return (List.range n).map v

theorem range_llip (n : ℕ) (v : Vec) : LLip (fun v : Vec => (List.range n).map v) v := by
  refine LLip.of_bound (C := 1) (δ := 1) (by norm_num) one_pos fun a a' _ _ r _ h => ?_
  rw [one_mul]
  change List.Forall₂ _ _ _
  rw [List.forall₂_map_left_iff, List.forall₂_map_right_iff, List.forall₂_same]
  exact fun k _ => h k

theorem bary_rate {n : ℕ} {x : Vec} (h : Lagrange.Distinct n x) {s : ℝ} (hs : ∀ j < n, s ≠ x j) :
    RateAt (fun u q => bary u n q) (s, x) ((List.range n).map fun j => (_root_.Lagrange.basis (Finset.range n) x j).eval s) := by
  obtain ⟨v, hv, hv'⟩ := baryFormulaV_rate h hs
  unfold bary
  refine RateAt.bind (RateAt.comp (x := (s, x)) (f := fun q : ℝ × Vec => q.2) (baryWeightsV_rate h) (LLip.snd' _)) ?_
  refine RateAt.bind hv ?_
  refine (RateAt.pure (x := (((s, x), exactW n x), v)) (f := fun q : ((ℝ × Vec) × Vec) × Vec => (List.range n).map q.2) (LLip.comp (range_llip n _) (LLip.snd' _))).congr ?_
  exact List.map_congr_left fun j hj => hv' j (List.mem_range.mp hj)

theorem bary_has {n : ℕ} {x : Vec} (h : Lagrange.Distinct n x) {s : ℝ} (hs : ∀ j < n, s ≠ x j) :
    Has (bary 0 n (s, x)) ((List.range n).map fun j => (_root_.Lagrange.basis (Finset.range n) x j).eval s) := by
  obtain ⟨v, hv, hv'⟩ := baryFormula_has (u := 0) le_rfl le_rfl h hs
  refine Has.bind (baryWeights_has le_rfl le_rfl h) (Has.bind hv ?_)
  rw [show ((List.range n).map fun j => (_root_.Lagrange.basis (Finset.range n) x j).eval s) = (List.range n).map v from
    List.map_congr_left fun j hj => (hv' j (List.mem_range.mp hj)).symm]
  exact Has.pure _

/-- Points and nodes that are not too near to each other. -/
def apart (n : ℕ) : Set (ℝ × (Fin n → ℝ)) :=
  {q | q.1 ∈ Set.Icc (-2 : ℝ) 2 ∧ (∀ i, q.2 i ∈ Set.Icc (-1 : ℝ) 1) ∧ (∀ i j, i ≠ j → 1 / 10 ^ 9 ≤ |q.2 i - q.2 j|) ∧ ∀ j, 1 / 10 ^ 19 ≤ |q.1 - q.2 j|}

theorem apart_compact (n : ℕ) : IsCompact (apart n) := by
  have hbox : IsCompact ((Set.Icc (-2 : ℝ) 2) ×ˢ (Set.univ.pi fun _ : Fin n => Set.Icc (-1 : ℝ) 1)) := isCompact_Icc.prod (isCompact_univ_pi fun _ => isCompact_Icc)
  refine hbox.of_isClosed_subset ?_ fun q hq => ⟨hq.1, fun i _ => hq.2.1 i⟩
  have e : apart n = (fun q : ℝ × (Fin n → ℝ) => q.1) ⁻¹' Set.Icc (-2 : ℝ) 2 ∩ ((⋂ i, (fun q : ℝ × (Fin n → ℝ) => q.2 i) ⁻¹' Set.Icc (-1 : ℝ) 1) ∩
      ((⋂ i, ⋂ j, ⋂ (_ : i ≠ j), (fun q : ℝ × (Fin n → ℝ) => |q.2 i - q.2 j|) ⁻¹' Set.Ici (1 / 10 ^ 9)) ∩
        ⋂ j, (fun q : ℝ × (Fin n → ℝ) => |q.1 - q.2 j|) ⁻¹' Set.Ici (1 / 10 ^ 19))) := by
    ext q
    simp [apart]
  rw [e]
  refine (isClosed_Icc.preimage (by fun_prop)).inter ((isClosed_iInter fun i => isClosed_Icc.preimage (by fun_prop)).inter
    ((isClosed_iInter fun i => isClosed_iInter fun j => isClosed_iInter fun _ => isClosed_Ici.preimage (by fun_prop)).inter
      (isClosed_iInter fun j => isClosed_Ici.preimage (by fun_prop))))

theorem bary_uniform (n : ℕ) : ∃ C ≥ (0 : ℝ), ∃ δ > (0 : ℝ), ∀ q ∈ apart n, ∀ u, Small u δ →
    All (bary u n (q.1, pad q.2)) fun o => ∃ y, o = .ok y ∧ close (C * Nd.sz u) y ((List.range n).map fun j => (_root_.Lagrange.basis (Finset.range n) (pad q.2) j).eval q.1) := by
  have hpad : ∀ (q : Fin n → ℝ) {j : ℕ} (hj : j < n), pad q j = q ⟨j, hj⟩ := fun q j hj => by unfold pad; rw [dif_pos hj]
  have hdist : ∀ q ∈ apart n, Lagrange.Distinct n (pad q.2) := by
    intro q hq i hi j hj e
    by_contra hne
    have hi' : i < n := by simpa using hi
    have hj' : j < n := by simpa using hj
    rw [hpad _ hi', hpad _ hj'] at e
    have := hq.2.2.1 ⟨i, hi'⟩ ⟨j, hj'⟩ (by simpa using hne)
    rw [e, sub_self, abs_zero] at this
    norm_num at this
  have hne : ∀ q ∈ apart n, ∀ j < n, q.1 ≠ pad q.2 j := by
    intro q hq j hj e
    rw [hpad _ hj] at e
    have := hq.2.2.2 ⟨j, hj⟩
    rw [e, sub_self, abs_zero] at this
    norm_num at this
  obtain ⟨C, hC, δ, hδ, h⟩ := RateAt.compact (F := fun u q => bary u n q) (e := fun q : ℝ × (Fin n → ℝ) => (q.1, pad q.2))
    (z := fun q => (List.range n).map fun j => (_root_.Lagrange.basis (Finset.range n) (pad q.2) j).eval q.1) (apart_compact n)
    (fun q hq δ hδ => by
      have := Metric.closedBall_mem_nhds q hδ
      refine mem_nhdsWithin_of_mem_nhds (Filter.mem_of_superset this fun q' hq' => ?_)
      have h1 : dist q' q ≤ δ := hq'
      rw [Prod.dist_eq] at h1
      refine ⟨?_, pad_close ((le_max_right _ _).trans h1)⟩
      have := (le_max_left _ _).trans h1
      rwa [Real.dist_eq] at this)
    (fun q hq => bary_rate (hdist q hq) (hne q hq)) (fun q hq => bary_has (hdist q hq) (hne q hq))
  refine ⟨C, hC, δ, hδ, fun q hq u hu o ho => ?_⟩
  have := h q hq u hu _ 0 le_rfl hδ.le (Gauge.refl' _ le_rfl) o ho
  rwa [add_zero] at this

/-! ## The comparison with the nodes -/

theorem almostEqual_out {u : ℝ × ℝ} (hu : Small u (1 / 10 ^ 20)) {a b : ℝ} (ha : |a| ≤ 2) (hb : |b| ≤ 1) :
    All (almostEqual u a b tol9) fun o => ∃ c, o = .ok c ∧ (c = true → |a - b| ≤ 1 / 10 ^ 9 + 8 * Nd.sz u) ∧ (c = false → 1 / 10 ^ 19 ≤ |a - b|) := by
  intro o ho
  have hs := sz_nonneg hu
  have hsl := sz_le hu
  unfold almostEqual at ho
  rcases ho with ⟨e, ⟨_, h, _⟩, -⟩ | ⟨d, ⟨_, h, hd⟩, ho⟩
  · cases h
  cases h
  have hab : |a - b| ≤ 3 := (abs_sub a b).trans (by linarith)
  have hd' := near_le hu hd hab (by norm_num)
  have d1 := abs_sub_abs_le_abs_sub (a - b) d
  rw [abs_sub_comm (a - b) d] at d1
  have d2 := abs_sub_abs_le_abs_sub d (a - b)
  have ht : tol9 = 1 / 10 ^ 9 := rfl
  split_ifs at ho with hc
  · refine ⟨_, ho, fun h => ?_, fun h => ?_⟩
    · have := of_decide_eq_true h
      rw [ht] at this
      linarith
    · have := of_decide_eq_false h
      rw [ht] at this
      norm_num at *
      linarith
  · push Not at hc
    rcases ho with ⟨e, ⟨_, h, _⟩, -⟩ | ⟨ea, ⟨_, h, hea⟩, ho⟩
    · cases h
    cases h
    rcases ho with ⟨e, ⟨_, h, _⟩, -⟩ | ⟨eb, ⟨_, h, heb⟩, ho⟩
    · cases h
    cases h
    have hta : abs (tol9 * abs a) ≤ 1 := by rw [abs_of_nonneg (by rw [ht]; positivity), ht]; linarith
    have htb : abs (tol9 * abs b) ≤ 1 := by rw [abs_of_nonneg (by rw [ht]; positivity), ht]; linarith
    have ea' := abs_le.mp (near_le hu hea hta (by norm_num))
    have eb' := abs_le.mp (near_le hu heb htb (by norm_num))
    rw [ht] at hc ea' eb'
    refine ⟨_, ho, fun h => ?_, fun h => ?_⟩
    · have := (of_decide_eq_true h).2
      linarith
    · have := of_decide_eq_false h
      by_contra hlt
      push Not at hlt
      refine this ⟨?_, ?_⟩
      · have := hc.1
        norm_num at *
        linarith
      · have := hc.2
        norm_num at *
        linarith

theorem findNode_out {u : ℝ × ℝ} (hu : Small u (1 / 10 ^ 20)) {x : Vec} {s : ℝ} (hs : |s| ≤ 2) : ∀ l : List ℕ, (∀ j ∈ l, |x j| ≤ 1) →
    All (findNode u x s l) fun o => ∃ c, o = .ok c ∧ (∀ j, c = some j → j ∈ l ∧ |s - x j| ≤ 1 / 10 ^ 9 + 8 * Nd.sz u) ∧ (c = none → ∀ j ∈ l, 1 / 10 ^ 19 ≤ |s - x j|) := by
  intro l
  induction l with
  | nil =>
    intro _ o ho
    refine ⟨none, ho, fun j h => ?_, fun _ j hj => absurd hj List.not_mem_nil⟩
    cases h
  | cons k l ih =>
    intro hx o ho
    unfold findNode at ho
    rcases ho with ⟨e, he, -⟩ | ⟨b, hb, ho⟩
    · obtain ⟨_, h, _⟩ := almostEqual_out hu hs (hx k (by simp)) _ he
      cases h
    obtain ⟨c, h, h1, h2⟩ := almostEqual_out hu hs (hx k (by simp)) _ hb
    cases h
    cases b with
    | true =>
      refine ⟨some k, ho, fun j h => ?_, fun h => by cases h⟩
      cases h
      exact ⟨by simp, h1 rfl⟩
    | false =>
      obtain ⟨c, e, c1, c2⟩ := ih (fun j hj => hx j (by simp [hj])) o ho
      refine ⟨c, e, fun j h => ⟨by simp [(c1 j h).1], (c1 j h).2⟩, fun h j hj => ?_⟩
      rcases List.mem_cons.mp hj with rfl | hj
      · exact h2 rfl
      · exact c2 h j hj

/-! ## Scalar products -/

theorem ofFn_close {n : ℕ} {a b : Fin n → ℝ} {r : ℝ} (h : ∀ i, |a i - b i| ≤ r) : close r (List.ofFn a) (List.ofFn b) := by
  change List.Forall₂ _ _ _
  rw [List.forall₂_iff_get]
  refine ⟨by simp, fun i h1 h2 => ?_⟩
  simp only [List.get_eq_getElem, List.getElem_ofFn]
  exact h _

theorem dot_uniform (n : ℕ) (A : ℝ) : ∃ C ≥ (0 : ℝ), ∃ δ > (0 : ℝ), ∀ a b : List ℝ, a.length = n → b.length = n → (∀ k < n, |vecOf a k| ≤ A) → (∀ k < n, |vecOf b k| ≤ A) → ∀ u, Small u δ →
    All (dot u a b) fun o => ∃ y, o = .ok y ∧ |y - ∑ k ∈ Finset.range n, vecOf a k * vecOf b k| ≤ C * Nd.sz u := by
  have hK : IsCompact ((Set.univ.pi fun _ : Fin n => Set.Icc (-A) A) ×ˢ (Set.univ.pi fun _ : Fin n => Set.Icc (-A) A)) :=
    (isCompact_univ_pi fun _ => isCompact_Icc).prod (isCompact_univ_pi fun _ => isCompact_Icc)
  obtain ⟨C, hC, δ, hδ, h⟩ := RateAt.compact (F := fun u (p : List ℝ × List ℝ) => dot u p.1 p.2) (e := fun q : (Fin n → ℝ) × (Fin n → ℝ) => (List.ofFn q.1, List.ofFn q.2))
    (z := fun q => (List.zipWith (· * ·) (List.ofFn q.1) (List.ofFn q.2)).sum) hK
    (fun q hq δ hδ => by
      refine mem_nhdsWithin_of_mem_nhds (Filter.mem_of_superset (Metric.closedBall_mem_nhds q hδ) fun q' hq' => ?_)
      have h1 : dist q' q ≤ δ := hq'
      rw [Prod.dist_eq] at h1
      have h2 := (dist_pi_le_iff hδ.le).mp ((le_max_left _ _).trans h1)
      have h3 := (dist_pi_le_iff hδ.le).mp ((le_max_right _ _).trans h1)
      exact ⟨ofFn_close fun i => by have := h2 i; rwa [Real.dist_eq] at this, ofFn_close fun i => by have := h3 i; rwa [Real.dist_eq] at this⟩)
    (fun q _ => dotList_rate _ _) (fun q _ => by
      have h1 := Has.mapM (l := List.zipWith (· * ·) (List.ofFn q.1) (List.ofFn q.2)) (f := near 0) (g := fun x => x) fun x _ => Has.near le_rfl le_rfl x
      rw [List.map_id'] at h1
      exact Has.bind h1 (Has.sum le_rfl le_rfl _))
  refine ⟨C, hC, δ, hδ, fun a b ha hb ha' hb' u hu o ho => ?_⟩
  have key : ∀ l : List ℝ, l.length = n → l = List.ofFn fun i : Fin n => vecOf l i := fun l hl => by
    apply List.ext_getElem
    · simp [hl]
    · intro i h1 h2
      simp only [List.getElem_ofFn]
      unfold vecOf
      rw [List.getD_eq_getElem?_getD, List.getElem?_eq_getElem h1]
      rfl
  obtain ⟨y, e, hy⟩ := h (fun i => vecOf a i, fun i => vecOf b i) ⟨fun i _ => abs_le.mp (ha' i i.2), fun i _ => abs_le.mp (hb' i i.2)⟩ u hu (a, b) 0 le_rfl hδ.le
    (by dsimp only; rw [← key a ha, ← key b hb]; exact Gauge.refl' _ le_rfl) o ho
  refine ⟨y, e, ?_⟩
  rw [add_zero] at hy
  dsimp only at hy
  rw [← key a ha, ← key b hb] at hy
  have hy' : |y - (List.zipWith (· * ·) a b).sum| ≤ C * Nd.sz u := hy
  have es : (List.zipWith (· * ·) a b).sum = ∑ k ∈ Finset.range n, vecOf a k * vecOf b k := by
    conv_lhs => rw [← range_map_vecOf a, ← range_map_vecOf b, ha, hb]
    rw [List.zipWith_map, List.zipWith_self]
    rfl
  rwa [es] at hy'

/-! ## The interval and the window -/

theorem scan_mono {u : ℝ × ℝ} {h ε t : ℝ} (hu : Small u 1) (hε : 0 ≤ ε) : ∀ (xs : List ℝ) (i : ℕ) (left : ℝ), (∀ x ∈ xs, |x - h| ≤ ε) →
    ∀ o, scan u t i left xs o → scan (u.1, u.2 + 2 * ε) t i left (List.replicate xs.length h) o := by
  intro xs
  induction xs with
  | nil => exact fun i left _ o ho => ho
  | cons x xs ih =>
    intro i left hx o ho
    have hxx := hx x (by simp)
    have ih := ih (i + 1)
    unfold scan at ho
    rw [List.length_cons, List.replicate_succ]
    unfold scan
    rcases ho with ⟨e, ⟨_, h, _⟩, -⟩ | ⟨right, ⟨_, h', hr⟩, ho⟩
    · cases h
    cases h'
    refine .inr ⟨right, ⟨right, rfl, ?_⟩, ?_⟩
    · have b1 := abs_sub_le right (left + x) (left + h)
      rw [show left + x - (left + h) = x - h by ring] at b1
      have b2 := abs_sub_abs_le_abs_sub (left + x) (left + h)
      rw [show left + x - (left + h) = x - h by ring] at b2
      have b3 : u.1 * |left + x| ≤ u.1 * (|left + h| + ε) := mul_le_mul_of_nonneg_left (by linarith) hu.1
      have b4 : u.1 * ε ≤ 1 * ε := mul_le_mul_of_nonneg_right hu.2.1 hε
      dsimp only
      linarith
    · dsimp only
      split_ifs at ho ⊢ with hc
      · exact ho
      · exact ih right (fun y hy => hx y (by simp [hy])) o ho

/-- The interval of a spline whose lengths are almost equal. -/
theorem getInterval_uniform {a h : ℝ} (hh : 0 < h) {m : ℕ} (hm : 0 < m) : ∃ C ≥ (0 : ℝ), ∃ δ > (0 : ℝ), ∀ g : GSpline, g.dom.1 = a → g.tau.length = m → ∀ ε, 0 ≤ ε → ε ≤ δ →
    (∀ i < m, |vecOf g.tau i - h| ≤ ε) → ∀ u, Small u δ → ∀ t, All (getInterval u g t) fun o =>
      ∃ i < m, o = .ok i ∧ (a + i * h ≤ t + C * (Nd.sz u + ε) ∨ i = 0) ∧ (t ≤ a + (i + 1) * h + C * (Nd.sz u + ε) ∨ i + 1 = m) := by
  obtain ⟨C, hC, δ, hδ, H⟩ := scan_rate (List.replicate m h) a
  have hsum : ∀ j ≤ m, ((List.replicate m h).take j).sum = j * h := fun j hj => by
    rw [List.take_replicate, List.sum_replicate, nsmul_eq_mul, min_eq_left hj]
  refine ⟨2 * C, by linarith, min 1 (δ / 3), lt_min one_pos (by linarith), fun g hg hlen ε hε hεd htau u hu t o ho => ?_⟩
  have hs := sz_nonneg hu
  have hCn : 0 ≤ 2 * C * (Nd.sz u + ε) := by positivity
  have htau' : ∀ x ∈ g.tau, |x - h| ≤ ε := fun x hx => by
    obtain ⟨i, hi, rfl⟩ := List.getElem_of_mem hx
    have := htau i (by omega)
    unfold vecOf at this
    rw [List.getD_eq_getElem?_getD, List.getElem?_eq_getElem hi] at this
    exact this
  have hd3 : min 1 (δ / 3) ≤ δ / 3 := min_le_right _ _
  have hu' : Small (u.1, u.2 + 2 * ε) δ := ⟨hu.1, by linarith [hu.2.1], by have := hu.2.2.1; dsimp only; linarith, by have := hu.2.2.2; dsimp only; linarith⟩
  have hz : Nd.sz (u.1, u.2 + 2 * ε) = Nd.sz u + 2 * ε := by unfold Nd.sz; ring
  unfold getInterval at ho
  by_cases ht : t ≤ g.dom.1
  · rw [if_pos ht] at ho
    refine ⟨0, hm, ho, .inr rfl, .inl ?_⟩
    rw [hg] at ht
    push_cast
    linarith
  · rw [if_neg ht] at ho
    have hb : C * (Nd.sz u + 2 * ε + 0) ≤ 2 * C * (Nd.sz u + ε) := by nlinarith
    have hscan : ∀ o, scan u t 0 g.dom.1 g.tau o → scan (u.1, u.2 + 2 * ε) t 0 a (List.replicate m h) o := fun o ho => by
      have := scan_mono (small_mono (min_le_left _ _) hu) hε g.tau 0 g.dom.1 htau' o ho
      rwa [hlen, hg] at this
    have K := H (u.1, u.2 + 2 * ε) hu' 0 t a 0 le_rfl hδ.le (by simp) (by rw [← hg]; exact not_le.mp ht)
    rw [hz] at K
    rcases ho with ⟨e, he, -⟩ | ⟨o', ho', ho⟩
    · rcases K _ (hscan _ he) with ⟨_, _, h, _⟩ | ⟨h, _⟩ <;> cases h
    rcases K _ (hscan _ ho') with ⟨j, hj, h, b1, b2⟩ | ⟨h, b⟩
    · cases h
      rw [List.length_replicate] at hj
      rw [hsum j hj.le] at b1
      rw [hsum (j + 1) hj] at b2
      push_cast at b2
      exact ⟨0 + j, by omega, ho, .inl (by rw [Nat.zero_add]; linarith), .inl (by rw [Nat.zero_add]; linarith)⟩
    · cases h
      have ho2 : o = .ok (m - 1) := by
        have : o = .ok (if g.nIntervals = 0 then 2 ^ 64 - 1 else g.nIntervals - 1) := ho
        rwa [if_neg (show g.nIntervals ≠ 0 from by unfold GSpline.nIntervals; omega), show g.nIntervals = m from hlen] at this
      have := hsum m le_rfl
      rw [List.take_of_length_le (by simp)] at this
      rw [this] at b
      refine ⟨m - 1, by omega, ho2, .inl ?_, .inr (by omega)⟩
      have e : ((m - 1 : ℕ) : ℝ) ≤ m := by exact_mod_cast Nat.sub_le m 1
      have := mul_le_mul_of_nonneg_right e hh.le
      linarith

/-- GSpline.cpp:149-159 with the lengths as a vector. -/
noncomputable def windowOf (u : ℝ × ℝ) (a : ℝ) (i : ℕ) (q : ℝ × Vec) : Nd ℝ := do
  let sum ← Nd.sum u ((List.range i).map fun k => q.2 k)
  let left ← near u (a + sum)
  let d ← near u (q.1 - left)
  let n ← near u (2 * d)
  let r ← quot u n (q.2 i)
  near u (r - 1)

theorem windowOf_rate (a : ℝ) (i : ℕ) {h : ℝ} (hh : h ≠ 0) (t : ℝ) : RateAt (fun u q => windowOf u a i q) (t, fun _ => h) (window h (t - (a + i * h))) := by
  unfold windowOf
  refine RateAt.bind (RateAt.sum (f := fun k (q : ℝ × Vec) => q.2 k) fun k _ => by fun_prop) ?_
  refine RateAt.bind (RateAt.near (by fun_prop)) ?_
  refine RateAt.bind (RateAt.near (by fun_prop)) ?_
  refine RateAt.bind (RateAt.near (by fun_prop)) ?_
  refine RateAt.bind (RateAt.quot (by fun_prop) (by fun_prop) hh) ?_
  refine (RateAt.near (by fun_prop)).congr ?_
  unfold window
  simp [Finset.sum_const]

theorem intervalToWindow_uniform {a b h : ℝ} (hh : 0 < h) (m i : ℕ) (hi : i < m) : ∃ C ≥ (0 : ℝ), ∃ δ > (0 : ℝ), ∀ g : GSpline, g.dom.1 = a → g.tau.length = m → ∀ ε, 0 ≤ ε → ε ≤ δ →
    (∀ i < m, |vecOf g.tau i - h| ≤ ε) → ∀ u, Small u δ → ∀ t ∈ Set.Icc a b, All (intervalToWindow u g t i) fun o => ∃ s, o = .ok s ∧ |s - window h (t - (a + i * h))| ≤ C * (Nd.sz u + ε) := by
  obtain ⟨C, hC, δ, hδ, H⟩ := RateAt.compact (F := fun u q => windowOf u a i q) (e := fun t : ℝ => (t, (fun _ => h : Vec))) (z := fun t => window h (t - (a + i * h))) (isCompact_Icc (a := a) (b := b))
    (fun t _ δ hδ => mem_nhdsWithin_of_mem_nhds (Filter.mem_of_superset (Metric.closedBall_mem_nhds t hδ) fun t' ht' => by
      have : dist t' t ≤ δ := ht'
      rw [Real.dist_eq] at this
      exact ⟨this, Gauge.refl' _ hδ.le⟩))
    (fun t _ => windowOf_rate a i hh.ne' t) (fun t _ => by
      refine Has.bind (Has.sum le_rfl le_rfl _) (Has.bind (Has.near le_rfl le_rfl _) (Has.bind (Has.near le_rfl le_rfl _) (Has.bind (Has.near le_rfl le_rfl _)
        (Has.bind (Has.quot le_rfl le_rfl _ hh.ne') ?_))))
      have := Has.near (u := 0) le_rfl le_rfl (window h (t - (a + i * h)))
      convert this using 1
      unfold window
      simp)
  refine ⟨C, hC, δ, hδ, fun g hg hlen ε hε hεd htau u hu t ht o ho => ?_⟩
  have e : intervalToWindow u g t i = windowOf u a i (t, fun k => if k < m then vecOf g.tau k else h) := by
    unfold intervalToWindow windowOf
    simp only [segment_ok (show 0 + i ≤ g.tau.length by omega), rd_ok (show i < g.tau.length by omega), lift_ok, LawfulMonad.pure_bind]
    rw [← range_map_vecOf (List.take i (List.drop 0 g.tau)), hg, if_pos hi]
    rw [show (List.take i (List.drop 0 g.tau)).length = i by simp; omega]
    rw [List.map_congr_left (g := fun k => if k < m then vecOf g.tau k else h) fun k hk => ?_]
    have hk := List.mem_range.mp hk
    rw [if_pos (by omega)]
    unfold vecOf
    rw [List.drop_zero, List.getD_eq_getElem?_getD, List.getD_eq_getElem?_getD, List.getElem?_take_of_lt hk]
  rw [e] at ho
  refine H t ht u hu _ ε hε hεd ⟨?_, fun k => ?_⟩ o ho
  · exact Gauge.refl' _ hε
  · change |_ - _| ≤ ε
    dsimp only
    split_ifs with hk
    · exact htau k hk
    · rw [sub_self, abs_zero]; exact hε

/-! ## The basis -/

theorem evalLagrange_uniform (n : ℕ) : ∃ C ≥ (0 : ℝ), ∃ δ > (0 : ℝ), ∀ p : Vec, (∀ i < n, p i ∈ Set.Icc (-1 : ℝ) 1) → (∀ i < n, ∀ j < n, i ≠ j → 1 / 10 ^ 9 < |p i - p j|) →
    ∀ u, Small u δ → ∀ s tau, |s| ≤ 2 → All (evalOnWindow u (.lagrange ((List.range n).map p)) s tau) fun o => ∃ buf : Vec, o = .ok buf ∧
      ((∃ j < n, |s - p j| ≤ 1 / 10 ^ 9 + 8 * Nd.sz u ∧ buf = setAt (fun _ => 0) j 1) ∨ ∀ k < n, |buf k - (_root_.Lagrange.basis (Finset.range n) p k).eval s| ≤ C * Nd.sz u) := by
  obtain ⟨C, hC, δ, hδ, H⟩ := bary_uniform n
  refine ⟨C, hC, min δ (1 / 10 ^ 20), lt_min hδ (by norm_num), fun p hp hap u hu s tau hs o ho => ?_⟩
  have u1 := small_mono (min_le_left _ _) hu
  have u2 := small_mono (min_le_right _ _) hu
  set x : Vec := pad fun i : Fin n => p i with hx
  have hxp : ∀ i < n, x i = p i := fun i hi => by rw [hx]; unfold pad; rw [dif_pos hi]
  have hvx : vecOf ((List.range n).map p) = x := by
    funext i
    by_cases hi : i < n
    · rw [hxp i hi, vecOf_map_range hi]
    · rw [hx]; unfold pad vecOf
      rw [dif_neg hi, List.getD_eq_getElem?_getD, List.getElem?_eq_none (by simp; omega)]
      rfl
  have hmem : ∀ z : ℝ, |z| ≤ 2 → (∀ j < n, 1 / 10 ^ 19 ≤ |z - p j|) → ((z, fun i : Fin n => p i) : ℝ × (Fin n → ℝ)) ∈ apart n := fun z hz hz' =>
    ⟨abs_le.mp hz, fun i => hp i i.2, fun i j hij => (hap i i.2 j j.2 fun e => hij (Fin.ext e)).le, fun j => hz' j j.2⟩
  unfold evalOnWindow at ho
  simp only [List.length_map, List.length_range, hvx] at ho
  rcases ho with ⟨e, he, -⟩ | ⟨w, hw, ho⟩
  · exfalso
    have h2 := hmem 2 (by norm_num) fun j hj => by
      have := (hp j hj).2
      rw [abs_of_nonneg (by linarith)]
      norm_num at *
      linarith
    obtain ⟨y, h, -⟩ := H _ h2 u u1 (.error e) (.inl ⟨e, he, rfl⟩)
    cases h
  unfold lagrange at ho
  have hF := findNode_out u2 (x := x) (s := s) hs (List.range n) fun j hj => by
    rw [hxp j (List.mem_range.mp hj)]
    exact abs_le.mpr (hp j (List.mem_range.mp hj))
  rcases ho with ⟨e, he, -⟩ | ⟨c, hc, ho⟩
  · obtain ⟨_, h, _⟩ := hF _ he
    cases h
  obtain ⟨c', h, f1, f2⟩ := hF _ hc
  cases h
  cases c with
  | some j =>
    obtain ⟨hj, hd⟩ := f1 j rfl
    have hj := List.mem_range.mp hj
    rw [hxp j hj] at hd
    exact ⟨_, ho, .inl ⟨j, hj, hd, rfl⟩⟩
  | none =>
    have hfar := hmem s hs fun j hj => by
      have := f2 rfl j (List.mem_range.mpr hj)
      rwa [hxp j hj] at this
    have K := H _ hfar u u1
    dsimp only at ho
    cases o with
    | error e =>
      obtain ⟨y, h, -⟩ := K (.error e) (.inr ⟨w, hw, .inl ⟨e, ho, rfl⟩⟩)
      cases h
    | ok buf =>
      obtain ⟨y, h, hy⟩ := K (.ok ((List.range n).map buf)) (.inr ⟨w, hw, .inr ⟨buf, ho, rfl⟩⟩)
      cases h
      refine ⟨buf, rfl, .inr fun k hk => ?_⟩
      change List.Forall₂ _ _ _ at hy
      rw [List.forall₂_map_left_iff, List.forall₂_map_right_iff, List.forall₂_same] at hy
      have h1 : |buf k - (_root_.Lagrange.basis (Finset.range n) x k).eval s| ≤ C * Nd.sz u := hy k (List.mem_range.mpr hk)
      have e : (_root_.Lagrange.basis (Finset.range n) x k).eval s = (_root_.Lagrange.basis (Finset.range n) p k).eval s := by
        rw [Approx.basis_eval, Approx.basis_eval]
        refine Finset.prod_congr rfl fun j hj => ?_
        rw [hxp k hk, hxp j (Finset.mem_range.mp (Finset.mem_erase.mp hj).2)]
      rwa [e] at h1

end GSplines.Rounded
