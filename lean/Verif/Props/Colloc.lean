import Verif.Proofs.Colloc
import Verif.Props.Integral
import Verif.Props.GSpline
import Verif.Props.Lagrange
import Verif.Props.GLL

/-!
# C47: collocation splines: approximation and nodal values
-/

namespace GSplines.Props

open GSplines Spec Finset Fn Polynomial

/-! ## Approximation -/

theorem rows_iff {f : Fn} {n : ℕ} (hn : 0 < n) (T : ℕ → ℝ) :
    (∃ rows, f.run f.codim ((List.range n).map T) = .ok rows) ↔ ∀ k < n, ∃ r, f.call [T k] = .ok [r] := by
  have hne : (List.range n).map T ≠ [] := by simp; omega
  constructor
  · rintro ⟨rows, h⟩ k hk
    have hf := (C10_row_wise f _ _ hne).mp h
    have := (List.forall₂_iff_get.mp hf).2 k (by simpa using hk) (by rw [← hf.length_eq]; simpa using hk)
    simp only [List.get_eq_getElem, List.getElem_map, List.getElem_range] at this
    exact ⟨_, this⟩
  · intro h
    choose! r hr using h
    refine ⟨(List.range n).map r, (C10_row_wise f _ _ hne).mpr (List.forall₂_iff_get.mpr ⟨by simp, fun j h1 h2 => ?_⟩)⟩
    simp only [List.get_eq_getElem, List.getElem_map, List.getElem_range]
    exact hr j (by simpa using h1)

theorem rows_entry {f : Fn} {n : ℕ} {T : ℕ → ℝ} {rows : Rows} (h : f.run f.codim ((List.range n).map T) = .ok rows) {k : ℕ} (hk : k < n) :
    f.call [T k] = .ok [rows.getD k []] := by
  have hne : (List.range n).map T ≠ [] := by simp; omega
  have hf := (C10_row_wise f _ _ hne).mp h
  have hl : k < rows.length := by rw [← hf.length_eq]; simpa using hk
  have := (List.forall₂_iff_get.mp hf).2 k (by simpa using hk) hl
  simp only [List.get_eq_getElem, List.getElem_map, List.getElem_range] at this
  rw [this]
  simp [List.getD_eq_getElem?_getD, List.getElem?_eq_getElem hl]

theorem loop_error {σ : Type} {body : ℕ → σ → Res σ} {m iv : ℕ} (hiv : iv < m) (h : ∀ st, ∃ e, body iv st = .error e) (s : σ) :
    ∃ e, forLoopM 0 m body s = .error e := by
  induction m with
  | zero => omega
  | succ m ih =>
    rw [Colloc.forLoopM_succ]
    rcases Nat.lt_succ_iff_lt_or_eq.mp hiv with h1 | h1
    · obtain ⟨e, he⟩ := ih h1
      exact ⟨e, by rw [he]; rfl⟩
    · subst h1
      cases hl : forLoopM 0 iv body s with
      | error e => exact ⟨e, rfl⟩
      | ok st => exact h st

theorem grid_ring (f : Fn) (m iv : ℕ) (x : ℝ) :
    (x + 1) * ((f.dom.2 - f.dom.1) / m) / 2 + (f.dom.1 + iv * ((f.dom.2 - f.dom.1) / m)) = gridPoint f.dom m iv x := by
  unfold gridPoint; ring

/-- **C47.** For every function, number of points and number of intervals for which the reference points can be computed: `approximate` succeeds exactly if the
function can be evaluated at all points of the grid. The result has the domain and components of the function, equal intervals, and `value_at(iv * n + k)`,
the value that the result stores for node `k` of interval `iv`, is the value of the function at that point. -/
theorem C47_approximate (f : Fn) (n m : ℕ) (jp jw junk p w : Vec) (hpw : GLL.pointsWeights n jp jw = .ok (p, w)) (hd : f.dom.1 ≤ f.dom.2) :
    ((∃ g, Colloc.approximate f n m jp jw junk = .ok g) ↔ ∀ iv < m, ∀ k < n, ∃ r, f.call [gridPoint f.dom m iv (p k)] = .ok [r]) ∧
    ∀ g, Colloc.approximate f n m jp jw junk = .ok g →
      g.dom = f.dom ∧ g.codim = f.codim ∧ g.tau = List.replicate m ((f.dom.2 - f.dom.1) / m) ∧ g.basis = .lagrange ((List.range n).map p) ∧
      Consistent g ∧ ∀ iv < m, ∀ k < n, ∃ r, f.call [gridPoint f.dom m iv (p k)] = .ok [r] ∧ Colloc.valueAt g (iv * n + k) = .ok r := by
  have hn : 2 ≤ n := points_two hpw
  have hpts : ∀ iv : ℕ, ((List.range n).map fun k => (p k + 1) * ((f.dom.2 - f.dom.1) / m) / 2 + (f.dom.1 + iv * ((f.dom.2 - f.dom.1) / m)))
      = (List.range n).map fun k => gridPoint f.dom m iv (p k) := fun iv => List.map_congr_left fun k _ => grid_ring f m iv (p k)
  have hgl : Colloc.glBasis n jp jw = .ok (.lagrange ((List.range n).map p)) := by
    unfold Colloc.glBasis; rw [hpw]; rfl
  have hdim : (Basis.lagrange ((List.range n).map p)).dim = n := by simp [Basis.dim]
  have good : (∀ iv < m, ∀ k < n, ∃ r, f.call [gridPoint f.dom m iv (p k)] = .ok [r]) →
      ∃ g, Colloc.approximate f n m jp jw junk = .ok g ∧ g.dom = f.dom ∧ g.codim = f.codim ∧ g.tau = List.replicate m ((f.dom.2 - f.dom.1) / m) ∧
        g.basis = .lagrange ((List.range n).map p) ∧ Consistent g ∧
        ∀ iv < m, ∀ k < n, ∃ r, f.call [gridPoint f.dom m iv (p k)] = .ok [r] ∧ Colloc.valueAt g (iv * n + k) = .ok r := by
    intro hev
    have : ∀ iv < m, ∃ rows, f.run f.codim ((List.range n).map fun k => gridPoint f.dom m iv (p k)) = .ok rows :=
      fun iv hiv => (rows_iff (by omega) _).mpr (hev iv hiv)
    choose! R hR using this
    have hb : ∃ co, forLoopM 0 m (fun iv v => do
        let left := f.dom.1 + iv * ((f.dom.2 - f.dom.1) / m)
        let rows ← f.run f.codim ((List.range n).map fun k => (p k + 1) * ((f.dom.2 - f.dom.1) / m) / 2 + left)
        return Colloc.storeBlock n f.codim iv rows v) junk = .ok co ∧
        ∀ iv < m, ∀ y < n * f.codim, co (iv * n * f.codim + y) = Colloc.entry (R iv) (y % n) (y / n) := by
      clear hev
      suffices H : ∀ j ≤ m, ∃ co, forLoopM 0 j (fun iv v => do
        let left := f.dom.1 + iv * ((f.dom.2 - f.dom.1) / m)
        let rows ← f.run f.codim ((List.range n).map fun k => (p k + 1) * ((f.dom.2 - f.dom.1) / m) / 2 + left)
        return Colloc.storeBlock n f.codim iv rows v) junk = .ok co ∧
        ∀ iv < j, ∀ y < n * f.codim, co (iv * n * f.codim + y) = Colloc.entry (R iv) (y % n) (y / n) from H m le_rfl
      intro j
      induction j with
      | zero => intro _; exact ⟨junk, rfl, by simp⟩
      | succ j ih =>
        intro hj
        obtain ⟨co, h1, h2⟩ := ih (by omega)
        rw [Colloc.forLoopM_succ, h1, GLL.ok_bind]
        simp only [hpts, hR j (by omega)]
        obtain ⟨e1, e2⟩ := Colloc.storeBlock_spec n f.codim j (R j) co
        refine ⟨_, rfl, fun iv hiv y hy => ?_⟩
        rcases Nat.lt_succ_iff_lt_or_eq.mp hiv with h | rfl
        · rw [e2 _ (.inl (Colloc.idx_lt h hy))]; exact h2 iv h y hy
        · exact e1 y hy
    obtain ⟨co, hco, hcv⟩ := hb
    have hcons : ((List.range (f.codim * n * m)).map co).length = m * (Basis.lagrange ((List.range n).map p)).dim * f.codim := by
      rw [hdim]; simp; ring
    refine ⟨⟨f.dom, f.codim, .lagrange ((List.range n).map p), (List.range (f.codim * n * m)).map co, List.replicate m ((f.dom.2 - f.dom.1) / m)⟩,
      ?_, rfl, rfl, rfl, rfl, ?_, fun iv hiv k hk => ?_⟩
    · unfold Colloc.approximate
      rw [hpw, GLL.ok_bind]
      dsimp only
      dsimp only at hco
      rw [hco, GLL.ok_bind]
      unfold Colloc.mk
      rw [hgl, GLL.ok_bind, GSpline.make_ok hd hcons]
    · unfold Consistent
      simp only [List.length_replicate]
      exact hcons
    · refine ⟨_, rows_entry (hR iv hiv) hk, ?_⟩
      have := Colloc.valueAt_ok (g := ⟨f.dom, f.codim, .lagrange ((List.range n).map p), (List.range (f.codim * n * m)).map co,
        List.replicate m ((f.dom.2 - f.dom.1) / m)⟩) (by unfold Consistent; simp only [List.length_replicate]; exact hcons) (iv := iv) (k := k)
        (by simpa using hiv) (by rw [hdim]; exact hk)
      dsimp only at this
      rw [hdim] at this
      rw [this]
      have hlen : ((R iv).getD k []).length = f.codim := by
        have h2 := rows_entry (hR iv hiv) hk
        exact (C10_shape f _ _ h2).2 _ (by simp)
      rw [eq_map_range hlen]
      congr 1
      unfold nodalRow
      refine List.map_congr_left fun c hc => ?_
      rw [List.mem_range] at hc
      unfold nodal
      dsimp only
      rw [hdim, Nat.add_assoc, vecOf_map_range, hcv iv hiv _ (Colloc.col_lt hc hk), Colloc.entry_col hk]
      · rfl
      · have := Colloc.idx_lt hiv (Colloc.col_lt hc hk)
        rw [show f.codim * n * m = m * n * f.codim by ring]; exact this
  have bad : (¬ ∀ iv < m, ∀ k < n, ∃ r, f.call [gridPoint f.dom m iv (p k)] = .ok [r]) → ∀ g, Colloc.approximate f n m jp jw junk ≠ .ok g := by
    intro hcon g hg
    push Not at hcon
    obtain ⟨iv, hiv, k, hk, hr⟩ := hcon
    have hno : ¬ ∃ rows, f.run f.codim ((List.range n).map fun k => gridPoint f.dom m iv (p k)) = .ok rows := by
      rw [rows_iff (by omega)]
      push Not
      exact ⟨k, hk, hr⟩
    unfold Colloc.approximate at hg
    rw [hpw, GLL.ok_bind] at hg
    dsimp only at hg
    obtain ⟨e, he⟩ := loop_error (body := fun iv v => do
        let rows ← f.run f.codim ((List.range n).map fun k => (p k + 1) * ((f.dom.2 - f.dom.1) / m) / 2 + (f.dom.1 + iv * ((f.dom.2 - f.dom.1) / m)))
        return Colloc.storeBlock n f.codim iv rows v) hiv (fun st => by
          beta_reduce
          rw [hpts]
          cases hrun : f.run f.codim ((List.range n).map fun k => gridPoint f.dom m iv (p k)) with
          | ok rows => exact absurd ⟨rows, hrun⟩ hno
          | error e => exact ⟨e, rfl⟩) junk
    rw [he] at hg
    cases hg
  refine ⟨⟨?_, fun h => ?_⟩, fun g hg => ?_⟩
  · rintro ⟨g, hg⟩
    by_contra hcon
    exact bad hcon g hg
  · obtain ⟨g, hg, -⟩ := good h
    exact ⟨g, hg⟩
  · by_cases hev : ∀ iv < m, ∀ k < n, ∃ r, f.call [gridPoint f.dom m iv (p k)] = .ok [r]
    · obtain ⟨g', hg', h⟩ := good hev
      rw [hg'] at hg
      injection hg with hg
      subst hg
      exact h
    · exact absurd hg (bad hev g)

/-! ## The spline passes through its nodal values -/

/-- What the code needs of the reference nodes: the first is `-1`, the last `1`, all lie in between, and the `1e-9` comparison tells them apart. -/
structure Nodes (n : ℕ) (p : Vec) : Prop where
  two : 2 ≤ n
  first : p 0 = -1
  last : p (n - 1) = 1
  sep : Separated n p
  mem : ∀ k < n, -1 ≤ p k ∧ p k ≤ 1

theorem separated_congr {n : ℕ} {p q : Vec} (h : ∀ k < n, p k = q k) (hp : Separated n p) : Separated n q := by
  intro i hi j hj e
  rw [← h i hi, ← h j hj] at e
  exact hp i hi j hj e

theorem valid_nodes {n : ℕ} {p : Vec} (hp : Separated n p) : (Basis.lagrange ((List.range n).map p)).Valid := by
  have h := separated_congr (q := vecOf ((List.range n).map p)) (fun k hk => (vecOf_map_range hk).symm) hp
  have hl : ((List.range n).map p).length = n := by simp
  intro i hi j hj
  rw [hl] at hi hj
  exact h i hi j hj

theorem gl_curve {g : GSpline} {n : ℕ} {p : Vec} (hb : g.basis = .lagrange ((List.range n).map p)) (hp : Separated n p) {iv c k : ℕ}
    (ht : vecOf g.tau iv ≠ 0) (hk : k < n) : curve g iv c (nodeTime g p iv k) = nodal g iv c k := by
  have hdim : g.basis.dim = n := by rw [hb]; simp [Basis.dim]
  have hw : window (vecOf g.tau iv) (nodeTime g p iv k - brk g iv) = p k := by
    unfold window nodeTime
    field_simp
    ring
  have hinj : Set.InjOn (vecOf ((List.range n).map p)) (range n : Finset ℕ) := by
    intro i hi j hj e
    rw [mem_coe, mem_range] at hi hj
    rw [vecOf_map_range hi, vecOf_map_range hj] at e
    exact hp.distinct (by simpa using hi) (by simpa using hj) e
  unfold curve piece comb
  rw [hdim, sum_eq_single k]
  · rw [hb]
    simp only [basisFn, hw, List.length_map, List.length_range]
    rw [← vecOf_map_range (v := p) hk, _root_.Lagrange.eval_basis_self hinj (by simpa using hk), mul_one]
    unfold nodal
    rw [hdim]
  · intro j hj hjk
    rw [hb]
    simp only [basisFn, hw, List.length_map, List.length_range]
    rw [← vecOf_map_range (v := p) hk, _root_.Lagrange.eval_basis_of_ne hjk (by simpa using hk), mul_zero]
  · intro h; exact absurd (mem_range.mpr hk) h

theorem gl_clean {n : ℕ} {p : Vec} (hp : Separated n p) {k : ℕ} (hk : k < n) : (Basis.lagrange ((List.range n).map p)).CleanAt (p k) := by
  have hl : ((List.range n).map p).length = n := by simp
  intro j hj e
  rw [hl] at hj
  rw [vecOf_map_range hj] at e ⊢
  rw [hp k hk j hj e]

theorem row_eq {v : List ℝ} {n : ℕ} {F : ℕ → ℝ} (hl : v.length = n) (h : ∀ c < n, v[c]? = some (F c)) : v = (List.range n).map F := by
  refine List.ext_getElem? fun c => ?_
  by_cases hc : c < n
  · rw [h c hc, List.getElem?_map, List.getElem?_range hc]; rfl
  · rw [List.getElem?_eq_none (by omega), List.getElem?_eq_none (by simp; omega)]

/-- **C47.** For every spline on Gauss-Lobatto nodes, `value_at` returns the value of the spline at the time of the node. Intervals are closed on the right: the
first node of an interval after the first one has the same time as the last node of the interval before, and there the spline has the value of the latter. -/
theorem C47_value_at (g : GSpline) (n : ℕ) (p : Vec) (hb : g.basis = .lagrange ((List.range n).map p)) (hp : Nodes n p) (hc : Consistent g)
    (hpos : Positive g) (iv k : ℕ) (hiv : iv < g.tau.length) (hk : k < n) :
    ∃ v, Colloc.valueAt g (iv * n + k) = .ok v ∧ v.length = g.codim ∧
      (iv = 0 ∨ 0 < k → g.value (nodeTime g p iv k) = .ok v) ∧ (0 < iv → k = 0 → nodeTime g p iv k = nodeTime g p (iv - 1) (n - 1)) := by
  have hdim : g.basis.dim = n := by rw [hb]; simp [Basis.dim]
  have h2 := hp.two
  refine ⟨nodalRow g iv k, ?_, by simp [nodalRow], fun h => ?_, fun h1 h3 => ?_⟩
  · have := Colloc.valueAt_ok hc hiv (k := k) (by omega)
    rwa [hdim] at this
  · have htau := vecOf_pos hpos.2 hiv
    have hkp : 0 < k → -1 < p k := by
      intro h0
      rcases lt_or_eq_of_le (hp.mem k hk).1 with h' | h'
      · exact h'
      · have := hp.sep.distinct (by simpa using hk) (by simp; omega : (0 : ℕ) ∈ ((range n : Finset ℕ) : Set ℕ)) (by rw [← h', hp.first])
        omega
    have hloc : Located g (nodeTime g p iv k) iv := by
      refine ⟨hiv, ?_⟩
      have hup : nodeTime g p iv k ≤ brk g (iv + 1) := by
        rw [GSpline.brk_succ g hiv]
        unfold nodeTime
        nlinarith [(hp.mem k hk).2]
      by_cases h0 : 0 < k
      · refine .inr (.inl ⟨?_, hup⟩)
        unfold nodeTime
        nlinarith [hkp h0]
      · have hk0 : k = 0 := by omega
        have hiv0 : iv = 0 := by omega
        subst hk0 hiv0
        refine .inl ⟨?_, rfl⟩
        unfold nodeTime
        rw [hp.first]; linarith
    have hw : window (vecOf g.tau iv) (nodeTime g p iv k - brk g iv) = p k := by
      unfold window nodeTime
      field_simp
      ring
    obtain ⟨v, hv, hl, hcv⟩ := GSpline.value_spec (g := g) (by rw [hb]; exact valid_nodes hp.sep) hc
      (GSpline.getInterval_of_located hpos hloc) hiv htau.ne' (by rw [hw, hb]; exact gl_clean hp.sep hk)
    rw [hv, row_eq hl hcv]
    congr 1
    exact List.map_congr_left fun c _ => gl_curve hb hp.sep htau.ne' hk
  · subst h3
    obtain ⟨j, rfl⟩ : ∃ j, iv = j + 1 := ⟨iv - 1, by omega⟩
    unfold nodeTime
    rw [hp.first, GSpline.brk_succ g (by omega), Nat.add_sub_cancel, hp.last]
    ring

/-- Indices from the last point on: `std::invalid_argument`. -/
theorem C47_value_at_range (g : GSpline) (i : ℕ) (hi : g.basis.dim * g.tau.length ≤ i) : Colloc.valueAt g i = .error .invalidArgument := if_pos hi

theorem brk_replicate {g : GSpline} {m : ℕ} {len : ℝ} (ht : g.tau = List.replicate m len) {i : ℕ} (hi : i ≤ m) : brk g i = g.dom.1 + i * len := by
  unfold brk
  rw [ht, List.take_replicate, Nat.min_eq_left hi]
  simp

theorem vecOf_replicate {m i : ℕ} {x : ℝ} (hi : i < m) : vecOf (List.replicate m x) i = x := by
  simp [vecOf, hi]

theorem nodeTime_grid {g : GSpline} {m : ℕ} (hm : g.tau = List.replicate m ((g.dom.2 - g.dom.1) / m)) (p : Vec) {iv k : ℕ} (hiv : iv < m) :
    nodeTime g p iv k = gridPoint g.dom m iv (p k) := by
  unfold nodeTime gridPoint
  rw [brk_replicate hm hiv.le, hm, vecOf_replicate hiv]
  ring

/-- **C47.** The spline which `approximate` returns takes the values of the function at all points of the grid. -/
theorem C47_interpolates (f : Fn) (n m : ℕ) (jp jw junk p w : Vec) (hpw : GLL.pointsWeights n jp jw = .ok (p, w)) (hp : Nodes n p)
    (hd : f.dom.1 < f.dom.2) (g : GSpline) (hg : Colloc.approximate f n m jp jw junk = .ok g) (iv k : ℕ) (hiv : iv < m) (hk : k < n) :
    ∃ r, f.call [gridPoint f.dom m iv (p k)] = .ok [r] ∧ g.value (gridPoint f.dom m iv (p k)) = .ok r := by
  obtain ⟨h1, h2, h3, h4, h5, h6⟩ := (C47_approximate f n m jp jw junk p w hpw hd.le).2 g hg
  have hm0 : (0 : ℝ) < m := by exact_mod_cast (by omega : 0 < m)
  have hlen : 0 < (f.dom.2 - f.dom.1) / m := div_pos (by linarith) hm0
  have hpos : Positive g := by
    refine ⟨by rw [h3]; simp; omega, fun x hx => ?_⟩
    rw [h3] at hx
    rw [List.eq_of_mem_replicate hx]; exact hlen
  have hl : g.tau.length = m := by rw [h3]; simp
  have ht : g.tau = List.replicate m ((g.dom.2 - g.dom.1) / m) := by rw [h1]; exact h3
  have h2n := hp.two
  by_cases hc : iv = 0 ∨ 0 < k
  · obtain ⟨r, hr, hv⟩ := h6 iv hiv k hk
    obtain ⟨v, e1, -, e2, -⟩ := C47_value_at g n p h4 hp h5 hpos iv k (by omega) hk
    rw [hv] at e1
    injection e1 with e1
    subst e1
    refine ⟨r, hr, ?_⟩
    have := e2 hc
    rwa [nodeTime_grid ht p hiv, h1] at this
  · push Not at hc
    have hk0 : k = 0 := by omega
    subst hk0
    obtain ⟨v, -, -, -, e3⟩ := C47_value_at g n p h4 hp h5 hpos iv 0 (by omega) hk
    have e := e3 (by omega) rfl
    rw [nodeTime_grid ht p hiv, nodeTime_grid ht p (by omega : iv - 1 < m), h1] at e
    rw [e]
    obtain ⟨r, hr, hv⟩ := h6 (iv - 1) (by omega) (n - 1) (by omega)
    obtain ⟨v, e1, -, e2, -⟩ := C47_value_at g n p h4 hp h5 hpos (iv - 1) (n - 1) (by omega) (by omega)
    rw [hv] at e1
    injection e1 with e1
    subst e1
    refine ⟨r, hr, ?_⟩
    have := e2 (.inr (by omega))
    rwa [nodeTime_grid ht p (by omega), h1] at this

/-- **C47** (partial: at points that are nodes or further than the `1e-9` comparison from every node of their interval; nearer to a node the spline takes the
value of that node). If the function is a polynomial of degree `< n` on every interval, the spline is the function. -/
theorem C47_polynomial_partial (f : Fn) (n m : ℕ) (jp jw junk p w : Vec) (hpw : GLL.pointsWeights n jp jw = .ok (p, w)) (hp : Nodes n p)
    (hd : f.dom.1 < f.dom.2) (g : GSpline) (hg : Colloc.approximate f n m jp jw junk = .ok g)
    (hpoly : ∀ iv < m, ∀ c < f.codim, ∃ P : ℝ[X], P.degree < n ∧ ∀ t, gridPoint f.dom m iv (-1) ≤ t → t ≤ gridPoint f.dom m iv 1 → val f c t = P.eval t)
    (t : ℝ) (iv : ℕ) (hiv : iv < m) (hl : gridPoint f.dom m iv (-1) < t ∨ iv = 0 ∧ t = f.dom.1) (hr : t ≤ gridPoint f.dom m iv 1)
    (hclean : Clean n p (window ((f.dom.2 - f.dom.1) / m) (t - gridPoint f.dom m iv (-1)))) :
    g.value t = .ok ((List.range f.codim).map fun c => val f c t) := by
  obtain ⟨h1, h2, h3, h4, h5, h6⟩ := (C47_approximate f n m jp jw junk p w hpw hd.le).2 g hg
  have hm0 : (0 : ℝ) < m := by exact_mod_cast (by omega : 0 < m)
  have hlen : 0 < (f.dom.2 - f.dom.1) / m := div_pos (by linarith) hm0
  have hpos : Positive g := by
    refine ⟨by rw [h3]; simp; omega, fun x hx => ?_⟩
    rw [h3] at hx
    rw [List.eq_of_mem_replicate hx]; exact hlen
  have hlt : g.tau.length = m := by rw [h3]; simp
  have ht : g.tau = List.replicate m ((g.dom.2 - g.dom.1) / m) := by rw [h1]; exact h3
  have h2n := hp.two
  have hdim : g.basis.dim = n := by rw [h4]; simp [Basis.dim]
  have htau : vecOf g.tau iv = (f.dom.2 - f.dom.1) / m := by rw [h3, vecOf_replicate hiv]
  have hbrk : brk g iv = gridPoint f.dom m iv (-1) := by
    rw [brk_replicate ht hiv.le, h1]; unfold gridPoint; ring
  have hbrk1 : brk g (iv + 1) = gridPoint f.dom m iv 1 := by
    rw [brk_replicate ht hiv, h1]; unfold gridPoint; push_cast; ring
  have hlo : gridPoint f.dom m iv (-1) ≤ t := by
    rcases hl with h | ⟨h, h'⟩
    · exact h.le
    · subst h; rw [h']; unfold gridPoint; norm_num
  have hloc : Located g t iv := by
    refine ⟨by omega, ?_⟩
    rcases hl with h | ⟨h, h'⟩
    · exact .inr (.inl ⟨by rw [hbrk]; exact h, by rw [hbrk1]; exact hr⟩)
    · exact .inl ⟨by rw [GSpline.brk_zero, h1, h'], h⟩
  have hcl : g.basis.CleanAt (window (vecOf g.tau iv) (t - brk g iv)) := by
    rw [htau, hbrk, h4]
    have hll : ((List.range n).map p).length = n := by simp
    intro j hj e
    rw [hll] at hj
    rw [vecOf_map_range hj] at e ⊢
    exact hclean j hj e
  obtain ⟨v, hv, hvl, hcv⟩ := GSpline.value_spec (g := g) (by rw [h4]; exact valid_nodes hp.sep) h5
      (GSpline.getInterval_of_located hpos hloc) (by omega) (vecOf_pos hpos.2 hloc.1).ne' hcl
  rw [hv, row_eq hvl hcv, h2]
  congr 1
  refine List.map_congr_left fun c hc => ?_
  rw [List.mem_range] at hc
  obtain ⟨P, hdeg, hP⟩ := hpoly iv hiv c hc
  rw [hP t hlo hr]
  -- the nodal values
  have hnod : ∀ k < n, nodal g iv c k = P.eval (gridPoint f.dom m iv (p k)) := by
    intro k hk
    obtain ⟨r, hr1, hr2⟩ := h6 iv hiv k hk
    have := Colloc.valueAt_ok h5 (iv := iv) (k := k) (by omega) (by omega)
    rw [hdim, hr2] at this
    injection this with this
    have hmem := hp.mem k hk
    rw [← hP _ (by unfold gridPoint; nlinarith) (by unfold gridPoint; nlinarith), val_of_call hr1, this]
    unfold nodalRow
    rw [getD_map_range (by omega)]
  -- the polynomial in the window coordinate
  set len := (f.dom.2 - f.dom.1) / m with hlen'
  set Q : ℝ[X] := P.comp (C (len / 2) * X + C (gridPoint f.dom m iv (-1) + len / 2)) with hQ
  have hQe : ∀ s, Q.eval s = P.eval (gridPoint f.dom m iv s) := by
    intro s
    rw [hQ, eval_comp]
    congr 1
    simp only [eval_add, eval_mul, eval_C, eval_X]
    unfold gridPoint
    rw [← hlen']; ring
  have hQd : Q.degree < n := by
    by_cases hP0 : P = 0
    · rw [hQ, hP0, zero_comp, degree_zero]; exact WithBot.bot_lt_coe _
    · have hnat : P.natDegree < n := by
        rw [degree_eq_natDegree hP0] at hdeg
        exact_mod_cast hdeg
      have h1 : Q.natDegree ≤ P.natDegree * (C (len / 2) * X + C (gridPoint f.dom m iv (-1) + len / 2)).natDegree := natDegree_comp_le
      have h2' : (C (len / 2) * X + C (gridPoint f.dom m iv (-1) + len / 2)).natDegree ≤ 1 := natDegree_linear_le
      have h3' : Q.natDegree ≤ P.natDegree := h1.trans (by nlinarith)
      exact lt_of_le_of_lt degree_le_natDegree (by exact_mod_cast lt_of_le_of_lt h3' hnat)
  have hinterp := Lagrange.interp (n := n) (x := vecOf ((List.range n).map p)) (p := Q)
    (separated_congr (fun k hk => (vecOf_map_range hk).symm) hp.sep).distinct hQd
  have hend : P.eval t = Q.eval (window len (t - gridPoint f.dom m iv (-1))) := by
    rw [hQe]
    congr 1
    unfold window gridPoint
    rw [← hlen']
    field_simp
    ring
  rw [hend, hinterp, eval_finsetSum]
  unfold curve piece comb
  rw [hdim, htau, hbrk, h4]
  refine sum_congr rfl fun k hk => ?_
  rw [mem_range] at hk
  have e1 : vecOf g.coeffs (iv * n * g.codim + n * c + k) = nodal g iv c k := by
    unfold nodal; rw [hdim]
  simp only [basisFn, eval_mul, eval_C, List.length_map, List.length_range]
  rw [e1, hnod k hk, hQe, vecOf_map_range hk]

/-- **C47**, the other points: where the `1e-9` comparison takes the window coordinate for a node, the spline returns the stored values of such a node. -/
theorem C47_near_node (g : GSpline) (n : ℕ) (p : Vec) (hb : g.basis = .lagrange ((List.range n).map p)) (hc : Consistent g) (hpos : Positive g)
    (t : ℝ) (iv : ℕ) (hloc : Located g t iv) (hnear : ∃ k < n, Lagrange.almostEqual (window (vecOf g.tau iv) (t - brk g iv)) (p k) tol9 = true) :
    ∃ k < n, Lagrange.almostEqual (window (vecOf g.tau iv) (t - brk g iv)) (p k) tol9 = true ∧ g.value t = .ok (nodalRow g iv k) := by
  have hdim : g.basis.dim = n := by rw [hb]; simp [Basis.dim]
  have hll : ((List.range n).map p).length = n := by simp
  obtain ⟨k, hk, hkn, hbuf⟩ := C26_lagrange_eval_near_node n (vecOf ((List.range n).map p)) (window (vecOf g.tau iv) (t - brk g iv)) (vecOf g.tau iv)
    (by obtain ⟨k, hk, h⟩ := hnear; exact ⟨k, hk, by rw [vecOf_map_range hk]; exact h⟩)
  rw [vecOf_map_range hk] at hkn
  refine ⟨k, hk, hkn, ?_⟩
  have hev : g.basis.evalOnWindow (window (vecOf g.tau iv) (t - brk g iv)) (vecOf g.tau iv)
      = .ok (Lagrange.evalOnWindow n (vecOf ((List.range n).map p)) (window (vecOf g.tau iv) (t - brk g iv)) (vecOf g.tau iv)) := by
    rw [hb]; simp only [Basis.evalOnWindow, hll]
  rw [GSpline.value_ok hc (GSpline.getInterval_of_located hpos hloc) hloc.1 (vecOf_pos hpos.2 hloc.1).ne' hev]
  congr 1
  refine row_eq (GSpline.rowOf_length _ _ _) fun c hcc => ?_
  rw [GSpline.rowOf_getElem? _ _ _ hcc]
  congr 1
  rw [hdim, sum_eq_single k]
  · rw [hbuf, if_pos rfl, mul_one]; unfold nodal Basis.coefIdx; rw [hdim]
  · intro j _ hj; rw [hbuf, if_neg hj, mul_zero]
  · intro h; exact absurd (mem_range.mpr hk) h

/-! ## The constructor from a function -/

/-- **C47 fails for the constructor** `GaussLobattoLagrangeSpline(f, n_intervals, n_glp)`: whenever it succeeds with different arguments, the result has `n_glp`
intervals with `n_intervals` nodes each. With one interval it has no defined behaviour. -/
theorem C47_constructor_false (f : Fn) (nInt nglp : ℕ) (jp jw junk : Vec) :
    (∀ g, f.dom.1 ≤ f.dom.2 → Colloc.ofFunction f nInt nglp jp jw junk = .ok g → g.tau.length = nglp ∧ g.basis.dim = nInt) ∧
      (nInt < 2 → Colloc.ofFunction f nInt nglp jp jw junk = .error .ub) := by
  refine ⟨fun g hd hg => ?_, fun h => ?_⟩
  · unfold Colloc.ofFunction at hg
    cases hpw : GLL.pointsWeights nInt jp jw with
    | error e =>
      unfold Colloc.approximate at hg
      rw [hpw] at hg
      cases hg
    | ok r =>
      obtain ⟨-, -, h3, h4, -⟩ := (C47_approximate f nInt nglp jp jw junk r.1 r.2 hpw hd).2 g hg
      rw [h3, h4]
      simp [Basis.dim]
  · unfold Colloc.ofFunction Colloc.approximate GLL.pointsWeights
    rw [if_pos h]; rfl

/-! ## A concrete case -/

theorem three_nodes (jp jw : Vec) : ∃ p w, GLL.pointsWeights 3 jp jw = .ok (p, w) ∧ Nodes 3 p ∧ w 0 = 1 / 3 ∧ w 1 = 4 / 3 ∧ w 2 = 1 / 3 ∧ p 1 = 0 := by
  obtain ⟨p, w, h, h0, h1, h2, w0, w1, w2⟩ := three_points jp jw
  refine ⟨p, w, h, ⟨by norm_num, h0, h2, ?_, ?_⟩, w0, w1, w2, h1⟩
  · intro i hi j hj e
    have hc : ∀ k < 3, p k = (k : ℝ) - 1 := by
      intro k hk
      interval_cases k
      · rw [h0]; norm_num
      · rw [h1]; norm_num
      · rw [h2]; norm_num
    rw [hc i hi, hc j hj] at e
    interval_cases i <;> interval_cases j <;> first | rfl | (exfalso; revert e; norm_num [Lagrange.almostEqual, tol9])
  · intro k hk
    interval_cases k
    · rw [h0]; norm_num
    · rw [h1]; norm_num
    · rw [h2]; norm_num

theorem dil_call (d : ℝ × ℝ) (a t : ℝ) : (dil d a).call [t] = .ok [[a * t]] := by norm_num [call, run, scalarRun, codim]

/-- `t ↦ 3 t` on `[0, 2]`, two intervals of three nodes: the approximation exists, takes the values at the grid, and is the function at `1/4`. -/
example (jp jw junk : Vec) : ∃ p w g, GLL.pointsWeights 3 jp jw = .ok (p, w) ∧ Colloc.approximate (dil (0, 2) 3) 3 2 jp jw junk = .ok g ∧
    g.value (gridPoint (0, 2) 2 1 (p 1)) = .ok [9 / 2] ∧ g.value (1 / 4) = .ok [3 / 4] ∧ Colloc.valueAt g 4 = .ok [9 / 2] := by
  obtain ⟨p, w, hpw, hp, -, -, -, hp1⟩ := three_nodes jp jw
  have hd : (dil (0, 2) 3).dom.1 < (dil (0, 2) 3).dom.2 := by norm_num [dom]
  obtain ⟨e1, e2⟩ := C47_approximate (dil (0, 2) 3) 3 2 jp jw junk p w hpw hd.le
  obtain ⟨g, hg⟩ := e1.mpr fun iv _ k _ => ⟨_, dil_call _ _ _⟩
  refine ⟨p, w, g, hpw, hg, ?_, ?_, ?_⟩
  · obtain ⟨r, hr, hv⟩ := C47_interpolates _ _ _ _ _ _ _ _ hpw hp hd g hg 1 1 (by norm_num) (by norm_num)
    rw [dil_call] at hr
    injection hr with hr
    injection hr with hr
    have hv' : g.value (gridPoint (0, 2) 2 1 (p 1)) = .ok r := hv
    rw [hv', ← hr, hp1]
    norm_num [gridPoint, dom]
  · have := C47_polynomial_partial _ _ _ _ _ _ _ _ hpw hp hd g hg (fun iv _ c hc => ⟨C 3 * X, ?_, fun t _ _ => ?_⟩) (1 / 4) 0 (by norm_num)
      (.inl (by norm_num [gridPoint, dom])) (by norm_num [gridPoint, dom]) ?_
    · rw [this]
      simp only [codim, List.range_one, List.map_cons, List.map_nil, val_of_call (dil_call (0, 2) 3 (1 / 4))]
      norm_num
    · refine lt_of_le_of_lt (degree_C_mul_X_le _) ?_
      exact_mod_cast (by norm_num : (1 : ℕ) < 3)
    · have : c = 0 := by simpa [codim] using hc
      subst this
      rw [val_of_call (dil_call (0, 2) 3 t)]
      simp
    · have hw : window (((dil (0, 2) 3).dom.2 - (dil (0, 2) 3).dom.1) / (2 : ℕ)) (1 / 4 - gridPoint (dil (0, 2) 3).dom 2 0 (-1)) = -1 / 2 := by
        norm_num [window, gridPoint, dom]
      rw [hw]
      intro j hj e
      exfalso
      have h0 := hp.first
      have h2 := hp.last
      norm_num at h2
      interval_cases j
      · rw [h0] at e; revert e; norm_num [Lagrange.almostEqual, tol9]
      · rw [hp1] at e; revert e; norm_num [Lagrange.almostEqual, tol9]
      · rw [h2] at e; revert e; norm_num [Lagrange.almostEqual, tol9]
  · obtain ⟨r, hr, hv⟩ := (e2 g hg).2.2.2.2.2 1 (by norm_num) 1 (by norm_num)
    rw [dil_call] at hr
    injection hr with hr
    injection hr with hr
    rw [hv, ← hr, hp1]
    norm_num [gridPoint, dom]

/-- The constructor with two intervals of three points makes three intervals of two points. -/
example (jp jw junk : Vec) : ∃ g, Colloc.ofFunction (dil (0, 2) 3) 2 3 jp jw junk = .ok g ∧ g.tau.length = 3 ∧ g.basis.dim = 2 := by
  obtain ⟨p, w, hpw, -⟩ := two_points jp jw
  have hd : (dil (0, 2) 3).dom.1 ≤ (dil (0, 2) 3).dom.2 := by norm_num [dom]
  obtain ⟨g, hg⟩ := (C47_approximate (dil (0, 2) 3) 2 3 jp jw junk p w hpw hd).1.mpr fun iv _ k _ => ⟨_, dil_call _ _ _⟩
  exact ⟨g, hg, (C47_constructor_false _ _ _ _ _ _).1 g hd hg⟩

end GSplines.Props
