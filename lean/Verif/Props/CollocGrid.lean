import Verif.Props.GLLNodes
import Verif.Props.CollocAssign

/-!
# C80: the times of the nodes of a collocation spline
-/

namespace GSplines.Props

open GSplines Spec GLL Finset Fn

/-- The list returned by `get_domain_discretization`. -/
theorem discretization_ok {g : GSpline} {n : ℕ} {jp jw p w : Vec} (junk : Vec) (hpw : pointsWeights n jp jw = .ok (p, w)) (hdim : g.basis.dim = n) :
    Colloc.discretization g jp jw junk = .ok ((List.range (n * g.tau.length)).map fun i => gridPoint g.dom g.tau.length (i / n) (p (i % n))) := by
  have hn : 0 < n := by have := (pointsWeights_spec hpw).1; omega
  unfold Colloc.discretization
  rw [hdim, hpw, GLL.ok_bind]
  change Except.ok _ = _
  congr 1
  refine List.map_congr_left fun i hi => ?_
  have hi : i < n * g.tau.length := List.mem_range.mp hi
  have h1 : i / n < g.tau.length := Nat.div_lt_of_lt_mul hi
  have h2 : i % n < n := Nat.mod_lt _ hn
  conv_lhs => rw [show i = i / n * n + i % n from (Nat.div_add_mod' i n).symm]
  unfold gridPoints
  rw [show g.nIntervals = g.tau.length from rfl, segments_spec _ _ _ _ h1 h2]
  unfold gridPoint
  ring

theorem nodeTime_replicate {g : GSpline} {m : ℕ} (h : g.tau = List.replicate m ((g.dom.2 - g.dom.1) / m)) (p : Vec) {iv : ℕ} (hiv : iv < m) (k : ℕ) :
    nodeTime g p iv k = gridPoint g.dom m iv (p k) := by
  unfold nodeTime gridPoint
  rw [brk_replicate h hiv.le]
  have : vecOf g.tau iv = (g.dom.2 - g.dom.1) / m := by simp [h, vecOf, hiv]
  rw [this]
  ring

/-- **C80** (false in general, see below): for a Gauss-Lobatto spline with equal intervals that fill its domain, `get_domain_discretization()` gives the times of
the values `value_at(0)`, `value_at(1)`, ... in order: they increase from the start to the end of the domain, and the spline evaluated at the time number `i` is
`value_at(i)`. The first node of a later interval is at the time of the last node of the interval before, where the spline takes the value of the latter; so if the
two values agree, the spline evaluated at all times gives exactly the values `value_at`. Missing: splines with other lengths or another basis, which the
constructors accept too. -/
theorem C80_discretization_partial (g : GSpline) (n m : ℕ) (hn : n ≤ 44000) (jp jw junk p w : Vec) (hpw : pointsWeights n jp jw = .ok (p, w))
    (hb : g.basis = .lagrange ((List.range n).map p)) (hc : Consistent g) (hd : g.dom.1 < g.dom.2) (hm : 0 < m)
    (htau : g.tau = List.replicate m ((g.dom.2 - g.dom.1) / m)) :
    ∃ l, Colloc.discretization g jp jw junk = .ok l ∧ l.length = n * m ∧ l.Pairwise (· ≤ ·) ∧ l.head? = some g.dom.1 ∧ l.getLast? = some g.dom.2 ∧
      (∀ i < n * m, ∃ t v, l[i]? = some t ∧ Colloc.valueAt g i = .ok v ∧ v.length = g.codim ∧
        (i = 0 ∨ i % n ≠ 0 → g.value t = .ok v) ∧ (i ≠ 0 → i % n = 0 → l[i - 1]? = some t)) ∧
      ((∀ i < n * m, i ≠ 0 → i % n = 0 → Colloc.valueAt g i = Colloc.valueAt g (i - 1)) →
        ∃ R, g.values l = .ok R ∧ R.length = n * m ∧ ∀ i < n * m, ∃ v, R[i]? = some v ∧ Colloc.valueAt g i = .ok v) := by
  have hp := gll_nodes hn hpw
  have h2 := hp.two
  have hlen : g.tau.length = m := by rw [htau]; simp
  have hdim : g.basis.dim = n := by rw [hb]; simp [Basis.dim]
  have hm0 : (0 : ℝ) < m := by exact_mod_cast hm
  have hH : 0 < (g.dom.2 - g.dom.1) / m := div_pos (by linarith) hm0
  have hpos : Positive g := by
    refine ⟨by rw [htau]; intro h; rw [List.replicate_eq_nil_iff] at h; omega, fun x hx => ?_⟩
    rw [htau] at hx
    rw [List.eq_of_mem_replicate hx]; exact hH
  have hq : ∀ i < n * m, i / n < m ∧ i % n < n := fun i hi => ⟨Nat.div_lt_of_lt_mul hi, Nat.mod_lt _ (by omega)⟩
  have hdisc := discretization_ok (g := g) junk hpw hdim
  rw [hlen] at hdisc
  set T : ℕ → ℝ := fun i => gridPoint g.dom m (i / n) (p (i % n)) with hT
  have key : ∀ i < n * m, ∃ v, Colloc.valueAt g i = .ok v ∧ v.length = g.codim ∧ (i = 0 ∨ i % n ≠ 0 → g.value (T i) = .ok v) ∧
      (i ≠ 0 → i % n = 0 → T (i - 1) = T i) := by
    intro i hi
    obtain ⟨h3, h4⟩ := hq i hi
    obtain ⟨v, e1, e2, e3, e4⟩ := C47_value_at g n p hb hp hc hpos (i / n) (i % n) (by omega) h4
    rw [Nat.div_add_mod'] at e1
    rw [nodeTime_replicate htau p h3] at e3
    refine ⟨v, e1, e2, fun h => e3 ?_, fun h h0 => ?_⟩
    · rcases h with h | h
      · left; rw [h]; simp
      · right; omega
    · have hdv : 0 < i / n := by
        rcases Nat.eq_zero_or_pos (i / n) with hz | hz
        · have := Nat.div_add_mod i n; rw [hz, h0] at this; omega
        · exact hz
      have e5 := e4 hdv h0
      rw [nodeTime_replicate htau p h3, nodeTime_replicate htau p (by omega)] at e5
      obtain ⟨q, hq'⟩ : ∃ q, i / n = q + 1 := ⟨i / n - 1, by omega⟩
      have hi' : i = (q + 1) * n := by have := Nat.div_add_mod' i n; rw [h0, hq'] at this; omega
      have hi1 : i - 1 = q * n + (n - 1) := by rw [hi', Nat.succ_mul]; omega
      have d1 : (i - 1) / n = i / n - 1 := by
        rw [hi1, hq', Nat.mul_comm, Nat.mul_add_div (by omega), Nat.div_eq_of_lt (by omega)]; omega
      have d2 : (i - 1) % n = n - 1 := by rw [hi1, Nat.mul_comm, Nat.mul_add_mod, Nat.mod_eq_of_lt (by omega)]
      simp only [hT]
      rw [d1, d2]
      exact e5.symm
  have hmono : ∀ i j, i < j → j < n * m → T i ≤ T j := by
    intro i j hij hj
    obtain ⟨a1, a2⟩ := hq i (by omega)
    obtain ⟨b1, b2⟩ := hq j hj
    simp only [hT, gridPoint]
    have hle : ((i / n : ℕ) : ℝ) + (p (i % n) + 1) / 2 ≤ ((j / n : ℕ) : ℝ) + (p (j % n) + 1) / 2 := by
      rcases Nat.lt_or_ge (i / n) (j / n) with h | h
      · have : ((i / n : ℕ) : ℝ) + 1 ≤ ((j / n : ℕ) : ℝ) := by exact_mod_cast h
        linarith [(hp.mem _ a2).2, (hp.mem _ b2).1]
      · have he : i / n = j / n := le_antisymm (Nat.div_le_div_right hij.le) h
        have hmod : i % n < j % n := by
          have e1 := Nat.div_add_mod i n
          have e2 := Nat.div_add_mod j n
          rw [he] at e1; omega
        have := C45_order n jp jw p w hpw _ _ hmod b2
        have hg : (0 : ℝ) ≤ 2 / ((n : ℝ) - 1 / 2) ^ 2 := by positivity
        rw [he]; linarith
    nlinarith [mul_le_mul_of_nonneg_right hle hH.le]
  have hnm : 0 < n * m := Nat.mul_pos (by omega) hm
  refine ⟨_, hdisc, by simp, ?_, ?_, ?_, fun i hi => ?_, fun hj => ?_⟩
  · rw [List.pairwise_map]
    refine List.Pairwise.imp_of_mem ?_ List.pairwise_lt_range
    intro i j _ hj hij
    exact hmono i j hij (List.mem_range.mp hj)
  · rw [List.head?_eq_getElem?]
    simp only [List.getElem?_map, List.getElem?_range hnm, Option.map_some, hT]
    simp [hp.first, gridPoint]
  · rw [List.getLast?_eq_getElem?]
    simp only [List.length_map, List.length_range, List.getElem?_map, List.getElem?_range (show n * m - 1 < n * m by omega), Option.map_some, hT]
    obtain ⟨q, rfl⟩ : ∃ q, m = q + 1 := ⟨m - 1, by omega⟩
    have hi1 : n * (q + 1) - 1 = n * q + (n - 1) := by rw [Nat.mul_succ]; omega
    rw [hi1, Nat.mul_add_div (by omega), Nat.div_eq_of_lt (show n - 1 < n by omega), Nat.mul_add_mod, Nat.mod_eq_of_lt (show n - 1 < n by omega), hp.last]
    congr 1
    unfold gridPoint
    push_cast
    field_simp
    ring
  · obtain ⟨v, e1, e2, e3, e4⟩ := key i hi
    refine ⟨T i, v, by simp [List.getElem?_range hi], e1, e2, e3, fun h h0 => ?_⟩
    rw [List.getElem?_map, List.getElem?_range (by omega), Option.map_some, e4 h h0]
  · have hval : ∀ i < n * m, ∃ v, Colloc.valueAt g i = .ok v ∧ g.value (T i) = .ok v := by
      intro i hi
      obtain ⟨v, e1, e2, e3, e4⟩ := key i hi
      by_cases h : i = 0 ∨ i % n ≠ 0
      · exact ⟨v, e1, e3 h⟩
      · rw [not_or, not_not] at h
        obtain ⟨v', e1', -, e3', -⟩ := key (i - 1) (by omega)
        have hj' := hj i hi h.1 h.2
        rw [e1, e1'] at hj'
        injection hj' with hj'
        subst hj'
        refine ⟨v, e1, ?_⟩
        rw [← e4 h.1 h.2]
        refine e3' (.inr ?_)
        have hdv := h.2
        intro hz
        have e5 := Nat.dvd_of_mod_eq_zero hdv
        have e6 := Nat.dvd_of_mod_eq_zero hz
        have : n ∣ 1 := by
          have := Nat.dvd_sub e5 e6
          rwa [show i - (i - 1) = 1 by omega] at this
        have := Nat.le_of_dvd (by norm_num) this
        omega
    choose! V hV1 hV2 using hval
    have hm' := mapM_ok (f := fun i => g.value (T i)) (g := V) (List.range (n * m)) fun i hi => hV2 i (List.mem_range.mp hi)
    refine ⟨(List.range (n * m)).map V, ?_, by simp, fun i hi => ⟨V i, by simp [List.getElem?_range hi], hV1 i hi⟩⟩
    unfold GSpline.values
    rw [List.mapM_map]
    exact hm'

/-- The hypotheses hold for a continuous spline with two nodes on each of two intervals; evaluated at the four times it gives its four values. -/
example (jp jw junk : Vec) : ∃ g l R, Colloc.mk (0, 2) 1 2 2 [1, 2, 2, 5] [1, 1] jp jw = .ok g ∧ Colloc.discretization g jp jw junk = .ok l ∧
    g.values l = .ok R ∧ R.length = 4 ∧ ∀ i < 4, ∃ v, R[i]? = some v ∧ Colloc.valueAt g i = .ok v := by
  obtain ⟨p, w, hpw, h0, h1, -⟩ := two_points jp jw
  have hmap : (List.range 2).map p = [-1, 1] := by simp [List.range_succ, h0, h1]
  set g : GSpline := ⟨(0, 2), 1, .lagrange [-1, 1], [1, 2, 2, 5], [1, 1]⟩ with hg
  have hc : Consistent g := by simp [Consistent, hg, Basis.dim]
  have hmk : Colloc.mk (0, 2) 1 2 2 [1, 2, 2, 5] [1, 1] jp jw = .ok g := by
    unfold Colloc.mk Colloc.glBasis
    rw [hpw]
    simp only [GLL.ok_bind]
    change GSpline.make _ _ _ (.lagrange ((List.range 2).map p)) _ _ = _
    rw [hmap, GSpline.make_ok (by norm_num) (by simp [Basis.dim])]
  obtain ⟨l, h2, -, -, -, -, -, h3⟩ := C80_discretization_partial g 2 2 (by norm_num) jp jw junk p w hpw (by rw [hmap]) hc (by norm_num [hg]) (by norm_num)
    (by simp [hg, List.replicate_succ])
  have hv1 : Colloc.valueAt g 1 = .ok [2] := by
    have := Colloc.valueAt_ok hc (iv := 0) (k := 1) (by simp [hg]) (by simp [hg, Basis.dim])
    simpa [hg, Basis.dim, nodalRow, nodal, vecOf] using this
  have hv2 : Colloc.valueAt g 2 = .ok [2] := by
    have := Colloc.valueAt_ok hc (iv := 1) (k := 0) (by simp [hg]) (by simp [hg, Basis.dim])
    simpa [hg, Basis.dim, nodalRow, nodal, vecOf] using this
  obtain ⟨R, h4, h5, h6⟩ := h3 (by
    intro i hi h0 hm
    have : i = 2 := by omega
    subst this
    rw [hv2, hv1])
  exact ⟨g, l, R, hmk, h2, h4, h5, h6⟩

/-- **C80**, approximations: `approximate(f, n, m)` evaluated at its `get_domain_discretization()` gives exactly the values of `f` there, which are also the
values `value_at(0)`, `value_at(1)`, ... -/
theorem C80_approximation (f : Fn) (n m : ℕ) (h2 : 2 ≤ n) (hn : n ≤ 44000) (hm : 0 < m) (jp jw junk junk' : Vec) (hd : f.dom.1 < f.dom.2)
    (he : ∀ t, f.dom.1 ≤ t → t ≤ f.dom.2 → ∃ r, f.call [t] = .ok [r]) :
    ∃ g l R, Colloc.approximate f n m jp jw junk = .ok g ∧ Colloc.discretization g jp jw junk' = .ok l ∧ l.length = n * m ∧
      f.call l = .ok R ∧ g.values l = .ok R ∧ R.length = n * m ∧ ∀ i < n * m, ∃ v, R[i]? = some v ∧ Colloc.valueAt g i = .ok v := by
  obtain ⟨p, w, g, hpw, hg, hv⟩ := C47_collocation f n m h2 hn jp jw junk hd he
  obtain ⟨-, hA⟩ := C47_approximate f n m jp jw junk p w hpw hd.le
  obtain ⟨e1, e2, e3, e4, e5, e6⟩ := hA g hg
  have hdim : g.basis.dim = n := by rw [e4]; simp [Basis.dim]
  have hlen : g.tau.length = m := by rw [e3]; simp
  have hdisc := discretization_ok (g := g) junk' hpw hdim
  rw [hlen, e1] at hdisc
  have hq : ∀ i < n * m, i / n < m ∧ i % n < n := fun i hi => ⟨Nat.div_lt_of_lt_mul hi, Nat.mod_lt _ (by omega)⟩
  have key : ∀ i < n * m, ∃ r, f.call [gridPoint f.dom m (i / n) (p (i % n))] = .ok [r] ∧ g.value (gridPoint f.dom m (i / n) (p (i % n))) = .ok r ∧
      Colloc.valueAt g i = .ok r := by
    intro i hi
    obtain ⟨a, b⟩ := hq i hi
    obtain ⟨r, h1, h3⟩ := hv _ a _ b
    obtain ⟨r', h1', h4⟩ := e6 _ a _ b
    rw [h1] at h1'
    injection h1' with h1'
    injection h1' with h1'
    subst h1'
    rw [Nat.div_add_mod'] at h4
    exact ⟨r, h1, h3, h4⟩
  choose! V hV1 hV2 hV3 using key
  refine ⟨g, _, (List.range (n * m)).map V, hg, hdisc, by simp, ?_, ?_, by simp, fun i hi => ⟨V i, by simp [List.getElem?_range hi], hV3 i hi⟩⟩
  · have hnm : 0 < n * m := Nat.mul_pos (by omega) hm
    rw [C10_row_wise f _ _ (by intro h; rw [List.map_eq_nil_iff, List.range_eq_nil] at h; omega)]
    rw [List.forall₂_map_left_iff, List.forall₂_map_right_iff, List.forall₂_same]
    exact fun i hi => hV1 i (List.mem_range.mp hi)
  · unfold GSpline.values
    rw [List.mapM_map]
    exact mapM_ok (f := fun i => g.value _) (g := V) (List.range (n * m)) fun i hi => hV2 i (List.mem_range.mp hi)

/-- The theorem applies: the sine on four intervals with ten points each. -/
example (jp jw junk junk' : Vec) : ∃ g l R, Colloc.approximate (sin (0, 2)) 10 4 jp jw junk = .ok g ∧ Colloc.discretization g jp jw junk' = .ok l ∧
    l.length = 40 ∧ (sin (0, 2)).call l = .ok R ∧ g.values l = .ok R ∧ R.length = 40 ∧ ∀ i < 40, ∃ v, R[i]? = some v ∧ Colloc.valueAt g i = .ok v :=
  C80_approximation (sin (0, 2)) 10 4 (by norm_num) (by norm_num) (by norm_num) jp jw junk junk' (by norm_num [dom])
    fun t _ _ => ⟨[Real.sin t], by simp [call, run, scalarRun, codim]⟩

/-- **C80 is false** for unequal intervals: a spline over `[0, 1]` and `[1, 3]` with two nodes on each, built by the constructor and continuous. The second
time is `3/2`, where the spline is not `value_at(1)`. -/
theorem C80_lengths_false (jp jw junk : Vec) : ∃ g l, Colloc.mk (0, 3) 1 2 2 [1, 2, 2, 5] [1, 2] jp jw = .ok g ∧ Consistent g ∧ Positive g ∧
    g.tau.sum = g.dom.2 - g.dom.1 ∧ Colloc.valueAt g 2 = Colloc.valueAt g 1 ∧ Colloc.discretization g jp jw junk = .ok l ∧
    l[1]? = some (3 / 2) ∧ Colloc.valueAt g 1 = .ok [2] ∧ g.value (3 / 2) = .ok [11 / 4] := by
  obtain ⟨p, w, hpw, h0, h1, -⟩ := two_points jp jw
  have hmap : (List.range 2).map p = [-1, 1] := by simp [List.range_succ, h0, h1]
  set g : GSpline := ⟨(0, 3), 1, .lagrange [-1, 1], [1, 2, 2, 5], [1, 2]⟩ with hg
  have hc : Consistent g := by simp [Consistent, hg, Basis.dim]
  have hp : Positive g := ⟨by simp [hg], by simp [hg]⟩
  have hmk : Colloc.mk (0, 3) 1 2 2 [1, 2, 2, 5] [1, 2] jp jw = .ok g := by
    unfold Colloc.mk Colloc.glBasis
    rw [hpw]
    simp only [GLL.ok_bind]
    change GSpline.make _ _ _ (.lagrange ((List.range 2).map p)) _ _ = _
    rw [hmap, GSpline.make_ok (by norm_num) (by simp [Basis.dim])]
  have hsep : Separated 2 (vecOf [-1, 1]) := by
    have := (gll_nodes (by norm_num) hpw).sep
    rw [← hmap]
    exact separated_congr (fun k hk => (vecOf_map_range hk).symm) this
  have hdisc := discretization_ok (g := g) junk hpw (by simp [hg, Basis.dim])
  have hv1 : Colloc.valueAt g 1 = .ok [2] := by
    have := Colloc.valueAt_ok hc (iv := 0) (k := 1) (by simp [hg]) (by simp [hg, Basis.dim])
    simpa [hg, Basis.dim, nodalRow, nodal, vecOf] using this
  have hv2 : Colloc.valueAt g 2 = .ok [2] := by
    have := Colloc.valueAt_ok hc (iv := 1) (k := 0) (by simp [hg]) (by simp [hg, Basis.dim])
    simpa [hg, Basis.dim, nodalRow, nodal, vecOf] using this
  refine ⟨g, _, hmk, hc, hp, by norm_num [hg], by rw [hv1, hv2], hdisc, ?_, hv1, ?_⟩
  · simp [hg, gridPoint, h1]
  · have hl : Located g (3 / 2) 1 := ⟨by simp [hg], .inr (.inl ⟨by norm_num [brk, hg], by norm_num [brk, hg]⟩)⟩
    have hw : window (vecOf g.tau 1) (3 / 2 - brk g 1) = -1 / 2 := by norm_num [window, brk, hg, vecOf]
    obtain ⟨v, hv, hlen, hvc⟩ := C12_value g hsep hc hp _ 1 hl (by
      rw [hw]
      intro j hj e
      have hj : j < 2 := hj
      exfalso
      revert e
      interval_cases j <;> norm_num [Lagrange.almostEqual, vecOf, tol9, hg])
    have h0 := hvc 0 (by simp [hg])
    have hlen : v.length = 1 := hlen
    match v, hlen, h0 with
    | [x], _, h0 =>
      simp only [List.getElem?_cons_zero, Option.some.injEq] at h0
      rw [hv, h0]
      unfold curve piece comb
      simp only [hg, Basis.dim, List.length_cons, List.length_nil, sum_range_succ, sum_range_zero, basisFn]
      have : window (vecOf [1, 2] 1) (3 / 2 - brk g 1) = -1 / 2 := hw
      rw [← hg, this]
      have b0 : (_root_.Lagrange.basis (range 2) (vecOf [-1, 1]) 0).eval (-1 / 2) = 3 / 4 := by
        rw [_root_.Lagrange.basis, show (range 2).erase 0 = {1} by decide]
        norm_num [_root_.Lagrange.basisDivisor, vecOf]
      have b1 : (_root_.Lagrange.basis (range 2) (vecOf [-1, 1]) 1).eval (-1 / 2) = 1 / 4 := by
        rw [_root_.Lagrange.basis, show (range 2).erase 1 = {0} by decide]
        norm_num [_root_.Lagrange.basisDivisor, vecOf]
      simp only [zero_add, Nat.reduceAdd]
      rw [b0, b1]
      norm_num [vecOf]

/-- **C80 is false** for splines over another basis, which the conversion from `GSpline` accepts: for the Legendre polynomials `value_at` returns coefficients. -/
theorem C80_basis_false (jp jw junk : Vec) : ∃ g l, GSpline.make (0, 1) 1 1 (.legendre 2) [1, 2] [1] = .ok g ∧ Colloc.ofGSpline g = .ok g ∧
    Colloc.discretization g jp jw junk = .ok l ∧ l[0]? = some 0 ∧ Colloc.valueAt g 0 = .ok [1] ∧ g.value 0 = .ok [-1] := by
  obtain ⟨p, w, hpw, h0, h1, -⟩ := two_points jp jw
  set g : GSpline := ⟨(0, 1), 1, .legendre 2, [1, 2], [1]⟩ with hg
  have hc : Consistent g := by simp [Consistent, hg, Basis.dim]
  have hp : Positive g := ⟨by simp [hg], by simp [hg]⟩
  have hdisc := discretization_ok (g := g) junk hpw (by simp [hg, Basis.dim])
  refine ⟨g, _, GSpline.make_ok (by norm_num) (by simp [Basis.dim]), GSpline.copy_ok hc, hdisc, ?_, ?_, ?_⟩
  · simp [hg, gridPoint, h0]
  · have := Colloc.valueAt_ok hc (iv := 0) (k := 0) (by simp [hg]) (by simp [hg, Basis.dim])
    simpa [hg, Basis.dim, nodalRow, nodal, vecOf] using this
  · have hl : Located g 0 0 := ⟨by simp [hg], .inl ⟨by simp [hg, brk], rfl⟩⟩
    obtain ⟨v, hv, hlen, hvc⟩ := C12_value g (by simp [hg, Basis.Valid]) hc hp _ 0 hl (by trivial)
    have h0 := hvc 0 (by simp [hg])
    have hlen : v.length = 1 := hlen
    match v, hlen, h0 with
    | [x], _, h0 =>
      simp only [List.getElem?_cons_zero, Option.some.injEq] at h0
      rw [hv, h0]
      norm_num [curve, piece, comb, basisFn, hg, Basis.dim, sum_range_succ, vecOf, Spec.legendre, window, brk]

end GSplines.Props
