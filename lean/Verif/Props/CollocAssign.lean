import Verif.Props.CollocOps

/-!
# C58: assignment to collocation splines
-/

namespace GSplines.Props

open GSplines Spec Finset Fn

/-! ## Assignment of a function -/

theorem sum_scaled {l : List ℝ} (h : l.sum ≠ 0) (x : ℝ) : (l.map (· * (x / l.sum))).sum = x := by
  rw [List.sum_map_mul_right]
  simp only [List.map_id']
  field_simp

/-- **C58.** `s = f`, where `s` has `n` nodes `p` per interval: `std::invalid_argument` exactly if the numbers of components differ. -/
theorem C58_assign_function_codim (a : GSpline) (f : Fn) (h : a.codim ≠ f.codim) : Colloc.assignFn a f = .error .invalidArgument := if_pos h

/-- **C58.** `s = f` with equal numbers of components succeeds exactly if `f` can be evaluated at all nodes of the result. The result has the domain of `f`, its
interval lengths are the old ones, scaled to the length of the domain, and the stored value at every node is the value of `f` there. -/
theorem C58_assign_function (a : GSpline) (f : Fn) (n : ℕ) (p : Vec) (hn : 0 < n) (hb : a.basis = .lagrange ((List.range n).map p)) (hc : Consistent a) (hs : a.tau.sum ≠ 0)
    (hcod : a.codim = f.codim) :
    let shape : GSpline := { a with dom := f.dom, tau := a.tau.map (· * ((f.dom.2 - f.dom.1) / a.tau.sum)) }
    shape.tau.sum = f.dom.2 - f.dom.1 ∧
    ((∃ r, Colloc.assignFn a f = .ok r) ↔ ∀ iv < a.tau.length, ∀ k < n, ∃ v, f.call [nodeTime shape p iv k] = .ok [v]) ∧
    ∀ r, Colloc.assignFn a f = .ok r → Consistent r ∧ (∃ co, r = { shape with coeffs := co }) ∧
      ∀ iv < a.tau.length, ∀ k < n, ∃ v, f.call [nodeTime r p iv k] = .ok [v] ∧ Colloc.valueAt r (iv * n + k) = .ok v := by
  intro shape
  have hdim : a.basis.dim = n := by rw [hb]; simp [Basis.dim]
  have hpar : a.basis.params = (List.range n).map p := by rw [hb]; rfl
  have hbody : ∀ iv < a.tau.length, ∀ v : Vec, (do
      let rows ← f.run a.codim (a.basis.params.map fun x => (x + 1) * vecOf shape.tau iv / 2 + brk shape iv)
      if a.coeffs.length < iv * a.basis.dim * a.codim + a.basis.dim * a.codim then .error .ub
      else return (Colloc.storeBlock a.basis.dim a.codim iv rows v, brk shape iv + vecOf shape.tau iv) : Res (Vec × ℝ)) = (do
      let rows ← f.run f.codim ((List.range n).map fun k => nodeTime shape p iv k)
      return (Colloc.storeBlock n f.codim iv rows v, brk shape (iv + 1))) := by
    intro iv hiv v
    rw [hpar, List.map_map]
    have hpts : (List.range n).map ((fun x => (x + 1) * vecOf shape.tau iv / 2 + brk shape iv) ∘ p) = (List.range n).map fun k => nodeTime shape p iv k := by
      refine List.map_congr_left fun k _ => ?_
      unfold nodeTime
      dsimp only [Function.comp]; ring
    have hlen : ¬ a.coeffs.length < iv * a.basis.dim * a.codim + a.basis.dim * a.codim := by
      rw [hc]
      have h : (iv + 1) * (a.basis.dim * a.codim) ≤ a.tau.length * (a.basis.dim * a.codim) := Nat.mul_le_mul_right _ hiv
      rw [Nat.succ_mul] at h
      rw [Nat.mul_assoc, Nat.mul_assoc]
      omega
    simp only [hpts, if_neg hlen]
    rw [← GSpline.brk_succ shape (by simpa [shape] using hiv), hdim, hcod]
  have good : (∀ iv < a.tau.length, ∀ k < n, ∃ v, f.call [nodeTime shape p iv k] = .ok [v]) →
      ∃ r, Colloc.assignFn a f = .ok r ∧ Consistent r ∧ (∃ co, r = { shape with coeffs := co }) ∧
      ∀ iv < a.tau.length, ∀ k < n, ∃ v, f.call [nodeTime r p iv k] = .ok [v] ∧ Colloc.valueAt r (iv * n + k) = .ok v := by
    intro hev
    have : ∀ iv < a.tau.length, ∃ rows, f.run f.codim ((List.range n).map fun k => nodeTime shape p iv k) = .ok rows :=
      fun iv hiv => (rows_iff hn _).mpr (hev iv hiv)
    choose! R hR using this
    obtain ⟨w, h1, h2, -⟩ := Colloc.blocks_spec n f.codim a.tau.length R (fun iv (st : Vec × ℝ) => do
        let rows ← f.run a.codim (a.basis.params.map fun x => (x + 1) * vecOf shape.tau iv / 2 + st.2)
        if a.coeffs.length < iv * a.basis.dim * a.codim + a.basis.dim * a.codim then .error .ub
        else return (Colloc.storeBlock a.basis.dim a.codim iv rows st.1, st.2 + vecOf shape.tau iv)) (vecOf a.coeffs) f.dom.1 (fun iv => brk shape iv)
      (GSpline.brk_zero shape) (fun iv hiv v => by
        dsimp only
        rw [hbody iv hiv v, hR iv hiv]; rfl)
    have hcon : Consistent { shape with coeffs := (List.range a.coeffs.length).map w } := by
      unfold Consistent
      simp only [List.length_map, List.length_range, shape]
      exact hc
    refine ⟨{ shape with coeffs := (List.range a.coeffs.length).map w }, ?_, hcon, ⟨_, rfl⟩, fun iv hiv k hk => ⟨_, rows_entry (hR iv hiv) hk, ?_⟩⟩
    · unfold Colloc.assignFn
      rw [if_neg (not_not.mpr hcod), if_neg hs]
      dsimp only [shape] at h1 ⊢
      rw [h1]; rfl
    · have := Colloc.valueAt_ok hcon (iv := iv) (k := k) (by simpa [shape] using hiv) (by dsimp only [shape]; rw [hdim]; exact hk)
      dsimp only [shape] at this
      rw [hdim] at this
      rw [this]
      have hlen : ((R iv).getD k []).length = f.codim := by
        have h2 := rows_entry (hR iv hiv) hk
        exact (C10_shape f _ _ h2).2 _ (by simp)
      rw [eq_map_range hlen]
      congr 1
      unfold nodalRow
      dsimp only
      rw [hcod]
      refine List.map_congr_left fun c hcc => ?_
      rw [List.mem_range] at hcc
      unfold nodal
      dsimp only
      have hb2 := Colloc.idx_lt hiv (Colloc.col_lt hcc hk)
      rw [hdim, Nat.add_assoc, vecOf_map_range, h2 iv hiv _ (Colloc.col_lt hcc hk), Colloc.entry_col hk]
      · rfl
      · rw [hc, hdim, hcod]; exact hb2
  have bad : (¬ ∀ iv < a.tau.length, ∀ k < n, ∃ v, f.call [nodeTime shape p iv k] = .ok [v]) → ∀ g, Colloc.assignFn a f ≠ .ok g := by
    intro hcon g hg
    have key : ∀ m ≤ a.tau.length, (∃ iv < m, ∃ k < n, ∀ v, f.call [nodeTime shape p iv k] ≠ .ok [v]) → ∃ e, forLoopM 0 m (fun iv (st : Vec × ℝ) => do
        let rows ← f.run a.codim (a.basis.params.map fun x => (x + 1) * vecOf shape.tau iv / 2 + st.2)
        if a.coeffs.length < iv * a.basis.dim * a.codim + a.basis.dim * a.codim then .error .ub
        else return (Colloc.storeBlock a.basis.dim a.codim iv rows st.1, st.2 + vecOf shape.tau iv)) (vecOf a.coeffs, f.dom.1) = .error e := by
      intro m hm
      induction m with
      | zero => rintro ⟨iv, h, -⟩; omega
      | succ m ih =>
        rintro ⟨iv, hiv, k, hk, hv⟩
        rw [Colloc.forLoopM_succ]
        by_cases hprev : ∃ iv < m, ∃ k < n, ∀ v, f.call [nodeTime shape p iv k] ≠ .ok [v]
        · obtain ⟨e, he⟩ := ih (by omega) hprev
          exact ⟨e, by rw [he]; rfl⟩
        · have hiv' : iv = m := by
            by_contra h
            exact hprev ⟨iv, by omega, k, hk, hv⟩
          subst hiv'
          have hev : ∀ iv' < iv, ∃ rows, f.run f.codim ((List.range n).map fun k => nodeTime shape p iv' k) = .ok rows := by
            intro iv' h'
            refine (rows_iff hn _).mpr fun k' hk' => ?_
            by_contra hc'
            push Not at hc'
            exact hprev ⟨iv', h', k', hk', hc'⟩
          choose! R hR using hev
          obtain ⟨w, h1, -, -⟩ := Colloc.blocks_spec n f.codim iv R (fun iv (st : Vec × ℝ) => do
            let rows ← f.run a.codim (a.basis.params.map fun x => (x + 1) * vecOf shape.tau iv / 2 + st.2)
            if a.coeffs.length < iv * a.basis.dim * a.codim + a.basis.dim * a.codim then .error .ub
            else return (Colloc.storeBlock a.basis.dim a.codim iv rows st.1, st.2 + vecOf shape.tau iv)) (vecOf a.coeffs) f.dom.1 (fun iv => brk shape iv)
            (GSpline.brk_zero shape) (fun iv' hiv' v => by
              dsimp only
              rw [hbody iv' (by omega) v, hR iv' hiv']; rfl)
          rw [h1, GLL.ok_bind]
          dsimp only
          rw [hbody iv (by omega)]
          cases hrun : f.run f.codim ((List.range n).map fun k => nodeTime shape p iv k) with
          | ok rows =>
            obtain ⟨v, hv'⟩ := (rows_iff hn _).mp ⟨rows, hrun⟩ k hk
            exact absurd hv' (hv v)
          | error e => exact ⟨e, rfl⟩
    push Not at hcon
    obtain ⟨e, he⟩ := key _ le_rfl hcon
    unfold Colloc.assignFn at hg
    rw [if_neg (not_not.mpr hcod), if_neg hs] at hg
    dsimp only [shape] at he hg
    rw [he] at hg
    cases hg
  refine ⟨sum_scaled hs _, ⟨?_, fun h => ?_⟩, fun g hg => ?_⟩
  · rintro ⟨g, hg⟩
    by_contra hcon
    exact bad hcon g hg
  · obtain ⟨g, hg, -⟩ := good h
    exact ⟨g, hg⟩
  · by_cases hev : ∀ iv < a.tau.length, ∀ k < n, ∃ v, f.call [nodeTime shape p iv k] = .ok [v]
    · obtain ⟨g', hg', h⟩ := good hev
      rw [hg'] at hg
      injection hg with hg
      subst hg
      exact h
    · exact absurd hg (bad hev g)

/-! ## Assignment of a spline -/

/-- **C58.** `s = other`: `std::invalid_argument` exactly if the numbers of nodes, intervals or components differ. Otherwise the spline has the domain and the
coefficients of the other one and keeps its own basis and interval lengths. -/
theorem C58_assign (a b : GSpline) :
    (Colloc.assign a b = .error .invalidArgument ↔ ¬ (a.basis.dim = b.basis.dim ∧ a.tau.length = b.tau.length ∧ a.codim = b.codim)) ∧
    ((a.basis.dim = b.basis.dim ∧ a.tau.length = b.tau.length ∧ a.codim = b.codim) → ∃ r, Colloc.assign a b = .ok r ∧ r.dom = b.dom ∧ r.coeffs = b.coeffs ∧
      r.basis = a.basis ∧ r.codim = a.codim ∧ r.tau = a.tau) := by
  have good : (a.basis.dim = b.basis.dim ∧ a.tau.length = b.tau.length ∧ a.codim = b.codim) →
      Colloc.assign a b = .ok { a with dom := b.dom, coeffs := b.coeffs } := by
    rintro ⟨h1, h2, h3⟩
    unfold Colloc.assign
    rw [if_neg (not_not.mpr ⟨h1, h2⟩), if_neg (not_not.mpr h3)]
  refine ⟨⟨fun h hcon => ?_, fun h => ?_⟩, fun h => ⟨_, good h, rfl, rfl, rfl, rfl, rfl⟩⟩
  · rw [good hcon] at h; cases h
  · unfold Colloc.assign
    by_cases h1 : a.basis.dim = b.basis.dim ∧ a.nIntervals = b.nIntervals
    · rw [if_neg (not_not.mpr h1)]
      by_cases h2 : a.codim = b.codim
      · exact absurd ⟨h1.1, h1.2, h2⟩ h
      · rw [if_pos h2]
    · rw [if_pos h1]

/-- **C58**, for splines with the same basis and interval lengths: the assigned spline is the other one. Missing: other lengths
(`C58_assign_lengths_false`). -/
theorem C58_assign_partial (a b : GSpline) (h1 : a.basis = b.basis) (h2 : a.codim = b.codim) (h3 : a.tau = b.tau) : Colloc.assign a b = .ok b := by
  unfold Colloc.assign GSpline.nIntervals
  rw [if_neg (not_not.mpr ⟨by rw [h1], by rw [h3]⟩), if_neg (not_not.mpr h2), h1, h2, h3]

/-- **C58 is false:** the assigned spline is not the other one, because the interval lengths are not assigned: on `[0, 2]` the value at `1/2` differs,
and after the assignment of a spline on `[0, 4]` the lengths do not add up to the domain. -/
theorem C58_assign_lengths_false : ∃ a b r s t : GSpline, Consistent a ∧ Consistent b ∧ Consistent s ∧ Positive a ∧ Positive b ∧ Positive s ∧
    Colloc.assign a b = .ok r ∧ b.value 1 = .ok [1] ∧ r.value 1 = .ok [2] ∧
    s.tau.sum = s.dom.2 - s.dom.1 ∧ a.tau.sum = a.dom.2 - a.dom.1 ∧ Colloc.assign a s = .ok t ∧ t.tau.sum ≠ t.dom.2 - t.dom.1 := by
  set a : GSpline := ⟨(0, 4), 1, .lagrange [-1, 1], [0, 0, 0, 0, 0, 0], [1 / 2, 1 / 2, 3]⟩ with ha
  set b : GSpline := ⟨(0, 4), 1, .lagrange [-1, 1], [0, 1, 1, 2, 2, 3], [1, 1, 2]⟩ with hb
  set r : GSpline := ⟨(0, 4), 1, .lagrange [-1, 1], [0, 1, 1, 2, 2, 3], [1 / 2, 1 / 2, 3]⟩ with hr
  have hcb : Consistent b := by simp [Consistent, Basis.dim, hb]
  have hcr : Consistent r := by simp [Consistent, Basis.dim, hr]
  have hpa : Positive a := ⟨by simp [ha], by norm_num [ha]⟩
  have hpb : Positive b := ⟨by simp [hb], by simp [hb]⟩
  have hpr : Positive r := ⟨by simp [hr], by norm_num [hr]⟩
  refine ⟨a, b, r, ⟨(0, 8), 1, .lagrange [-1, 1], [0, 0, 0, 0, 0, 0], [2, 2, 4]⟩, ⟨(0, 8), 1, .lagrange [-1, 1], [0, 0, 0, 0, 0, 0], [1 / 2, 1 / 2, 3]⟩,
    by simp [Consistent, Basis.dim, ha], hcb, by simp [Consistent, Basis.dim], hpa, hpb, ⟨by simp, by norm_num⟩,
    by simp [Colloc.assign, GSpline.nIntervals, ha, hb, hr], ?_, ?_, by norm_num, by norm_num [ha], by simp [Colloc.assign, GSpline.nIntervals, ha], by norm_num⟩
  · obtain ⟨v, b1, -, b2, -⟩ := C47_value_at b 2 _ two_basis two_nodes hcb hpb 0 1 (by simp [hb]) (by norm_num)
    have e : Colloc.valueAt b (0 * 2 + 1) = .ok (nodalRow b 0 1) := Colloc.valueAt_ok (g := b) hcb (iv := 0) (k := 1) (by simp [hb]) (by simp [hb, Basis.dim])
    rw [b1] at e
    injection e with e
    have := b2 (.inl rfl)
    rw [show nodeTime b (vecOf [-1, 1]) 0 1 = 1 by norm_num [nodeTime, brk, hb, vecOf]] at this
    rw [this, e]; simp [nodalRow, nodal, hb, vecOf, Basis.dim]
  · obtain ⟨v, b1, -, b2, -⟩ := C47_value_at r 2 _ two_basis two_nodes hcr hpr 1 1 (by simp [hr]) (by norm_num)
    have e : Colloc.valueAt r (1 * 2 + 1) = .ok (nodalRow r 1 1) := Colloc.valueAt_ok (g := r) hcr (iv := 1) (k := 1) (by simp [hr]) (by simp [hr, Basis.dim])
    rw [b1] at e
    injection e with e
    have := b2 (.inr (by norm_num))
    rw [show nodeTime r (vecOf [-1, 1]) 1 1 = 1 by norm_num [nodeTime, brk, hr, vecOf]] at this
    rw [this, e]; simp [nodalRow, nodal, hr, vecOf, Basis.dim]

/-! ## Assignment of an array -/

theorem write_row {n : ℕ} (i0 d k : ℕ) (hk : k < d) (F : ℕ → ℝ) (v : Vec) (x : ℕ) :
    forLoop 0 n (fun c v => setAt v (i0 + c * d + k) (F c)) v x = if ∃ c < n, x = i0 + c * d + k then F ((x - i0) / d) else v x := by
  refine forLoop_ind (fun j s => ∀ x, s x = if ∃ c < j, x = i0 + c * d + k then F ((x - i0) / d) else v x) (Nat.zero_le n) _ v (by simp) ?_ x
  rintro j s - hj ih x
  by_cases hx : x = i0 + j * d + k
  · have hd : (x - i0) / d = j := by
      rw [hx, Nat.add_assoc, Nat.add_sub_cancel_left]; exact (Colloc.node_div hk).1
    rw [if_pos ⟨j, by omega, hx⟩, hd, hx, setAt_self]
  · rw [setAt_ne _ _ (by omega), ih]
    by_cases he : ∃ c < j, x = i0 + c * d + k
    · rw [if_pos he, if_pos]
      obtain ⟨c, h1, h2⟩ := he
      exact ⟨c, by omega, h2⟩
    · rw [if_neg he, if_neg]
      rintro ⟨c, h1, h2⟩
      rcases Nat.lt_succ_iff_lt_or_eq.mp h1 with h | rfl
      · exact he ⟨c, h, h2⟩
      · exact hx h2

/-- **C58.** `set_from_array(domain, begin, end, fun)`: `std::runtime_error` exactly if the number of vectors is not the number of nodes. If all vectors have
the right size, the nodal values are the vectors and the intervals are scaled to the domain. Missing: an exception if a vector has another size
(`C58_set_from_array_false`). -/
theorem C58_set_from_array_partial (a : GSpline) (dom : ℝ × ℝ) (vs : List (List ℝ)) (hc : Consistent a) (hs : a.tau.sum ≠ 0) :
    (vs.length ≠ a.basis.dim * a.tau.length → Colloc.setFromArray a dom vs = .error .runtimeError) ∧
    (vs.length = a.basis.dim * a.tau.length → (∀ v ∈ vs, v.length = a.codim) → ∃ r, Colloc.setFromArray a dom vs = .ok r ∧ Consistent r ∧ r.dom = dom ∧
      r.tau = a.tau.map (· * ((dom.2 - dom.1) / a.tau.sum)) ∧ r.tau.sum = dom.2 - dom.1 ∧ r.basis = a.basis ∧ r.codim = a.codim ∧
      ∀ i (hi : i < vs.length), Colloc.valueAt r i = .ok vs[i]) := by
  refine ⟨fun h => if_pos h, fun h hv => ?_⟩
  set d := a.basis.dim with hd
  have key : ∀ m ≤ vs.length, ∃ w, forLoopM 0 m (fun i v =>
      let vec := vs.getD i []
      let iv := i / d
      if vec.length ≠ a.codim then Except.error Err.ub
      else if a.nIntervals ≤ iv then .error .invalidArgument
      else if a.coeffs.length < iv * (d * a.codim) + d * a.codim then .error .ub
      else .ok (forLoop 0 a.codim (fun c v => setAt v (iv * (d * a.codim) + c * d + i % d) (vec.getD c 0)) v)) (vecOf a.coeffs) = .ok w ∧
      ∀ iv c k, c < a.codim → k < d → iv * d + k < m → w (iv * (d * a.codim) + c * d + k) = (vs.getD (iv * d + k) []).getD c 0 := by
    intro m
    induction m with
    | zero => intro _; exact ⟨_, rfl, by simp⟩
    | succ m ih =>
      intro hm
      obtain ⟨w, h1, h2⟩ := ih (by omega)
      rw [Colloc.forLoopM_succ, h1, GLL.ok_bind]
      have hlen : (vs.getD m []).length = a.codim := by
        rw [List.getD_eq_getElem?_getD, List.getElem?_eq_getElem (by omega)]
        exact hv _ (List.getElem_mem _)
      obtain ⟨iv, hiv, k, hk, hmk⟩ := index_split (d := d) (n := a.tau.length) (i := m) (by omega)
      obtain ⟨q1, q2⟩ := Colloc.node_div (iv := iv) hk
      rw [← hmk] at q1 q2
      have hb : iv * (d * a.codim) + d * a.codim ≤ a.coeffs.length := by
        rw [hc, Nat.mul_assoc]
        have h : (iv + 1) * (d * a.codim) ≤ a.tau.length * (d * a.codim) := Nat.mul_le_mul_right _ hiv
        rw [Nat.succ_mul] at h
        exact h
      dsimp only
      rw [q1, q2, if_neg (not_not.mpr hlen), if_neg (by show ¬ a.tau.length ≤ iv; omega), if_neg (by omega)]
      refine ⟨_, rfl, fun iv' c' k' hc' hk' hlt => ?_⟩
      rw [write_row _ _ _ hk]
      by_cases hsame : iv' = iv ∧ k' = k
      · obtain ⟨rfl, rfl⟩ := hsame
        rw [if_pos ⟨c', hc', rfl⟩, ← hmk, Nat.add_assoc, Nat.add_sub_cancel_left, (Colloc.node_div hk).1]
      · rw [if_neg, h2 iv' c' k' hc' hk']
        · rcases Nat.lt_succ_iff_lt_or_eq.mp hlt with h' | h'
          · exact h'
          · exfalso
            obtain ⟨t1, t2⟩ := Colloc.node_div (iv := iv') hk'
            rw [h'] at t1 t2
            exact hsame ⟨by omega, by omega⟩
        · rintro ⟨c, hcc, he⟩
          have e1 : ((iv' * a.codim + c') * d + k') = ((iv * a.codim + c) * d + k) := by
            rw [Nat.add_mul, Nat.add_mul]
            calc iv' * a.codim * d + c' * d + k' = iv' * (d * a.codim) + c' * d + k' := by ring
              _ = iv * (d * a.codim) + c * d + k := he
              _ = _ := by ring
          obtain ⟨t1, t2⟩ := Colloc.node_div (iv := iv' * a.codim + c') hk'
          rw [e1] at t1 t2
          obtain ⟨t3, t4⟩ := Colloc.node_div (iv := iv * a.codim + c) hk
          rw [t3] at t1
          rw [t4] at t2
          obtain ⟨t5, -⟩ := Colloc.node_div (iv := iv') hc'
          obtain ⟨t6, -⟩ := Colloc.node_div (iv := iv) hcc
          rw [t1] at t6
          exact hsame ⟨by omega, t2.symm⟩
  obtain ⟨w, h1, h2⟩ := key _ le_rfl
  have hcon : Consistent { a with dom := dom, tau := a.tau.map (· * ((dom.2 - dom.1) / a.tau.sum)), coeffs := (List.range a.coeffs.length).map w } := by
    unfold Consistent; simp only [List.length_map, List.length_range]; exact hc
  refine ⟨_, ?_, hcon, rfl, rfl, sum_scaled hs _, rfl, rfl, fun i hi => ?_⟩
  · unfold Colloc.setFromArray
    rw [if_neg (not_not.mpr h), if_neg hs]
    dsimp only at h1 ⊢
    rw [h1]; rfl
  · obtain ⟨iv, hiv, k, hk, hmk⟩ := index_split (d := d) (n := a.tau.length) (i := i) (by omega)
    have := Colloc.valueAt_ok hcon (iv := iv) (k := k) (by simpa using hiv) hk
    subst hmk
    dsimp only at this
    rw [this]
    have hvl : (vs.getD (iv * d + k) []).length = a.codim := by
      rw [List.getD_eq_getElem?_getD, List.getElem?_eq_getElem (by omega)]
      exact hv _ (List.getElem_mem _)
    have hvg : vs.getD (iv * d + k) [] = vs[iv * d + k]'(by omega) := by
      rw [List.getD_eq_getElem?_getD, List.getElem?_eq_getElem (by omega)]; rfl
    rw [← hvg, eq_map_range hvl]
    congr 1
    unfold nodalRow
    refine List.map_congr_left fun c hcc => ?_
    rw [List.mem_range] at hcc
    have hcb : iv * d * a.codim + d * c + d ≤ a.coeffs.length := GSpline.coef_bound hc hiv hcc
    rw [← h2 iv c k hcc hk (by omega)]
    unfold nodal
    dsimp only
    rw [← hd, vecOf_map_range (by omega)]
    congr 1
    ring

/-- **C58 is false:** a vector of another size reaches an assignment of incompatible shapes instead of an exception; the checks do not throw. -/
theorem C58_set_from_array_false : Colloc.setFromArray exNodesA (0, 1) [[1], [1], [1, 2], [1]] = .error .ub := by
  unfold Colloc.setFromArray
  rw [if_neg (by simp [exNodesA, Basis.dim, GSpline.nIntervals]), if_neg (by norm_num [exNodesA])]
  rw [show ([[1], [1], [1, 2], [1]] : List (List ℝ)).length = 4 by rfl, Colloc.forLoopM_succ, Colloc.forLoopM_succ, Colloc.forLoopM_succ, Colloc.forLoopM_succ]
  norm_num [exNodesA, Basis.dim, GSpline.nIntervals, forLoopM, bind, Except.bind, pure, Except.pure]

/-! ## Examples -/

/-- `t ↦ 3 t` on `[0, 6]` is assigned to a spline on `[0, 3]` with intervals `1` and `2`: the intervals become `2` and `4`. -/
example : ∃ r, Colloc.assignFn exNodesA (dil (0, 6) 3) = .ok r ∧ r.tau = [2, 4] ∧ r.dom = (0, 6) ∧ Colloc.valueAt r 3 = .ok [18] := by
  have hs : exNodesA.tau.sum ≠ 0 := by norm_num [exNodesA]
  obtain ⟨-, h2, h3⟩ := C58_assign_function exNodesA (dil (0, 6) 3) 2 _ (by norm_num) two_basis exNodesA_consistent hs rfl
  obtain ⟨r, hr⟩ := h2.mpr fun iv _ k _ => ⟨_, dil_call _ _ _⟩
  obtain ⟨-, ⟨co, hco⟩, hv⟩ := h3 r hr
  obtain ⟨v, v1, v2⟩ := hv 1 (by simp [exNodesA]) 1 (by norm_num)
  have ht : r.tau = [2, 4] := by rw [hco]; norm_num [exNodesA, dom]
  have hd : r.dom = (0, 6) := by rw [hco]; rfl
  refine ⟨r, hr, ht, hd, ?_⟩
  rw [dil_call] at v1
  injection v1 with v1
  injection v1 with v1
  rw [v2, ← v1]
  norm_num [nodeTime, brk, ht, hd, vecOf]

example : ∃ r, Colloc.setFromArray exNodesB (0, 6) [[1, 2], [3, 4], [5, 6], [7, 8]] = .ok r ∧ r.tau.sum = 6 ∧ Colloc.valueAt r 2 = .ok [5, 6] := by
  obtain ⟨r, hr, -, -, -, h5, -, -, h6⟩ := (C58_set_from_array_partial exNodesB (0, 6) [[1, 2], [3, 4], [5, 6], [7, 8]] exNodesB_consistent (by norm_num [exNodesB])).2
    (by simp [exNodesB, Basis.dim]) (by simp [exNodesB])
  exact ⟨r, hr, by rw [h5]; norm_num, h6 2 (by simp)⟩

end GSplines.Props
