import Verif.Proofs.SobolevState

/-! # The gradient of the Sobolev cost -/

namespace GSplines.Sobolev

open GSplines Spec Finset Interp

theorem forLoopM_total {σ : Type} (P : ℕ → σ → Prop) {a b : ℕ} (hab : a ≤ b) (body : ℕ → σ → Res σ) {s : σ} (h0 : P a s)
    (hs : ∀ i, a ≤ i → i < b → ∀ st, P i st → ∃ st', body i st = .ok st' ∧ P (i + 1) st') : ∃ r, forLoopM a b body s = .ok r ∧ P b r := by
  unfold forLoopM
  obtain ⟨d, rfl⟩ : ∃ d, b = a + d := ⟨b - a, by omega⟩
  rw [show a + d - a = d by omega]
  clear hab
  induction d generalizing a s with
  | zero => exact ⟨s, rfl, h0⟩
  | succ d ih =>
    simp only [List.range'_succ, List.foldlM_cons]
    obtain ⟨s1, h1, h2⟩ := hs a le_rfl (by omega) s h0
    rw [h1, Interp.ok_bind, show a + (d + 1) = a + 1 + d by omega]
    exact ih h2 (fun i h3 h4 => hs i (by omega) (by omega))

theorem vecOf_set {l : List ℝ} {i : ℕ} (hi : i < l.length) (z : ℝ) : vecOf (l.set i z) = Function.update (vecOf l) i z := by
  funext k
  unfold vecOf
  by_cases h : k = i
  · subst h
    rw [Function.update_self, List.getD_eq_getElem?_getD, List.getElem?_set_self (by simpa using hi)]
    rfl
  · rw [Function.update_of_ne h, List.getD_eq_getElem?_getD, List.getElem?_set_ne (Ne.symm h), ← List.getD_eq_getElem?_getD]

open Classical in
/-- The coefficients of the interpolating spline for given lengths. -/
noncomputable def sol (b : Basis) (n codim : ℕ) (w : ℕ → ℕ → ℝ) (tau : Vec) : Vec :=
  if h : ∃ y, Interpolates b n codim tau w y then h.choose else fun _ => 0

theorem sol_spec {b : Basis} (hb : Interpolable b) {n codim : ℕ} (hn : 0 < n) {w : ℕ → ℕ → ℝ} {tau : Vec} (ht : ∀ i < n, 0 < tau i) :
    Interpolates b n codim tau w (sol b n codim w tau) ∧ ∀ z, Interpolates b n codim tau w z → ∀ k < b.dim * codim * n, z k = sol b n codim w tau k := by
  obtain ⟨y, h1, h2⟩ := Props.C57_unique_solution codim n hn b hb.valid hb.even hb.ne hb.left hb.right hb.pos tau ht w
  have hex : ∃ y, Interpolates b n codim tau w y := ⟨y, h1⟩
  have hs : Interpolates b n codim tau w (sol b n codim w tau) := by
    unfold sol; rw [dif_pos hex]; exact hex.choose_spec
  exact ⟨hs, fun z hz k hk => (h2 z hz k hk).trans (h2 _ hs k hk).symm⟩

/-- The cost as a function of the lengths. -/
noncomputable def costFn (b : Basis) (mem : LagMem) (ws : List (ℕ × ℝ)) (n codim : ℕ) (w : ℕ → ℕ → ℝ) (tau : Vec) : ℝ :=
  total b n codim (fun iv => wsum (q b mem (tau iv)) ws Mat.zero) (sol b n codim w tau) (sol b n codim w tau)

theorem cost_eq {lu : LU} (hlu : LUContract lu) {w : Pts} (hw : 2 ≤ w.rows) {b : Basis} (hb : Interpolable b) {ws : List (ℕ × ℝ)}
    (ho : ∀ p ∈ ws, Adds b p.1) {mem : LagMem} {s : Sobolev} (hs : SReach lu w b ws mem s) {tau : List ℝ} (hlen : tau.length + 1 = w.rows)
    (ht : ∀ t ∈ tau, 1 / 10 ^ 6 ≤ t) : ∃ s', s.cost lu tau = .ok (s', costFn b mem ws tau.length w.cols w.at' (vecOf tau)) := by
  obtain ⟨s', x, h1, h2, h3⟩ := cost_value hlu hw hb ho hs hlen ht
  refine ⟨s', ?_⟩
  have hpos : ∀ i < tau.length, 0 < vecOf tau i := fun i hi => vecOf_pos (fun t h => lt_of_lt_of_le (by norm_num) (ht t h)) hi
  have hx := (sol_spec hb (n := tau.length) (codim := w.cols) (by omega) hpos).2 _ h3
  rw [h1, total_congr (fun _ _ _ _ _ _ => rfl) hx hx]
  rfl

/-- The entry of the gradient, from the derivatives `d` of the coefficients. -/
noncomputable def gradFn (b : Basis) (mem : LagMem) (ws : List (ℕ × ℝ)) (n codim : ℕ) (tau : Vec) (y d : Vec) (idx : ℕ) : ℝ :=
  (∑ c ∈ range codim, form b.dim (wsum (dq b mem (tau idx)) ws Mat.zero) (part b codim y idx c) (part b codim y idx c))
    + 2 * total b n codim (fun iv => wsum (q b mem (tau iv)) ws Mat.zero) y d

theorem form_zero {n : ℕ} (u v : Vec) : form n Mat.zero u v = 0 := by simp [form, Mat.zero]

theorem costFn_hasDerivAt {b : Basis} {mem : LagMem} (hm : SymmMem b mem) (hv : ∀ a, b = .b0101 a → 0 < a ∧ a < 1) {ws : List (ℕ × ℝ)}
    (ho : ∀ p ∈ ws, AddsDtau b p.1) {n codim : ℕ} {w : ℕ → ℕ → ℝ} {tau : Vec} (ht : ∀ i < n, 0 < tau i) {idx : ℕ} (hidx : idx < n) {d : Vec}
    (hd : ∀ k < b.dim * codim * n, HasDerivAt (fun z => sol b n codim w (Function.update tau idx z) k) (d k) (tau idx)) :
    HasDerivAt (fun z => costFn b mem ws n codim w (Function.update tau idx z)) (gradFn b mem ws n codim tau (sol b n codim w tau) d idx) (tau idx) := by
  have hself : Function.update tau idx (tau idx) = tau := Function.update_eq_self _ _
  have key : HasDerivAt (fun z => costFn b mem ws n codim w (Function.update tau idx z))
      (∑ iv ∈ range n, ∑ c ∈ range codim,
        (form b.dim (if iv = idx then wsum (dq b mem (tau idx)) ws Mat.zero else Mat.zero) (part b codim (sol b n codim w tau) iv c) (part b codim (sol b n codim w tau) iv c)
          + 2 * form b.dim (wsum (q b mem (tau iv)) ws Mat.zero) (part b codim (sol b n codim w tau) iv c) (part b codim d iv c))) (tau idx) := by
    unfold costFn total
    refine HasDerivAt.fun_sum fun iv hiv => HasDerivAt.fun_sum fun c hc => ?_
    rw [mem_range] at hiv hc
    have := form_hasDerivAt (n := b.dim) (m := fun z => wsum (q b mem (Function.update tau idx z iv)) ws Mat.zero)
      (m' := if iv = idx then wsum (dq b mem (tau idx)) ws Mat.zero else Mat.zero)
      (y := fun z => part b codim (sol b n codim w (Function.update tau idx z)) iv c) (y' := part b codim d iv c) (x := tau idx) ?_ ?_ ?_
    · rw [hself] at this; exact this
    · intro i hi j hj
      by_cases he : iv = idx
      · subst he
        rw [if_pos rfl]
        simp only [Function.update_self]
        exact wsum_hasDerivAt (M := fun _ => Mat.zero) (M' := Mat.zero) (fun p hp => q_hasDerivAt hv (ht iv hiv) (ho p hp) hi hj) (hasDerivAt_const _ _)
      · rw [if_neg he]
        simp only [Function.update_of_ne he]
        exact hasDerivAt_const _ _
    · intro i hi
      exact hd _ (part_bound hiv hc hi)
    · intro i hi j hj
      rw [hself]
      exact wsum_symm (fun p _ => q_symm hm hv (ht iv hiv).ne' p.1 hi hj) _ rfl
  refine key.congr_deriv ?_
  unfold gradFn total
  rw [mul_sum]
  have e1 : ∀ iv ∈ range n, ∑ c ∈ range codim,
        (form b.dim (if iv = idx then wsum (dq b mem (tau idx)) ws Mat.zero else Mat.zero) (part b codim (sol b n codim w tau) iv c) (part b codim (sol b n codim w tau) iv c)
          + 2 * form b.dim (wsum (q b mem (tau iv)) ws Mat.zero) (part b codim (sol b n codim w tau) iv c) (part b codim d iv c))
      = (if iv = idx then ∑ c ∈ range codim, form b.dim (wsum (dq b mem (tau idx)) ws Mat.zero) (part b codim (sol b n codim w tau) idx c) (part b codim (sol b n codim w tau) idx c) else 0)
        + 2 * ∑ c ∈ range codim, form b.dim (wsum (q b mem (tau iv)) ws Mat.zero) (part b codim (sol b n codim w tau) iv c) (part b codim d iv c) := by
    intro iv _
    rw [sum_add_distrib, ← mul_sum]
    congr 1
    by_cases he : iv = idx
    · subst he; simp
    · simp only [if_neg he, form_zero, sum_const_zero]
  rw [sum_congr rfl e1, sum_add_distrib, sum_ite_eq', if_pos (mem_range.mpr hidx)]

/-- The whole gradient: what the entries of the buffer are, whatever the unassigned memory of a Lagrange basis contains. -/
theorem grad_value {lu : LU} (hlu : LUContract lu) {w : Pts} (hw : 2 ≤ w.rows) {b : Basis} (hb : Interpolable b) {ws : List (ℕ × ℝ)}
    (ho : ∀ p ∈ ws, Adds b p.1) (ho' : ∀ p ∈ ws, AddsDtau b p.1) {mem : LagMem} {s : Sobolev} (hs : SReach lu w b ws mem s)
    {tau : List ℝ} (hlen : tau.length + 1 = w.rows) (ht : ∀ t ∈ tau, 1 / 10 ^ 6 ≤ t) {buff : List ℝ} (hbuff : tau.length ≤ buff.length) :
    ∃ s' out, s.grad lu tau buff = .ok (s', out) ∧ out.length = buff.length ∧ ∀ idx < tau.length, ∃ d : Vec,
      (∀ k < b.dim * w.cols * tau.length, HasDerivAt (fun z => sol b tau.length w.cols w.at' (Function.update (vecOf tau) idx z) k) (d k) (vecOf tau idx)) ∧
      vecOf out idx = gradFn b mem ws tau.length w.cols (vecOf tau) (sol b tau.length w.cols w.at' (vecOf tau)) d idx := by
  obtain ⟨hR, rfl, rfl, rfl⟩ := sreach_inv hs
  have U := Props.usable_of hb.valid hb.even hb.ne hb.left hb.right
  have hn0 : 0 < tau.length := by omega
  have hn : s.points.rows - 1 = tau.length := by omega
  rw [hn] at hR
  obtain ⟨i, y, h1, e1, e2, e3, e4, hRi, h2⟩ := solve_total hlu hn0 hb hR rfl ht (show s.points.rows = tau.length + 1 by omega) rfl
  have hpos : ∀ k < tau.length, 0 < vecOf tau k := fun k hk => vecOf_pos (fun t h => lt_of_lt_of_le (by norm_num) (ht t h)) hk
  have hy := (sol_spec hb (codim := s.points.cols) hn0 hpos).2 _ h2
  have hself : ∀ idx, Function.update (vecOf tau) idx (vecOf tau idx) = vecOf tau := fun idx => Function.update_eq_self _ _
  obtain ⟨st, hst, -, h4, h5⟩ := forLoopM_total (fun k (st : Interp × List ℝ) => Reach lu s.points.cols tau.length b st.1 ∧ st.2.length = buff.length ∧
      ∀ idx < k, ∃ d : Vec,
        (∀ k < b.dim * s.points.cols * tau.length, HasDerivAt (fun z => sol b tau.length s.points.cols s.points.at' (Function.update (vecOf tau) idx z) k) (d k) (vecOf tau idx)) ∧
        vecOf st.2 idx = gradFn b s.mem s.weights tau.length s.points.cols (vecOf tau) (sol b tau.length s.points.cols s.points.at' (vecOf tau)) d idx)
      (Nat.zero_le tau.length) (gradStep lu s tau y) (s := (i, buff)) ⟨hRi, rfl, fun idx h => absurd h (by omega)⟩ (by
    rintro idx - hidx st ⟨hr, hl, hprev⟩
    obtain ⟨-, f1, f2, f3⟩ := reach_inv U hn0 hr
    have hsz : st.1.size = b.dim * s.points.cols * tau.length := by rw [Interp.size, f1, f2, f3]
    have hyl : y = (List.range st.1.size).map (sol b tau.length s.points.cols s.points.at' (Function.update (vecOf tau) idx (vecOf tau idx))) := by
      refine GSpline.ext_vecOf (by rw [e4, List.length_map, List.length_range, hsz]) fun k hk => ?_
      rw [e4] at hk
      rw [vecOf_map_range (by rw [hsz]; exact hk), hself]; exact hy k hk
    have hev : ∀ᶠ z in nhds (vecOf tau idx), Interpolates b tau.length s.points.cols (Function.update (vecOf tau) idx z) s.points.at'
        (sol b tau.length s.points.cols s.points.at' (Function.update (vecOf tau) idx z)) := by
      filter_upwards [lt_mem_nhds (hpos idx hidx)] with z hz
      refine (sol_spec hb hn0 fun k hk => ?_).1
      by_cases hk' : k = idx
      · rw [hk', Function.update_self]; exact hz
      · rw [Function.update_of_ne hk']; exact hpos k hk
    obtain ⟨i', d, hc, hd⟩ := Props.C39_coefficient_derivative lu hlu s.points.cols tau.length b hb.valid hb.even hb.ne hb.left hb.right hb.pos st.1 hr tau rfl ht idx hidx
      s.points.at' (fun z => sol b tau.length s.points.cols s.points.at' (Function.update (vecOf tau) idx z)) hev
    rw [← hyl] at hc
    rw [hsz] at hd
    have hr' := Reach.coeff hr hc
    obtain ⟨-, g1, g2, g3⟩ := reach_inv U hn0 hr'
    have hsz' : i'.size = b.dim * s.points.cols * tau.length := by rw [Interp.size, g1, g2, g3]
    refine ⟨(i', st.2.set idx (gradFn b s.mem s.weights tau.length s.points.cols (vecOf tau) (sol b tau.length s.points.cols s.points.at' (vecOf tau)) d idx)), ?_, hr', by simpa using hl, ?_⟩
    · unfold gradStep
      rw [hc, Interp.ok_bind]
      dsimp only
      rw [rd_ok hidx, Interp.ok_bind, g1, g2, g3, matrixDtau_ok ho', Interp.ok_bind]
      rw [forLoopM_add (f := fun c => form b.dim (wsum (dq b s.mem (vecOf tau idx)) s.weights Mat.zero)
        (part b s.points.cols (sol b tau.length s.points.cols s.points.at' (vecOf tau)) idx c) (part b s.points.cols (sol b tau.length s.points.cols s.points.at' (vecOf tau)) idx c))]
      · rw [Interp.ok_bind, innerProd_ok ho rfl e4 (by rw [List.length_map, List.length_range, hsz']), Interp.ok_bind, if_pos (by omega), zero_add]
        rw [total_congr (fun _ _ _ _ _ _ => rfl) hy (z' := d) (fun k hk => vecOf_map_range (by rw [hsz']; exact hk))]
        rfl
      · intro c hc' r
        obtain ⟨l, hl1, hl2⟩ := seg_ok e4 hidx hc'
        rw [hl1, Interp.ok_bind]
        have hl3 : ∀ k < b.dim, vecOf l k = part b s.points.cols (sol b tau.length s.points.cols s.points.at' (vecOf tau)) idx c k :=
          fun k hk => (hl2 k hk).trans (hy _ (part_bound hidx hc' hk))
        rw [form_congr (fun _ _ _ _ => rfl) hl3 hl3]; rfl
    · intro k hk
      rw [vecOf_set (by omega)]
      by_cases hk' : k = idx
      · subst hk'; rw [Function.update_self]; exact ⟨d, hd, rfl⟩
      · rw [Function.update_of_ne hk']; exact hprev k (by omega))
  refine ⟨{ s with interp := st.1 }, st.2, ?_, h4, h5⟩
  unfold grad
  rw [h1, Interp.ok_bind]
  dsimp only
  rw [e3, hst, Interp.ok_bind]
  rfl

/-- The whole gradient, if the unassigned memory is symmetric. -/
theorem grad_ok {lu : LU} (hlu : LUContract lu) {w : Pts} (hw : 2 ≤ w.rows) {b : Basis} (hb : Interpolable b) {ws : List (ℕ × ℝ)}
    (ho : ∀ p ∈ ws, Adds b p.1) (ho' : ∀ p ∈ ws, AddsDtau b p.1) {mem : LagMem} (hm : SymmMem b mem) {s : Sobolev} (hs : SReach lu w b ws mem s)
    {tau : List ℝ} (hlen : tau.length + 1 = w.rows) (ht : ∀ t ∈ tau, 1 / 10 ^ 6 ≤ t) {buff : List ℝ} (hbuff : tau.length ≤ buff.length) :
    ∃ s' out, s.grad lu tau buff = .ok (s', out) ∧ out.length = buff.length ∧
      ∀ idx < tau.length, HasDerivAt (fun z => costFn b mem ws tau.length w.cols w.at' (Function.update (vecOf tau) idx z)) (vecOf out idx) (vecOf tau idx) := by
  obtain ⟨s', out, h1, h2, h3⟩ := grad_value hlu hw hb ho ho' hs hlen ht hbuff
  have hpos : ∀ k < tau.length, 0 < vecOf tau k := fun k hk => vecOf_pos (fun t h => lt_of_lt_of_le (by norm_num) (ht t h)) hk
  have hvb : ∀ a, b = .b0101 a → 0 < a ∧ a < 1 := by
    rintro a rfl; exact ⟨hb.pos a rfl, hb.valid.2⟩
  refine ⟨s', out, h1, h2, fun idx hidx => ?_⟩
  obtain ⟨d, hd, e⟩ := h3 idx hidx
  rw [e]
  exact costFn_hasDerivAt hm hvb ho' hpos hidx hd

end GSplines.Sobolev
