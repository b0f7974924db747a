import Verif.Proofs.Failure
import Verif.Proofs.SobolevGrad

/-! # Calls that throw on a `SobolevNorm` -/

namespace GSplines.Failure

open GSplines Spec Finset Interp

/-- Two loops that throw or not at the same pass and whose states stay related. -/
theorem loop_rel_inv {σ ρ : Type} (R : σ → ρ → Prop) (n : ℕ) (body : ℕ → σ → σ × Res Unit) (body' : ℕ → ρ → ρ × Res Unit) (s : σ) (r : ρ) (h0 : R s r)
    (hs : ∀ i < n, ∀ x y, R x y → (body i x).2 = (body' i y).2 ∧ R (body i x).1 (body' i y).1) :
    (loop 0 n body s).2 = (loop 0 n body' r).2 ∧ R (loop 0 n body s).1 (loop 0 n body' r).1 := by
  induction n with
  | zero => exact ⟨rfl, h0⟩
  | succ n ih =>
    rw [loop_succ, loop_succ]
    obtain ⟨h1, h2⟩ := ih (fun i hi => hs i (by omega))
    cases h3 : (loop 0 n body s).2 with
    | ok u => rw [h3] at h1; rw [← h1]; exact hs n (by omega) _ _ h2
    | error e => rw [h3] at h1; rw [← h1]; exact ⟨rfl, h2⟩

/-! ## Agreement with the model that drops the object -/

theorem cost_drop (lu : LU) (tau : List ℝ) (s : Sobolev) : dropState' (cost lu tau s) = s.cost lu tau := by
  unfold cost Sobolev.cost
  rw [← solve_drop]
  rcases solve lu tau s.points s.interp with ⟨i, r⟩
  cases r with
  | error e => rfl
  | ok y =>
    change dropState' ({ s with interp := i }, Sobolev.innerProd i.basis s.mem s.weights i.n i.codim tau y y) = (do
      let r ← Sobolev.innerProd i.basis s.mem s.weights i.n i.codim tau y y
      return ({ s with interp := i }, r))
    cases Sobolev.innerProd i.basis s.mem s.weights i.n i.codim tau y y with
    | error e => rfl
    | ok g => rfl

theorem gradPass_drop (lu : LU) (s : Sobolev) (tau y : List ℝ) (idx : ℕ) (st : Interp × List ℝ) :
    dropState (gradPass lu s tau y idx st) = Sobolev.gradStep lu s tau y idx st := by
  unfold gradPass Sobolev.gradStep
  rw [← coeff_drop]
  rcases coeff lu y tau idx st.1 with ⟨i, r⟩
  cases r with
  | error e => rfl
  | ok dy =>
    change dropState (match gradValue i.basis s.mem s.weights i.n i.codim i.size tau y dy idx with
      | .error e => ((i, st.2), .error e)
      | .ok r => if idx < st.2.length then ((i, st.2.set idx r), .ok ()) else ((i, st.2), .error .ub)) = (do
        let t ← rd tau idx
        let m ← Sobolev.matrixDtau i.basis s.mem s.weights t
        let r ← forLoopM 0 i.codim (fun c r => do
          let a ← Sobolev.seg i.basis i.codim y idx c
          return r + Sobolev.form i.basis.dim m (vecOf a) (vecOf a)) 0
        let p ← Sobolev.innerProd i.basis s.mem s.weights i.n i.codim tau y ((List.range i.size).map dy)
        if idx < st.2.length then return (i, st.2.set idx (r + 2 * p)) else .error .ub)
    unfold gradValue
    cases rd tau idx with
    | error e => rfl
    | ok t =>
      rw [ok_bind, ok_bind]
      cases Sobolev.matrixDtau i.basis s.mem s.weights t with
      | error e => rfl
      | ok m =>
        rw [ok_bind, ok_bind]
        cases (forLoopM 0 i.codim (fun c r => do
          let a ← Sobolev.seg i.basis i.codim y idx c
          return r + Sobolev.form i.basis.dim m (vecOf a) (vecOf a)) 0 : Res ℝ) with
        | error e => rfl
        | ok r =>
          rw [ok_bind, ok_bind]
          cases Sobolev.innerProd i.basis s.mem s.weights i.n i.codim tau y ((List.range i.size).map dy) with
          | error e => rfl
          | ok p =>
            rw [ok_bind, ok_bind]
            change dropState (if idx < st.2.length then ((i, st.2.set idx (r + 2 * p)), .ok ()) else ((i, st.2), .error .ub)) = _
            split_ifs <;> rfl

theorem drop_cases {σ : Type} (r : σ × Res Unit) : (∃ e, r.2 = .error e ∧ dropState r = .error e) ∨ (r.2 = .ok () ∧ dropState r = .ok r.1) := by
  rcases r with ⟨s, r⟩
  cases r with
  | error e => exact .inl ⟨e, rfl, rfl⟩
  | ok u => exact .inr ⟨rfl, rfl⟩

theorem grad_drop (lu : LU) (tau buff : List ℝ) (s : Sobolev) : dropState (grad lu tau buff s) = s.grad lu tau buff := by
  unfold grad Sobolev.grad
  rw [← solve_drop]
  rcases solve lu tau s.points s.interp with ⟨i, r⟩
  cases r with
  | error e => rfl
  | ok y =>
    change dropState (({ s with interp := (loop 0 i.n (gradPass lu s tau y) (i, buff)).1.1 }, (loop 0 i.n (gradPass lu s tau y) (i, buff)).1.2),
        (loop 0 i.n (gradPass lu s tau y) (i, buff)).2) = (do
      let st ← forLoopM 0 i.n (Sobolev.gradStep lu s tau y) (i, buff)
      return ({ s with interp := st.1 }, st.2))
    rcases loop_sim (fun _ x y => x = y) i.n (gradPass lu s tau y) (Sobolev.gradStep lu s tau y) (i, buff) (i, buff) rfl (fun idx _ x z hxz => by
        subst hxz
        rw [← gradPass_drop]
        rcases drop_cases (gradPass lu s tau y idx x) with ⟨e, h1, h2⟩ | ⟨h1, h2⟩
        · exact .inl ⟨e, h1, h2⟩
        · exact .inr ⟨h1, _, h2, rfl⟩) with ⟨e, h1, h2⟩ | ⟨h1, r', h2, rfl⟩
    · rw [h1, h2]; rfl
    · rw [h1, h2]; rfl

/-! ## States -/

theorem gradPass_reach {lu : LU} {codim n : ℕ} {b : Basis} {s : Sobolev} {tau y : List ℝ} {idx : ℕ} {st : Interp × List ℝ} (h : Reach lu codim n b st.1)
    (hg : GoesOn (gradPass lu s tau y idx st).2) : Reach lu codim n b (gradPass lu s tau y idx st).1.1 := by
  unfold gradPass at hg ⊢
  rcases coeff_cases lu y tau idx st.1 with ⟨x, h1, h2⟩ | ⟨⟨e, h1, -⟩, h2, -⟩ | ⟨e, h2, h3⟩
  · rw [show coeff lu y tau idx st.1 = ((coeff lu y tau idx st.1).1, .ok x) from Prod.ext rfl h1]
    dsimp only
    have hR : Reach lu codim n b (coeff lu y tau idx st.1).1 := .coeff h h2
    cases gradValue (coeff lu y tau idx st.1).1.basis s.mem s.weights (coeff lu y tau idx st.1).1.n (coeff lu y tau idx st.1).1.codim
        (coeff lu y tau idx st.1).1.size tau y x idx with
    | error e => exact hR
    | ok r => dsimp only; split_ifs <;> exact hR
  · rw [show coeff lu y tau idx st.1 = ((coeff lu y tau idx st.1).1, .error e) from Prod.ext rfl h1]
    dsimp only
    rw [h2]; exact h
  · exfalso
    rw [show coeff lu y tau idx st.1 = ((coeff lu y tau idx st.1).1, .error e) from Prod.ext rfl h2] at hg
    rcases hg with ⟨x, hx⟩ | ⟨e', he, ht⟩
    · cases hx
    · cases he; exact h3 ht

theorem goesOn_ok {α : Type} {r : Res α} {x : α} (h : r = .ok x) : GoesOn r := .inl ⟨x, h⟩

theorem not_goesOn {α : Type} {e : Err} (h : ¬ Thrown e) : ¬ GoesOn (.error e : Res α) := by
  rintro (⟨x, hx⟩ | ⟨e', he, ht⟩)
  · cases hx
  · cases he; exact h ht

/-- The interpolator inside a `SobolevNorm` on which calls may have thrown. -/
theorem shistory_reach {lu : LU} {w : Pts} {b : Basis} {weights : List (ℕ × ℝ)} {mem : LagMem} {s : Sobolev} (h : SHistory lu w b weights mem s) :
    Reach lu w.cols (w.rows - 1) b s.interp ∧ s.weights = weights ∧ s.points = w ∧ s.mem = mem := by
  induction h with
  | @make junk s h => exact Sobolev.sreach_inv (.make h)
  | @cost s tau _ hg ih =>
    unfold cost at hg ⊢
    rcases solve_cases lu tau s.points s.interp with ⟨x, h1, h2⟩ | ⟨⟨e, h1, -⟩, h2⟩ | h1
    · rw [show solve lu tau s.points s.interp = ((solve lu tau s.points s.interp).1, .ok x) from Prod.ext rfl h1]
      exact ⟨.solve ih.1 h2, ih.2⟩
    · rw [show solve lu tau s.points s.interp = ((solve lu tau s.points s.interp).1, .error e) from Prod.ext rfl h1]
      dsimp only
      rw [h2]
      exact ih
    · rw [show solve lu tau s.points s.interp = ((solve lu tau s.points s.interp).1, .error .ub) from Prod.ext rfl h1] at hg
      exact absurd hg (not_goesOn id)
  | @grad s tau buff _ hg ih =>
    unfold grad at hg ⊢
    rcases solve_cases lu tau s.points s.interp with ⟨x, h1, h2⟩ | ⟨⟨e, h1, -⟩, h2⟩ | h1
    · rw [show solve lu tau s.points s.interp = ((solve lu tau s.points s.interp).1, .ok x) from Prod.ext rfl h1] at hg ⊢
      dsimp only at hg ⊢
      refine ⟨?_, ih.2⟩
      rcases loop_ind (fun _ (st : Interp × List ℝ) => Reach lu w.cols (w.rows - 1) b st.1) (solve lu tau s.points s.interp).1.n (gradPass lu s tau x)
        ((solve lu tau s.points s.interp).1, buff) (.solve ih.1 h2) (fun i _ st hst hok => gradPass_reach hst (goesOn_ok hok)) with ⟨-, h3⟩ | ⟨e, h3, i, -, st, h4, h5⟩
      · exact h3
      · rw [← h5] at hg ⊢
        exact gradPass_reach h4 hg
    · rw [show solve lu tau s.points s.interp = ((solve lu tau s.points s.interp).1, .error e) from Prod.ext rfl h1]
      dsimp only
      rw [h2]
      exact ih
    · rw [show solve lu tau s.points s.interp = ((solve lu tau s.points s.interp).1, .error .ub) from Prod.ext rfl h1] at hg
      exact absurd hg (not_goesOn id)

/-! ## The outcome does not depend on the history -/

theorem list_of_vecOf {l m : List ℝ} (h : l.length = m.length) (hk : ∀ k < l.length, vecOf l k = vecOf m k) : l = m := by
  refine List.ext_getElem h fun k h1 h2 => ?_
  have := hk k h1
  unfold vecOf at this
  rw [List.getD_eq_getElem?_getD, List.getD_eq_getElem?_getD, List.getElem?_eq_getElem h1, List.getElem?_eq_getElem h2] at this
  exact this

/-- `solve_interpolation` answers the same in all states. -/
theorem solve_same {lu : LU} (hlu : LUContract lu) {codim n : ℕ} (hn : 0 < n) {b : Basis} (hb : Interpolable b) {s s0 : Interp} (hs : Reach lu codim n b s)
    (hs0 : Reach lu codim n b s0) (tau : List ℝ) {w : Pts} (hw : w.rows = n + 1) (hc : w.cols = codim) :
    (solve lu tau w s).2 = (solve lu tau w s0).2 := by
  have U := Props.usable_of hb.valid hb.even hb.ne hb.left hb.right
  obtain ⟨-, -, -, e3⟩ := reach_inv U hn hs
  obtain ⟨-, -, -, f3⟩ := reach_inv U hn hs0
  by_cases h1 : ∃ x ∈ tau, x < 1 / 10 ^ 6
  · unfold solve
    rw [if_pos h1, if_pos h1]
  by_cases h2 : tau.length ≠ n
  · unfold solve
    rw [if_neg h1, if_neg h1]
    unfold Interp.fillMatrix
    rw [if_pos (by rw [e3]; exact h2), if_pos (by rw [f3]; exact h2)]
  push Not at h1
  obtain ⟨s', x, h3, -, -, -, h4, -, h5⟩ := Sobolev.solve_total hlu hn hb hs (not_not.mp h2) h1 hw hc
  obtain ⟨s0', x0, g3, -, -, -, g4, -, g5⟩ := Sobolev.solve_total hlu hn hb hs0 (not_not.mp h2) h1 hw hc
  have hpos : ∀ i < n, 0 < vecOf tau i := fun i hi => vecOf_pos (fun t h => lt_of_lt_of_le (by norm_num) (h1 t h)) (by omega)
  have hx : x = x0 := by
    refine list_of_vecOf (by rw [h4, g4]) fun k hk => ?_
    rw [(Sobolev.sol_spec hb hn hpos).2 _ h5 k (by omega), (Sobolev.sol_spec hb hn hpos).2 _ g5 k (by omega)]
  rw [← solve_drop] at h3 g3
  unfold dropState' at h3 g3
  rcases hS : solve lu tau w s with ⟨a, r⟩
  rcases hS0 : solve lu tau w s0 with ⟨a0, r0⟩
  rw [hS] at h3
  rw [hS0] at g3
  cases r with
  | error e => cases h3
  | ok x' =>
    cases r0 with
    | error e => cases g3
    | ok x0' =>
      cases h3
      cases g3
      rw [hx]

/-- `get_coeff_derivative_wrt_tau` with arguments that it accepts answers the same in all states. -/
theorem coeff_same {lu : LU} (hlu : LUContract lu) {codim n : ℕ} {b : Basis} (hb : Interpolable b) {s s0 : Interp} (hs : Reach lu codim n b s)
    (hs0 : Reach lu codim n b s0) {tau : List ℝ} (hlen : tau.length = n) (ht : ∀ t ∈ tau, 1 / 10 ^ 6 ≤ t) {idx : ℕ} (hidx : idx < n) {y : List ℝ}
    (hy : y.length = b.dim * codim * n) :
    ∃ x x0, (coeff lu y tau idx s).2 = .ok x ∧ (coeff lu y tau idx s0).2 = .ok x0 ∧ (∀ k < b.dim * codim * n, x k = x0 k) ∧
      Reach lu codim n b (coeff lu y tau idx s).1 ∧ Reach lu codim n b (coeff lu y tau idx s0).1 := by
  have hn : 0 < n := by omega
  have U := Props.usable_of hb.valid hb.even hb.ne hb.left hb.right
  have hind : Independent b := by
    cases b with
    | b0101 a => exact hb.pos a rfl
    | _ => trivial
  have hposv : ∀ i < n, 0 < vecOf tau i := fun i hi => vecOf_pos (fun t h => lt_of_lt_of_le (by norm_num) (ht t h)) (by omega)
  set h := b.dim / 2 - 1
  have call : ∀ s, Reach lu codim n b s → ∃ (m D : Mat), (coeff lu y tau idx s).2 = .ok (fun k => - lu.solve (b.dim * codim * n) m (D.mulVec (b.dim * codim * n) (vecOf y)) k) ∧
      System b h n codim (vecOf tau) m ∧ (∀ x : Cond n codim h, D (row n codim h x) = overI idx (bufsT b (vecOf tau)) x fun _ => 0) := by
    intro s hs
    obtain ⟨I, rfl, rfl, rfl⟩ := reach_inv U hn hs
    obtain ⟨m', hm', S⟩ := fillMatrix_system U hn hlen I.mat
    have hsucc := hlu.succeeds _ _ (system_invertible U hind hn hposv S)
    have hd := fillDer_ok (c := s.codim) U hidx hlen (hposv idx hidx).ne' (s.ders idx)
    refine ⟨m', derP s.basis.dim s.codim s.n idx (bufsT s.basis (vecOf tau)) (s.ders idx), ?_, S, fun x => ?_⟩
    · unfold coeff
      rw [if_neg (by push Not; exact ht), if_neg (by omega), hd]
      dsimp only
      rw [if_neg (show ¬ y.length ≠ Interp.size { s with ders := _ } by rw [hy]; exact fun h => h rfl), hm']
      dsimp only
      unfold Interp.size
      rw [if_pos hsucc]
    · rw [U.dim]
      exact derP_rows _ hidx (I.ders idx hidx) x
  have reach : ∀ s, Reach lu codim n b s → ∀ x, (coeff lu y tau idx s).2 = .ok x → Reach lu codim n b (coeff lu y tau idx s).1 := by
    intro s hs x hx
    rcases coeff_cases lu y tau idx s with ⟨x, -, h2⟩ | ⟨⟨e, h1, -⟩, -⟩ | ⟨e, h2, -⟩
    · exact .coeff hs h2
    · rw [h1] at hx; cases hx
    · rw [h2] at hx; cases hx
  obtain ⟨m, D, h1, S, hD⟩ := call s hs
  obtain ⟨m0, D0, h01, S0, hD0⟩ := call s0 hs0
  refine ⟨_, _, h1, h01, fun k hk => ?_, reach s hs _ h1, reach s0 hs0 _ h01⟩
  congr 1
  have hrow : ∀ r < b.dim * codim * n, m r = m0 r ∧ D r = D0 r := by
    intro r hr
    obtain ⟨x, rfl⟩ := row_surj (n := n) (c := codim) (h := h) hn (r := r) (by rw [U.dim] at hr; exact hr)
    exact ⟨(S.rows x).trans (S0.rows x).symm, (hD x).trans (hD0 x).symm⟩
  have hinv := system_invertible U hind hn hposv S
  have s1 := hlu.solves _ _ (D.mulVec (b.dim * codim * n) (vecOf y)) (hlu.succeeds _ _ hinv)
  have s2 := hlu.solves _ _ (D0.mulVec (b.dim * codim * n) (vecOf y)) (hlu.succeeds _ _ (system_invertible U hind hn hposv S0))
  refine Invertible.unique hinv s1 (fun r hr => ?_) k hk
  have := s2 r hr
  rw [(hrow r hr).1, this]
  unfold Mat.mulVec
  rw [(hrow r hr).2]

/-- The outcomes of the calls of a `SobolevNorm`, and what they write, do not depend on the earlier calls. -/
theorem sobolev_same {lu : LU} (hlu : LUContract lu) {w : Pts} (hw : 2 ≤ w.rows) {b : Basis} (hb : Interpolable b) {weights : List (ℕ × ℝ)} {mem : LagMem}
    {s s0 : Sobolev} (hs : SHistory lu w b weights mem s) (hs0 : SHistory lu w b weights mem s0) (tau buff : List ℝ) :
    (cost lu tau s).2 = (cost lu tau s0).2 ∧ (grad lu tau buff s).2 = (grad lu tau buff s0).2 ∧ (grad lu tau buff s).1.2 = (grad lu tau buff s0).1.2 := by
  have U := Props.usable_of hb.valid hb.even hb.ne hb.left hb.right
  obtain ⟨hR, hwt, hpt, hmem⟩ := shistory_reach hs
  obtain ⟨hR0, hwt0, hpt0, hmem0⟩ := shistory_reach hs0
  have hn : 0 < w.rows - 1 := by omega
  have hsame := solve_same hlu hn hb hR hR0 tau (w := w) (by omega) rfl
  rw [← hpt] at hsame
  rcases hS : solve lu tau s.points s.interp with ⟨i, r⟩
  rcases hS0 : solve lu tau s0.points s0.interp with ⟨i0, r0⟩
  have hr : r = r0 := by
    have : (solve lu tau s.points s.interp).2 = (solve lu tau s0.points s0.interp).2 := by rw [hsame, hpt, hpt0]
    rwa [hS, hS0] at this
  unfold cost grad
  rw [hS, hS0]
  subst hr
  cases r with
  | error e => exact ⟨rfl, rfl, rfl⟩
  | ok y =>
    have hsol : s.interp.solveInterpolation lu tau s.points = .ok (i, y) := by rw [← solve_drop, hS]; rfl
    have hsol0 : s0.interp.solveInterpolation lu tau s0.points = .ok (i0, y) := by rw [← solve_drop, hS0]; rfl
    have hRi := Reach.solve hR hsol
    have hRi0 := Reach.solve hR0 hsol0
    obtain ⟨-, e1, e2, e3⟩ := reach_inv U hn hRi
    obtain ⟨-, f1, f2, f3⟩ := reach_inv U hn hRi0
    dsimp only
    refine ⟨by rw [e1, e2, e3, f1, f2, f3, hwt, hwt0, hmem, hmem0], ?_⟩
    obtain ⟨ht, hm, -⟩ := solve_ok hsol
    have hl := fillMatrix_length hm
    obtain ⟨-, -, -, g3⟩ := reach_inv U hn hR
    have hlen : tau.length = w.rows - 1 := by rw [hl, g3]
    obtain ⟨s', x', h3, -, -, -, h4, -, -⟩ := Sobolev.solve_total hlu hn hb hR hlen ht (w := s.points) (by rw [hpt]; omega) (by rw [hpt])
    rw [hsol] at h3
    cases h3
    rw [f3, e3]
    have key := loop_rel_inv (fun (x z : Interp × List ℝ) => Reach lu w.cols (w.rows - 1) b x.1 ∧ Reach lu w.cols (w.rows - 1) b z.1 ∧ x.2 = z.2) (w.rows - 1)
      (gradPass lu s tau y) (gradPass lu s0 tau y) (i, buff) (i0, buff) ⟨hRi, hRi0, rfl⟩ (fun idx hidx x z hxz => by
        obtain ⟨h5, h6, h7⟩ := hxz
        obtain ⟨d, d0, h8, h9, h10, h11, h12⟩ := coeff_same hlu hb h5 h6 hlen ht hidx h4
        obtain ⟨-, a1, a2, a3⟩ := reach_inv U hn h11
        obtain ⟨-, b1, b2, b3⟩ := reach_inv U hn h12
        unfold gradPass
        rw [show coeff lu y tau idx x.1 = ((coeff lu y tau idx x.1).1, .ok d) from Prod.ext rfl h8,
          show coeff lu y tau idx z.1 = ((coeff lu y tau idx z.1).1, .ok d0) from Prod.ext rfl h9]
        dsimp only
        have hv : gradValue (coeff lu y tau idx x.1).1.basis s.mem s.weights (coeff lu y tau idx x.1).1.n (coeff lu y tau idx x.1).1.codim (coeff lu y tau idx x.1).1.size tau y d idx =
            gradValue (coeff lu y tau idx z.1).1.basis s0.mem s0.weights (coeff lu y tau idx z.1).1.n (coeff lu y tau idx z.1).1.codim (coeff lu y tau idx z.1).1.size tau y d0 idx := by
          unfold gradValue Interp.size
          rw [a1, a2, a3, b1, b2, b3, hwt, hwt0, hmem, hmem0]
          have : (List.range (b.dim * w.cols * (w.rows - 1))).map d = (List.range (b.dim * w.cols * (w.rows - 1))).map d0 :=
            List.map_congr_left fun k hk => h10 k (List.mem_range.mp hk)
          rw [this]
        rw [hv]
        cases gradValue (coeff lu y tau idx z.1).1.basis s0.mem s0.weights (coeff lu y tau idx z.1).1.n (coeff lu y tau idx z.1).1.codim (coeff lu y tau idx z.1).1.size tau y d0 idx with
        | error e => exact ⟨rfl, h11, h12, h7⟩
        | ok v =>
          dsimp only
          rw [h7]
          split_ifs
          · exact ⟨rfl, h11, h12, rfl⟩
          · exact ⟨rfl, h11, h12, rfl⟩)
    exact ⟨key.1, key.2.2.2⟩

/-! ## The buffer of the caller -/

/-- Whether a matrix of an interval can be computed depends on the orders of the weights only. -/
theorem matrixDtau_cases (b : Basis) (mem : LagMem) (ws : List (ℕ × ℝ)) :
    (∀ t, OnlyUb (Sobolev.matrixDtau b mem ws t)) ∨ ∀ t, ∃ e, Sobolev.matrixDtau b mem ws t = .error e := by
  have one : ∀ k, (∀ t m, ∃ r, b.addDerivMatrixDtau mem t k m = .ok r) ∨ ∀ t m, ∃ e, b.addDerivMatrixDtau mem t k m = .error e := by
    intro k
    cases b with
    | legendre d => exact .inl fun t m => ⟨_, rfl⟩
    | lagrange x => exact .inl fun t m => ⟨_, rfl⟩
    | b0101 a =>
      by_cases h1 : k = 1
      · subst h1; exact .inl fun t m => ⟨_, rfl⟩
      by_cases h3 : k = 3
      · subst h3; exact .inl fun t m => ⟨_, rfl⟩
      refine .inr fun t m => ⟨.invalidArgument, ?_⟩
      simp only [Basis.addDerivMatrixDtau]
      unfold B0101.addDerivativeMatrixDtau
      split
      · exact absurd rfl h1
      · exact absurd rfl h3
      · rfl
  have all : ∀ ws : List (ℕ × ℝ), (∀ t (m : Mat), OnlyUb (ws.foldlM (fun m w => do
      let m ← b.addDerivMatrixDtau mem t w.1 m
      return fun i j => m i j * w.2) m)) ∨ ∀ t (m : Mat), ∃ e, (ws.foldlM (fun m w => do
      let m ← b.addDerivMatrixDtau mem t w.1 m
      return fun i j => m i j * w.2) m : Res Mat) = .error e := by
    intro ws
    induction ws with
    | nil => exact .inl fun t m => .pure _
    | cons p ps ih =>
      rcases one p.1 with h | h
      · rcases ih with ih | ih
        · refine .inl fun t m => ?_
          obtain ⟨r, hr⟩ := h t m
          rw [List.foldlM_cons, hr]
          exact ih t _
        · refine .inr fun t m => ?_
          obtain ⟨r, hr⟩ := h t m
          rw [List.foldlM_cons, hr]
          exact ih t _
      · refine .inr fun t m => ?_
        obtain ⟨e, he⟩ := h t m
        rw [List.foldlM_cons, he]
        exact ⟨e, rfl⟩
  rcases all ws with h | h
  · exact .inl fun t => h t _
  · exact .inr fun t => h t _

theorem matrix_cases (b : Basis) (mem : LagMem) (ws : List (ℕ × ℝ)) :
    (∀ t, OnlyUb (Sobolev.matrix b mem ws t)) ∨ ∀ t, ∃ e, Sobolev.matrix b mem ws t = .error e := by
  have one : ∀ k, (∀ t m, ∃ r, b.addDerivMatrix mem t k m = .ok r) ∨ ∀ t m, ∃ e, b.addDerivMatrix mem t k m = .error e := by
    intro k
    cases b with
    | legendre d => exact .inl fun t m => ⟨_, rfl⟩
    | lagrange x => exact .inl fun t m => ⟨_, rfl⟩
    | b0101 a =>
      by_cases h : k < 4
      · interval_cases k <;> exact .inl fun t m => ⟨_, rfl⟩
      refine .inr fun t m => ⟨.invalidArgument, ?_⟩
      simp only [Basis.addDerivMatrix]
      unfold B0101.addDerivativeMatrix
      split <;> first | omega | rfl
  have all : ∀ ws : List (ℕ × ℝ), (∀ t (m : Mat), OnlyUb (ws.foldlM (fun m w => do
      let m ← b.addDerivMatrix mem t w.1 m
      return fun i j => m i j * w.2) m)) ∨ ∀ t (m : Mat), ∃ e, (ws.foldlM (fun m w => do
      let m ← b.addDerivMatrix mem t w.1 m
      return fun i j => m i j * w.2) m : Res Mat) = .error e := by
    intro ws
    induction ws with
    | nil => exact .inl fun t m => .pure _
    | cons p ps ih =>
      rcases one p.1 with h | h
      · rcases ih with ih | ih
        · refine .inl fun t m => ?_
          obtain ⟨r, hr⟩ := h t m
          rw [List.foldlM_cons, hr]
          exact ih t _
        · refine .inr fun t m => ?_
          obtain ⟨r, hr⟩ := h t m
          rw [List.foldlM_cons, hr]
          exact ih t _
      · refine .inr fun t m => ?_
        obtain ⟨e, he⟩ := h t m
        rw [List.foldlM_cons, he]
        exact ⟨e, rfl⟩
  rcases all ws with h | h
  · exact .inl fun t => h t _
  · exact .inr fun t => h t _

theorem onlyUb_innerProd {b : Basis} {mem : LagMem} {ws : List (ℕ × ℝ)} (h : ∀ t, OnlyUb (Sobolev.matrix b mem ws t)) (n codim : ℕ) (tau v1 v2 : List ℝ) :
    OnlyUb (Sobolev.innerProd b mem ws n codim tau v1 v2) :=
  .loop _ _ (fun _ _ => .bind (onlyUb_rd _ _) fun _ => .bind (h _) fun _ => .loop _ _ (fun _ _ => .bind (onlyUb_segment _ _ _) fun _ =>
    .bind (onlyUb_segment _ _ _) fun _ => .pure _) _) _

theorem error_bind {α β : Type} {r : Res α} {f : α → Res β} (h : ∃ e, r = .error e) : ∃ e, (r >>= f) = .error e := by
  obtain ⟨e, rfl⟩ := h
  exact ⟨e, rfl⟩

theorem bind_error {α β : Type} {r : Res α} {f : α → Res β} (h : ∀ x, ∃ e, f x = .error e) : ∃ e, (r >>= f) = .error e := by
  cases r with
  | error e => exact ⟨e, rfl⟩
  | ok x => exact h x

theorem innerProd_error {b : Basis} {mem : LagMem} {ws : List (ℕ × ℝ)} (h : ∀ t, ∃ e, Sobolev.matrix b mem ws t = .error e) {n : ℕ} (hn : 0 < n) (codim : ℕ)
    (tau v1 v2 : List ℝ) : ∃ e, Sobolev.innerProd b mem ws n codim tau v1 v2 = .error e := by
  unfold Sobolev.innerProd forLoopM
  obtain ⟨k, rfl⟩ : ∃ k, n = k + 1 := ⟨n - 1, by omega⟩
  rw [show List.range' 0 (k + 1 - 0) = 0 :: List.range' 1 k from rfl, List.foldlM_cons]
  exact error_bind (bind_error fun t => error_bind (h t))

theorem gradValue_cases (b : Basis) (mem : LagMem) (ws : List (ℕ × ℝ)) {n : ℕ} (hn : 0 < n) (codim size : ℕ) (tau y : List ℝ) :
    (∀ dy idx, OnlyUb (gradValue b mem ws n codim size tau y dy idx)) ∨ ∀ dy idx, ∃ e, gradValue b mem ws n codim size tau y dy idx = .error e := by
  rcases matrixDtau_cases b mem ws with h | h
  · rcases matrix_cases b mem ws with h' | h'
    · refine .inl fun dy idx => .bind (onlyUb_rd _ _) fun _ => .bind (h _) fun _ => .bind (.loop _ _ (fun _ _ => .bind (onlyUb_segment _ _ _) fun _ => .pure _) _) fun _ =>
        .bind (onlyUb_innerProd h' _ _ _ _ _) fun _ => .pure _
    · exact .inr fun dy idx => bind_error fun t => bind_error fun m => bind_error fun r => error_bind (innerProd_error h' hn _ _ _ _)
  · exact .inr fun dy idx => bind_error fun t => error_bind (h t)

theorem coeff_shape (lu : LU) (y tau : List ℝ) (idx : ℕ) (s : Interp) :
    (coeff lu y tau idx s).1.basis = s.basis ∧ (coeff lu y tau idx s).1.codim = s.codim ∧ (coeff lu y tau idx s).1.n = s.n := by
  unfold coeff
  split_ifs
  · exact ⟨rfl, rfl, rfl⟩
  · exact ⟨rfl, rfl, rfl⟩
  · cases Interp.fillDer s.basis s.codim s.n tau idx (s.ders idx) with
    | error e => exact ⟨rfl, rfl, rfl⟩
    | ok d =>
      dsimp only
      split_ifs
      · exact ⟨rfl, rfl, rfl⟩
      · cases Interp.fillMatrix s.basis s.codim s.n tau s.mat with
        | error e => exact ⟨rfl, rfl, rfl⟩
        | ok m =>
          dsimp only
          split_ifs <;> exact ⟨rfl, rfl, rfl⟩

/-- If the gradient throws, nothing was written into the buffer. -/
theorem grad_buffer {lu : LU} {tau buff : List ℝ} {s : Sobolev} (h : Throws (grad lu tau buff s).2) : (grad lu tau buff s).1.2 = buff := by
  unfold grad at h ⊢
  rcases hS : solve lu tau s.points s.interp with ⟨i, r⟩
  rw [hS] at h
  cases r with
  | error e => rfl
  | ok y =>
    dsimp only at h ⊢
    have hsol : s.interp.solveInterpolation lu tau s.points = .ok (i, y) := by rw [← solve_drop, hS]; rfl
    obtain ⟨ht, -⟩ := solve_ok hsol
    rcases Nat.eq_zero_or_pos i.n with h0 | hn
    · rw [h0]; rfl
    rcases gradValue_cases i.basis s.mem s.weights hn i.codim i.size tau y with hv | hv
    · exfalso
      rcases loop_ind (fun _ (st : Interp × List ℝ) => st.1.basis = i.basis ∧ st.1.codim = i.codim ∧ st.1.n = i.n) i.n (gradPass lu s tau y) (i, buff) ⟨rfl, rfl, rfl⟩
        (fun idx _ st hst _ => by
          have hsh := coeff_shape lu y tau idx st.1
          rw [hst.1, hst.2.1, hst.2.2] at hsh
          unfold gradPass
          rcases hc : coeff lu y tau idx st.1 with ⟨j, q⟩
          rw [hc] at hsh
          cases q with
          | error e => exact hsh
          | ok dy =>
            dsimp only
            cases gradValue j.basis s.mem s.weights j.n j.codim j.size tau y dy idx with
            | error e => exact hsh
            | ok v => dsimp only; split_ifs <;> exact hsh) with ⟨h1, -⟩ | ⟨e, h1, idx, -, st, hst, h3⟩
      · obtain ⟨e, h2, -⟩ := h; rw [h1] at h2; cases h2
      · rw [← h3] at h
        unfold gradPass at h
        have hsh := coeff_shape lu y tau idx st.1
        rw [hst.1, hst.2.1, hst.2.2] at hsh
        rcases coeff_cases lu y tau idx st.1 with ⟨x, h4, -⟩ | ⟨-, -, h4⟩ | ⟨e', h4, h5⟩
        · rw [show coeff lu y tau idx st.1 = ((coeff lu y tau idx st.1).1, .ok x) from Prod.ext rfl h4] at h
          dsimp only at h
          unfold Interp.size at hv h
          rw [hsh.1, hsh.2.1, hsh.2.2] at h
          cases hg : gradValue i.basis s.mem s.weights i.n i.codim (i.basis.dim * i.codim * i.n) tau y x idx with
          | error e' =>
            rw [hg] at h
            obtain ⟨e'', h6, h7⟩ := h
            cases h6
            rw [hv x idx e' hg] at h7
            exact h7
          | ok v =>
            rw [hg] at h
            dsimp only at h
            split_ifs at h
            · obtain ⟨e'', h6, -⟩ := h; cases h6
            · obtain ⟨e'', h6, h7⟩ := h; cases h6; exact h7
        · obtain ⟨x, hx, hx'⟩ := h4
          exact absurd (ht x hx) (not_le.mpr hx')
        · rw [show coeff lu y tau idx st.1 = ((coeff lu y tau idx st.1).1, .error e') from Prod.ext rfl h4] at h
          obtain ⟨e'', h6, h7⟩ := h
          cases h6
          exact h5 h7
    · have pass : ∀ idx st, st.1.basis = i.basis ∧ st.1.codim = i.codim ∧ st.1.n = i.n → (∃ e, (gradPass lu s tau y idx st).2 = .error e) ∧ (gradPass lu s tau y idx st).1.2 = st.2 := by
        intro idx st hst
        have hsh := coeff_shape lu y tau idx st.1
        rw [hst.1, hst.2.1, hst.2.2] at hsh
        unfold gradPass
        rcases hc : coeff lu y tau idx st.1 with ⟨j, q⟩
        rw [hc] at hsh
        cases q with
        | error e => exact ⟨⟨e, rfl⟩, rfl⟩
        | ok dy =>
          dsimp only at hsh ⊢
          unfold Interp.size at hv ⊢
          rw [hsh.1, hsh.2.1, hsh.2.2]
          obtain ⟨e, he⟩ := hv dy idx
          rw [he]
          exact ⟨⟨e, rfl⟩, rfl⟩
      rcases loop_ind (fun k (st : Interp × List ℝ) => k = 0 ∧ (st.1.basis = i.basis ∧ st.1.codim = i.codim ∧ st.1.n = i.n) ∧ st.2 = buff) i.n (gradPass lu s tau y) (i, buff)
        ⟨rfl, ⟨rfl, rfl, rfl⟩, rfl⟩ (fun idx _ st hst hok => by
          obtain ⟨e, he⟩ := (pass idx st hst.2.1).1
          rw [he] at hok; cases hok) with ⟨-, h1, -⟩ | ⟨e, h1, idx, -, st, hst, h3⟩
      · omega
      · rw [← h3, (pass idx st hst.2.1).2, hst.2.2]

end GSplines.Failure
