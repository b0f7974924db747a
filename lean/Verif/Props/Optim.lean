import Verif.Spec.Optim
import Verif.Proofs.Scaling
import Verif.Props.Sobolev
import Mathlib.Algebra.BigOperators.Group.List.Basic
import Mathlib.Analysis.Calculus.Deriv.Add

/-!
# C52, C53, C55: the optimisation problem and the optimisers
-/

namespace GSplines.Props

open GSplines.Optim GSplines.Spec Finset

/-! ## C53 -/

theorem problem_var {mem : Memory} {w : Pts} {b : Basis} {weights : List (ℕ × ℝ)} {T : ℝ} {p : Problem} (h : problem mem w b weights T = .ok p) :
    p.var = TimeVar.make (w.rows - 1) T ∧ p.con = TimeCon.make T := by
  unfold problem at h
  cases hc : CostTerm.make w b weights mem.lag mem.junk2 mem.buff with
  | error e => rw [hc] at h; cases h
  | ok c => rw [hc] at h; cases h; exact ⟨rfl, rfl⟩

theorem feasible_iff {mem : Memory} {w : Pts} {b : Basis} {weights : List (ℕ × ℝ)} {T : ℝ} {p : Problem} (h : problem mem w b weights T = .ok p) (x : List ℝ) :
    Feasible p x ↔ x.length = w.rows - 1 ∧ (∀ t ∈ x, 0 ≤ t ∧ t ≤ ifoptInf) ∧ x.sum = T := by
  obtain ⟨h1, h2⟩ := problem_var h
  have hb : ∀ l : List ℝ, ∀ n, List.Forall₂ (fun v (b : ℝ × ℝ) => b.1 ≤ v ∧ v ≤ b.2) l (List.replicate n (0, ifoptInf)) ↔
      l.length = n ∧ ∀ t ∈ l, 0 ≤ t ∧ t ≤ ifoptInf := by
    intro l
    induction l with
    | nil => intro n; cases n <;> simp [List.replicate_succ]
    | cons a as ih =>
      intro n
      cases n with
      | zero => simp
      | succ n =>
        rw [List.replicate_succ, List.forall₂_cons, ih]
        simp only [List.length_cons, Nat.add_right_cancel_iff, List.forall_mem_cons]
        constructor
        · rintro ⟨a1, a2, a3⟩; exact ⟨a2, a1, a3⟩
        · rintro ⟨a1, a2, a3⟩; exact ⟨a2, a1, a3⟩
  constructor
  · rintro ⟨f1, f2, f3⟩
    rw [h1] at f1 f2
    rw [h2] at f3
    unfold TimeCon.value TimeCon.make at f3
    rw [List.forall₂_cons] at f3
    obtain ⟨g1, g2⟩ := (hb _ _).mp f2
    exact ⟨g1, g2, le_antisymm f3.1.2 f3.1.1⟩
  · rintro ⟨g1, g2, g3⟩
    refine ⟨by rw [h1]; exact g1, by rw [h1]; exact (hb _ _).mpr ⟨g1, g2⟩, ?_⟩
    rw [h2]
    unfold TimeCon.value TimeCon.make TimeVar.setVariables
    rw [List.forall₂_cons]
    exact ⟨⟨g3.ge, g3.le⟩, .nil⟩

/-- **C53.** If the problem that `optimal_sobolev_norm` builds has any feasible point, the point where the variables start is one, for every number of way
points and every execution time. The bounds of the variables and of the constraint have lower at most upper, and there is one for each component. -/
theorem C53_start_feasible (mem : Memory) (w : Pts) (b : Basis) (weights : List (ℕ × ℝ)) (T : ℝ) (p : Problem) (h : problem mem w b weights T = .ok p) :
    (∀ x, Feasible p x → Feasible p p.var.values) ∧
    p.var.bounds.length = p.var.rows ∧ p.var.values.length = p.var.rows ∧ (∀ q ∈ p.var.bounds, q.1 ≤ q.2) ∧
    p.con.bounds.length = (p.con.value p.var).length ∧ ∀ q ∈ p.con.bounds, q.1 ≤ q.2 := by
  obtain ⟨h1, h2⟩ := problem_var h
  refine ⟨fun x hx => ?_, by rw [h1]; simp [TimeVar.make], by rw [h1]; simp [TimeVar.make], ?_, by rw [h2]; rfl, ?_⟩
  · rw [feasible_iff h] at hx ⊢
    obtain ⟨g1, g2, g3⟩ := hx
    rw [h1]
    refine ⟨by simp [TimeVar.make], ?_, ?_⟩
    · intro t ht
      simp only [TimeVar.make, List.map_replicate, List.mem_replicate] at ht
      obtain ⟨hn, rfl⟩ := ht
      have hn' : (0 : ℝ) < ((w.rows - 1 : ℕ) : ℝ) := by exact_mod_cast Nat.pos_of_ne_zero hn
      rw [one_mul]
      constructor
      · rw [← g3]
        exact div_nonneg (List.sum_nonneg fun t ht => (g2 t ht).1) hn'.le
      · rw [div_le_iff₀ hn', ← g3, ← g1, mul_comm]
        have := List.sum_le_card_nsmul x ifoptInf fun t ht => (g2 t ht).2
        simpa [nsmul_eq_mul] using this
    · simp only [TimeVar.make, List.map_replicate, List.sum_replicate, one_mul, nsmul_eq_mul]
      by_cases hn : w.rows - 1 = 0
      · rw [hn] at g1
        rw [List.length_eq_zero_iff.mp g1] at g3
        rw [hn]
        simpa using g3
      · have hn' : ((w.rows - 1 : ℕ) : ℝ) ≠ 0 := by exact_mod_cast hn
        field_simp
  · rw [h1]
    intro q hq
    simp only [TimeVar.make, List.mem_replicate] at hq
    rw [hq.2]
    norm_num [ifoptInf]
  · rw [h2]
    intro q hq
    simp only [TimeCon.make, List.mem_singleton] at hq
    rw [hq]

theorem ones_loop (n : ℕ) (jac : Mat) (i j : ℕ) : forLoop 0 n (fun i m => setAt2 m 0 i (1 : ℝ)) jac i j = if i = 0 ∧ j < n then 1 else jac i j := by
  refine forLoop_ind (P := fun k (m : Mat) => m i j = if i = 0 ∧ j < k then 1 else jac i j) (Nat.zero_le n) _ _ (by simp) ?_
  intro k m _ _ ih
  rw [setAt2_apply, ih]
  by_cases hi : i = 0
  · by_cases hj : j = k
    · simp [hi, hj]
    · simp only [hi, true_and, hj, if_false]
      have : j < k ↔ j < k + 1 := by omega
      simp only [this]
  · simp [hi]

/-- **C53.** The block that the time constraint writes is the derivative of its value: for every number of variables, every point, every coordinate and
whatever the block contained; entries outside the block's row and columns are not touched. -/
theorem C53_constraint_jacobian (n : ℕ) (T : ℝ) (x : List ℝ) (hx : x.length = n) (jac : Mat) :
    (∀ i < n, HasDerivAt (fun z => vecOf ((TimeCon.make T).value ((TimeVar.make n T).setVariables (x.set i z))) 0)
      ((TimeCon.make T).fillJacobian ((TimeVar.make n T).setVariables x) jac 0 i) (vecOf x i)) ∧
    ∀ r i, r ≠ 0 ∨ n ≤ i → (TimeCon.make T).fillJacobian ((TimeVar.make n T).setVariables x) jac r i = jac r i := by
  have hrows : ((TimeVar.make n T).setVariables x).rows = n := rfl
  refine ⟨fun i hi => ?_, fun r i hr => ?_⟩
  · unfold TimeCon.fillJacobian
    rw [hrows, ones_loop, if_pos ⟨rfl, hi⟩]
    have e : (fun z => vecOf ((TimeCon.make T).value ((TimeVar.make n T).setVariables (x.set i z))) 0) = fun z => z + (x.sum - vecOf x i) := by
      funext z
      change (x.set i z).sum = _
      rw [List.sum_set', dif_pos (by omega)]
      have : x[i]'(by omega) = vecOf x i := by
        unfold vecOf; rw [List.getD_eq_getElem?_getD, List.getElem?_eq_getElem (by omega)]; rfl
      rw [this]; ring
    rw [e]
    exact (hasDerivAt_id _).add_const _
  · unfold TimeCon.fillJacobian
    rw [hrows, ones_loop, if_neg (by omega)]

theorem gradStep_length {lu : LU} {s : Sobolev} {tau y : List ℝ} {idx : ℕ} {st st' : Interp × List ℝ} (h : s.gradStep lu tau y idx st = .ok st') :
    st'.2.length = st.2.length := by
  unfold Sobolev.gradStep at h
  cases h1 : st.1.coeffDerivative lu y tau idx with
  | error e => rw [h1] at h; cases h
  | ok q =>
    rw [h1, Interp.ok_bind] at h
    dsimp only at h
    cases h2 : rd tau idx with
    | error e => rw [h2] at h; cases h
    | ok t =>
      rw [h2, Interp.ok_bind] at h
      cases h3 : Sobolev.matrixDtau q.1.basis s.mem s.weights t with
      | error e => rw [h3] at h; cases h
      | ok m =>
        rw [h3, Interp.ok_bind] at h
        simp only [bind, Except.bind] at h
        split at h
        · cases h
        · split at h
          · cases h
          · split_ifs at h
            cases h
            simp

theorem grad_length {lu : LU} {s s' : Sobolev} {tau buff out : List ℝ} (h : s.grad lu tau buff = .ok (s', out)) : out.length = buff.length := by
  unfold Sobolev.grad at h
  cases h1 : s.interp.solveInterpolation lu tau s.points with
  | error e => rw [h1] at h; cases h
  | ok q =>
    rw [h1, Interp.ok_bind] at h
    dsimp only at h
    cases h2 : forLoopM 0 q.1.n (s.gradStep lu tau q.2) (q.1, buff) with
    | error e => rw [h2] at h; cases h
    | ok st =>
      rw [h2] at h
      cases h
      exact GLL.forLoopM_ind (fun _ (st : Interp × List ℝ) => st.2.length = buff.length) (Nat.zero_le _) _ rfl
        (fun i _ _ a b ha hb => (gradStep_length hb).trans ha) h2

theorem creach_inv {lu : LU} {w : Pts} {b : Basis} {weights : List (ℕ × ℝ)} {mem : LagMem} {c : CostTerm} (h : CReach lu w b weights mem c) :
    SReach lu w b weights mem c.sob ∧ w.rows - 1 ≤ c.buff2.length := by
  induction h with
  | @make junk buff c h =>
    unfold CostTerm.make at h
    cases hs : Sobolev.make w b weights mem junk with
    | error e => rw [hs] at h; cases h
    | ok s => rw [hs] at h; cases h; exact ⟨.make hs, by simp⟩
  | @cost c c' v r _ h ih =>
    unfold CostTerm.getCost at h
    cases hs : c.sob.cost lu v.values with
    | error e => rw [hs] at h; cases h
    | ok s => rw [hs] at h; cases h; exact ⟨.cost ih.1 hs, ih.2⟩
  | @jacobian c c' v jac jac' _ h ih =>
    unfold CostTerm.fillJacobian at h
    cases hs : c.sob.grad lu v.values c.buff2 with
    | error e => rw [hs] at h; cases h
    | ok s =>
      obtain ⟨s, out⟩ := s
      rw [hs] at h
      rw [Interp.ok_bind] at h
      dsimp only at h
      cases hl : forLoopM 0 v.rows (fun i m => do
          let x ← rd out i
          return setAt2 m 0 i x) jac with
      | error e => rw [hl] at h; cases h
      | ok m =>
        rw [hl] at h
        cases h
        exact ⟨.grad ih.1 hs, by rw [grad_length hs]; exact ih.2⟩

/-- The loop of `FillJacobianBlock`. -/
theorem jacobian_loop {out : List ℝ} {n : ℕ} (hn : n ≤ out.length) (jac : Mat) : ∃ m, forLoopM 0 n (fun i m => do
          let x ← rd out i
          return setAt2 m 0 i x) jac = .ok m ∧ ∀ r i, m r i = if r = 0 ∧ i < n then vecOf out i else jac r i := by
  refine Sobolev.forLoopM_total (P := fun k (m : Mat) => ∀ r i, m r i = if r = 0 ∧ i < k then vecOf out i else jac r i) (Nat.zero_le _) _ (by simp) ?_
  intro k _ hk m ih
  rw [rd_ok (by omega)]
  refine ⟨_, rfl, fun r i => ?_⟩
  rw [setAt2_apply, ih]
  by_cases hr : r = 0
  · by_cases hi : i = k
    · simp [hr, hi]
    · simp only [hr, true_and, hi, if_false]
      have : i < k ↔ i < k + 1 := by omega
      simp only [this]
  · simp [hr]

/-- **C60**, partial as C42: in every state of the cost term, for a basis and weights for which C42 is proved and at interval lengths of at least
`1e-6`, `FillJacobianBlock` succeeds and writes in entry `i` the derivative of `GetCost` with respect to variable `i`. -/
theorem C60_cost_jacobian_partial (lu : LU) (hlu : LUContract lu) (w : Pts) (hw : 2 ≤ w.rows) (b : Basis) (hb : Interpolable b) (weights : List (ℕ × ℝ))
    (ho : ∀ a, b = .b0101 a → ∀ p ∈ weights, p.1 = 1 ∨ p.1 = 3) (mem : LagMem)
    (hm : ∀ x, b = .lagrange x → ∀ i < x.length, ∀ j < x.length, mem.junk i j = mem.junk j i) (c : CostTerm) (hc : CReach lu w b weights mem c)
    (T : ℝ) (x : List ℝ) (hlen : x.length + 1 = w.rows) (ht : ∀ t ∈ x, 1 / 10 ^ 6 ≤ t) (jac : Mat) :
    ∃ c' jac', c.fillJacobian lu ((TimeVar.make x.length T).setVariables x) jac = .ok (c', jac') ∧ (∀ r i, r ≠ 0 ∨ x.length ≤ i → jac' r i = jac r i) ∧
      ∀ i < x.length, 1 / 10 ^ 6 < vecOf x i →
      ∃ F : ℝ → ℝ, (∀ᶠ z in nhds (vecOf x i), ∃ c'', c.getCost lu ((TimeVar.make x.length T).setVariables (x.set i z)) = .ok (c'', F z)) ∧
        HasDerivAt F (jac' 0 i) (vecOf x i) := by
  obtain ⟨hs, hbuf⟩ := creach_inv hc
  obtain ⟨s', out, h1, h2, h3⟩ := C42_gradient_partial lu hlu w hw b hb weights ho mem hm c.sob hs x hlen ht c.buff2 (by omega)
  obtain ⟨m, hm1, hm2⟩ := jacobian_loop (n := x.length) (out := out) (by omega) jac
  refine ⟨⟨s', out⟩, m, ?_, fun r i hr => by rw [hm2, if_neg (by omega)], fun i hi hti => ?_⟩
  · unfold CostTerm.fillJacobian
    change (c.sob.grad lu x c.buff2 >>= _) = _
    rw [h1, Interp.ok_bind]
    dsimp only
    change (forLoopM 0 x.length _ jac >>= _) = _
    rw [hm1]
    rfl
  · obtain ⟨F, f1, f2⟩ := h3 i hi hti
    refine ⟨F, ?_, by rw [hm2, if_pos ⟨rfl, hi⟩]; exact f2⟩
    filter_upwards [f1] with z hz
    obtain ⟨s'', hz⟩ := hz
    refine ⟨⟨s'', c.buff2⟩, ?_⟩
    unfold CostTerm.getCost
    change (c.sob.cost lu (x.set i z) >>= _) = _
    rw [hz]
    rfl

/-- **C60** (where it fails): way points 0, 0, 1, four equidistant Lagrange nodes and order 0. If the memory that the constructor of the basis leaves unassigned
contains a 1 in row 1 and column 3 and zeros elsewhere, then in every state of the cost term, at interval lengths 1 and 1, the derivative of `GetCost` with
respect to the first length is the entry of the Jacobian plus 1/36. -/
theorem C60_memory_false (lu : LU) (hlu : LUContract lu) (w : Vec) (c : CostTerm)
    (hc : CReach lu ⟨3, 1, fun i _ => if i = 2 then 1 else 0⟩ (.lagrange [-1, -1 / 3, 1 / 3, 1]) [(0, 1)] ⟨w, fun i j => if i = 1 ∧ j = 3 then 1 else 0⟩ c)
    (T : ℝ) (jac : Mat) :
    ∃ c' jac', c.fillJacobian lu ((TimeVar.make 2 T).setVariables [1, 1]) jac = .ok (c', jac') ∧
      ∃ F : ℝ → ℝ, (∀ᶠ z in nhds (1 : ℝ), ∃ c'', c.getCost lu ((TimeVar.make 2 T).setVariables [z, 1]) = .ok (c'', F z)) ∧
        HasDerivAt F (jac' 0 0 + 1 / 36) 1 ∧ ¬ HasDerivAt F (jac' 0 0) 1 := by
  obtain ⟨hs, hbuf⟩ := creach_inv hc
  have hbuf : 2 ≤ c.buff2.length := hbuf
  obtain ⟨s', out, h1, h2, F, h3, h4⟩ := Sobolev.memory_wrong hlu w hs (buff := c.buff2) (by omega)
  obtain ⟨m, hm1, hm2⟩ := jacobian_loop (n := 2) (out := out) (by omega) jac
  have hm0 : m 0 0 = vecOf out 0 := by rw [hm2, if_pos (by norm_num)]
  refine ⟨⟨s', out⟩, m, ?_, F, ?_, by rw [hm0]; exact h4, fun h => ?_⟩
  · unfold CostTerm.fillJacobian
    change (c.sob.grad lu [1, 1] c.buff2 >>= _) = _
    rw [h1, Interp.ok_bind]
    dsimp only
    change (forLoopM 0 2 _ jac >>= _) = _
    rw [hm1]
    rfl
  · filter_upwards [h3] with z hz
    obtain ⟨s'', hz⟩ := hz
    refine ⟨⟨s'', c.buff2⟩, ?_⟩
    unfold CostTerm.getCost
    change (c.sob.cost lu [z, 1] >>= _) = _
    rw [hz]
    rfl
  · rw [hm0] at h
    have := h.unique h4
    norm_num at this

/-- Such a cost term exists. -/
example (w : Vec) : ∃ c, CReach exactLU ⟨3, 1, fun i _ => if i = 2 then 1 else 0⟩ (.lagrange [-1, -1 / 3, 1 / 3, 1]) [(0, 1)]
    ⟨w, fun i j => if i = 1 ∧ j = 3 then 1 else 0⟩ c := ⟨_, .make (junk := fun _ => 0) (buff := fun _ => 0) rfl⟩

end GSplines.Props
