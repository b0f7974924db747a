import Verif.Proofs.FailureSobolev
import Verif.Proofs.FailureColloc
import Verif.Props.CollocAssign
import Verif.Props.Sobolev
import Verif.Props.CostLaws

/-!
# C76: objects after a call that threw
-/

namespace GSplines.Props

open GSplines Spec Finset Colloc Failure

/-! ## The two models of the calls -/

/-- **C76.** The calls modelled with the object at their end are the calls of the rest of the model: the same outcome, and the same object if they return. -/
theorem C76_same_calls :
    (∀ lu tau w s, dropState' (Failure.solve lu tau w s) = Interp.solveInterpolation lu s tau w) ∧
    (∀ lu tau w s, dropState' (Failure.interpolate lu tau w s) = Interp.interpolate lu s tau w) ∧
    (∀ lu y tau idx s, dropState' (Failure.coeff lu y tau idx s) = Interp.coeffDerivative lu s y tau idx) ∧
    (∀ lu tau s, dropState' (Failure.cost lu tau s) = Sobolev.cost lu s tau) ∧
    (∀ lu tau buff s, dropState (Failure.grad lu tau buff s) = Sobolev.grad lu s tau buff) ∧
    (∀ a b, dropState (Failure.assign a b) = Colloc.assign a b) ∧
    (∀ a f, dropState (Failure.assignFn (evOf f) a) = Colloc.assignFn a f) ∧
    (∀ a dom vs, dropState (Failure.setFromArray dom (vs.map .ok) a) = Colloc.setFromArray a dom vs) ∧
    (∀ T f jp jw junk, dropState (Failure.tlmAssignFn f jp jw junk T) = TLM.assignFn T f jp jw junk) ∧
    (∀ T g, dropState (Failure.tlmAssign g T) = TLM.assign T g) ∧
    (∀ L Ms, dropState (Failure.mlmUpdateEach (Ms.map .ok) L) = MLM.updateEach L Ms) ∧
    (∀ L M, dropState (Failure.mlmUpdateAll M L) = MLM.updateAll L M) :=
  ⟨solve_drop, interpolate_drop, coeff_drop, cost_drop, grad_drop, assign_drop, fun a f => assignFn_drop f a, fun a dom vs => setFromArray_drop dom vs a,
    fun T f jp jw junk => tlmAssignFn_drop f jp jw junk T, fun T g => tlmAssign_drop g T, fun L Ms => mlmUpdateEach_drop Ms L, fun L M => mlmUpdateAll_drop M L⟩

/-! ## Interpolator -/

/-- **C76.** `solve_interpolation` and `get_coeff_derivative_wrt_tau` leave the interpolator as it was if they throw. -/
theorem C76_interpolator_kept (lu : LU) (s : Interp) :
    (∀ tau w, Throws (Failure.solve lu tau w s).2 → (Failure.solve lu tau w s).1 = s) ∧
    ∀ y tau idx, Throws (Failure.coeff lu y tau idx s).2 → (Failure.coeff lu y tau idx s).1 = s := by
  constructor
  · rintro tau w ⟨e, he, ht⟩
    rcases solve_cases lu tau w s with ⟨x, h1, -⟩ | ⟨-, h2⟩ | h1
    · rw [h1] at he; cases he
    · exact h2
    · rw [h1] at he; cases he; exact ht.elim
  · rintro y tau idx ⟨e, he, ht⟩
    rcases coeff_cases lu y tau idx s with ⟨x, h1, -⟩ | ⟨-, h2, -⟩ | ⟨e', h1, h2⟩
    · rw [h1] at he; cases he
    · exact h2
    · rw [h1] at he; cases he; exact absurd ht h2

/-- **C76.** What `solve_interpolation` and `interpolate` return or throw does not depend on the earlier calls of the interpolator, whether they returned or threw. -/
theorem C76_interpolator (lu : LU) (hlu : LUContract lu) (codim n : ℕ) (hn : 0 < n) (b : Basis) (hb : Interpolable b) (s s0 : Interp) (hs : IHistory lu codim n b s)
    (hs0 : IHistory lu codim n b s0) (tau : List ℝ) (w : Pts) (hw : w.rows = n + 1) (hc : w.cols = codim) :
    (Failure.solve lu tau w s).2 = (Failure.solve lu tau w s0).2 ∧ (Failure.interpolate lu tau w s).2 = (Failure.interpolate lu tau w s0).2 := by
  have hR := history_reach hs
  have hR0 := history_reach hs0
  have hsame := solve_same hlu hn hb hR hR0 tau hw hc
  refine ⟨hsame, ?_⟩
  have U := usable_of hb.valid hb.even hb.ne hb.left hb.right
  unfold Failure.interpolate
  rcases hS : Failure.solve lu tau w s with ⟨i, r⟩
  rcases hS0 : Failure.solve lu tau w s0 with ⟨i0, r0⟩
  rw [hS, hS0] at hsame
  obtain rfl : r = r0 := hsame
  cases r with
  | error e => rfl
  | ok x =>
    have h1 : Interp.solveInterpolation lu s tau w = .ok (i, x) := by rw [← solve_drop, hS]; rfl
    have h2 : Interp.solveInterpolation lu s0 tau w = .ok (i0, x) := by rw [← solve_drop, hS0]; rfl
    obtain ⟨-, e1, e2, e3⟩ := Interp.reach_inv U hn (.solve hR h1)
    obtain ⟨-, f1, f2, f3⟩ := Interp.reach_inv U hn (.solve hR0 h2)
    dsimp only
    rw [e1, e2, e3, f1, f2, f3]

/-! ## SobolevNorm -/

/-- **C76.** The cost and the gradient, the exceptions and what is written into the buffer of the caller do not depend on the earlier calls of the object, whether
they returned or threw. -/
theorem C76_sobolev (lu : LU) (hlu : LUContract lu) (w : Pts) (hw : 2 ≤ w.rows) (b : Basis) (hb : Interpolable b) (weights : List (ℕ × ℝ)) (mem : LagMem)
    (s s0 : Sobolev) (hs : SHistory lu w b weights mem s) (hs0 : SHistory lu w b weights mem s0) (tau buff : List ℝ) :
    (Failure.cost lu tau s).2 = (Failure.cost lu tau s0).2 ∧ (Failure.grad lu tau buff s).2 = (Failure.grad lu tau buff s0).2 ∧
      (Failure.grad lu tau buff s).1.2 = (Failure.grad lu tau buff s0).1.2 :=
  sobolev_same hlu hw hb hs hs0 tau buff

/-- **C76.** If the gradient throws, the buffer of the caller is as it was. -/
theorem C76_gradient_buffer (lu : LU) (s : Sobolev) (tau buff : List ℝ) (h : Throws (Failure.grad lu tau buff s).2) : (Failure.grad lu tau buff s).1.2 = buff :=
  grad_buffer h

/-! ## Collocation splines and functionals -/

/-- **C76.** The assignment of a spline to a spline, the assignments to a `TransposeLeftMultiplication`, the update of a `MatrixLeftMultiplication` with one matrix
and the update of an `Integral` with interval lengths leave the object as it was if they throw. -/
theorem C76_kept :
    (∀ a b, Throws (Failure.assign a b).2 → (Failure.assign a b).1 = a) ∧
    (∀ T f jp jw junk, Throws (Failure.tlmAssignFn f jp jw junk T).2 → (Failure.tlmAssignFn f jp jw junk T).1 = T) ∧
    (∀ T g, Throws (Failure.tlmAssign g T).2 → (Failure.tlmAssign g T).1 = T) ∧
    (∀ L M, Throws (Failure.mlmUpdateAll M L).2 → (Failure.mlmUpdateAll M L).1 = L) ∧
    ∀ I tau jp jw junk, Throws (Failure.integUpdate tau jp jw junk I).2 → (Failure.integUpdate tau jp jw junk I).1 = I :=
  ⟨fun _ _ => assign_grid, fun _ _ _ _ _ => tlmAssignFn_kept, fun _ _ => tlmAssign_kept, fun _ _ => mlmUpdateAll_kept, fun _ _ _ _ _ => integUpdate_kept⟩

/-- **C76, partial:** a spline on which function assignments, `set_from_array` and assignments of splines threw, any number of times, is not what it was, but its
numbers of components, nodes, intervals and coefficients are, its interval lengths are the old ones up to a positive factor, and the next function assignment or
`set_from_array` has the outcome that it would have had without the calls that threw, with the same object if it returns. -/
theorem C76_assign_function_partial (a c : GSpline) (hc : Consistent a) (ha : 0 < a.tau.sum) (h : CFailed a c) :
    (c.codim = a.codim ∧ c.basis = a.basis ∧ Consistent c ∧ ∃ x : ℝ, 0 < x ∧ c.tau = a.tau.map (· * x)) ∧
    (∀ f, (Failure.assignFn f c).2 = (Failure.assignFn f a).2 ∧ ((Failure.assignFn f a).2 = .ok () → (Failure.assignFn f c).1 = (Failure.assignFn f a).1)) ∧
    ∀ dom vs, (Failure.setFromArray dom vs c).2 = (Failure.setFromArray dom vs a).2 ∧
      ((Failure.setFromArray dom vs a).2 = .ok () → (Failure.setFromArray dom vs c).1 = (Failure.setFromArray dom vs a).1) := by
  have g := cfailed_grid ha h
  refine ⟨⟨g.codim, g.basis, ?_, g.tau⟩, fun f => ?_, fun dom vs => ?_⟩
  · unfold Consistent
    rw [g.coeffs, g.length, g.basis, g.codim]; exact hc
  · obtain ⟨h1, h2⟩ := assignFn_again (f := f) hc ha g
    exact ⟨h1.symm, fun h => (h2 h).symm⟩
  · obtain ⟨h1, h2⟩ := setFromArray_again (dom := dom) (vs := vs) hc ha g
    exact ⟨h1.symm, fun h => (h2 h).symm⟩

/-- **C76, partial:** a `MatrixLeftMultiplication` on which updates threw, any number of times, has its sizes, and the next update with a matrix for every node has
the outcome that it would have had without the calls that threw, with the same object if it returns. -/
theorem C76_update_each_partial (L K : MLM) (h : MFailed L K) :
    (K.nglp = L.nglp ∧ K.nInt = L.nInt ∧ K.rows = L.rows ∧ K.cols = L.cols ∧ K.lf.rows = L.lf.rows ∧ K.lf.cols = L.lf.cols) ∧
    ∀ Ms, (Failure.mlmUpdateEach Ms K).2 = (Failure.mlmUpdateEach Ms L).2 ∧
      ((Failure.mlmUpdateEach Ms L).2 = .ok () → (Failure.mlmUpdateEach Ms K).1 = (Failure.mlmUpdateEach Ms L).1) := by
  have g := mfailed_agree h
  refine ⟨?_, fun Ms => ?_⟩
  · obtain ⟨m, hm⟩ := g.1
    rw [hm]; exact ⟨rfl, rfl, rfl, rfl, rfl, rfl⟩
  · obtain ⟨h1, h2⟩ := mlmUpdateEach_agree (Ms := Ms) g
    exact ⟨h1.symm, fun h => (h2 h).symm⟩

/-- A spline with the value 0 at all nodes, two nodes per interval. -/
noncomputable def still : GSpline := ⟨(0, 2), 1, .lagrange [-1, 1], [0, 0, 0, 0, 0, 0], [1 / 2, 1 / 2 + 1 / (2 * 10 ^ 9), 1 - 1 / (2 * 10 ^ 9)]⟩

/-- Two constant pieces with a gap that concatenation accepts. -/
noncomputable def gapFn : Fn := .expr (0, 2) 1 .concat [Fn.wrap (.const (0, 1) [7]), Fn.wrap (.const (1 + 1 / 10 ^ 9, 2) [7])]

theorem gapFn_built : Fn.concat ⟨false, false⟩ (.const (0, 1) [7]) (.const (1 + 1 / 10 ^ 9, 2) [7]) = .ok gapFn := by
  unfold Fn.concat
  rw [if_neg (by simp [Fn.codim]), if_neg (by norm_num [Fn.dom, tol9]), if_neg (by simp), if_pos (by norm_num [Fn.dom])]
  rfl

theorem gapFn_low {t u : ℝ} (h0 : 0 ≤ t) (h1 : t < 1) (h2 : 0 ≤ u) (h3 : u < 1) : gapFn.run 1 [t, u] = .ok [[7], [7]] := by
  unfold gapFn
  rw [Fn.run]
  simp [Fn.evalTy, Fn.evs, Fn.evalConcat, Fn.pick, Fn.wrap, Fn.clone, Fn.run, Fn.dom, Fn.codim, Fn.Ev.has, h0, h1, h2, h3, Fn.evalUnique]
  rfl

theorem gapFn_gap {t u : ℝ} (h0 : 0 ≤ t) (h1 : t < 1) (h2 : 1 ≤ u) (h3 : u < 1 + 1 / 10 ^ 9) : gapFn.run 1 [t, u] = .error .invalidArgument := by
  have h4 : ¬ 1 + ((10 : ℝ) ^ 9)⁻¹ ≤ u := by rw [← one_div]; exact not_le.mpr h3
  have h5 : ¬ u < 1 := not_lt.mpr h2
  have h6 : ¬ u ≤ 0 := by linarith
  have h7 : ¬ 2 ≤ u := by
    have : (1 : ℝ) / 10 ^ 9 < 1 := by norm_num
    linarith
  unfold gapFn
  rw [Fn.run]
  simp [Fn.evalTy, Fn.evs, Fn.evalConcat, Fn.pick, Fn.wrap, Fn.clone, Fn.run, Fn.dom, Fn.codim, Fn.Ev.has, h0, h1, h4, h5, h6, h7, Fn.evalUnique]
  rfl

/-- **C76 is false:** a function assignment throws after it has changed the values at the nodes of the first interval. -/
theorem C76_assign_function_false : Fn.concat ⟨false, false⟩ (.const (0, 1) [7]) (.const (1 + 1 / 10 ^ 9, 2) [7]) = .ok gapFn ∧
    (Failure.assignFn (evOf gapFn) still).2 = .error .invalidArgument ∧ Colloc.valueAt still 0 = .ok [0] ∧
    Colloc.valueAt (Failure.assignFn (evOf gapFn) still).1 0 = .ok [7] := by
  have hsum : still.tau.sum = 2 := by norm_num [still]
  have key : Failure.assignFn (evOf gapFn) still = ({ still with coeffs := [7, 7, 0, 0, 0, 0] }, .error .invalidArgument) := by
    unfold Failure.assignFn
    rw [if_neg (by simp [still, evOf, gapFn, Fn.codim]), if_neg (by rw [hsum]; norm_num)]
    dsimp only
    have hm : still.tau.map (· * (((evOf gapFn).dom.2 - (evOf gapFn).dom.1) / still.tau.sum)) = still.tau := by
      rw [hsum, show (evOf gapFn).dom = (0, 2) from rfl]
      norm_num
    rw [hm]
    change (((Failure.loop 0 3 (Failure.assignFnPass (evOf gapFn)) (still, 0)).1.1), (Failure.loop 0 3 (Failure.assignFnPass (evOf gapFn)) (still, 0)).2) = _
    have p0 : Failure.assignFnPass (evOf gapFn) 0 (still, 0) = (({ still with coeffs := [7, 7, 0, 0, 0, 0] }, 1 / 2), .ok ()) := by
      have hr := gapFn_low (t := (-1 + 1) * vecOf still.tau 0 / 2 + 0) (u := (1 + 1) * vecOf still.tau 0 / 2 + 0) (by norm_num) (by norm_num) (by norm_num [still, vecOf])
        (by norm_num [still, vecOf])
      unfold Failure.assignFnPass
      dsimp only
      change (match gapFn.run 1 [(-1 + 1) * vecOf still.tau 0 / 2 + 0, (1 + 1) * vecOf still.tau 0 / 2 + 0] with | .error e => _ | .ok rows => _) = _
      rw [hr]
      norm_num [still, Basis.dim, List.range_succ, storeBlock, forLoop, setAt_apply, vecOf, entry, List.range']
    have p1 : Failure.assignFnPass (evOf gapFn) 1 ({ still with coeffs := [7, 7, 0, 0, 0, 0] }, 1 / 2) = (({ still with coeffs := [7, 7, 0, 0, 0, 0] }, 1 / 2), .error .invalidArgument) := by
      have hr := gapFn_gap (t := (-1 + 1) * vecOf still.tau 1 / 2 + 1 / 2) (u := (1 + 1) * vecOf still.tau 1 / 2 + 1 / 2) (by norm_num) (by norm_num) (by norm_num [still, vecOf])
        (by norm_num [still, vecOf])
      unfold Failure.assignFnPass
      dsimp only
      change (match gapFn.run 1 [(-1 + 1) * vecOf still.tau 1 / 2 + 1 / 2, (1 + 1) * vecOf still.tau 1 / 2 + 1 / 2] with | .error e => _ | .ok rows => _) = _
      rw [hr]
    rw [Failure.loop_succ, Failure.loop_succ, Failure.loop_succ, Failure.loop_zero]
    dsimp only
    rw [p0]
    dsimp only
    rw [p1]
  refine ⟨gapFn_built, by rw [key], ?_, ?_⟩
  · have := Colloc.valueAt_ok (g := still) (iv := 0) (k := 0) (by simp [Consistent, still, Basis.dim]) (by simp [still]) (by simp [still, Basis.dim])
    rw [show 0 * still.basis.dim + 0 = 0 by simp] at this
    rw [this]
    norm_num [nodalRow, nodal, still, vecOf]
  · rw [key]
    have := Colloc.valueAt_ok (g := { still with coeffs := [7, 7, 0, 0, 0, 0] }) (iv := 0) (k := 0) (by simp [Consistent, still, Basis.dim]) (by simp [still]) (by simp [still, Basis.dim])
    rw [show 0 * (Basis.dim still.basis) + 0 = 0 by simp] at this
    rw [this]
    norm_num [nodalRow, nodal, still, vecOf]

/-- **C76 is false:** `set_from_array` with a wrong number of elements throws after it has changed the domain, and the interval lengths do not sum up to the length
of the domain any more. -/
theorem C76_set_from_array_false : (Failure.setFromArray (5, 6) [] exNodesA).2 = .error .runtimeError ∧ exNodesA.dom = (0, 3) ∧ exNodesA.tau.sum = 3 ∧
    (Failure.setFromArray (5, 6) [] exNodesA).1.dom = (5, 6) ∧ (Failure.setFromArray (5, 6) [] exNodesA).1.tau.sum = 3 := by
  unfold Failure.setFromArray
  dsimp only
  rw [if_pos (by simp [exNodesA, Basis.dim, GSpline.nIntervals])]
  norm_num [exNodesA]

/-- **C76 is false:** the update with a matrix for every node throws at a matrix of a wrong size after it has stored the ones before. -/
theorem C76_update_each_false : (Failure.mlmUpdateEach [.ok ⟨1, 1, fun _ _ => 7⟩, .ok ⟨2, 2, fun _ _ => 7⟩] (MLM.ofSizes 1 2 1 1)).2 = .error .runtimeError ∧
    (MLM.ofSizes 1 2 1 1).lf.mat 0 0 = 0 ∧ (Failure.mlmUpdateEach [.ok ⟨1, 1, fun _ _ => 7⟩, .ok ⟨2, 2, fun _ _ => 7⟩] (MLM.ofSizes 1 2 1 1)).1.lf.mat 0 0 = 7 := by
  refine ⟨?_, rfl, ?_⟩
  · norm_num [Failure.mlmUpdateEach, MLM.ofSizes, Failure.loop_succ, Failure.loop_zero, Failure.mlmPass]
  · norm_num [Failure.mlmUpdateEach, MLM.ofSizes, Failure.loop_succ, Failure.loop_zero, Failure.mlmPass, MLM.writeNode, forLoop, setAt2_apply]

/-! ## Examples -/

/-- A new interpolator refuses an interval of length 0 twice and then solves the problem that any other one solves. -/
example (s0 : Interp) (h0 : IHistory exactLU 1 1 (.legendre 4) s0) : ∃ s : Interp, Throws (Failure.solve exactLU [0] standing s).2 ∧
    Throws (Failure.interpolate exactLU [0] standing (Failure.solve exactLU [0] standing s).1).2 ∧
    (Failure.interpolate exactLU [2] standing (Failure.interpolate exactLU [0] standing (Failure.solve exactLU [0] standing s).1).1).2 = (Failure.interpolate exactLU [2] standing s0).2 := by
  have bad : ∀ s : Interp, Failure.solve exactLU [0] standing s = (s, .error .invalidArgument) := fun s => by
    unfold Failure.solve
    rw [if_pos ⟨0, by simp, by norm_num⟩]
  have bad' : ∀ s : Interp, Failure.interpolate exactLU [0] standing s = (s, .error .invalidArgument) := fun s => by
    unfold Failure.interpolate
    rw [bad]
  refine ⟨(newNorm []).interp, by rw [bad]; exact ⟨_, rfl, trivial⟩, by rw [bad']; exact ⟨_, rfl, trivial⟩, ?_⟩
  have H : IHistory exactLU 1 1 (.legendre 4) (newNorm []).interp := .make (junk := fun _ => 0) rfl
  have H1 := IHistory.solve (tau := [0]) (w := standing) H (by rw [bad]; exact .inr ⟨_, rfl, trivial⟩)
  have H2 := IHistory.interpolate (tau := [0]) (w := standing) H1 (by rw [bad']; exact .inr ⟨_, rfl, trivial⟩)
  exact (C76_interpolator exactLU exactLU_contract 1 1 one_pos _ interpolable4 _ _ H2 h0 [2] standing rfl rfl).2

/-- With Basis0101 and order 2 the cost has a value and the gradient throws, in every state, after it has solved the interpolation problem. -/
theorem gradient_refuses (lu : LU) (hlu : LUContract lu) (mem : LagMem) (s : Sobolev) (hs : SHistory lu standing (.b0101 (1 / 2)) [(2, 1)] mem s) (buff : List ℝ) :
    (Failure.grad lu [1] buff s).2 = .error .invalidArgument := by
  obtain ⟨hR, hwt, hpt, hmem⟩ := shistory_reach hs
  have hb := interpolable0101 (a := 1 / 2) (by norm_num) (by norm_num)
  have ht : ∀ t ∈ [(1 : ℝ)], 1 / 10 ^ 6 ≤ t := by simp; norm_num
  obtain ⟨i, y, h1, e1, e2, e3, h4, -, -⟩ := Sobolev.solve_total hlu (by decide) hb hR (tau := [1]) (w := standing) rfl ht rfl rfl
  have hRi : Reach lu 1 1 (.b0101 (1 / 2)) i := .solve hR h1
  rw [← solve_drop] at h1
  unfold Failure.grad
  rw [hpt]
  rcases hS : Failure.solve lu [1] standing s.interp with ⟨i', r⟩
  rw [hS] at h1
  cases r with
  | error e => cases h1
  | ok y' =>
    cases h1
    dsimp only
    obtain ⟨d, -, h5, -, -, h6, -⟩ := coeff_same hlu hb hRi hRi (tau := [1]) rfl ht (idx := 0) one_pos h4
    obtain ⟨-, g1, g2, g3⟩ := Interp.reach_inv (usable_of hb.valid hb.even hb.ne hb.left hb.right) one_pos h6
    have hn : i.n = 1 := e3
    rw [hn, Failure.loop_succ, Failure.loop_zero]
    dsimp only
    unfold Failure.gradPass
    rw [show Failure.coeff lu y [1] 0 i = ((Failure.coeff lu y [1] 0 i).1, .ok d) from Prod.ext rfl h5]
    dsimp only
    rw [g1, g2, g3, hwt]
    rfl

/-- After the gradient has thrown, the buffer is as it was and the object gives the cost that a new one gives. -/
example (mem : LagMem) (s : Sobolev) (hs : Sobolev.make standing (.b0101 (1 / 2)) [(2, 1)] mem (fun _ => 0) = .ok s) :
    Throws (Failure.grad exactLU [1] [42] s).2 ∧ (Failure.grad exactLU [1] [42] s).1.2 = [42] ∧
      (Failure.cost exactLU [3] (Failure.grad exactLU [1] [42] s).1.1).2 = (Failure.cost exactLU [3] s).2 := by
  have H : SHistory exactLU standing (.b0101 (1 / 2)) [(2, 1)] mem s := .make hs
  have ht : Throws (Failure.grad exactLU [1] [42] s).2 := ⟨_, gradient_refuses exactLU exactLU_contract mem s H [42], trivial⟩
  exact ⟨ht, C76_gradient_buffer _ _ _ _ ht, (C76_sobolev exactLU exactLU_contract standing (by decide) _ (interpolable0101 (by norm_num) (by norm_num)) _ mem _ _
    (.grad H (.inr ht)) H [3] []).1⟩

example : ∃ s, Sobolev.make standing (.b0101 (1 / 2)) [(2, 1)] ⟨fun _ => 0, Mat.zero⟩ (fun _ => 0) = .ok s := ⟨_, rfl⟩

/-- The function with the gap is assigned in vain, then a dilation is assigned. -/
example : (Failure.assignFn (evOf (.dil (0, 4) 3)) (Failure.assignFn (evOf gapFn) still).1).2 = .ok () ∧
    (Failure.assignFn (evOf (.dil (0, 4) 3)) (Failure.assignFn (evOf gapFn) still).1).1 = (Failure.assignFn (evOf (.dil (0, 4) 3)) still).1 := by
  have hs : (0 : ℝ) < still.tau.sum := by norm_num [still]
  have hc : Consistent still := by simp [Consistent, still, Basis.dim]
  have hf : CFailed still (Failure.assignFn (evOf gapFn) still).1 :=
    .function .refl (by norm_num [evOf, gapFn, Fn.dom]) ⟨_, C76_assign_function_false.2.1, trivial⟩
  obtain ⟨-, h1, -⟩ := C76_assign_function_partial still _ hc hs hf
  obtain ⟨h2, h3⟩ := h1 (evOf (.dil (0, 4) 3))
  obtain ⟨-, h4, -⟩ := C58_assign_function still (.dil (0, 4) 3) 2 _ (by norm_num) two_basis hc hs.ne' rfl
  obtain ⟨r, hr⟩ := h4.mpr fun iv _ k _ => ⟨_, dil_call _ _ _⟩
  rw [← C76_same_calls.2.2.2.2.2.2.1] at hr
  have hok : (Failure.assignFn (evOf (.dil (0, 4) 3)) still).2 = .ok () := by
    rcases drop_cases (Failure.assignFn (evOf (.dil (0, 4) 3)) still) with ⟨e, -, k2⟩ | ⟨k1, -⟩
    · rw [k2] at hr; cases hr
    · exact k1
  exact ⟨h2.trans hok, h3 hok⟩

/-- A wrong matrix at the second node, then the right ones. -/
example : ∃ K : MLM, MFailed (MLM.ofSizes 1 2 1 1) K ∧ K ≠ MLM.ofSizes 1 2 1 1 ∧
    Failure.mlmUpdateEach [.ok ⟨1, 1, fun _ _ => 3⟩, .ok ⟨1, 1, fun _ _ => 4⟩] K = Failure.mlmUpdateEach [.ok ⟨1, 1, fun _ _ => 3⟩, .ok ⟨1, 1, fun _ _ => 4⟩] (MLM.ofSizes 1 2 1 1) := by
  refine ⟨_, .each .refl ⟨_, C76_update_each_false.1, trivial⟩, fun h => ?_, ?_⟩
  · have := C76_update_each_false.2.2
    rw [h, C76_update_each_false.2.1] at this
    norm_num at this
  · obtain ⟨h1, h2⟩ := (C76_update_each_partial _ _ (.each .refl ⟨_, C76_update_each_false.1, trivial⟩)).2 [.ok ⟨1, 1, fun _ _ => 3⟩, .ok ⟨1, 1, fun _ _ => 4⟩]
    refine Prod.ext (h2 ?_) h1
    norm_num [Failure.mlmUpdateEach, MLM.ofSizes, Failure.loop_succ, Failure.loop_zero, Failure.mlmPass]

/-- A spline of other sizes is refused. -/
example : Throws (Failure.assign exNodesA exNodesB).2 := by
  refine ⟨.invalidArgument, ?_, trivial⟩
  simp [Failure.assign, exNodesA, exNodesB, GSpline.nIntervals]

end GSplines.Props
