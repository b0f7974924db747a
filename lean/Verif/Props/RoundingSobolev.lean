import Verif.Proofs.RoundingCostExact
import Verif.Props.RoundingInterp
import Verif.Props.Sobolev

/-!
# C88: value and gradient of the cost with rounding errors

`Rounded.cost u lu s tau r` says that calling a `SobolevNorm` object in state `s` with the interval lengths `tau` may end with `r`, when each operation on doubles has a
relative error of at most `u.1` plus an absolute error of at most `u.2`, the sums are taken in any order and the linear systems are solved by `lu`. A result is the new
state of the object with the value, or an error. `Rounded.grad u lu s tau buff r` is the same for `deriv_wrt_interval_len`, which writes to `buff`. `RSReach` are the
states that an object can be in after calls of these kinds.
-/

namespace GSplines.Props

open GSplines Spec Interp Sobolev Topology

/-- **C88** (value, memory). Whatever the rounding errors (even large ones), the previous calls and the interval lengths, computing the value does not access memory
outside of the buffers, if the linear solver does not report a failure. -/
theorem C88_value_in_range (u : ℝ × ℝ) (lu : LU) (w : Pts) (hw : 2 ≤ w.rows) (b : Basis) (hb : Interpolable b) (weights : List (ℕ × ℝ)) (mem : LagMem) (s : Sobolev)
    (hs : RSReach w b weights mem s) (hlu : ∀ m, lu.succeeds (b.dim * w.cols * (w.rows - 1)) m = true) (tau : List ℝ) (r : Res (Sobolev × ℝ))
    (hr : Rounded.cost u lu s tau r) : r ≠ .error .ub := Rounded.safe_cost u lu hb hw hlu hs tau r hr

/-- **C88** (gradient, memory). The same for the gradient, if the buffer for the result has an entry for each interval. -/
theorem C88_gradient_in_range (u : ℝ × ℝ) (lu : LU) (w : Pts) (hw : 2 ≤ w.rows) (b : Basis) (hb : Interpolable b) (weights : List (ℕ × ℝ)) (mem : LagMem) (s : Sobolev)
    (hs : RSReach w b weights mem s) (hlu : ∀ m, lu.succeeds (b.dim * w.cols * (w.rows - 1)) m = true) (tau buff : List ℝ) (hbuff : w.rows - 1 ≤ buff.length)
    (r : Res (Sobolev × List ℝ)) (hr : Rounded.grad u lu s tau buff r) : r ≠ .error .ub := Rounded.safe_grad u lu hb hw hlu hs tau hbuff r hr

/-- **C88** (why the solver must not report a failure). If it does in the first call of a new object, the object reads coefficients that it does not have. -/
theorem C88_solver_failure_out_of_range : ∃ (lu : LU) (s : Sobolev), RSReach standing (.legendre 4) [] ⟨fun _ => 0, Mat.zero⟩ s ∧ Rounded.cost (0, 0) lu s [1] (.error .ub) := by
  refine ⟨⟨fun _ _ => false, fun _ _ _ _ => 0⟩, newNorm [], .make (newNorm_make _), ?_⟩
  have U := usable_of interpolable4.valid interpolable4.even interpolable4.ne interpolable4.left interpolable4.right
  have hm := Rounded.fillMatrix_has (u := (0, 0)) le_rfl le_rfl (c := 1) (n := 1) U one_pos (tau := [1]) rfl (fun i hi => by interval_cases i; simp [vecOf]) Mat.zero
  obtain ⟨v, hv, -⟩ := fillVector_ok (h := 1) (n := 1) (c := 1) one_pos (w := standing) (by decide) (by decide) (fun _ => 0)
  unfold Rounded.cost
  refine .inr ⟨({ (newNorm []).interp with mat := fillP (Basis.legendre 4).dim 1 1 (bufs (.legendre 4) (vecOf [1])) Mat.zero, vec := v }, []), ?_, .inl ⟨.ub, ?_, rfl⟩⟩
  · unfold Rounded.solveInterpolation
    rw [if_neg (by simp; norm_num)]
    exact .inr ⟨_, hm, .inr ⟨v, hv.symm, rfl⟩⟩
  · refine .inl ⟨.ub, .inr ⟨1, rfl, .inr ⟨Mat.zero, rfl, ?_⟩⟩, rfl⟩
    exact .inl ⟨.ub, .inl ⟨.ub, rfl, rfl⟩, rfl⟩

/-- **C88** (value, exact). The value of exact arithmetic is among the possible ones, if the linear solver solves what can be solved (so the theorems on the exact model
speak about one of the runs). -/
theorem C88_value_exact (u : ℝ × ℝ) (h1 : 0 ≤ u.1) (h2 : 0 ≤ u.2) (lu : LU) (hlu : LUContract lu) (w : Pts) (b : Basis) (hb : Interpolable b) (weights : List (ℕ × ℝ))
    (ho : ∀ p ∈ weights, Adds b p.1) (mem : LagMem) (s s0 s0' : Sobolev) (hs : RSReach w b weights mem s) (hs0 : SReach lu w b weights mem s0) (tau : List ℝ)
    (hne : tau ≠ []) (ht : ∀ t ∈ tau, 1 / 10 ^ 6 ≤ t) (hw : w.rows = tau.length + 1) (v0 : ℝ) (hv0 : s0.cost lu tau = .ok (s0', v0)) :
    ∃ s', Rounded.cost u lu s tau (.ok (s', v0)) := by
  have hn : 0 < tau.length := List.length_pos_of_ne_nil hne
  obtain ⟨s1, e⟩ := cost_eq hlu (by omega) hb ho hs0 hw.symm ht
  rw [hv0] at e
  cases e
  exact Rounded.cost_has h1 h2 hb ho hne ht hw hlu hs

/-- Two computations of the gradient from derivatives of the coefficients agree. -/
theorem gradFn_unique {b : Basis} {mem : LagMem} {weights : List (ℕ × ℝ)} {n codim : ℕ} {w : ℕ → ℕ → ℝ} {tau d d' : Vec} {idx : ℕ}
    (hd : ∀ k < b.dim * codim * n, HasDerivAt (fun z => sol b n codim w (Function.update tau idx z) k) (d k) (tau idx))
    (hd' : ∀ k < b.dim * codim * n, HasDerivAt (fun z => sol b n codim w (Function.update tau idx z) k) (d' k) (tau idx)) (y : Vec) :
    gradFn b mem weights n codim tau y d idx = gradFn b mem weights n codim tau y d' idx := by
  unfold gradFn
  congr 2
  exact total_congr (fun _ _ _ _ _ _ => rfl) (fun _ _ => rfl) fun k hk => (hd k hk).unique (hd' k hk)

/-- **C88** (gradient, exact). The gradient of exact arithmetic is among the possible ones. -/
theorem C88_gradient_exact (u : ℝ × ℝ) (h1 : 0 ≤ u.1) (h2 : 0 ≤ u.2) (lu : LU) (hlu : LUContract lu) (w : Pts) (b : Basis) (hb : Interpolable b) (weights : List (ℕ × ℝ))
    (ho : ∀ p ∈ weights, Adds b p.1) (ho' : ∀ p ∈ weights, AddsDtau b p.1) (mem : LagMem) (s s0 s0' : Sobolev) (hs : RSReach w b weights mem s)
    (hs0 : SReach lu w b weights mem s0) (tau : List ℝ) (hne : tau ≠ []) (ht : ∀ t ∈ tau, 1 / 10 ^ 6 ≤ t) (hw : w.rows = tau.length + 1) (buff out0 : List ℝ)
    (hbuff : tau.length ≤ buff.length) (hout0 : s0.grad lu tau buff = .ok (s0', out0)) :
    ∃ s' out, Rounded.grad u lu s tau buff (.ok (s', out)) ∧ out.length = out0.length ∧ ∀ idx < tau.length, vecOf out idx = vecOf out0 idx := by
  have hn : 0 < tau.length := List.length_pos_of_ne_nil hne
  obtain ⟨s1, o1, e, hl, hd⟩ := grad_value hlu (by omega) hb ho ho' hs0 hw.symm ht hbuff
  rw [hout0] at e
  cases e
  obtain ⟨s', out, g1, g2, g3, -⟩ := Rounded.grad_has h1 h2 hb ho ho' hne ht hw hlu hs hbuff
  refine ⟨s', out, g1, g2.trans hl.symm, fun idx hi => ?_⟩
  obtain ⟨d, hd1, hd2⟩ := hd idx hi
  obtain ⟨d', hd3, hd4⟩ := g3 idx hi
  rw [hd2, hd4]
  exact gradFn_unique hd3 hd1 _

/-- **C88** (value). For a basis, weights, interval lengths and way points: if the rounding errors and the backward error of the linear solver are small enough, every
call succeeds, whatever the object was used for before, and the value is as near as wanted to that of exact arithmetic. -/
theorem C88_value (b : Basis) (hb : Interpolable b) (hcl : Clear b (-1)) (hcr : Clear b 1) (weights : List (ℕ × ℝ)) (ho : ∀ p ∈ weights, Adds b p.1) (mem : LagMem)
    (tau : List ℝ) (hne : tau ≠ []) (ht : ∀ t ∈ tau, 1 / 10 ^ 6 ≤ t) (w : Pts) (hw : w.rows = tau.length + 1) (ε : ℝ) (hε : 0 < ε) :
    ∃ δ > 0, ∀ u, Small u δ → ∀ η, 0 ≤ η → η ≤ δ → ∀ lu, StableLU η (b.dim * w.cols * tau.length) lu → ∀ s, RSReach w b weights mem s →
      ∀ r, Rounded.cost u lu s tau r → ∃ s' v, r = .ok (s', v) ∧ RSReach w b weights mem s' ∧
        ∀ lu0, LUContract lu0 → ∀ s0, SReach lu0 w b weights mem s0 → ∃ s0' v0, s0.cost lu0 tau = .ok (s0', v0) ∧ |v - v0| ≤ ε := by
  have hn : 0 < tau.length := List.length_pos_of_ne_nil hne
  obtain ⟨δ, hδ, h⟩ := Rounded.cost_near hb hcl hcr ho mem hne ht hw hε
  obtain ⟨δ', hδ', h'⟩ := small_of_nhds h
  refine ⟨min δ δ', lt_min hδ hδ', fun u hu η h1 h2 lu hlu s hs r hr => ?_⟩
  rcases h' u ⟨hu.1, hu.2.1.trans (min_le_right _ _), hu.2.2.1, hu.2.2.2.trans (min_le_right _ _)⟩ η h1 (h2.trans (min_le_left _ _)) lu hlu s hs r hr with ⟨_, hf, -⟩ | ⟨q, hq, rfl⟩
  · exact hf.elim
  refine ⟨q.1, q.2, rfl, hs.cost hr, fun lu0 hlu0 s0 hs0 => ?_⟩
  obtain ⟨s1, e⟩ := cost_eq hlu0 (by omega) hb ho hs0 hw.symm ht
  exact ⟨s1, _, e, hq⟩

/-- **C88** (gradient). Under the same conditions every call of `deriv_wrt_interval_len` succeeds, the entries of the buffer for the intervals are as near as wanted to
those of exact arithmetic, and the others are not touched. -/
theorem C88_gradient (b : Basis) (hb : Interpolable b) (hcl : Clear b (-1)) (hcr : Clear b 1) (weights : List (ℕ × ℝ)) (ho : ∀ p ∈ weights, Adds b p.1)
    (ho' : ∀ p ∈ weights, AddsDtau b p.1) (mem : LagMem) (tau : List ℝ) (hne : tau ≠ []) (ht : ∀ t ∈ tau, 1 / 10 ^ 6 ≤ t) (w : Pts) (hw : w.rows = tau.length + 1)
    (ε : ℝ) (hε : 0 < ε) :
    ∃ δ > 0, ∀ u, Small u δ → ∀ η, 0 ≤ η → η ≤ δ → ∀ lu, StableLU η (b.dim * w.cols * tau.length) lu → ∀ s, RSReach w b weights mem s →
      ∀ buff : List ℝ, tau.length ≤ buff.length → ∀ r, Rounded.grad u lu s tau buff r → ∃ s' out, r = .ok (s', out) ∧ RSReach w b weights mem s' ∧
        out.length = buff.length ∧ (∀ idx, tau.length ≤ idx → vecOf out idx = vecOf buff idx) ∧
        ∀ lu0, LUContract lu0 → ∀ s0, SReach lu0 w b weights mem s0 → ∃ s0' out0, s0.grad lu0 tau buff = .ok (s0', out0) ∧
          ∀ idx < tau.length, |vecOf out idx - vecOf out0 idx| ≤ ε := by
  have hn : 0 < tau.length := List.length_pos_of_ne_nil hne
  obtain ⟨g, hg, δ, hδ, h⟩ := Rounded.grad_near hb hcl hcr ho ho' mem hne ht hw hε
  obtain ⟨δ', hδ', h'⟩ := small_of_nhds h
  refine ⟨min δ δ', lt_min hδ hδ', fun u hu η h1 h2 lu hlu s hs buff hbuff r hr => ?_⟩
  rcases h' u ⟨hu.1, hu.2.1.trans (min_le_right _ _), hu.2.2.1, hu.2.2.2.trans (min_le_right _ _)⟩ η h1 (h2.trans (min_le_left _ _)) lu hlu s hs buff hbuff r hr with
    ⟨_, hf, -⟩ | ⟨q, ⟨hq1, hq2, hq3⟩, rfl⟩
  · exact hf.elim
  refine ⟨q.1, q.2, rfl, hs.grad hr, hq1, hq3, fun lu0 hlu0 s0 hs0 => ?_⟩
  obtain ⟨s1, o1, e, -, hd⟩ := grad_value hlu0 (by omega) hb ho ho' hs0 hw.symm ht hbuff
  refine ⟨s1, o1, e, fun idx hi => ?_⟩
  obtain ⟨d, hd1, hd2⟩ := hd idx hi
  obtain ⟨d', hd3, hd4⟩ := hg idx hi
  rw [hd2, gradFn_unique hd1 hd3, ← hd4]
  exact hq2 idx hi

theorem rsreach_made {w : Pts} {b : Basis} {weights : List (ℕ × ℝ)} {mem : LagMem} {s : Sobolev} (hs : RSReach w b weights mem s) :
    ∃ junk s0, Sobolev.make w b weights mem junk = .ok s0 := by
  induction hs with
  | make h => exact ⟨_, _, h⟩
  | cost _ _ ih => exact ih
  | grad _ _ ih => exact ih

/-- **C88** (meaning of the value). For the orders whose matrices are right and weights whose tail is one (see C41), the value computed with rounding is as near as wanted
to the weighted sum of the integrals of the squared derivatives of the interpolating curve. -/
theorem C88_integral (b : Basis) (hb : Interpolable b) (hcl : Clear b (-1)) (hcr : Clear b 1) (weights : List (ℕ × ℝ)) (hr : ∀ p ∈ weights, RightOrder b p.1)
    (h1 : ∀ p ∈ weights.tail, p.2 = 1) (mem : LagMem) (tau : List ℝ) (hne : tau ≠ []) (ht : ∀ t ∈ tau, 1 / 10 ^ 6 ≤ t) (w : Pts) (hw : w.rows = tau.length + 1) (ε : ℝ) (hε : 0 < ε) :
    ∃ δ > 0, ∀ u, Small u δ → ∀ η, 0 ≤ η → η ≤ δ → ∀ lu, StableLU η (b.dim * w.cols * tau.length) lu → ∀ s, RSReach w b weights mem s →
      ∀ r, Rounded.cost u lu s tau r → ∃ s' v, r = .ok (s', v) ∧
        ∀ lu0, LUContract lu0 → ∀ junk, ∃ g, interpolateFn lu0 junk tau w b = .ok g ∧ Meets g w.at' ∧ g.tau = tau ∧ |v - sobolevCost g weights| ≤ ε := by
  have hn : 0 < tau.length := List.length_pos_of_ne_nil hne
  obtain ⟨δ, hδ, h⟩ := C88_value b hb hcl hcr weights (fun p hp => by
    have := hr p hp
    cases b with
    | b0101 a => simp only [RightOrder] at this; simp only [Adds]; omega
    | _ => trivial) mem tau hne ht w hw ε hε
  refine ⟨δ, hδ, fun u hu η g1 g2 lu hlu s hs r hr' => ?_⟩
  obtain ⟨s', v, rfl, -, hv⟩ := h u hu η g1 g2 lu hlu s hs r hr'
  obtain ⟨j0, s0, hs0⟩ := rsreach_made hs
  refine ⟨s', v, rfl, fun lu0 hlu0 junk => ?_⟩
  obtain ⟨t', v0, e, hle⟩ := hv lu0 hlu0 s0 (.make hs0)
  obtain ⟨t1, g, v1, k1, k2, k3, k4, k5⟩ := C41_sobolev_norm_partial lu0 hlu0 w (by omega) b hb weights hr h1 mem s0 (.make hs0) tau hw.symm ht junk
  rw [e] at k4
  cases k4
  exact ⟨g, k1, k2, k3, by rw [← k5]; exact hle⟩

/-! ## Examples -/

/-- A new norm object for the way points `corner`. -/
noncomputable def cornerNorm : Sobolev := ⟨newInterp, [(1, 1)], corner, ⟨fun _ => 0, Mat.zero⟩⟩

theorem cornerNorm_make : Sobolev.make corner (.legendre 4) [(1, 1)] ⟨fun _ => 0, Mat.zero⟩ (fun _ => 0) = .ok cornerNorm := rfl

/-- The hypotheses of the theorems hold for a new object and linear solvers with a backward error that is not zero; for each size of the errors there are results. -/
example : Interpolable (.legendre 4) ∧ Clear (.legendre 4) (-1) ∧ Clear (.legendre 4) 1 ∧ (∀ p ∈ [((1 : ℕ), (1 : ℝ))], Adds (.legendre 4) p.1 ∧ AddsDtau (.legendre 4) p.1) ∧ (∀ t ∈ [(1 : ℝ), 2], 1 / 10 ^ 6 ≤ t) ∧ corner.rows = [(1 : ℝ), 2].length + 1 ∧
    (∀ η, 0 ≤ η → StableLU η ((Basis.legendre 4).dim * corner.cols * 2) (shrunkLU η)) ∧ RSReach corner (.legendre 4) [(1, 1)] ⟨fun _ => 0, Mat.zero⟩ cornerNorm ∧
    ∀ u : ℝ × ℝ, 0 ≤ u.1 → 0 ≤ u.2 → (∃ r, Rounded.cost u exactLU cornerNorm [1, 2] (.ok r)) ∧ ∃ r, Rounded.grad u exactLU cornerNorm [1, 2] [0, 0, 7] (.ok r) := by
  have ht : ∀ t ∈ [(1 : ℝ), 2], 1 / 10 ^ 6 ≤ t := by simp; norm_num
  have ho : ∀ p ∈ [((1 : ℕ), (1 : ℝ))], Adds (.legendre 4) p.1 := by simp [Adds]
  have ho' : ∀ p ∈ [((1 : ℕ), (1 : ℝ))], AddsDtau (.legendre 4) p.1 := by simp [AddsDtau]
  refine ⟨interpolable4, trivial, trivial, by simp [Adds, AddsDtau], ht, rfl, fun η h => shrunkLU_stable h _, .make cornerNorm_make, fun u h1 h2 => ⟨?_, ?_⟩⟩
  · obtain ⟨s', h⟩ := Rounded.cost_has h1 h2 interpolable4 ho (mem := ⟨fun _ => 0, Mat.zero⟩) (by simp) ht (w := corner) rfl exactLU_contract (.make cornerNorm_make)
    exact ⟨_, h⟩
  · obtain ⟨s', out, h, -⟩ := Rounded.grad_has h1 h2 interpolable4 ho ho' (mem := ⟨fun _ => 0, Mat.zero⟩) (by simp) ht (w := corner) rfl exactLU_contract (.make cornerNorm_make)
      (buff := [0, 0, 7]) (by simp)
    exact ⟨_, h⟩

/-- The hypotheses of `C88_integral` hold for the integrated squared jerk and Basis0101. -/
example (p : ℕ → ℕ → ℝ) : Interpolable (.b0101 (1 / 4)) ∧ Clear (.b0101 (1 / 4)) (-1) ∧ Clear (.b0101 (1 / 4)) 1 ∧ (∀ q ∈ [((3 : ℕ), (1 : ℝ))], RightOrder (.b0101 (1 / 4)) q.1) ∧
    (∃ s, RSReach ⟨4, 2, p⟩ (.b0101 (1 / 4)) [(3, 1)] ⟨fun _ => 0, Mat.zero⟩ s) :=
  ⟨interpolable0101 (by norm_num) (by norm_num), trivial, trivial, by simp [RightOrder], ⟨_, .make (junk := fun _ => 0) (by
    unfold Sobolev.make Interp.make
    rw [if_neg (by norm_num), if_neg (by simp [Basis.dim]), if_neg (by simp [Basis.dim])]
    rfl)⟩⟩

/-- A solver that never reports a failure, whose solutions are all wrong, and a second call after a call with large errors. -/
example : ∃ s r, RSReach corner (.legendre 4) [(1, 1)] ⟨fun _ => 0, Mat.zero⟩ s ∧
    Rounded.cost (1, 1) ⟨fun _ _ => true, fun _ _ _ _ => 5⟩ s [3, 4] r ∧ r ≠ .error .ub := by
  have ht : ∀ t ∈ [(1 : ℝ), 2], 1 / 10 ^ 6 ≤ t := by simp; norm_num
  have ho : ∀ p ∈ [((1 : ℕ), (1 : ℝ))], Adds (.legendre 4) p.1 := by simp [Adds]
  obtain ⟨s, h⟩ := Rounded.cost_has (u := (1, 1)) zero_le_one zero_le_one interpolable4 ho (mem := ⟨fun _ => 0, Mat.zero⟩) (by simp) ht (w := corner) rfl exactLU_contract
    (.make cornerNorm_make)
  have hs : RSReach corner (.legendre 4) [(1, 1)] ⟨fun _ => 0, Mat.zero⟩ s := .cost (.make cornerNorm_make) h
  have U := usable_of interpolable4.valid interpolable4.even interpolable4.ne interpolable4.left interpolable4.right
  obtain ⟨⟨I, e1, e2, e3⟩, e4, e5, e6⟩ := Rounded.rsreach_inv U.dim (by simp [corner]) hs
  have hm := Rounded.fillMatrix_has (u := (1, 1)) zero_le_one zero_le_one (c := 2) (n := 2) U two_pos (tau := [3, 4]) rfl
    (fun i hi => by interval_cases i <;> simp [vecOf]) s.interp.mat
  obtain ⟨v, hv, -⟩ := fillVector_ok (h := 1) (n := 2) (c := 2) two_pos (w := corner) (by simp [corner]) (by simp [corner]) s.interp.vec
  have hsz : s.interp.size = 16 := by unfold Interp.size; rw [e1, e2, e3]; rfl
  obtain ⟨q, hq⟩ : ∃ q, Rounded.solveInterpolation (1, 1) ⟨fun _ _ => true, fun _ _ _ _ => 5⟩ s.interp [3, 4] s.points (.ok q) ∧ q.2.length = 16 ∧ q.1.basis = .legendre 4 ∧ q.1.codim = 2 ∧
      q.1.n = 2 := by
    refine ⟨({ s.interp with basis := .legendre 4, codim := corner.cols, n := corner.rows - 1, mat := fillP (Basis.legendre 4).dim 2 2 (bufs (.legendre 4) (vecOf [3, 4])) s.interp.mat, vec := v, sol := (List.range s.interp.size).map fun _ => 5 }, (List.range s.interp.size).map fun _ => 5), ?_, by simp [hsz], rfl, rfl, rfl⟩
    unfold Rounded.solveInterpolation
    rw [if_neg (by simp; norm_num), e1, e2, e3, e5]
    exact .inr ⟨_, hm, .inr ⟨v, hv.symm, rfl⟩⟩
  obtain ⟨hq, q1, q2, q3, q4⟩ := hq
  obtain ⟨x, hx⟩ := (Rounded.innerX_reg (.legendre 4) s.mem s.weights 2 2 (vecOf [3, 4]) (vecOf q.2) (vecOf q.2)).tot (1, 1) zero_le_one zero_le_one
  rw [← Rounded.innerProd_eq (by rfl) (by rw [q1]; rfl) (by rw [q1]; rfl)] at hx
  obtain ⟨r, hr⟩ : ∃ r, Rounded.cost (1, 1) ⟨fun _ _ => true, fun _ _ _ _ => 5⟩ s [3, 4] r := by
    cases x with
    | error e => exact ⟨.error e, .inr ⟨q, hq, .inl ⟨e, by rw [q2, q3, q4]; exact hx, rfl⟩⟩⟩
    | ok v => exact ⟨_, .inr ⟨q, hq, .inr ⟨v, by rw [q2, q3, q4]; exact hx, rfl⟩⟩⟩
  exact ⟨s, r, hs, hr, C88_value_in_range _ _ corner (by simp [corner]) _ interpolable4 _ _ _ hs (fun _ => rfl) _ _ hr⟩

end GSplines.Props
