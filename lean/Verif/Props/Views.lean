import Verif.Proofs.Views
import Verif.Props.Interp
import Verif.Props.Sobolev

/-!
# C79: vectors that an interpolator returns by reference
-/

namespace GSplines.Props

open GSplines Spec Interp Finset Views

/-- **C79** (part). For every interpolator in whatever state, every linear solver and every program, in which exceptions are caught: if `get_coeff_derivative_wrt_tau` is given
vectors of the program or the result of the last `solve_interpolation`, the object has at the end the state that it has after the program with copies, and the vectors that the last
`solve_interpolation` and the last `get_coeff_derivative_wrt_tau` returned still have the numbers that they had when they were returned. Missing: older vectors, and passing the result of
`get_coeff_derivative_wrt_tau` on; the theorems with the suffix `_false` show that these fail. -/
theorem C79_views_partial (lu : LU) (s : Interp) (l : List Call) (hl : PassesCurrent l) :
    (run lu s l).obj = (crun lu s l).obj ∧
    ∀ k, LastSolve l k ∨ LastCoeff l k → (run lu s l).seen k = (crun lu s l).copy k := run_refines lu s l hl

/-- **C79** (part). `get_coeff_derivative_wrt_tau` leaves all vectors that `solve_interpolation` returned as they are, whatever it is given; `solve_interpolation` and `interpolate` leave all
vectors that `get_coeff_derivative_wrt_tau` returned as they are; in every program. -/
theorem C79_apart_partial (lu : LU) (s : Interp) (l : List Call) (c : Call) (k : ℕ) :
    (∀ tau w, l[k]? = some (.solve tau w) → ¬ Solving c → (run lu s (l ++ [c])).seen k = (run lu s l).seen k) ∧
    (∀ a tau idx, l[k]? = some (.coeff a tau idx) → Solving c → (run lu s (l ++ [c])).seen k = (run lu s l).seen k) := by
  have hfr := call_frame lu (run lu s l) c
  constructor
  · intro tau w hk hc
    unfold Prog.seen
    rw [seen_lt (List.getElem?_eq_some_iff.1 hk).1]
    cases hv : (run lu s l).held[k]? with
    | none => rfl
    | some o =>
      cases o with
      | none => rfl
      | some v =>
        rcases held_kind lu s l k v hv with ⟨_, _, len, -, rfl⟩ | ⟨_, _, _, h3, -⟩
        · simp only [Option.join_some, Option.map_some]
          rw [run_snoc, read_sol_of (hfr.2 hc).1]
        · rw [h3] at hk; cases hk
  · intro a tau idx hk hc
    unfold Prog.seen
    rw [seen_lt (List.getElem?_eq_some_iff.1 hk).1]
    cases hv : (run lu s l).held[k]? with
    | none => rfl
    | some o =>
      cases o with
      | none => rfl
      | some v =>
        rcases held_kind lu s l k v hv with ⟨_, _, len, h3, rfl⟩ | ⟨_, _, _, -, rfl⟩
        · rw [h3] at hk; cases hk
        · simp only [Option.join_some, Option.map_some]
          rw [run_snoc, read_coef_of (hfr.1 hc).1 (hfr.1 hc).2]

/-- From a call of the model with states to the model that only has results. -/
theorem failure_solve_of {lu : LU} {s s' : Interp} {tau : List ℝ} {w : Pts} {x : List ℝ} (h : s.solveInterpolation lu tau w = .ok (s', x)) :
    Failure.solve lu tau w s = (s', .ok x) := by
  have := Failure.solve_drop lu tau w s
  rw [h] at this
  rcases hs : Failure.solve lu tau w s with ⟨s1, r⟩
  rw [hs] at this
  cases r with
  | error e => cases this
  | ok z => cases this; rfl

/-- Interpolating coefficients determine the way points. -/
theorem points_of_coefficients {b : Basis} {n c : ℕ} {tau y : Vec} {w w' : Mat} (h : Interpolates b n c tau w y) (h' : Interpolates b n c tau w' y) (hn : 0 < n)
    {i k : ℕ} (hi : i ≤ n) (hk : k < c) : w i k = w' i k := by
  rcases Nat.eq_zero_or_pos i with h0 | h0
  · subst h0
    rw [← h.start 0 hn k hk, h'.start 0 hn k hk]
  · obtain ⟨j, rfl⟩ : ∃ j, i = j + 1 := ⟨i - 1, by omega⟩
    rw [← h.stop j (by omega) k hk, h'.stop j (by omega) k hk]

/-- **C79** fails: `solve_interpolation` overwrites the vectors that it has returned. For every interpolator in every reachable state, and two calls with way points that differ: when
the second call has returned, the first vector has the numbers of the second one. -/
theorem C79_overwritten_false (lu : LU) (hlu : LUContract lu) (codim n : ℕ) (hn : 0 < n) (b : Basis) (hb : Interpolable b) (s : Interp) (hs : Reach lu codim n b s)
    (tau : List ℝ) (hlen : tau.length = n) (ht : ∀ t ∈ tau, 1 / 10 ^ 6 ≤ t) (w w' : Pts) (hw : w.rows = n + 1 ∧ w.cols = codim) (hw' : w'.rows = n + 1 ∧ w'.cols = codim)
    (i k : ℕ) (hi : i ≤ n) (hk : k < codim) (hne : w.at' i k ≠ w'.at' i k) :
    ∃ x x', (crun lu s [.solve tau w, .solve tau w']).held = [some x, some x'] ∧ x ≠ x' ∧ x.length = x'.length ∧
      (run lu s [.solve tau w, .solve tau w']).seen 0 = some x' := by
  obtain ⟨s1, x, h1, -, -, -, l1, R1, I1⟩ := Sobolev.solve_total hlu hn hb hs hlen ht hw.1 hw.2
  obtain ⟨s2, x', h2, -, -, -, l2, R2, I2⟩ := Sobolev.solve_total hlu hn hb R1 hlen ht hw'.1 hw'.2
  have f1 := failure_solve_of h1
  have f2 := failure_solve_of h2
  have e1 := solve_sol lu tau w s x (by rw [f1])
  rw [f1] at e1
  have e2 := solve_sol lu tau w' s1 x' (by rw [f2])
  rw [f2] at e2
  refine ⟨x, x', ?_, ?_, by rw [l1, l2], ?_⟩
  · simp [crun, CProg.call, f1, f2, Except.toOption]
  · intro hxx
    rw [← hxx] at I2
    exact hne (points_of_coefficients I1 I2 hn hi hk)
  · have hp : run lu s [.solve tau w, .solve tau w'] = ⟨s2, [some (.sol s1.sol.length), some (.sol s2.sol.length)]⟩ := by
      simp [run, Call.run, Views.solve, f1, f2, Except.toOption, Except.map]
    rw [hp]
    change some ((List.range s1.sol.length).map (vecOf s2.sol)) = some x'
    have e1' : s1.sol = x := e1
    have e2' : s2.sol = x' := e2
    rw [e1', e2', show x.length = x'.length by rw [l1, l2], range_map_vecOf]

/-- From a call of the model with states to the reachable states. -/
theorem reach_coeff {lu : LU} {codim n : ℕ} {b : Basis} {s : Interp} (hs : Reach lu codim n b s) (y tau : List ℝ) (idx : ℕ) (x : Vec)
    (h : (Failure.coeff lu y tau idx s).2 = .ok x) : Reach lu codim n b (Failure.coeff lu y tau idx s).1 := by
  rcases Failure.coeff_cases lu y tau idx s with ⟨z, -, h2⟩ | ⟨⟨e, h2, -⟩, -⟩ | ⟨e, h2, -⟩
  · exact Reach.coeff hs h2
  · rw [h] at h2; cases h2
  · rw [h] at h2; cases h2

/-- **C79** fails: the vector that `get_coeff_derivative_wrt_tau` returned cannot be passed to it. For every interpolator with a Legendre basis of dimension four or more, in every reachable
state, all good interval lengths and all coefficients of a spline that starts with a velocity: the derivative of the derivative with respect to the first length is not zero, and the program that passes
the vector on gets zeros, without an exception; the first vector is zero then as well. -/
theorem C79_passed_on_false (lu : LU) (hlu : LUContract lu) (codim n : ℕ) (hn : 0 < n) (d : ℕ) (hd : 4 ≤ d) (he : d % 2 = 0) (s : Interp)
    (hs : Reach lu codim n (.legendre d) s) (tau : List ℝ) (hlen : tau.length = n) (ht : ∀ t ∈ tau, 1 / 10 ^ 6 ≤ t) (y : List ℝ) (hy : y.length = d * codim * n)
    (comp : ℕ) (hcomp : comp < codim) (hv : deriv (piece (.legendre d) codim (vecOf tau) (vecOf y) 0 comp) 0 ≠ 0) :
    ∃ x x', (crun lu s [.coeff (.own y) tau 0, .coeff (.held 0) tau 0]).held = [some x, some x'] ∧ (∃ z ∈ x, z ≠ 0) ∧ (∃ z ∈ x', z ≠ 0) ∧
      ∀ k < 2, (run lu s [.coeff (.own y) tau 0, .coeff (.held 0) tau 0]).seen k = some (List.replicate (d * codim * n) 0) := by
  have U : Usable (.legendre d) (d / 2 - 1) := usable_of (b := .legendre d) (show 2 ≤ d by omega) he (show d ≠ 0 by omega) trivial trivial
  have h1 : 1 ≤ d / 2 - 1 := by omega
  obtain ⟨-, b1, b2, b3⟩ := reach_inv U hn hs
  have hsize : s.size = d * codim * n := by unfold Interp.size; rw [b1, b2, b3]; rfl
  obtain ⟨m, D, -, -, -, -, c1, -⟩ := coeff_valid hlu U trivial hs hlen ht hn (.own y) (by rw [hsize]; exact hy)
  have a1 := coeff_apart lu (.own y) trivial tau 0 s
  set F := Failure.coeff lu (Src.val s (.own y)) tau 0 s with hF
  rw [a1] at c1
  obtain ⟨v, hv1⟩ : ∃ v, F.2 = .ok v := by
    cases hf : F.2 with
    | error e => rw [hf] at c1; cases c1
    | ok v => exact ⟨v, rfl⟩
  have R1 : Reach lu codim n (.legendre d) F.1 := reach_coeff hs _ tau 0 v hv1
  have g1 : F.1.coef = v := coeff_coef lu _ tau 0 s v hv1
  have fs : F.1.size = s.size := by
    have := (coeff_frame lu (.own y) tau 0 s).2
    rwa [a1] at this
  set x := (List.range s.size).map v with hx
  have hxl : x.length = s.size := by simp [hx]
  have hxv : ∀ k < s.size, vecOf x k = (Views.coeff lu (.own y) tau 0 s).1.coef k := by
    intro k hk
    rw [a1]
    change vecOf x k = F.1.coef k
    rw [g1, hx, vecOf_map_range hk]
  obtain ⟨k, hk, hne⟩ := twice_ne_zero hlu U h1 hs R1 fs hlen ht hn y x (by rw [hsize]; exact hy) hxl hxv ⟨comp, hcomp⟩ hv
  obtain ⟨m', D', -, -, -, -, c2, -⟩ := coeff_valid hlu U trivial R1 hlen ht hn (.own x) (by rw [fs]; exact hxl)
  have a2 := coeff_apart lu (.own x) trivial tau 0 F.1
  set G := Failure.coeff lu (Src.val F.1 (.own x)) tau 0 F.1 with hG
  rw [a2] at c2
  obtain ⟨v', hv2⟩ : ∃ v', G.2 = .ok v' := by
    cases hf : G.2 with
    | error e => rw [hf] at c2; cases c2
    | ok v => exact ⟨v, rfl⟩
  have g2 : G.1.coef = v' := coeff_coef lu _ tau 0 F.1 v' hv2
  rw [a2] at hne
  have hne' : v' k ≠ 0 := by rw [← g2]; exact hne
  refine ⟨x, (List.range s.size).map v', ?_, ?_, ⟨v' k, List.mem_map.2 ⟨k, List.mem_range.2 hk, rfl⟩, hne'⟩, ?_⟩
  · have q1 : (⟨s, []⟩ : CProg).call lu (.coeff (.own y) tau 0) = ⟨F.1, [some x]⟩ := by
      change (⟨F.1, [] ++ [(entries s.size F.2).toOption]⟩ : CProg) = _
      rw [hv1]; rfl
    have q2 : (⟨F.1, [some x]⟩ : CProg).call lu (.coeff (.held 0) tau 0) = ⟨G.1, [some x, some ((List.range s.size).map v')]⟩ := by
      change (⟨G.1, [some x] ++ [(entries F.1.size G.2).toOption]⟩ : CProg) = _
      rw [hv2, fs]; rfl
    change (((⟨s, []⟩ : CProg).call lu (.coeff (.own y) tau 0)).call lu (.coeff (.held 0) tau 0)).held = _
    rw [q1, q2]
  · -- with a zero vector the second derivative would be zero
    by_contra hno
    push Not at hno
    have hz : ∀ j, vecOf x j = 0 := by
      intro j
      by_cases hj : j < x.length
      · have : vecOf x j = x[j] := by simp [vecOf, hj]
        rw [this]; exact hno _ (List.getElem_mem hj)
      · simp [vecOf, not_lt.1 hj]
    obtain ⟨m2, D2, S2, inv2, succ2, -, -, e2⟩ := coeff_valid hlu U trivial R1 hlen ht hn (.own x) (by rw [fs]; exact hxl)
    rw [a2] at e2
    have e2' : v' = fun i => - lu.solve F.1.size m2 (product F.1.size D2 fun r => Src.now F.1 r (.own x)) i := by rw [← g2]; exact e2
    have hp : product F.1.size D2 (fun r => Src.now F.1 r (.own x)) = fun _ => 0 := by
      refine (product_own F.1.size D2 (vecOf x)).trans ?_
      funext i
      exact Finset.sum_eq_zero fun j _ => by rw [hz j, mul_zero]
    rw [hp] at e2'
    have h0 : Solves F.1.size m2 (fun _ => 0) (fun _ => 0) := fun r _ => by simp
    have hu := Interp.Invertible.unique inv2 (hlu.solves _ _ _ succ2) h0 k (by rw [fs]; exact hk)
    apply hne'
    rw [e2']
    simp [hu]
  · -- the program with references
    obtain ⟨z1, z2⟩ := coeff_alias hlu U trivial R1 hlen ht hn
    have q1 : Call.run lu ⟨s, []⟩ (.coeff (.own y) tau 0) = ⟨F.1, [some .coef]⟩ := by
      change (⟨(Views.coeff lu (.own y) tau 0 s).1, [] ++ [(Views.coeff lu (.own y) tau 0 s).2.toOption]⟩ : Prog) = _
      rw [a1, hv1]; rfl
    have q2 : Call.run lu ⟨F.1, [some .coef]⟩ (.coeff (.held 0) tau 0) = ⟨(Views.coeff lu (.view .coef) tau 0 F.1).1, [some .coef, some .coef]⟩ := by
      change (⟨(Views.coeff lu (.view .coef) tau 0 F.1).1, [some .coef] ++ [(Views.coeff lu (.view .coef) tau 0 F.1).2.toOption]⟩ : Prog) = _
      rw [z1]; rfl
    have q : run lu s [.coeff (.own y) tau 0, .coeff (.held 0) tau 0] = ⟨(Views.coeff lu (.view .coef) tau 0 F.1).1, [some .coef, some .coef]⟩ := by
      change Call.run lu (Call.run lu ⟨s, []⟩ (.coeff (.own y) tau 0)) (.coeff (.held 0) tau 0) = _
      rw [q1, q2]
    rw [q, ← hsize, ← fs]
    intro j hj
    have : j = 0 ∨ j = 1 := by omega
    rcases this with rfl | rfl
    · exact congrArg some z2
    · exact congrArg some z2

/-! ## The hypotheses can be met -/

/-- What `SobolevNorm` does for the gradient: one solution, which is passed to the derivatives with respect to the lengths. -/
example (tau : List ℝ) (w : Pts) : PassesCurrent [.solve tau w, .coeff (.held 0) tau 0, .coeff (.held 0) tau 1] ∧
    LastSolve [.solve tau w, .coeff (.held 0) tau 0, .coeff (.held 0) tau 1] 0 ∧ LastCoeff [.solve tau w, .coeff (.held 0) tau 0, .coeff (.held 0) tau 1] 2 := by
  refine ⟨fun j k tau' idx hj => ?_, ⟨⟨tau, w, rfl⟩, fun j c h1 h2 => ?_⟩, ⟨⟨_, _, _, rfl⟩, fun j c h1 h2 => ?_⟩⟩
  · rcases j with _ | _ | _ | j
    · simp at hj
    · simp at hj
      obtain ⟨rfl, -⟩ := hj
      refine ⟨⟨tau, w, rfl⟩, fun i c h1 h2 => ?_⟩
      rw [List.getElem?_eq_none (by simp; omega)] at h2; cases h2
    · simp at hj
      obtain ⟨rfl, -⟩ := hj
      refine ⟨⟨tau, w, rfl⟩, fun i c h1 h2 => ?_⟩
      rcases i with _ | _ | i
      · omega
      · simp at h2; rw [← h2]; exact id
      · simp at h2
    · simp at hj
  · rcases j with _ | _ | _ | j
    · omega
    · simp at h2; rw [← h2]; exact id
    · simp at h2; rw [← h2]; exact id
    · simp at h2
  · rw [List.getElem?_eq_none (by simp; omega)] at h2; cases h2

/-- A new interpolator for one component and one interval, with a Legendre basis of dimension four. -/
def newInterp4 : Interp := ⟨.legendre 4, 1, 1, Mat.zero, fun _ => 0, fun _ => 0, fun _ => Mat.zero, []⟩

/-- Ways from `0` to `1` and from `0` to `2`. -/
example : ∃ x x', (crun exactLU newInterp4 [.solve [1] ⟨2, 1, fun i _ => i⟩, .solve [1] ⟨2, 1, fun i _ => 2 * i⟩]).held = [some x, some x'] ∧ x ≠ x' ∧ x.length = x'.length ∧
    (run exactLU newInterp4 [.solve [1] ⟨2, 1, fun i _ => i⟩, .solve [1] ⟨2, 1, fun i _ => 2 * i⟩]).seen 0 = some x' :=
  C79_overwritten_false exactLU exactLU_contract 1 1 (by norm_num) (.legendre 4) interpolable4 newInterp4 (Reach.make (junk := fun _ => 0) rfl) [1] rfl
    (by simp; norm_num) _ _ ⟨rfl, rfl⟩ ⟨rfl, rfl⟩ 1 0 le_rfl (by norm_num) (by norm_num)

/-- The spline with coefficients `0, 1, 0, 0` starts with velocity `2`. -/
theorem start_velocity : deriv (piece (.legendre 4) 1 (vecOf [1]) (vecOf [0, 1, 0, 0]) 0 0) 0 = 2 := by
  have : piece (.legendre 4) 1 (vecOf [1]) (vecOf [0, 1, 0, 0]) 0 0 = fun t => 2 * t - 1 := by
    funext t
    simp [piece, comb, basisFn, vecOf, Finset.sum_range_succ, Basis.dim, Spec.window, Spec.legendre]
    ring
  rw [this]
  simp

example : ∃ x x', (crun exactLU newInterp4 [.coeff (.own [0, 1, 0, 0]) [1] 0, .coeff (.held 0) [1] 0]).held = [some x, some x'] ∧ (∃ z ∈ x, z ≠ 0) ∧ (∃ z ∈ x', z ≠ 0) ∧
    ∀ k < 2, (run exactLU newInterp4 [.coeff (.own [0, 1, 0, 0]) [1] 0, .coeff (.held 0) [1] 0]).seen k = some (List.replicate (4 * 1 * 1) 0) :=
  C79_passed_on_false exactLU exactLU_contract 1 1 (by norm_num) 4 le_rfl rfl newInterp4 (Reach.make (junk := fun _ => 0) rfl) [1] rfl (by simp; norm_num) [0, 1, 0, 0] rfl
    0 (by norm_num) (by rw [start_velocity]; norm_num)

end GSplines.Props
