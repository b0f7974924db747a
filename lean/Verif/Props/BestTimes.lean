import Verif.Spec.BestTimes
import Verif.Proofs.CostCont
import Verif.Props.Minimal

/-!
# C69: the best times
-/

namespace GSplines.Props

open GSplines.Optim GSplines.Spec Finset

/-! ## Auxiliary facts -/

theorem problem_cost {lu : LU} {mem : Memory} {w : Pts} {b : Basis} {weights : List (ℕ × ℝ)} {T : ℝ} {p : Problem} (h : problem mem w b weights T = .ok p) :
    CReach lu w b weights mem.lag p.cost := by
  unfold problem at h
  cases hc : CostTerm.make w b weights mem.lag mem.junk2 mem.buff with
  | error e => rw [hc] at h; cases h
  | ok c => rw [hc] at h; cases h; exact .make hc

theorem problem_new {mem : Memory} {w : Pts} (hw : 2 ≤ w.rows) {b : Basis} (hb : Interpolable b) (weights : List (ℕ × ℝ)) (T : ℝ) :
    ∃ p, problem mem w b weights T = .ok p := by
  unfold problem CostTerm.make Sobolev.make Interp.make
  rw [if_neg (by omega), if_neg (by have := hb.even; omega), if_neg hb.ne]
  exact ⟨_, rfl⟩

/-- The cost of a point. -/
theorem getCost_eq {lu : LU} (hlu : LUContract lu) {mem : Memory} {w : Pts} (hw : 2 ≤ w.rows) {b : Basis} (hb : Interpolable b) {weights : List (ℕ × ℝ)}
    (ho : ∀ p ∈ weights, Sobolev.Adds b p.1) {T : ℝ} {p : Problem} (hp : problem mem w b weights T = .ok p) {x : List ℝ} (hx : x.length = w.rows - 1)
    (ht : ∀ t ∈ x, 1 / 10 ^ 6 ≤ t) :
    ∃ c, p.cost.getCost lu (p.var.setVariables x) = .ok (c, Sobolev.costFn b mem.lag weights (w.rows - 1) w.cols w.at' (vecOf x)) := by
  obtain ⟨s', h⟩ := Sobolev.cost_eq hlu hw hb ho (creach_inv (problem_cost (lu := lu) hp)).1 (tau := x) (by omega) ht
  refine ⟨⟨s', p.cost.buff2⟩, ?_⟩
  unfold CostTerm.getCost
  change (p.cost.sob.cost lu x >>= _) = _
  rw [h, hx]
  rfl

/-- Points with short intervals have no cost. -/
theorem getCost_short {lu : LU} {p : Problem} {x : List ℝ} {c : CostTerm} {v : ℝ} (h : p.cost.getCost lu (p.var.setVariables x) = .ok (c, v)) :
    ∀ t ∈ x, 1 / 10 ^ 6 ≤ t := by
  by_contra hn
  push Not at hn
  obtain ⟨t, h1, h2⟩ := hn
  unfold CostTerm.getCost Sobolev.cost Interp.solveInterpolation at h
  change ((if ∃ x' ∈ x, x' < 1 / 10 ^ 6 then Except.error Err.invalidArgument else _ : Res (Interp × List ℝ)) >>= _) >>= _ = _ at h
  rw [if_pos ⟨t, h1, h2⟩] at h
  cases h

theorem vecOf_beyond {l : List ℝ} {i : ℕ} (h : l.length ≤ i) : vecOf l i = 0 := by
  unfold vecOf
  rw [List.getD_eq_getElem?_getD, List.getElem?_eq_none h]
  rfl

theorem vecOf_within {l : List ℝ} {i : ℕ} (h : i < l.length) : vecOf l i = l[i] := by
  unfold vecOf
  rw [List.getD_eq_getElem?_getD, List.getElem?_eq_getElem h]
  rfl

theorem sum_vecOf (l : List ℝ) : ∑ i ∈ range l.length, vecOf l i = l.sum := by
  induction l with
  | nil => simp
  | cons a l ih =>
    rw [List.length_cons, sum_range_succ', List.sum_cons, ← ih, add_comm]
    simp [vecOf]

/-! ## C69 -/

/-- **C69.** The problem that the optimiser gives to the solver has a global minimum: for all way points (two or more), all bases with which one can interpolate,
all weights whose gradient the code can compute, and every total time that leaves `1e-6` for each interval. -/
theorem C69_minimum_exists (lu : LU) (hlu : LUContract lu) (mem : Memory) (w : Pts) (hw : 2 ≤ w.rows) (b : Basis) (hb : Interpolable b)
    (weights : List (ℕ × ℝ)) (ho : ∀ a, b = .b0101 a → ∀ p ∈ weights, p.1 = 1 ∨ p.1 = 3) (T : ℝ) (h1 : ((w.rows : ℝ) - 1) / 10 ^ 6 ≤ T) (h2 : T ≤ ifoptInf) :
    ∃ p x, problem mem w b weights T = .ok p ∧ GlobalMin lu p x := by
  obtain ⟨p, hp⟩ := problem_new (mem := mem) hw hb weights T
  have ho1 : ∀ p ∈ weights, Sobolev.AddsDtau b p.1 := by
    intro r hr
    cases b with
    | b0101 a => exact ho a rfl r hr
    | _ => trivial
  have ho2 : ∀ p ∈ weights, Sobolev.Adds b p.1 := by
    intro r hr
    cases b with
    | b0101 a => rcases ho a rfl r hr with h | h <;> (change r.1 ≤ 3; omega)
    | _ => trivial
  have hn : 0 < w.rows - 1 := by omega
  have hcast : ((w.rows - 1 : ℕ) : ℝ) = (w.rows : ℝ) - 1 := by
    rw [Nat.cast_sub (by omega)]; simp
  obtain ⟨tau, ⟨t1, t2, t3⟩, hmin⟩ := Sobolev.exists_min hb (mem := mem.lag) ho1 (codim := w.cols) hn w.at' (T := T) (by rw [hcast]; exact h1)
  set x := (List.range (w.rows - 1)).map tau
  have hxl : x.length = w.rows - 1 := by simp [x]
  have hxv : vecOf x = tau := by
    funext i
    rcases Nat.lt_or_ge i (w.rows - 1) with h | h
    · exact by rw [vecOf_within (by omega)]; simp [x]
    · rw [t2 i h]
      exact vecOf_beyond (by omega)
  have hx6 : ∀ t ∈ x, 1 / 10 ^ 6 ≤ t := by
    intro t ht
    obtain ⟨i, hi, rfl⟩ := List.mem_map.mp ht
    exact t1 i (List.mem_range.mp hi)
  have hxs : x.sum = T := by rw [← sum_vecOf, hxl, hxv, t3]
  obtain ⟨c, hc⟩ := getCost_eq hlu hw hb ho2 hp hxl hx6
  refine ⟨p, x, hp, (feasible_iff hp x).mpr ⟨hxl, fun t ht => ⟨le_trans (by norm_num) (hx6 t ht), le_trans ?_ h2⟩, hxs⟩, c, _, hc, fun y c' v' hy hv => ?_⟩
  · rw [← hxs]
    exact List.single_le_sum (fun s hs => le_trans (by norm_num) (hx6 s hs)) t ht
  · obtain ⟨y1, -, y3⟩ := (feasible_iff hp y).mp hy
    have y6 := getCost_short hv
    obtain ⟨c'', hc''⟩ := getCost_eq hlu hw hb ho2 hp y1 y6
    rw [hc''] at hv
    cases hv
    rw [hxv]
    refine hmin _ ⟨fun i hi => ?_, fun i hi => ?_, by rw [← y1, sum_vecOf, y3]⟩
    · have hi' : i < y.length := by omega
      rw [vecOf_within hi']
      exact y6 _ (List.getElem_mem _)
    · exact vecOf_beyond (by omega)

/-- **C69.** With a solver that finds the global minimum whenever there is one, the optimiser returns a curve. -/
theorem C69_returns (lu : LU) (hlu : LUContract lu) (solver : Solver) (hs : Perfect lu solver)
    (hf : ∀ o p, (∃ x, GlobalMin lu p x) → ∃ x, solver.run o p = .ok (0, x)) (st : Option Options) (mem : Memory) (w : Pts) (hw : 2 ≤ w.rows) (b : Basis)
    (hb : Interpolable b) (weights : List (ℕ × ℝ)) (ho : ∀ a, b = .b0101 a → ∀ p ∈ weights, p.1 = 1 ∨ p.1 = 3) (T : ℝ) (h1 : ((w.rows : ℝ) - 1) / 10 ^ 6 ≤ T)
    (h2 : T ≤ ifoptInf) : ∃ g, optimalSobolevNorm lu solver st mem w b weights T = .ok (some g) ∧ g.dom = (0, T) ∧ g.codim = w.cols ∧ g.basis = b ∧ Meets g w.at' := by
  rcases Nat.eq_or_lt_of_le hw with h | h
  · obtain ⟨g, g1, g2, -, g4, g5, -, g7⟩ := (C52_one_interval lu hlu solver st mem w h.symm b hb weights T).1 (by rw [← h] at h1; norm_num at h1 ⊢; linarith)
    exact ⟨g, g1, g2, g4, g5, g7⟩
  · obtain ⟨p, x, hp, hx⟩ := C69_minimum_exists lu hlu mem w hw b hb weights ho T h1 h2
    obtain ⟨y, hy⟩ := hf (forward st).2 p ⟨x, hx⟩
    have hm := hs _ _ _ hy
    obtain ⟨c, v, hv, -⟩ := hm.least
    obtain ⟨p', hp', -, -, h3, -⟩ := C52_optimal lu hlu solver st mem w h b hb weights T
    rw [hp] at hp'; cases hp'
    obtain ⟨g, g1, g2, g3, g4, g5, g6, g7, g8⟩ := h3 y hy ((feasible_iff hp y).mp hm.feasible).1 (getCost_short hv)
    exact ⟨g, g1, g8 hm.feasible, g4, g5, g7⟩

/-- The spline of an optimiser with its times. -/
theorem optimal_result {lu : LU} (hlu : LUContract lu) {solver : Solver} (hs : Perfect lu solver) {st : Option Options} {mem : Memory} {w : Pts} (hw : 2 ≤ w.rows)
    {b : Basis} (hb : Interpolable b) {weights : List (ℕ × ℝ)} {T : ℝ} {g : GSpline} (h : optimalSobolevNorm lu solver st mem w b weights T = .ok (some g)) :
    g.dom = (0, T) ∧ g.codim = w.cols ∧ g.basis = b ∧ Consistent g ∧ Meets g w.at' ∧ g.tau.length = w.rows - 1 ∧ g.tau.sum = T ∧ (∀ t ∈ g.tau, 1 / 10 ^ 6 ≤ t) ∧
      ∃ p, problem mem w b weights T = .ok p ∧ (w.rows = 2 ∨ GlobalMin lu p g.tau) := by
  rcases Nat.eq_or_lt_of_le hw with h' | h'
  · obtain ⟨g1, g2⟩ := C52_one_interval lu hlu solver st mem w h'.symm b hb weights T
    rcases lt_or_ge T (1 / 10 ^ 6) with hT | hT
    · rw [g2 hT] at h; cases h
    · obtain ⟨g', e1, e2, e3, e4, e5, e6, e7⟩ := g1 hT
      rw [h] at e1; cases e1
      obtain ⟨p, hp⟩ := problem_new (mem := mem) hw hb weights T
      refine ⟨e2, e4, e5, e6, e7, by rw [e3, ← h']; rfl, by rw [e3]; simp, by rw [e3]; simpa using hT, p, hp, .inl h'.symm⟩
  · obtain ⟨p, hp, a1, a2, a3, -⟩ := C52_optimal lu hlu solver st mem w h' b hb weights T
    cases hr : solver.run (forward st).2 p with
    | error e => rw [a1 e hr] at h; cases h
    | ok q =>
      obtain ⟨status, x⟩ := q
      by_cases hst : status = 0
      · subst hst
        have hm := hs _ _ _ hr
        obtain ⟨c, v, hv, -⟩ := hm.least
        have hf := (feasible_iff hp x).mp hm.feasible
        obtain ⟨g', g1, g2, g3, g4, g5, g6, g7, g8⟩ := a3 x hr hf.1 (getCost_short hv)
        rw [h] at g1; cases g1
        exact ⟨g8 hm.feasible, g4, g5, g6, g7, by rw [g3]; exact hf.1, by rw [g3]; exact hf.2.2, by rw [g3]; exact getCost_short hv, p, hp, .inr (by rw [g3]; exact hm)⟩
      · rw [a2 status x hr hst] at h; cases h

/-- **C69**, partial: if the solver reports success only at global minima, then the curve that the optimiser returns for Basis0101 with parameter `α` and the weights
`α / (1 - α)` for the velocity and any `c > 0` for the jerk has the least `α ∫ ‖q'‖² + (1 - α) ∫ ‖q'''‖²` of all curves through the way points in the total time: of
all three times continuously differentiable pieces that fit together, with whatever times between way points (of at least `1e-6`), at rest at both ends.
Missing: the weights that mean this cost are not the ones one would write (`C61_cost`), and for the polynomial bases it is false (`C69_broken_lines_false`). -/
theorem C69_optimal_partial (lu : LU) (hlu : LUContract lu) (solver : Solver) (hs : Perfect lu solver) (st : Option Options) (mem : Memory) (w : Pts)
    (hw : 2 ≤ w.rows) (a : ℝ) (h0 : 0 < a) (h1 : a < 1) (c : ℝ) (hc : 0 < c) (T : ℝ) (hT : T ≤ ifoptInf) (g : GSpline)
    (h : optimalSobolevNorm lu solver st mem w (.b0101 a) [(1, a / (1 - a)), (3, c)] T = .ok (some g)) :
    g.dom = (0, T) ∧ g.codim = w.cols ∧ Meets g w.at' ∧
      ∀ (sigma : List ℝ) (φ : ℕ → ℕ → ℝ → ℝ), sigma.length + 1 = w.rows → (∀ t ∈ sigma, 1 / 10 ^ 6 ≤ t) → sigma.sum = T → Rival 3 w.cols sigma w.at' φ →
        a * Spec.energy g 1 + (1 - a) * Spec.energy g 3 ≤ a * rivalEnergy w.cols sigma φ 1 + (1 - a) * rivalEnergy w.cols sigma φ 3 := by
  have hb := interpolable0101 h0 h1
  have h1a : 0 < 1 - a := by linarith
  obtain ⟨g1, g2, g3, g4, g5, g6, g7, g8, p, hp, hm⟩ := optimal_result hlu hs hw hb h
  refine ⟨g1, g2, g5, fun sigma φ s1 s2 s3 hφ => ?_⟩
  have hpos : Positive g := ⟨by rintro h; rw [h] at g6; simp at g6; omega, fun t ht => lt_of_lt_of_le (by norm_num) (g8 t ht)⟩
  have hL : LeastCost g w.at' := least_of_meets (by rw [g3]; exact hb) g4 hpos (by rw [g1]) (by rw [g1, g7]) g5
  rcases hm with h2 | hm
  · have es : sigma = g.tau := by
      have hl1 : sigma.length = 1 := by omega
      have hl2 : g.tau.length = 1 := by omega
      obtain ⟨u, hu⟩ := List.length_eq_one_iff.mp hl1
      obtain ⟨v, hv⟩ := List.length_eq_one_iff.mp hl2
      rw [hu] at s3 ⊢; rw [hv] at g7 ⊢
      simp at s3 g7
      rw [s3, g7]
    have := (hL.exponential a g3 φ (by rw [g2, ← es]; exact hφ)).1
    rw [g2, ← es] at this
    exact this
  · have hr : ∀ q ∈ [(1, a / (1 - a)), (3, c)], RightOrder (.b0101 a) q.1 := by simp [RightOrder]
    have hS := (creach_inv (problem_cost (lu := lu) hp)).1
    -- the cost of a point
    have key : ∀ x : List ℝ, x.length + 1 = w.rows → (∀ t ∈ x, 1 / 10 ^ 6 ≤ t) → ∃ f ct, interpolateFn lu mem.junk1 x w (.b0101 a) = .ok f ∧
        p.cost.getCost lu (p.var.setVariables x) = .ok (ct, c / (1 - a) * (a * Spec.energy f 1 + (1 - a) * Spec.energy f 3)) := by
      intro x hx1 hx2
      obtain ⟨s', f, v, f1, -, -, f4, f5⟩ := C41_effective_weights lu hlu w hw _ hb _ hr mem.lag p.cost.sob hS x hx1 hx2 mem.junk1
      refine ⟨f, ⟨s', p.cost.buff2⟩, f1, ?_⟩
      unfold CostTerm.getCost
      change (p.cost.sob.cost lu x >>= _) = _
      rw [f4, f5]
      change Except.ok _ = Except.ok _
      congr 2
      simp [sobolevCost, effective]
      field_simp
    obtain ⟨ct, v, hv, hbest⟩ := hm.least
    -- the curve of the interpolation with the best times
    obtain ⟨f, ct1, f1, f2⟩ := key g.tau (by omega) g8
    obtain ⟨f', f1', f3, f4, f5, f6, f7⟩ := C66_interpolate_function lu hlu mem.junk1 _ hb g.tau hpos.1 g8 w (by omega)
    rw [f1] at f1'; cases f1'
    rw [f2] at hv; cases hv
    -- the curve of the interpolation with the times of the rival
    obtain ⟨e, ct2, e1, e2⟩ := key sigma s1 s2
    obtain ⟨e', e1', e3, e4, e5, e6, e7⟩ := C66_interpolate_function lu hlu mem.junk1 _ hb sigma (by rintro rfl; simp at s1; omega) s2 w (by omega)
    rw [e1] at e1'; cases e1'
    have hfeas : Feasible p sigma := by
      refine (feasible_iff hp sigma).mpr ⟨by omega, fun t ht => ⟨le_trans (by norm_num) (s2 t ht), le_trans ?_ hT⟩, s3⟩
      rw [← s3]
      exact List.single_le_sum (fun s hs => le_trans (by norm_num) (s2 s hs)) t ht
    have i1 := hbest sigma _ _ hfeas e2
    have i2 : a * Spec.energy f 1 + (1 - a) * Spec.energy f 3 ≤ a * Spec.energy e 1 + (1 - a) * Spec.energy e 3 := le_of_mul_le_mul_left i1 (by positivity)
    have i3 := (e7.exponential a e6 φ (by rw [e5, e4]; exact hφ)).1
    rw [e5, e4] at i3
    have hd : f.basis.dim / 2 = 3 := by rw [f6]; simp [Basis.dim]
    have i4 := (hL.exponential a g3 (curve f) (by have := f7.competes; rw [hd, f5, f4] at this; rw [g2]; exact this)).1
    have i5 : ∀ k, rivalEnergy g.codim g.tau (curve f) k = Spec.energy f k := by
      intro k
      unfold rivalEnergy Spec.energy brk instant
      rw [f4, f5, g2, f3]
      simp
    rw [i5, i5] at i4
    linarith

/-! ### The polynomial bases -/

/-- Three way points on a line: 0, 2 and 1. -/
def bend : Pts := ⟨3, 1, fun i _ => if i = 0 then 0 else if i = 1 then 2 else 1⟩

theorem bend_buffer : Legendre.sobolevBuffer 2 1 0 0 = 2 / 3 ∧ Legendre.sobolevBuffer 2 1 0 1 = 0 ∧ Legendre.sobolevBuffer 2 1 1 0 = 0 ∧
    Legendre.sobolevBuffer 2 1 1 1 = 0 := by
  have hd : Legendre.dmat 2 = setAt2 Mat.zero 1 0 1 := by
    unfold Legendre.dmat forLoop
    simp [Legendre.dmatEntry, Legendre.alpha, List.range', Mat.zero]
  refine ⟨?_, ?_, ?_, ?_⟩ <;>
  · rw [Legendre.sobolevBuffer_entry 2 1 le_rfl]
    simp [sum_range_succ, Legendre.dpow, forLoop, hd, Mat.tr, setAt2, Mat.zero]
    try norm_num

theorem bend_coeffs {tau y : Vec} (ht : ∀ i < 2, 0 < tau i) (h : Interpolates (.legendre 2) 2 1 tau bend.at' y) : y 0 = 1 ∧ y 2 = 3 / 2 := by
  have a0 := h.start 0 (by norm_num) 0 (by norm_num)
  have a1 := h.stop 0 (by norm_num) 0 (by norm_num)
  have b0 := h.start 1 (by norm_num) 0 (by norm_num)
  have b1 := h.stop 1 (by norm_num) 0 (by norm_num)
  have t0 := (ht 0 (by norm_num)).ne'
  have t1 := (ht 1 (by norm_num)).ne'
  simp [piece, comb, Basis.dim, sum_range_succ, basisFn, LegendrePoly.legendre_zero, LegendrePoly.legendre_one, window, bend, mul_div_assoc, t0, t1] at a0 a1 b0 b1
  constructor <;> linarith

theorem bend_cost {mem : LagMem} {tau : Vec} (ht : ∀ i < 2, 0 < tau i) :
    Sobolev.costFn (.legendre 2) mem [(1, 1)] 2 1 bend.at' tau = 4 / 3 * (1 / tau 0 + 9 / 4 / tau 1) := by
  obtain ⟨h1, h2⟩ := bend_coeffs ht (Sobolev.sol_spec (interpolable_legendre (d := 2) le_rfl rfl) (by norm_num) ht).1
  obtain ⟨b1, b2, b3, b4⟩ := bend_buffer
  have t0 := (ht 0 (by norm_num)).ne'
  have t1 := (ht 1 (by norm_num)).ne'
  unfold Sobolev.costFn
  simp [Sobolev.total, Sobolev.form, Sobolev.part, Basis.dim, sum_range_succ, Sobolev.wsum, Sobolev.q, Basis.addDerivMatrix, Legendre.addDerivativeMatrix, b1, b2, b3, b4,
    Legendre.sobScale, Mat.zero, h1, h2]
  field_simp
  ring

/-- The cost of a curve is at least that of the straight line with the same ends. -/
theorem straight_cost {f : ℝ → ℝ} (hf : ContDiff ℝ 1 f) {a b : ℝ} (h : a < b) : (f b - f a) ^ 2 / (b - a) ≤ ∫ t in a..b, iteratedDeriv 1 f t ^ 2 := by
  have hc : Continuous (deriv f) := hf.continuous_deriv le_rfl
  have hF : ∫ t in a..b, deriv f t = f b - f a := by
    refine intervalIntegral.integral_eq_sub_of_hasDerivAt (fun t _ => (hf.differentiable (by norm_num) t).hasDerivAt) (hc.intervalIntegrable _ _)
  have hba : 0 < b - a := sub_pos.mpr h
  set m := (f b - f a) / (b - a)
  have h0 : 0 ≤ ∫ t in a..b, (deriv f t - m) ^ 2 := intervalIntegral.integral_nonneg h.le fun t _ => sq_nonneg _
  have e : ∫ t in a..b, (deriv f t - m) ^ 2 = (∫ t in a..b, deriv f t ^ 2) - 2 * m * (∫ t in a..b, deriv f t) + m ^ 2 * (b - a) := by
    have : ∀ t, (deriv f t - m) ^ 2 = deriv f t ^ 2 - 2 * m * deriv f t + m ^ 2 := fun t => by ring
    simp only [this]
    rw [intervalIntegral.integral_add, intervalIntegral.integral_sub, intervalIntegral.integral_const_mul]
    · simp; ring
    · exact (hc.pow 2).intervalIntegrable _ _
    · exact (hc.const_mul _).intervalIntegrable _ _
    · exact ((hc.pow 2).sub (hc.const_mul _)).intervalIntegrable _ _
    · exact continuous_const.intervalIntegrable _ _
  rw [e, hF] at h0
  simp only [iteratedDeriv_one]
  have : 2 * m * (f b - f a) - m ^ 2 * (b - a) = (f b - f a) ^ 2 / (b - a) := by
    simp only [m]; field_simp; ring
  linarith

/-- **C69 is false for `broken_lines_path`**: for the way points 0, 2, 1 on a line the curve that it returns with a perfect solver is not the one of least
`∫ ‖q'‖²`: the curve of duration one that goes from 0 to 2 in two thirds of the time costs less. The optimiser gives the first interval two fifths of the time. -/
theorem C69_broken_lines_false (lu : LU) (hlu : LUContract lu) (solver : Solver) (hs : Perfect lu solver) (st : Option Options) (mem : Memory) (r : GSpline)
    (h : brokenLinesPath lu solver st mem bend = .ok (some r)) :
    r.dom = (0, 1) ∧ r.tau = [2 / 5, 3 / 5] ∧ ∃ (sigma : List ℝ) (φ : ℕ → ℕ → ℝ → ℝ), sigma.length + 1 = bend.rows ∧ (∀ t ∈ sigma, 1 / 10 ^ 6 ≤ t) ∧ sigma.sum = 1 ∧
      Rival 1 bend.cols sigma bend.at' φ ∧ rivalEnergy bend.cols sigma φ 1 < Spec.energy r 1 := by
  have hb : Interpolable (.legendre 2) := interpolable_legendre le_rfl rfl
  have hcon := consistent_of_scaling h
  unfold brokenLinesPath at h
  cases ho : optimalSobolevNorm lu solver st mem bend (.legendre 2) [(1, 1)] ((bend.rows : ℝ) - 1) with
  | error e => rw [ho] at h; cases h
  | ok og =>
    rw [ho, Interp.ok_bind] at h
    cases og with
    | none => cases h
    | some g =>
      obtain ⟨g1, g2, g3, g4, g5, g6, g7, g8, p, hp, hm⟩ := optimal_result hlu hs (by simp [bend]) hb ho
      have hm : GlobalMin lu p g.tau := hm.resolve_left (by simp [bend])
      have e2 : ((bend.rows : ℝ) - 1) = 2 := by norm_num [bend]
      rw [e2] at g1 g7 hp
      -- the times
      obtain ⟨c, v, hv, hbest⟩ := hm.least
      have ho2 : ∀ q ∈ [((1 : ℕ), (1 : ℝ))], Sobolev.Adds (.legendre 2) q.1 := fun _ _ => trivial
      obtain ⟨c1, hc1⟩ := getCost_eq hlu (by simp [bend]) hb ho2 hp g6 g8
      have hl2 : g.tau.length = 2 := by rw [g6]; rfl
      obtain ⟨x, y, hxy⟩ := List.length_eq_two.mp hl2
      rw [hxy] at g7 g8 hc1
      simp at g7 g8
      have hy : y = 2 - x := by linarith
      obtain ⟨c2, hc2⟩ := getCost_eq hlu (by simp [bend]) hb ho2 hp (x := [4 / 5, 6 / 5]) rfl (by
        intro t ht; simp at ht; rcases ht with rfl | rfl <;> norm_num)
      have hx0 : 0 < x := lt_of_lt_of_le (by norm_num) g8.1
      have hy0 : 0 < y := lt_of_lt_of_le (by norm_num) g8.2
      have hle := hbest [4 / 5, 6 / 5] _ _ ((feasible_iff hp _).mpr ⟨rfl, by intro t ht; simp at ht; rcases ht with rfl | rfl <;> norm_num [ifoptInf], by norm_num⟩) hc2
      rw [hxy, hc1] at hv
      cases hv
      change Sobolev.costFn (.legendre 2) mem.lag [(1, 1)] 2 1 bend.at' _ ≤ Sobolev.costFn (.legendre 2) mem.lag [(1, 1)] 2 1 bend.at' _ at hle
      rw [bend_cost, bend_cost] at hle
      rotate_left
      · intro i hi; interval_cases i <;> norm_num [vecOf]
      · intro i hi; interval_cases i <;> simpa [vecOf]
      simp only [vecOf, List.getD_cons_zero, List.getD_cons_succ] at hle
      have hx : x = 4 / 5 := by
        have h1 : 1 / x + 9 / 4 / y ≤ 25 / 8 := by norm_num at hle ⊢; linarith
        rw [div_add_div _ _ hx0.ne' hy0.ne', div_le_iff₀ (mul_pos hx0 hy0), hy] at h1
        have : (x - 4 / 5) ^ 2 ≤ 0 := by nlinarith
        have := pow_eq_zero_iff (two_ne_zero) |>.mp (le_antisymm this (sq_nonneg _))
        linarith
      have hy : y = 6 / 5 := by rw [hy, hx]; norm_num
      subst hx hy
      obtain ⟨r', r1, r2, r3, r4, r5, r6⟩ := scaleToOne_meets (by rw [g3]; exact hb.valid) g4 (by rw [hxy]; simp) two_pos g1 g5
      rw [h] at r1
      cases r1
      have rt : r.tau = [2 / 5, 3 / 5] := by rw [r4, hxy]; norm_num
      have rb : r.basis = .legendre 2 := by rw [r5, g3]; rfl
      have rc : r.codim = 1 := r3.trans g2
      have hR := rival_self (g := r) (by rw [rb]; exact hb) hcon ⟨by rw [rt]; simp, by rw [rt]; intro t ht; simp at ht; rcases ht with rfl | rfl <;> norm_num⟩
        (by rw [r2]) (by rw [r2, rt]; norm_num) r6
      have hd : r.basis.dim / 2 = 1 := by rw [rb]; rfl
      rw [hd, rc, rt] at hR
      refine ⟨r2, rt, [2 / 3, 1 / 3], fun i _ t => if i = 0 then 3 * t else 4 - 3 * t, rfl, ?_, by norm_num, ⟨?_, ?_, ?_, ?_, ?_, ?_⟩, ?_⟩
      · intro t ht; simp at ht; rcases ht with rfl | rfl <;> norm_num
      · intro i _ c _
        by_cases hi : i = 0
        · simp only [hi, if_true]; fun_prop
        · simp only [hi, if_false]; fun_prop
      · intro i hi c _
        simp only [List.length_cons, List.length_nil] at hi
        interval_cases i <;> norm_num [instant, bend]
      · intro i hi c _
        simp only [List.length_cons, List.length_nil] at hi
        interval_cases i <;> norm_num [instant, bend]
      · intro i _ c _ d h1 h2; omega
      · intro c _ d h1 h2; omega
      · intro c _ d h1 h2; omega
      · have e1 : rivalEnergy bend.cols [2 / 3, 1 / 3] (fun i _ t => if i = 0 then 3 * t else 4 - 3 * t) 1 = 9 := by
          have d1 : ∀ t : ℝ, deriv (fun t : ℝ => 3 * t) t = 3 := fun t => by simpa using ((hasDerivAt_id t).const_mul 3).deriv
          have d2 : ∀ t : ℝ, deriv (fun t : ℝ => 4 - 3 * t) t = -3 := fun t => by simpa using (((hasDerivAt_id t).const_mul 3).const_sub 4).deriv
          unfold rivalEnergy
          simp [sum_range_succ, bend, iteratedDeriv_one, instant, d1, d2]
          norm_num
        rw [e1]
        unfold Spec.energy
        rw [rc, rt]
        have b0 : brk r 0 = 0 := by simp [brk, r2]
        have b1 : brk r 1 = 2 / 5 := by simp [brk, r2, rt]
        have b2 : brk r 2 = 1 := by norm_num [brk, r2, rt]
        simp only [List.length_cons, List.length_nil, sum_range_succ, sum_range_zero, zero_add, b0, b1, b2, Nat.reduceAdd]
        have c0 := straight_cost (hR.smooth 0 (by simp) 0 (by simp)) (a := 0) (b := 2 / 5) (by norm_num)
        have c1 := straight_cost (hR.smooth 1 (by simp) 0 (by simp)) (a := 2 / 5) (b := 1) (by norm_num)
        have v0 := hR.start 0 (by simp) 0 (by simp)
        have v1 := hR.stop 0 (by simp) 0 (by simp)
        have v2 := hR.start 1 (by simp) 0 (by simp)
        have v3 := hR.stop 1 (by simp) 0 (by simp)
        norm_num [instant, bend] at v0 v1 v2 v3
        rw [v0, v1] at c0
        rw [v2, v3] at c1
        norm_num at c0 c1 ⊢
        linarith

/-! ## Concrete cases -/

open Classical in
/-- A solver that finds the global minimum whenever there is one. -/
noncomputable def idealSolver (lu : LU) : Solver := ⟨fun _ p => if h : ∃ x, GlobalMin lu p x then .ok (0, h.choose) else .ok (1, [])⟩

theorem idealSolver_perfect (lu : LU) : Perfect lu (idealSolver lu) := by
  intro o p x h
  unfold idealSolver at h
  dsimp only at h
  split_ifs at h with hx
  · cases h; exact hx.choose_spec
  · injection h with h; injection h with h1 h2; norm_num at h1

theorem idealSolver_finds (lu : LU) : ∀ o p, (∃ x, GlobalMin lu p x) → ∃ x, (idealSolver lu).run o p = .ok (0, x) := by
  intro o p h
  exact ⟨h.choose, by unfold idealSolver; dsimp only; rw [dif_pos h]⟩

/-- With four way points in the plane, five seconds and the parameter 1/3 the optimiser returns a curve, and it is the best one. -/
example (st : Option Options) (mem : Memory) (w : Pts) (hw : w.rows = 4) :
    ∃ g, optimalSobolevNorm exactLU (idealSolver exactLU) st mem w (.b0101 (1 / 3)) [(1, (1 / 3) / (1 - 1 / 3)), (3, 2)] 5 = .ok (some g) ∧
      ∀ (sigma : List ℝ) (φ : ℕ → ℕ → ℝ → ℝ), sigma.length + 1 = w.rows → (∀ t ∈ sigma, 1 / 10 ^ 6 ≤ t) → sigma.sum = 5 → Rival 3 w.cols sigma w.at' φ →
        1 / 3 * Spec.energy g 1 + (1 - 1 / 3) * Spec.energy g 3 ≤ 1 / 3 * rivalEnergy w.cols sigma φ 1 + (1 - 1 / 3) * rivalEnergy w.cols sigma φ 3 := by
  obtain ⟨g, hg, -⟩ := C69_returns exactLU exactLU_contract (idealSolver exactLU) (idealSolver_perfect _) (idealSolver_finds _) st mem w (by omega) (.b0101 (1 / 3))
    (interpolable0101 (by norm_num) (by norm_num)) [(1, (1 / 3) / (1 - 1 / 3)), (3, 2)] (by simp) 5 (by rw [hw]; norm_num) (by norm_num [ifoptInf])
  exact ⟨g, hg, (C69_optimal_partial exactLU exactLU_contract _ (idealSolver_perfect _) st mem w (by omega) (1 / 3) (by norm_num) (by norm_num) 2 (by norm_num) 5
    (by norm_num [ifoptInf]) g hg).2.2.2⟩

/-- `broken_lines_path` returns a curve for the three way points. -/
example (st : Option Options) (mem : Memory) : ∃ r, brokenLinesPath exactLU (idealSolver exactLU) st mem bend = .ok (some r) := by
  have hb : Interpolable (.legendre 2) := interpolable_legendre le_rfl rfl
  obtain ⟨g, hg, h1, -, h3, h4⟩ := C69_returns exactLU exactLU_contract (idealSolver exactLU) (idealSolver_perfect _) (idealSolver_finds _) st mem bend (by simp [bend])
    (.legendre 2) hb [(1, 1)] (by simp) ((bend.rows : ℝ) - 1) (by norm_num [bend]) (by norm_num [bend, ifoptInf])
  obtain ⟨-, -, -, g4, -, g6, -⟩ := optimal_result exactLU_contract (idealSolver_perfect _) (by simp [bend]) hb hg
  obtain ⟨r, r1, -⟩ := scaleToOne_meets (by rw [h3]; exact hb.valid) g4 (by rintro h; rw [h] at g6; simp [bend] at g6) (by norm_num [bend]) h1 h4
  exact ⟨r, by unfold brokenLinesPath; rw [hg]; exact r1⟩

end GSplines.Props
