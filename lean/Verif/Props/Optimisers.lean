import Verif.Props.Optim
import Mathlib.Tactic.IntervalCases
import Mathlib.Analysis.Calculus.Deriv.MeanValue
import Mathlib.MeasureTheory.Integral.IntervalIntegral.FundThmCalculus

/-!
# C52, C55, C61: the optimisers
-/

namespace GSplines.Props

open GSplines.Optim GSplines.Spec Finset

/-! ## C52 -/

/-- The linear system and the interpolation inside the optimiser. -/
theorem interpolate_new {lu : LU} (hlu : LUContract lu) {w : Pts} (hw : 2 ≤ w.rows) {b : Basis} (hb : Interpolable b) (junk : Vec) :
    ∃ s, Interp.make w.cols (w.rows - 1) b junk = .ok s ∧
      (∀ x : List ℝ, x.length = w.rows - 1 → (∀ t ∈ x, 1 / 10 ^ 6 ≤ t) →
        ∃ s' g, s.interpolate lu x w = .ok (s', g) ∧ g.dom = (0, x.sum) ∧ g.tau = x ∧ g.codim = w.cols ∧ g.basis = b ∧ Consistent g ∧ Meets g w.at') ∧
      ∀ x : List ℝ, (∃ t ∈ x, t < 1 / 10 ^ 6) → s.interpolate lu x w = .error .invalidArgument := by
  have hmk : ∃ s, Interp.make w.cols (w.rows - 1) b junk = .ok s := ⟨_, by
    unfold Interp.make
    rw [if_neg (by have := hb.even; omega), if_neg hb.ne]⟩
  obtain ⟨s, hs⟩ := hmk
  refine ⟨s, hs, fun x hx ht => ?_, fun x hx => ?_⟩
  · obtain ⟨s', g, h1, h2, h3, h4, h5, h6⟩ := C57_always_interpolates lu hlu w.cols (w.rows - 1) (by omega) b hb.valid hb.even hb.ne hb.left hb.right hb.pos s
      (.make hs) x hx ht w (by omega) rfl
    refine ⟨s', g, h1, h2, h3, h4, h5, ?_, h6⟩
    unfold Interp.interpolate at h1
    cases hsol : s.solveInterpolation lu x w with
    | error e => rw [hsol] at h1; cases h1
    | ok q =>
      rw [hsol, Interp.ok_bind] at h1
      dsimp only at h1
      cases hm : GSpline.make (0, x.sum) q.1.codim q.1.n q.1.basis q.2 x with
      | error e => rw [hm] at h1; cases h1
      | ok g' =>
        rw [hm] at h1
        cases h1
        obtain ⟨-, e1, e2, e3⟩ := Interp.reach_inv (usable_of hb.valid hb.even hb.ne hb.left hb.right) (by omega) (Reach.solve (.make hs) hsol)
        unfold GSpline.make at hm
        split_ifs at hm with c1 c2
        cases hm
        unfold Consistent
        simp only at c2 ⊢
        push Not at c2
        rw [c2, e3, hx]
  · unfold Interp.interpolate Interp.solveInterpolation
    rw [if_pos hx]
    rfl

/-- **C52** (one interval). With two way points the solver is not used: for an execution time of at least `1e-6` the result is the interpolating spline of that
duration; otherwise `std::invalid_argument` is thrown. -/
theorem C52_one_interval (lu : LU) (hlu : LUContract lu) (solver : Solver) (st : Option Options) (mem : Memory) (w : Pts) (hw : w.rows = 2) (b : Basis)
    (hb : Interpolable b) (weights : List (ℕ × ℝ)) (T : ℝ) :
    (1 / 10 ^ 6 ≤ T → ∃ g, optimalSobolevNorm lu solver st mem w b weights T = .ok (some g) ∧ g.dom = (0, T) ∧ g.tau = [T] ∧ g.codim = w.cols ∧ g.basis = b ∧
      Consistent g ∧ Meets g w.at') ∧
    (T < 1 / 10 ^ 6 → optimalSobolevNorm lu solver st mem w b weights T = .error .invalidArgument) := by
  obtain ⟨s, h1, h2, h3⟩ := interpolate_new hlu (by omega) hb mem.junk1 (w := w)
  unfold optimalSobolevNorm
  rw [if_neg (by omega), h1, Interp.ok_bind, if_pos (by omega)]
  constructor
  · intro hT
    obtain ⟨s', g, g1, g2, g3, g4, g5, g6, g7⟩ := h2 [T] (by simp [hw]) (by simpa using hT)
    rw [g1]
    exact ⟨g, rfl, by simpa using g2, g3, g4, g5, g6, g7⟩
  · intro hT
    rw [h3 [T] (by simpa using hT)]
    rfl

/-- **C52.** With three or more way points, the outcome of `optimal_sobolev_norm` is determined by what the solver does with the problem of C53 and the options
of C51: if the solver throws, so does the call; if it reports any status other than success the result is empty; if it reports success and all interval lengths
are at least `1e-6`, the result is a spline whose intervals are the lengths found by the solver, which starts at time 0 and passes through all way points in
order (with continuous derivatives and at rest at both ends). If the lengths satisfy the exposed constraint the duration is the requested one. -/
theorem C52_optimal (lu : LU) (hlu : LUContract lu) (solver : Solver) (st : Option Options) (mem : Memory) (w : Pts) (hw : 3 ≤ w.rows) (b : Basis)
    (hb : Interpolable b) (weights : List (ℕ × ℝ)) (T : ℝ) :
    ∃ p, problem mem w b weights T = .ok p ∧
      (∀ e, solver.run (forward st).2 p = .error e → optimalSobolevNorm lu solver st mem w b weights T = .error e) ∧
      (∀ status x, solver.run (forward st).2 p = .ok (status, x) → status ≠ 0 → optimalSobolevNorm lu solver st mem w b weights T = .ok none) ∧
      (∀ x, solver.run (forward st).2 p = .ok (0, x) → x.length = w.rows - 1 → (∀ t ∈ x, 1 / 10 ^ 6 ≤ t) →
        ∃ g, optimalSobolevNorm lu solver st mem w b weights T = .ok (some g) ∧ g.dom = (0, x.sum) ∧ g.tau = x ∧ g.codim = w.cols ∧ g.basis = b ∧
          Consistent g ∧ Meets g w.at' ∧ (Feasible p x → g.dom = (0, T))) ∧
      ∀ x, solver.run (forward st).2 p = .ok (0, x) → (∃ t ∈ x, t < 1 / 10 ^ 6) →
        optimalSobolevNorm lu solver st mem w b weights T = .error .invalidArgument := by
  obtain ⟨s, h1, h2, h3⟩ := interpolate_new hlu (by omega) hb mem.junk1 (w := w)
  obtain ⟨s2, hs2, -⟩ := interpolate_new hlu (by omega) hb mem.junk2 (w := w)
  have hp : ∃ p, problem mem w b weights T = .ok p := by
    unfold problem CostTerm.make Sobolev.make
    rw [if_neg (by omega), hs2]
    exact ⟨_, rfl⟩
  obtain ⟨p, hp⟩ := hp
  refine ⟨p, hp, ?_⟩
  unfold optimalSobolevNorm
  rw [if_neg (by omega), h1, Interp.ok_bind, if_neg (by omega), hp, Interp.ok_bind]
  refine ⟨fun e he => by rw [he]; rfl, fun status x he hst => ?_, fun x he hx ht => ?_, fun x he hx => ?_⟩
  · rw [he, Interp.ok_bind]
    exact if_pos hst
  · rw [he, Interp.ok_bind]
    obtain ⟨s', g, g1, g2, g3, g4, g5, g6, g7⟩ := h2 x hx ht
    refine ⟨g, ?_, g2, g3, g4, g5, g6, g7, fun hf => ?_⟩
    · dsimp only
      rw [if_neg (by simp), g1]
      rfl
    · rw [g2, ((feasible_iff hp x).mp hf).2.2]
  · rw [he, Interp.ok_bind]
    dsimp only
    rw [if_neg (by simp), h3 x hx]
    rfl

/-- **C52** (where it fails): "the call returns a curve whenever the solver reports success" is false: a solver that succeeds at a feasible point with a zero
interval length makes the call throw `std::invalid_argument`. For every such number of way points, and every basis, weights and execution time that allow it. -/
theorem C52_success_false (lu : LU) (hlu : LUContract lu) (st : Option Options) (mem : Memory) (w : Pts) (hw : 3 ≤ w.rows) (b : Basis)
    (hb : Interpolable b) (weights : List (ℕ × ℝ)) (T : ℝ) (h0 : 0 ≤ T) (hT : T ≤ ifoptInf) :
    ∃ (solver : Solver) (p : Problem) (x : List ℝ), problem mem w b weights T = .ok p ∧ solver.run (forward st).2 p = .ok (0, x) ∧ Feasible p x ∧
      optimalSobolevNorm lu solver st mem w b weights T = .error .invalidArgument := by
  set x : List ℝ := T :: List.replicate (w.rows - 2) 0 with hx
  obtain ⟨p, hp, -, -, -, h4⟩ := C52_optimal lu hlu ⟨fun _ _ => .ok (0, x)⟩ st mem w hw b hb weights T
  refine ⟨⟨fun _ _ => .ok (0, x)⟩, p, x, hp, rfl, ?_, h4 x rfl ⟨0, ?_, by norm_num⟩⟩
  · rw [feasible_iff hp]
    refine ⟨by simp [hx]; omega, ?_, by simp [hx]⟩
    intro t ht
    rw [hx, List.mem_cons] at ht
    rcases ht with rfl | ht
    · exact ⟨h0, hT⟩
    · rw [(List.mem_replicate.mp ht).2]
      exact ⟨le_rfl, by norm_num [ifoptInf]⟩
  · rw [hx]
    exact List.mem_cons_of_mem _ (List.mem_replicate.mpr ⟨by omega, rfl⟩)

/-- A spline of positive duration scaled to duration one. -/
theorem scaleToOne_meets {g : GSpline} (hb : g.basis.Valid) (hc : Consistent g) (hne : g.tau ≠ []) {D : ℝ} (hD : 0 < D) (hdom : g.dom = (0, D)) {w : ℕ → ℕ → ℝ}
    (h : Meets g w) : ∃ r, scaleToOne (some g) = .ok (some r) ∧ r.dom = (0, 1) ∧ r.codim = g.codim ∧ r.tau = g.tau.map (· / D) ∧
      r.basis = GSpline.scaledBasis g.basis (1 / D) ∧ Meets r w := by
  have hl : g.domainLength = D := by unfold GSpline.domainLength; rw [hdom]; simp
  have hr : g.linearScaling 1 = .ok (g.scaled (1 / D) (g.dom.1 + 1)) := by
    unfold GSpline.linearScaling
    rw [if_neg (by norm_num), hl, if_neg (by rintro (h | h); exacts [hD.ne' h, h (GSpline.scalingFinite_of_valid hb (by positivity))])]
    exact GSpline.make_ok (by simp) (by rw [GSpline.scaledBasis_dim]; exact hc)
  refine ⟨g.scaled (1 / D) (g.dom.1 + 1), ?_, by simp [GSpline.scaled, hdom], rfl, ?_, rfl, ?_⟩
  · unfold scaleToOne
    simp only
    rw [hr]
    rfl
  · simp only [GSpline.scaled]
    refine List.map_congr_left fun t _ => by ring
  · have := GSpline.meets_scaled (GSpline.paramOk_of_valid hb) hc hne (one_div_pos.mpr hD) h
    rw [hdom] at this
    simp only [sub_zero, zero_add] at this
    rw [one_div_mul_cancel hD.ne'] at this
    rw [hdom]
    simpa using this

theorem pos_sum {x : List ℝ} (hne : x ≠ []) (ht : ∀ t ∈ x, 1 / 10 ^ 6 ≤ t) : 0 < x.sum := by
  refine List.sum_pos x (fun t h => lt_of_lt_of_le (by norm_num) (ht t h)) hne

/-- The optimiser followed by the scaling to duration one. -/
theorem scaled_outcome (lu : LU) (hlu : LUContract lu) (solver : Solver) (st : Option Options) (mem : Memory) (w : Pts) (b : Basis)
    (hb : Interpolable b) (weights : List (ℕ × ℝ)) (T : ℝ) :
    (w.rows = 2 → 1 / 10 ^ 6 ≤ T → ∃ r, (optimalSobolevNorm lu solver st mem w b weights T >>= scaleToOne) = .ok (some r) ∧ r.dom = (0, 1) ∧ r.codim = w.cols ∧ r.tau = [1] ∧
      r.basis = GSpline.scaledBasis b (1 / T) ∧ Meets r w.at') ∧
    (3 ≤ w.rows → ∃ p, problem mem w b weights T = .ok p ∧
      (∀ e, solver.run (forward st).2 p = .error e → (optimalSobolevNorm lu solver st mem w b weights T >>= scaleToOne) = .error e) ∧
      (∀ status x, solver.run (forward st).2 p = .ok (status, x) → status ≠ 0 → (optimalSobolevNorm lu solver st mem w b weights T >>= scaleToOne) = .ok none) ∧
      (∀ x, solver.run (forward st).2 p = .ok (0, x) → x.length = w.rows - 1 → (∀ t ∈ x, 1 / 10 ^ 6 ≤ t) →
        ∃ r, (optimalSobolevNorm lu solver st mem w b weights T >>= scaleToOne) = .ok (some r) ∧ r.dom = (0, 1) ∧ r.codim = w.cols ∧ r.tau = x.map (· / x.sum) ∧
          r.basis = GSpline.scaledBasis b (1 / x.sum) ∧ Meets r w.at') ∧
      ∀ x, solver.run (forward st).2 p = .ok (0, x) → (∃ t ∈ x, t < 1 / 10 ^ 6) →
        (optimalSobolevNorm lu solver st mem w b weights T >>= scaleToOne) = .error .invalidArgument) := by
  constructor
  · intro hw hT
    obtain ⟨g, g1, g2, g3, g4, g5, g6, g7⟩ := (C52_one_interval lu hlu solver st mem w hw b hb weights T).1 hT
    have hpos : 0 < T := lt_of_lt_of_le (by norm_num) hT
    obtain ⟨r, r1, r2, r3, r4, r5, r6⟩ := scaleToOne_meets (by rw [g5]; exact hb.valid) g6 (by rw [g3]; simp) hpos g2 g7
    refine ⟨r, by rw [g1]; exact r1, r2, r3.trans g4, ?_, by rw [r5, g5], r6⟩
    rw [r4, g3]
    simp [hpos.ne']
  · intro hw
    obtain ⟨p, hp, h1, h2, h3, h4⟩ := C52_optimal lu hlu solver st mem w hw b hb weights T
    refine ⟨p, hp, fun e he => by rw [h1 e he]; rfl, fun s x he hs => by rw [h2 s x he hs]; rfl, fun x he hx ht => ?_, fun x he hx => by rw [h4 x he hx]; rfl⟩
    obtain ⟨g, g1, g2, g3, g4, g5, g6, g7, -⟩ := h3 x he hx ht
    have hne : x ≠ [] := by rintro rfl; simp at hx; omega
    obtain ⟨r, r1, r2, r3, r4, r5, r6⟩ := scaleToOne_meets (by rw [g5]; exact hb.valid) g6 (by rw [g3]; exact hne) (pos_sum hne ht) g2 g7
    exact ⟨r, by rw [g1]; exact r1, r2, r3.trans g4, by rw [r4, g3], by rw [r5, g5], r6⟩

theorem interpolable_legendre {d : ℕ} (h2 : 2 ≤ d) (he : d % 2 = 0) : Interpolable (.legendre d) :=
  ⟨h2, he, by simp only [Basis.dim]; omega, trivial, trivial, by simp⟩

theorem named_path (p : Named) (lu : LU) (solver : Solver) (st : Option Options) (mem : Memory) (w : Pts) :
    p.path lu solver st mem w = (optimalSobolevNorm lu solver st mem w (.legendre (2 * p.order)) [(p.order, 1)] ((w.rows : ℝ) - 1) >>= scaleToOne) := by
  cases p <;> rfl

/-- **C52.** The named optimisers, for two way points or more. With two way points they always return a curve. With three or more, they return a curve if the
solver reports success (for the problem with Legendre polynomials of twice the order of the derivative, that derivative as cost and one unit of time per
interval) with interval lengths of at least `1e-6`, and nothing if it reports anything else. The curve starts at time 0, has duration exactly 1 even if the
solver violates the time constraint, keeps the proportions of the intervals found by the solver, and passes through all way points in order, with continuous
derivatives up to order `2 k - 2` and at rest at both ends, where `k` is the order of the derivative. -/
theorem C52_named (p : Named) (lu : LU) (hlu : LUContract lu) (solver : Solver) (st : Option Options) (mem : Memory) (w : Pts) :
    (w.rows = 2 → ∃ r, p.path lu solver st mem w = .ok (some r) ∧ r.dom = (0, 1) ∧ r.codim = w.cols ∧ r.tau = [1] ∧ r.basis = .legendre (2 * p.order) ∧ Meets r w.at') ∧
    (3 ≤ w.rows → ∃ q, problem mem w (.legendre (2 * p.order)) [(p.order, 1)] ((w.rows : ℝ) - 1) = .ok q ∧
      (∀ e, solver.run (forward st).2 q = .error e → p.path lu solver st mem w = .error e) ∧
      (∀ status x, solver.run (forward st).2 q = .ok (status, x) → status ≠ 0 → p.path lu solver st mem w = .ok none) ∧
      (∀ x, solver.run (forward st).2 q = .ok (0, x) → x.length = w.rows - 1 → (∀ t ∈ x, 1 / 10 ^ 6 ≤ t) →
        ∃ r, p.path lu solver st mem w = .ok (some r) ∧ r.dom = (0, 1) ∧ r.codim = w.cols ∧ r.tau = x.map (· / x.sum) ∧ r.basis = .legendre (2 * p.order) ∧
          Meets r w.at') ∧
      ∀ x, solver.run (forward st).2 q = .ok (0, x) → (∃ t ∈ x, t < 1 / 10 ^ 6) → p.path lu solver st mem w = .error .invalidArgument) := by
  rw [named_path]
  have ho : 1 ≤ p.order := by cases p <;> simp [Named.order]
  obtain ⟨h1, h2⟩ := scaled_outcome lu hlu solver st mem w _ (interpolable_legendre (d := 2 * p.order) (by omega) (by omega)) [(p.order, 1)] ((w.rows : ℝ) - 1)
  refine ⟨fun hw => h1 hw ?_, h2⟩
  rw [hw]; norm_num

/-! ## C55 -/

/-- **C55.** For every `k ≠ 0` and at least one interval the parameter is `k⁴ / (1 + k⁴)`: between 0 and 1, independent of the number of intervals, and it is the
one for which `α / (1 - α) = k⁴`. -/
theorem C55_alpha (ni k : ℝ) (hn : ni ≠ 0) (hk : k ≠ 0) :
    rojasAlpha ni k = k ^ 4 / (1 + k ^ 4) ∧ 0 < rojasAlpha ni k ∧ rojasAlpha ni k < 1 ∧ rojasAlpha ni k / (1 - rojasAlpha ni k) = k ^ 4 := by
  have h2 : (√2 : ℝ) ≠ 0 := by positivity
  have hk4 : 0 < k ^ 4 := by positivity
  have e : rojasAlpha ni k = k ^ 4 / (1 + k ^ 4) := by
    unfold rojasAlpha rojasTime
    simp only
    rw [show 4 * ni / √2 / (4 * ni * k / √2) = 1 / k by field_simp]
    field_simp
    ring
  refine ⟨e, ?_, ?_, ?_⟩
  · rw [e]; positivity
  · rw [e, div_lt_one (by positivity)]; linarith
  · rw [e, show 1 - k ^ 4 / (1 + k ^ 4) = 1 / (1 + k ^ 4) by field_simp; ring]
    field_simp

/-- The parameter of the basis after scaling time from duration `D` to one. -/
theorem scaledAlpha_rojas {ni k D : ℝ} (hn : ni ≠ 0) (hk : k ≠ 0) :
    GSpline.scaledAlpha (rojasAlpha ni k) (1 / D) = (k * D) ^ 4 / (1 + (k * D) ^ 4) := by
  obtain ⟨-, h0, h1, h2⟩ := C55_alpha ni k hn hk
  have e : (√2 / 4 * rojasAlpha ni k ^ (1 / 4 : ℝ) / (1 - rojasAlpha ni k) ^ (1 / 4 : ℝ)) ^ 4 * 64 = k ^ 4 := by
    rw [mul_div_assoc, ← Real.div_rpow h0.le (by linarith), mul_pow, ← Real.rpow_natCast _ 4, ← Real.rpow_natCast _ 4, ← Real.rpow_mul (by rw [h2]; positivity), h2]
    have : (√2 / 4 : ℝ) ^ ((4 : ℕ) : ℝ) = 1 / 64 := by
      rw [Real.rpow_natCast, div_pow, show (√2 : ℝ) ^ 4 = (√2 ^ 2) ^ 2 by ring, Real.sq_sqrt (by norm_num)]
      norm_num
    rw [this]
    norm_num
    ring
  unfold GSpline.scaledAlpha
  simp only
  rw [show (√2 / 4 * rojasAlpha ni k ^ (1 / 4 : ℝ) / (1 - rojasAlpha ni k) ^ (1 / 4 : ℝ) / (1 / D)) ^ 4 * 64 =
    ((√2 / 4 * rojasAlpha ni k ^ (1 / 4 : ℝ) / (1 - rojasAlpha ni k) ^ (1 / 4 : ℝ)) ^ 4 * 64) * D ^ 4 by rw [div_div_eq_mul_div, div_one]; ring, e, mul_pow]

/-- **C52, C55.** `rojas_path` with `k ≠ 0`, for two way points or more: with two it always returns a curve; with three or more it returns a curve if the
solver reports success (for the problem with Basis0101 with parameter `k⁴ / (1 + k⁴)` and execution time `4 n / √2`) with interval lengths of at least `1e-6`,
and nothing if it reports anything else. The curve starts at time 0, has duration exactly 1, passes through all way points in order with continuous
derivatives up to order four and with zero velocity and acceleration at both ends; its basis is Basis0101 with the parameter that fits the duration `D` of the
curve before the scaling, `(k D)⁴ / (1 + (k D)⁴)`. -/
theorem C55_rojas_path (lu : LU) (hlu : LUContract lu) (solver : Solver) (st : Option Options) (mem : Memory) (w : Pts) (k : ℝ) (hk : k ≠ 0) :
    (w.rows = 2 → ∃ r, rojasPath lu solver st mem w k = .ok (some r) ∧ r.dom = (0, 1) ∧ r.codim = w.cols ∧ r.tau = [1] ∧
      r.basis = .b0101 ((k * (4 / √2)) ^ 4 / (1 + (k * (4 / √2)) ^ 4)) ∧ Meets r w.at') ∧
    (3 ≤ w.rows → ∃ q, problem mem w (.b0101 (k ^ 4 / (1 + k ^ 4))) [(1, k ^ 4 / (1 + k ^ 4)), (3, 1 - k ^ 4 / (1 + k ^ 4))] (4 * ((w.rows : ℝ) - 1) / √2) = .ok q ∧
      (∀ e, solver.run (forward st).2 q = .error e → rojasPath lu solver st mem w k = .error e) ∧
      (∀ status x, solver.run (forward st).2 q = .ok (status, x) → status ≠ 0 → rojasPath lu solver st mem w k = .ok none) ∧
      (∀ x, solver.run (forward st).2 q = .ok (0, x) → x.length = w.rows - 1 → (∀ t ∈ x, 1 / 10 ^ 6 ≤ t) →
        ∃ r, rojasPath lu solver st mem w k = .ok (some r) ∧ r.dom = (0, 1) ∧ r.codim = w.cols ∧ r.tau = x.map (· / x.sum) ∧
          r.basis = .b0101 ((k * x.sum) ^ 4 / (1 + (k * x.sum) ^ 4)) ∧ Meets r w.at') ∧
      ∀ x, solver.run (forward st).2 q = .ok (0, x) → (∃ t ∈ x, t < 1 / 10 ^ 6) → rojasPath lu solver st mem w k = .error .invalidArgument) := by
  have h2 : (√2 : ℝ) ≠ 0 := by positivity
  have key : 2 ≤ w.rows → ((w.rows : ℝ) - 1 ≠ 0 ∧ rojasPath lu solver st mem w k =
      (optimalSobolevNorm lu solver st mem w (.b0101 (rojasAlpha ((w.rows : ℝ) - 1) k)) [(1, rojasAlpha ((w.rows : ℝ) - 1) k), (3, 1 - rojasAlpha ((w.rows : ℝ) - 1) k)]
        (rojasTime ((w.rows : ℝ) - 1)) >>= scaleToOne)) := by
    intro hw
    have hn : (w.rows : ℝ) - 1 ≠ 0 := by
      have : (2 : ℝ) ≤ w.rows := by exact_mod_cast hw
      intro h; linarith
    refine ⟨hn, ?_⟩
    unfold rojasPath
    simp only
    rw [if_neg]
    have : 4 * ((w.rows : ℝ) - 1) * k ≠ 0 := mul_ne_zero (mul_ne_zero (by norm_num) hn) hk
    exact div_ne_zero this h2
  constructor
  · intro hw
    obtain ⟨hn, e⟩ := key (by omega)
    rw [e]
    obtain ⟨ea, h0, h1, -⟩ := C55_alpha _ k hn hk
    have hT : rojasTime ((w.rows : ℝ) - 1) = 4 / √2 := by
      unfold rojasTime; rw [hw]; norm_num
    obtain ⟨r, r1, r2, r3, r4, r5, r6⟩ := (scaled_outcome lu hlu solver st mem w _ (interpolable0101 h0 h1)
      [(1, rojasAlpha ((w.rows : ℝ) - 1) k), (3, 1 - rojasAlpha ((w.rows : ℝ) - 1) k)] (rojasTime ((w.rows : ℝ) - 1))).1 hw (by
        rw [hT, le_div_iff₀ (by positivity)]
        have : √2 ≤ 2 := by rw [Real.sqrt_le_left (by norm_num)]; norm_num
        linarith)
    refine ⟨r, r1, r2, r3, r4, ?_, r6⟩
    rw [r5]
    change Basis.b0101 _ = _
    rw [scaledAlpha_rojas hn hk, hT]
  · intro hw
    obtain ⟨hn, e⟩ := key (by omega)
    rw [e]
    obtain ⟨ea, h0, h1, -⟩ := C55_alpha _ k hn hk
    obtain ⟨p, hp, q1, q2, q3, q4⟩ := (scaled_outcome lu hlu solver st mem w _ (interpolable0101 h0 h1)
      [(1, rojasAlpha ((w.rows : ℝ) - 1) k), (3, 1 - rojasAlpha ((w.rows : ℝ) - 1) k)] (rojasTime ((w.rows : ℝ) - 1))).2 hw
    refine ⟨p, by rw [← hp, ea]; rfl, q1, q2, fun x he hx ht => ?_, q4⟩
    obtain ⟨r, r1, r2, r3, r4, r5, r6⟩ := q3 x he hx ht
    refine ⟨r, r1, r2, r3, r4, ?_, r6⟩
    rw [r5]
    change Basis.b0101 _ = _
    rw [scaledAlpha_rojas hn hk]

/-- **C61** (what is used instead): the cost that is minimised is not `α ∫ ‖q'‖² + (1 - α) ∫ ‖q'''‖²`, as the weights say, but
`α (1 - α) ∫ ‖q'‖² + (1 - α) ∫ ‖q'''‖²`: in every state of the cost term of the problem of `rojas_path`, for all interval lengths of at least `1e-6`. -/
theorem C61_cost (lu : LU) (hlu : LUContract lu) (mem : LagMem) (w : Pts) (hw : 2 ≤ w.rows) (a : ℝ) (h0 : 0 < a) (h1 : a < 1) (c : CostTerm)
    (hc : CReach lu w (.b0101 a) [(1, a), (3, 1 - a)] mem c) (T : ℝ) (x : List ℝ) (hx : x.length + 1 = w.rows) (ht : ∀ t ∈ x, 1 / 10 ^ 6 ≤ t) (junk : Vec) :
    ∃ c' g v, interpolateFn lu junk x w (.b0101 a) = .ok g ∧ Meets g w.at' ∧ g.tau = x ∧ c.getCost lu ((TimeVar.make x.length T).setVariables x) = .ok (c', v) ∧
      v = a * (1 - a) * energy g 1 + (1 - a) * energy g 3 := by
  obtain ⟨s', g, v, h1, h2, h3, h4, h5⟩ := C41_effective_weights lu hlu w hw _ (interpolable0101 h0 h1) [(1, a), (3, 1 - a)] (by simp [RightOrder]) mem c.sob
    (creach_inv hc).1 x hx ht junk
  refine ⟨⟨s', c.buff2⟩, g, v, h1, h2, h3, ?_, ?_⟩
  · unfold CostTerm.getCost
    change (c.sob.cost lu x >>= _) = _
    rw [h4]
    rfl
  · rw [h5]
    simp [sobolevCost, effective]

/-- The pieces of an interpolating spline run from way point to way point. -/
theorem meets_ends {g : GSpline} (hb : Interpolable g.basis) (hc : Consistent g) (hp : Positive g) {w : ℕ → ℕ → ℝ} (h : Meets g w) {i : ℕ} (hi : i < g.tau.length)
    {c : ℕ} (hcc : c < g.codim) : curve g i c (brk g i) = w i c ∧ curve g i c (brk g (i + 1)) = w (i + 1) c := by
  have stop : ∀ j < g.tau.length, curve g j c (brk g (j + 1)) = w (j + 1) c := by
    intro j hj
    have hl : g.getInterval (brk g (j + 1)) = j := GSpline.getInterval_of_located hp ⟨hj, .inr (.inl ⟨GSpline.brk_lt_succ hp hj, le_rfl⟩)⟩
    have hw : window (vecOf g.tau j) (brk g (j + 1) - brk g j) = 1 := by
      rw [GSpline.brk_succ g hj]
      unfold window
      have := vecOf_pos hp.2 hj
      field_simp
      ring
    obtain ⟨v, h1, -, h3⟩ := GSpline.value_spec hb.valid hc hl hj (vecOf_pos hp.2 hj).ne' (by rw [hw]; exact hb.right)
    obtain ⟨v', h1', -, h3'⟩ := h.points (j + 1) (by omega)
    rw [h1] at h1'
    cases h1'
    have := (h3 c hcc).symm.trans (h3' c hcc)
    simpa using this
  refine ⟨?_, stop i hi⟩
  cases i with
  | zero =>
    have hl : g.getInterval (brk g 0) = 0 := GSpline.getInterval_of_located hp ⟨hi, .inl ⟨le_rfl, rfl⟩⟩
    have hw : window (vecOf g.tau 0) (brk g 0 - brk g 0) = -1 := by unfold window; simp
    obtain ⟨v, h1, -, h3⟩ := GSpline.value_spec hb.valid hc hl hi (vecOf_pos hp.2 hi).ne' (by rw [hw]; exact hb.left)
    obtain ⟨v', h1', -, h3'⟩ := h.points 0 (by omega)
    rw [h1] at h1'
    cases h1'
    have := (h3 c hcc).symm.trans (h3' c hcc)
    simpa using this
  | succ j =>
    have := h.joins j hi c hcc 0 (Nat.zero_le _)
    simp only [iteratedDeriv_zero] at this
    rw [← this, stop j (by omega)]

/-- A spline that moves has positive velocity energy. -/
theorem energy_pos {g : GSpline} (hb : Interpolable g.basis) (hc : Consistent g) (hp : Positive g) {w : ℕ → ℕ → ℝ} (h : Meets g w) {i : ℕ} (hi : i < g.tau.length)
    {c : ℕ} (hcc : c < g.codim) (hne : w i c ≠ w (i + 1) c) : 0 < energy g 1 := by
  have hcont : ∀ i c, Continuous fun t => iteratedDeriv 1 (curve g i c) t ^ 2 := fun i c =>
    (((Fn.contDiff_curve g i c).of_le (by exact_mod_cast le_top)).continuous_iteratedDeriv 1 le_rfl).pow 2
  have hnn : ∀ i < g.tau.length, ∀ c, 0 ≤ ∫ t in (brk g i)..(brk g (i + 1)), iteratedDeriv 1 (curve g i c) t ^ 2 := fun i hi c =>
    intervalIntegral.integral_nonneg (GSpline.brk_lt_succ hp hi).le fun t _ => sq_nonneg _
  have hlt := GSpline.brk_lt_succ hp hi
  have hpos : 0 < ∫ t in (brk g i)..(brk g (i + 1)), iteratedDeriv 1 (curve g i c) t ^ 2 := by
    have hd : Differentiable ℝ (curve g i c) := (Fn.contDiff_curve g i c).differentiable (by simp)
    obtain ⟨x, hx, e⟩ := exists_deriv_eq_slope (curve g i c) hlt hd.continuous.continuousOn hd.differentiableOn
    obtain ⟨e1, e2⟩ := meets_ends hb hc hp h hi hcc
    refine intervalIntegral.integral_pos hlt (hcont i c).continuousOn (fun t _ => sq_nonneg _) ⟨x, ⟨hx.1.le, hx.2.le⟩, ?_⟩
    rw [iteratedDeriv_one, e, e1, e2]
    have : (w (i + 1) c - w i c) / (brk g (i + 1) - brk g i) ≠ 0 := div_ne_zero (sub_ne_zero.mpr hne.symm) (by linarith)
    positivity
  unfold energy
  refine sum_pos' (fun j hj => sum_nonneg fun k _ => hnn j (mem_range.mp hj) k) ⟨i, mem_range.mpr hi, ?_⟩
  exact sum_pos' (fun k _ => hnn i hi k) ⟨c, mem_range.mpr hcc, hpos⟩

/-- **C61** (where it fails): so whenever two consecutive way points differ, `rojas_path` minimises a function whose value is not the documented cost, at all
interval lengths of at least `1e-6`. -/
theorem C61_cost_false (lu : LU) (hlu : LUContract lu) (mem : LagMem) (w : Pts) (hw : 2 ≤ w.rows) (a : ℝ) (h0 : 0 < a) (h1 : a < 1) (c : CostTerm)
    (hc : CReach lu w (.b0101 a) [(1, a), (3, 1 - a)] mem c) (T : ℝ) (x : List ℝ) (hx : x.length + 1 = w.rows) (ht : ∀ t ∈ x, 1 / 10 ^ 6 ≤ t) (junk : Vec)
    (i k : ℕ) (hi : i < x.length) (hk : k < w.cols) (hne : w.at' i k ≠ w.at' (i + 1) k) :
    ∃ c' g v, interpolateFn lu junk x w (.b0101 a) = .ok g ∧ c.getCost lu ((TimeVar.make x.length T).setVariables x) = .ok (c', v) ∧
      v ≠ sobolevCost g [(1, a), (3, 1 - a)] := by
  obtain ⟨c', g, v, g1, g2, g3, g4, g5⟩ := C61_cost lu hlu mem w hw a h0 h1 c hc T x hx ht junk
  refine ⟨c', g, v, g1, g4, ?_⟩
  have hb := interpolable0101 h0 h1
  obtain ⟨s, h1', h2', -⟩ := interpolate_new hlu hw hb junk
  obtain ⟨s', g', f1, f2, f3, f4, f5, f6, f7⟩ := h2' x (by omega) ht
  obtain rfl : g = g' := by
    unfold interpolateFn at g1
    rw [if_neg (by omega), h1', Interp.ok_bind, f1] at g1
    cases g1; rfl
  have hp : Positive g := ⟨by rw [f3]; rintro rfl; simp at hi, by rw [f3]; exact fun t h => lt_of_lt_of_le (by norm_num) (ht t h)⟩
  have := energy_pos (by rw [f5]; exact hb) f6 hp f7 (by rw [f3]; exact hi) (by rw [f4]; exact hk) hne
  rw [g5]
  simp only [sobolevCost, List.map_cons, List.map_nil, List.sum_cons, List.sum_nil, add_zero]
  have : 0 < a * a * energy g 1 := by positivity
  intro e
  linarith

/-! ## Examples -/

/-- A solver that reports success with equal lengths. -/
def equalSolver : Solver := ⟨fun _ p => .ok (0, p.var.rows |> fun n => List.replicate n 1)⟩

/-- C52: the minimum jerk path through three way points on a line, with a solver that succeeds, and with one that reports status 2. -/
example (mem : Memory) : (∃ r, minimumJerkPath exactLU equalSolver none mem ⟨3, 1, fun i _ => i⟩ = .ok (some r) ∧ r.dom = (0, 1) ∧ r.tau = [1 / 2, 1 / 2] ∧
      Meets r fun i _ => i) ∧
    minimumJerkPath exactLU ⟨fun _ _ => .ok (2, [1, 1])⟩ none mem ⟨3, 1, fun i _ => i⟩ = .ok none := by
  constructor
  · obtain ⟨q, hq, -, -, h3, -⟩ := (C52_named .jerk exactLU exactLU_contract equalSolver none mem ⟨3, 1, fun i _ => i⟩).2 le_rfl
    obtain ⟨h1, -⟩ := problem_var hq
    obtain ⟨r, r1, r2, -, r4, -, r6⟩ := h3 [1, 1] (by simp [equalSolver, h1, TimeVar.make]) rfl (by norm_num)
    exact ⟨r, r1, r2, by rw [r4]; norm_num, r6⟩
  · obtain ⟨q, hq, -, h2, -⟩ := (C52_named .jerk exactLU exactLU_contract ⟨fun _ _ => .ok (2, [1, 1])⟩ none mem ⟨3, 1, fun i _ => i⟩).2 le_rfl
    exact h2 2 [1, 1] rfl (by norm_num)

/-- C52: a feasible outcome of the solver with Basis0101 gives exactly the requested duration. -/
example (mem : Memory) : ∃ g, optimalSobolevNorm exactLU ⟨fun _ _ => .ok (0, [1, 4])⟩ none mem ⟨3, 2, fun i _ => i⟩ (.b0101 (1 / 2)) [(3, 1)] 5 = .ok (some g) ∧ g.dom = (0, 5) := by
  obtain ⟨p, hp, -, -, h, -⟩ := C52_optimal exactLU exactLU_contract ⟨fun _ _ => .ok (0, [1, 4])⟩ none mem ⟨3, 2, fun i _ => i⟩ le_rfl _
    (interpolable0101 (a := 1 / 2) (by norm_num) (by norm_num)) [(3, 1)] 5
  obtain ⟨g, h1, -, -, -, -, -, -, h2⟩ := h [1, 4] rfl rfl (by norm_num)
  refine ⟨g, h1, h2 ?_⟩
  rw [feasible_iff hp]
  norm_num [ifoptInf]

/-- C53: the problem for three way points and execution time 5 is built, it has feasible points, so it starts at one. -/
example (mem : Memory) : ∃ p, problem mem ⟨3, 2, fun i _ => i⟩ (.b0101 (1 / 2)) [(3, 1)] 5 = .ok p ∧ Feasible p p.var.values ∧ p.var.values = [5 / 2, 5 / 2] := by
  obtain ⟨p, hp, -⟩ := C52_optimal exactLU exactLU_contract ⟨fun _ _ => .ok (0, [1, 4])⟩ none mem ⟨3, 2, fun i _ => i⟩ le_rfl _
    (interpolable0101 (a := 1 / 2) (by norm_num) (by norm_num)) [(3, 1)] 5
  refine ⟨p, hp, (C53_start_feasible mem _ _ _ _ p hp).1 [1, 4] ?_, ?_⟩
  · rw [feasible_iff hp]
    norm_num [ifoptInf]
  · rw [(problem_var hp).1]
    simp [TimeVar.make]

/-- C60, C61: the cost term of `rojas_path` for three way points in a new state: its Jacobian is computed, and its value is not the documented cost. -/
example (mem : LagMem) : ∃ c, CostTerm.make ⟨3, 1, fun i _ => i⟩ (.b0101 (1 / 2)) [(1, 1 / 2), (3, 1 - 1 / 2)] mem (fun _ => 0) (fun _ => 0) = .ok c ∧
    (∃ c' jac', c.fillJacobian exactLU ((TimeVar.make 2 5).setVariables [2, 3]) Mat.zero = .ok (c', jac')) ∧
    ∃ c' g v, interpolateFn exactLU (fun _ => 0) [2, 3] ⟨3, 1, fun i _ => i⟩ (.b0101 (1 / 2)) = .ok g ∧ c.getCost exactLU ((TimeVar.make 2 5).setVariables [2, 3]) = .ok (c', v) ∧
      v ≠ sobolevCost g [(1, 1 / 2), (3, 1 - 1 / 2)] := by
  have hb := interpolable0101 (a := 1 / 2) (by norm_num) (by norm_num)
  have hmk : ∃ c, CostTerm.make ⟨3, 1, fun i _ => i⟩ (.b0101 (1 / 2)) [(1, 1 / 2), (3, 1 - 1 / 2)] mem (fun _ => 0) (fun _ => 0) = .ok c := by
    unfold CostTerm.make Sobolev.make Interp.make
    rw [if_neg (by norm_num), if_neg (by simp [Basis.dim]), if_neg (by simp [Basis.dim])]
    exact ⟨_, rfl⟩
  obtain ⟨c, hc⟩ := hmk
  refine ⟨c, hc, ?_, ?_⟩
  · obtain ⟨c', jac', h, -⟩ := C60_cost_jacobian_partial exactLU exactLU_contract ⟨3, 1, fun i _ => i⟩ (by norm_num) _ hb [(1, 1 / 2), (3, 1 - 1 / 2)] (by simp) mem (by simp) c
      (.make hc) 5 [2, 3] rfl (by norm_num) Mat.zero
    exact ⟨c', jac', h⟩
  · exact C61_cost_false exactLU exactLU_contract mem ⟨3, 1, fun i _ => i⟩ (by norm_num) (1 / 2) (by norm_num) (by norm_num) c (.make hc) 5 [2, 3] rfl (by norm_num) _ 0 0
      (by norm_num) (by norm_num) (by norm_num)

/-- C55: `rojas_path` with `k = 2` for three way points. -/
example (mem : Memory) : ∃ r, rojasPath exactLU equalSolver none mem ⟨3, 1, fun i _ => i⟩ 2 = .ok (some r) ∧ r.dom = (0, 1) ∧ r.basis = .b0101 (256 / 257) := by
  obtain ⟨q, hq, -, -, h3, -⟩ := (C55_rojas_path exactLU exactLU_contract equalSolver none mem ⟨3, 1, fun i _ => i⟩ 2 (by norm_num)).2 le_rfl
  obtain ⟨h1, -⟩ := problem_var hq
  obtain ⟨r, r1, r2, -, -, r5, -⟩ := h3 [1, 1] (by simp [equalSolver, h1, TimeVar.make]) rfl (by norm_num)
  exact ⟨r, r1, r2, by rw [r5]; norm_num⟩

end GSplines.Props
