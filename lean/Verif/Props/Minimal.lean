import Verif.Spec.Minimal
import Verif.Proofs.Minimal
import Verif.Props.Optimisers

/-!
# Interpolating splines are the curves of least cost (C66)
-/

namespace GSplines.Props

open GSplines Spec Interp Optim Finset

/-! ## Auxiliary facts -/

theorem brk_instant {g : GSpline} (h : g.dom.1 = 0) (i : ℕ) : brk g i = instant g.tau i := by rw [brk, instant, h, zero_add]

theorem kappa_b0101 {a : ℝ} (h0 : 0 < a) (h1 : a < 1) : (1 - a) * kappa (.b0101 a) = a := by
  have h1' : 0 < 1 - a := by linarith
  have e : (√2 / 4 : ℝ) ^ 4 = 1 / 64 := by
    rw [div_pow, show (√2 : ℝ) ^ 4 = (√2 ^ 2) ^ 2 by ring, Real.sq_sqrt (by norm_num)]
    norm_num
  have ea : (a ^ (1 / 4 : ℝ)) ^ 4 = a := by rw [← Real.rpow_natCast, ← Real.rpow_mul h0.le]; norm_num
  have eb : ((1 - a) ^ (1 / 4 : ℝ)) ^ 4 = 1 - a := by rw [← Real.rpow_natCast, ← Real.rpow_mul h1'.le]; norm_num
  change (1 - a) * (4 * (2 * (√2 / 4 * a ^ (1 / 4 : ℝ) / (1 - a) ^ (1 / 4 : ℝ))) ^ 4) = a
  rw [mul_pow, div_pow, mul_pow, e, ea, eb]
  field_simp
  norm_num

/-- The spline itself is one of the curves that compete. -/
theorem rival_self {g : GSpline} (hb : Interpolable g.basis) (hc : Consistent g) (hp : Positive g) (h0 : g.dom.1 = 0) (hend : g.dom.2 = g.tau.sum)
    {w : ℕ → ℕ → ℝ} (h : Meets g w) : Rival (g.basis.dim / 2) g.codim g.tau w (curve g) := by
  refine ⟨fun i _ c _ => (Fn.contDiff_curve g i c).of_le (by exact_mod_cast le_top), fun i hi c hcc => ?_, fun i hi c hcc => ?_, fun i hi c hcc d h1 h2 => ?_,
    fun c hcc d h1 h2 => ?_, fun c hcc d h1 h3 => ?_⟩
  · rw [← brk_instant h0]; exact (meets_ends hb hc hp h hi hcc).1
  · rw [← brk_instant h0]; exact (meets_ends hb hc hp h hi hcc).2
  · rw [← brk_instant h0]
    have := hb.ne
    have := hb.even
    exact h.joins i hi c hcc d (by omega)
  · have := h.restL c hcc d h1 h2
    rwa [h0] at this
  · rw [← hend]; exact h.restR c hcc d h1 h3

/-- The energies of one component, of the spline, of a rival and of their difference. -/
theorem minimal_split {g : GSpline} (hb : Interpolable g.basis) (hc : Consistent g) (hp : Positive g) (h0 : g.dom.1 = 0) (hend : g.dom.2 = g.tau.sum)
    {w : ℕ → ℕ → ℝ} (h : Meets g w) {φ : ℕ → ℕ → ℝ → ℝ} (hφ : Rival (g.basis.dim / 2) g.codim g.tau w φ) {c : ℕ} (hcc : c < g.codim) :
    Minimal.total g.tau.length (g.basis.dim / 2) (kappa g.basis) (instant g.tau) (fun i d => iteratedDeriv d (curve g i c)) ≤
        Minimal.total g.tau.length (g.basis.dim / 2) (kappa g.basis) (instant g.tau) (fun i d => iteratedDeriv d (φ i c)) ∧
      (Minimal.total g.tau.length (g.basis.dim / 2) (kappa g.basis) (instant g.tau) (fun i d => iteratedDeriv d (φ i c)) ≤
          Minimal.total g.tau.length (g.basis.dim / 2) (kappa g.basis) (instant g.tau) (fun i d => iteratedDeriv d (curve g i c)) →
        ∀ i < g.tau.length, ∀ t ∈ Set.Icc (instant g.tau i) (instant g.tau (i + 1)), φ i c t = curve g i c t) ∧
      Minimal.total g.tau.length (g.basis.dim / 2) (kappa g.basis) (instant g.tau) (fun i d => iteratedDeriv d (φ i c)) =
        Minimal.total g.tau.length (g.basis.dim / 2) (kappa g.basis) (instant g.tau) (fun i d => iteratedDeriv d (curve g i c)) +
          Minimal.total g.tau.length (g.basis.dim / 2) (kappa g.basis) (instant g.tau) (fun i d t => iteratedDeriv d (φ i c) t - iteratedDeriv d (curve g i c) t) ∧
      ∑ i ∈ range g.tau.length, ∫ t in (instant g.tau i)..(instant g.tau (i + 1)),
        (iteratedDeriv (g.basis.dim / 2) (curve g i c) t * (iteratedDeriv (g.basis.dim / 2) (φ i c) t - iteratedDeriv (g.basis.dim / 2) (curve g i c) t) +
          kappa g.basis * (iteratedDeriv 1 (curve g i c) t * (iteratedDeriv 1 (φ i c) t - iteratedDeriv 1 (curve g i c) t))) = 0 := by
  have hne := hb.ne
  have hev := hb.even
  have hself := rival_self hb hc hp h0 hend h
  have := Minimal.minimal (n := g.tau.length) (m := g.basis.dim / 2) (by omega) (kappa_nonneg g.basis) (b := instant g.tau)
    (F := fun i d => iteratedDeriv d (curve g i c)) (G := fun i d => iteratedDeriv d (φ i c))
    (fun i hi => by rw [← brk_instant h0, ← brk_instant h0]; exact GSpline.brk_lt_succ hp hi)
    (fun i _ => tower_of_contDiff (Fn.contDiff_curve g i c))
    (fun i hi t => by
      beta_reduce
      rw [iteratedDeriv_curve, iteratedDeriv_curve]
      have := comb_ode (usable_of hb.valid hb.even hb.ne hb.left hb.right) (vecOf_pos hp.2 hi).ne'
        (fun k => vecOf g.coeffs (i * g.basis.dim * g.codim + g.basis.dim * c + k)) (t - brk g i)
      rw [show g.basis.dim / 2 - 1 + 1 = g.basis.dim / 2 by omega] at this
      exact this)
    (fun i hi d hd t => by
      beta_reduce
      rw [iteratedDeriv_succ]
      exact ((hφ.smooth i hi c hcc).differentiable_iteratedDeriv d (by exact_mod_cast hd) t).hasDerivAt)
    (fun i hi => (hφ.smooth i hi c hcc).continuous_iteratedDeriv _ le_rfl)
    (fun i hi => by simp only [iteratedDeriv_zero]; rw [hself.start i hi c hcc, hφ.start i hi c hcc])
    (fun i hi => by simp only [iteratedDeriv_zero]; rw [hself.stop i hi c hcc, hφ.stop i hi c hcc])
    (fun d h1 h2 => by
      have e : instant g.tau 0 = 0 := by simp [instant]
      beta_reduce
      rw [e, hself.restL c hcc d h1 h2, hφ.restL c hcc d h1 h2])
    (fun d h1 h2 => by
      have e : instant g.tau g.tau.length = g.tau.sum := by simp [instant]
      beta_reduce
      rw [e, hself.restR c hcc d h1 h2, hφ.restR c hcc d h1 h2])
    (fun i hi d h1 h2 => by
      have := h.joins i hi c hcc d (by omega)
      rw [brk_instant h0] at this
      exact this)
    (fun i hi d h1 h2 => hφ.join i hi c hcc d h1 h2)
  simpa only [iteratedDeriv_zero] using this

/-- The energies of one component. -/
theorem minimal_component {g : GSpline} (hb : Interpolable g.basis) (hc : Consistent g) (hp : Positive g) (h0 : g.dom.1 = 0) (hend : g.dom.2 = g.tau.sum)
    {w : ℕ → ℕ → ℝ} (h : Meets g w) {φ : ℕ → ℕ → ℝ → ℝ} (hφ : Rival (g.basis.dim / 2) g.codim g.tau w φ) {c : ℕ} (hcc : c < g.codim) :
    Minimal.total g.tau.length (g.basis.dim / 2) (kappa g.basis) (instant g.tau) (fun i d => iteratedDeriv d (curve g i c)) ≤
        Minimal.total g.tau.length (g.basis.dim / 2) (kappa g.basis) (instant g.tau) (fun i d => iteratedDeriv d (φ i c)) ∧
      (Minimal.total g.tau.length (g.basis.dim / 2) (kappa g.basis) (instant g.tau) (fun i d => iteratedDeriv d (φ i c)) ≤
          Minimal.total g.tau.length (g.basis.dim / 2) (kappa g.basis) (instant g.tau) (fun i d => iteratedDeriv d (curve g i c)) →
        ∀ i < g.tau.length, ∀ t ∈ Set.Icc (instant g.tau i) (instant g.tau (i + 1)), φ i c t = curve g i c t) :=
  ⟨(minimal_split hb hc hp h0 hend h hφ hcc).1, (minimal_split hb hc hp h0 hend h hφ hcc).2.1⟩

theorem total_rivalEnergy (codim : ℕ) (tau : List ℝ) (m : ℕ) (κ : ℝ) (φ : ℕ → ℕ → ℝ → ℝ) (hm : 1 ≤ m) (hφ : ∀ i < tau.length, ∀ c < codim, ContDiff ℝ m (φ i c)) :
    rivalEnergy codim tau φ m + κ * rivalEnergy codim tau φ 1 =
      ∑ c ∈ range codim, Minimal.total tau.length m κ (instant tau) (fun i d => iteratedDeriv d (φ i c)) := by
  unfold rivalEnergy Minimal.total
  rw [mul_sum, ← sum_add_distrib, sum_comm (s := range codim)]
  refine sum_congr rfl fun i hi => ?_
  rw [mul_sum, ← sum_add_distrib]
  refine sum_congr rfl fun c hc => ?_
  have hs := hφ i (mem_range.mp hi) c (mem_range.mp hc)
  have c1 := hs.continuous_iteratedDeriv m le_rfl
  have c2 := hs.continuous_iteratedDeriv 1 (by exact_mod_cast hm)
  rw [← intervalIntegral.integral_const_mul, ← intervalIntegral.integral_add]
  · exact Continuous.intervalIntegrable (by fun_prop) _ _
  · exact Continuous.intervalIntegrable (by fun_prop) _ _

theorem energy_rival {g : GSpline} (h0 : g.dom.1 = 0) (k : ℕ) : Spec.energy g k = rivalEnergy g.codim g.tau (curve g) k := by
  unfold Spec.energy rivalEnergy
  simp only [brk_instant h0]

/-- Splines that meet the way points have least energy. -/
theorem minimal_of_meets {g : GSpline} (hb : Interpolable g.basis) (hc : Consistent g) (hp : Positive g) (h0 : g.dom.1 = 0) (hend : g.dom.2 = g.tau.sum)
    {w : ℕ → ℕ → ℝ} (h : Meets g w) {φ : ℕ → ℕ → ℝ → ℝ} (hφ : Rival (g.basis.dim / 2) g.codim g.tau w φ) :
    Spec.energy g (g.basis.dim / 2) + kappa g.basis * Spec.energy g 1 ≤
        rivalEnergy g.codim g.tau φ (g.basis.dim / 2) + kappa g.basis * rivalEnergy g.codim g.tau φ 1 ∧
      (rivalEnergy g.codim g.tau φ (g.basis.dim / 2) + kappa g.basis * rivalEnergy g.codim g.tau φ 1 ≤
          Spec.energy g (g.basis.dim / 2) + kappa g.basis * Spec.energy g 1 → SameCurve g.codim g.tau φ (curve g)) := by
  have hm : 1 ≤ g.basis.dim / 2 := by have := hb.ne; have := hb.even; omega
  rw [energy_rival h0, energy_rival h0, total_rivalEnergy _ _ _ _ _ hm (rival_self hb hc hp h0 hend h).smooth, total_rivalEnergy _ _ _ _ _ hm hφ.smooth]
  have key := fun c (hcc : c < g.codim) => minimal_component hb hc hp h0 hend h hφ hcc
  refine ⟨sum_le_sum fun c hcc => (key c (mem_range.mp hcc)).1, fun hle i hi c hcc => ?_⟩
  refine (key c hcc).2 (le_of_eq ?_) i hi
  have := (sum_eq_sum_iff_of_le fun c hcc => (key c (mem_range.mp hcc)).1).mp
    (le_antisymm (sum_le_sum fun c hcc => (key c (mem_range.mp hcc)).1) hle) c (mem_range.mpr hcc)
  exact this.symm

/-! ## C66 -/

theorem least_of_meets {g : GSpline} (hb : Interpolable g.basis) (hc : Consistent g) (hp : Positive g) (h0 : g.dom.1 = 0) (hend : g.dom.2 = g.tau.sum)
    {w : ℕ → ℕ → ℝ} (h : Meets g w) : LeastCost g w := by
  refine ⟨rival_self hb hc hp h0 hend h, fun hpoly φ hφ => ?_, fun a ha φ hφ => ?_⟩
  · have hk : kappa g.basis = 0 := by
      cases hg : g.basis with
      | b0101 a => exact absurd hg (hpoly a)
      | _ => rfl
    have := minimal_of_meets hb hc hp h0 hend h hφ
    simp only [hk, zero_mul, add_zero] at this
    exact ⟨this.1, fun hne => lt_of_not_ge fun hle => hne (this.2 hle)⟩
  · have hd : g.basis.dim / 2 = 3 := by rw [ha]; norm_num [Basis.dim]
    have h01 : 0 < a := hb.pos a ha
    have h11 : a < 1 := by have := hb.valid; rw [ha] at this; exact this.2
    have hk : (1 - a) * kappa g.basis = a := by rw [ha]; exact kappa_b0101 h01 h11
    have := minimal_of_meets hb hc hp h0 hend h (φ := φ) (by rw [hd]; exact hφ)
    rw [hd] at this
    have h1a : 0 < 1 - a := by linarith
    have e : ∀ x y : ℝ, a * x + (1 - a) * y = (1 - a) * (y + kappa g.basis * x) := fun x y => by
      rw [mul_add, ← mul_assoc, hk]; ring
    rw [e, e]
    exact ⟨mul_le_mul_of_nonneg_left this.1 h1a.le, fun hne => mul_lt_mul_of_pos_left (lt_of_not_ge fun hle => hne (this.2 hle)) h1a⟩

/-- What the constructor of `GSpline` has checked. -/
theorem consistent_of_make {dom : ℝ × ℝ} {c n : ℕ} {b : Basis} {y tau : List ℝ} {g : GSpline} (h : GSpline.make dom c n b y tau = .ok g) (hn : n = tau.length) :
    Consistent g := by
  unfold GSpline.make at h
  split_ifs at h with c1 c2
  cases h
  unfold Consistent
  push Not at c2
  rw [c2, hn]

/-- **C66.** In every state of an interpolator object, for all interval lengths of at least `1e-6` and all way points, `interpolate` returns the curve of least
cost through the way points in these times. -/
theorem C66_least_cost (lu : LU) (hlu : LUContract lu) (codim n : ℕ) (hn : 0 < n) (b : Basis) (hb : Interpolable b) (s : Interp) (hs : Reach lu codim n b s)
    (tau : List ℝ) (hlen : tau.length = n) (ht : ∀ t ∈ tau, 1 / 10 ^ 6 ≤ t) (w : Pts) (hw : w.rows = n + 1) (hc : w.cols = codim) :
    ∃ s' g, s.interpolate lu tau w = .ok (s', g) ∧ g.dom = (0, tau.sum) ∧ g.tau = tau ∧ g.codim = codim ∧ g.basis = b ∧ LeastCost g w.at' := by
  obtain ⟨s', g, h1, h2, h3, h4, h5, h6⟩ :=
    C57_always_interpolates lu hlu codim n hn b hb.valid hb.even hb.ne hb.left hb.right hb.pos s hs tau hlen ht w hw hc
  refine ⟨s', g, h1, h2, h3, h4, h5, ?_⟩
  have hcon : Consistent g := by
    unfold Interp.interpolate at h1
    cases hsol : s.solveInterpolation lu tau w with
    | error e => rw [hsol] at h1; cases h1
    | ok q =>
      rw [hsol, Interp.ok_bind] at h1
      dsimp only at h1
      cases hm : GSpline.make (0, tau.sum) q.1.codim q.1.n q.1.basis q.2 tau with
      | error e => rw [hm] at h1; cases h1
      | ok g' =>
        rw [hm] at h1
        cases h1
        obtain ⟨-, e1, e2, e3⟩ := Interp.reach_inv (usable_of hb.valid hb.even hb.ne hb.left hb.right) hn (Reach.solve hs hsol)
        exact consistent_of_make hm (by rw [e3, hlen])
  have hp : Positive g := ⟨by rw [h3]; rintro rfl; simp at hlen; omega, by rw [h3]; exact fun t h => lt_of_lt_of_le (by norm_num) (ht t h)⟩
  exact least_of_meets (by rw [h5]; exact hb) hcon hp (by rw [h2]) (by rw [h2, h3]) h6

/-- **C66** (the function `interpolate`). -/
theorem C66_interpolate_function (lu : LU) (hlu : LUContract lu) (junk : Vec) (b : Basis) (hb : Interpolable b) (tau : List ℝ) (hne : tau ≠ [])
    (ht : ∀ t ∈ tau, 1 / 10 ^ 6 ≤ t) (w : Pts) (hw : w.rows = tau.length + 1) :
    ∃ g, interpolateFn lu junk tau w b = .ok g ∧ g.dom = (0, tau.sum) ∧ g.tau = tau ∧ g.codim = w.cols ∧ g.basis = b ∧ LeastCost g w.at' := by
  have hl := List.length_pos_of_ne_nil hne
  obtain ⟨s, h1, h2, -⟩ := interpolate_new hlu (w := w) (by omega) hb junk
  obtain ⟨s', g, f1, f2, f3, f4, f5, f6⟩ := C66_least_cost lu hlu w.cols (w.rows - 1) (by omega) b hb s (.make h1) tau (by omega) ht w (by omega) rfl
  refine ⟨g, ?_, f2, f3, f4, f5, f6⟩
  unfold interpolateFn
  rw [if_neg (by omega), h1, Interp.ok_bind, f1]
  rfl

theorem consistent_of_scaling {x : Res (Option GSpline)} {r : GSpline} (h : (x >>= scaleToOne) = .ok (some r)) : Consistent r := by
  cases x with
  | error e => cases h
  | ok o =>
    cases o with
    | none => cases h
    | some g =>
      change scaleToOne (some g) = _ at h
      unfold scaleToOne at h
      simp only at h
      cases hs : g.linearScaling 1 with
      | error e => rw [hs] at h; cases h
      | ok r' =>
        rw [hs] at h
        cases h
        unfold GSpline.linearScaling at hs
        split_ifs at hs
        exact consistent_of_make hs (by simp)

/-- The optimiser followed by the scaling to duration one, whatever the external solver finds. -/
theorem least_scaled (lu : LU) (hlu : LUContract lu) (solver : Solver) (st : Option Options) (mem : Memory) (w : Pts) (hw : 2 ≤ w.rows) (b : Basis)
    (hb : Interpolable b) (hsc : ∀ D : ℝ, 0 < D → Interpolable (GSpline.scaledBasis b (1 / D))) (weights : List (ℕ × ℝ)) (T : ℝ)
    (hT : w.rows = 2 → 1 / 10 ^ 6 ≤ T) (hsol : ∀ o q status x, solver.run o q = .ok (status, x) → x.length = w.rows - 1) (r : GSpline)
    (h : (optimalSobolevNorm lu solver st mem w b weights T >>= scaleToOne) = .ok (some r)) :
    (∃ D, 0 < D ∧ r.basis = GSpline.scaledBasis b (1 / D)) ∧ r.dom = (0, 1) ∧ r.tau.sum = 1 ∧ LeastCost r w.at' := by
  have hcon := consistent_of_scaling h
  obtain ⟨h1, h2⟩ := scaled_outcome lu hlu solver st mem w b hb weights T
  have close : ∀ D : ℝ, 0 < D → r.dom = (0, 1) → r.tau.sum = 1 → Positive r → r.basis = GSpline.scaledBasis b (1 / D) → Meets r w.at' →
      (∃ D, 0 < D ∧ r.basis = GSpline.scaledBasis b (1 / D)) ∧ r.dom = (0, 1) ∧ r.tau.sum = 1 ∧ LeastCost r w.at' := fun D hD a1 a2 a3 a4 a5 =>
    ⟨⟨D, hD, a4⟩, a1, a2, least_of_meets (by rw [a4]; exact hsc D hD) hcon a3 (by rw [a1]) (by rw [a1, a2]) a5⟩
  rcases Nat.lt_or_ge 2 w.rows with h3 | h3
  · obtain ⟨q, hq, e1, e2, e3, e4⟩ := h2 h3
    cases hrun : solver.run (forward st).2 q with
    | error e => rw [e1 e hrun] at h; cases h
    | ok sx =>
      obtain ⟨status, x⟩ := sx
      by_cases hs : status = 0
      · subst hs
        have hx := hsol _ _ _ _ hrun
        by_cases ht : ∀ t ∈ x, 1 / 10 ^ 6 ≤ t
        · obtain ⟨r', r1, r2, r3, r4, r5, r6⟩ := e3 x hrun hx ht
          rw [r1] at h
          cases h
          have hne : x ≠ [] := by rintro rfl; simp at hx; omega
          have hpos := pos_sum hne ht
          refine close x.sum hpos r2 ?_ ⟨by rw [r4]; simpa using hne, ?_⟩ r5 r6
          · rw [r4]
            simp only [div_eq_mul_inv]
            rw [List.sum_map_mul_right, List.map_id', mul_inv_cancel₀ hpos.ne']
          · rw [r4]
            intro t htt
            obtain ⟨u, hu, rfl⟩ := List.mem_map.mp htt
            exact div_pos (lt_of_lt_of_le (by norm_num) (ht u hu)) hpos
        · push Not at ht
          rw [e4 x hrun ht] at h
          cases h
      · rw [e2 status x hrun hs] at h
        cases h
  · have hw2 : w.rows = 2 := by omega
    obtain ⟨r', r1, r2, r3, r4, r5, r6⟩ := h1 hw2 (hT hw2)
    rw [r1] at h
    cases h
    exact close T (lt_of_lt_of_le (by norm_num) (hT hw2)) r2 (by rw [r4]; simp) ⟨by rw [r4]; simp, by rw [r4]; simp⟩ r5 r6

/-- **C66** (the named optimisers). Whatever lengths the external solver finds, the curve that `broken_lines_path`, `minimum_acceleration_path`,
`minimum_jerk_path`, `minimum_snap_path` or `minimum_crackle_path` returns is, for its interval lengths, the one with the least integral of the squared velocity,
acceleration, jerk, … of all curves through the way points. -/
theorem C66_named (p : Named) (lu : LU) (hlu : LUContract lu) (solver : Solver) (st : Option Options) (mem : Memory) (w : Pts) (hw : 2 ≤ w.rows)
    (hsol : ∀ o q status x, solver.run o q = .ok (status, x) → x.length = w.rows - 1) (r : GSpline) (h : p.path lu solver st mem w = .ok (some r)) :
    r.dom = (0, 1) ∧ r.tau.sum = 1 ∧ r.basis = .legendre (2 * p.order) ∧ LeastCost r w.at' := by
  have ho : 1 ≤ p.order := by cases p <;> simp [Named.order]
  have hb := interpolable_legendre (d := 2 * p.order) (by omega) (by omega)
  rw [named_path] at h
  obtain ⟨⟨D, -, e⟩, h1, h2, h3⟩ := least_scaled lu hlu solver st mem w hw _ hb (fun D _ => hb) [(p.order, 1)] ((w.rows : ℝ) - 1)
    (fun h => by rw [h]; norm_num) hsol r h
  exact ⟨h1, h2, e, h3⟩

/-- **C66** (`rojas_path`). Whatever lengths the external solver finds, the curve that is returned has, for its interval lengths, the least
`α ∫ ‖q'‖² + (1 - α) ∫ ‖q'''‖²` of all curves through the way points, where `α` is the parameter of the basis of the curve. -/
theorem C66_rojas_path (lu : LU) (hlu : LUContract lu) (solver : Solver) (st : Option Options) (mem : Memory) (w : Pts) (hw : 2 ≤ w.rows) (k : ℝ) (hk : k ≠ 0)
    (hsol : ∀ o q status x, solver.run o q = .ok (status, x) → x.length = w.rows - 1) (r : GSpline) (h : rojasPath lu solver st mem w k = .ok (some r)) :
    r.dom = (0, 1) ∧ r.tau.sum = 1 ∧ (∃ D, 0 < D ∧ r.basis = .b0101 ((k * D) ^ 4 / (1 + (k * D) ^ 4))) ∧ LeastCost r w.at' := by
  have hn : (w.rows : ℝ) - 1 ≠ 0 := by
    have : (2 : ℝ) ≤ w.rows := by exact_mod_cast hw
    intro h; linarith
  obtain ⟨-, h0, h1, -⟩ := C55_alpha _ k hn hk
  unfold rojasPath at h
  simp only at h
  rw [if_neg (div_ne_zero (mul_ne_zero (mul_ne_zero (by norm_num) hn) hk) (by positivity))] at h
  obtain ⟨⟨D, hD, e⟩, h2, h3, h4⟩ := least_scaled lu hlu solver st mem w hw _ (interpolable0101 h0 h1) (fun D hD => by
      have hkD : 0 < (k * D) ^ 4 := by positivity
      change Interpolable (.b0101 _)
      rw [scaledAlpha_rojas hn hk]
      refine interpolable0101 (by positivity) ?_
      rw [div_lt_one (by positivity)]
      linarith) _ (rojasTime ((w.rows : ℝ) - 1)) (fun hw2 => by
      have hT : rojasTime ((w.rows : ℝ) - 1) = 4 / √2 := by
        unfold rojasTime; rw [hw2]; norm_num
      rw [hT, le_div_iff₀ (by positivity)]
      have : √2 ≤ 2 := by rw [Real.sqrt_le_left (by norm_num)]; norm_num
      linarith) hsol r h
  refine ⟨h2, h3, ⟨D, hD, ?_⟩, h4⟩
  rw [e]
  change Basis.b0101 _ = _
  rw [scaledAlpha_rojas hn hk]

/-! ## Examples -/

/-- C66: a parabola-like rival on one interval costs more than the cubic. -/
example (w : ℕ → ℕ → ℝ) : ∃ g, interpolateFn exactLU (fun _ => 0) [1, 2, 1/2] ⟨4, 2, w⟩ (.legendre 4) = .ok g ∧
    ∀ φ, Rival 2 2 [1, 2, 1/2] w φ → Spec.energy g 2 ≤ rivalEnergy 2 [1, 2, 1/2] φ 2 := by
  obtain ⟨g, h1, -, h3, h4, h5, h6⟩ := C66_interpolate_function exactLU exactLU_contract (fun _ => 0) (.legendre 4) interpolable4 [1, 2, 1/2] (by simp)
    (by simp; norm_num) ⟨4, 2, w⟩ rfl
  refine ⟨g, h1, fun φ hφ => ?_⟩
  have e : g.basis.dim / 2 = 2 := by rw [h5]; norm_num [Basis.dim]
  have := (h6.polynomial (by rw [h5]; simp) φ (by rw [e, h4, h3]; exact hφ)).1
  rwa [e, h4, h3] at this

/-- C66: there are rivals: a curve at rest at both ends on `[0, 1]` that is not a cubic, from 0 to 1, in the space of the minimum acceleration problem. -/
example : Rival 2 1 [1] (fun i _ => i) (fun _ _ t => 10 * t ^ 3 - 15 * t ^ 4 + 6 * t ^ 5) := by
  have hd : ∀ t : ℝ, iteratedDeriv 1 (fun t : ℝ => 10 * t ^ 3 - 15 * t ^ 4 + 6 * t ^ 5) t = 30 * t ^ 2 - 60 * t ^ 3 + 30 * t ^ 4 := by
    intro t
    rw [iteratedDeriv_one]
    have : HasDerivAt (fun t : ℝ => 10 * t ^ 3 - 15 * t ^ 4 + 6 * t ^ 5) _ t :=
      (((hasDerivAt_pow 3 t).const_mul 10).sub ((hasDerivAt_pow 4 t).const_mul 15)).add ((hasDerivAt_pow 5 t).const_mul 6)
    rw [this.deriv]
    norm_num
    ring
  constructor
  · intros; fun_prop
  · intro i hi c hc
    simp only [List.length_cons, List.length_nil] at hi
    obtain rfl : i = 0 := by omega
    simp [instant]
  · intro i hi c hc
    simp only [List.length_cons, List.length_nil] at hi
    obtain rfl : i = 0 := by omega
    norm_num [instant]
  · intro i hi
    simp at hi
  · intro c hc d h1 h2
    obtain rfl : d = 1 := by omega
    rw [hd]; norm_num
  · intro c hc d h1 h2
    obtain rfl : d = 1 := by omega
    rw [hd]; norm_num

/-- C66: the minimum jerk path through three way points with equal lengths. -/
example (mem : Memory) : ∃ r, minimumJerkPath exactLU ⟨fun _ _ => .ok (0, [1, 1])⟩ none mem ⟨3, 1, fun i _ => i⟩ = .ok (some r) ∧ LeastCost r fun i _ => i := by
  obtain ⟨q, hq, -, -, h3, -⟩ := (C52_named .jerk exactLU exactLU_contract ⟨fun _ _ => .ok (0, [1, 1])⟩ none mem ⟨3, 1, fun i _ => i⟩).2 le_rfl
  obtain ⟨r, r1, -⟩ := h3 [1, 1] rfl rfl (by norm_num)
  exact ⟨r, r1, (C66_named .jerk exactLU exactLU_contract _ none mem ⟨3, 1, fun i _ => i⟩ (by norm_num) (by rintro _ _ _ _ h; cases h; rfl) r r1).2.2.2⟩

end GSplines.Props
