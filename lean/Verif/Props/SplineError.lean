import Verif.Spec.SplineError
import Verif.Proofs.SplineError
import Verif.Props.Minimal
import Verif.Props.GSpline

/-!
# Interpolating a sampled curve is accurate (C83)
-/

namespace GSplines.Props

open GSplines Spec Interp Optim Finset SplineError

/-! ## Auxiliary facts -/

theorem kappa_quotient {a : ℝ} (h0 : 0 < a) (h1 : a < 1) : kappa (.b0101 a) = a / (1 - a) := by
  have h := kappa_b0101 h0 h1
  rw [eq_div_iff (by linarith), mul_comm]
  exact h

theorem residual_sq {b : Basis} (hb : Interpolable b) (φ : ℝ → ℝ) (t : ℝ) :
    ((-1) ^ (b.dim / 2 + 1) * iteratedDeriv (2 * (b.dim / 2)) φ t + kappa b * iteratedDeriv 2 φ t) ^ 2 = residual b φ t ^ 2 := by
  have e : 2 * (b.dim / 2) = b.dim := by have := hb.even; omega
  have s : ∀ x : ℝ, ((-1) ^ (b.dim / 2 + 1) * x + 0) ^ 2 = x ^ 2 := fun x => by
    rw [add_zero, mul_pow, ← pow_mul, mul_comm _ 2, pow_mul]; norm_num
  rw [e]
  cases b with
  | b0101 a =>
    rw [kappa_quotient (hb.pos a rfl) hb.valid.2]
    rw [show (Basis.b0101 a).dim = 6 by norm_num [Basis.dim]]
    unfold Spec.residual
    norm_num
  | legendre n =>
    rw [show kappa (.legendre n) = 0 from rfl, zero_mul, s]; rfl
  | lagrange x =>
    rw [show kappa (.lagrange x) = 0 from rfl, zero_mul, s]; rfl

theorem density_eq {b : Basis} (hb : Interpolable b) (φ : ℝ → ℝ) (t : ℝ) :
    iteratedDeriv (b.dim / 2) φ t ^ 2 + kappa b * iteratedDeriv 1 φ t ^ 2 = density b φ t := by
  cases b with
  | b0101 a =>
    rw [kappa_quotient (hb.pos a rfl) hb.valid.2, show (Basis.b0101 a).dim = 6 by norm_num [Basis.dim]]
    rfl
  | legendre n => rw [show kappa (.legendre n) = 0 from rfl, zero_mul, add_zero]; rfl
  | lagrange x => rw [show kappa (.lagrange x) = 0 from rfl, zero_mul, add_zero]; rfl

/-- The difference between the curve and the spline. -/
theorem gap_of {g : GSpline} (hb : Interpolable g.basis) (hc : Consistent g) (hp : Positive g) (h0 : g.dom.1 = 0) (hend : g.dom.2 = g.tau.sum)
    {w : ℕ → ℕ → ℝ} (h : Meets g w) {φ : ℕ → ℕ → ℝ → ℝ} (hφ : Rival (g.basis.dim / 2) g.codim g.tau w φ) {c : ℕ} (hcc : c < g.codim) :
    Gap g.tau.length (g.basis.dim / 2) (instant g.tau) fun i d t => iteratedDeriv d (φ i c) t - iteratedDeriv d (curve g i c) t := by
  have hself := rival_self hb hc hp h0 hend h
  have hl : 0 < g.tau.length := List.length_pos_of_ne_nil hp.1
  have e0 : instant g.tau 0 = 0 := by simp [instant]
  have e1 : instant g.tau g.tau.length = g.tau.sum := by simp [instant]
  have hst : ∀ i < g.tau.length, φ i c (instant g.tau i) - curve g i c (instant g.tau i) = 0 := fun i hi => by
    rw [hφ.start i hi c hcc, hself.start i hi c hcc, sub_self]
  have hsp : ∀ i < g.tau.length, φ i c (instant g.tau (i + 1)) - curve g i c (instant g.tau (i + 1)) = 0 := fun i hi => by
    rw [hφ.stop i hi c hcc, hself.stop i hi c hcc, sub_self]
  refine ⟨fun i hi => ?_, fun i hi d hd t => ?_, fun i hi => ?_, fun i hi => ?_, fun i hi => ?_, fun i hi d hd => ?_, fun d hd => ?_, fun d hd => ?_⟩
  · rw [← brk_instant h0, ← brk_instant h0]; exact GSpline.brk_lt_succ hp hi
  · refine HasDerivAt.sub ?_ (tower_of_contDiff (Fn.contDiff_curve g i c) d t)
    rw [iteratedDeriv_succ]
    exact ((hφ.smooth i hi c hcc).differentiable_iteratedDeriv d (by exact_mod_cast hd) t).hasDerivAt
  · exact ((hφ.smooth i hi c hcc).continuous_iteratedDeriv _ le_rfl).sub ((hself.smooth i hi c hcc).continuous_iteratedDeriv _ le_rfl)
  · simp only [iteratedDeriv_zero]; exact hst i hi
  · simp only [iteratedDeriv_zero]; exact hsp i hi
  · rcases Nat.eq_zero_or_pos d with rfl | h1
    · simp only [iteratedDeriv_zero]; rw [hsp i (by omega), hst (i + 1) hi]
    · rw [hφ.join i hi c hcc d h1 (by omega), hself.join i hi c hcc d h1 (by omega)]
  · rcases Nat.eq_zero_or_pos d with rfl | h1
    · simp only [iteratedDeriv_zero]; exact hst 0 hl
    · rw [e0, hφ.restL c hcc d h1 (by omega), hself.restL c hcc d h1 (by omega), sub_self]
  · rcases Nat.eq_zero_or_pos d with rfl | h1
    · simp only [iteratedDeriv_zero]
      have := hsp (g.tau.length - 1) (by omega)
      rwa [show g.tau.length - 1 + 1 = g.tau.length by omega] at this
    · rw [e1, hφ.restR c hcc d h1 (by omega), hself.restR c hcc d h1 (by omega), sub_self]

theorem instant_le {g : GSpline} {h : ℝ} (hle : ∀ t ∈ g.tau, t ≤ h) (i : ℕ) (hi : i < g.tau.length) : instant g.tau (i + 1) - instant g.tau i ≤ h := by
  unfold instant
  rw [List.sum_take_succ _ _ hi]
  have := hle _ (List.getElem_mem hi)
  linarith

/-- From bounds for the pieces to what the object returns. -/
theorem within_of {g : GSpline} (hb : Interpolable g.basis) (hc : Consistent g) (hp : Positive g) (h0 : g.dom.1 = 0) (hend : g.dom.2 = g.tau.sum)
    {φ : ℕ → ℕ → ℝ → ℝ} {B : ℕ → ℝ} {d : ℕ} (hd : d < g.basis.dim / 2)
    (key : ∀ c < g.codim, ∀ i < g.tau.length, ∀ t ∈ Set.Icc (instant g.tau i) (instant g.tau (i + 1)),
      (iteratedDeriv d (φ i c) t - iteratedDeriv d (curve g i c) t) ^ 2 ≤ B c) : Within g d φ B := by
  have hsum : 0 ≤ g.tau.sum := List.sum_nonneg fun t ht => (hp.2 t ht).le
  obtain ⟨g', h1, h2, h3, h4, h5, h6, h7⟩ := C14_derivative_partial g hb.valid hc hp (by rw [h0, hend]; exact hsum) d (by
    cases hg : g.basis with
    | b0101 a => rw [hg, show (Basis.b0101 a).dim = 6 by norm_num [Basis.dim]] at hd; change d ≤ 2; omega
    | _ => trivial)
  refine ⟨g', h1, fun t ht i hl hcl => ?_⟩
  obtain ⟨v, v1, v2, v3⟩ := h7 t i hl hcl
  refine ⟨v, v1, v2, fun c hcc => ⟨_, v3 c hcc, ?_⟩⟩
  rw [← neg_sub, neg_sq]
  refine key c hcc i hl.1 t ?_
  rw [← brk_instant h0, ← brk_instant h0]
  rcases hl.2 with ⟨a1, rfl⟩ | a | ⟨a1, a2⟩
  · have e : brk g 0 = g.dom.1 := by simp [brk]
    exact ⟨by rw [e]; exact ht.1, a1.trans (GSpline.brk_lt_succ hp hl.1).le⟩
  · exact ⟨a.1.le, a.2⟩
  · have e : brk g g.tau.length = g.tau.sum := by simp [brk, h0]
    rw [e] at a1
    have := ht.2
    rw [hend] at this
    linarith

/-- A spline through way points, and a rival curve through the same way points. -/
theorem rival_error {g : GSpline} (hb : Interpolable g.basis) (hc : Consistent g) (hp : Positive g) (h0 : g.dom.1 = 0) (hend : g.dom.2 = g.tau.sum)
    {w : ℕ → ℕ → ℝ} (h : Meets g w) {φ : ℕ → ℕ → ℝ → ℝ} (hφ : Rival (g.basis.dim / 2) g.codim g.tau w φ) {step : ℝ} (hle : ∀ t ∈ g.tau, t ≤ step) :
    ∀ d < g.basis.dim / 2, Within g d φ fun c => step ^ (2 * (g.basis.dim / 2 - d) - 1) *
      ∑ i ∈ range g.tau.length, ∫ t in (instant g.tau i)..(instant g.tau (i + 1)), density g.basis (φ i c) t := by
  intro d hd
  have hstep : 0 < step := by
    obtain ⟨t, ht⟩ := List.exists_mem_of_ne_nil _ hp.1
    exact lt_of_lt_of_le (hp.2 t ht) (hle t ht)
  have hm : 1 ≤ g.basis.dim / 2 := by have := hb.ne; have := hb.even; omega
  refine within_of hb hc hp h0 hend hd fun c hcc i hi t ht => ?_
  have G := gap_of hb hc hp h0 hend h hφ hcc
  refine (G.bound hstep (instant_le hle) hd hi ht).trans (mul_le_mul_of_nonneg_left ?_ (by positivity))
  obtain ⟨s1, -, s3, -⟩ := minimal_split hb hc hp h0 hend h hφ hcc
  have hk := kappa_nonneg g.basis
  have hH := fun i (hi : i < g.tau.length) {d} (hd : d ≤ g.basis.dim / 2) => G.continuous hi hd
  have q1 : SplineError.sq g.tau.length (instant g.tau) (fun i d t => iteratedDeriv d (φ i c) t - iteratedDeriv d (curve g i c) t) (g.basis.dim / 2) ≤
      Minimal.total g.tau.length (g.basis.dim / 2) (kappa g.basis) (instant g.tau) (fun i d t => iteratedDeriv d (φ i c) t - iteratedDeriv d (curve g i c) t) := by
    unfold SplineError.sq Minimal.total
    refine sum_le_sum fun i hi => ?_
    have hi := mem_range.mp hi
    have c1 := hH i hi (d := g.basis.dim / 2) le_rfl
    have c2 := hH i hi (d := 1) hm
    beta_reduce at c1 c2
    refine intervalIntegral.integral_mono_on (G.lt i hi).le (Continuous.intervalIntegrable (by fun_prop) _ _) (Continuous.intervalIntegrable (by fun_prop) _ _) fun s _ => ?_
    have := mul_nonneg hk (_root_.sq_nonneg (iteratedDeriv 1 (φ i c) s - iteratedDeriv 1 (curve g i c) s))
    linarith
  have q2 : 0 ≤ Minimal.total g.tau.length (g.basis.dim / 2) (kappa g.basis) (instant g.tau) (fun i d => iteratedDeriv d (curve g i c)) := by
    unfold Minimal.total
    exact sum_nonneg fun i hi => intervalIntegral.integral_nonneg (G.lt i (mem_range.mp hi)).le fun s _ =>
      add_nonneg (_root_.sq_nonneg _) (mul_nonneg hk (_root_.sq_nonneg _))
  have q3 : Minimal.total g.tau.length (g.basis.dim / 2) (kappa g.basis) (instant g.tau) (fun i d => iteratedDeriv d (φ i c)) =
      ∑ i ∈ range g.tau.length, ∫ t in (instant g.tau i)..(instant g.tau (i + 1)), density g.basis (φ i c) t := by
    unfold Minimal.total
    simp only [density_eq hb]
  rw [← q3]
  linarith

/-- A spline through samples of a smooth curve. -/
theorem sampled_error {g : GSpline} (hb : Interpolable g.basis) (hc : Consistent g) (hp : Positive g) (h0 : g.dom.1 = 0) (hend : g.dom.2 = g.tau.sum)
    {w : ℕ → ℕ → ℝ} (h : Meets g w) {φ : ℕ → ℝ → ℝ} (hs : ∀ c < g.codim, ContDiff ℝ g.basis.dim (φ c)) (hw : ∀ i ≤ g.tau.length, ∀ c < g.codim, w i c = φ c (instant g.tau i))
    (hr : ∀ c < g.codim, AtRest (g.basis.dim / 2) g.tau.sum (φ c)) {step : ℝ} (hle : ∀ t ∈ g.tau, t ≤ step) : Accurate g φ step := by
  have hstep : 0 < step := by
    obtain ⟨t, ht⟩ := List.exists_mem_of_ne_nil _ hp.1
    exact lt_of_lt_of_le (hp.2 t ht) (hle t ht)
  have hl : 0 < g.tau.length := List.length_pos_of_ne_nil hp.1
  have hev : 2 * (g.basis.dim / 2) = g.basis.dim := by have := hb.even; omega
  have hm : 1 ≤ g.basis.dim / 2 := by have := hb.ne; omega
  have hφ : Rival (g.basis.dim / 2) g.codim g.tau w fun _ => φ :=
    ⟨fun i _ c hcc => (hs c hcc).of_le (by exact_mod_cast Nat.div_le_self _ _), fun i hi c hcc => (hw i hi.le c hcc).symm, fun i hi c hcc => (hw (i + 1) hi c hcc).symm,
      fun i _ c _ d _ _ => rfl, fun c hcc d h1 h2 => (hr c hcc d h1 h2).1, fun c hcc d h1 h2 => (hr c hcc d h1 h2).2⟩
  have hres : ∀ c < g.codim, SplineError.sq g.tau.length (instant g.tau) (fun i d t => iteratedDeriv d (φ c) t - iteratedDeriv d (curve g i c) t) (g.basis.dim / 2) ≤
      step ^ g.basis.dim * ∫ t in (0)..g.tau.sum, residual g.basis (φ c) t ^ 2 := by
    intro c hcc
    have G := gap_of hb hc hp h0 hend h hφ hcc
    obtain ⟨-, -, -, s4⟩ := minimal_split hb hc hp h0 hend h hφ hcc
    have hcont : ∀ d ≤ g.basis.dim, Continuous (iteratedDeriv d (φ c)) := fun d hd => (hs c hcc).continuous_iteratedDeriv d (by exact_mod_cast hd)
    have := G.residual hl hm hstep (instant_le hle) (kappa_nonneg g.basis) (φ := fun d => iteratedDeriv d (φ c))
      (fun d hd t => by
        rw [iteratedDeriv_succ]
        exact ((hs c hcc).differentiable_iteratedDeriv d (by rw [hev] at hd; exact_mod_cast hd) t).hasDerivAt)
      (hcont _ (by omega))
      (by simpa only [sub_sub_cancel] using s4)
    rw [hev] at this
    refine this.trans (le_of_eq ?_)
    congr 1
    have e0 : instant g.tau 0 = 0 := by simp [instant]
    have e1 : instant g.tau g.tau.length = g.tau.sum := by simp [instant]
    have r := residual_sq hb (φ c)
    rw [hev] at r
    simp only [r]
    rw [intervalIntegral.sum_integral_adjacent_intervals, e0, e1]
    intro k _
    refine Continuous.intervalIntegrable ?_ _ _
    have c1 := hcont g.basis.dim le_rfl
    have c2 := hcont 2 (by omega)
    simp only [← r]
    fun_prop
  refine ⟨fun d hd => within_of hb hc hp h0 hend hd fun c hcc i hi t ht => ?_, fun d hd c hcc => ?_⟩
  · have G := gap_of hb hc hp h0 hend h hφ hcc
    refine (G.bound hstep (instant_le hle) hd hi ht).trans ((mul_le_mul_of_nonneg_left (hres c hcc) (by positivity)).trans (le_of_eq ?_))
    rw [← mul_assoc, ← pow_add, show 2 * (g.basis.dim / 2 - d) - 1 + g.basis.dim = 2 * (g.basis.dim - d) - 1 by omega]
  · have G := gap_of hb hc hp h0 hend h hφ hcc
    have := G.power hstep (instant_le hle) (g.basis.dim / 2 - d) (by omega)
    rw [show g.basis.dim / 2 - (g.basis.dim / 2 - d) = d by omega] at this
    simp only [brk_instant h0]
    refine this.trans ((mul_le_mul_of_nonneg_left (hres c hcc) (by positivity)).trans (le_of_eq ?_))
    rw [← mul_assoc, ← pow_add, show 2 * (g.basis.dim / 2 - d) + g.basis.dim = 2 * (g.basis.dim - d) by omega]

/-- What `interpolate` returns. -/
theorem interpolated (lu : LU) (hlu : LUContract lu) (codim n : ℕ) (hn : 0 < n) (b : Basis) (hb : Interpolable b) (s : Interp) (hs : Reach lu codim n b s)
    (tau : List ℝ) (hlen : tau.length = n) (ht : ∀ t ∈ tau, 1 / 10 ^ 6 ≤ t) (w : Pts) (hw : w.rows = n + 1) (hc : w.cols = codim) :
    ∃ s' g, s.interpolate lu tau w = .ok (s', g) ∧ g.dom = (0, tau.sum) ∧ g.tau = tau ∧ g.codim = codim ∧ g.basis = b ∧ Consistent g ∧ Positive g ∧ Meets g w.at' := by
  obtain ⟨s', g, h1, h2, h3, h4, h5, h6⟩ :=
    C57_always_interpolates lu hlu codim n hn b hb.valid hb.even hb.ne hb.left hb.right hb.pos s hs tau hlen ht w hw hc
  refine ⟨s', g, h1, h2, h3, h4, h5, ?_, ⟨by rw [h3]; rintro rfl; simp at hlen; omega, by rw [h3]; exact fun t h => lt_of_lt_of_le (by norm_num) (ht t h)⟩, h6⟩
  unfold Interp.interpolate at h1
  cases hsol : s.solveInterpolation lu tau w with
  | error e => rw [hsol] at h1; cases h1
  | ok q =>
    rw [hsol, Interp.ok_bind] at h1
    dsimp only at h1
    cases hm : GSpline.make (0, tau.sum) q.1.codim q.1.n q.1.basis q.2 tau with
    | error e => rw [hm] at h1; cases h1
    | ok g' =>
      rw [hm] at h1
      cases h1
      obtain ⟨-, e1, e2, e3⟩ := Interp.reach_inv (usable_of hb.valid hb.even hb.ne hb.left hb.right) hn (Reach.solve hs hsol)
      exact consistent_of_make hm (by rw [e3, hlen])

/-! ## C83 -/

/-- **C83.** In every state of an interpolator object, for all interval lengths between `1e-6` and `step`: if the way points are samples, at the ends of the intervals, of a curve
with `dim` continuous derivatives that is at rest at both ends, then the spline that `interpolate` returns and its derivatives are close to the curve and its derivatives. -/
theorem C83_sampled (lu : LU) (hlu : LUContract lu) (codim n : ℕ) (hn : 0 < n) (b : Basis) (hb : Interpolable b) (s : Interp) (hs : Reach lu codim n b s)
    (tau : List ℝ) (hlen : tau.length = n) (ht : ∀ t ∈ tau, 1 / 10 ^ 6 ≤ t) (w : Pts) (hw : w.rows = n + 1) (hc : w.cols = codim)
    (φ : ℕ → ℝ → ℝ) (hφ : ∀ c < codim, ContDiff ℝ b.dim (φ c)) (hsample : ∀ i ≤ n, ∀ c < codim, w.at' i c = φ c (instant tau i))
    (hrest : ∀ c < codim, AtRest (b.dim / 2) tau.sum (φ c)) (step : ℝ) (hstep : ∀ t ∈ tau, t ≤ step) :
    ∃ s' g, s.interpolate lu tau w = .ok (s', g) ∧ g.dom = (0, tau.sum) ∧ g.tau = tau ∧ g.codim = codim ∧ g.basis = b ∧ Accurate g φ step := by
  obtain ⟨s', g, h1, h2, h3, h4, h5, h6, h7, h8⟩ := interpolated lu hlu codim n hn b hb s hs tau hlen ht w hw hc
  refine ⟨s', g, h1, h2, h3, h4, h5, ?_⟩
  subst h3 h4 h5
  exact sampled_error hb h6 h7 (by rw [h2]) (by rw [h2]) h8 hφ (by rw [hlen]; exact hsample) hrest hstep

/-- **C83** (curves that are less smooth). For every curve made of pieces with `m = dim / 2` continuous derivatives that passes through the way points, with continuous derivatives
up to order `m - 1`, and at rest at both ends, the difference from the returned spline is bounded by its cost. -/
theorem C83_rival (lu : LU) (hlu : LUContract lu) (codim n : ℕ) (hn : 0 < n) (b : Basis) (hb : Interpolable b) (s : Interp) (hs : Reach lu codim n b s)
    (tau : List ℝ) (hlen : tau.length = n) (ht : ∀ t ∈ tau, 1 / 10 ^ 6 ≤ t) (w : Pts) (hw : w.rows = n + 1) (hc : w.cols = codim)
    (φ : ℕ → ℕ → ℝ → ℝ) (hφ : Rival (b.dim / 2) codim tau w.at' φ) (step : ℝ) (hstep : ∀ t ∈ tau, t ≤ step) :
    ∃ s' g, s.interpolate lu tau w = .ok (s', g) ∧ g.dom = (0, tau.sum) ∧ g.tau = tau ∧ g.codim = codim ∧ g.basis = b ∧
      ∀ d < b.dim / 2, Within g d φ fun c => step ^ (2 * (b.dim / 2 - d) - 1) *
        ∑ i ∈ range n, ∫ t in (instant tau i)..(instant tau (i + 1)), density b (φ i c) t := by
  obtain ⟨s', g, h1, h2, h3, h4, h5, h6, h7, h8⟩ := interpolated lu hlu codim n hn b hb s hs tau hlen ht w hw hc
  refine ⟨s', g, h1, h2, h3, h4, h5, ?_⟩
  subst h3 h4 h5
  have := rival_error hb h6 h7 (by rw [h2]) (by rw [h2]) h8 hφ hstep
  rwa [hlen] at this

/-- **C83** (the function `interpolate`). -/
theorem C83_interpolate_function (lu : LU) (hlu : LUContract lu) (junk : Vec) (b : Basis) (hb : Interpolable b) (tau : List ℝ) (hne : tau ≠ [])
    (ht : ∀ t ∈ tau, 1 / 10 ^ 6 ≤ t) (w : Pts) (hw : w.rows = tau.length + 1)
    (φ : ℕ → ℝ → ℝ) (hφ : ∀ c < w.cols, ContDiff ℝ b.dim (φ c)) (hsample : ∀ i ≤ tau.length, ∀ c < w.cols, w.at' i c = φ c (instant tau i))
    (hrest : ∀ c < w.cols, AtRest (b.dim / 2) tau.sum (φ c)) (step : ℝ) (hstep : ∀ t ∈ tau, t ≤ step) :
    ∃ g, interpolateFn lu junk tau w b = .ok g ∧ g.dom = (0, tau.sum) ∧ g.tau = tau ∧ g.codim = w.cols ∧ g.basis = b ∧ Accurate g φ step := by
  have hl := List.length_pos_of_ne_nil hne
  obtain ⟨s, h1, h2, -⟩ := interpolate_new hlu (w := w) (by omega) hb junk
  obtain ⟨s', g, f1, f2, f3, f4, f5, f6⟩ := C83_sampled lu hlu w.cols (w.rows - 1) (by omega) b hb s (.make h1) tau (by omega) ht w (by omega) rfl φ hφ
    (fun i hi => hsample i (by omega)) hrest step hstep
  refine ⟨g, ?_, f2, f3, f4, f5, f6⟩
  unfold interpolateFn
  rw [if_neg (by omega), h1, Interp.ok_bind, f1]
  rfl

/-- **C83** (equal lengths). With `n` intervals of length `T / n` and a residual of at most `M`, the derivative of order `d` of the spline differs from that of the curve by at most
`M T^(dim - d) / n^(dim - d - 1/2)`: written with squares, by `M² T (T / n)^(2 (dim - d) - 1)`. -/
theorem C83_uniform (lu : LU) (hlu : LUContract lu) (junk : Vec) (b : Basis) (hb : Interpolable b) (n : ℕ) (hn : 0 < n) (T : ℝ) (hT : 1 / 10 ^ 6 ≤ T / n)
    (φ : ℕ → ℝ → ℝ) (codim : ℕ) (hφ : ∀ c < codim, ContDiff ℝ b.dim (φ c)) (hrest : ∀ c < codim, AtRest (b.dim / 2) T (φ c)) (M : ℝ)
    (hM : ∀ c < codim, ∀ t ∈ Set.Icc 0 T, |residual b (φ c) t| ≤ M) :
    ∃ g, interpolateFn lu junk (List.replicate n (T / n)) ⟨n + 1, codim, fun i c => φ c (i * T / n)⟩ b = .ok g ∧ g.dom = (0, T) ∧ g.codim = codim ∧
      ∀ d < b.dim / 2, Within g d (fun _ => φ) fun _ => (T / n) ^ (2 * (b.dim - d) - 1) * (M ^ 2 * T) := by
  have hn0 : (0 : ℝ) < n := by exact_mod_cast hn
  have hp : 0 < T / n := lt_of_lt_of_le (by norm_num) hT
  have hT0 : 0 < T := by rwa [lt_div_iff₀ hn0, zero_mul] at hp
  have hsum : (List.replicate n (T / n)).sum = T := by simp; field_simp
  have hin : ∀ i ≤ n, instant (List.replicate n (T / n)) i = i * T / n := by
    intro i hi
    simp [instant, List.take_replicate, min_eq_left hi]
    ring
  obtain ⟨g, h1, h2, h3, h4, h5, h6⟩ := C83_interpolate_function lu hlu junk b hb (List.replicate n (T / n)) (by simp; omega)
    (fun t ht => by rw [List.eq_of_mem_replicate ht]; exact hT) ⟨n + 1, codim, fun i c => φ c (i * T / n)⟩ (by simp) φ hφ
    (fun i hi c _ => by rw [hin i (by simpa using hi)]) (by rw [hsum]; exact hrest) (T / n) (fun t ht => by rw [List.eq_of_mem_replicate ht])
  rw [hsum] at h2
  refine ⟨g, h1, h2, h4, fun d hd => ?_⟩
  obtain ⟨g', k1, k2⟩ := h6.pointwise d (by rw [h5]; exact hd)
  refine ⟨g', k1, fun t ht i hl hcl => ?_⟩
  obtain ⟨v, v1, v2, v3⟩ := k2 t ht i hl hcl
  refine ⟨v, v1, v2, fun c hc => ?_⟩
  obtain ⟨x, x1, x2⟩ := v3 c hc
  refine ⟨x, x1, x2.trans ?_⟩
  rw [h5, h3, hsum]
  refine mul_le_mul_of_nonneg_left ?_ (by positivity)
  rw [h4] at hc
  have hcont : Continuous fun t => residual b (φ c) t ^ 2 := by
    have c1 := (hφ c hc).continuous_iteratedDeriv (2 * (b.dim / 2)) (by exact_mod_cast Nat.mul_div_le _ _)
    have c2 := (hφ c hc).continuous_iteratedDeriv 2 (by have := hb.ne; have := hb.even; exact_mod_cast (by omega : 2 ≤ b.dim))
    simp only [← residual_sq hb]
    fun_prop
  have := intervalIntegral.integral_mono_on (μ := MeasureTheory.volume) hT0.le (hcont.intervalIntegrable 0 T) (g := fun _ => M ^ 2) (continuous_const.intervalIntegrable _ _)
    fun s hs => sq_le_sq' (neg_le_of_abs_le (hM c hc s hs)) (le_of_abs_le (hM c hc s hs))
  rw [intervalIntegral.integral_const, sub_zero, smul_eq_mul, mul_comm T] at this
  exact this

/-! ## Examples -/

theorem quintic_deriv : iteratedDeriv 1 (fun t : ℝ => 10 * t ^ 3 - 15 * t ^ 4 + 6 * t ^ 5) = (fun t => 30 * t ^ 2 - 60 * t ^ 3 + 30 * t ^ 4) ∧
    iteratedDeriv 2 (fun t : ℝ => 10 * t ^ 3 - 15 * t ^ 4 + 6 * t ^ 5) = (fun t => 60 * t - 180 * t ^ 2 + 120 * t ^ 3) ∧
    iteratedDeriv 4 (fun t : ℝ => 10 * t ^ 3 - 15 * t ^ 4 + 6 * t ^ 5) = fun t => -360 + 720 * t := by
  have h1 : ∀ t : ℝ, HasDerivAt (fun t : ℝ => 10 * t ^ 3 - 15 * t ^ 4 + 6 * t ^ 5) (30 * t ^ 2 - 60 * t ^ 3 + 30 * t ^ 4) t := fun t =>
    ((((hasDerivAt_pow 3 t).const_mul 10).sub ((hasDerivAt_pow 4 t).const_mul 15)).add ((hasDerivAt_pow 5 t).const_mul 6)).congr_deriv (by norm_num; ring)
  have h2 : ∀ t : ℝ, HasDerivAt (fun t : ℝ => 30 * t ^ 2 - 60 * t ^ 3 + 30 * t ^ 4) (60 * t - 180 * t ^ 2 + 120 * t ^ 3) t := fun t =>
    ((((hasDerivAt_pow 2 t).const_mul 30).sub ((hasDerivAt_pow 3 t).const_mul 60)).add ((hasDerivAt_pow 4 t).const_mul 30)).congr_deriv (by norm_num; ring)
  have h3 : ∀ t : ℝ, HasDerivAt (fun t : ℝ => 60 * t - 180 * t ^ 2 + 120 * t ^ 3) (60 - 360 * t + 360 * t ^ 2) t := fun t =>
    ((((hasDerivAt_id' t).const_mul 60).sub ((hasDerivAt_pow 2 t).const_mul 180)).add ((hasDerivAt_pow 3 t).const_mul 120)).congr_deriv (by norm_num; ring)
  have h4 : ∀ t : ℝ, HasDerivAt (fun t : ℝ => 60 - 360 * t + 360 * t ^ 2) (-360 + 720 * t) t := fun t =>
    ((((hasDerivAt_id' t).const_mul 360).const_sub 60).add ((hasDerivAt_pow 2 t).const_mul 360)).congr_deriv (by norm_num; ring)
  have e1 : iteratedDeriv 1 (fun t : ℝ => 10 * t ^ 3 - 15 * t ^ 4 + 6 * t ^ 5) = fun t => 30 * t ^ 2 - 60 * t ^ 3 + 30 * t ^ 4 := by
    rw [iteratedDeriv_one]; exact funext fun t => (h1 t).deriv
  have e2 : iteratedDeriv 2 (fun t : ℝ => 10 * t ^ 3 - 15 * t ^ 4 + 6 * t ^ 5) = fun t => 60 * t - 180 * t ^ 2 + 120 * t ^ 3 := by
    rw [iteratedDeriv_succ, e1]; exact funext fun t => (h2 t).deriv
  have e3 : iteratedDeriv 3 (fun t : ℝ => 10 * t ^ 3 - 15 * t ^ 4 + 6 * t ^ 5) = fun t => 60 - 360 * t + 360 * t ^ 2 := by
    rw [iteratedDeriv_succ, e2]; exact funext fun t => (h3 t).deriv
  exact ⟨e1, e2, by rw [iteratedDeriv_succ, e3]; exact funext fun t => (h4 t).deriv⟩

/-- C83: a hundred intervals of length 1/100, cubic pieces: position and velocity of the smooth step `10 t³ - 15 t⁴ + 6 t⁵` are found with errors of at most `1/10 ^ 4` and `1/10^2`. -/
example : ∃ g, interpolateFn exactLU (fun _ => 0) (List.replicate 100 ((1 : ℝ) / (100 : ℕ)))
      ⟨100 + 1, 1, fun i _ => 10 * (i * 1 / (100 : ℕ)) ^ 3 - 15 * (i * 1 / (100 : ℕ)) ^ 4 + 6 * (i * 1 / (100 : ℕ)) ^ 5⟩ (.legendre 4) = .ok g ∧ g.dom = (0, 1) ∧
    ∀ d < 2, Within g d (fun _ _ t => 10 * t ^ 3 - 15 * t ^ 4 + 6 * t ^ 5) fun _ => if d = 0 then 1 / (10 ^ 4) ^ 2 else 1 / (10 ^ 2) ^ 2 := by
  have hd4 : (Basis.legendre 4).dim = 4 := rfl
  obtain ⟨g, h1, h2, -, h4⟩ := C83_uniform exactLU exactLU_contract (fun _ => 0) (.legendre 4) interpolable4 100 (by norm_num) 1 (by norm_num)
    (fun _ t => 10 * t ^ 3 - 15 * t ^ 4 + 6 * t ^ 5) 1 (fun c _ => by fun_prop)
    (fun c _ d e1 e2 => by
      obtain rfl : d = 1 := by rw [hd4] at e2; omega
      rw [quintic_deriv.1]
      norm_num) 360
    (fun c _ t ht => by
      change |iteratedDeriv 4 _ t| ≤ _
      rw [quintic_deriv.2.2, abs_le]
      have := ht.1
      have := ht.2
      constructor <;> linarith)
  refine ⟨g, h1, h2, fun d hd => ?_⟩
  obtain ⟨g', k1, k2⟩ := h4 d (by rw [hd4]; omega)
  refine ⟨g', k1, fun t ht i hl hcl => ?_⟩
  obtain ⟨v, v1, v2, v3⟩ := k2 t ht i hl hcl
  refine ⟨v, v1, v2, fun c hc => ?_⟩
  obtain ⟨x, x1, x2⟩ := v3 c hc
  refine ⟨x, x1, x2.trans ?_⟩
  rw [hd4]
  interval_cases d <;> norm_num

/-- C83: the hypotheses of the theorem for less smooth curves are met by the same curve, on one interval. -/
example : ∃ g s' s, Interp.make 1 1 (.legendre 4) (fun _ => 0) = .ok s ∧ s.interpolate exactLU [1] ⟨2, 1, fun i _ => i⟩ = .ok (s', g) ∧ ∀ d < 2,
    Within g d (fun _ _ t => 10 * t ^ 3 - 15 * t ^ 4 + 6 * t ^ 5) fun c => 1 ^ (2 * (2 - d) - 1) *
      ∑ i ∈ range 1, ∫ t in (instant [1] i)..(instant [1] (i + 1)), iteratedDeriv 2 (fun t : ℝ => 10 * t ^ 3 - 15 * t ^ 4 + 6 * t ^ 5) t ^ 2 := by
  obtain ⟨s, h1, -⟩ := interpolate_new exactLU_contract (w := ⟨2, 1, fun i _ => i⟩) (by norm_num) interpolable4 (fun _ => 0)
  obtain ⟨s', g, f1, f2, f3, f4, f5, f6⟩ := C83_rival exactLU exactLU_contract 1 1 (by norm_num) (.legendre 4) interpolable4 s (.make h1) [1] rfl (by norm_num) ⟨2, 1, fun i _ => i⟩ rfl rfl
    (fun _ _ t => 10 * t ^ 3 - 15 * t ^ 4 + 6 * t ^ 5) (by
      refine ⟨fun _ _ _ _ => by fun_prop, fun i hi c _ => ?_, fun i hi c _ => ?_, fun i hi => by simp at hi, fun c _ d e1 e2 => ?_, fun c _ d e1 e2 => ?_⟩
      · obtain rfl : i = 0 := by simpa using hi
        simp [instant]
      · obtain rfl : i = 0 := by simpa using hi
        norm_num [instant]
      · obtain rfl : d = 1 := by rw [show (Basis.legendre 4).dim = 4 from rfl] at e2; omega
        rw [quintic_deriv.1]; norm_num
      · obtain rfl : d = 1 := by rw [show (Basis.legendre 4).dim = 4 from rfl] at e2; omega
        rw [quintic_deriv.1]; norm_num) 1 (by simp)
  exact ⟨g, s', s, h1, f1, f6⟩

/-- C83: Basis0101 and intervals of different lengths. -/
example : ∃ g, interpolateFn exactLU (fun _ => 0) [1/2, 1/4, 1/4] ⟨4, 1, fun i _ => 10 * instant [1/2, 1/4, 1/4] i ^ 3 - 15 * instant [1/2, 1/4, 1/4] i ^ 4 +
      6 * instant [1/2, 1/4, 1/4] i ^ 5⟩ (.b0101 (1/2)) = .ok g ∧ Accurate g (fun _ t => 10 * t ^ 3 - 15 * t ^ 4 + 6 * t ^ 5) (1/2) := by
  have hd6 : (Basis.b0101 (1/2)).dim = 6 := by norm_num [Basis.dim]
  obtain ⟨g, h1, -, -, -, -, h6⟩ := C83_interpolate_function exactLU exactLU_contract (fun _ => 0) (.b0101 (1/2)) (interpolable0101 (by norm_num) (by norm_num)) [1/2, 1/4, 1/4] (by simp)
    (by norm_num) ⟨4, 1, fun i _ => 10 * instant [1/2, 1/4, 1/4] i ^ 3 - 15 * instant [1/2, 1/4, 1/4] i ^ 4 + 6 * instant [1/2, 1/4, 1/4] i ^ 5⟩ rfl
    (fun _ t => 10 * t ^ 3 - 15 * t ^ 4 + 6 * t ^ 5) (fun c _ => by fun_prop) (fun i _ c _ => rfl)
    (fun c _ d e1 e2 => by
      have hs : ([1/2, 1/4, 1/4] : List ℝ).sum = 1 := by norm_num
      rw [hd6] at e2
      rw [hs]
      obtain rfl | rfl : d = 1 ∨ d = 2 := by omega
      · rw [quintic_deriv.1]; norm_num
      · rw [quintic_deriv.2.1]; norm_num) (1/2) (by norm_num)
  exact ⟨g, h1, h6⟩

end GSplines.Props
