import Verif.Spec.Symmetry
import Verif.Props.Minimal
import Mathlib.Analysis.Analytic.Polynomial
import Mathlib.Analysis.Analytic.Uniqueness
import Mathlib.Analysis.SpecialFunctions.ExpDeriv
import Mathlib.Analysis.SpecialFunctions.Trigonometric.Deriv

/-! # Pieces that solve the interpolation problem, as functions -/

namespace GSplines.Symmetry

open GSplines Spec Interp Finset

/-- Pieces `F 0, F 1, …` between the instants `b 0, b 1, …` that solve the interpolation problem with way points `w`, for the differential equation with
order `2 m` and coefficient `κ`. -/
structure Sol (n m : ℕ) (κ : ℝ) (b : ℕ → ℝ) (w : ℕ → ℝ) (F : ℕ → ℝ → ℝ) : Prop where
  analytic : ∀ i < n, AnalyticOnNhd ℝ (F i) Set.univ
  ode : ∀ i < n, ∀ t, (-1) ^ (m + 1) * iteratedDeriv (2 * m) (F i) t + κ * iteratedDeriv 2 (F i) t = 0
  start : ∀ i < n, F i (b i) = w i
  stop : ∀ i < n, F i (b (i + 1)) = w (i + 1)
  restL : ∀ d, 1 ≤ d → d ≤ m - 1 → iteratedDeriv d (F 0) (b 0) = 0
  restR : ∀ d, 1 ≤ d → d ≤ m - 1 → iteratedDeriv d (F (n - 1)) (b n) = 0
  join : ∀ i, i + 1 < n → ∀ d, 1 ≤ d → d ≤ 2 * m - 2 → iteratedDeriv d (F i) (b (i + 1)) = iteratedDeriv d (F (i + 1)) (b (i + 1))

theorem contDiff_of {f : ℝ → ℝ} (h : AnalyticOnNhd ℝ f Set.univ) : ContDiff ℝ (⊤ : ℕ∞) f :=
  contDiff_iff_contDiffAt.mpr fun x => (h x (Set.mem_univ x)).contDiffAt

theorem tower_of {f : ℝ → ℝ} (h : AnalyticOnNhd ℝ f Set.univ) : Tower (fun d => iteratedDeriv d f) := tower_of_contDiff (contDiff_of h)

/-- There is one solution only. -/
theorem Sol.unique {n m : ℕ} (hm : 1 ≤ m) {κ : ℝ} (hκ : 0 ≤ κ) {b w : ℕ → ℝ} (hb : ∀ i < n, b i < b (i + 1)) {F G : ℕ → ℝ → ℝ} (hF : Sol n m κ b w F)
    (hG : Sol n m κ b w G) : ∀ i < n, F i = G i := by
  intro i hi
  have hn : 0 < n := by omega
  have hT : ∀ i < n, Tower (fun d s => iteratedDeriv d (F i) (b i + s) - iteratedDeriv d (G i) (b i + s)) := by
    intro i hi d s
    have h1 := (tower_of (hF.analytic i hi) d (b i + s)).comp_const_add (b i) s
    have h2 := (tower_of (hG.analytic i hi) d (b i + s)).comp_const_add (b i) s
    exact h1.sub h2
  have key := pieces_zero (n := n) (m := m) hm hκ (F := fun i d s => iteratedDeriv d (F i) (b i + s) - iteratedDeriv d (G i) (b i + s))
    (τ := fun i => b (i + 1) - b i) hT (fun i hi => by linarith [hb i hi])
    (fun i hi t => by
      have h1 := hF.ode i hi (b i + t)
      have h2 := hG.ode i hi (b i + t)
      beta_reduce
      linear_combination h1 - h2)
    (fun i hi => by simp [hF.start i hi, hG.start i hi])
    (fun i hi => by simp [hF.stop i hi, hG.stop i hi])
    (fun d h1 h2 => by simp [hF.restL d h1 h2, hG.restL d h1 h2])
    (fun d h1 h2 => by
      beta_reduce
      rw [show n - 1 + 1 = n by omega]
      have e : b (n - 1) + (b n - b (n - 1)) = b n := by ring
      rw [e, hF.restR d h1 h2, hG.restR d h1 h2, sub_zero])
    (fun i hi d h1 h2 => by simp [hF.join i hi d h1 h2, hG.join i hi d h1 h2])
  refine (hF.analytic i hi).eq_of_eventuallyEq (hG.analytic i hi) (z₀ := (b i + b (i + 1)) / 2) ?_
  have hlt := hb i hi
  filter_upwards [isOpen_Ioo.mem_nhds (show (b i + b (i + 1)) / 2 ∈ Set.Ioo (b i) (b (i + 1)) from ⟨by linarith, by linarith⟩)] with t ht
  have := key i hi (t - b i) ⟨by linarith [ht.1], by linarith [ht.2]⟩
  simp only [iteratedDeriv_zero, add_sub_cancel] at this
  linarith

/-- Affine images of solutions. -/
theorem Sol.affine {n m : ℕ} (hm : 1 ≤ m) {κ : ℝ} {b : ℕ → ℝ} {K : ℕ} {w : ℕ → ℕ → ℝ} {F : ℕ → ℕ → ℝ → ℝ} (h : ∀ k < K, Sol n m κ b (w k) (F k))
    (hn : 0 < n) (a : ℕ → ℝ) (v : ℝ) : Sol n m κ b (fun i => ∑ k ∈ range K, a k * w k i + v) (fun i t => ∑ k ∈ range K, a k * F k i t + v) := by
  have hT : ∀ i < n, Tower (fun d t => ∑ k ∈ range K, a k * iteratedDeriv d (F k i) t + if d = 0 then v else 0) := by
    intro i hi d t
    have h1 := Tower.sum (n := K) (F := fun k d => iteratedDeriv d (F k i)) a (fun k hk => tower_of ((h k hk).analytic i hi)) d t
    have h2 := h1.add_const (if d = 0 then v else 0)
    simpa using h2
  have hD : ∀ i < n, ∀ d, 1 ≤ d → ∀ t, iteratedDeriv d (fun t => ∑ k ∈ range K, a k * F k i t + v) t = ∑ k ∈ range K, a k * iteratedDeriv d (F k i) t := by
    intro i hi d hd t
    have e := congrFun ((hT i hi).iteratedDeriv d) t
    simp only [iteratedDeriv_zero, if_true, if_neg (show d ≠ 0 by omega), add_zero] at e
    exact e
  refine ⟨fun i hi => ?_, fun i hi t => ?_, fun i hi => ?_, fun i hi => ?_, fun d h1 h2 => ?_, fun d h1 h2 => ?_, fun i hi d h1 h2 => ?_⟩
  · intro x _
    refine AnalyticAt.add ?_ analyticAt_const
    exact Finset.analyticAt_fun_sum _ fun k hk => analyticAt_const.mul ((h k (mem_range.mp hk)).analytic i hi x (Set.mem_univ x))
  · rw [hD i hi _ (by omega), hD i hi _ (by omega), mul_sum, mul_sum, ← sum_add_distrib]
    refine sum_eq_zero fun k hk => ?_
    have := (h k (mem_range.mp hk)).ode i hi t
    linear_combination a k * this
  · congr 1
    exact sum_congr rfl fun k hk => by rw [(h k (mem_range.mp hk)).start i hi]
  · congr 1
    exact sum_congr rfl fun k hk => by rw [(h k (mem_range.mp hk)).stop i hi]
  · rw [hD 0 hn d h1]
    exact sum_eq_zero fun k hk => by rw [(h k (mem_range.mp hk)).restL d h1 h2, mul_zero]
  · rw [hD _ (by omega) d h1]
    exact sum_eq_zero fun k hk => by rw [(h k (mem_range.mp hk)).restR d h1 h2, mul_zero]
  · rw [hD i (by omega) d h1, hD (i + 1) hi d h1]
    exact sum_congr rfl fun k hk => by rw [(h k (mem_range.mp hk)).join i hi d h1 h2]

theorem iteratedDeriv_line {f : ℝ → ℝ} (h : AnalyticOnNhd ℝ f Set.univ) (p q : ℝ) (d : ℕ) (t : ℝ) :
    iteratedDeriv d (fun t => f (p + q * t)) t = q ^ d * iteratedDeriv d f (p + q * t) := by
  have hs : ContDiff ℝ d (fun z => f (p + z)) := by
    refine ((contDiff_of h).of_le (by exact_mod_cast le_top)).comp ?_
    fun_prop
  have h1 := congrFun (iteratedDeriv_comp_const_mul hs q) t
  rw [iteratedDeriv_comp_const_add] at h1
  exact h1

theorem analytic_line {f : ℝ → ℝ} (h : AnalyticOnNhd ℝ f Set.univ) (p q : ℝ) : AnalyticOnNhd ℝ (fun t => f (p + q * t)) Set.univ := by
  intro x _
  exact (h (p + q * x) (Set.mem_univ _)).comp_of_eq (analyticAt_const.add (analyticAt_const.mul analyticAt_id)) rfl

/-- Solutions run at another speed. -/
theorem Sol.scale {n m : ℕ} (hm : 1 ≤ m) {κ : ℝ} {b w : ℕ → ℝ} {F : ℕ → ℝ → ℝ} (h : Sol n m κ b w F) (hn : 0 < n) {p q : ℝ} {b' : ℕ → ℝ}
    (hb : ∀ i ≤ n, p + q * b' i = b i) : Sol n m (κ * q ^ (2 * m - 2)) b' w (fun i t => F i (p + q * t)) := by
  have hD : ∀ i < n, ∀ d t, iteratedDeriv d (fun t => F i (p + q * t)) t = q ^ d * iteratedDeriv d (F i) (p + q * t) := fun i hi d t =>
    iteratedDeriv_line (h.analytic i hi) p q d t
  refine ⟨fun i hi => analytic_line (h.analytic i hi) p q, fun i hi t => ?_, fun i hi => ?_, fun i hi => ?_, fun d h1 h2 => ?_, fun d h1 h2 => ?_,
    fun i hi d h1 h2 => ?_⟩
  · rw [hD i hi, hD i hi]
    have := h.ode i hi (p + q * t)
    rw [show q ^ (2 * m) = q ^ (2 * m - 2) * q ^ 2 by rw [← pow_add]; congr 1; omega]
    linear_combination q ^ (2 * m - 2) * q ^ 2 * this
  · rw [hb i hi.le, h.start i hi]
  · rw [hb (i + 1) hi, h.stop i hi]
  · rw [hD 0 hn, hb 0 (by omega), h.restL d h1 h2, mul_zero]
  · rw [hD _ (by omega), hb n le_rfl, h.restR d h1 h2, mul_zero]
  · rw [hD i (by omega), hD (i + 1) hi, hb (i + 1) hi.le, h.join i hi d h1 h2]

/-- Solutions run backwards. -/
theorem Sol.reverse {n m : ℕ} {κ : ℝ} {b w : ℕ → ℝ} {F : ℕ → ℝ → ℝ} (h : Sol n m κ b w F) (hn : 0 < n) (T : ℝ) {b' : ℕ → ℝ}
    (hb : ∀ i ≤ n, b' i = T - b (n - i)) : Sol n m κ b' (fun i => w (n - i)) (fun i t => F (n - 1 - i) (T + -1 * t)) := by
  have hD : ∀ i < n, ∀ d t, iteratedDeriv d (fun t => F i (T + -1 * t)) t = (-1) ^ d * iteratedDeriv d (F i) (T + -1 * t) := fun i hi d t =>
    iteratedDeriv_line (h.analytic i hi) T (-1) d t
  have hb' : ∀ i ≤ n, T + -1 * b' i = b (n - i) := fun i hi => by rw [hb i hi]; ring
  refine ⟨fun i hi => analytic_line (h.analytic _ (by omega)) T (-1), fun i hi t => ?_, fun i hi => ?_, fun i hi => ?_, fun d h1 h2 => ?_, fun d h1 h2 => ?_,
    fun i hi d h1 h2 => ?_⟩
  · rw [hD _ (by omega), hD _ (by omega)]
    have := h.ode (n - 1 - i) (by omega) (T + -1 * t)
    rw [pow_mul]
    simpa using this
  · rw [hb' i hi.le]
    have := h.stop (n - 1 - i) (by omega)
    rwa [show n - 1 - i + 1 = n - i by omega] at this
  · rw [hb' (i + 1) hi]
    have := h.start (n - 1 - i) (by omega)
    rwa [show n - 1 - i = n - (i + 1) by omega] at this ⊢
  · rw [hD _ (by omega), hb' 0 (by omega), Nat.sub_zero, Nat.sub_zero, h.restR d h1 h2, mul_zero]
  · rw [hD _ (by omega), hb' n le_rfl, Nat.sub_self, Nat.sub_self, h.restL d h1 h2, mul_zero]
  · rw [hD _ (by omega), hD _ (by omega), hb' (i + 1) hi.le]
    have := h.join (n - 1 - (i + 1)) (by omega) d h1 h2
    rw [show n - 1 - (i + 1) + 1 = n - 1 - i by omega] at this
    rw [show n - (i + 1) = n - 1 - i by omega, this]

/-- Solutions with one more instant, within piece `j`. -/
theorem Sol.split {n m : ℕ} {κ : ℝ} {b w : ℕ → ℝ} {F : ℕ → ℝ → ℝ} (h : Sol n m κ b w F) {j : ℕ} (hj : j < n) {s : ℝ} {b' w' : ℕ → ℝ}
    (hb1 : ∀ i ≤ j, b' i = b i) (hb2 : b' (j + 1) = s) (hb3 : ∀ i, j < i → i ≤ n → b' (i + 1) = b i)
    (hw1 : ∀ i ≤ j, w' i = w i) (hw2 : w' (j + 1) = F j s) (hw3 : ∀ i, j < i → i ≤ n → w' (i + 1) = w i) :
    Sol (n + 1) m κ b' w' (fun i => F (if i ≤ j then i else i - 1)) := by
  refine ⟨fun i hi => h.analytic _ (by split_ifs <;> omega), fun i hi t => h.ode _ (by split_ifs <;> omega) t, fun i hi => ?_, fun i hi => ?_, fun d h1 h2 => ?_,
    fun d h1 h2 => ?_, fun i hi d h1 h2 => ?_⟩
  · split_ifs with c
    · rw [hb1 i c, hw1 i c, h.start i (by omega)]
    · by_cases e : i = j + 1
      · subst e
        rw [hb2, hw2]; rfl
      · have e1 := hb3 (i - 1) (by omega) (by omega)
        have e2 := hw3 (i - 1) (by omega) (by omega)
        rw [show i - 1 + 1 = i by omega] at e1 e2
        rw [e1, e2, h.start (i - 1) (by omega)]
  · by_cases c : i < j
    · rw [if_pos c.le, hb1 _ (by omega), hw1 _ (by omega), h.stop i (by omega)]
    · by_cases e : i = j
      · subst e
        rw [if_pos le_rfl, hb2, hw2]
      · rw [if_neg (by omega), hb3 i (by omega) (by omega), hw3 i (by omega) (by omega)]
        have := h.stop (i - 1) (by omega)
        rwa [show i - 1 + 1 = i by omega] at this
  · simp only [Nat.zero_le, if_true]
    rw [hb1 0 (by omega), h.restL d h1 h2]
  · rw [if_neg (by omega), hb3 n hj le_rfl]
    exact h.restR d h1 h2
  · by_cases c : i + 1 ≤ j
    · rw [if_pos (by omega), if_pos c, hb1 _ c, h.join i (by omega) d h1 h2]
    · by_cases e : i = j
      · subst e
        rw [if_pos le_rfl, if_neg (by omega), Nat.add_sub_cancel]
      · rw [if_neg (by omega), if_neg (by omega), hb3 i (by omega) (by omega), Nat.add_sub_cancel]
        have := h.join (i - 1) (by omega) d h1 h2
        rwa [show i - 1 + 1 = i by omega] at this

/-! ## Splines -/

theorem analytic_basisFn (b : Basis) (tau : ℝ) (k : ℕ) : AnalyticOnNhd ℝ (basisFn b tau k) Set.univ := by
  intro t _
  have hw : AnalyticAt ℝ (window tau) t := by
    unfold window
    fun_prop
  have hp : ∀ p : Polynomial ℝ, AnalyticAt ℝ (fun t => p.eval (window tau t)) t := fun p => hw.aeval_polynomial p
  cases b with
  | legendre n => exact hp _
  | lagrange x => exact hp _
  | b0101 a =>
    have h1 : AnalyticAt ℝ (fun t => tau * k0101 a * window tau t) t := analyticAt_const.mul hw
    change AnalyticAt ℝ (fun t => f0101 k (tau * k0101 a * window tau t)) t
    match k with
    | 0 => exact h1.rexp.mul (Real.analyticAt_cos.comp h1)
    | 1 => exact h1.rexp.mul (Real.analyticAt_sin.comp h1)
    | 2 => exact h1.neg.rexp.mul (Real.analyticAt_cos.comp h1)
    | 3 => exact h1.neg.rexp.mul (Real.analyticAt_sin.comp h1)
    | 4 => exact h1
    | _ + 5 => exact analyticAt_const

theorem analytic_curve (g : GSpline) (i c : ℕ) : AnalyticOnNhd ℝ (curve g i c) Set.univ := by
  intro t _
  unfold curve piece comb
  refine Finset.analyticAt_fun_sum _ fun k _ => analyticAt_const.mul ?_
  exact (analytic_basisFn g.basis _ k (t - brk g i) (Set.mem_univ _)).comp_of_eq (analyticAt_id.sub analyticAt_const) rfl

/-- What is known of a spline that `interpolate` returns. -/
structure Good (g : GSpline) (w : ℕ → ℕ → ℝ) : Prop where
  basis : Interpolable g.basis
  con : Consistent g
  pos : Positive g
  ends : g.dom = (0, g.tau.sum)
  meets : Meets g w

theorem Good.sol {g : GSpline} {w : ℕ → ℕ → ℝ} (h : Good g w) {c : ℕ} (hc : c < g.codim) :
    Sol g.tau.length (g.basis.dim / 2) (kappa g.basis) (brk g) (fun i => w i c) (fun i => curve g i c) := by
  have hne := h.basis.ne
  have hev := h.basis.even
  refine ⟨fun i _ => analytic_curve g i c, fun i hi t => ?_, fun i hi => (Props.meets_ends h.basis h.con h.pos h.meets hi hc).1,
    fun i hi => (Props.meets_ends h.basis h.con h.pos h.meets hi hc).2, fun d h1 h2 => ?_, fun d h1 h2 => ?_, fun i hi d h1 h2 => ?_⟩
  · rw [Props.iteratedDeriv_curve, Props.iteratedDeriv_curve]
    have := comb_ode (Props.usable_of h.basis.valid hev hne h.basis.left h.basis.right) (vecOf_pos h.pos.2 hi).ne'
      (fun k => vecOf g.coeffs (i * g.basis.dim * g.codim + g.basis.dim * c + k)) (t - brk g i)
    rw [show g.basis.dim / 2 - 1 + 1 = g.basis.dim / 2 by omega] at this
    exact this
  · have := h.meets.restL c hc d h1 h2
    rwa [← GSpline.brk_zero g] at this
  · have e : brk g g.tau.length = g.dom.2 := by simp [brk, h.ends]
    rw [e]
    exact h.meets.restR c hc d h1 h2
  · exact h.meets.joins i hi c hc d (by omega)

/-- `t` belongs to piece `i`, end points included on both sides. -/
def Near (g : GSpline) (t : ℝ) (i : ℕ) : Prop :=
  i < g.tau.length ∧ ((t ≤ brk g 0 ∧ i = 0) ∨ (brk g i ≤ t ∧ t ≤ brk g (i + 1)) ∨ (brk g g.tau.length ≤ t ∧ i + 1 = g.tau.length))

theorem Near.of_located {g : GSpline} {t : ℝ} {i : ℕ} (h : Located g t i) : Near g t i :=
  ⟨h.1, h.2.imp_right (Or.imp (fun x => ⟨x.1.le, x.2⟩) fun x => ⟨x.1.le, x.2⟩)⟩

theorem brk_le {g : GSpline} (hp : Positive g) {i j : ℕ} (h : i ≤ j) (hj : j ≤ g.tau.length) : brk g i ≤ brk g j := by
  induction j, h using Nat.le_induction with
  | base => rfl
  | succ j _ ih => exact (ih (by omega)).trans (GSpline.brk_lt_succ hp (by omega)).le

/-- Pieces agree where they meet. -/
theorem near_eq {g : GSpline} {w : ℕ → ℕ → ℝ} (h : Good g w) {t : ℝ} {i j : ℕ} (hi : Near g t i) (hj : Near g t j) {c : ℕ} (hc : c < g.codim) :
    curve g i c t = curve g j c t := by
  have S := h.sol hc
  have main : ∀ i j, i < j → Near g t i → Near g t j → curve g i c t = curve g j c t := by
    intro i j hij hi hj
    have hi1 := hi.1
    have hj1 := hj.1
    have lo : brk g j ≤ t := by
      rcases hj.2 with x | x | x
      · omega
      · exact x.1
      · exact (brk_le h.pos hj1.le le_rfl).trans x.1
    have hi' : t ≤ brk g (i + 1) := by
      rcases hi.2 with x | x | x
      · exact x.1.trans (brk_le h.pos (Nat.zero_le _) (by omega))
      · exact x.2
      · omega
    have hm := brk_le h.pos (show i + 1 ≤ j by omega) hj1.le
    have e : brk g (i + 1) = brk g j := le_antisymm hm (lo.trans hi')
    have ej : j = i + 1 := by
      by_contra hne
      have h1 := GSpline.brk_lt_succ h.pos (show i + 1 < g.tau.length by omega)
      have h2 := brk_le h.pos (show i + 1 + 1 ≤ j by omega) hj1.le
      linarith
    subst ej
    have et : t = brk g (i + 1) := le_antisymm hi' lo
    rw [et]
    have s1 := S.stop i hi1
    have s2 := S.start (i + 1) hj1
    exact s1.trans s2.symm
  rcases Nat.lt_trichotomy i j with x | x | x
  · exact main i j x hi hj
  · rw [x]
  · exact (main j i x hj hi).symm

theorem gives_near {g : GSpline} {w : ℕ → ℕ → ℝ} (h : Good g w) {t : ℝ} (ha : Away g t) {i : ℕ} (hi : Near g t i) : Gives g t (fun c => curve g i c t) := by
  obtain ⟨j, hj⟩ := GSpline.located_exists h.pos t
  obtain ⟨v, h1, h2, h3⟩ := GSpline.value_spec h.basis.valid h.con (GSpline.getInterval_of_located h.pos hj) hj.1 (vecOf_pos h.pos.2 hj.1).ne' (ha j hj)
  refine ⟨v, h1, h2, fun c hc => ?_⟩
  rw [h3 c hc, near_eq h (.of_located hj) hi hc]

theorem Gives.congr {g : GSpline} {t : ℝ} {x y : ℕ → ℝ} (h : Gives g t x) (e : ∀ c < g.codim, x c = y c) : Gives g t y := by
  obtain ⟨v, h1, h2, h3⟩ := h
  exact ⟨v, h1, h2, fun c hc => by rw [h3 c hc, e c hc]⟩

theorem Gives.unique {g : GSpline} {t : ℝ} {x y : ℕ → ℝ} (h : Gives g t x) (h' : Gives g t y) : ∀ c < g.codim, x c = y c := by
  obtain ⟨v, h1, -, h3⟩ := h
  obtain ⟨v', h1', -, h3'⟩ := h'
  rw [h1] at h1'
  cases h1'
  intro c hc
  have := (h3 c hc).symm.trans (h3' c hc)
  simpa using this

theorem half_pos {b : Basis} (h : Interpolable b) : 1 ≤ b.dim / 2 := by have := h.ne; have := h.even; omega

/-- Splines with the same data that meet the same way points are equal. -/
theorem good_unique {g g' : GSpline} {w : ℕ → ℕ → ℝ} (h : Good g w) (h' : Good g' w) (ht : g'.tau = g.tau) (hc : g'.codim = g.codim) (hb : g'.basis = g.basis) :
    g' = g := by
  have hd : g'.dom = g.dom := by rw [h.ends, h'.ends, ht]
  have hbrk : brk g' = brk g := by funext i; simp [brk, ht, hd]
  have hco : g'.coeffs = g.coeffs := by
    have l1 := h.con
    have l2 := h'.con
    unfold Consistent at l1 l2
    rw [ht, hc, hb] at l2
    refine List.ext_getElem (by rw [l1, l2]) fun k hk hk' => ?_
    obtain ⟨i, comp, l, hi, hcomp, hl, rfl⟩ := GSpline.coefIdx_surj (dim := g.basis.dim) (codim := g.codim) (n := g.tau.length) (x := k) (by omega)
    have S := h.sol hcomp
    have S' := h'.sol (c := comp) (by rw [hc]; exact hcomp)
    rw [ht, hb, hbrk] at S'
    have e := Sol.unique (half_pos h.basis) (kappa_nonneg _) (b := brk g) (fun i hi => GSpline.brk_lt_succ h.pos hi) S S' i hi
    have hz := comb_independent (Props.usable_of h.basis.valid h.basis.even h.basis.ne h.basis.left h.basis.right)
      (b := g.basis) (by cases hg : g.basis with | b0101 a => exact h.basis.pos a hg | _ => trivial) (vecOf_pos h.pos.2 hi)
      (y := fun k => vecOf g.coeffs (i * g.basis.dim * g.codim + g.basis.dim * comp + k) - vecOf g'.coeffs (i * g.basis.dim * g.codim + g.basis.dim * comp + k))
      (fun t _ => by
        have e1 := congrFun e (brk g i + t)
        unfold curve piece at e1
        rw [hbrk, ht, hc, hb, add_sub_cancel_left] at e1
        unfold comb at e1 ⊢
        simp only [sub_mul, sum_sub_distrib]
        linarith) l hl
    have := sub_eq_zero.mp hz
    have e1 : vecOf g.coeffs (Basis.coefIdx g.basis.dim g.codim i comp l) = vecOf g'.coeffs (Basis.coefIdx g.basis.dim g.codim i comp l) := this
    simpa [vecOf, hk, hk'] using e1.symm
  cases g
  cases g'
  simp_all

/-- The result of `interpolate`. -/
theorem good_of {lu : LU} (hlu : LUContract lu) {junk : Vec} {b : Basis} (hb : Interpolable b) {tau : List ℝ} (hne : tau ≠ []) (ht : ∀ t ∈ tau, 1 / 10 ^ 6 ≤ t)
    {w : Pts} (hw : w.rows = tau.length + 1) {g : GSpline} (h : interpolateFn lu junk tau w b = .ok g) :
    Good g w.at' ∧ g.tau = tau ∧ g.codim = w.cols ∧ g.basis = b := by
  have hl := List.length_pos_of_ne_nil hne
  obtain ⟨s, h1, h2, -⟩ := Props.interpolate_new hlu (w := w) (by omega) hb junk
  obtain ⟨s', g', f1, f2, f3, f4, f5, f6, f7⟩ := h2 tau (by omega) ht
  unfold interpolateFn at h
  rw [if_neg (by omega), h1, Interp.ok_bind, f1] at h
  cases h
  exact ⟨⟨by rw [f5]; exact hb, f6, ⟨by rw [f3]; exact hne, by rw [f3]; exact fun t h => lt_of_lt_of_le (by norm_num) (ht t h)⟩, by rw [f2, f3], f7⟩, f3, f4, f5⟩

theorem interpolate_ok {lu : LU} (hlu : LUContract lu) (junk : Vec) {b : Basis} (hb : Interpolable b) {tau : List ℝ} (hne : tau ≠ [])
    (ht : ∀ t ∈ tau, 1 / 10 ^ 6 ≤ t) {w : Pts} (hw : w.rows = tau.length + 1) : ∃ g, interpolateFn lu junk tau w b = .ok g := by
  have hl := List.length_pos_of_ne_nil hne
  obtain ⟨s, h1, h2, -⟩ := Props.interpolate_new hlu (w := w) (by omega) hb junk
  obtain ⟨s', g', f1, -⟩ := h2 tau (by omega) ht
  refine ⟨g', ?_⟩
  unfold interpolateFn
  rw [if_neg (by omega), h1, Interp.ok_bind, f1]
  rfl

theorem Good.congr {g : GSpline} {w w' : ℕ → ℕ → ℝ} (h : Good g w) (e : ∀ i ≤ g.tau.length, ∀ c < g.codim, w i c = w' i c) : Good g w' := by
  refine ⟨h.basis, h.con, h.pos, h.ends, ⟨fun i hi => ?_, h.meets.joins, h.meets.restL, h.meets.restR⟩⟩
  obtain ⟨v, h1, h2, h3⟩ := h.meets.points i hi
  exact ⟨v, h1, h2, fun c hc => by rw [h3 c hc, e i hi c hc]⟩

/-- Same lengths, polynomials of the same degree or the same functions, related way points: related curves. -/
theorem curve_affine {K : ℕ} {g : ℕ → GSpline} {w : ℕ → ℕ → ℕ → ℝ} {g' : GSpline} {w' : ℕ → ℕ → ℝ} (h : ∀ k < K, Good (g k) (w k)) (h' : Good g' w')
    (ht : ∀ k < K, (g k).tau = g'.tau) (hd : ∀ k < K, (g k).basis.dim = g'.basis.dim) (hk : ∀ k < K, kappa (g k).basis = kappa g'.basis)
    {c : ℕ} (hc : c < g'.codim) {cs : ℕ → ℕ} (hcs : ∀ k < K, cs k < (g k).codim) (a : ℕ → ℝ) (v : ℝ)
    (e : ∀ i ≤ g'.tau.length, w' i c = ∑ k ∈ range K, a k * w k i (cs k) + v) {i : ℕ} (hi : i < g'.tau.length) (t : ℝ) :
    curve g' i c t = ∑ k ∈ range K, a k * curve (g k) i (cs k) t + v := by
  have hbrk : ∀ k < K, brk (g k) = brk g' := fun k hk => by funext i; simp [brk, ht k hk, (h k hk).ends, h'.ends]
  have S := Sol.affine (n := g'.tau.length) (half_pos h'.basis) (κ := kappa g'.basis) (b := brk g') (w := fun k i => w k i (cs k))
    (F := fun k i => curve (g k) i (cs k)) (K := K) (fun k hk' => by
      have := (h k hk').sol (hcs k hk')
      rw [ht k hk', hd k hk', hk k hk', hbrk k hk'] at this
      exact this) (by omega) a v
  have S' := h'.sol hc
  have S'' : Sol g'.tau.length (g'.basis.dim / 2) (kappa g'.basis) (brk g') (fun i => w' i c) (fun i t => ∑ k ∈ range K, a k * curve (g k) i (cs k) t + v) :=
    ⟨S.analytic, S.ode, fun i hi => by rw [e i hi.le]; exact S.start i hi, fun i hi => by rw [e (i + 1) hi]; exact S.stop i hi, S.restL, S.restR, S.join⟩
  exact congrFun (Sol.unique (half_pos h'.basis) (kappa_nonneg _) (b := brk g') (fun i hi => GSpline.brk_lt_succ h'.pos hi) S' S'' i hi) t

end GSplines.Symmetry
