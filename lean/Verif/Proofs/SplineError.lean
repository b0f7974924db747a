import Verif.Proofs.Minimal

/-!
# The error of interpolating splines

`H i d` is the derivative of order `d` of the error on piece `i`, which runs from `b i` to `b (i + 1)`.
-/

namespace GSplines.SplineError

open Finset MeasureTheory

/-- What is used of the error: it vanishes at the way points, fits together with its derivatives of order less than `m`, and these vanish at both ends. -/
structure Gap (n m : ℕ) (b : ℕ → ℝ) (H : ℕ → ℕ → ℝ → ℝ) : Prop where
  lt : ∀ i < n, b i < b (i + 1)
  tower : ∀ i < n, ∀ d < m, ∀ t, HasDerivAt (H i d) (H i (d + 1) t) t
  cont : ∀ i < n, Continuous (H i m)
  start : ∀ i < n, H i 0 (b i) = 0
  stop : ∀ i < n, H i 0 (b (i + 1)) = 0
  join : ∀ i, i + 1 < n → ∀ d < m, H i d (b (i + 1)) = H (i + 1) d (b (i + 1))
  left : ∀ d < m, H 0 d (b 0) = 0
  right : ∀ d < m, H (n - 1) d (b n) = 0

/-- The integral of the square of the derivative of order `d`. -/
noncomputable def sq (n : ℕ) (b : ℕ → ℝ) (H : ℕ → ℕ → ℝ → ℝ) (d : ℕ) : ℝ := ∑ i ∈ range n, ∫ t in (b i)..(b (i + 1)), H i d t ^ 2

variable {n m : ℕ} {b : ℕ → ℝ} {H : ℕ → ℕ → ℝ → ℝ}

theorem Gap.continuous (g : Gap n m b H) {i : ℕ} (hi : i < n) {d : ℕ} (hd : d ≤ m) : Continuous (H i d) := by
  rcases Nat.lt_or_ge d m with h | h
  · exact continuous_iff_continuousAt.mpr fun t => (g.tower i hi d h t).continuousAt
  · rw [show d = m by omega]; exact g.cont i hi

theorem sq_nonneg (hlt : ∀ i < n, b i < b (i + 1)) (d : ℕ) : 0 ≤ sq n b H d :=
  sum_nonneg fun i hi => intervalIntegral.integral_nonneg (hlt i (mem_range.mp hi)).le fun t _ => by positivity

/-- Integrals of derivatives of functions that fit together add up. -/
theorem telescope {X X' : ℕ → ℝ → ℝ} (hX : ∀ i < n, ∀ t, HasDerivAt (X i) (X' i t) t) (hc : ∀ i < n, Continuous (X' i))
    (hj : ∀ i, i + 1 < n → X i (b (i + 1)) = X (i + 1) (b (i + 1))) (hn : 0 < n) :
    ∑ i ∈ range n, ∫ t in (b i)..(b (i + 1)), X' i t = X (n - 1) (b n) - X 0 (b 0) := by
  have h1 : ∀ i < n, ∫ t in (b i)..(b (i + 1)), X' i t = X i (b (i + 1)) - X i (b i) := fun i hi =>
    intervalIntegral.integral_eq_sub_of_hasDerivAt (fun t _ => hX i hi t) ((hc i hi).intervalIntegrable _ _)
  rw [sum_congr rfl fun i hi => h1 i (mem_range.mp hi)]
  have : ∀ k, k ≤ n → 0 < k → ∑ i ∈ range k, (X i (b (i + 1)) - X i (b i)) = X (k - 1) (b k) - X 0 (b 0) := by
    intro k
    induction k with
    | zero => intro _ h; omega
    | succ k ih =>
      intro hk _
      rcases Nat.eq_zero_or_pos k with rfl | hk0
      · simp
      · rw [sum_range_succ, ih (by omega) hk0, show k + 1 - 1 = k by omega]
        have := hj (k - 1) (by omega)
        rw [show k - 1 + 1 = k by omega] at this
        rw [this]; ring
  exact this n le_rfl hn

/-- A function that vanishes at both ends: its square is at most the integral of `|f f'|`. -/
theorem square_le {f f' : ℝ → ℝ} (hf : ∀ t, HasDerivAt f (f' t) t) (hc : Continuous f') {a c : ℝ} {t : ℝ} (h1 : a ≤ t) (h2 : t ≤ c) :
    f t ^ 2 ≤ f a ^ 2 + ∫ s in a..t, |2 * (f s * f' s)| ∧ f t ^ 2 ≤ f c ^ 2 + ∫ s in t..c, |2 * (f s * f' s)| := by
  have hfc : Continuous f := continuous_iff_continuousAt.mpr fun t => (hf t).continuousAt
  have hd : ∀ s, HasDerivAt (fun s => f s ^ 2) (2 * (f s * f' s)) s := fun s => ((hf s).pow 2).congr_deriv (by simp; ring)
  have hg : Continuous fun s => 2 * (f s * f' s) := by fun_prop
  have e : ∀ x y, ∫ s in x..y, 2 * (f s * f' s) = f y ^ 2 - f x ^ 2 := fun x y =>
    intervalIntegral.integral_eq_sub_of_hasDerivAt (fun s _ => hd s) (hg.intervalIntegrable _ _)
  have k1 := intervalIntegral.abs_integral_le_integral_abs (μ := volume) (f := fun s => 2 * (f s * f' s)) h1
  have k2 := intervalIntegral.abs_integral_le_integral_abs (μ := volume) (f := fun s => 2 * (f s * f' s)) h2
  rw [e] at k1 k2
  exact ⟨by linarith [le_abs_self (f t ^ 2 - f a ^ 2)], by linarith [neg_abs_le (f c ^ 2 - f t ^ 2)]⟩

theorem young {h x y : ℝ} (hh : 0 < h) : |2 * (x * y)| ≤ x ^ 2 / h + h * y ^ 2 := by
  have e : x ^ 2 / h + h * y ^ 2 - 2 * (x * y) = (x - h * y) ^ 2 / h := by field_simp; ring
  have e' : x ^ 2 / h + h * y ^ 2 + 2 * (x * y) = (x + h * y) ^ 2 / h := by field_simp; ring
  have p1 : 0 ≤ (x - h * y) ^ 2 / h := by positivity
  have p2 : 0 ≤ (x + h * y) ^ 2 / h := by positivity
  rw [abs_le]
  constructor <;> linarith

/-- A function that vanishes at both ends of an interval of length at most `h`: `∫ f² ≤ h² ∫ f'²`. -/
theorem poincare {f f' : ℝ → ℝ} (hf : ∀ t, HasDerivAt f (f' t) t) (hc : Continuous f') {a c h : ℝ} (hac : a < c) (hle : c - a ≤ h) (ha : f a = 0) (hcz : f c = 0) :
    ∫ s in a..c, f s ^ 2 ≤ h ^ 2 * ∫ s in a..c, f' s ^ 2 := by
  have hh : 0 < h := by linarith
  have hfc : Continuous f := continuous_iff_continuousAt.mpr fun t => (hf t).continuousAt
  set A := ∫ s in a..c, f s ^ 2
  set B := ∫ s in a..c, f' s ^ 2
  have hi1 : IntervalIntegrable (fun s => f s ^ 2) volume a c := Continuous.intervalIntegrable (by fun_prop) _ _
  have hB0 : 0 ≤ B := intervalIntegral.integral_nonneg hac.le fun t _ => by positivity
  have hA0 : 0 ≤ A := intervalIntegral.integral_nonneg hac.le fun t _ => by positivity
  have hJ : ∫ s in a..c, |2 * (f s * f' s)| ≤ A / h + h * B := by
    have : ∫ s in a..c, (f s ^ 2 / h + h * f' s ^ 2) = A / h + h * B := by
      rw [intervalIntegral.integral_add, intervalIntegral.integral_div, intervalIntegral.integral_const_mul]
      all_goals exact Continuous.intervalIntegrable (by fun_prop) _ _
    rw [← this]
    exact intervalIntegral.integral_mono_on hac.le (Continuous.intervalIntegrable (by fun_prop) _ _) (Continuous.intervalIntegrable (by fun_prop) _ _) fun s _ => young hh
  have hpt : ∀ t ∈ Set.Icc a c, f t ^ 2 ≤ (A / h + h * B) / 2 := by
    intro t ht
    obtain ⟨k1, k2⟩ := square_le hf hc ht.1 ht.2
    have hadd : (∫ s in a..t, |2 * (f s * f' s)|) + ∫ s in t..c, |2 * (f s * f' s)| = ∫ s in a..c, |2 * (f s * f' s)| :=
      intervalIntegral.integral_add_adjacent_intervals (Continuous.intervalIntegrable (by fun_prop) _ _) (Continuous.intervalIntegrable (by fun_prop) _ _)
    rw [ha] at k1
    rw [hcz] at k2
    linarith
  have hAle : A ≤ (c - a) * ((A / h + h * B) / 2) := by
    have := intervalIntegral.integral_mono_on hac.le hi1 (g := fun _ => (A / h + h * B) / 2) (continuous_const.intervalIntegrable _ _) hpt
    rwa [intervalIntegral.integral_const, smul_eq_mul] at this
  have hnn : 0 ≤ (A / h + h * B) / 2 := by positivity
  have : (c - a) * ((A / h + h * B) / 2) ≤ h * ((A / h + h * B) / 2) := mul_le_mul_of_nonneg_right hle hnn
  have e : h * ((A / h + h * B) / 2) = A / 2 + h ^ 2 * B / 2 := by field_simp
  linarith

/-- `∫ e^(d)² ≤ h² ∫ e^(d+1)²` for every order `d < m`. -/
theorem Gap.step (g : Gap n m b H) {h : ℝ} (hh : 0 < h) (hle : ∀ i < n, b (i + 1) - b i ≤ h) : ∀ d < m, sq n b H d ≤ h ^ 2 * sq n b H (d + 1)
  | 0, hd => by
    unfold sq
    rw [mul_sum]
    refine sum_le_sum fun i hi => ?_
    have hi := mem_range.mp hi
    exact poincare (g.tower i hi 0 hd) (g.continuous hi (by omega)) (g.lt i hi) (hle i hi) (g.start i hi) (g.stop i hi)
  | d + 1, hd => by
    have ih := Gap.step g hh hle d (by omega)
    rcases Nat.eq_zero_or_pos n with rfl | hn
    · simp [sq]
    have ht := telescope (n := n) (b := b) (X := fun i t => H i d t * H i (d + 1) t) (X' := fun i t => H i (d + 1) t * H i (d + 1) t + H i d t * H i (d + 2) t)
      (fun i hi t => (g.tower i hi d (by omega) t).mul (g.tower i hi (d + 1) hd t))
      (fun i hi => by
        have := g.continuous hi (d := d) (by omega); have := g.continuous hi (d := d + 1) (by omega); have := g.continuous hi (d := d + 2) (by omega)
        fun_prop)
      (fun i hi => by rw [g.join i hi d (by omega), g.join i hi (d + 1) hd]) hn
    rw [g.left d (by omega), g.right d (by omega)] at ht
    have hpiece : ∀ i ∈ range n, (∫ t in (b i)..(b (i + 1)), H i (d + 1) t ^ 2) ≤
        (∫ t in (b i)..(b (i + 1)), (H i (d + 1) t * H i (d + 1) t + H i d t * H i (d + 2) t)) +
          ((1 / (2 * h ^ 2)) * (∫ t in (b i)..(b (i + 1)), H i d t ^ 2) + h ^ 2 / 2 * ∫ t in (b i)..(b (i + 1)), H i (d + 2) t ^ 2) := by
      intro i hi
      have hi := mem_range.mp hi
      have c1 := g.continuous hi (d := d) (by omega); have c2 := g.continuous hi (d := d + 1) (by omega); have c3 := g.continuous hi (d := d + 2) (by omega)
      rw [← intervalIntegral.integral_const_mul, ← intervalIntegral.integral_const_mul, ← intervalIntegral.integral_add, ← intervalIntegral.integral_add]
      · refine intervalIntegral.integral_mono_on (g.lt i hi).le (Continuous.intervalIntegrable (by fun_prop) _ _) (Continuous.intervalIntegrable (by fun_prop) _ _) fun t _ => ?_
        have := young (h := h ^ 2) (x := H i d t) (y := H i (d + 2) t) (by positivity)
        have := neg_abs_le (2 * (H i d t * H i (d + 2) t))
        have e : 1 / (2 * h ^ 2) * H i d t ^ 2 = (H i d t ^ 2 / h ^ 2) / 2 := by field_simp
        rw [e]
        nlinarith
      all_goals exact Continuous.intervalIntegrable (by fun_prop) _ _
    have hsum := sum_le_sum hpiece
    rw [sum_add_distrib, ht, sum_add_distrib, ← mul_sum, ← mul_sum] at hsum
    change sq n b H (d + 1) ≤ 0 * _ - 0 * _ + (1 / (2 * h ^ 2) * sq n b H d + h ^ 2 / 2 * sq n b H (d + 2)) at hsum
    have e : 1 / (2 * h ^ 2) * sq n b H d ≤ sq n b H (d + 1) / 2 := by
      have := mul_le_mul_of_nonneg_left ih (by positivity : 0 ≤ 1 / (2 * h ^ 2))
      refine this.trans (le_of_eq ?_)
      field_simp
    linarith

/-- `∫ e^(d)² ≤ h^(2(m-d)) ∫ e^(m)²`. -/
theorem Gap.power (g : Gap n m b H) {h : ℝ} (hh : 0 < h) (hle : ∀ i < n, b (i + 1) - b i ≤ h) (k : ℕ) (hk : k ≤ m) : sq n b H (m - k) ≤ h ^ (2 * k) * sq n b H m := by
  induction k with
  | zero => simp
  | succ k ih =>
    have h1 := g.step hh hle (m - (k + 1)) (by omega)
    rw [show m - (k + 1) + 1 = m - k by omega] at h1
    have h2 := mul_le_mul_of_nonneg_left (ih (by omega)) (by positivity : 0 ≤ h ^ 2)
    calc _ ≤ _ := h1
      _ ≤ _ := h2
      _ = _ := by ring

/-- The pointwise bound: `e^(d)(t)² ≤ h ∫ e^(d+1)²`. -/
theorem Gap.point (g : Gap n m b H) {h : ℝ} (hh : 0 < h) (hle : ∀ i < n, b (i + 1) - b i ≤ h) {d : ℕ} (hd : d < m) {j : ℕ} (hj : j < n) {t : ℝ}
    (ht : t ∈ Set.Icc (b j) (b (j + 1))) : H j d t ^ 2 ≤ h * sq n b H (d + 1) := by
  set J : ℕ → ℝ := fun i => ∫ s in (b i)..(b (i + 1)), |2 * (H i d s * H i (d + 1) s)| with hJ
  have hs : ∀ i < n, ∀ t ∈ Set.Icc (b i) (b (i + 1)), H i d t ^ 2 ≤ H i d (b i) ^ 2 + (∫ s in (b i)..t, |2 * (H i d s * H i (d + 1) s)|) ∧
      H i d t ^ 2 ≤ H i d (b (i + 1)) ^ 2 + ∫ s in t..(b (i + 1)), |2 * (H i d s * H i (d + 1) s)| := fun i hi t ht =>
    square_le (g.tower i hi d hd) (g.continuous hi (by omega)) ht.1 ht.2
  -- from the left
  have hl : ∀ i, i < n → H i d (b i) ^ 2 ≤ ∑ k ∈ range i, J k := by
    intro i
    induction i with
    | zero => intro _; rw [g.left d hd]; simp
    | succ i ih =>
      intro hi
      have h1 := (hs i (by omega) (b (i + 1)) ⟨(g.lt i (by omega)).le, le_rfl⟩).1
      rw [g.join i hi d hd] at h1
      rw [sum_range_succ]
      linarith [ih (by omega)]
  -- from the right
  have hr : ∀ k, k < n → H (n - 1 - k) d (b (n - 1 - k + 1)) ^ 2 ≤ ∑ i ∈ range n, J i - ∑ i ∈ range (n - k), J i := by
    intro k
    induction k with
    | zero =>
      intro hn
      rw [Nat.sub_zero, Nat.sub_zero, show n - 1 + 1 = n by omega, g.right d hd]
      simp
    | succ k ih =>
      intro hk
      have h1 := (hs (n - 1 - k) (by omega) (b (n - 1 - k)) ⟨le_rfl, (g.lt _ (by omega)).le⟩).2
      have h2 := ih (by omega)
      have h3 := g.join (n - 1 - (k + 1)) (by omega) d hd
      rw [show n - 1 - (k + 1) + 1 = n - 1 - k by omega] at h3 ⊢
      rw [h3]
      have h4 : ∑ i ∈ range (n - k), J i = ∑ i ∈ range (n - (k + 1)), J i + J (n - 1 - k) := by
        rw [show n - k = n - (k + 1) + 1 by omega, sum_range_succ, show n - (k + 1) = n - 1 - k by omega]
      simp only [hJ] at h4 h2 ⊢
      linarith
  have h1 := hs j hj t ht
  have h2 := hl j hj
  have h3 := hr (n - 1 - j) (by omega)
  rw [show n - 1 - (n - 1 - j) = j by omega, show n - (n - 1 - j) = j + 1 by omega, sum_range_succ] at h3
  have c1 := g.continuous hj (d := d) (by omega)
  have c2 := g.continuous hj (d := d + 1) (by omega)
  have hadd : (∫ s in (b j)..t, |2 * (H j d s * H j (d + 1) s)|) + ∫ s in t..(b (j + 1)), |2 * (H j d s * H j (d + 1) s)| = J j :=
    intervalIntegral.integral_add_adjacent_intervals (Continuous.intervalIntegrable (by fun_prop) _ _) (Continuous.intervalIntegrable (by fun_prop) _ _)
  have htot : 2 * H j d t ^ 2 ≤ ∑ i ∈ range n, J i := by linarith [h1.1, h1.2]
  have hJs : ∑ i ∈ range n, J i ≤ 1 / h * sq n b H d + h * sq n b H (d + 1) := by
    unfold sq
    rw [mul_sum, mul_sum, ← sum_add_distrib]
    refine sum_le_sum fun i hi => ?_
    have hi := mem_range.mp hi
    have c1 := g.continuous hi (d := d) (by omega)
    have c2 := g.continuous hi (d := d + 1) (by omega)
    rw [← intervalIntegral.integral_const_mul, ← intervalIntegral.integral_const_mul, ← intervalIntegral.integral_add]
    · refine intervalIntegral.integral_mono_on (g.lt i hi).le (Continuous.intervalIntegrable (by fun_prop) _ _) (Continuous.intervalIntegrable (by fun_prop) _ _) fun s _ => ?_
      have := young (h := h) (x := H i d s) (y := H i (d + 1) s) hh
      refine this.trans (le_of_eq ?_)
      ring
    all_goals exact Continuous.intervalIntegrable (by fun_prop) _ _
  have e : 1 / h * sq n b H d ≤ h * sq n b H (d + 1) := by
    have := mul_le_mul_of_nonneg_left (g.step hh hle d hd) (by positivity : 0 ≤ 1 / h)
    refine this.trans (le_of_eq ?_)
    field_simp
  linarith

/-- `e^(d)(t)² ≤ h^(2(m-d)-1) ∫ e^(m)²`. -/
theorem Gap.bound (g : Gap n m b H) {h : ℝ} (hh : 0 < h) (hle : ∀ i < n, b (i + 1) - b i ≤ h) {d : ℕ} (hd : d < m) {j : ℕ} (hj : j < n) {t : ℝ}
    (ht : t ∈ Set.Icc (b j) (b (j + 1))) : H j d t ^ 2 ≤ h ^ (2 * (m - d) - 1) * sq n b H m := by
  have h1 := g.point hh hle hd hj ht
  have h2 := g.power hh hle (m - (d + 1)) (by omega)
  rw [show m - (m - (d + 1)) = d + 1 by omega] at h2
  refine h1.trans ((mul_le_mul_of_nonneg_left h2 hh.le).trans (le_of_eq ?_))
  rw [← mul_assoc, ← pow_succ', show 2 * (m - (d + 1)) + 1 = 2 * (m - d) - 1 by omega]

/-- Integration by parts: `∫ e^(m) φ^(m) = (-1)^k ∫ e^(m-k) φ^(m+k)`. -/
theorem Gap.parts (g : Gap n m b H) (hn : 0 < n) {φ : ℕ → ℝ → ℝ} {top : ℕ} (hφ : ∀ d < top, ∀ t, HasDerivAt (φ d) (φ (d + 1) t) t) (hc : Continuous (φ top)) (p q : ℕ) (hp : p < m)
    (hq : q < top) :
    ∑ i ∈ range n, ∫ t in (b i)..(b (i + 1)), H i (p + 1) t * φ q t = - ∑ i ∈ range n, ∫ t in (b i)..(b (i + 1)), H i p t * φ (q + 1) t := by
  have hφc : ∀ d ≤ top, Continuous (φ d) := by
    intro d hd
    rcases Nat.lt_or_ge d top with h | h
    · exact continuous_iff_continuousAt.mpr fun t => (hφ d h t).continuousAt
    · rw [show d = top by omega]; exact hc
  have ht := telescope (n := n) (b := b) (X := fun i t => H i p t * φ q t) (X' := fun i t => H i (p + 1) t * φ q t + H i p t * φ (q + 1) t)
    (fun i hi t => (g.tower i hi p hp t).mul (hφ q hq t))
    (fun i hi => by
      have := g.continuous hi (d := p) (by omega); have := g.continuous hi (d := p + 1) (by omega); have := hφc q (by omega); have := hφc (q + 1) (by omega)
      fun_prop)
    (fun i hi => by rw [g.join i hi p hp]) hn
  rw [g.left p hp, g.right p hp] at ht
  have : ∀ i ∈ range n, ∫ t in (b i)..(b (i + 1)), (H i (p + 1) t * φ q t + H i p t * φ (q + 1) t) =
      (∫ t in (b i)..(b (i + 1)), H i (p + 1) t * φ q t) + ∫ t in (b i)..(b (i + 1)), H i p t * φ (q + 1) t := by
    intro i hi
    have hi := mem_range.mp hi
    have := g.continuous hi (d := p) (by omega); have := g.continuous hi (d := p + 1) (by omega); have := hφc q (by omega); have := hφc (q + 1) (by omega)
    exact intervalIntegral.integral_add (Continuous.intervalIntegrable (by fun_prop) _ _) (Continuous.intervalIntegrable (by fun_prop) _ _)
  rw [sum_congr rfl this, sum_add_distrib] at ht
  linarith

/-- Repeated integration by parts: `∫ e^(k) φ^(q) = (-1)^k ∫ e φ^(q+k)`. -/
theorem Gap.parts_iter (g : Gap n m b H) (hn : 0 < n) {φ : ℕ → ℝ → ℝ} {top : ℕ} (hφ : ∀ d < top, ∀ t, HasDerivAt (φ d) (φ (d + 1) t) t) (hc : Continuous (φ top)) :
    ∀ k ≤ m, ∀ q, q + k ≤ top →
      ∑ i ∈ range n, ∫ t in (b i)..(b (i + 1)), H i k t * φ q t = (-1) ^ k * ∑ i ∈ range n, ∫ t in (b i)..(b (i + 1)), H i 0 t * φ (q + k) t
  | 0, _, q, _ => by simp
  | k + 1, hk, q, hq => by
    rw [g.parts hn hφ hc k q (by omega) (by omega), Gap.parts_iter g hn hφ hc k (by omega) (q + 1) (by omega), show q + 1 + k = q + (k + 1) by omega]
    ring

/-- If the spline is orthogonal to the error, the error is bounded by the residual of the curve: `∫ e^(m)² ≤ h^(2m) ∫ r²` with `r = (-1)^(m+1) φ^(2m) + κ φ''`. -/
theorem Gap.residual (g : Gap n m b H) (hn : 0 < n) (hm : 1 ≤ m) {h : ℝ} (hh : 0 < h) (hle : ∀ i < n, b (i + 1) - b i ≤ h) {κ : ℝ} (hκ : 0 ≤ κ) {φ : ℕ → ℝ → ℝ}
    (hφ : ∀ d < 2 * m, ∀ t, HasDerivAt (φ d) (φ (d + 1) t) t) (hc : Continuous (φ (2 * m)))
    (horth : ∑ i ∈ range n, ∫ t in (b i)..(b (i + 1)), ((φ m t - H i m t) * H i m t + κ * ((φ 1 t - H i 1 t) * H i 1 t)) = 0) :
    sq n b H m ≤ h ^ (2 * m) * ∑ i ∈ range n, ∫ t in (b i)..(b (i + 1)), ((-1) ^ (m + 1) * φ (2 * m) t + κ * φ 2 t) ^ 2 := by
  have hφc : ∀ d ≤ 2 * m, Continuous (φ d) := by
    intro d hd
    rcases Nat.lt_or_ge d (2 * m) with h | h
    · exact continuous_iff_continuousAt.mpr fun t => (hφ d h t).continuousAt
    · rw [show d = 2 * m by omega]; exact hc
  have p1 := g.parts_iter hn hφ hc m le_rfl m (by omega)
  have p2 := g.parts_iter hn hφ hc 1 hm 1 (by omega)
  rw [show m + m = 2 * m by omega] at p1
  norm_num at p2
  set r : ℝ → ℝ := fun t => (-1) ^ (m + 1) * φ (2 * m) t + κ * φ 2 t with hr
  -- the energy of the error
  have e1 : sq n b H m + κ * sq n b H 1 = ∑ i ∈ range n, (∫ t in (b i)..(b (i + 1)), H i m t * φ m t) + κ * ∑ i ∈ range n, ∫ t in (b i)..(b (i + 1)), H i 1 t * φ 1 t := by
    have : ∀ i ∈ range n, ∫ t in (b i)..(b (i + 1)), ((φ m t - H i m t) * H i m t + κ * ((φ 1 t - H i 1 t) * H i 1 t)) =
        (∫ t in (b i)..(b (i + 1)), H i m t * φ m t) + κ * (∫ t in (b i)..(b (i + 1)), H i 1 t * φ 1 t) -
          ((∫ t in (b i)..(b (i + 1)), H i m t ^ 2) + κ * ∫ t in (b i)..(b (i + 1)), H i 1 t ^ 2) := by
      intro i hi
      have hi := mem_range.mp hi
      have c1 := g.continuous hi (d := m) le_rfl; have c2 := g.continuous hi (d := 1) hm; have c3 := hφc m (by omega); have c4 := hφc 1 (by omega)
      rw [← intervalIntegral.integral_const_mul, ← intervalIntegral.integral_const_mul, ← intervalIntegral.integral_add, ← intervalIntegral.integral_add,
        ← intervalIntegral.integral_sub]
      · refine intervalIntegral.integral_congr fun t _ => ?_
        ring
      all_goals exact Continuous.intervalIntegrable (by fun_prop) _ _
    rw [sum_congr rfl this, sum_sub_distrib, sum_add_distrib, sum_add_distrib, ← mul_sum, ← mul_sum] at horth
    unfold sq
    linarith
  have e2 : sq n b H m + κ * sq n b H 1 = - ∑ i ∈ range n, ∫ t in (b i)..(b (i + 1)), H i 0 t * r t := by
    rw [e1, p1, p2]
    have : ∀ i ∈ range n, ∫ t in (b i)..(b (i + 1)), H i 0 t * r t =
        (-1) ^ (m + 1) * (∫ t in (b i)..(b (i + 1)), H i 0 t * φ (2 * m) t) + κ * ∫ t in (b i)..(b (i + 1)), H i 0 t * φ 2 t := by
      intro i hi
      have hi := mem_range.mp hi
      have c1 := g.continuous hi (d := 0) (by omega); have c3 := hφc (2 * m) le_rfl; have c4 := hφc 2 (by omega)
      rw [← intervalIntegral.integral_const_mul, ← intervalIntegral.integral_const_mul, ← intervalIntegral.integral_add]
      · refine intervalIntegral.integral_congr fun t _ => ?_
        simp only [hr]
        ring
      all_goals exact Continuous.intervalIntegrable (by fun_prop) _ _
    rw [sum_congr rfl this, sum_add_distrib, ← mul_sum, ← mul_sum, pow_succ]
    ring
  have hh2 : 0 < h ^ (2 * m) := by positivity
  have e3 : - ∑ i ∈ range n, ∫ t in (b i)..(b (i + 1)), H i 0 t * r t ≤ 1 / (2 * h ^ (2 * m)) * sq n b H 0 + h ^ (2 * m) / 2 * ∑ i ∈ range n, ∫ t in (b i)..(b (i + 1)), r t ^ 2 := by
    unfold sq
    rw [← sum_neg_distrib, mul_sum, mul_sum, ← sum_add_distrib]
    refine sum_le_sum fun i hi => ?_
    have hi := mem_range.mp hi
    have c1 := g.continuous hi (d := 0) (by omega); have c3 := hφc (2 * m) le_rfl; have c4 := hφc 2 (by omega)
    have c5 : Continuous r := by simp only [hr]; fun_prop
    rw [← intervalIntegral.integral_const_mul, ← intervalIntegral.integral_const_mul, ← intervalIntegral.integral_add, ← intervalIntegral.integral_neg]
    · refine intervalIntegral.integral_mono_on (g.lt i hi).le (Continuous.intervalIntegrable (by fun_prop) _ _) (Continuous.intervalIntegrable (by fun_prop) _ _) fun t _ => ?_
      have := young (x := H i 0 t) (y := r t) hh2
      have := neg_abs_le (2 * (H i 0 t * r t))
      have e : 1 / (2 * h ^ (2 * m)) * H i 0 t ^ 2 = (H i 0 t ^ 2 / h ^ (2 * m)) / 2 := by field_simp
      rw [e]
      nlinarith
    all_goals exact Continuous.intervalIntegrable (by fun_prop) _ _
  have e4 := g.power hh hle m le_rfl
  rw [Nat.sub_self] at e4
  have e5 : 1 / (2 * h ^ (2 * m)) * sq n b H 0 ≤ sq n b H m / 2 := by
    refine (mul_le_mul_of_nonneg_left e4 (by positivity)).trans (le_of_eq ?_)
    field_simp
  have e6 : 0 ≤ κ * sq n b H 1 := mul_nonneg hκ (sq_nonneg g.lt 1)
  linarith

end GSplines.SplineError
