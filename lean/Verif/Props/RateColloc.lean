import Verif.Proofs.RateColloc
import Verif.Proofs.CollocError
import Verif.Proofs.WellPosed
import Verif.Props.Approx
import Verif.Props.RateIntegral

/-!
# C101: the errors of collocation are proportional to the rounding errors

`Rounded.approximate u f n m jp jw junk o` says that `GaussLobattoLagrangeSpline::approximate(f, n, m)` may end with `o` when each operation on doubles has a relative error
of at most `u.1` plus an absolute error of at most `u.2`. `jp`, `jw` and `junk` are the contents of freshly allocated memory.
-/

namespace GSplines.Props

open GSplines Spec Fn GLL Finset Polynomial Rounded

section

variable {f : Fn} {n m : ℕ} {p : Vec} {ε : ℝ} {g : GSpline}

theorem colloc_brk (h : CollocOk f n m p ε g) {i : ℕ} (hi : i ≤ m) (hε : 0 ≤ ε) : |brk g i - (f.dom.1 + i * Spec.step f m)| ≤ m * ε := by
  rw [WellPosed.brk_sum (by rw [h.len]; exact hi), h.dom]
  have e : f.dom.1 + ∑ j ∈ range i, vecOf g.tau j - (f.dom.1 + i * Spec.step f m) = ∑ j ∈ range i, (vecOf g.tau j - Spec.step f m) := by
    rw [sum_sub_distrib, sum_const, card_range, nsmul_eq_mul]; ring
  rw [e]
  refine (abs_sum_le_sum_abs _ _).trans ((sum_le_sum fun j hj => h.tau j (by rw [mem_range] at hj; omega)).trans ?_)
  rw [sum_const, card_range, nsmul_eq_mul]
  exact mul_le_mul_of_nonneg_right (by exact_mod_cast hi) hε

theorem colloc_positive (h : CollocOk f n m p ε g) (hm : 0 < m) (hε : ε < Spec.step f m) : Positive g := by
  refine ⟨fun h0 => by have := h.len; rw [h0] at this; simp at this; omega, fun x hx => ?_⟩
  obtain ⟨i, hi, rfl⟩ := List.getElem_of_mem hx
  have := h.tau i (by rw [← h.len]; exact hi)
  unfold vecOf at this
  rw [List.getD_eq_getElem?_getD, List.getElem?_eq_getElem hi] at this
  have := (abs_le.mp this).1
  simp only [Option.getD_some] at this
  linarith

/-- The window coordinate of a point in the computed spline and in exact arithmetic. -/
theorem colloc_window (h : CollocOk f n m p ε g) (hε : 0 ≤ ε) (hh : 0 < Spec.step f m) (hε' : ε ≤ Spec.step f m / (8 * (m + 2))) {iv : ℕ} (hiv : iv < m) {t : ℝ}
    (h1 : f.dom.1 + iv * Spec.step f m - m * ε ≤ t) (h2 : t ≤ f.dom.1 + (iv + 1) * Spec.step f m + m * ε) :
    |window (vecOf g.tau iv) (t - brk g iv) - window (Spec.step f m) (t - (f.dom.1 + iv * Spec.step f m))| ≤ (4 * m + 8) * ε / Spec.step f m := by
  set H := Spec.step f m with hH
  set T := vecOf g.tau iv with hT
  have hm0 : (0 : ℝ) ≤ m := Nat.cast_nonneg m
  have hb := colloc_brk h hiv.le hε
  have ht := h.tau iv hiv
  rw [← hH, ← hT] at ht
  rw [← hH] at hb
  have hε8 : (8 * (m + 2)) * ε ≤ H := by
    rw [le_div_iff₀ (by positivity)] at hε'; linarith
  have hmε : 0 ≤ m * ε := by positivity
  have hT2 : H / 2 ≤ T := by
    have := (abs_le.mp ht).1
    nlinarith
  have hT0 : 0 < T := by linarith
  set d := t - (f.dom.1 + iv * H) with hd
  have hdb : |d| ≤ 2 * H := by
    rw [abs_le]
    constructor <;> nlinarith
  have e : window T (t - brk g iv) - window H d = 2 * ((f.dom.1 + iv * H - brk g iv) / T) + 2 * (d * (H - T) / (T * H)) := by
    unfold window
    rw [hd]
    field_simp
    ring
  rw [e]
  have a1 : |(f.dom.1 + iv * H - brk g iv) / T| ≤ m * ε / (H / 2) := by
    rw [abs_div, abs_of_pos hT0, abs_sub_comm]
    exact div_le_div₀ hmε hb (by linarith) hT2
  have a2 : |d * (H - T) / (T * H)| ≤ 2 * H * ε / (H / 2 * H) := by
    rw [abs_div, abs_mul, abs_of_pos (by positivity : 0 < T * H), abs_sub_comm H T]
    exact div_le_div₀ (by positivity) (mul_le_mul hdb ht (abs_nonneg _) (by positivity)) (by positivity) (mul_le_mul_of_nonneg_right hT2 hh.le)
  refine (abs_add_le _ _).trans ?_
  rw [abs_mul, abs_mul, abs_of_pos (by norm_num : (0 : ℝ) < 2)]
  have e2 : (4 * m + 8) * ε / H = 2 * (m * ε / (H / 2)) + 2 * (2 * H * ε / (H / 2 * H)) := by
    field_simp
    ring
  rw [e2]
  linarith

/-- The piece of the computed spline as a sum. -/
theorem colloc_curve_sum (h : CollocOk f n m p ε g) (iv c : ℕ) (t : ℝ) :
    curve g iv c t = ∑ k ∈ range n, nodal g iv c k * (_root_.Lagrange.basis (range n) p k).eval (window (vecOf g.tau iv) (t - brk g iv)) := by
  have hdim : g.basis.dim = n := by rw [h.basis]; simp [Basis.dim]
  unfold curve piece comb
  rw [hdim]
  refine sum_congr rfl fun k hk => ?_
  have : nodal g iv c k = vecOf g.coeffs (iv * n * g.codim + n * c + k) := by unfold nodal; rw [hdim]
  rw [this]
  congr 1
  rw [h.basis]
  simp only [basisFn, List.length_map, List.length_range]
  rw [Approx.basis_eval, Approx.basis_eval]
  refine prod_congr rfl fun j hj => ?_
  rw [vecOf_map_range (mem_range.mp hk), vecOf_map_range (mem_range.mp (mem_erase.mp hj).2)]

/-- What the points have to satisfy. -/
structure Spread (n : ℕ) (p : Vec) : Prop where
  two : 2 ≤ n
  mem : ∀ i < n, p i ∈ Set.Icc (-1 : ℝ) 1
  apart : ∀ i < n, ∀ j < n, i ≠ j → 1 / 10 ^ 9 < |p i - p j|

theorem Spread.separated (h : Spread n p) : Separated n p := by
  intro i hi j hj e
  by_contra hne
  have := h.apart i hi j hj hne
  have := almost_le (abs_le.mpr (h.mem j hj)) e
  linarith

theorem Spread.injOn (h : Spread n p) : Set.InjOn p (range n) := by
  intro i hi j hj e
  by_contra hne
  have := h.apart i (by simpa using hi) j (by simpa using hj) hne
  rw [e, sub_self, abs_zero] at this
  norm_num at this

theorem colloc_curve (h : CollocOk f n m p ε g) (hp : Spread n p) (hd : f.dom.1 < f.dom.2) (hε : 0 ≤ ε) (hε' : ε ≤ Spec.step f m / (8 * (m + 2))) {M : ℝ} {φ : ℕ → ℕ → ℝ → ℝ}
    (hs : SmoothPieces f m n M φ) {L B : ℝ} {c : ℕ} (hc : c < f.codim)
    (hL : ∀ s t, f.dom.1 ≤ s → s ≤ f.dom.2 → f.dom.1 ≤ t → t ≤ f.dom.2 → |val f c s - val f c t| ≤ L * |s - t|) (hB : ∀ t, f.dom.1 ≤ t → t ≤ f.dom.2 → |val f c t| ≤ B)
    {iv : ℕ} (hiv : iv < m) {t : ℝ} (t1 : f.dom.1 ≤ t) (t2 : t ≤ f.dom.2) (h1 : f.dom.1 + iv * Spec.step f m - m * ε ≤ t) (h2 : t ≤ f.dom.1 + (iv + 1) * Spec.step f m + m * ε) :
    |curve g iv c t - val f c t| ≤ M * Spec.step f m ^ n / n.factorial +
      (n * (3 * 10 ^ 9) ^ n + n * B * (n * (3 * 10 ^ 9) ^ n * 10 ^ 9 * ((6 * m + 8) / Spec.step f m)) + L * m) * ε := by
  have hm0 : (0 : ℝ) < m := by exact_mod_cast (by omega : 0 < m)
  have hh : 0 < Spec.step f m := div_pos (by linarith) hm0
  have hw := colloc_window h hε hh hε' hiv h1 h2
  have hL0 : 0 ≤ L := by
    have := (abs_nonneg _).trans (hL f.dom.1 f.dom.2 le_rfl hd.le hd.le le_rfl)
    have : 0 < |f.dom.1 - f.dom.2| := abs_pos.mpr (by linarith)
    nlinarith
  have hB0 : 0 ≤ B := (abs_nonneg _).trans (hB f.dom.1 le_rfl hd.le)
  set H := Spec.step f m with hH
  have hgp : ∀ x, Spec.gridPoint f.dom m iv x = f.dom.1 + iv * H + (x + 1) / 2 * H := fun x => by rw [hH]; unfold Spec.gridPoint Spec.step; ring
  set s' := window (vecOf g.tau iv) (t - brk g iv) with hs'
  set s0 := window H (t - (f.dom.1 + iv * H)) with hs0
  have ht0 : t = Spec.gridPoint f.dom m iv s0 := by
    rw [hgp, hs0]; unfold window; field_simp; ring
  have hmε : 0 ≤ m * ε := by positivity
  have hε8 : (8 * (m + 2)) * ε ≤ H := by
    rw [le_div_iff₀ (by positivity)] at hε'; linarith
  -- the nearest point of the interval
  set sc := max (-1) (min 1 s0) with hsc
  have hscm : sc ∈ Set.Icc (-1 : ℝ) 1 := ⟨le_max_left _ _, max_le (by norm_num) (min_le_left _ _)⟩
  have hs0b : -1 - 2 * (m * ε) / H ≤ s0 ∧ s0 ≤ 1 + 2 * (m * ε) / H := by
    have e : t = f.dom.1 + iv * H + (s0 + 1) / 2 * H := by rw [ht0, hgp]
    have hH2 : 2 * (m * ε) / H * H = 2 * (m * ε) := by field_simp
    constructor
    · by_contra hcon
      push Not at hcon
      have := mul_lt_mul_of_pos_right hcon hh
      nlinarith
    · by_contra hcon
      push Not at hcon
      have := mul_lt_mul_of_pos_right hcon hh
      nlinarith
  have hq0 : 0 ≤ 2 * (m * ε) / H := by positivity
  have hcl : |s0 - sc| ≤ 2 * (m * ε) / H := by
    rw [hsc, abs_le]
    rcases le_total s0 (-1) with a | a
    · rw [min_eq_right (by linarith), max_eq_left a]; constructor <;> linarith [hs0b.1]
    · rcases le_total s0 1 with b | b
      · rw [min_eq_right b, max_eq_right a]; constructor <;> linarith
      · rw [min_eq_left b, max_eq_right (by norm_num)]; constructor <;> linarith [hs0b.2]
  have hs'c : |s' - sc| ≤ (6 * m + 8) / H * ε := by
    have := abs_sub_le s' s0 sc
    have e : (6 * m + 8) / H * ε = (4 * m + 8) * ε / H + 2 * (m * ε) / H := by field_simp; ring
    rw [e]; linarith
  have hlt1 : (6 * m + 8) / H * ε ≤ 1 := by
    rw [div_mul_eq_mul_div, div_le_one hh]
    nlinarith
  have hscb : |sc| ≤ 1 := abs_le.mpr hscm
  have hs'b : |s'| ≤ 2 := by
    have := abs_sub_abs_le_abs_sub s' sc
    linarith
  -- the values at the nodes
  have hnode : ∀ k < n, |val f c (Spec.gridPoint f.dom m iv (p k))| ≤ B := fun k hk => by
    obtain ⟨-, -, a, b⟩ := gridPoint_mem hd.le hiv (hp.mem k hk)
    exact hB _ a b
  have hbd : ∀ k < n, |(_root_.Lagrange.basis (range n) p k).eval s'| ≤ (3 * 10 ^ 9) ^ n ∧
      |(_root_.Lagrange.basis (range n) p k).eval s' - (_root_.Lagrange.basis (range n) p k).eval sc| ≤ n * (3 * 10 ^ 9) ^ n * 10 ^ 9 * |s' - sc| := fun k hk => by
    have := Approx.basis_bounds (η := 1 / 10 ^ 9) (by norm_num) (by norm_num) (fun j hj => abs_le.mpr (hp.mem j hj)) (fun i hi j hj hne => (hp.apart i hi j hj hne).le) hk hs'b
      (by linarith : |sc| ≤ 2)
    rw [show (3 : ℝ) / (1 / 10 ^ 9) = 3 * 10 ^ 9 by norm_num] at this
    refine ⟨this.1, this.2.trans (le_of_eq ?_)⟩
    rw [div_div_eq_mul_div, div_one]
  rw [colloc_curve_sum h, ← hs']
  set v : ℕ → ℝ := fun k => val f c (Spec.gridPoint f.dom m iv (p k)) with hv
  set A : ℝ := (3 * 10 ^ 9) ^ n with hA
  have hA0 : 0 ≤ A := by positivity
  have c1 : |∑ k ∈ range n, nodal g iv c k * (_root_.Lagrange.basis (range n) p k).eval s' - ∑ k ∈ range n, v k * (_root_.Lagrange.basis (range n) p k).eval s'| ≤ n * A * ε := by
    rw [← sum_sub_distrib]
    refine (abs_sum_le_sum_abs _ _).trans ((sum_le_sum (g := fun _ => ε * A) fun k hk => ?_).trans (le_of_eq ?_))
    · rw [← sub_mul, abs_mul]
      exact mul_le_mul (h.nodal iv hiv c hc k (mem_range.mp hk)) (hbd k (mem_range.mp hk)).1 (abs_nonneg _) hε
    · rw [sum_const, card_range, nsmul_eq_mul]; ring
  have c2 : |∑ k ∈ range n, v k * (_root_.Lagrange.basis (range n) p k).eval s' - ∑ k ∈ range n, v k * (_root_.Lagrange.basis (range n) p k).eval sc| ≤
      n * B * (n * A * 10 ^ 9 * ((6 * m + 8) / H)) * ε := by
    rw [← sum_sub_distrib]
    refine (abs_sum_le_sum_abs _ _).trans ((sum_le_sum (g := fun _ => B * (n * A * 10 ^ 9 * ((6 * m + 8) / H * ε))) fun k hk => ?_).trans (le_of_eq ?_))
    · rw [← mul_sub, abs_mul]
      exact mul_le_mul (hnode k (mem_range.mp hk)) ((hbd k (mem_range.mp hk)).2.trans (mul_le_mul_of_nonneg_left hs'c (by positivity))) (abs_nonneg _) hB0
    · rw [sum_const, card_range, nsmul_eq_mul]; ring
  have c3 : |∑ k ∈ range n, v k * (_root_.Lagrange.basis (range n) p k).eval sc - val f c (Spec.gridPoint f.dom m iv sc)| ≤ M * H ^ n / n.factorial := by
    have hag : ∀ x ∈ Set.Icc (-1 : ℝ) 1, val f c (Spec.gridPoint f.dom m iv x) = φ iv c (f.dom.1 + iv * H + (x + 1) / 2 * H) := fun x hx => by
      obtain ⟨a, b, -, -⟩ := gridPoint_mem hd.le hiv hx
      rw [hs.agrees iv hiv c hc _ a b, hgp]
    rw [hag sc hscm, sum_congr rfl fun k hk => congrArg (· * _) (hag _ (hp.mem k (mem_range.mp hk)))]
    refine Approx.interpolation_error (hs.smooth iv hiv c hc) hp.injOn hp.mem (by have := hp.two; omega) hh (fun x hx => ?_) hscm
    refine hs.bound iv hiv c hc x ?_ ?_
    · rw [hgp]; linarith [hx.1]
    · rw [hgp]; linarith [hx.2]
  have c4 : |val f c (Spec.gridPoint f.dom m iv sc) - val f c t| ≤ L * m * ε := by
    obtain ⟨-, -, a, b⟩ := gridPoint_mem hd.le hiv hscm
    refine (hL _ _ a b t1 t2).trans ?_
    rw [mul_assoc]
    refine mul_le_mul_of_nonneg_left ?_ hL0
    conv_lhs => rw [ht0]
    rw [hgp, hgp, show f.dom.1 + iv * H + (sc + 1) / 2 * H - (f.dom.1 + iv * H + (s0 + 1) / 2 * H) = -((s0 - sc) * (H / 2)) by ring, abs_neg, abs_mul, abs_of_pos (by linarith : 0 < H / 2)]
    calc _ ≤ 2 * (m * ε) / H * (H / 2) := mul_le_mul_of_nonneg_right hcl (by linarith)
      _ = m * ε := by field_simp
  have t3 := abs_sub_le (∑ k ∈ range n, nodal g iv c k * (_root_.Lagrange.basis (range n) p k).eval s') (∑ k ∈ range n, v k * (_root_.Lagrange.basis (range n) p k).eval s') (val f c t)
  have t4 := abs_sub_le (∑ k ∈ range n, v k * (_root_.Lagrange.basis (range n) p k).eval s') (∑ k ∈ range n, v k * (_root_.Lagrange.basis (range n) p k).eval sc) (val f c t)
  have t5 := abs_sub_le (∑ k ∈ range n, v k * (_root_.Lagrange.basis (range n) p k).eval sc) (val f c (Spec.gridPoint f.dom m iv sc)) (val f c t)
  nlinarith

theorem colloc_located (h : CollocOk f n m p ε g) (hε : 0 ≤ ε) (hh : 0 < Spec.step f m) {t : ℝ} (t1 : f.dom.1 ≤ t) (t2 : t ≤ f.dom.2) {iv : ℕ} (hl : Located g t iv) :
    iv < m ∧ f.dom.1 + iv * Spec.step f m - m * ε ≤ t ∧ t ≤ f.dom.1 + (iv + 1) * Spec.step f m + m * ε := by
  obtain ⟨hiv, hl⟩ := hl
  rw [h.len] at hiv hl
  have hmε : 0 ≤ m * ε := by positivity
  have e2 : f.dom.2 = f.dom.1 + m * Spec.step f m := by
    have : (m : ℝ) ≠ 0 := by exact_mod_cast (by omega : m ≠ 0)
    unfold Spec.step; field_simp; ring
  refine ⟨hiv, ?_⟩
  rcases hl with ⟨a, rfl⟩ | ⟨a, b⟩ | ⟨a, b⟩
  · have : brk g 0 = f.dom.1 := by rw [← h.dom]; simp [brk]
    simp only [Nat.cast_zero, zero_mul, zero_add, one_mul, add_zero]
    exact ⟨by linarith, by linarith⟩
  · have b1 := (abs_le.mp (colloc_brk h hiv.le hε)).1
    have b2 := (abs_le.mp (colloc_brk h (i := iv + 1) hiv hε)).2
    push_cast at b2
    exact ⟨by linarith, by linarith⟩
  · have b1 := (abs_le.mp (colloc_brk h le_rfl hε)).1
    have b2 : (m : ℝ) = iv + 1 := by exact_mod_cast b.symm
    rw [b2] at b1 e2
    exact ⟨by rw [b2]; nlinarith, by rw [b2] at hmε ⊢; linarith⟩

/-- The value of the computed spline, in exact arithmetic. -/
theorem colloc_value (h : CollocOk f n m p ε g) (hp : Spread n p) (hd : f.dom.1 < f.dom.2) (hm : 0 < m) (hε : 0 ≤ ε) (hε' : ε ≤ Spec.step f m / (8 * (m + 2))) {M : ℝ}
    {φ : ℕ → ℕ → ℝ → ℝ} (hs : SmoothPieces f m n M φ) {L B : ℝ}
    (hL : ∀ c < f.codim, ∀ s t, f.dom.1 ≤ s → s ≤ f.dom.2 → f.dom.1 ≤ t → t ≤ f.dom.2 → |val f c s - val f c t| ≤ L * |s - t|)
    (hB : ∀ c < f.codim, ∀ t, f.dom.1 ≤ t → t ≤ f.dom.2 → |val f c t| ≤ B) {t : ℝ} (t1 : f.dom.1 ≤ t) (t2 : t ≤ f.dom.2) :
    ∃ v, g.value t = .ok v ∧ v.length = f.codim ∧ ∀ c < f.codim, |vecOf v c - val f c t| ≤ M * Spec.step f m ^ n / n.factorial + 1 / 10 ^ 9 * L * Spec.step f m / 2 +
      ((n * (3 * 10 ^ 9) ^ n + n * B * (n * (3 * 10 ^ 9) ^ n * 10 ^ 9 * ((6 * m + 8) / Spec.step f m)) + L * m) + (L * (2 * m + 4) + 1)) * ε := by
  have hm0 : (0 : ℝ) < m := by exact_mod_cast hm
  have hh : 0 < Spec.step f m := div_pos (by linarith) hm0
  have hεh : ε < Spec.step f m := by
    refine hε'.trans_lt (div_lt_self hh ?_)
    linarith
  have hpos := colloc_positive h hm hεh
  obtain ⟨iv, hl, -⟩ := C11_interval_unique g hpos t
  obtain ⟨hiv, l1, l2⟩ := colloc_located h hε hh t1 t2 hl
  have hL0 : ∀ c < f.codim, 0 ≤ L := fun c hc => by
    have := (abs_nonneg _).trans (hL c hc f.dom.1 f.dom.2 le_rfl hd.le hd.le le_rfl)
    have : 0 < |f.dom.1 - f.dom.2| := abs_pos.mpr (by linarith)
    nlinarith
  have hB0 : ∀ c < f.codim, 0 ≤ B := fun c hc => (abs_nonneg _).trans (hB c hc f.dom.1 le_rfl hd.le)
  have hM0 : ∀ c < f.codim, 0 ≤ M := fun c hc => by
    refine (abs_nonneg _).trans (hs.bound 0 hm c hc (Spec.gridPoint f.dom m 0 (-1)) le_rfl ?_)
    exact (gridPoint_mem hd.le hm ⟨by norm_num, le_rfl⟩).1
  by_cases hnear : ∃ k < n, Lagrange.almostEqual (window (vecOf g.tau iv) (t - brk g iv)) (p k) tol9 = true
  · obtain ⟨k, hk, hkn, hv⟩ := C47_near_node g n p h.basis h.con hpos t iv hl hnear
    refine ⟨_, hv, by simp [nodalRow, h.codim], fun c hc => ?_⟩
    have e : vecOf (nodalRow g iv k) c = nodal g iv c k := by
      unfold nodalRow
      rw [h.codim, vecOf_map_range hc]
    rw [e]
    have a1 := h.nodal iv hiv c hc k hk
    have hw := colloc_window h hε hh hε' hiv l1 l2
    have a2 := almost_le (abs_le.mpr (hp.mem k hk)) hkn
    set H := Spec.step f m with hH
    have hgp : ∀ x, Spec.gridPoint f.dom m iv x = f.dom.1 + iv * H + (x + 1) / 2 * H := fun x => by rw [hH]; unfold Spec.gridPoint Spec.step; ring
    set s' := window (vecOf g.tau iv) (t - brk g iv) with hs'
    set s0 := window H (t - (f.dom.1 + iv * H)) with hs0
    have ht0 : t = Spec.gridPoint f.dom m iv s0 := by
      rw [hgp, hs0]; unfold window; field_simp; ring
    obtain ⟨-, -, a, b⟩ := gridPoint_mem hd.le hiv (hp.mem k hk)
    have a3 := hL c hc _ _ a b t1 t2
    have a4 : |Spec.gridPoint f.dom m iv (p k) - t| ≤ (2 * m + 4) * ε + 1 / 10 ^ 9 * H / 2 := by
      conv_lhs => rw [ht0]
      rw [hgp, hgp, show f.dom.1 + iv * H + (p k + 1) / 2 * H - (f.dom.1 + iv * H + (s0 + 1) / 2 * H) = ((s' - s0) - (s' - p k)) * (H / 2) by ring, abs_mul,
        abs_of_pos (by linarith : 0 < H / 2)]
      have := (abs_sub (s' - s0) (s' - p k)).trans (add_le_add hw a2)
      calc _ ≤ ((4 * m + 8) * ε / H + 1 / 10 ^ 9) * (H / 2) := mul_le_mul_of_nonneg_right this (by linarith)
        _ = _ := by field_simp; ring
    have a5 := mul_le_mul_of_nonneg_left a4 (hL0 c hc)
    have t3 := abs_sub_le (nodal g iv c k) (val f c (Spec.gridPoint f.dom m iv (p k))) (val f c t)
    have r1 : 0 ≤ M * H ^ n / n.factorial := div_nonneg (mul_nonneg (hM0 c hc) (by positivity)) (by positivity)
    have r2 : 0 ≤ (n * (3 * 10 ^ 9) ^ n + n * B * (n * (3 * 10 ^ 9) ^ n * 10 ^ 9 * ((6 * m + 8) / H)) + L * m) * ε := by
      have := hB0 c hc
      have := hL0 c hc
      positivity
    nlinarith
  · have hclean : g.basis.CleanAt (window (vecOf g.tau iv) (t - brk g iv)) := by
      rw [h.basis]
      intro j hj e
      simp only [List.length_map, List.length_range] at hj
      rw [vecOf_map_range hj] at e
      exact absurd ⟨j, hj, e⟩ hnear
    obtain ⟨v, hv, hlen, hcv⟩ := C12_value g (by rw [h.basis]; exact valid_nodes hp.separated) h.con hpos t iv hl hclean
    refine ⟨v, hv, by rw [hlen, h.codim], fun c hc => ?_⟩
    have e : vecOf v c = curve g iv c t := by
      unfold vecOf
      rw [List.getD_eq_getElem?_getD, hcv c (by rw [h.codim]; exact hc)]; rfl
    rw [e]
    have := colloc_curve h hp hd hε hε' hs hc (hL c hc) (hB c hc) hiv t1 t2 l1 l2
    have r1 : 0 ≤ 1 / 10 ^ 9 * L * Spec.step f m / 2 := by
      have := hL0 c hc
      positivity
    have r2 : 0 ≤ (L * (2 * m + 4) + 1) * ε := by
      have := hL0 c hc
      positivity
    linarith

/-- The runs of the collocation. -/
theorem colloc_run (hg : Good f) (hst : ∀ t, f.dom.1 ≤ t → t ≤ f.dom.2 → Calm f t) (hd : f.dom.1 < f.dom.2) (h2 : 2 ≤ n) (hm : 0 < m) {r : Vec} (hr : Arr n r)
    (hq : ∀ i < n, (qPoly (n - 1)).eval (r i) = 0) :
    ∃ C ≥ (0 : ℝ), ∃ δ > (0 : ℝ), ∀ u, Small u δ → ∀ jp jw junk o, Rounded.approximate u f n m jp jw junk o → ∃ g x, o = .ok g ∧ CollocOk f n m x (C * Nd.sz u) g ∧
      C * Nd.sz u ≤ Spec.step f m / (8 * (m + 2)) ∧ (∀ i < n, x i ∈ Set.Icc (-1 : ℝ) 1) ∧ (n ≤ 44000 → Spread n x) ∧
        ∀ i < n, |x i - r i| ≤ (1 / 10 ^ 9 + C * Nd.sz u) * |x i| := by
  have hnu := nu_pos (n - 1)
  have hm0 : (0 : ℝ) < m := by exact_mod_cast hm
  have hh : 0 < Spec.step f m := div_pos (by linarith) hm0
  obtain ⟨C1, hC1, δ1, hδ1, H1⟩ := Rounded.pointsWeights_rate h2 hr hq
  obtain ⟨C2, hC2, δ2, hδ2, H2⟩ := Rounded.collocGiven_uniform hg (n := n) hm hd.le hst
  set C := C1 + C2 with hC
  have hC0 : 0 ≤ C := add_nonneg hC1 hC2
  set e0 := min (min (1 / 10 ^ 11) (2 / nu (n - 1) ^ 2)) (Spec.step f m / (8 * (m + 2))) with he0
  have he0p : 0 < e0 := lt_min (lt_min (by norm_num) (by positivity)) (by positivity)
  refine ⟨C, hC0, min (min δ1 δ2) (e0 / (3 * (C + 1))), lt_min (lt_min hδ1 hδ2) (by positivity), fun u hu jp jw junk o ho => ?_⟩
  have u1 := Nd.small_mono ((min_le_left _ _).trans (min_le_left _ _)) hu
  have u2 := Nd.small_mono ((min_le_left _ _).trans (min_le_right _ _)) hu
  have hz0 := Nd.sz_nonneg hu
  have hsmall : C * Nd.sz u < e0 := by
    have b := (Nd.sz_le hu).trans (mul_le_mul_of_nonneg_left (min_le_right _ _) (by norm_num : (0 : ℝ) ≤ 2))
    have b' := mul_le_mul_of_nonneg_left b (by linarith : 0 ≤ C + 1)
    rw [show (C + 1) * (2 * (e0 / (3 * (C + 1)))) = 2 / 3 * e0 by field_simp] at b'
    nlinarith
  have hle1 : C1 * Nd.sz u ≤ C * Nd.sz u := mul_le_mul_of_nonneg_right (by linarith) hz0
  have hle2 : C2 * Nd.sz u ≤ C * Nd.sz u := mul_le_mul_of_nonneg_right (by linarith) hz0
  rcases ho with ⟨e, he, -⟩ | ⟨a, ha, ho⟩
  · rcases H1 u u1 e0 (hle1.trans_lt hsmall) jp jw _ he with ⟨_, h, _⟩ | ⟨a, -, ha⟩
    · exact h.elim
    · cases ha
  have hpw : ∀ e, C1 * Nd.sz u < e → Rounded.PwOk n r e a.1 a.2 := by
    intro e he
    rcases H1 u u1 e he jp jw _ ha with ⟨_, h, _⟩ | ⟨a', hpw, haa⟩
    · exact h.elim
    · cases haa
      exact hpw
  obtain ⟨z, hA, hzr, hz⟩ := (hpw e0 (hle1.trans_lt hsmall)).arr h2 he0p hr
  have hmem := points_mem h2 (hpw e0 (hle1.trans_lt hsmall)) hA ((min_le_left _ _).trans (min_le_right _ _)) fun i hi => (hz i hi).1
  obtain ⟨g, rfl, hco⟩ := H2 a.1 hmem u u2 junk o ho
  refine ⟨g, a.1, rfl, ⟨hco.dom, hco.codim, hco.basis, hco.len, hco.con, fun i hi => (hco.tau i hi).trans hle2, fun iv hiv c hc k hk => (hco.nodal iv hiv c hc k hk).trans hle2⟩,
    hsmall.le.trans (min_le_right _ _), hmem, fun hn => ⟨h2, hmem, ?_⟩, fun i hi => ?_⟩
  · have key : ∀ i j, i < j → j < n → 1 / 10 ^ 9 < |a.1 i - a.1 j| := by
      intro i j hij hj
      have g1 := hA.lt hij hj
      have g2 := (hz i (by omega)).1
      have g3 := (hz j hj).1
      have g4 : e0 ≤ 1 / 10 ^ 11 := (min_le_left _ _).trans (min_le_left _ _)
      have gap : (103 : ℝ) / 10 ^ 11 ≤ 2 / nu (n - 1) ^ 2 := by
        rw [nu_eq h2]
        have a : (n : ℝ) ≤ 44000 := by exact_mod_cast hn
        have b : (2 : ℝ) ≤ n := by exact_mod_cast h2
        rw [div_le_div_iff₀ (by norm_num) (by nlinarith)]
        nlinarith
      have := neg_abs_le (a.1 i - a.1 j)
      have := (abs_le.mp g2).2
      have := (abs_le.mp g3).1
      norm_num at *
      linarith
    intro i hi j hj hne
    rcases Nat.lt_or_gt_of_ne hne with c | c
    · exact key i j c hj
    · rw [abs_sub_comm]; exact key j i c hi
  · have := le_of_tolerance (a := |a.1 i - r i|) (b := 1 / 10 ^ 9 * |a.1 i|) (c := C1 * Nd.sz u) (K := |a.1 i|) (e0 := e0) (abs_nonneg _) (hle1.trans_lt hsmall) fun e he _ => by
      have hep : 0 < e := lt_of_le_of_lt (mul_nonneg hC1 hz0) he
      obtain ⟨z, -, -, hz⟩ := (hpw e he).arr h2 hep hr
      have := (hz i hi).2.2.1
      unfold tol9 at this
      linarith
    have := mul_le_mul_of_nonneg_left hle1 (abs_nonneg (a.1 i))
    linarith

end

/-- **C101.** The result of exact arithmetic is among the possible ones. -/
theorem C101_exact (u : ℝ × ℝ) (h1 : 0 ≤ u.1) (h2 : 0 ≤ u.2) (f : Fn) (hg : Good f) (n m : ℕ) (jp jw junk : Vec) (g : GSpline)
    (h : Colloc.approximate f n m jp jw junk = .ok g) : Rounded.approximate u f n m jp jw junk (.ok g) := by
  unfold Colloc.approximate at h
  cases hpw : pointsWeights n jp jw with
  | error e => rw [hpw] at h; cases h
  | ok a =>
    rw [hpw, GLL.ok_bind] at h
    have hn : 2 ≤ n := points_two hpw
    have hrun : ∀ T : ℕ → ℝ, f.run f.codim ((List.range n).map T) = .ok (((List.range n).map T).map (vals f)) := fun T => by
      refine (C10_row_wise f _ _ (by simp; omega)).mpr ?_
      rw [List.forall₂_map_right_iff, List.forall₂_same]
      exact fun t _ => tot_of_good hg t
    refine Rounded.Has.bind (a := a) (Rounded.pointsWeights_has h1 h2 hpw) ?_
    unfold Rounded.collocGiven
    dsimp only at h
    have hmk : ∀ co tau, Colloc.mk f.dom f.codim m n co tau jp jw = GSpline.make f.dom f.codim m (.lagrange ((List.range n).map a.1)) co tau := fun co tau => by
      unfold Colloc.mk Colloc.glBasis
      rw [hpw]; rfl
    split_ifs with hm
    · subst hm
      change Colloc.mk f.dom f.codim 0 n _ _ jp jw = _ at h
      rw [hmk] at h
      change Except.ok g = _
      rw [← h]
      rfl
    set len := (f.dom.2 - f.dom.1) / m with hlen
    have key : ∀ j, ∃ co, forLoopM 0 j (fun iv v => do
        let left := f.dom.1 + iv * len
        let rows ← f.run f.codim ((List.range n).map fun k => (a.1 k + 1) * len / 2 + left)
        return Colloc.storeBlock n f.codim iv rows v) junk = .ok co ∧ Rounded.Has (Nd.loop 0 j (Rounded.collocStep u f n len a.1) junk) co := by
      intro j
      induction j with
      | zero => exact ⟨junk, rfl, Rounded.Has.pure _⟩
      | succ j ih =>
        obtain ⟨co, e1, e2⟩ := ih
        refine ⟨Colloc.storeBlock n f.codim j (((List.range n).map fun k => (a.1 k + 1) * len / 2 + (f.dom.1 + j * len)).map (vals f)) co, ?_, ?_⟩
        · rw [Colloc.forLoopM_succ, e1, GLL.ok_bind]
          dsimp only
          rw [hrun, GLL.ok_bind]; rfl
        · rw [Nd.loop_succ]
          exact Rounded.Has.bind e2 (Rounded.Has.bind (Rounded.cellRows_has h1 h2 hg n len a.1 j) (Rounded.Has.pure _))
    obtain ⟨co, e1, e2⟩ := key m
    dsimp only at e1
    rw [e1, GLL.ok_bind, hmk] at h
    refine Rounded.Has.bind (Rounded.Has.near h1 h2 _) (Rounded.Has.bind (Rounded.Has.quot h1 h2 _ (by exact_mod_cast hm)) (Rounded.Has.bind e2
      (Rounded.Has.bind (a := List.replicate m len) ?_ ?_)))
    · have := Rounded.Has.mapM (l := List.replicate m (1 * len)) (f := Nd.near u) (g := id) fun x _ => Rounded.Has.near h1 h2 x
      rw [List.map_id] at this
      simpa only [one_mul] using this
    · change Except.ok g = _
      rw [← h]

/-- **C101.** There are constants `C` and `δ > 0` such that for errors below `δ` every run returns a spline with the domain of `f`, `m` intervals whose lengths are those of an equal
division up to `C` times the size of the rounding errors, the Lagrange basis at points that are as close to the Gauss-Lobatto points as those of `C100_points`, and stored values that
are those of `f` at these points, up to `C` times the size of the rounding errors. -/
theorem C101_nodes (f : Fn) (hg : Good f) (hst : ∀ t, f.dom.1 ≤ t → t ≤ f.dom.2 → Calm f t) (hd : f.dom.1 < f.dom.2) (n m : ℕ) (h2 : 2 ≤ n) (hm : 0 < m) :
    ∃ r : Vec, (∀ i j, i < j → j < n → r i < r j) ∧ (∀ x : ℝ, (1 - x ^ 2) * (derivative (legendre (n - 1))).eval x = 0 ↔ ∃ i < n, x = r i) ∧
      ∃ C δ, 0 < δ ∧ ∀ u, Small u δ → ∀ jp jw junk o, Rounded.approximate u f n m jp jw junk o → ∃ g x, o = .ok g ∧ Consistent g ∧ g.dom = f.dom ∧ g.codim = f.codim ∧
        g.basis = .lagrange ((List.range n).map x) ∧ (∀ i < n, |x i - r i| ≤ (1 / 10 ^ 9 + C * (u.1 + u.2)) * |x i|) ∧
        g.tau.length = m ∧ (∀ i < m, |vecOf g.tau i - (f.dom.2 - f.dom.1) / m| ≤ C * (u.1 + u.2)) ∧
        ∀ iv < m, ∀ c < f.codim, ∀ k < n, |nodal g iv c k - val f c (Spec.gridPoint f.dom m iv (x k))| ≤ C * (u.1 + u.2) := by
  obtain ⟨r, hr, hq⟩ := exact_points h2
  refine ⟨r, fun i j hij hj => ?_, zeros_iff hr hq, ?_⟩
  · have := hr.lt hij hj
    have hpos : 0 < 2 / nu (n - 1) ^ 2 := by have := nu_pos (n - 1); positivity
    linarith
  obtain ⟨C, -, δ, hδ, H⟩ := colloc_run hg hst hd h2 hm hr hq
  refine ⟨C, δ, hδ, fun u hu jp jw junk o ho => ?_⟩
  obtain ⟨g, x, e, h, -, -, -, hx⟩ := H u hu jp jw junk o ho
  exact ⟨g, x, e, h.con, h.dom, h.codim, h.basis, hx, h.len, h.tau, h.nodal⟩

/-- **C101**, between the points: if `f` is `n` times continuously differentiable on each interval, then the returned spline is everywhere as close to `f` as the one of exact arithmetic
is (C82), up to `C` times the size of the rounding errors. -/
theorem C101_value (f : Fn) (hg : Good f) (hst : ∀ t, f.dom.1 ≤ t → t ≤ f.dom.2 → Calm f t) (hd : f.dom.1 < f.dom.2) (n m : ℕ) (h2 : 2 ≤ n) (hn : n ≤ 44000) (hm : 0 < m)
    (M : ℝ) (φ : ℕ → ℕ → ℝ → ℝ) (hs : SmoothPieces f m n M φ) (L : ℝ)
    (hL : ∀ c < f.codim, ∀ s t, f.dom.1 ≤ s → s ≤ f.dom.2 → f.dom.1 ≤ t → t ≤ f.dom.2 → |val f c s - val f c t| ≤ L * |s - t|) :
    ∃ C δ, 0 < δ ∧ ∀ u, Small u δ → ∀ jp jw junk o, Rounded.approximate u f n m jp jw junk o → ∃ g, o = .ok g ∧
      ∀ t, f.dom.1 ≤ t → t ≤ f.dom.2 → ∃ v, g.value t = .ok v ∧ v.length = f.codim ∧
        ∀ c < f.codim, |vecOf v c - val f c t| ≤ M * Spec.step f m ^ n / n.factorial + 1 / 10 ^ 9 * L * Spec.step f m / 2 + C * (u.1 + u.2) := by
  obtain ⟨r, hr, hq⟩ := exact_points h2
  obtain ⟨C, hC, δ, hδ, H⟩ := colloc_run hg hst hd h2 hm hr hq
  set B := ∑ c ∈ range f.codim, |val f c f.dom.1| + |L| * (f.dom.2 - f.dom.1) with hB
  refine ⟨((n * (3 * 10 ^ 9) ^ n + n * B * (n * (3 * 10 ^ 9) ^ n * 10 ^ 9 * ((6 * m + 8) / Spec.step f m)) + L * m) + (L * (2 * m + 4) + 1)) * C, δ, hδ, fun u hu jp jw junk o ho => ?_⟩
  obtain ⟨g, x, e, h, hle, -, hsp, -⟩ := H u hu jp jw junk o ho
  refine ⟨g, e, fun t t1 t2 => ?_⟩
  rw [mul_assoc _ C]
  exact colloc_value (B := B) h (hsp hn) hd hm (mul_nonneg hC (Nd.sz_nonneg hu)) hle hs hL (fun c hc t t1 t2 => by
    have a1 := hL c hc t f.dom.1 t1 t2 le_rfl hd.le
    have a2 : |val f c f.dom.1| ≤ ∑ c ∈ range f.codim, |val f c f.dom.1| := single_le_sum (f := fun c => |val f c f.dom.1|) (fun _ _ => abs_nonneg _) (mem_range.mpr hc)
    have a3 := abs_sub_abs_le_abs_sub (val f c t) (val f c f.dom.1)
    have a4 : L * |t - f.dom.1| ≤ |L| * (f.dom.2 - f.dom.1) := by
      rw [abs_of_nonneg (by linarith : 0 ≤ t - f.dom.1)]
      exact mul_le_mul (le_abs_self L) (by linarith) (by linarith) (abs_nonneg L)
    linarith) t1 t2

/-! ## Cases -/

/-- The exponential function on `[0, 1]`, ten intervals with five nodes. -/
example : ∃ C δ, 0 < δ ∧ ∀ u, Small u δ → ∀ jp jw junk o, Rounded.approximate u (Fn.exp (0, 1)) 5 10 jp jw junk o →
    ∃ g, o = .ok g ∧ ∀ t, 0 ≤ t → t ≤ 1 → ∃ v, g.value t = .ok v ∧ |vecOf v 0 - Real.exp t| ≤ 1 / 10 ^ 6 + C * (u.1 + u.2) := by
  have hc : ∀ c < (Fn.exp (0, 1)).codim, c = 0 := fun c hc => by simpa [codim] using hc
  obtain ⟨C, δ, hδ, h⟩ := C101_value (Fn.exp (0, 1)) (.exp _) (fun t _ _ => .exp _ t) (by norm_num [dom]) 5 10 (by norm_num) (by norm_num) (by norm_num) 3 _
    (exp_pieces 10 5) 3 (fun c h s t _ a _ b => by rw [hc c h, exp_val, exp_val]; exact exp_lip a b)
  refine ⟨C, δ, hδ, fun u hu jp jw junk o ho => ?_⟩
  obtain ⟨g, e, b⟩ := h u hu jp jw junk o ho
  refine ⟨g, e, fun t t1 t2 => ?_⟩
  obtain ⟨v, hv, -, b⟩ := b t t1 t2
  refine ⟨v, hv, ?_⟩
  have := b 0 (by norm_num [codim])
  rw [exp_val] at this
  refine this.trans (add_le_add_left ?_ _)
  norm_num [Spec.step, dom, Nat.factorial]

/-- There are runs. -/
example (u : ℝ × ℝ) (h1 : 0 ≤ u.1) (h2 : 0 ≤ u.2) (jp jw junk : Vec) : ∃ g, Rounded.approximate u (Fn.exp (0, 1)) 5 10 jp jw junk (.ok g) := by
  obtain ⟨p, w, g, -, hg, -⟩ := C47_collocation (Fn.exp (0, 1)) 5 10 (by norm_num) (by norm_num) jp jw junk (by norm_num [dom]) (fun t _ _ => ⟨_, exp_call _ _⟩)
  exact ⟨g, C101_exact u h1 h2 _ (.exp _) 5 10 jp jw junk g hg⟩

end GSplines.Props
