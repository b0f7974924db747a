import Verif.Proofs.RateLagrange
import Verif.Props.RateColloc

/-!
# C102: collocation and evaluation, both with rounding errors

The function is approximated with rounding errors (C101) and the result is then evaluated with rounding errors. The nodes, the lengths of the intervals and the coefficients of the
spline are therefore not exact, and the comparison of the point with the nodes and with the ends of the intervals may have either result near them.
-/

namespace GSplines.Props

open GSplines Spec Fn GLL Finset Polynomial Rounded

section

variable {f : Fn} {n m : ℕ} {p : Vec} {ε : ℝ} {g : GSpline}

theorem window_bounds {H a t e : ℝ} (hh : 0 < H) (h1 : a - e ≤ t) (h2 : t ≤ a + H + e) : -1 - 2 * e / H ≤ window H (t - a) ∧ window H (t - a) ≤ 1 + 2 * e / H := by
  unfold window
  have e1 : -1 - 2 * e / H = 2 * -e / H - 1 := by ring
  have e2 : 1 + 2 * e / H = 2 * (H + e) / H - 1 := by field_simp; ring
  rw [e1, e2]
  constructor
  · have := div_le_div_of_nonneg_right (show 2 * -e ≤ 2 * (t - a) by linarith) hh.le
    linarith
  · have := div_le_div_of_nonneg_right (show 2 * (t - a) ≤ 2 * (H + e) by linarith) hh.le
    linarith

/-- The polynomial through values near those of `f`, at a point near that of `t`. -/
theorem piece_error (hp : Spread n p) (hd : f.dom.1 < f.dom.2) {M : ℝ} {φ : ℕ → ℕ → ℝ → ℝ} (hs : SmoothPieces f m n M φ) {L B : ℝ} {c : ℕ} (hc : c < f.codim)
    (hL : ∀ s t, f.dom.1 ≤ s → s ≤ f.dom.2 → f.dom.1 ≤ t → t ≤ f.dom.2 → |val f c s - val f c t| ≤ L * |s - t|) (hB : ∀ t, f.dom.1 ≤ t → t ≤ f.dom.2 → |val f c t| ≤ B)
    {iv : ℕ} (hiv : iv < m) {t : ℝ} (t1 : f.dom.1 ≤ t) (t2 : t ≤ f.dom.2) {e κ s' : ℝ} (he : 0 ≤ e) (h1 : f.dom.1 + iv * Spec.step f m - e ≤ t)
    (h2 : t ≤ f.dom.1 + (iv + 1) * Spec.step f m + e) (hs' : |s' - window (Spec.step f m) (t - (f.dom.1 + iv * Spec.step f m))| ≤ κ) (hκ : κ + 2 * e / Spec.step f m ≤ 1)
    {w : ℕ → ℝ} (hε : 0 ≤ ε) (hw : ∀ k < n, |w k - val f c (Spec.gridPoint f.dom m iv (p k))| ≤ ε) :
    |∑ k ∈ range n, w k * (_root_.Lagrange.basis (range n) p k).eval s' - val f c t| ≤ M * Spec.step f m ^ n / n.factorial +
      (n * (3 * 10 ^ 9) ^ n * ε + n * B * (n * (3 * 10 ^ 9) ^ n * 10 ^ 9 * (κ + 2 * e / Spec.step f m)) + L * e) := by
  have hm0 : (0 : ℝ) < m := by exact_mod_cast (by omega : 0 < m)
  have hh : 0 < Spec.step f m := div_pos (by linarith) hm0
  have hL0 : 0 ≤ L := by
    have := (abs_nonneg _).trans (hL f.dom.1 f.dom.2 le_rfl hd.le hd.le le_rfl)
    have : 0 < |f.dom.1 - f.dom.2| := abs_pos.mpr (by linarith)
    nlinarith
  have hB0 : 0 ≤ B := (abs_nonneg _).trans (hB f.dom.1 le_rfl hd.le)
  set H := Spec.step f m with hH
  have hgp : ∀ x, Spec.gridPoint f.dom m iv x = f.dom.1 + iv * H + (x + 1) / 2 * H := fun x => by rw [hH]; unfold Spec.gridPoint Spec.step; ring
  set s0 := window H (t - (f.dom.1 + iv * H)) with hs0
  have ht0 : t = Spec.gridPoint f.dom m iv s0 := by
    rw [hgp, hs0]; unfold window; field_simp; ring
  -- the nearest point of the interval
  set sc := max (-1) (min 1 s0) with hsc
  have hscm : sc ∈ Set.Icc (-1 : ℝ) 1 := ⟨le_max_left _ _, max_le (by norm_num) (min_le_left _ _)⟩
  have hs0b : -1 - 2 * e / H ≤ s0 ∧ s0 ≤ 1 + 2 * e / H := window_bounds hh h1 (by linarith)
  have hq0 : 0 ≤ 2 * e / H := by positivity
  have hcl : |s0 - sc| ≤ 2 * e / H := by
    rw [hsc, abs_le]
    rcases le_total s0 (-1) with a | a
    · rw [min_eq_right (by linarith), max_eq_left a]; constructor <;> linarith [hs0b.1]
    · rcases le_total s0 1 with b | b
      · rw [min_eq_right b, max_eq_right a]; constructor <;> linarith
      · rw [min_eq_left b, max_eq_right (by norm_num)]; constructor <;> linarith [hs0b.2]
  have hs'c : |s' - sc| ≤ κ + 2 * e / H := by
    have := abs_sub_le s' s0 sc
    linarith
  have hscb : |sc| ≤ 1 := abs_le.mpr hscm
  have hs'b : |s'| ≤ 2 := by
    have := abs_sub_abs_le_abs_sub s' sc
    linarith
  -- the values at the nodes
  have hnode : ∀ k < n, |val f c (Spec.gridPoint f.dom m iv (p k))| ≤ B := fun k hk => by
    obtain ⟨-, -, a, b⟩ := gridPoint_mem hd.le hiv (hp.mem k hk)
    exact hB _ a b
  have hbd : ∀ k < n, |(_root_.Lagrange.basis (range n) p k).eval s'| ≤ (3 * 10 ^ 9) ^ n ∧
      |(_root_.Lagrange.basis (range n) p k).eval s' - (_root_.Lagrange.basis (range n) p k).eval sc| ≤ n * (3 * 10 ^ 9) ^ n * 10 ^ 9 * |s' - sc| := fun k hk => by
    have := Approx.basis_bounds (η := 1 / 10 ^ 9) (by norm_num) (by norm_num) (fun j hj => abs_le.mpr (hp.mem j hj)) (fun i hi j hj hne => (hp.apart i hi j hj hne).le) hk hs'b
      (by linarith : |sc| ≤ 2)
    rw [show (3 : ℝ) / (1 / 10 ^ 9) = 3 * 10 ^ 9 by norm_num] at this
    refine ⟨this.1, this.2.trans (le_of_eq ?_)⟩
    rw [div_div_eq_mul_div, div_one]
  set v : ℕ → ℝ := fun k => val f c (Spec.gridPoint f.dom m iv (p k)) with hv
  set A : ℝ := (3 * 10 ^ 9) ^ n with hA
  have hA0 : 0 ≤ A := by positivity
  have c1 : |∑ k ∈ range n, w k * (_root_.Lagrange.basis (range n) p k).eval s' - ∑ k ∈ range n, v k * (_root_.Lagrange.basis (range n) p k).eval s'| ≤ n * A * ε := by
    rw [← sum_sub_distrib]
    refine (abs_sum_le_sum_abs _ _).trans ((sum_le_sum (g := fun _ => ε * A) fun k hk => ?_).trans (le_of_eq ?_))
    · rw [← sub_mul, abs_mul]
      exact mul_le_mul (hw k (mem_range.mp hk)) (hbd k (mem_range.mp hk)).1 (abs_nonneg _) hε
    · rw [sum_const, card_range, nsmul_eq_mul]; ring
  have c2 : |∑ k ∈ range n, v k * (_root_.Lagrange.basis (range n) p k).eval s' - ∑ k ∈ range n, v k * (_root_.Lagrange.basis (range n) p k).eval sc| ≤
      n * B * (n * A * 10 ^ 9 * (κ + 2 * e / H)) := by
    rw [← sum_sub_distrib]
    refine (abs_sum_le_sum_abs _ _).trans ((sum_le_sum (g := fun _ => B * (n * A * 10 ^ 9 * (κ + 2 * e / H))) fun k hk => ?_).trans (le_of_eq ?_))
    · rw [← mul_sub, abs_mul]
      exact mul_le_mul (hnode k (mem_range.mp hk)) ((hbd k (mem_range.mp hk)).2.trans (mul_le_mul_of_nonneg_left hs'c (by positivity))) (abs_nonneg _) hB0
    · rw [sum_const, card_range, nsmul_eq_mul]; ring
  have c3 : |∑ k ∈ range n, v k * (_root_.Lagrange.basis (range n) p k).eval sc - val f c (Spec.gridPoint f.dom m iv sc)| ≤ M * H ^ n / n.factorial := by
    have hag : ∀ x ∈ Set.Icc (-1 : ℝ) 1, val f c (Spec.gridPoint f.dom m iv x) = φ iv c (f.dom.1 + iv * H + (x + 1) / 2 * H) := fun x hx => by
      obtain ⟨a, b, -, -⟩ := gridPoint_mem hd.le hiv hx
      rw [hs.agrees iv hiv c hc _ a b, hgp]
    rw [hag sc hscm, sum_congr rfl fun k hk => congrArg (· * _) (hag _ (hp.mem k (mem_range.mp hk)))]
    refine Approx.interpolation_error (hs.smooth iv hiv c hc) hp.injOn hp.mem (by have := hp.two; omega) hh (fun x hx => ?_) hscm
    refine hs.bound iv hiv c hc x ?_ ?_
    · rw [hgp]; linarith [hx.1]
    · rw [hgp]; linarith [hx.2]
  have c4 : |val f c (Spec.gridPoint f.dom m iv sc) - val f c t| ≤ L * e := by
    obtain ⟨-, -, a, b⟩ := gridPoint_mem hd.le hiv hscm
    refine (hL _ _ a b t1 t2).trans ?_
    refine mul_le_mul_of_nonneg_left ?_ hL0
    conv_lhs => rw [ht0]
    rw [hgp, hgp, show f.dom.1 + iv * H + (sc + 1) / 2 * H - (f.dom.1 + iv * H + (s0 + 1) / 2 * H) = -((s0 - sc) * (H / 2)) by ring, abs_neg, abs_mul, abs_of_pos (by linarith : 0 < H / 2)]
    calc _ ≤ 2 * e / H * (H / 2) := mul_le_mul_of_nonneg_right hcl (by linarith)
      _ = e := by field_simp
  have t3 := abs_sub_le (∑ k ∈ range n, w k * (_root_.Lagrange.basis (range n) p k).eval s') (∑ k ∈ range n, v k * (_root_.Lagrange.basis (range n) p k).eval s') (val f c t)
  have t4 := abs_sub_le (∑ k ∈ range n, v k * (_root_.Lagrange.basis (range n) p k).eval s') (∑ k ∈ range n, v k * (_root_.Lagrange.basis (range n) p k).eval sc) (val f c t)
  have t5 := abs_sub_le (∑ k ∈ range n, v k * (_root_.Lagrange.basis (range n) p k).eval sc) (val f c (Spec.gridPoint f.dom m iv sc)) (val f c t)
  linarith

/-- The value at a node. -/
theorem node_error (hd : f.dom.1 < f.dom.2) {L : ℝ} (hL0 : 0 ≤ L) {c : ℕ}
    (hL : ∀ s t, f.dom.1 ≤ s → s ≤ f.dom.2 → f.dom.1 ≤ t → t ≤ f.dom.2 → |val f c s - val f c t| ≤ L * |s - t|) {iv : ℕ} (hiv : iv < m) {x : ℝ} (hx : x ∈ Set.Icc (-1 : ℝ) 1)
    {t : ℝ} (t1 : f.dom.1 ≤ t) (t2 : t ≤ f.dom.2) {s κ z y : ℝ} (hs : |s - window (Spec.step f m) (t - (f.dom.1 + iv * Spec.step f m))| ≤ κ) (hz : |s - x| ≤ 1 / 10 ^ 9 + z)
    (hy : |y - val f c (Spec.gridPoint f.dom m iv x)| ≤ ε) : |y - val f c t| ≤ 1 / 10 ^ 9 * L * Spec.step f m / 2 + (ε + L * (Spec.step f m / 2) * (κ + z)) := by
  have hm0 : (0 : ℝ) < m := by exact_mod_cast (by omega : 0 < m)
  have hh : 0 < Spec.step f m := div_pos (by linarith) hm0
  set H := Spec.step f m with hH
  have hgp : ∀ x, Spec.gridPoint f.dom m iv x = f.dom.1 + iv * H + (x + 1) / 2 * H := fun x => by rw [hH]; unfold Spec.gridPoint Spec.step; ring
  set s0 := window H (t - (f.dom.1 + iv * H)) with hs0
  have ht0 : t = Spec.gridPoint f.dom m iv s0 := by
    rw [hgp, hs0]; unfold window; field_simp; ring
  obtain ⟨-, -, a, b⟩ := gridPoint_mem hd.le hiv hx
  have a3 := hL _ _ a b t1 t2
  have a4 : |Spec.gridPoint f.dom m iv x - t| ≤ (κ + (1 / 10 ^ 9 + z)) * (H / 2) := by
    conv_lhs => rw [ht0]
    rw [hgp, hgp, show f.dom.1 + iv * H + (x + 1) / 2 * H - (f.dom.1 + iv * H + (s0 + 1) / 2 * H) = ((s - s0) - (s - x)) * (H / 2) by ring, abs_mul,
      abs_of_pos (by linarith : 0 < H / 2)]
    exact mul_le_mul_of_nonneg_right ((abs_sub (s - s0) (s - x)).trans (add_le_add hs hz)) (by linarith)
  have a5 := mul_le_mul_of_nonneg_left a4 hL0
  have t4 := abs_sub_le y (val f c (Spec.gridPoint f.dom m iv x)) (val f c t)
  have e : L * ((κ + (1 / 10 ^ 9 + z)) * (H / 2)) = 1 / 10 ^ 9 * L * H / 2 + L * (H / 2) * (κ + z) := by ring
  linarith

theorem common_bounds {P : ℕ → ℝ → ℝ → Prop} (hmono : ∀ i C δ C' δ', P i C δ → C ≤ C' → 0 < δ' → δ' ≤ δ → P i C' δ') : ∀ m : ℕ, (∀ i < m, ∃ C ≥ (0 : ℝ), ∃ δ > (0 : ℝ), P i C δ) →
    ∃ C ≥ (0 : ℝ), ∃ δ > (0 : ℝ), ∀ i < m, P i C δ := by
  intro m
  induction m with
  | zero => exact fun _ => ⟨0, le_rfl, 1, one_pos, fun i hi => absurd hi (by omega)⟩
  | succ m ih =>
    intro h
    obtain ⟨C, hC, δ, hδ, H⟩ := ih fun i hi => h i (by omega)
    obtain ⟨D, hD, η, hη, H'⟩ := h m (by omega)
    refine ⟨max C D, le_max_of_le_left hC, min δ η, lt_min hδ hη, fun i hi => ?_⟩
    rcases Nat.lt_succ_iff_lt_or_eq.mp hi with h' | rfl
    · exact hmono _ _ _ _ _ (H i h') (le_max_left _ _) (lt_min hδ hη) (min_le_left _ _)
    · exact hmono _ _ _ _ _ H' (le_max_right _ _) (lt_min hδ hη) (min_le_right _ _)

/-- The computed value of a computed spline. -/
theorem colloc_computed (h2 : 2 ≤ n) (hd : f.dom.1 < f.dom.2) (hm : 0 < m) {M : ℝ} {φ : ℕ → ℕ → ℝ → ℝ} (hs : SmoothPieces f m n M φ) {L B : ℝ} (hM0 : 0 ≤ M) (hL0 : 0 ≤ L) (hB0 : 0 ≤ B)
    (hL : ∀ c < f.codim, ∀ s t, f.dom.1 ≤ s → s ≤ f.dom.2 → f.dom.1 ≤ t → t ≤ f.dom.2 → |val f c s - val f c t| ≤ L * |s - t|)
    (hB : ∀ c < f.codim, ∀ t, f.dom.1 ≤ t → t ≤ f.dom.2 → |val f c t| ≤ B) :
    ∃ C ≥ (0 : ℝ), ∃ δ > (0 : ℝ), ∀ p g ε, Spread n p → CollocOk f n m p ε g → 0 ≤ ε → ε ≤ δ → ∀ u, Small u δ → ∀ t, f.dom.1 ≤ t → t ≤ f.dom.2 →
      Nd.All (Rounded.value u g t) fun o => ∃ v, o = .ok v ∧ v.length = f.codim ∧ ∀ c < f.codim, |vecOf v c - val f c t| ≤
        M * Spec.step f m ^ n / n.factorial + 1 / 10 ^ 9 * L * Spec.step f m / 2 + C * (Nd.sz u + ε) := by
  have hm0 : (0 : ℝ) < m := by exact_mod_cast hm
  have hh : 0 < Spec.step f m := div_pos (by linarith) hm0
  set H := Spec.step f m with hH
  have e2 : f.dom.2 = f.dom.1 + m * H := by rw [hH]; unfold Spec.step; field_simp; ring
  obtain ⟨C1, hC1, δ1, hδ1, H1⟩ := Rounded.getInterval_uniform (a := f.dom.1) hh hm
  obtain ⟨C2, hC2, δ2, hδ2, H2⟩ := common_bounds (P := fun i C δ => ∀ g : GSpline, g.dom.1 = f.dom.1 → g.tau.length = m → ∀ ε, 0 ≤ ε → ε ≤ δ → (∀ i < m, |vecOf g.tau i - H| ≤ ε) →
      ∀ u, Small u δ → ∀ t ∈ Set.Icc f.dom.1 f.dom.2, Nd.All (intervalToWindow u g t i) fun o => ∃ s, o = .ok s ∧ |s - window H (t - (f.dom.1 + i * H))| ≤ C * (Nd.sz u + ε))
    (fun i C δ C' δ' h hCC _ hδδ g hg hl ε hε hεδ htau u hu t ht o ho => by
      obtain ⟨s, e, b⟩ := h g hg hl ε hε (hεδ.trans hδδ) htau u (Nd.small_mono hδδ hu) t ht o ho
      exact ⟨s, e, b.trans (mul_le_mul_of_nonneg_right hCC (add_nonneg (Nd.sz_nonneg hu) hε))⟩) m
    (fun i hi => Rounded.intervalToWindow_uniform (b := f.dom.2) hh m i hi)
  obtain ⟨C3, hC3, δ3, hδ3, H3⟩ := Rounded.evalLagrange_uniform n
  set A : ℝ := (3 * 10 ^ 9) ^ n with hA
  have hA1 : 1 ≤ A := one_le_pow₀ (by norm_num)
  obtain ⟨C4, hC4, δ4, hδ4, H4⟩ := Rounded.dot_uniform n (B + A + 2)
  set Q := C2 + 2 * C1 / H with hQ
  have hQ0 : 0 ≤ Q := by positivity
  set δ := min (min (min δ1 δ2) (min δ3 δ4)) (min (1 / (3 * (Q + 1))) (min 1 (1 / (2 * (C3 + 1))))) with hδ
  have hδp : 0 < δ := lt_min (lt_min (lt_min hδ1 hδ2) (lt_min hδ3 hδ4)) (lt_min (by positivity) (lt_min one_pos (by positivity)))
  set K := C4 + 1 + L * (H / 2) * (8 + C2) + (n * (B + 1) * C3 + (n * A + n * B * (n * A * 10 ^ 9 * Q) + L * C1)) with hK
  refine ⟨K, by positivity, δ, hδp, fun p g ε hp h hε hεδ u hu t t1 t2 o ho => ?_⟩
  have d1 : δ ≤ δ1 := (min_le_left _ _).trans ((min_le_left _ _).trans (min_le_left _ _))
  have d2 : δ ≤ δ2 := (min_le_left _ _).trans ((min_le_left _ _).trans (min_le_right _ _))
  have d3 : δ ≤ δ3 := (min_le_left _ _).trans ((min_le_right _ _).trans (min_le_left _ _))
  have d4 : δ ≤ δ4 := (min_le_left _ _).trans ((min_le_right _ _).trans (min_le_right _ _))
  have d5 : δ ≤ 1 / (3 * (Q + 1)) := (min_le_right _ _).trans (min_le_left _ _)
  have d6 : δ ≤ 1 := (min_le_right _ _).trans ((min_le_right _ _).trans (min_le_left _ _))
  have d7 : δ ≤ 1 / (2 * (C3 + 1)) := (min_le_right _ _).trans ((min_le_right _ _).trans (min_le_right _ _))
  have hz := Nd.sz_nonneg hu
  have hzl := Nd.sz_le hu
  set r := Nd.sz u + ε with hr
  have hr0 : 0 ≤ r := add_nonneg hz hε
  have hQr : Q * r ≤ 1 := by
    have a1 : r ≤ 3 * δ := by rw [hr]; linarith
    have a2 : (Q + 1) * (3 * δ) ≤ 1 := by
      rw [le_div_iff₀ (by positivity)] at d5
      linarith
    calc Q * r ≤ (Q + 1) * r := mul_le_mul_of_nonneg_right (by linarith) hr0
      _ ≤ (Q + 1) * (3 * δ) := mul_le_mul_of_nonneg_left a1 (by linarith)
      _ ≤ 1 := a2
  have hC3z : C3 * Nd.sz u ≤ 1 := by
    have a2 : (C3 + 1) * (2 * δ) ≤ 1 := by
      rw [le_div_iff₀ (by positivity)] at d7
      linarith
    calc C3 * Nd.sz u ≤ (C3 + 1) * Nd.sz u := mul_le_mul_of_nonneg_right (by linarith) hz
      _ ≤ (C3 + 1) * (2 * δ) := mul_le_mul_of_nonneg_left hzl (by linarith)
      _ ≤ 1 := a2
  have hz1 : Nd.sz u ≤ r := by rw [hr]; linarith
  have hε1 : ε ≤ r := by rw [hr]; linarith
  have hdom : g.dom.1 = f.dom.1 := by rw [h.dom]
  -- the interval
  rcases ho with ⟨e, he, -⟩ | ⟨iv, hiv', ho⟩
  · obtain ⟨_, _, h, _⟩ := H1 g hdom h.len ε hε (hεδ.trans d1) h.tau u (Nd.small_mono d1 hu) t _ he
    cases h
  obtain ⟨iv', hiv, hieq, l1, l2⟩ := H1 g hdom h.len ε hε (hεδ.trans d1) h.tau u (Nd.small_mono d1 hu) t _ hiv'
  cases hieq
  clear hiv'
  have hC1r : 0 ≤ C1 * r := by positivity
  have b1 : f.dom.1 + iv * H - C1 * r ≤ t := by
    rcases l1 with l | rfl
    · linarith
    · simp only [Nat.cast_zero, zero_mul, add_zero]; linarith
  have b2 : t ≤ f.dom.1 + (iv + 1) * H + C1 * r := by
    rcases l2 with l | l
    · linarith
    · have : (m : ℝ) = iv + 1 := by exact_mod_cast l.symm
      rw [this] at e2
      linarith
  -- the window
  rcases ho with ⟨e, he, -⟩ | ⟨s, hs1, ho⟩
  · obtain ⟨_, h, _⟩ := H2 iv hiv g hdom h.len ε hε (hεδ.trans d2) h.tau u (Nd.small_mono d2 hu) t ⟨t1, t2⟩ _ he
    cases h
  obtain ⟨s', hseq, hsw⟩ := H2 iv hiv g hdom h.len ε hε (hεδ.trans d2) h.tau u (Nd.small_mono d2 hu) t ⟨t1, t2⟩ _ hs1
  cases hseq
  clear hs1
  rw [← hr] at hsw
  have hQe : C2 * r + 2 * (C1 * r) / H = Q * r := by rw [hQ]; field_simp
  have hsb : |s| ≤ 2 := by
    obtain ⟨a1, a2⟩ := window_bounds hh b1 (by linarith)
    have := abs_le.mp hsw
    rw [abs_le]
    constructor <;> linarith
  have hrd : rd g.tau iv = .ok (vecOf g.tau iv) := rd_ok (by rw [h.len]; exact hiv)
  rw [hrd, lift_ok] at ho
  rcases ho with ⟨e, he, -⟩ | ⟨ta, hta, ho⟩
  · cases he
  cases hta
  -- the basis
  rw [h.basis] at ho
  rcases ho with ⟨e, he, -⟩ | ⟨buf, hbuf, ho⟩
  · obtain ⟨_, h, _⟩ := H3 p hp.mem hp.apart u (Nd.small_mono d3 hu) s _ hsb _ he
    cases h
  obtain ⟨buf', hbeq, hb⟩ := H3 p hp.mem hp.apart u (Nd.small_mono d3 hu) s _ hsb _ hbuf
  cases hbeq
  clear hbuf
  have hbb : ∀ k < n, |buf k| ≤ A + 1 := by
    intro k hk
    rcases hb with ⟨j, -, -, rfl⟩ | hb
    · unfold setAt
      dsimp only
      split_ifs
      · rw [abs_one]; linarith
      · rw [abs_zero]; linarith
    · have a1 := (Approx.basis_bounds (η := 1 / 10 ^ 9) (by norm_num) (by norm_num) (fun j hj => abs_le.mpr (hp.mem j hj)) (fun i hi j hj hne => (hp.apart i hi j hj hne).le) hk hsb hsb).1
      rw [show (3 : ℝ) / (1 / 10 ^ 9) = 3 * 10 ^ 9 by norm_num, ← hA] at a1
      have := abs_sub_abs_le_abs_sub (buf k) ((_root_.Lagrange.basis (range n) p k).eval s)
      linarith [hb k hk]
  have hdim : g.basis.dim = n := by rw [h.basis]; simp [Basis.dim]
  have hnb : ∀ c < f.codim, ∀ k < n, |nodal g iv c k| ≤ B + 1 := fun c hc k hk => by
    obtain ⟨-, -, a, b⟩ := gridPoint_mem hd.le hiv (hp.mem k hk)
    have a1 := hB c hc _ a b
    have a2 := h.nodal iv hiv c hc k hk
    have := abs_sub_abs_le_abs_sub (nodal g iv c k) (val f c (Spec.gridPoint f.dom m iv (p k)))
    linarith
  -- the rows
  have hrow : Nd.All ((List.range g.codim).mapM fun c => do
      let seg ← Nd.lift (g.coefficientSegment iv c)
      dot u seg ((List.range (Basis.lagrange ((List.range n).map p)).dim).map buf)) fun o => ∃ v, o = .ok v ∧ List.Forall₂ (fun c y => |y - ∑ k ∈ range n, nodal g iv c k * buf k| ≤ C4 * Nd.sz u) (List.range g.codim) v := by
    refine Nd.All.mapM fun c hcm => ?_
    have hcc := List.mem_range.mp hcm
    have hbd := GSpline.coef_bound h.con (i := iv) (by rw [h.len]; exact hiv) hcc
    have hlen : ((g.coeffs.drop (iv * g.basis.dim * g.codim + g.basis.dim * c)).take g.basis.dim).length = n := by
      rw [List.length_take, List.length_drop]; omega
    have hsegv : ∀ k < n, vecOf ((g.coeffs.drop (iv * g.basis.dim * g.codim + g.basis.dim * c)).take g.basis.dim) k = nodal g iv c k := fun k hk => by
      rw [vecOf_segment (by omega)]; rfl
    unfold GSpline.coefficientSegment
    rw [segment_ok hbd, lift_ok, LawfulMonad.pure_bind]
    have hd' : (Basis.lagrange ((List.range n).map p)).dim = n := by simp [Basis.dim]
    rw [hd']
    intro o ho
    obtain ⟨y, e, hy⟩ := H4 _ ((List.range n).map buf) hlen (by simp) (fun k hk => by
      rw [hsegv k hk]
      have := hnb c (by rw [← h.codim]; exact hcc) k hk
      linarith) (fun k hk => by
      rw [vecOf_map_range hk]
      linarith [hbb k hk]) u (Nd.small_mono d4 hu) o ho
    refine ⟨y, e, ?_⟩
    rwa [sum_congr rfl fun k hk => by rw [hsegv k (mem_range.mp hk), vecOf_map_range (mem_range.mp hk)]] at hy
  obtain ⟨v, hv, hF⟩ := hrow o ho
  refine ⟨v, hv, by have := hF.length_eq; rw [List.length_range, h.codim] at this; exact this.symm, fun c hc => ?_⟩
  have hvc : |vecOf v c - ∑ k ∈ range n, nodal g iv c k * buf k| ≤ C4 * Nd.sz u := by
    have hlen := hF.length_eq
    rw [List.length_range, h.codim] at hlen
    have := (List.forall₂_iff_get.mp hF).2 c (by rw [List.length_range, h.codim]; exact hc) (by omega)
    simp only [List.get_eq_getElem, List.getElem_range] at this
    unfold vecOf
    rw [List.getD_eq_getElem?_getD, List.getElem?_eq_getElem (by omega)]
    exact this
  have hC4 : C4 * Nd.sz u ≤ C4 * r := mul_le_mul_of_nonneg_left hz1 hC4
  have hn0 : (0 : ℝ) ≤ n := Nat.cast_nonneg n
  rcases hb with ⟨j, hj, hjd, rfl⟩ | hb
  · have es : ∑ k ∈ range n, nodal g iv c k * setAt (fun _ => (0 : ℝ)) j 1 k = nodal g iv c j := by
      rw [sum_eq_single j]
      · simp [setAt]
      · intro k _ hk
        simp [setAt, hk]
      · intro hj'
        exact absurd (mem_range.mpr hj) hj'
    rw [es] at hvc
    have a1 := node_error (ε := ε) hd hL0 (hL c hc) hiv (hp.mem j hj) t1 t2 hsw hjd (h.nodal iv hiv c hc j hj)
    rw [← hH] at a1
    have t3 := abs_sub_le (vecOf v c) (nodal g iv c j) (val f c t)
    have r1 : 0 ≤ M * H ^ n / n.factorial := by positivity
    have r2 : 0 ≤ (n * (B + 1) * C3 + (n * A + n * B * (n * A * 10 ^ 9 * Q) + L * C1)) * r := by positivity
    have r3 : L * (H / 2) * (C2 * r + 8 * Nd.sz u) ≤ L * (H / 2) * (C2 * r + 8 * r) := mul_le_mul_of_nonneg_left (by linarith) (by positivity)
    have eK : K * r = C4 * r + r + L * (H / 2) * (C2 * r + 8 * r) + (n * (B + 1) * C3 + (n * A + n * B * (n * A * 10 ^ 9 * Q) + L * C1)) * r := by
      rw [hK]; ring
    rw [eK]
    linarith
  · have a1 := piece_error (ε := ε) hp hd hs hc (hL c hc) (hB c hc) hiv t1 t2 hC1r b1 b2 hsw (by rw [← hH, hQe]; exact hQr) hε fun k hk => h.nodal iv hiv c hc k hk
    rw [← hH, ← hA, hQe] at a1
    have a2 : |∑ k ∈ range n, nodal g iv c k * buf k - ∑ k ∈ range n, nodal g iv c k * (_root_.Lagrange.basis (range n) p k).eval s| ≤ n * (B + 1) * C3 * r := by
      rw [← sum_sub_distrib]
      refine (abs_sum_le_sum_abs _ _).trans ((sum_le_sum (g := fun _ => (B + 1) * (C3 * r)) fun k hk => ?_).trans (le_of_eq ?_))
      · rw [← mul_sub, abs_mul]
        exact mul_le_mul (hnb c hc k (mem_range.mp hk)) ((hb k (mem_range.mp hk)).trans (mul_le_mul_of_nonneg_left hz1 hC3)) (abs_nonneg _) (by linarith)
      · rw [sum_const, card_range, nsmul_eq_mul]; ring
    have t3 := abs_sub_le (vecOf v c) (∑ k ∈ range n, nodal g iv c k * buf k) (val f c t)
    have t4 := abs_sub_le (∑ k ∈ range n, nodal g iv c k * buf k) (∑ k ∈ range n, nodal g iv c k * (_root_.Lagrange.basis (range n) p k).eval s) (val f c t)
    have r1 : 0 ≤ 1 / 10 ^ 9 * L * H / 2 := by positivity
    have r2 : 0 ≤ (1 + L * (H / 2) * (8 + C2)) * r := by positivity
    have r3 : n * A * ε ≤ n * A * r := mul_le_mul_of_nonneg_left hε1 (by positivity)
    have eK : K * r = C4 * r + (1 + L * (H / 2) * (8 + C2)) * r + (n * (B + 1) * C3 * r + (n * A * r + n * B * (n * A * 10 ^ 9 * (Q * r)) + L * (C1 * r))) := by
      rw [hK]; ring
    rw [eK]
    linarith

end

/-- **C102.** If `f` is `n` times continuously differentiable on each interval, then there are constants `C` and `δ > 0` such that every run of `approximate` with errors below `δ`
returns a spline, and every evaluation of that spline at any point of the domain with errors below `δ` returns the value of `f` up to the error of exact arithmetic (C82) plus `C`
times the size of all the rounding errors. -/
theorem C102_computed (f : Fn) (hg : Good f) (hst : ∀ t, f.dom.1 ≤ t → t ≤ f.dom.2 → Calm f t) (hd : f.dom.1 < f.dom.2) (n m : ℕ) (h2 : 2 ≤ n) (hn : n ≤ 44000) (hm : 0 < m)
    (M : ℝ) (φ : ℕ → ℕ → ℝ → ℝ) (hs : SmoothPieces f m n M φ) (L : ℝ)
    (hL : ∀ c < f.codim, ∀ s t, f.dom.1 ≤ s → s ≤ f.dom.2 → f.dom.1 ≤ t → t ≤ f.dom.2 → |val f c s - val f c t| ≤ L * |s - t|) :
    ∃ C δ, 0 < δ ∧ ∀ u, Small u δ → ∀ jp jw junk o, Rounded.approximate u f n m jp jw junk o → ∃ g, o = .ok g ∧
      ∀ w, Small w δ → ∀ t, f.dom.1 ≤ t → t ≤ f.dom.2 → ∀ o', Rounded.value w g t o' → ∃ v, o' = .ok v ∧ v.length = f.codim ∧
        ∀ c < f.codim, |vecOf v c - val f c t| ≤ M * Spec.step f m ^ n / n.factorial + 1 / 10 ^ 9 * L * Spec.step f m / 2 + C * ((u.1 + u.2) + (w.1 + w.2)) := by
  obtain ⟨r, hr, hq⟩ := exact_points h2
  obtain ⟨C, hC, δ, hδ, H⟩ := colloc_run hg hst hd h2 hm hr hq
  set B := ∑ c ∈ range f.codim, |val f c f.dom.1| + |L| * (f.dom.2 - f.dom.1) with hBdef
  have hB0 : 0 ≤ B := add_nonneg (sum_nonneg fun _ _ => abs_nonneg _) (mul_nonneg (abs_nonneg _) (by linarith))
  have hL' : ∀ c < f.codim, ∀ s t, f.dom.1 ≤ s → s ≤ f.dom.2 → f.dom.1 ≤ t → t ≤ f.dom.2 → |val f c s - val f c t| ≤ |L| * |s - t| := fun c hc s t a b a' b' =>
    (hL c hc s t a b a' b').trans (mul_le_mul_of_nonneg_right (le_abs_self L) (abs_nonneg _))
  have hB : ∀ c < f.codim, ∀ t, f.dom.1 ≤ t → t ≤ f.dom.2 → |val f c t| ≤ B := fun c hc t t1 t2 => by
    have a1 := hL' c hc t f.dom.1 t1 t2 le_rfl hd.le
    have a2 : |val f c f.dom.1| ≤ ∑ c ∈ range f.codim, |val f c f.dom.1| := single_le_sum (f := fun c => |val f c f.dom.1|) (fun _ _ => abs_nonneg _) (mem_range.mpr hc)
    have a3 := abs_sub_abs_le_abs_sub (val f c t) (val f c f.dom.1)
    have a4 : |L| * |t - f.dom.1| ≤ |L| * (f.dom.2 - f.dom.1) := by
      rw [abs_of_nonneg (by linarith : 0 ≤ t - f.dom.1)]
      exact mul_le_mul_of_nonneg_left (by linarith) (abs_nonneg L)
    linarith
  have hs' : SmoothPieces f m n |M| φ := ⟨hs.smooth, hs.agrees, fun iv hiv c hc t a b => (hs.bound iv hiv c hc t a b).trans (le_abs_self M)⟩
  obtain ⟨D, hD, η, hη, K⟩ := colloc_computed h2 hd hm hs' (abs_nonneg M) (abs_nonneg L) hB0 hL' hB
  refine ⟨D * (C + 1), min δ (min η (η / (2 * (C + 1)))), lt_min hδ (lt_min hη (by positivity)), fun u hu jp jw junk o ho => ?_⟩
  obtain ⟨g, x, e, h, -, -, hsp, -⟩ := H u (Nd.small_mono (min_le_left _ _) hu) jp jw junk o ho
  refine ⟨g, e, fun w hw t t1 t2 o' ho' => ?_⟩
  have hz := Nd.sz_nonneg hu
  have hε : C * Nd.sz u ≤ η := by
    have b := Nd.sz_le (Nd.small_mono ((min_le_right _ _).trans (min_le_right _ _)) hu)
    calc C * Nd.sz u ≤ (C + 1) * (2 * (η / (2 * (C + 1)))) := mul_le_mul (by linarith) b hz (by linarith)
      _ = η := by field_simp
  obtain ⟨v, hv, hlen, hb⟩ := K x g _ (hsp hn) h (mul_nonneg hC hz) hε w (Nd.small_mono ((min_le_right _ _).trans (min_le_left _ _)) hw) t t1 t2 o' ho'
  refine ⟨v, hv, hlen, fun c hc => (hb c hc).trans ?_⟩
  have hL0 : 0 ≤ L := by
    have := (abs_nonneg _).trans (hL c hc f.dom.1 f.dom.2 le_rfl hd.le hd.le le_rfl)
    have : 0 < |f.dom.1 - f.dom.2| := abs_pos.mpr (by linarith)
    nlinarith
  have hM0 : 0 ≤ M := by
    refine (abs_nonneg _).trans (hs.bound 0 hm c hc (Spec.gridPoint f.dom m 0 (-1)) le_rfl ?_)
    exact (gridPoint_mem hd.le hm ⟨by norm_num, le_rfl⟩).1
  rw [abs_of_nonneg hL0, abs_of_nonneg hM0]
  have hw0 := Nd.sz_nonneg hw
  have : D * (Nd.sz w + C * Nd.sz u) ≤ D * (C + 1) * (Nd.sz u + Nd.sz w) := by
    rw [mul_assoc]
    refine mul_le_mul_of_nonneg_left ?_ hD
    nlinarith
  exact add_le_add_right this _

/-- **C102**, the identity: `GaussLobattoLagrangeSpline::identity(domain, n, m)` followed by an evaluation returns the time itself, up to the tolerance of the nodes and `C` times the
size of the rounding errors. -/
theorem C102_identity (dom : ℝ × ℝ) (hd : dom.1 < dom.2) (n m : ℕ) (h2 : 2 ≤ n) (hn : n ≤ 44000) (hm : 0 < m) :
    ∃ C δ, 0 < δ ∧ ∀ u, Small u δ → ∀ jp jw junk o, Rounded.collocIdentity u dom n m jp jw junk o → ∃ g, o = .ok g ∧
      ∀ w, Small w δ → ∀ t, dom.1 ≤ t → t ≤ dom.2 → ∀ o', Rounded.value w g t o' → ∃ x, o' = .ok [x] ∧
        |x - t| ≤ 1 / 10 ^ 9 * ((dom.2 - dom.1) / m) / 2 + C * ((u.1 + u.2) + (w.1 + w.2)) := by
  have hv : ∀ t, val (Fn.ident dom) 0 t = t := fun t => by rw [(val_ident dom).2]
  have hc : ∀ c < (Fn.ident dom).codim, c = 0 := fun c hc => by simpa [codim] using hc
  have hs : SmoothPieces (Fn.ident dom) m n 0 (fun _ _ t => t) := by
    refine ⟨fun _ _ _ _ => contDiff_id, fun iv _ c h t _ _ => by rw [hc c h, hv], fun iv _ c _ t _ _ => ?_⟩
    have : iteratedDeriv n (fun t : ℝ => t) t = 0 := by
      rw [show n = n - 2 + 1 + 1 by omega, iteratedDeriv_succ', iteratedDeriv_succ']
      simp
    rw [this, abs_zero]
  obtain ⟨C, δ, hδ, h⟩ := C102_computed (Fn.ident dom) (.ident _) (fun t _ _ => .ident _ t) hd n m h2 hn hm 0 _ hs 1 (fun c h s t _ _ _ _ => by rw [hc c h, hv, hv, one_mul])
  refine ⟨C, δ, hδ, fun u hu jp jw junk o ho => ?_⟩
  obtain ⟨g, e, b⟩ := h u hu jp jw junk o ho
  refine ⟨g, e, fun w hw t t1 t2 o' ho' => ?_⟩
  obtain ⟨v, rfl, hlen, b⟩ := b w hw t t1 t2 o' ho'
  obtain ⟨x, rfl⟩ := List.length_eq_one_iff.mp (hlen.trans (by simp [codim]))
  refine ⟨x, rfl, ?_⟩
  have := b 0 (by simp [codim])
  rw [hv, zero_mul, zero_div, zero_add, mul_one] at this
  exact this

/-! ## Cases -/

/-- The identity on `[0, 2]`. -/
example : ∃ C δ, 0 < δ ∧ ∀ u, Small u δ → ∀ jp jw junk o, Rounded.collocIdentity u (0, 2) 4 6 jp jw junk o → ∃ g, o = .ok g ∧
    ∀ w, Small w δ → ∀ t, 0 ≤ t → t ≤ 2 → ∀ o', Rounded.value w g t o' → ∃ x, o' = .ok [x] ∧ |x - t| ≤ 1 / 10 ^ 9 + C * ((u.1 + u.2) + (w.1 + w.2)) := by
  obtain ⟨C, δ, hδ, h⟩ := C102_identity (0, 2) (by norm_num) 4 6 (by norm_num) (by norm_num) (by norm_num)
  refine ⟨C, δ, hδ, fun u hu jp jw junk o ho => ?_⟩
  obtain ⟨g, e, b⟩ := h u hu jp jw junk o ho
  refine ⟨g, e, fun w hw t t1 t2 o' ho' => ?_⟩
  obtain ⟨x, e, b⟩ := b w hw t t1 t2 o' ho'
  exact ⟨x, e, b.trans (add_le_add_left (by norm_num) _)⟩

/-- The exponential function on `[0, 1]`, ten intervals with five nodes. -/
example : ∃ C δ, 0 < δ ∧ ∀ u, Small u δ → ∀ jp jw junk o, Rounded.approximate u (Fn.exp (0, 1)) 5 10 jp jw junk o → ∃ g, o = .ok g ∧
    ∀ w, Small w δ → ∀ t, 0 ≤ t → t ≤ 1 → ∀ o', Rounded.value w g t o' → ∃ v, o' = .ok v ∧ |vecOf v 0 - Real.exp t| ≤ 1 / 10 ^ 6 + C * ((u.1 + u.2) + (w.1 + w.2)) := by
  have hc : ∀ c < (Fn.exp (0, 1)).codim, c = 0 := fun c hc => by simpa [codim] using hc
  obtain ⟨C, δ, hδ, h⟩ := C102_computed (Fn.exp (0, 1)) (.exp _) (fun t _ _ => .exp _ t) (by norm_num [dom]) 5 10 (by norm_num) (by norm_num) (by norm_num) 3 _
    (exp_pieces 10 5) 3 (fun c h s t _ a _ b => by rw [hc c h, exp_val, exp_val]; exact exp_lip a b)
  refine ⟨C, δ, hδ, fun u hu jp jw junk o ho => ?_⟩
  obtain ⟨g, e, b⟩ := h u hu jp jw junk o ho
  refine ⟨g, e, fun w hw t t1 t2 o' ho' => ?_⟩
  obtain ⟨v, hv, -, b⟩ := b w hw t t1 t2 o' ho'
  refine ⟨v, hv, ?_⟩
  have := b 0 (by norm_num [codim])
  rw [exp_val] at this
  refine this.trans (add_le_add_left ?_ _)
  norm_num [Spec.step, dom, Nat.factorial]

/-- There are such runs of the approximation and of the evaluation. -/
example (u w : ℝ × ℝ) (u1 : 0 ≤ u.1) (u2 : 0 ≤ u.2) (w1 : 0 ≤ w.1) (w2 : 0 ≤ w.2) (jp jw junk : Vec) (t : ℝ) (t1 : 0 ≤ t) (t2 : t ≤ 1) :
    ∃ g v, Rounded.approximate u (Fn.exp (0, 1)) 5 10 jp jw junk (.ok g) ∧ Rounded.value w g t (.ok v) := by
  have hc : ∀ c < (Fn.exp (0, 1)).codim, c = 0 := fun c hc => by simpa [codim] using hc
  have hd : (Fn.exp (0, 1)).dom.1 < (Fn.exp (0, 1)).dom.2 := by norm_num [dom]
  obtain ⟨-, -, g, -, hg, -⟩ := C47_collocation (Fn.exp (0, 1)) 5 10 (by norm_num) (by norm_num) jp jw junk hd (fun t _ _ => ⟨_, exp_call _ _⟩)
  obtain ⟨r, hr, hq⟩ := exact_points (n := 5) (by norm_num)
  obtain ⟨C, hC, δ, hδ, H⟩ := colloc_run (f := Fn.exp (0, 1)) (.exp _) (fun t _ _ => .exp _ t) hd (by norm_num) (m := 10) (by norm_num) hr hq
  have h0 : Small (0 : ℝ × ℝ) δ := ⟨le_rfl, hδ.le, le_rfl, hδ.le⟩
  obtain ⟨g', x, e, h, hle, -, hsp, -⟩ := H 0 h0 jp jw junk (.ok g) (C101_exact 0 le_rfl le_rfl _ (.exp _) 5 10 jp jw junk g hg)
  cases e
  have hp := hsp (by norm_num)
  have hε := mul_nonneg hC (Nd.sz_nonneg h0)
  obtain ⟨v, hv, -, -⟩ := colloc_value (L := 3) (B := 3) h hp hd (by norm_num) hε hle (exp_pieces 10 5)
    (fun c h s t _ a _ b => by rw [hc c h, exp_val, exp_val]; exact exp_lip a b) (fun c h t _ a => by
      rw [hc c h, exp_val, abs_of_pos (Real.exp_pos t)]
      have a' : t ≤ 1 := a
      linarith [Real.exp_le_exp.mpr a', Real.exp_one_lt_d9]) (t := t) t1 t2
  have hpos : Positive g := colloc_positive h (by norm_num) (hle.trans_lt (by norm_num [Spec.step, dom]))
  have := C70_exact w w1 w2 g (by rw [h.basis]; exact valid_nodes hp.separated) h.con hpos t
  rw [hv] at this
  exact ⟨g, v, C101_exact u u1 u2 _ (.exp _) 5 10 jp jw junk g hg, this⟩

end GSplines.Props
