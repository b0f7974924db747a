import Verif.Props.GLLNodes
import Verif.Props.Functionals

/-!
# Collocation splines of polynomials everywhere (C47), the integral functional and the inner products (C67)
-/

namespace GSplines.Props

open GSplines Spec GLL Finset Polynomial Fn

theorem almost_le {a b : ℝ} (hb : |b| ≤ 1) (h : Lagrange.almostEqual a b tol9 = true) : |a - b| ≤ 1 / 10 ^ 9 := by
  unfold Lagrange.almostEqual tol9 at h
  split_ifs at h
  · exact (of_decide_eq_true h).le
  · have := (of_decide_eq_true h).2
    nlinarith

/-- **C47.** If the function is a polynomial of degree `< n` on every interval, the spline is within `10⁻⁹ L h / 2` of the function at every point of the domain,
where `h` is the length of the intervals and `L` a Lipschitz constant of the function. -/
theorem C47_polynomial_close (f : Fn) (n m : ℕ) (hn : n ≤ 44000) (jp jw junk : Vec) (hd : f.dom.1 < f.dom.2) (g : GSpline) (hg : Colloc.approximate f n m jp jw junk = .ok g)
    (hpoly : ∀ iv < m, ∀ c < f.codim, ∃ P : ℝ[X], P.degree < n ∧ ∀ t, gridPoint f.dom m iv (-1) ≤ t → t ≤ gridPoint f.dom m iv 1 → val f c t = P.eval t)
    (L : ℝ) (hL : ∀ c < f.codim, ∀ s t, f.dom.1 ≤ s → s ≤ f.dom.2 → f.dom.1 ≤ t → t ≤ f.dom.2 → |val f c s - val f c t| ≤ L * |s - t|)
    (t : ℝ) (hm : 0 < m) (h1 : f.dom.1 ≤ t) (h2 : t ≤ f.dom.2) :
    ∃ v, g.value t = .ok v ∧ v.length = f.codim ∧ ∀ c < f.codim, |vecOf v c - val f c t| ≤ 1 / 10 ^ 9 * L * ((f.dom.2 - f.dom.1) / m) / 2 := by
  obtain ⟨p, w, hpw⟩ : ∃ p w, pointsWeights n jp jw = .ok (p, w) := by
    cases e : pointsWeights n jp jw with
    | error e' => unfold Colloc.approximate at hg; rw [e] at hg; cases hg
    | ok r => exact ⟨r.1, r.2, rfl⟩
  have hp := gll_nodes hn hpw
  have hm0 : (0 : ℝ) < m := by exact_mod_cast hm
  set len := (f.dom.2 - f.dom.1) / m with hlen'
  have hlen : 0 < len := div_pos (by linarith) hm0
  have hT : (m : ℝ) * len = f.dom.2 - f.dom.1 := by rw [hlen']; field_simp
  -- the interval of the point
  obtain ⟨iv, hiv, hl, hr⟩ : ∃ iv < m, (gridPoint f.dom m iv (-1) < t ∨ iv = 0 ∧ t = f.dom.1) ∧ t ≤ gridPoint f.dom m iv 1 := by
    have hgp : ∀ i : ℕ, gridPoint f.dom m i 1 = f.dom.1 + (i + 1) * len := fun i => by unfold gridPoint; rw [← hlen']; ring
    have hgm : ∀ i : ℕ, gridPoint f.dom m i (-1) = f.dom.1 + i * len := fun i => by unfold gridPoint; rw [← hlen']; ring
    have hex : ∃ i : ℕ, t ≤ f.dom.1 + (i + 1) * len := ⟨m, by nlinarith⟩
    classical
    refine ⟨Nat.find hex, ?_, ?_, by rw [hgp]; exact Nat.find_spec hex⟩
    · have : Nat.find hex ≤ m - 1 := Nat.find_min' hex (by rw [Nat.cast_sub (by omega)]; push_cast; nlinarith)
      omega
    · rcases Nat.eq_zero_or_pos (Nat.find hex) with h0 | h0
      · rcases lt_or_eq_of_le h1 with h | h
        · left; rw [hgm, h0]; simpa using h
        · exact .inr ⟨h0, h.symm⟩
      · left
        have := Nat.find_min hex (m := Nat.find hex - 1) (by omega)
        push Not at this
        rw [Nat.cast_sub (by omega)] at this
        rw [hgm]
        push_cast at this
        linarith
  by_cases hclean : Clean n p (window len (t - gridPoint f.dom m iv (-1)))
  · refine ⟨_, C47_polynomial_partial f n m jp jw junk p w hpw hp hd g hg hpoly t iv hiv hl hr hclean, by simp, fun c hc => ?_⟩
    rw [vecOf_map_range hc, sub_self, abs_zero]
    have : 0 ≤ L := by
      have := (abs_nonneg _).trans (hL c hc f.dom.2 f.dom.1 hd.le le_rfl le_rfl hd.le)
      have hpos : 0 < |f.dom.2 - f.dom.1| := abs_pos.mpr (by linarith)
      exact nonneg_of_mul_nonneg_left this hpos
    positivity
  · obtain ⟨g1, g2, g3, g4, g5, -⟩ := (C47_approximate f n m jp jw junk p w hpw hd.le).2 g hg
    have hpos : Positive g := by
      refine ⟨by rw [g3]; simp; omega, fun x hx => ?_⟩
      rw [g3] at hx
      rw [List.eq_of_mem_replicate hx]; exact hlen
    have hlt : g.tau.length = m := by rw [g3]; simp
    have ht : g.tau = List.replicate m ((g.dom.2 - g.dom.1) / m) := by rw [g1]; exact g3
    have htau : vecOf g.tau iv = len := by rw [g3, vecOf_replicate hiv]
    have hbrk : brk g iv = gridPoint f.dom m iv (-1) := by
      rw [brk_replicate ht hiv.le, g1]; unfold gridPoint; ring
    have hbrk1 : brk g (iv + 1) = gridPoint f.dom m iv 1 := by
      rw [brk_replicate ht hiv, g1]; unfold gridPoint; push_cast; ring
    have hloc : Located g t iv := by
      refine ⟨by omega, ?_⟩
      rcases hl with h | ⟨h, h'⟩
      · exact .inr (.inl ⟨by rw [hbrk]; exact h, by rw [hbrk1]; exact hr⟩)
      · exact .inl ⟨by rw [GSpline.brk_zero, g1, h'], h⟩
    unfold Clean at hclean
    push Not at hclean
    obtain ⟨j, hj, e, -⟩ := hclean
    obtain ⟨k, hk, hnear, hv⟩ := C47_near_node g n p g4 g5 hpos t iv hloc ⟨j, hj, by rw [htau, hbrk]; exact e⟩
    refine ⟨_, hv, by rw [nodalRow, List.length_map, List.length_range, g2], fun c hc => ?_⟩
    rw [nodalRow, vecOf_map_range (by rw [g2]; exact hc), approx_nodal hpw hd.le hg hiv hc hk]
    obtain ⟨-, -, b1, b2⟩ := gridPoint_mem hd.le hiv (x := p k) (hp.mem k hk)
    refine (hL c hc _ _ b1 b2 h1 h2).trans ?_
    have hpk : |p k| ≤ 1 := abs_le.mpr (hp.mem k hk)
    have hd1 := almost_le hpk hnear
    rw [htau, hbrk] at hd1
    have hw : gridPoint f.dom m iv (p k) - t = len / 2 * (p k - window len (t - gridPoint f.dom m iv (-1))) := by
      unfold gridPoint window
      rw [← hlen']
      field_simp
      ring
    have hL0 : 0 ≤ L := by
      have := (abs_nonneg _).trans (hL c hc f.dom.2 f.dom.1 hd.le le_rfl le_rfl hd.le)
      have hpos : 0 < |f.dom.2 - f.dom.1| := abs_pos.mpr (by linarith)
      exact nonneg_of_mul_nonneg_left this hpos
    rw [hw, abs_mul, abs_of_pos (by linarith : 0 < len / 2), abs_sub_comm]
    have := mul_le_mul_of_nonneg_left hd1 (mul_nonneg hL0 (by linarith : 0 ≤ len / 2))
    calc _ = L * (len / 2) * |window len (t - gridPoint f.dom m iv (-1)) - p k| := by ring
      _ ≤ _ := this
      _ = _ := by ring

/-- The polynomial that the function of an interval of a collocation spline is in the coordinate of `[-1, 1]`. -/
theorem curve_poly {g : GSpline} {n m : ℕ} {codim : ℕ} {p : Vec} (hg : OnGrid g n m codim p) (iv c : ℕ) (ht : vecOf g.tau iv ≠ 0) :
    ∃ F : ℝ[X], F.natDegree ≤ n - 1 ∧ ∀ x, curve g iv c (brk g iv + (x + 1) / 2 * vecOf g.tau iv) = F.eval x := by
  have hdim : g.basis.dim = n := by rw [hg.basis]; simp [Basis.dim]
  refine ⟨∑ k ∈ range n, C (nodal g iv c k) * _root_.Lagrange.basis (range n) (vecOf ((List.range n).map p)) k, ?_, fun x => ?_⟩
  · refine natDegree_sum_le_of_forall_le _ _ fun k hk => (natDegree_C_mul_le _ _).trans ?_
    unfold _root_.Lagrange.basis
    refine (natDegree_prod_le _ _).trans ?_
    have : ∀ j ∈ (range n).erase k, (_root_.Lagrange.basisDivisor (vecOf ((List.range n).map p) k) (vecOf ((List.range n).map p) j)).natDegree ≤ 1 := by
      intro j _
      unfold _root_.Lagrange.basisDivisor
      exact (natDegree_C_mul_le _ _).trans (natDegree_X_sub_C_le _)
    refine (sum_le_sum this).trans ?_
    rw [sum_const, card_erase_of_mem hk, card_range]; simp
  · unfold curve piece comb
    rw [hdim, eval_finsetSum]
    refine sum_congr rfl fun k _ => ?_
    have hw : window (vecOf g.tau iv) (brk g iv + (x + 1) / 2 * vecOf g.tau iv - brk g iv) = x := by
      unfold window; field_simp; ring
    rw [hg.basis]
    simp only [basisFn, hw, List.length_map, List.length_range, eval_mul, eval_C]
    unfold nodal
    rw [hdim]

/-- **C67.** `Integral`, applied to a scalar collocation spline with the equal intervals of the domain, returns the sum of the integrals of the functions of its
intervals, up to `(b - a) (10⁻⁹ L h / 2 + 2 δ M)` where `L` and `M` are a Lipschitz constant and a bound of these functions. -/
theorem C67_functional (dom : ℝ × ℝ) (hd : dom.1 < dom.2) (n m : ℕ) (h2 : 2 ≤ n) (hn : n ≤ 20000) (hm : 0 < m) (jp jw junk : Vec) :
    ∃ p w I, pointsWeights n jp jw = .ok (p, w) ∧ Colloc.Integ.ofDomain dom n m jp jw junk = .ok I ∧
      ∀ g, OnGrid g n m 1 p → g.tau = List.replicate m ((dom.2 - dom.1) / m) → ∀ L M : ℝ,
        (∀ iv < m, ∀ s t, brk g iv ≤ s → s ≤ brk g (iv + 1) → brk g iv ≤ t → t ≤ brk g (iv + 1) → |curve g iv 0 s - curve g iv 0 t| ≤ L * |s - t|) →
        (∀ iv < m, ∀ t, brk g iv ≤ t → t ≤ brk g (iv + 1) → |curve g iv 0 t| ≤ M) →
        ∃ v, I.lf.call g = .ok [v] ∧
          |v - ∑ iv ∈ range m, ∫ t in brk g iv..brk g (iv + 1), curve g iv 0 t| ≤
            (dom.2 - dom.1) * (1 / 10 ^ 9 * L * ((dom.2 - dom.1) / m) / 2 + 2 * (((n : ℝ) - 1 / 2) ^ 4 / 10 ^ 18) * M) := by
  obtain ⟨p, w, hpw⟩ := (C45_returns n jp jw).mpr h2
  obtain ⟨⟨I, e, h⟩, -⟩ := C49_integral dom n m jp jw junk p w hpw
  refine ⟨p, w, I, hpw, e, fun g hg ht L M hL hM => ⟨_, h g hg, ?_⟩⟩
  have hm0 : (0 : ℝ) < m := by exact_mod_cast hm
  set len := (dom.2 - dom.1) / m with hlen'
  have hlen : 0 < len := div_pos (by linarith) hm0
  have hp := gll_nodes (by omega) hpw
  have htau : ∀ iv < m, vecOf g.tau iv = len := fun iv hiv => by rw [ht, vecOf_replicate hiv]
  have hsucc : ∀ iv < m, brk g (iv + 1) = brk g iv + len := fun iv hiv => by rw [GSpline.brk_succ g (by rw [hg.len]; exact hiv), htau iv hiv]
  unfold nodalQuadrature
  rw [← sum_sub_distrib]
  refine (abs_sum_le_sum_abs _ _).trans ?_
  have key : ∀ iv ∈ range m, |len / 2 * ∑ k ∈ range n, w k * nodal g iv 0 k - ∫ t in brk g iv..brk g (iv + 1), curve g iv 0 t| ≤
      len / 2 * (2 * (1 / 10 ^ 9) * (L * (len / 2)) + 4 * (((n : ℝ) - 1 / 2) ^ 4 / 10 ^ 18) * M) := by
    intro iv hiv
    have hiv := mem_range.mp hiv
    obtain ⟨F, hF, hf⟩ := curve_poly hg iv 0 (by rw [htau iv hiv]; exact hlen.ne')
    rw [htau iv hiv] at hf
    have e1 : ∀ k < n, nodal g iv 0 k = F.eval (p k) := by
      intro k hk
      rw [← hf, ← gl_curve hg.basis hp.sep (by rw [htau iv hiv]; exact hlen.ne') hk, nodeTime, htau iv hiv]
    have e2 : ∫ t in brk g iv..brk g (iv + 1), curve g iv 0 t = len / 2 * ∫ x in (-1 : ℝ)..1, F.eval x := by
      have := intervalIntegral.mul_integral_comp_add_mul (f := curve g iv 0) (a := -1) (b := 1) (len / 2) (brk g iv + len / 2)
      rw [show brk g iv + len / 2 + len / 2 * -1 = brk g iv by ring, show brk g iv + len / 2 + len / 2 * 1 = brk g (iv + 1) by rw [hsucc iv hiv]; ring] at this
      rw [← this]
      congr 1
      refine intervalIntegral.integral_congr fun x _ => ?_
      rw [← hf]; congr 1; ring
    have hin : ∀ x ∈ Set.Icc (-1 : ℝ) 1, brk g iv ≤ brk g iv + (x + 1) / 2 * len ∧ brk g iv + (x + 1) / 2 * len ≤ brk g (iv + 1) := by
      intro x hx
      rw [hsucc iv hiv]
      constructor <;> nlinarith [hx.1, hx.2]
    rw [sum_congr rfl fun k hk => by rw [e1 k (mem_range.mp hk)], e2, ← mul_sub, abs_mul, abs_of_pos (by linarith : 0 < len / 2)]
    refine mul_le_mul_of_nonneg_left ?_ (by linarith)
    refine C67_reference n hn jp jw p w hpw F (by omega) _ _ (fun x hx y hy => ?_) (fun x hx => ?_)
    · rw [← hf, ← hf]
      refine (hL iv hiv _ _ (hin x hx).1 (hin x hx).2 (hin y hy).1 (hin y hy).2).trans (le_of_eq ?_)
      rw [show brk g iv + (x + 1) / 2 * len - (brk g iv + (y + 1) / 2 * len) = len / 2 * (x - y) by ring, abs_mul, abs_of_pos (by linarith : 0 < len / 2)]
      ring
    · rw [← hf]
      exact hM iv hiv _ (hin x hx).1 (hin x hx).2
  refine (sum_le_sum key).trans (le_of_eq ?_)
  rw [sum_const, card_range, nsmul_eq_mul]
  have : (m : ℝ) * len = dom.2 - dom.1 := by rw [hlen']; field_simp
  rw [← this]
  ring

/-- **C67.** The inner products: if the weighted sum of the products of the derivatives is a polynomial of degree at most `2 n - 3` on each interval, its integral is
returned up to the same error. -/
theorem C67_inner_product (f g : Fn) (hf : Regular f) (hg : Regular g) (hc : f.codim = g.codim) (hd : f.dom.1 ≤ f.dom.2) (terms : List (ℕ × ℝ))
    (ho : ∀ q ∈ terms, OrderOk q.1 f ∧ OrderOk q.1 g) (n k : ℕ) (h2 : 2 ≤ n) (hn : n ≤ 20000) (hk : 0 < k) (jp jw : Vec) (φ : ℝ → ℝ)
    (hφ : ∀ t, φ t = (terms.map fun q => q.2 * ∑ c ∈ range f.codim, dval f q.1 c t * dval g q.1 c t).sum)
    (hpoly : PiecewisePoly φ f.dom k (2 * n - 3)) (L M : ℝ)
    (hL : ∀ s t, f.dom.1 ≤ s → s ≤ f.dom.2 → f.dom.1 ≤ t → t ≤ f.dom.2 → |φ s - φ t| ≤ L * |s - t|) (hM : ∀ t, f.dom.1 ≤ t → t ≤ f.dom.2 → |φ t| ≤ M) :
    ∃ v, semiInner f g terms n k jp jw = .ok v ∧
      |v - ∫ t in f.dom.1..f.dom.2, φ t| ≤
        (f.dom.2 - f.dom.1) * (1 / 10 ^ 9 * L * ((f.dom.2 - f.dom.1) / k) / 2 + 2 * (((n : ℝ) - 1 / 2) ^ 4 / 10 ^ 18) * M) := by
  obtain ⟨p, w, hpw⟩ := (C45_returns n jp jw).mpr h2
  refine ⟨_, C43_semi_inner_product f g hf hg hc terms ho n k jp jw p w hpw, ?_⟩
  rw [show (fun t => (terms.map fun q => q.2 * ∑ c ∈ range f.codim, dval f q.1 c t * dval g q.1 c t).sum) = φ from funext fun t => (hφ t).symm]
  exact quadrature_error φ hd h2 hn hk hpw hpoly L M hL hM

/-! ## Cases -/

/-- `t ↦ 3 t` on `[0, 2]`, five nodes on each of two intervals: everywhere within `10⁻⁸`. -/
example (jp jw junk : Vec) (t : ℝ) (h1 : 0 ≤ t) (h2 : t ≤ 2) : ∃ g v, Colloc.approximate (dil (0, 2) 3) 5 2 jp jw junk = .ok g ∧ g.value t = .ok v ∧ |vecOf v 0 - 3 * t| ≤ 1 / 10 ^ 8 := by
  have hv : ∀ t, val (dil (0, 2) 3) 0 t = 3 * t := fun t => by rw [val_of_call (dil_call (0, 2) 3 t)]; simp
  have hc : ∀ c < (dil (0, 2) 3).codim, c = 0 := fun c hc => by simpa [codim] using hc
  obtain ⟨p, w, g, -, hg, -⟩ := C47_collocation (dil (0, 2) 3) 5 2 (by norm_num) (by norm_num) jp jw junk (by norm_num [dom]) (fun t _ _ => ⟨_, dil_call _ _ _⟩)
  obtain ⟨v, e, -, b⟩ := C47_polynomial_close (dil (0, 2) 3) 5 2 (by norm_num) jp jw junk (by norm_num [dom]) g hg
    (fun iv _ c h => ⟨C 3 * X, lt_of_le_of_lt (degree_C_mul_X_le _) (by exact_mod_cast (by norm_num : (1 : ℕ) < 5)), fun t _ _ => by rw [hc c h, hv]; simp⟩) 3
    (fun c h s t _ _ _ _ => by rw [hc c h, hv, hv, ← mul_sub, abs_mul]; norm_num) t (by norm_num) h1 h2
  refine ⟨g, v, hg, e, ?_⟩
  have := b 0 (by norm_num [codim])
  rw [hv] at this
  refine this.trans ?_
  norm_num [dom]

/-- A spline with the constant value five on two intervals of six nodes: the functional returns ten, up to `10⁻¹³`. -/
example (jp jw junk : Vec) : ∃ p w I g v, pointsWeights 6 jp jw = .ok (p, w) ∧ Colloc.Integ.ofDomain (0, 2) 6 2 jp jw junk = .ok I ∧ OnGrid g 6 2 1 p ∧
    g.coeffs = List.replicate 12 5 ∧ I.lf.call g = .ok [v] ∧ |v - 10| ≤ 1 / 10 ^ 13 := by
  obtain ⟨p, w, I, hpw, hI, h⟩ := C67_functional (0, 2) (by norm_num) 6 2 (by norm_num) (by norm_num) (by norm_num) jp jw junk
  set g : GSpline := ⟨(0, 2), 1, .lagrange ((List.range 6).map p), List.replicate 12 5, [1, 1]⟩ with hgdef
  have hg : OnGrid g 6 2 1 p := ⟨rfl, rfl, rfl, by simp [hgdef, Consistent, Basis.dim], by norm_num [hgdef]⟩
  have hp := gll_nodes (by norm_num) hpw
  have hcurve : ∀ iv < 2, ∀ t, curve g iv 0 t = 5 := by
    intro iv hiv t
    have hdim : g.basis.dim = 6 := by simp [hgdef, Basis.dim]
    unfold curve piece comb
    rw [hdim]
    have e1 : ∀ k ∈ range 6, vecOf g.coeffs (iv * 6 * g.codim + 6 * 0 + k) * basisFn g.basis (vecOf g.tau iv) k (t - brk g iv)
        = 5 * (_root_.Lagrange.basis (range 6) (vecOf ((List.range 6).map p)) k).eval (window (vecOf g.tau iv) (t - brk g iv)) := by
      intro k hk
      have hk := mem_range.mp hk
      congr 1
      exact vecOf_replicate (by simp only [hgdef]; omega)
    rw [sum_congr rfl e1, ← mul_sum, ← eval_finsetSum, _root_.Lagrange.sum_basis (separated_congr (fun k hk => (vecOf_map_range hk).symm) hp.sep).distinct ⟨0, by simp⟩]
    simp
  obtain ⟨v, e, b⟩ := h g hg (by simp [hgdef]) 0 5 (fun iv hiv s t _ _ _ _ => by rw [hcurve iv hiv, hcurve iv hiv]; simp)
    (fun iv hiv t _ _ => by rw [hcurve iv hiv]; norm_num)
  refine ⟨p, w, I, g, v, hpw, hI, hg, rfl, e, ?_⟩
  have hs : ∑ iv ∈ range 2, ∫ t in brk g iv..brk g (iv + 1), curve g iv 0 t = 10 := by
    simp only [sum_range_succ, sum_range_zero, zero_add, hcurve 0 (by norm_num), hcurve 1 (by norm_num), intervalIntegral.integral_const]
    norm_num [brk, hgdef]
  rw [hs] at b
  refine b.trans ?_
  norm_num

/-- The inner product of `t ↦ 3 t` and `t ↦ 5 t` on `[0, 2]` is `40`. -/
example (jp jw : Vec) : ∃ v, semiInner (dil (0, 2) 3) (dil (0, 2) 5) [(0, 1)] 4 1 jp jw = .ok v ∧ |v - 40| ≤ 1 / 10 ^ 6 := by
  have hv : ∀ a t, dval (dil (0, 2) a) 0 0 t = a * t := fun a t => by
    rw [dval_smooth (.dil _ _) (.dil _ _) (.dil _ _ _) (by norm_num [codim]), iteratedDeriv_zero, val_of_call (dil_call (0, 2) a t)]; simp
  obtain ⟨v, e, b⟩ := C67_inner_product (dil (0, 2) 3) (dil (0, 2) 5) (.dil _ _) (.dil _ _) rfl (by norm_num [dom]) [(0, 1)] (fun q _ => ⟨.dil _ _, .dil _ _⟩) 4 1
    (by norm_num) (by norm_num) (by norm_num) jp jw (fun t => 15 * t ^ 2) (fun t => by simp [codim, hv]; ring)
    (fun iv _ => ⟨C 15 * X ^ 2, (natDegree_C_mul_X_pow_le _ _).trans (by norm_num), fun t _ _ => by simp⟩) 60 60
    (fun s t a b c d => by
      simp only [dom] at a b c d
      rw [← mul_sub, sq_sub_sq, abs_mul, abs_mul]
      have : |s + t| ≤ 4 := by rw [abs_le]; constructor <;> linarith
      have h0 := abs_nonneg (s - t)
      norm_num
      nlinarith)
    (fun t a b => by
      simp only [dom] at a b
      rw [abs_le]; constructor <;> nlinarith)
  refine ⟨v, e, ?_⟩
  have hi : ∫ t in (dil (0, 2) 3).dom.1..(dil (0, 2) 3).dom.2, (15 * t ^ 2 : ℝ) = 40 := by
    simp only [dom]
    rw [intervalIntegral.integral_const_mul, integral_pow]; norm_num
  rw [hi] at b
  refine b.trans ?_
  norm_num [dom]

end GSplines.Props
