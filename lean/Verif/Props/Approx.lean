import Verif.Spec.Approx
import Verif.Proofs.Approx
import Verif.Props.CollocQuad
import Mathlib.Analysis.Complex.ExponentialBounds

/-!
# Accuracy of collocation and of the quadrature for smooth functions (C82)
-/

namespace GSplines.Props

open GSplines Spec GLL Finset Polynomial Fn

/-- The pieces of a collocation spline are polynomials of degree less than the number of nodes. -/
theorem curve_polynomial {g : GSpline} {l : List ℝ} (hb : g.basis = .lagrange l) (hl : 0 < l.length) (iv c : ℕ) :
    ∃ P : ℝ[X], P.natDegree < l.length ∧ ∀ t, curve g iv c t = P.eval t := by
  set len := vecOf g.tau iv with hlen
  have hinj : ∀ k ∈ range l.length, (_root_.Lagrange.basis (range l.length) (vecOf l) k).natDegree ≤ l.length - 1 := fun k hk => by
    unfold _root_.Lagrange.basis
    refine (natDegree_prod_le _ _).trans ?_
    refine (sum_le_card_nsmul _ _ 1 fun j _ => ?_).trans ?_
    · unfold _root_.Lagrange.basisDivisor
      refine (natDegree_C_mul_le _ _).trans (natDegree_X_sub_C_le _)
    · rw [card_erase_of_mem hk, card_range]; simp
  set Q : ℝ[X] := ∑ k ∈ range l.length, C (vecOf g.coeffs (iv * l.length * g.codim + l.length * c + k)) * _root_.Lagrange.basis (range l.length) (vecOf l) k with hQ
  have hQd : Q.natDegree ≤ l.length - 1 := natDegree_sum_le_of_forall_le _ _ fun k hk => (natDegree_C_mul_le _ _).trans (hinj k hk)
  refine ⟨Q.comp (C (2 / len) * X + C (-(brk g iv) * 2 / len - 1)), ?_, fun t => ?_⟩
  · have h1 : (C (2 / len) * X + C (-(brk g iv) * 2 / len - 1) : ℝ[X]).natDegree ≤ 1 := natDegree_linear_le
    have h2 := natDegree_comp_le (p := Q) (q := C (2 / len) * X + C (-(brk g iv) * 2 / len - 1))
    have h3 : Q.natDegree * (C (2 / len) * X + C (-(brk g iv) * 2 / len - 1) : ℝ[X]).natDegree ≤ Q.natDegree := by nlinarith
    omega
  · have hdim : g.basis.dim = l.length := by rw [hb]; simp [Basis.dim]
    rw [eval_comp, hQ, eval_finsetSum]
    unfold curve piece comb
    rw [hdim]
    refine sum_congr rfl fun k hk => ?_
    rw [eval_mul, eval_C, hb]
    congr 1
    unfold basisFn
    simp only [eval_add, eval_mul, eval_C, eval_X]
    congr 1
    unfold window
    rw [← hlen]
    ring

/-- Every point of the domain lies in one of the intervals. -/
theorem cell_of {d : ℝ × ℝ} (hd : d.1 < d.2) {m : ℕ} (hm : 0 < m) {t : ℝ} (h1 : d.1 ≤ t) (h2 : t ≤ d.2) :
    ∃ iv < m, (gridPoint d m iv (-1) < t ∨ iv = 0 ∧ t = d.1) ∧ t ≤ gridPoint d m iv 1 := by
  have hm0 : (0 : ℝ) < m := by exact_mod_cast hm
  set len := (d.2 - d.1) / m with hlen'
  have hlen : 0 < len := div_pos (by linarith) hm0
  have hT : (m : ℝ) * len = d.2 - d.1 := by rw [hlen']; field_simp
  have hgp : ∀ i : ℕ, gridPoint d m i 1 = d.1 + (i + 1) * len := fun i => by unfold gridPoint; rw [← hlen']; ring
  have hgm : ∀ i : ℕ, gridPoint d m i (-1) = d.1 + i * len := fun i => by unfold gridPoint; rw [← hlen']; ring
  have hex : ∃ i : ℕ, t ≤ d.1 + (i + 1) * len := ⟨m, by nlinarith⟩
  classical
  refine ⟨Nat.find hex, ?_, ?_, by rw [hgp]; exact Nat.find_spec hex⟩
  · have : Nat.find hex ≤ m - 1 := Nat.find_min' hex (by rw [Nat.cast_sub (by omega)]; push_cast; nlinarith)
    omega
  · rcases Nat.eq_zero_or_pos (Nat.find hex) with h0 | h0
    · rcases lt_or_eq_of_le h1 with h | h
      · left; rw [hgm, h0]; simpa using h
      · exact .inr ⟨h0, h.symm⟩
    · left
      have := Nat.find_min hex (m := Nat.find hex - 1) (by omega)
      push Not at this
      rw [Nat.cast_sub (by omega)] at this
      rw [hgm]
      push_cast at this
      linarith

/-- **C82.** The derivatives of the approximation of a function that is `n` times continuously differentiable on each interval: the derivative of order `k ≤ n` of the spline with `n`
nodes per interval is within `M h^(n-k) / (n-k)!` of the derivative of the function, where `h` is the length of the intervals and `M` a bound of the derivative of order `n`, plus
`10⁻⁹ L h / 2`, where `L` is a Lipschitz constant of the derivative of order `k`. The intervals are closed on the right. -/
theorem C82_derivative (f : Fn) (n m : ℕ) (hn : n ≤ 44000) (hm : 0 < m) (jp jw junk : Vec) (hd : f.dom.1 < f.dom.2) (g : GSpline)
    (hg : Colloc.approximate f n m jp jw junk = .ok g)
    (M : ℝ) (φ : ℕ → ℕ → ℝ → ℝ) (hs : SmoothPieces f m n M φ) (k : ℕ) (hk : k ≤ n) :
    ∃ g', g.deriv k = .ok g' ∧ ∀ iv < m, ∀ L : ℝ,
      (∀ c < f.codim, ∀ s t, gridPoint f.dom m iv (-1) ≤ s → s ≤ gridPoint f.dom m iv 1 → gridPoint f.dom m iv (-1) ≤ t → t ≤ gridPoint f.dom m iv 1 →
        |iteratedDeriv k (φ iv c) s - iteratedDeriv k (φ iv c) t| ≤ L * |s - t|) →
      ∀ t, gridPoint f.dom m iv (-1) < t ∨ iv = 0 ∧ t = f.dom.1 → t ≤ gridPoint f.dom m iv 1 →
        ∃ v, g'.value t = .ok v ∧ v.length = f.codim ∧ ∀ c < f.codim,
          |vecOf v c - iteratedDeriv k (φ iv c) t| ≤ M * step f m ^ (n - k) / (n - k).factorial + 1 / 10 ^ 9 * L * step f m / 2 := by
  obtain ⟨p, w, hpw⟩ : ∃ p w, pointsWeights n jp jw = .ok (p, w) := by
    cases e : pointsWeights n jp jw with
    | error e' => unfold Colloc.approximate at hg; rw [e] at hg; cases hg
    | ok r => exact ⟨r.1, r.2, rfl⟩
  have hp := gll_nodes hn hpw
  obtain ⟨g1, g2, g3, g4, g5, -⟩ := (C47_approximate f n m jp jw junk p w hpw hd.le).2 g hg
  have hm0 : (0 : ℝ) < m := by exact_mod_cast hm
  have h2n := hp.two
  have hlen : 0 < step f m := div_pos (by linarith) hm0
  have hpos : Positive g := by
    refine ⟨by rw [g3]; simp; omega, fun x hx => ?_⟩
    rw [g3] at hx
    rw [List.eq_of_mem_replicate hx]; exact hlen
  have hlt : g.tau.length = m := by rw [g3]; simp
  have htr : g.tau = List.replicate m ((g.dom.2 - g.dom.1) / m) := by rw [g1]; exact g3
  have hval : g.basis.Valid := by rw [g4]; exact valid_nodes hp.sep
  have hord : g.basis.MatOrderOk k := by rw [g4]; trivial
  obtain ⟨g', hg', k1, k2, k3, k4, k5, hder⟩ := C14_derivative_partial g hval g5 hpos (by rw [g1]; exact hd.le) k hord
  refine ⟨g', hg', fun iv hiv L hL t hl hr => ?_⟩
  have htau : vecOf g.tau iv = step f m := by rw [g3, vecOf_replicate hiv]; rfl
  have hbrk : brk g iv = gridPoint f.dom m iv (-1) := by
    rw [brk_replicate htr hiv.le, g1]; unfold gridPoint; ring
  have hbrk1 : brk g (iv + 1) = gridPoint f.dom m iv 1 := by
    rw [brk_replicate htr hiv, g1]; unfold gridPoint; push_cast; ring
  have hlo : gridPoint f.dom m iv (-1) ≤ t := by
    rcases hl with h | ⟨h, h'⟩
    · exact h.le
    · subst h; rw [h']; unfold gridPoint; norm_num
  have hloc : Located g t iv := by
    refine ⟨by omega, ?_⟩
    rcases hl with h | ⟨h, h'⟩
    · exact .inr (.inl ⟨by rw [hbrk]; exact h, by rw [hbrk1]; exact hr⟩)
    · exact .inl ⟨by rw [GSpline.brk_zero, g1, h'], h⟩
  have hwid : gridPoint f.dom m iv 1 - gridPoint f.dom m iv (-1) = step f m := by unfold gridPoint step; ring
  -- the error of the derivative of order `k` of the piece
  have herr : ∀ c < f.codim, ∀ u, gridPoint f.dom m iv (-1) ≤ u → u ≤ gridPoint f.dom m iv 1 →
      |iteratedDeriv k (curve g iv c) u - iteratedDeriv k (φ iv c) u| ≤ M * step f m ^ (n - k) / (n - k).factorial := by
    intro c hc u hu1 hu2
    obtain ⟨P, hPd, hP⟩ := curve_polynomial g4 (by simpa using (by omega : 0 < n)) iv c
    rw [List.length_map, List.length_range] at hPd
    have hPc : ContDiff ℝ n (curve g iv c) := by
      have : curve g iv c = fun t => aeval t P := funext fun t => by rw [hP]; simp [aeval_def]
      rw [this]
      exact P.contDiff_aeval n
    have hφ := hs.smooth iv hiv c hc
    set e : ℝ → ℝ := fun t => φ iv c t - curve g iv c t with he
    have hsub : ∀ j ≤ n, ∀ x, iteratedDeriv j e x = iteratedDeriv j (φ iv c) x - iteratedDeriv j (curve g iv c) x := fun j hj x =>
      iteratedDeriv_fun_sub (hφ.of_le (by exact_mod_cast hj)).contDiffAt (hPc.of_le (by exact_mod_cast hj)).contDiffAt
    have htop : ∀ x, iteratedDeriv n (curve g iv c) x = 0 := by
      intro x
      have : curve g iv c = fun t => P.eval t := funext hP
      rw [this, Approx.iteratedDeriv_eval, iterate_derivative_eq_zero hPd]
      exact eval_zero
    have hinj : Set.InjOn (fun j => gridPoint f.dom m iv (p j)) (range n) := by
      intro i hi j hj e
      have hi : i < n := by simpa using hi
      have hj : j < n := by simpa using hj
      have e : gridPoint f.dom m iv (p i) = gridPoint f.dom m iv (p j) := e
      have : p i = p j := by
        unfold gridPoint at e
        have hl' : (f.dom.2 - f.dom.1) / m ≠ 0 := hlen.ne'
        have := mul_right_cancel₀ hl' (add_left_cancel e)
        linarith
      exact hp.sep.distinct (by simpa using hi) (by simpa using hj) this
    have hb := Approx.error_bound (e := e) hk (hφ.sub hPc) (S := (range n).image fun j => gridPoint f.dom m iv (p j)) (a := gridPoint f.dom m iv (-1)) (b := gridPoint f.dom m iv 1)
      (by rw [card_image_of_injOn hinj, card_range]) (fun x hx => by
        obtain ⟨j, hj, rfl⟩ := mem_image.mp hx
        have hj := mem_range.mp hj
        obtain ⟨b1, b2, -, -⟩ := gridPoint_mem hd.le hiv (x := p j) (hp.mem j hj)
        refine ⟨⟨b1, b2⟩, ?_⟩
        have h1 := gl_curve g4 hp.sep (c := c) (iv := iv) (by rw [htau]; exact hlen.ne') hj
        rw [nodeTime_grid htr p hiv, g1, approx_nodal hpw hd.le hg hiv hc hj, hs.agrees iv hiv c hc _ b1 b2] at h1
        simp only [he]
        rw [h1, sub_self]) (M := M) (fun x hx => by
        rw [hsub n le_rfl, htop, sub_zero]
        exact hs.bound iv hiv c hc x hx.1 hx.2) (t := u) ⟨hu1, hu2⟩
    rw [hsub k hk, hwid] at hb
    rw [abs_sub_comm]
    exact hb
  have hL0 : f.codim ≠ 0 → 0 ≤ L := fun h0 => by
    have h := (abs_nonneg _).trans (hL 0 (by omega) (gridPoint f.dom m iv 1) (gridPoint f.dom m iv (-1)) (by linarith) le_rfl le_rfl (by linarith))
    rw [hwid, abs_of_pos hlen] at h
    exact nonneg_of_mul_nonneg_left h hlen
  by_cases hclean : g.basis.CleanAt (window (vecOf g.tau iv) (t - brk g iv))
  · obtain ⟨v, hv, hvl, hcv⟩ := hder t iv hloc hclean
    refine ⟨v, hv, by rw [hvl, g2], fun c hc => ?_⟩
    have : vecOf v c = iteratedDeriv k (curve g iv c) t := by
      unfold vecOf
      rw [List.getD_eq_getElem?_getD, hcv c (by omega)]
      rfl
    rw [this]
    have := herr c hc t hlo hr
    have := hL0 (by omega)
    have : 0 ≤ 1 / 10 ^ 9 * L * step f m / 2 := by positivity
    linarith
  · have hne : ∃ j < n, Lagrange.almostEqual (window (vecOf g'.tau iv) (t - brk g' iv)) (p j) tol9 = true := by
      have hb' : brk g' iv = brk g iv := by unfold brk; rw [k1, k4]
      rw [k4, hb']
      rw [g4] at hclean
      change ¬ (∀ j < ((List.range n).map p).length, _ → _) at hclean
      push Not at hclean
      obtain ⟨j, hj, h, -⟩ := hclean
      have hj : j < n := by simpa using hj
      rw [vecOf_map_range hj] at h
      exact ⟨j, hj, h⟩
    have hbrk' : brk g' iv = brk g iv := by unfold brk; rw [k1, k4]
    have hloc' : Located g' t iv := by
      unfold Located at hloc ⊢
      have hbrk1' : brk g' (iv + 1) = brk g (iv + 1) := by unfold brk; rw [k1, k4]
      have hbrk0' : brk g' 0 = brk g 0 := by unfold brk; rw [k1, k4]
      have hbrkl' : brk g' g'.tau.length = brk g g.tau.length := by unfold brk; rw [k1, k4]
      rw [k4] at *
      simpa only [hbrk', hbrk1', hbrk0', hbrkl'] using hloc
    obtain ⟨j, hj, hnear, hv⟩ := C47_near_node g' n p (by rw [k3, g4]) k5 ⟨by rw [k4]; exact hpos.1, by rw [k4]; exact hpos.2⟩ t iv hloc' hne
    refine ⟨_, hv, by rw [nodalRow, List.length_map, List.length_range, k2, g2], fun c hc => ?_⟩
    have htau0 : vecOf g.tau iv ≠ 0 := by rw [htau]; exact hlen.ne'
    have hnod : nodal g' iv c j = iteratedDeriv k (curve g iv c) (gridPoint f.dom m iv (p j)) := by
      rw [← gl_curve (g := g') (by rw [k3, g4]) hp.sep (by rw [k4]; exact htau0) hj,
        GSpline.curve_deriv hval (by rw [g1]; exact hd.le) g5 (fun h0 => lt_irrefl _ (hpos.2 0 h0)) k hord hg' (by omega) htau0 (by omega)]
      congr 1
      rw [← g1, ← nodeTime_grid htr p hiv]
      unfold nodeTime
      rw [hbrk', k4]
    rw [nodalRow, vecOf_map_range (by omega), hnod]
    obtain ⟨b1, b2, -, -⟩ := gridPoint_mem hd.le hiv (x := p j) (hp.mem j hj)
    have h1 := herr c hc _ b1 b2
    have h2 := hL c hc _ t b1 b2 hlo hr
    have hd1 := almost_le (abs_le.mpr (hp.mem j hj)) hnear
    rw [k4, hbrk', htau, hbrk] at hd1
    have hw : gridPoint f.dom m iv (p j) - t = step f m / 2 * (p j - window (step f m) (t - gridPoint f.dom m iv (-1))) := by
      have h0 := hlen.ne'
      unfold window
      have : gridPoint f.dom m iv (p j) = gridPoint f.dom m iv (-1) + (p j + 1) / 2 * step f m := by unfold gridPoint step; ring
      rw [this]
      field_simp
      ring
    have h3 : |gridPoint f.dom m iv (p j) - t| ≤ step f m / 2 * (1 / 10 ^ 9) := by
      rw [hw, abs_mul, abs_of_pos (by linarith : 0 < step f m / 2), abs_sub_comm]
      exact mul_le_mul_of_nonneg_left hd1 (by linarith)
    have h4 := mul_le_mul_of_nonneg_left h3 (hL0 (by omega))
    have h5 := abs_sub_le (iteratedDeriv k (curve g iv c) (gridPoint f.dom m iv (p j))) (iteratedDeriv k (φ iv c) (gridPoint f.dom m iv (p j))) (iteratedDeriv k (φ iv c) t)
    linarith

/-- **C82.** The approximation of a function that is `n` times continuously differentiable on each interval is within `M h^n / n! + 10⁻⁹ L h / 2` of the function at every point
of the domain, where `h` is the length of the intervals, `M` a bound of the derivative of order `n` and `L` a Lipschitz constant of the function. -/
theorem C82_approximation (f : Fn) (n m : ℕ) (hn : n ≤ 44000) (hm : 0 < m) (jp jw junk : Vec) (hd : f.dom.1 < f.dom.2) (g : GSpline)
    (hg : Colloc.approximate f n m jp jw junk = .ok g) (M : ℝ) (φ : ℕ → ℕ → ℝ → ℝ) (hs : SmoothPieces f m n M φ) (L : ℝ)
    (hL : ∀ c < f.codim, ∀ s t, f.dom.1 ≤ s → s ≤ f.dom.2 → f.dom.1 ≤ t → t ≤ f.dom.2 → |val f c s - val f c t| ≤ L * |s - t|)
    (t : ℝ) (h1 : f.dom.1 ≤ t) (h2 : t ≤ f.dom.2) :
    ∃ v, g.value t = .ok v ∧ v.length = f.codim ∧ ∀ c < f.codim, |vecOf v c - val f c t| ≤ M * step f m ^ n / n.factorial + 1 / 10 ^ 9 * L * step f m / 2 := by
  obtain ⟨g', hg', h⟩ := C82_derivative f n m hn hm jp jw junk hd g hg M φ hs 0 (Nat.zero_le n)
  obtain ⟨iv, hiv, hl, hr⟩ := cell_of hd hm h1 h2
  have hgg : g' = g := by
    obtain ⟨p, w, hpw⟩ : ∃ p w, pointsWeights n jp jw = .ok (p, w) := by
      cases e : pointsWeights n jp jw with
      | error e' => unfold Colloc.approximate at hg; rw [e] at hg; cases hg
      | ok r => exact ⟨r.1, r.2, rfl⟩
    obtain ⟨g1, g2, g3, g4, g5, -⟩ := (C47_approximate f n m jp jw junk p w hpw hd.le).2 g hg
    have hlen : 0 < (f.dom.2 - f.dom.1) / m := div_pos (by linarith) (by exact_mod_cast hm)
    rw [GSpline.deriv_ok (by rw [g1]; exact hd.le) g5 (fun h0 => by rw [g3] at h0; rw [← List.eq_of_mem_replicate h0] at hlen; exact lt_irrefl _ hlen) 0, if_neg (by omega)] at hg'
    injection hg' with hg'
    exact hg'.symm
  subst hgg
  have hlo : gridPoint f.dom m iv (-1) ≤ t := by
    rcases hl with h | ⟨h, h'⟩
    · exact h.le
    · subst h; rw [h']; unfold gridPoint; norm_num
  have hin : ∀ s, gridPoint f.dom m iv (-1) ≤ s → s ≤ gridPoint f.dom m iv 1 → f.dom.1 ≤ s ∧ s ≤ f.dom.2 := fun s a b =>
    ⟨((gridPoint_mem hd.le hiv (x := -1) ⟨le_rfl, by norm_num⟩).2.2.1).trans a, b.trans (gridPoint_mem hd.le hiv (x := 1) ⟨by norm_num, le_rfl⟩).2.2.2⟩
  obtain ⟨v, hv, hvl, hb⟩ := h iv hiv L (fun c hc s t a1 a2 b1 b2 => by
    rw [iteratedDeriv_zero, ← hs.agrees iv hiv c hc s a1 a2, ← hs.agrees iv hiv c hc t b1 b2]
    exact hL c hc s t (hin s a1 a2).1 (hin s a1 a2).2 (hin t b1 b2).1 (hin t b1 b2).2) t hl hr
  refine ⟨v, hv, hvl, fun c hc => ?_⟩
  have := hb c hc
  rw [iteratedDeriv_zero, ← hs.agrees iv hiv c hc t hlo hr] at this
  simpa using this

/-- **C82.** Convergence: with a fixed number of nodes `n` per interval, the derivatives of order `k < n` of the approximation of an `n` times continuously differentiable
function converge uniformly to those of the function as the number of intervals grows. -/
theorem C82_converges (f : Fn) (n : ℕ) (h2 : 2 ≤ n) (hn : n ≤ 44000) (jp jw junk : Vec) (hd : f.dom.1 < f.dom.2)
    (he : ∀ t, f.dom.1 ≤ t → t ≤ f.dom.2 → ∃ r, f.call [t] = .ok [r]) (φ : ℕ → ℝ → ℝ) (hφ : ∀ c < f.codim, ContDiff ℝ n (φ c))
    (hag : ∀ c < f.codim, ∀ t, f.dom.1 ≤ t → t ≤ f.dom.2 → val f c t = φ c t) (k : ℕ) (hk : k < n) (ε : ℝ) (hε : 0 < ε) :
    ∃ m0, ∀ m, m0 ≤ m → ∃ g g', Colloc.approximate f n m jp jw junk = .ok g ∧ g.deriv k = .ok g' ∧
      ∀ t, f.dom.1 ≤ t → t ≤ f.dom.2 → ∃ v, g'.value t = .ok v ∧ v.length = f.codim ∧ ∀ c < f.codim, |vecOf v c - iteratedDeriv k (φ c) t| ≤ ε := by
  -- bounds of the derivatives
  have hbd : ∀ j ≤ n, ∃ B, 0 ≤ B ∧ ∀ c < f.codim, ∀ t ∈ Set.Icc f.dom.1 f.dom.2, |iteratedDeriv j (φ c) t| ≤ B := by
    intro j hj
    have h1 : ∀ c, ∃ B, 0 ≤ B ∧ (c < f.codim → ∀ t ∈ Set.Icc f.dom.1 f.dom.2, |iteratedDeriv j (φ c) t| ≤ B) := by
      intro c
      by_cases hc : c < f.codim
      · obtain ⟨B, hB⟩ := isCompact_Icc.exists_bound_of_continuousOn ((hφ c hc).continuous_iteratedDeriv j (by exact_mod_cast hj)).continuousOn (s := Set.Icc f.dom.1 f.dom.2)
        exact ⟨max B 0, le_max_right _ _, fun _ t ht => (hB t ht).trans (le_max_left _ _)⟩
      · exact ⟨0, le_rfl, fun h => absurd h hc⟩
    choose B hB0 hB using h1
    refine ⟨∑ c ∈ range f.codim, B c, sum_nonneg fun c _ => hB0 c, fun c hc t ht => (hB c hc t ht).trans ?_⟩
    exact single_le_sum (fun c _ => hB0 c) (mem_range.mpr hc)
  obtain ⟨M, hM0, hM⟩ := hbd n le_rfl
  obtain ⟨L, hL0, hL⟩ := hbd (k + 1) (by omega)
  set T := f.dom.2 - f.dom.1 with hT
  have hT0 : 0 < T := by rw [hT]; linarith
  obtain ⟨m0, hm0⟩ := exists_nat_gt (T + T * (M + L) / ε)
  have hq : 0 ≤ T * (M + L) / ε := by positivity
  refine ⟨m0, fun m hm => ?_⟩
  have hmm : T + T * (M + L) / ε < m := hm0.trans_le (by exact_mod_cast hm)
  have hmpos : (0 : ℝ) < m := by linarith
  have hmn : 0 < m := by exact_mod_cast hmpos
  have hst : step f m = T / m := rfl
  have hst0 : 0 < step f m := by rw [hst]; positivity
  have hst1 : step f m ≤ 1 := by rw [hst, div_le_one hmpos]; linarith
  have hst2 : (M + L) * step f m ≤ ε := by
    rw [hst, mul_div_assoc', div_le_iff₀ hmpos]
    have : T * (M + L) / ε ≤ m := by linarith
    rw [div_le_iff₀ hε] at this
    linarith
  obtain ⟨p, w, g, -, hg, -⟩ := C47_collocation f n m h2 hn jp jw junk hd he
  have hin : ∀ iv < m, ∀ s, gridPoint f.dom m iv (-1) ≤ s → s ≤ gridPoint f.dom m iv 1 → f.dom.1 ≤ s ∧ s ≤ f.dom.2 := fun iv hiv s a b =>
    ⟨((gridPoint_mem hd.le hiv (x := -1) ⟨le_rfl, by norm_num⟩).2.2.1).trans a, b.trans (gridPoint_mem hd.le hiv (x := 1) ⟨by norm_num, le_rfl⟩).2.2.2⟩
  obtain ⟨g', hg', h⟩ := C82_derivative f n m hn hmn jp jw junk hd g hg M (fun _ => φ)
    ⟨fun _ _ c hc => hφ c hc, fun iv hiv c hc t a b => hag c hc t (hin iv hiv t a b).1 (hin iv hiv t a b).2, fun iv hiv c hc t a b => hM c hc t (hin iv hiv t a b)⟩ k hk.le
  refine ⟨g, g', hg, hg', fun t t1 t2 => ?_⟩
  obtain ⟨iv, hiv, hl, hr⟩ := cell_of hd hmn t1 t2
  obtain ⟨v, hv, hvl, hb⟩ := h iv hiv L (fun c hc s u a1 a2 b1 b2 => by
    have hdf : ∀ x ∈ Set.Icc f.dom.1 f.dom.2, HasDerivWithinAt (iteratedDeriv k (φ c)) (iteratedDeriv (k + 1) (φ c) x) (Set.Icc f.dom.1 f.dom.2) x := by
      intro x _
      rw [iteratedDeriv_succ]
      exact (((hφ c hc).differentiable_iteratedDeriv k (by exact_mod_cast hk)) x).hasDerivAt.hasDerivWithinAt
    have := (convex_Icc f.dom.1 f.dom.2).norm_image_sub_le_of_norm_hasDerivWithin_le hdf (fun x hx => hL c hc x hx) (hin iv hiv u b1 b2) (hin iv hiv s a1 a2)
    exact this) t hl hr
  refine ⟨v, hv, hvl, fun c hc => (hb c hc).trans ?_⟩
  have hpw : step f m ^ (n - k) ≤ step f m := by
    calc step f m ^ (n - k) ≤ step f m ^ 1 := pow_le_pow_of_le_one hst0.le hst1 (by omega)
      _ = _ := pow_one _
  have hfac : (1 : ℝ) ≤ (n - k).factorial := by exact_mod_cast Nat.factorial_pos _
  have e1 : M * step f m ^ (n - k) / (n - k).factorial ≤ M * step f m :=
    (div_le_self (by positivity) hfac).trans (mul_le_mul_of_nonneg_left hpw hM0)
  have e2 : 0 ≤ L * step f m := by positivity
  linarith

/-- A smooth function is close to a polynomial. -/
theorem near_poly {φ : ℝ → ℝ} {N : ℕ} (hN : 0 < N) (hφ : ContDiff ℝ N φ) {a b : ℝ} (hab : a < b) {M : ℝ} (hM : ∀ t ∈ Set.Icc a b, |iteratedDeriv N φ t| ≤ M) :
    ∃ P : ℝ[X], P.natDegree < N ∧ ∀ t ∈ Set.Icc a b, |φ t - P.eval t| ≤ M * (b - a) ^ N / N.factorial := by
  set x : ℕ → ℝ := fun j => a + j * ((b - a) / N) with hx
  have hN0 : (0 : ℝ) < N := by exact_mod_cast hN
  have hst : 0 < (b - a) / N := div_pos (by linarith) hN0
  have hinj : Set.InjOn x (range N) := by
    intro i _ j _ e
    have e : a + i * ((b - a) / N) = a + j * ((b - a) / N) := e
    have := mul_right_cancel₀ hst.ne' (add_left_cancel e)
    exact_mod_cast this
  have hmem : ∀ j < N, x j ∈ Set.Icc a b := by
    intro j hj
    have hj' : (j : ℝ) ≤ N := by exact_mod_cast hj.le
    refine ⟨by simp only [hx]; nlinarith [Nat.cast_nonneg (α := ℝ) j], ?_⟩
    have : (N : ℝ) * ((b - a) / N) = b - a := by field_simp
    simp only [hx]
    nlinarith
  set P := _root_.Lagrange.interpolate (range N) x (fun j => φ (x j)) with hP
  have hdeg : P.natDegree < N := by
    by_cases h0 : P = 0
    · rw [h0, natDegree_zero]; exact hN
    · have := _root_.Lagrange.degree_interpolate_lt (fun j => φ (x j)) hinj
      rw [card_range, ← hP, degree_eq_natDegree h0] at this
      exact_mod_cast this
  refine ⟨P, hdeg, fun t ht => ?_⟩
  have hPc : ContDiff ℝ N (fun t => P.eval t) := by
    have : (fun t => P.eval t) = fun t => aeval t P := funext fun t => by simp [aeval_def]
    rw [this]
    exact P.contDiff_aeval N
  have hb := Approx.error_bound (e := fun t => φ t - P.eval t) (Nat.zero_le N) (hφ.sub hPc) (S := (range N).image x) (a := a) (b := b)
    (by rw [card_image_of_injOn hinj, card_range]) (fun y hy => by
      obtain ⟨j, hj, rfl⟩ := mem_image.mp hy
      refine ⟨hmem j (mem_range.mp hj), ?_⟩
      rw [hP, _root_.Lagrange.eval_interpolate_at_node _ hinj hj, sub_self]) (M := M) (fun u hu => by
      rw [iteratedDeriv_fun_sub hφ.contDiffAt hPc.contDiffAt, Approx.iteratedDeriv_eval, iterate_derivative_eq_zero hdeg]
      simpa using hM u hu) ht
  simpa using hb

/-- The error of the composite rule for a function that is smooth on each interval. -/
theorem quadrature_smooth_arr (φ : ℝ → ℝ) {d : ℝ × ℝ} (hd : d.1 < d.2) {n k : ℕ} (h2 : 2 ≤ n) (hn : n ≤ 20000) (hk : 0 < k) {p w r : Vec}
    (hp : Arr n p) (hr : Arr n r) (hq : ∀ i < n, (qPoly (n - 1)).eval (r i) = 0) (ha : ∀ i < n, |p i - r i| ≤ tol9 * |p i|) (hval : ∀ i < n, w i = wt (n - 1) (p i)) (ψ : ℕ → ℝ → ℝ) (hψ : ∀ iv < k, ContDiff ℝ (2 * n - 2 : ℕ) (ψ iv)) {D : ℝ}
    (hag : ∀ iv < k, ∀ t, gridPoint d k iv (-1) ≤ t → t ≤ gridPoint d k iv 1 → φ t = ψ iv t)
    (hD : ∀ iv < k, ∀ t, gridPoint d k iv (-1) ≤ t → t ≤ gridPoint d k iv 1 → |iteratedDeriv (2 * n - 2) (ψ iv) t| ≤ D) (L M : ℝ)
    (hL : ∀ s t, d.1 ≤ s → s ≤ d.2 → d.1 ≤ t → t ≤ d.2 → |φ s - φ t| ≤ L * |s - t|) (hM : ∀ t, d.1 ≤ t → t ≤ d.2 → |φ t| ≤ M) :
    |quadrature φ d n k p w - ∫ t in d.1..d.2, φ t| ≤
      (d.2 - d.1) * (2 * (D * ((d.2 - d.1) / k) ^ (2 * n - 2) / (2 * n - 2).factorial) + 1 / 10 ^ 9 * L * ((d.2 - d.1) / k) / 2 + 2 * (((n : ℝ) - 1 / 2) ^ 4 / 10 ^ 18) * M) := by
  have hk0 : (0 : ℝ) < k := by exact_mod_cast hk
  have hH : 0 < (d.2 - d.1) / k := div_pos (by linarith) hk0
  have hcell : ∀ iv < k, gridPoint d k iv (-1) < gridPoint d k iv 1 := fun iv _ => by unfold gridPoint; nlinarith
  have hwid : ∀ iv, gridPoint d k iv 1 - gridPoint d k iv (-1) = (d.2 - d.1) / k := fun iv => by unfold gridPoint; ring
  have key := composite (φ := φ) (d := d) (n := n) (p := p) (w := w) hk hd.le (fun iv hiv => by
      refine ((hψ iv hiv).continuous.intervalIntegrable _ _).congr ?_
      intro t ht
      rw [Set.uIoc_of_le (hcell iv hiv).le] at ht
      exact (hag iv hiv t ht.1.le ht.2).symm)
      (E := 2 * (1 / 10 ^ 9) * (L * ((d.2 - d.1) / k / 2)) + 4 * (((n : ℝ) - 1 / 2) ^ 4 / 10 ^ 18) * M + 4 * (D * ((d.2 - d.1) / k) ^ (2 * n - 2) / (2 * n - 2).factorial)) (fun iv hiv => ?_)
  · refine key.trans (le_of_eq ?_)
    ring
  · obtain ⟨P, hPd, hP⟩ := near_poly (by omega : 0 < 2 * n - 2) (hψ iv hiv) (hcell iv hiv) (fun t ht => hD iv hiv t ht.1 ht.2)
    rw [hwid] at hP
    set Q : ℝ[X] := P.comp (C ((d.2 - d.1) / k / 2) * X + C (d.1 + (iv + 1 / 2) * ((d.2 - d.1) / k))) with hQ
    have hQe : ∀ x, Q.eval x = P.eval (gridPoint d k iv x) := fun x => by
      rw [hQ, eval_comp, gridPoint_affine]
      simp only [eval_add, eval_mul, eval_C, eval_X]
      congr 1; ring
    have hQd : Q.natDegree ≤ 2 * n - 3 := by
      have h1 := natDegree_comp_le (p := P) (q := C ((d.2 - d.1) / k / 2) * X + C (d.1 + (iv + 1 / 2) * ((d.2 - d.1) / k)))
      have h2 : (C ((d.2 - d.1) / k / 2) * X + C (d.1 + (iv + 1 / 2) * ((d.2 - d.1) / k)) : ℝ[X]).natDegree ≤ 1 := natDegree_linear_le
      rw [← hQ] at h1
      have : P.natDegree * (C ((d.2 - d.1) / k / 2) * X + C (d.1 + (iv + 1 / 2) * ((d.2 - d.1) / k)) : ℝ[X]).natDegree ≤ P.natDegree := by nlinarith
      omega
    have hcont : Continuous fun x => ψ iv (gridPoint d k iv x) := (hψ iv hiv).continuous.comp (by unfold gridPoint; fun_prop)
    have hin : ∀ x ∈ Set.Icc (-1 : ℝ) 1, φ (gridPoint d k iv x) = ψ iv (gridPoint d k iv x) := fun x hx =>
      hag iv hiv _ (gridPoint_mem hd.le hiv hx).1 (gridPoint_mem hd.le hiv hx).2.1
    have := quad_error_arr hp hr hq ha hval (small_points h2 hn) hQd (ψ := fun x => φ (gridPoint d k iv x))
      ((hcont.intervalIntegrable _ _).congr (by
        intro x hx
        rw [Set.uIoc_of_le (by norm_num)] at hx
        exact (hin x ⟨hx.1.le, hx.2⟩).symm))
      (ε := D * ((d.2 - d.1) / k) ^ (2 * n - 2) / (2 * n - 2).factorial) (fun x hx => by
        rw [hin x hx, hQe]
        exact hP _ ⟨(gridPoint_mem hd.le hiv hx).1, (gridPoint_mem hd.le hiv hx).2.1⟩)
      (L := L * ((d.2 - d.1) / k / 2)) (M := M) (fun x hx y hy => by
        obtain ⟨-, -, a, b⟩ := gridPoint_mem hd.le hiv hx
        obtain ⟨-, -, a', b'⟩ := gridPoint_mem hd.le hiv hy
        refine (hL _ _ a b a' b').trans (le_of_eq ?_)
        rw [gridPoint_affine, gridPoint_affine, add_sub_add_left_eq_sub, ← mul_sub, abs_mul, abs_of_nonneg (by linarith : 0 ≤ (d.2 - d.1) / k / 2)]
        ring) (fun x hx => by
        obtain ⟨-, -, a, b⟩ := gridPoint_mem hd.le hiv hx
        exact hM _ a b)
    rw [nu_eq h2] at this
    exact this

/-- The same for the rule that `legendre_gauss_lobatto_points_and_weights` returns. -/
theorem quadrature_smooth (φ : ℝ → ℝ) {d : ℝ × ℝ} (hd : d.1 < d.2) {n k : ℕ} (h2 : 2 ≤ n) (hn : n ≤ 20000) (hk : 0 < k) {jp jw p w : Vec}
    (hpw : pointsWeights n jp jw = .ok (p, w)) (ψ : ℕ → ℝ → ℝ) (hψ : ∀ iv < k, ContDiff ℝ (2 * n - 2 : ℕ) (ψ iv)) {D : ℝ}
    (hag : ∀ iv < k, ∀ t, gridPoint d k iv (-1) ≤ t → t ≤ gridPoint d k iv 1 → φ t = ψ iv t)
    (hD : ∀ iv < k, ∀ t, gridPoint d k iv (-1) ≤ t → t ≤ gridPoint d k iv 1 → |iteratedDeriv (2 * n - 2) (ψ iv) t| ≤ D) (L M : ℝ)
    (hL : ∀ s t, d.1 ≤ s → s ≤ d.2 → d.1 ≤ t → t ≤ d.2 → |φ s - φ t| ≤ L * |s - t|) (hM : ∀ t, d.1 ≤ t → t ≤ d.2 → |φ t| ≤ M) :
    |quadrature φ d n k p w - ∫ t in d.1..d.2, φ t| ≤
      (d.2 - d.1) * (2 * (D * ((d.2 - d.1) / k) ^ (2 * n - 2) / (2 * n - 2).factorial) + 1 / 10 ^ 9 * L * ((d.2 - d.1) / k) / 2 + 2 * (((n : ℝ) - 1 / 2) ^ 4 / 10 ^ 18) * M) := by
  obtain ⟨-, -, hg⟩ := pointsWeights_spec hpw
  obtain ⟨r, hr, hq, ha⟩ := pw_exact hpw
  exact quadrature_smooth_arr φ hd h2 hn hk (pw_arr hpw) hr hq ha (fun i hi => (hg i hi).val) ψ hψ hag hD L M hL hM

/-- **C82.** `integral` of a scalar function that is `2 n - 2` times continuously differentiable on each of the `k` intervals returns its integral, up to
`(b - a) (2 D h^(2n-2) / (2n-2)! + 10⁻⁹ L h / 2 + 2 δ M)`, where `h = (b - a) / k` is the length of the intervals, `D` a bound of the derivative of order `2 n - 2`, `L` a Lipschitz
constant and `M` a bound of the function, and `δ = (n - 1/2)⁴ / 10¹⁸`. -/
theorem C82_integral (f : Fn) (h1 : f.codim = 1) (hd : f.dom.1 < f.dom.2) (n k : ℕ) (h2 : 2 ≤ n) (hn : n ≤ 20000) (hk : 0 < k) (jp jw : Vec)
    (he : ∀ t, f.dom.1 ≤ t → t ≤ f.dom.2 → ∃ x, f.call [t] = .ok [[x]]) (D : ℝ) (φ : ℕ → ℕ → ℝ → ℝ) (hs : SmoothPieces f k (2 * n - 2) D φ) (L M : ℝ)
    (hL : ∀ s t, f.dom.1 ≤ s → s ≤ f.dom.2 → f.dom.1 ≤ t → t ≤ f.dom.2 → |val f 0 s - val f 0 t| ≤ L * |s - t|)
    (hM : ∀ t, f.dom.1 ≤ t → t ≤ f.dom.2 → |val f 0 t| ≤ M) :
    ∃ v, f.integral n k jp jw = .ok v ∧
      |v - ∫ t in f.dom.1..f.dom.2, val f 0 t| ≤
        (f.dom.2 - f.dom.1) * (2 * (D * step f k ^ (2 * n - 2) / (2 * n - 2).factorial) + 1 / 10 ^ 9 * L * step f k / 2 + 2 * (((n : ℝ) - 1 / 2) ^ 4 / 10 ^ 18) * M) := by
  obtain ⟨p, w, hpw⟩ := (C45_returns n jp jw).mpr h2
  have hmem := fun k hk => (pw_arr hpw).mem (i := k) hk
  refine ⟨_, ((C43_integral f n k jp jw).2 h1 _).mpr ⟨p, w, hpw, fun iv hiv j hj => ?_, rfl⟩, ?_⟩
  · obtain ⟨-, -, a, b⟩ := gridPoint_mem hd.le hiv (hmem j hj)
    exact he _ a b
  · exact quadrature_smooth _ hd h2 hn hk hpw (fun iv => φ iv 0) (fun iv hiv => hs.smooth iv hiv 0 (by omega)) (fun iv hiv t a b => hs.agrees iv hiv 0 (by omega) t a b)
      (fun iv hiv t a b => hs.bound iv hiv 0 (by omega) t a b) L M hL hM

/-- **C82.** The inner products: if the weighted sum of the products of the derivatives is `2 n - 2` times continuously differentiable on each interval, its integral is returned up to
the same error. -/
theorem C82_inner_product (f g : Fn) (hf : Regular f) (hg : Regular g) (hc : f.codim = g.codim) (hd : f.dom.1 < f.dom.2) (terms : List (ℕ × ℝ))
    (ho : ∀ q ∈ terms, OrderOk q.1 f ∧ OrderOk q.1 g) (n k : ℕ) (h2 : 2 ≤ n) (hn : n ≤ 20000) (hk : 0 < k) (jp jw : Vec) (φ : ℝ → ℝ)
    (hφ : ∀ t, φ t = (terms.map fun q => q.2 * ∑ c ∈ range f.codim, dval f q.1 c t * dval g q.1 c t).sum) (D : ℝ) (ψ : ℕ → ℝ → ℝ)
    (hψ : ∀ iv < k, ContDiff ℝ (2 * n - 2 : ℕ) (ψ iv))
    (hag : ∀ iv < k, ∀ t, gridPoint f.dom k iv (-1) ≤ t → t ≤ gridPoint f.dom k iv 1 → φ t = ψ iv t)
    (hD : ∀ iv < k, ∀ t, gridPoint f.dom k iv (-1) ≤ t → t ≤ gridPoint f.dom k iv 1 → |iteratedDeriv (2 * n - 2) (ψ iv) t| ≤ D) (L M : ℝ)
    (hL : ∀ s t, f.dom.1 ≤ s → s ≤ f.dom.2 → f.dom.1 ≤ t → t ≤ f.dom.2 → |φ s - φ t| ≤ L * |s - t|) (hM : ∀ t, f.dom.1 ≤ t → t ≤ f.dom.2 → |φ t| ≤ M) :
    ∃ v, semiInner f g terms n k jp jw = .ok v ∧
      |v - ∫ t in f.dom.1..f.dom.2, φ t| ≤
        (f.dom.2 - f.dom.1) * (2 * (D * step f k ^ (2 * n - 2) / (2 * n - 2).factorial) + 1 / 10 ^ 9 * L * step f k / 2 + 2 * (((n : ℝ) - 1 / 2) ^ 4 / 10 ^ 18) * M) := by
  obtain ⟨p, w, hpw⟩ := (C45_returns n jp jw).mpr h2
  refine ⟨_, C43_semi_inner_product f g hf hg hc terms ho n k jp jw p w hpw, ?_⟩
  rw [show (fun t => (terms.map fun q => q.2 * ∑ c ∈ range f.codim, dval f q.1 c t * dval g q.1 c t).sum) = φ from funext fun t => (hφ t).symm]
  exact quadrature_smooth φ hd h2 hn hk hpw ψ hψ hag hD L M hL hM

/-! ## Cases -/

theorem exp_call (d : ℝ × ℝ) (t : ℝ) : (Fn.exp d).call [t] = .ok [[Real.exp t]] := by rfl

theorem exp_val (d : ℝ × ℝ) (t : ℝ) : val (Fn.exp d) 0 t = Real.exp t := by rw [val_of_call (exp_call d t)]; rfl

theorem exp_le_three {t : ℝ} (h : t ≤ 1) : Real.exp t ≤ 3 :=
  (Real.exp_le_exp.mpr h).trans (by have := Real.exp_one_lt_d9; linarith)

theorem exp_pieces (m n : ℕ) : SmoothPieces (Fn.exp (0, 1)) m n 3 (fun _ _ => Real.exp) := by
  have hc : ∀ c < (Fn.exp (0, 1)).codim, c = 0 := fun c hc => by simpa [codim] using hc
  refine ⟨fun _ _ _ _ => Real.contDiff_exp, fun iv hiv c h t _ _ => by rw [hc c h, exp_val], fun iv hiv c _ t _ b => ?_⟩
  rw [iteratedDeriv_eq_iterate, Real.iter_deriv_exp, abs_of_pos (Real.exp_pos t)]
  exact exp_le_three (b.trans (gridPoint_mem (by norm_num [dom]) hiv (x := 1) ⟨by norm_num, le_rfl⟩).2.2.2)

theorem exp_lip {s t : ℝ} (hs : s ≤ 1) (ht : t ≤ 1) : |Real.exp s - Real.exp t| ≤ 3 * |s - t| := by
  have := (convex_Iic (1 : ℝ)).norm_image_sub_le_of_norm_hasDerivWithin_le (f := Real.exp) (f' := Real.exp) (C := 3) (fun x _ => (Real.hasDerivAt_exp x).hasDerivWithinAt)
    (fun x hx => by rw [Real.norm_eq_abs, abs_of_pos (Real.exp_pos x)]; exact exp_le_three hx) (Set.mem_Iic.mpr ht) (Set.mem_Iic.mpr hs)
  exact this

/-- The exponential function on `[0, 1]`, ten intervals with five nodes: everywhere within `10⁻⁶`. -/
example (jp jw junk : Vec) (t : ℝ) (h1 : 0 ≤ t) (h2 : t ≤ 1) :
    ∃ g v, Colloc.approximate (Fn.exp (0, 1)) 5 10 jp jw junk = .ok g ∧ g.value t = .ok v ∧ |vecOf v 0 - Real.exp t| ≤ 1 / 10 ^ 6 := by
  obtain ⟨p, w, g, -, hg, -⟩ := C47_collocation (Fn.exp (0, 1)) 5 10 (by norm_num) (by norm_num) jp jw junk (by norm_num [dom]) (fun t _ _ => ⟨_, exp_call _ _⟩)
  have hc : ∀ c < (Fn.exp (0, 1)).codim, c = 0 := fun c hc => by simpa [codim] using hc
  obtain ⟨v, e, -, b⟩ := C82_approximation (Fn.exp (0, 1)) 5 10 (by norm_num) (by norm_num) jp jw junk (by norm_num [dom]) g hg 3 _ (exp_pieces 10 5) 3
    (fun c h s t _ a _ b => by rw [hc c h, exp_val, exp_val]; exact exp_lip a b) t h1 h2
  refine ⟨g, v, hg, e, ?_⟩
  have := b 0 (by norm_num [codim])
  rw [exp_val] at this
  refine this.trans ?_
  norm_num [step, dom, Nat.factorial]

/-- Its third derivative is within `1/50`. -/
example (jp jw junk : Vec) (t : ℝ) (h1 : 0 ≤ t) (h2 : t ≤ 1) :
    ∃ g g' v, Colloc.approximate (Fn.exp (0, 1)) 5 10 jp jw junk = .ok g ∧ g.deriv 3 = .ok g' ∧ g'.value t = .ok v ∧ |vecOf v 0 - Real.exp t| ≤ 1 / 50 := by
  obtain ⟨p, w, g, -, hg, -⟩ := C47_collocation (Fn.exp (0, 1)) 5 10 (by norm_num) (by norm_num) jp jw junk (by norm_num [dom]) (fun t _ _ => ⟨_, exp_call _ _⟩)
  obtain ⟨g', hg', h⟩ := C82_derivative (Fn.exp (0, 1)) 5 10 (by norm_num) (by norm_num) jp jw junk (by norm_num [dom]) g hg 3 _ (exp_pieces 10 5) 3 (by norm_num)
  obtain ⟨iv, hiv, hl, hr⟩ := cell_of (d := (Fn.exp (0, 1)).dom) (by norm_num [dom]) (by norm_num : 0 < 10) (t := t) h1 h2
  have hle : ∀ s, s ≤ gridPoint (Fn.exp (0, 1)).dom 10 iv 1 → s ≤ 1 := fun s b =>
    b.trans (gridPoint_mem (by norm_num [dom]) hiv (x := 1) ⟨by norm_num, le_rfl⟩).2.2.2
  obtain ⟨v, e, -, b⟩ := h iv hiv 3 (fun c _ s t _ a _ b => by
    rw [iteratedDeriv_eq_iterate, Real.iter_deriv_exp]; exact exp_lip (hle s a) (hle t b)) t hl hr
  refine ⟨g, g', v, hg, hg', e, ?_⟩
  have := b 0 (by norm_num [codim])
  rw [iteratedDeriv_eq_iterate, Real.iter_deriv_exp] at this
  refine this.trans ?_
  norm_num [step, dom, Nat.factorial]

/-- The approximations of the exponential function with four nodes per interval converge, with their second derivatives. -/
example (jp jw junk : Vec) (ε : ℝ) (hε : 0 < ε) : ∃ m0, ∀ m, m0 ≤ m → ∃ g g', Colloc.approximate (Fn.exp (0, 1)) 4 m jp jw junk = .ok g ∧ g.deriv 2 = .ok g' ∧
    ∀ t, 0 ≤ t → t ≤ 1 → ∃ v, g'.value t = .ok v ∧ v.length = 1 ∧ ∀ c < 1, |vecOf v c - iteratedDeriv 2 Real.exp t| ≤ ε :=
  C82_converges (Fn.exp (0, 1)) 4 (by norm_num) (by norm_num) jp jw junk (by norm_num [dom]) (fun t _ _ => ⟨_, exp_call _ _⟩) (fun _ => Real.exp) (fun _ _ => Real.contDiff_exp)
    (fun c h t _ _ => by rw [show c = 0 by simpa [codim] using h, exp_val]) 2 (by norm_num) ε hε

/-- The integral of the exponential function over `[0, 1]`, ten intervals with four points: `e - 1`, up to `10⁻⁷`. -/
example (jp jw : Vec) : ∃ v, (Fn.exp (0, 1)).integral 4 10 jp jw = .ok v ∧ |v - (Real.exp 1 - 1)| ≤ 1 / 10 ^ 7 := by
  obtain ⟨v, e, b⟩ := C82_integral (Fn.exp (0, 1)) rfl (by norm_num [dom]) 4 10 (by norm_num) (by norm_num) (by norm_num) jp jw (fun t _ _ => ⟨_, exp_call _ _⟩) 3 _
    (exp_pieces 10 (2 * 4 - 2)) 3 3 (fun s t _ a _ b => by rw [exp_val, exp_val]; exact exp_lip a b)
    (fun t _ b => by rw [exp_val, abs_of_pos (Real.exp_pos t)]; exact exp_le_three b)
  refine ⟨v, e, ?_⟩
  have hi : ∫ t in (Fn.exp (0, 1)).dom.1..(Fn.exp (0, 1)).dom.2, val (Fn.exp (0, 1)) 0 t = Real.exp 1 - 1 := by
    simp only [exp_val, dom]
    rw [integral_exp]; simp
  rw [hi] at b
  refine b.trans ?_
  norm_num [step, dom, Nat.factorial]

/-- The inner product of the exponential function with itself is `(e² - 1) / 2`, up to `10⁻⁵`. -/
example (jp jw : Vec) : ∃ v, semiInner (Fn.exp (0, 1)) (Fn.exp (0, 1)) [(0, 1)] 4 10 jp jw = .ok v ∧ |v - (Real.exp 2 - 1) / 2| ≤ 1 / 10 ^ 5 := by
  have hv : ∀ t, dval (Fn.exp (0, 1)) 0 0 t = Real.exp t := fun t => by
    rw [dval_smooth (.exp _) (.exp _) (.exp _ _) (by norm_num [codim]), iteratedDeriv_zero, exp_val]
  have hnine : ∀ t : ℝ, t ≤ 1 → Real.exp (2 * t) ≤ 9 := fun t ht => by
    rw [two_mul, Real.exp_add]
    have := exp_le_three ht
    have := Real.exp_pos t
    nlinarith
  have hder : ∀ k, iteratedDeriv k (fun t : ℝ => Real.exp (2 * t)) = fun t => 2 ^ k * Real.exp (2 * t) := fun k => by
    have h := iteratedDeriv_comp_const_mul (n := k) (f := Real.exp) Real.contDiff_exp 2
    rw [h]
    funext t
    rw [iteratedDeriv_eq_iterate, Real.iter_deriv_exp]
  have hle : ∀ iv < 10, ∀ s, s ≤ gridPoint (Fn.exp (0, 1)).dom 10 iv 1 → s ≤ 1 := fun iv hiv s b =>
    b.trans (gridPoint_mem (by norm_num [dom]) hiv (x := 1) ⟨by norm_num, le_rfl⟩).2.2.2
  obtain ⟨v, e, b⟩ := C82_inner_product (Fn.exp (0, 1)) (Fn.exp (0, 1)) (.exp _) (.exp _) rfl (by norm_num [dom]) [(0, 1)] (fun q _ => ⟨.exp _, .exp _⟩) 4 10
    (by norm_num) (by norm_num) (by norm_num) jp jw (fun t => Real.exp (2 * t)) (fun t => by simp [codim, hv, two_mul, Real.exp_add]) (64 * 9) (fun _ t => Real.exp (2 * t))
    (fun _ _ => Real.contDiff_exp.comp (contDiff_const.mul contDiff_id)) (fun _ _ _ _ _ => rfl)
    (fun iv hiv t _ b => by
      rw [hder, abs_of_pos (by positivity)]
      have := hnine t (hle iv hiv t b)
      norm_num
      linarith) 18 9
    (fun s t _ a _ b => by
      have := (convex_Iic (1 : ℝ)).norm_image_sub_le_of_norm_hasDerivWithin_le (f := fun t : ℝ => Real.exp (2 * t)) (f' := fun t => Real.exp (2 * t) * (2 * 1)) (C := 18)
        (fun x _ => (((hasDerivAt_id x).const_mul 2).exp).hasDerivWithinAt)
        (fun x hx => by
          rw [Real.norm_eq_abs, abs_of_pos (by positivity)]
          have := hnine x hx
          linarith) (Set.mem_Iic.mpr b) (Set.mem_Iic.mpr a)
      exact this)
    (fun t _ b => by
      rw [abs_of_pos (Real.exp_pos _)]
      exact hnine t b)
  refine ⟨v, e, ?_⟩
  have hi : ∫ t in (Fn.exp (0, 1)).dom.1..(Fn.exp (0, 1)).dom.2, Real.exp (2 * t) = (Real.exp 2 - 1) / 2 := by
    simp only [dom]
    rw [intervalIntegral.integral_comp_mul_left (fun t => Real.exp t) (by norm_num : (2 : ℝ) ≠ 0), integral_exp]
    norm_num
    ring
  rw [hi] at b
  refine b.trans ?_
  norm_num [step, dom, Nat.factorial]

end GSplines.Props
