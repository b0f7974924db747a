import Verif.Proofs.WellPosed
import Verif.Props.Residual
import Verif.Proofs.SobolevMemory

/-!
# C91: interpolation is well posed

The curve depends continuously on the interval lengths and way points, so that data known up to small errors give nearly the right curve.
-/

namespace GSplines.Props

open GSplines Spec Interp Residual Finset Topology WellPosed Sobolev

/-- **C91** (pieces). For a basis, interval lengths, way points, an order and a bound on times: if the lengths and way points change by little, the end of the domain and the
function of each interval with its derivatives up to that order change by as little as wanted. -/
theorem C91_pieces (b : Basis) (hb : Interpolable b) (tau : List ℝ) (hne : tau ≠ []) (ht : ∀ t ∈ tau, 1 / 10 ^ 6 ≤ t) (w : Pts) (hw : w.rows = tau.length + 1) (D : ℕ) (R ε : ℝ)
    (hε : 0 < ε) : ∃ δ > 0, ∀ tau' w', NearLengths δ tau tau' → (∀ t ∈ tau', 1 / 10 ^ 6 ≤ t) → NearPts δ w w' → ∀ lu lu', LUContract lu → LUContract lu' → ∀ junk junk' : Vec,
      ∃ g g', interpolateFn lu junk tau w b = .ok g ∧ interpolateFn lu' junk' tau' w' b = .ok g' ∧ g'.dom.1 = g.dom.1 ∧ |g'.dom.2 - g.dom.2| ≤ ε ∧ g'.codim = g.codim ∧
        ∀ i < tau.length, ∀ c < w.cols, ∀ d ≤ D, ∀ t, |t| ≤ R → |iteratedDeriv d (curve g' i c) t - iteratedDeriv d (curve g i c) t| ≤ ε := by
  have hn : 0 < tau.length := List.length_pos_of_ne_nil hne
  have hpos : ∀ t ∈ tau, 0 < t := fun t h => lt_of_lt_of_le (by norm_num) (ht t h)
  have hz : dataOf tau w ∈ good tau.length := fun i hi => vecOf_pos hpos hi
  obtain ⟨δ, hδ, h⟩ := data_near (pieceD_near hb (codim := w.cols) hz D R hε)
  have hn' : (0 : ℝ) < tau.length := by exact_mod_cast hn
  refine ⟨min δ (ε / tau.length), lt_min hδ (by positivity), fun tau' w' h1 ht' h2 lu lu' hlu hlu' junk junk' => ?_⟩
  have h1' : NearLengths δ tau tau' := ⟨h1.1, fun i hi => (h1.2 i hi).trans (min_le_left _ _)⟩
  have hne' : tau' ≠ [] := List.length_pos_iff.mp (by rw [h1.1]; exact hn)
  have hw' : w'.rows = tau'.length + 1 := by rw [h2.1, h1.1, hw]
  have hpos' : ∀ t ∈ tau', 0 < t := fun t h => lt_of_lt_of_le (by norm_num) (ht' t h)
  obtain ⟨g, hg⟩ := Symmetry.interpolate_ok hlu junk hb hne ht hw
  obtain ⟨g', hg'⟩ := Symmetry.interpolate_ok hlu' junk' hb hne' ht' hw'
  obtain ⟨x, rfl, hI, hcon⟩ := exact_coefficients hlu hb hne hw hg
  obtain ⟨x', rfl, hI', hcon'⟩ := exact_coefficients hlu' hb hne' hw' hg'
  refine ⟨_, _, hg, hg', rfl, ?_, h2.2.1, fun i hi c hc d hd t hR => ?_⟩
  · have hb := brk_near (g := ⟨(0, tau.sum), w.cols, b, x, tau⟩) (g' := ⟨(0, tau'.sum), w'.cols, b, x', tau'⟩) rfl rfl (by positivity) h1 (j := tau.length) le_rfl
    have e1 : brk ⟨(0, tau.sum), w.cols, b, x, tau⟩ tau.length = tau.sum := by simp [brk]
    have e2 : brk ⟨(0, tau'.sum), w'.cols, b, x', tau'⟩ tau.length = tau'.sum := by simp [brk, ← h1.1]
    rw [e1, e2] at hb
    refine hb.trans ?_
    calc (tau.length : ℝ) * min δ (ε / tau.length) ≤ tau.length * (ε / tau.length) := mul_le_mul_of_nonneg_left (min_le_right _ _) hn'.le
      _ = ε := by field_simp
  · rw [curve_pieceD hb hne' hpos' hw' hI' (by rw [h1.1]; exact hi) (by rw [h2.2.1]; exact hc), curve_pieceD hb hne hpos hw hI hi hc, h1.1, h2.2.1]
    exact h tau' w' h1' ⟨h2.1, h2.2.1, fun i hi c hc => (h2.2.2 i hi c hc).trans (min_le_left _ _)⟩ i hi c hc d hd t (abs_le.mp hR)

/-- **C91** (values). For a basis, interval lengths, way points, an order below `dim / 2` and a bound on times: if the lengths, the way points and the time change by
little, the value of that derivative of the interpolating curve changes by as little as wanted. One bound holds for all times, also when the time is on the other side of
a breakpoint after the change. (With a Lagrange basis: at times where values are right.) -/
theorem C91_values (b : Basis) (hb : Interpolable b) (tau : List ℝ) (hne : tau ≠ []) (ht : ∀ t ∈ tau, 1 / 10 ^ 6 ≤ t) (w : Pts) (hw : w.rows = tau.length + 1) (d : ℕ)
    (hd : d < b.dim / 2) (R ε : ℝ) (hε : 0 < ε) :
    ∃ δ > 0, ∀ tau' w', NearLengths δ tau tau' → (∀ t ∈ tau', 1 / 10 ^ 6 ≤ t) → NearPts δ w w' → ∀ lu lu', LUContract lu → LUContract lu' → ∀ junk junk' : Vec,
      ∃ g g' f f', interpolateFn lu junk tau w b = .ok g ∧ interpolateFn lu' junk' tau' w' b = .ok g' ∧ g.deriv d = .ok f ∧ g'.deriv d = .ok f' ∧
        ∀ t t', |t| ≤ R → |t' - t| ≤ δ → Away g t → Away g' t' → ∃ x x', Gives f t x ∧ Gives f' t' x' ∧ ∀ c < w.cols, |x c - x' c| ≤ ε := by
  have hn : 0 < tau.length := List.length_pos_of_ne_nil hne
  have hpos : ∀ t ∈ tau, 0 < t := fun t h => lt_of_lt_of_le (by norm_num) (ht t h)
  have hz : dataOf tau w ∈ good tau.length := fun i hi => vecOf_pos hpos hi
  have hn' : (0 : ℝ) < tau.length := by exact_mod_cast hn
  obtain ⟨δ1, hδ1, hnear⟩ := data_near (pieceD_near hb (codim := w.cols) hz d (R + 1) (show 0 < ε / 4 by positivity))
  obtain ⟨ρ, hρ, hunif⟩ := pieceD_uniform hb (codim := w.cols) hz d (R + 1) (show 0 < ε / 4 by positivity)
  obtain ⟨κ, hκ⟩ : ∃ κ, κ = min (min ρ 1) (1 / 10 ^ 6) / (2 * (tau.length + 2)) := ⟨_, rfl⟩
  have hm0 : 0 < min (min ρ 1) ((1 : ℝ) / 10 ^ 6) := lt_min (lt_min hρ one_pos) (by norm_num)
  have hκ0 : 0 < κ := by rw [hκ]; positivity
  have hκm : (tau.length + 2) * κ < min (min ρ 1) (1 / 10 ^ 6) := by
    have : 2 * ((tau.length + 2) * κ) = min (min ρ 1) (1 / 10 ^ 6) := by rw [hκ]; field_simp
    linarith
  have hκρ : (tau.length + 2) * κ ≤ ρ := hκm.le.trans ((min_le_left _ _).trans (min_le_left _ _))
  have hκ1 : (tau.length + 2) * κ ≤ 1 := hκm.le.trans ((min_le_left _ _).trans (min_le_right _ _))
  have hκs : (tau.length + 2) * κ < 1 / 10 ^ 6 := hκm.trans_le (min_le_right _ _)
  refine ⟨min δ1 κ, lt_min hδ1 hκ0, fun tau' w' h1 ht' h2 lu lu' hlu hlu' junk junk' => ?_⟩
  have h1' : NearLengths δ1 tau tau' := ⟨h1.1, fun i hi => (h1.2 i hi).trans (min_le_left _ _)⟩
  have h1k : NearLengths κ tau tau' := ⟨h1.1, fun i hi => (h1.2 i hi).trans (min_le_right _ _)⟩
  have hne' : tau' ≠ [] := List.length_pos_iff.mp (by rw [h1.1]; exact hn)
  have hw' : w'.rows = tau'.length + 1 := by rw [h2.1, h1.1, hw]
  have hpos' : ∀ t ∈ tau', 0 < t := fun t h => lt_of_lt_of_le (by norm_num) (ht' t h)
  obtain ⟨g, hg⟩ := Symmetry.interpolate_ok hlu junk hb hne ht hw
  obtain ⟨g', hg'⟩ := Symmetry.interpolate_ok hlu' junk' hb hne' ht' hw'
  obtain ⟨G, -⟩ := Symmetry.good_of hlu hb hne ht hw hg
  obtain ⟨G', -⟩ := Symmetry.good_of hlu' hb hne' ht' hw' hg'
  obtain ⟨x, rfl, hI, hcon⟩ := exact_coefficients hlu hb hne hw hg
  obtain ⟨x', rfl, hI', hcon'⟩ := exact_coefficients hlu' hb hne' hw' hg'
  have hord : b.MatOrderOk d := by
    cases b with
    | b0101 a => rw [show (Basis.b0101 a).dim = 6 by norm_num [Basis.dim]] at hd; change d ≤ 2; omega
    | _ => trivial
  obtain ⟨f, f1, f2, f3, f4, f5, f6, f7⟩ := C14_derivative_partial _ hb.valid hcon G.pos (List.sum_nonneg fun t h => (hpos t h).le) d hord
  obtain ⟨f', f1', f2', f3', f4', f5', f6', f7'⟩ := C14_derivative_partial _ hb.valid hcon' G'.pos (List.sum_nonneg fun t h => (hpos' t h).le) d hord
  refine ⟨_, _, f, f', hg, hg', f1, f1', fun t t' hR htt ha ha' => ?_⟩
  have htk : |t' - t| ≤ κ := htt.trans (min_le_right _ _)
  obtain ⟨i, hi⟩ := GSpline.located_exists G.pos t
  obtain ⟨i', hi'⟩ := GSpline.located_exists G'.pos t'
  obtain ⟨v, v1, v2, v3⟩ := f7 t i hi (ha i hi)
  obtain ⟨v', v1', v2', v3'⟩ := f7' t' i' hi' (ha' i' hi')
  have hin : i < tau.length := hi.1
  have hin' : i' < tau.length := by rw [← h1.1]; exact hi'.1
  refine ⟨_, _, ⟨v, v1, by rw [v2, f3], by rw [f3]; exact v3⟩, ⟨v', v1', by rw [v2', f3'], by rw [f3']; exact v3'⟩, fun c hc => ?_⟩
  beta_reduce
  rw [curve_pieceD hb hne' hpos' hw' hI' hi'.1 (by rw [h2.2.1]; exact hc), curve_pieceD hb hne hpos hw hI hin hc, h1.1, h2.2.1]
  have hκn : 0 ≤ (tau.length : ℝ) * κ := by positivity
  have hκ1' : κ ≤ 1 := by nlinarith
  have hRt := abs_le.mp hR
  have htk' := abs_le.mp htk
  have m1 : t ∈ Set.Icc (-(R + 1)) (R + 1) := ⟨by linarith, by linarith⟩
  have m2 : t' ∈ Set.Icc (-(R + 1)) (R + 1) := ⟨by linarith, by linarith⟩
  have s1 := hnear tau' w' h1' ⟨h2.1, h2.2.1, fun i hi c hc => (h2.2.2 i hi c hc).trans (min_le_left _ _)⟩ i' hin' c hc d le_rfl t' m2
  obtain ⟨P, hP⟩ : ∃ P : ℕ → ℝ → ℝ, P = fun i t => pieceD b tau.length w.cols i c d (dataOf tau w, t) := ⟨_, rfl⟩
  have hPi : ∀ i t, pieceD b tau.length w.cols i c d (dataOf tau w, t) = P i t := fun i t => by rw [hP]
  have hun : ∀ i < tau.length, ∀ s ∈ Set.Icc (-(R + 1)) (R + 1), ∀ t ∈ Set.Icc (-(R + 1)) (R + 1), |s - t| ≤ ρ → |P i s - P i t| ≤ ε / 4 := fun i hi s hs t ht h => by
    rw [hP]; exact hunif i hi c hc s hs t ht h
  have hjoin : ∀ j, j + 1 < tau.length → P j (brk ⟨(0, tau.sum), w.cols, b, x, tau⟩ (j + 1)) = P (j + 1) (brk ⟨(0, tau.sum), w.cols, b, x, tau⟩ (j + 1)) := fun j hj => by
    rw [hP]
    beta_reduce
    rw [← curve_pieceD hb hne hpos hw hI (e := tau.sum) (by omega) hc, ← curve_pieceD hb hne hpos hw hI (e := tau.sum) hj hc]
    exact G.meets.joins j hj c hc d (by change d ≤ b.dim - 2; omega)
  rw [hPi] at s1 ⊢
  have s1' := abs_le.mp s1
  have key : |P i t - P i' t'| ≤ ε / 2 := by
    rcases located_near G.pos G'.pos rfl rfl ht hκ0.le (by change ((tau.length : ℝ) + 1) * κ < _; nlinarith) h1k htk hi hi' with rfl | ⟨rfl, h⟩ | ⟨rfl, h⟩
    · refine (hun i' hin t m1 t' m2 ?_).trans (by linarith)
      rw [abs_sub_comm]
      refine htk.trans (le_trans ?_ hκρ)
      nlinarith
    · obtain ⟨B, hB⟩ : ∃ B, B = brk ⟨(0, tau.sum), w.cols, b, x, tau⟩ (i + 1) := ⟨_, rfl⟩
      rw [← hB] at h
      have h' := abs_le.mp h
      have e := hjoin i hin'
      rw [← hB] at e
      change |t - B| ≤ ((tau.length : ℝ) + 1) * κ at h
      have h' := abs_le.mp h
      have m3 : B ∈ Set.Icc (-(R + 1)) (R + 1) := ⟨by linarith, by linarith⟩
      have a1 := abs_le.mp (hun i hin t m1 B m3 (h.trans (by linarith)))
      have a2 := abs_le.mp (hun (i + 1) hin' B m3 t' m2 (abs_le.mpr ⟨by linarith, by linarith⟩))
      rw [e] at a1
      exact abs_le.mpr ⟨by linarith, by linarith⟩
    · obtain ⟨B, hB⟩ : ∃ B, B = brk ⟨(0, tau.sum), w.cols, b, x, tau⟩ (i' + 1) := ⟨_, rfl⟩
      rw [← hB] at h
      have e := hjoin i' hin
      rw [← hB] at e
      change |t - B| ≤ ((tau.length : ℝ) + 1) * κ at h
      have h' := abs_le.mp h
      have m3 : B ∈ Set.Icc (-(R + 1)) (R + 1) := ⟨by linarith, by linarith⟩
      have a1 := abs_le.mp (hun (i' + 1) hin t m1 B m3 (h.trans (by linarith)))
      have a2 := abs_le.mp (hun i' hin' B m3 t' m2 (abs_le.mpr ⟨by linarith, by linarith⟩))
      rw [← e] at a1
      exact abs_le.mpr ⟨by linarith, by linarith⟩
  have key' := abs_le.mp key
  exact abs_le.mpr ⟨by linarith, by linarith⟩

/-- **C91** (way points). For a basis, a number of components, interval lengths and an order there is a constant such that, for all way points, changing them by at most `ε`
changes the curve and its derivatives up to that order by at most the constant times `ε`. -/
theorem C91_waypoints (b : Basis) (hb : Interpolable b) (codim : ℕ) (tau : List ℝ) (hne : tau ≠ []) (ht : ∀ t ∈ tau, 1 / 10 ^ 6 ≤ t) (D : ℕ) :
    ∃ C : ℝ, 0 ≤ C ∧ ∀ w w' : Pts, w.rows = tau.length + 1 → w.cols = codim → ∀ ε : ℝ, NearPts ε w w' → ∀ lu lu', LUContract lu → LUContract lu' → ∀ junk junk' : Vec,
      ∃ g g', interpolateFn lu junk tau w b = .ok g ∧ interpolateFn lu' junk' tau w' b = .ok g' ∧ CloseUpTo D (C * ε) g g' := by
  have U := usable_of hb.valid hb.even hb.ne hb.left hb.right
  have hn : 0 < tau.length := List.length_pos_of_ne_nil hne
  have hpos : ∀ i < tau.length, 0 < vecOf tau i := fun i hi' => vecOf_pos (fun t h => lt_of_lt_of_le (by norm_num) (ht t h)) hi'
  obtain ⟨A, inv, S, hinv⟩ := system_inverse hb codim hne ht
  obtain ⟨B, hB0, hB⟩ := basis_bound b tau.length (vecOf tau) D
  set N := b.dim * codim * tau.length with hN
  set K := ∑ i ∈ range N, ∑ r ∈ range N, |inv i r| with hK
  have hK0 : 0 ≤ K := sum_nonneg fun i _ => sum_nonneg fun r _ => abs_nonneg _
  refine ⟨b.dim * B * K, by positivity, fun w w' hw hc ε h lu lu' hlu hlu' junk junk' => ?_⟩
  subst hc
  have hw' : w'.rows = tau.length + 1 := by rw [h.1, hw]
  obtain ⟨g, hg⟩ := Symmetry.interpolate_ok hlu junk hb hne ht hw
  obtain ⟨g', hg'⟩ := Symmetry.interpolate_ok hlu' junk' hb hne ht hw'
  obtain ⟨G, -⟩ := Symmetry.good_of hlu hb hne ht hw hg
  obtain ⟨x, rfl, hI, hcon⟩ := exact_coefficients hlu hb hne hw hg
  obtain ⟨x', rfl, hI', hcon'⟩ := exact_coefficients hlu' hb hne hw' hg'
  refine ⟨_, _, hg, hg', ?_⟩
  rw [h.2.1] at hI'
  have hclose := close_of (g := ⟨(0, tau.sum), w.cols, b, x, tau⟩) (g' := ⟨(0, tau.sum), w'.cols, b, x', tau⟩) hb.valid rfl hcon hcon' G.pos (by simp) rfl rfl h.2.1 hB
    (δ := K * ε) (fun k hk => by
      have i1 := (interpolates_iff U hn _ _ _).mp hI
      have i2 := (interpolates_iff U hn _ _ _).mp hI'
      have s0 : Solves N A (vecOf x') (fun r => ∑ j ∈ range N, A r j * vecOf x' j) := fun r _ => rfl
      refine solution_error hinv s0 (fun r hr => ?_) hk
      rw [hN, U.dim] at hr
      obtain ⟨q, rfl⟩ := row_surj (n := tau.length) (c := w.cols) (h := b.dim / 2 - 1) hn hr
      beta_reduce
      rw [S.sum U hn (fun i hi => (hpos i hi).ne') _ q, S.sum U hn (fun i hi => (hpos i hi).ne') _ q, i1 q, i2 q, abs_sub_comm]
      have hε0 : 0 ≤ ε ∨ w.cols = 0 := by
        rcases Nat.eq_zero_or_pos w.cols with h0 | h0
        · exact .inr h0
        · exact .inl ((abs_nonneg _).trans (h.2.2 0 (by omega) 0 h0))
      cases q with
      | start iv comp => exact h.2.2 iv (by have := iv.2; omega) comp comp.2
      | stop iv comp => exact h.2.2 (iv + 1) (by have := iv.2; omega) comp comp.2
      | restL comp j => rcases hε0 with h | h; · simpa [Cond.target] using h
                        exact absurd comp.2 (by omega)
      | restR comp j => rcases hε0 with h | h; · simpa [Cond.target] using h
                        exact absurd comp.2 (by omega)
      | join iv comp j => rcases hε0 with h | h; · simpa [Cond.target] using h
                          exact absurd comp.2 (by omega))
  simpa only [mul_assoc] using hclose

/-- **C91** (cost). For a basis, weights, interval lengths and way points: if the lengths and way points change by little, the Sobolev cost that the norm objects compute
changes by as little as wanted, whatever the objects were used for before. -/
theorem C91_cost (b : Basis) (hb : Interpolable b) (weights : List (ℕ × ℝ)) (ho : ∀ p ∈ weights, Adds b p.1) (ho' : ∀ p ∈ weights, AddsDtau b p.1) (mem : LagMem)
    (tau : List ℝ) (hne : tau ≠ []) (ht : ∀ t ∈ tau, 1 / 10 ^ 6 ≤ t) (w : Pts) (hw : w.rows = tau.length + 1) (ε : ℝ) (hε : 0 < ε) :
    ∃ δ > 0, ∀ tau' w', NearLengths δ tau tau' → (∀ t ∈ tau', 1 / 10 ^ 6 ≤ t) → NearPts δ w w' → ∀ lu lu', LUContract lu → LUContract lu' →
      ∀ s s', SReach lu w b weights mem s → SReach lu' w' b weights mem s' → ∃ r r' v v', s.cost lu tau = .ok (r, v) ∧ s'.cost lu' tau' = .ok (r', v') ∧ |v' - v| ≤ ε := by
  have hn : 0 < tau.length := List.length_pos_of_ne_nil hne
  have hpos : ∀ t ∈ tau, 0 < t := fun t h => lt_of_lt_of_le (by norm_num) (ht t h)
  have hz : dataOf tau w ∈ good tau.length := fun i hi => vecOf_pos hpos hi
  have hc := (WellPosed.costFn_continuousOn hb (mem := mem) ho' (codim := w.cols) hn).continuousAt ((good_open _).mem_nhds hz)
  obtain ⟨δ, hδ, h⟩ := data_near (hc.preimage_mem_nhds (Metric.closedBall_mem_nhds _ hε))
  refine ⟨δ, hδ, fun tau' w' h1 ht' h2 lu lu' hlu hlu' s s' hs hs' => ?_⟩
  have hne' : tau' ≠ [] := List.length_pos_iff.mp (by rw [h1.1]; exact hn)
  have hw' : w'.rows = tau'.length + 1 := by rw [h2.1, h1.1, hw]
  have hpos' : ∀ t ∈ tau', 0 < t := fun t h => lt_of_lt_of_le (by norm_num) (ht' t h)
  obtain ⟨r, hr⟩ := cost_eq hlu (by omega) hb ho hs hw.symm ht
  obtain ⟨r', hr'⟩ := cost_eq hlu' (by have := h1.1; omega) hb ho hs' hw'.symm ht'
  refine ⟨r, r', _, _, hr, hr', ?_⟩
  have := h tau' w' h1 h2
  rw [Set.mem_preimage, Metric.mem_closedBall, Real.dist_eq] at this
  rw [costFn_data hb hne' hpos' hw', costFn_data hb hne hpos hw, h1.1, h2.2.1]
  exact this

/-! ## The hypotheses can be met -/

/-- C91: with all three kinds of bases, for lengths and way points that differ. -/
example : ∃ b1 b2 b3 : Basis, b1 = .legendre 4 ∧ b2 = .lagrange [-1, -1 / 3, 1 / 3, 1] ∧ b3 = .b0101 (1 / 2) ∧ (∀ b ∈ [b1, b2, b3], Interpolable b) ∧ ∀ δ > 0, δ ≤ (1 : ℝ) →
    NearLengths δ [1, 2] [1 + δ, 2 - δ / 2] ∧ (∀ t ∈ [1 + δ, 2 - δ / 2], 1 / 10 ^ 6 ≤ t) ∧ NearPts δ corner ⟨3, 2, fun i c => corner.at' i c + δ⟩ ∧ corner.rows = [(1 : ℝ), 2].length + 1 := by
  refine ⟨_, _, _, rfl, rfl, rfl, ?_, fun δ h h1 => ⟨⟨rfl, ?_⟩, ?_, ⟨rfl, rfl, ?_⟩, rfl⟩⟩
  · simp only [List.mem_cons, List.not_mem_nil, or_false]
    rintro b (rfl | rfl | rfl)
    · exact interpolable4
    · exact Sobolev.thirds_interpolable
    · exact interpolable0101 (by norm_num) (by norm_num)
  · intro i hi
    have : i = 0 ∨ i = 1 := by simp at hi; omega
    rcases this with rfl | rfl
    · simp [vecOf, abs_of_pos h]
    · simp only [vecOf, List.getD_cons_succ, List.getD_cons_zero]
      rw [abs_le]; constructor <;> linarith
  · intro t ht
    simp only [List.mem_cons, List.not_mem_nil, or_false] at ht
    rcases ht with rfl | rfl <;> norm_num <;> linarith
  · intro i _ c _
    simp [abs_of_pos h]

/-- Sobolev norms on the same data, with the weights of the acceleration. -/
example : Adds (.legendre 4) 2 ∧ AddsDtau (.legendre 4) 2 ∧ ∃ s s', SReach exactLU corner (.legendre 4) [(2, 1)] ⟨fun _ => 0, Mat.zero⟩ s ∧
    SReach exactLU ⟨3, 2, fun i c => corner.at' i c + 1⟩ (.legendre 4) [(2, 1)] ⟨fun _ => 0, Mat.zero⟩ s' :=
  ⟨trivial, trivial, _, _, .make (junk := fun _ => 0) rfl, .make (junk := fun _ => 0) rfl⟩

end GSplines.Props
