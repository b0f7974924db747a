import Verif.Proofs.RateCost
import Verif.Props.RoundingSobolev

/-!
# C98: the errors of the value and the gradient of the cost are proportional to the rounding errors and the backward error

C88 says that the value and the gradient are as near as wanted to those of exact arithmetic if the errors are small enough. Here the distance is at most a constant times
the sum of the errors: the relative and the absolute rounding error `u.1` and `u.2` and the backward error `η` of the linear solver.
-/

namespace GSplines.Props

open GSplines Spec Interp Sobolev

theorem within_entry_of {u : ℝ × ℝ} {δ η : ℝ} (hu : Small u (δ / 3)) (h1 : 0 ≤ η) (h2 : η ≤ δ / 3) :
    0 ≤ u.1 + u.2 + η ∧ u.1 + u.2 + η ≤ δ ∧ Rounded.Within u (u.1 + u.2 + η) ∧ η ≤ u.1 + u.2 + η := by
  obtain ⟨a1, a2, a3, a4⟩ := hu
  exact ⟨by linarith, by linarith, ⟨a1, a3, by linarith⟩, by linarith⟩

/-- **C98** (value). For a basis, weights, interval lengths and way points there is a constant: if the rounding errors and the backward error are small, every call
succeeds, whatever the object was used for before, and the distance of the value from that of exact arithmetic is at most the constant times the sum of the errors. -/
theorem C98_value (b : Basis) (hb : Interpolable b) (hcl : Clear b (-1)) (hcr : Clear b 1) (weights : List (ℕ × ℝ)) (ho : ∀ p ∈ weights, Adds b p.1) (mem : LagMem)
    (tau : List ℝ) (hne : tau ≠ []) (ht : ∀ t ∈ tau, 1 / 10 ^ 6 ≤ t) (w : Pts) (hw : w.rows = tau.length + 1) :
    ∃ C ≥ (0 : ℝ), ∃ δ > (0 : ℝ), ∀ u, Small u δ → ∀ η, 0 ≤ η → η ≤ δ → ∀ lu, StableLU η (b.dim * w.cols * tau.length) lu → ∀ s, RSReach w b weights mem s →
      ∀ r, Rounded.cost u lu s tau r → ∃ s' v, r = .ok (s', v) ∧ RSReach w b weights mem s' ∧
        ∀ lu0, LUContract lu0 → ∀ s0, SReach lu0 w b weights mem s0 → ∃ s0' v0, s0.cost lu0 tau = .ok (s0', v0) ∧ |v - v0| ≤ C * (u.1 + u.2 + η) := by
  have hn : 0 < tau.length := List.length_pos_of_ne_nil hne
  obtain ⟨C, hC, δ, hδ, h⟩ := Rounded.cost_rate hb hcl hcr ho mem hne ht hw
  refine ⟨C, by linarith, δ / 3, by positivity, fun u hu η h1 h2 lu hlu s hs r hr => ?_⟩
  obtain ⟨k1, k2, k3, k4⟩ := within_entry_of hu h1 h2
  rcases h _ k1 k2 u k3 η h1 k4 lu hlu s hs r hr with ⟨_, hf, -⟩ | ⟨q, hq, rfl⟩
  · exact hf.elim
  refine ⟨q.1, q.2, rfl, hs.cost hr, fun lu0 hlu0 s0 hs0 => ?_⟩
  obtain ⟨s1, e⟩ := cost_eq hlu0 (by omega) hb ho hs0 hw.symm ht
  exact ⟨s1, _, e, hq⟩

/-- **C98** (gradient). The same for each entry that `deriv_wrt_interval_len` writes; the other entries of the buffer are not touched. -/
theorem C98_gradient (b : Basis) (hb : Interpolable b) (hcl : Clear b (-1)) (hcr : Clear b 1) (weights : List (ℕ × ℝ)) (ho : ∀ p ∈ weights, Adds b p.1)
    (ho' : ∀ p ∈ weights, AddsDtau b p.1) (mem : LagMem) (tau : List ℝ) (hne : tau ≠ []) (ht : ∀ t ∈ tau, 1 / 10 ^ 6 ≤ t) (w : Pts) (hw : w.rows = tau.length + 1) :
    ∃ C ≥ (0 : ℝ), ∃ δ > (0 : ℝ), ∀ u, Small u δ → ∀ η, 0 ≤ η → η ≤ δ → ∀ lu, StableLU η (b.dim * w.cols * tau.length) lu → ∀ s, RSReach w b weights mem s →
      ∀ buff : List ℝ, tau.length ≤ buff.length → ∀ r, Rounded.grad u lu s tau buff r → ∃ s' out, r = .ok (s', out) ∧ RSReach w b weights mem s' ∧
        out.length = buff.length ∧ (∀ idx, tau.length ≤ idx → vecOf out idx = vecOf buff idx) ∧
        ∀ lu0, LUContract lu0 → ∀ s0, SReach lu0 w b weights mem s0 → ∃ s0' out0, s0.grad lu0 tau buff = .ok (s0', out0) ∧
          ∀ idx < tau.length, |vecOf out idx - vecOf out0 idx| ≤ C * (u.1 + u.2 + η) := by
  have hn : 0 < tau.length := List.length_pos_of_ne_nil hne
  obtain ⟨g, hg, C, hC, δ, hδ, h⟩ := Rounded.grad_rate hb hcl hcr ho ho' mem hne ht hw
  refine ⟨C, by linarith, δ / 3, by positivity, fun u hu η h1 h2 lu hlu s hs buff hbuff r hr => ?_⟩
  obtain ⟨k1, k2, k3, k4⟩ := within_entry_of hu h1 h2
  rcases h _ k1 k2 u k3 η h1 k4 lu hlu s hs buff hbuff r hr with ⟨_, hf, -⟩ | ⟨q, ⟨hq1, hq2, hq3⟩, rfl⟩
  · exact hf.elim
  refine ⟨q.1, q.2, rfl, hs.grad hr, hq1, hq3, fun lu0 hlu0 s0 hs0 => ?_⟩
  obtain ⟨s1, o1, e, -, hd⟩ := grad_value hlu0 (by omega) hb ho ho' hs0 hw.symm ht hbuff
  refine ⟨s1, o1, e, fun idx hi => ?_⟩
  obtain ⟨d, hd1, hd2⟩ := hd idx hi
  obtain ⟨d', hd3, hd4⟩ := hg idx hi
  rw [hd2, gradFn_unique hd1 hd3, ← hd4]
  exact hq2 idx hi

/-- **C98** (meaning of the value). For the orders whose matrices are right and weights whose tail is one (see C41), the distance of the value from the weighted sum of the
integrals of the squared derivatives of the interpolating curve is at most a constant times the sum of the errors. -/
theorem C98_integral (b : Basis) (hb : Interpolable b) (hcl : Clear b (-1)) (hcr : Clear b 1) (weights : List (ℕ × ℝ)) (hr : ∀ p ∈ weights, RightOrder b p.1)
    (h1 : ∀ p ∈ weights.tail, p.2 = 1) (mem : LagMem) (tau : List ℝ) (hne : tau ≠ []) (ht : ∀ t ∈ tau, 1 / 10 ^ 6 ≤ t) (w : Pts) (hw : w.rows = tau.length + 1) :
    ∃ C ≥ (0 : ℝ), ∃ δ > (0 : ℝ), ∀ u, Small u δ → ∀ η, 0 ≤ η → η ≤ δ → ∀ lu, StableLU η (b.dim * w.cols * tau.length) lu → ∀ s, RSReach w b weights mem s →
      ∀ r, Rounded.cost u lu s tau r → ∃ s' v, r = .ok (s', v) ∧
        ∀ lu0, LUContract lu0 → ∀ junk, ∃ g, interpolateFn lu0 junk tau w b = .ok g ∧ Meets g w.at' ∧ g.tau = tau ∧ |v - sobolevCost g weights| ≤ C * (u.1 + u.2 + η) := by
  have hn : 0 < tau.length := List.length_pos_of_ne_nil hne
  obtain ⟨C, hC, δ, hδ, h⟩ := C98_value b hb hcl hcr weights (fun p hp => by
    have := hr p hp
    cases b with
    | b0101 a => simp only [RightOrder] at this; simp only [Adds]; omega
    | _ => trivial) mem tau hne ht w hw
  refine ⟨C, hC, δ, hδ, fun u hu η g1 g2 lu hlu s hs r hr' => ?_⟩
  obtain ⟨s', v, rfl, -, hv⟩ := h u hu η g1 g2 lu hlu s hs r hr'
  obtain ⟨j0, s0, hs0⟩ := rsreach_made hs
  refine ⟨s', v, rfl, fun lu0 hlu0 junk => ?_⟩
  obtain ⟨t', v0, e, hle⟩ := hv lu0 hlu0 s0 (.make hs0)
  obtain ⟨t1, g, v1, k1, k2, k3, k4, k5⟩ := C41_sobolev_norm_partial lu0 hlu0 w (by omega) b hb weights hr h1 mem s0 (.make hs0) tau hw.symm ht junk
  rw [e] at k4
  cases k4
  exact ⟨g, k1, k2, k3, by rw [← k5]; exact hle⟩

/-- **C98** (descent). Where the exact cost decreases from the interval lengths `tau` to `tau'`, so does the computed one, if the errors are small in comparison with the
decrease. -/
theorem C98_decrease (b : Basis) (hb : Interpolable b) (hcl : Clear b (-1)) (hcr : Clear b 1) (weights : List (ℕ × ℝ)) (ho : ∀ p ∈ weights, Adds b p.1) (mem : LagMem)
    (tau tau' : List ℝ) (hne : tau ≠ []) (hl : tau'.length = tau.length) (ht : ∀ t ∈ tau, 1 / 10 ^ 6 ≤ t) (ht' : ∀ t ∈ tau', 1 / 10 ^ 6 ≤ t) (w : Pts)
    (hw : w.rows = tau.length + 1) :
    ∃ C ≥ (0 : ℝ), ∃ δ > (0 : ℝ), ∀ u, Small u δ → ∀ η, 0 ≤ η → η ≤ δ → ∀ lu, StableLU η (b.dim * w.cols * tau.length) lu → ∀ s s1 s1' s2 v v',
      RSReach w b weights mem s → RSReach w b weights mem s1 → Rounded.cost u lu s tau (.ok (s1', v)) → Rounded.cost u lu s1 tau' (.ok (s2, v')) →
        ∀ lu0, LUContract lu0 → ∀ s0, SReach lu0 w b weights mem s0 → ∃ t0 t1 v0 v0', s0.cost lu0 tau = .ok (t0, v0) ∧ s0.cost lu0 tau' = .ok (t1, v0') ∧
          (C * (u.1 + u.2 + η) < v0 - v0' → v' < v) := by
  have hne' : tau' ≠ [] := fun h => hne (by rw [h] at hl; exact List.length_eq_zero_iff.mp hl.symm)
  obtain ⟨C, hC, δ, hδ, h⟩ := C98_value b hb hcl hcr weights ho mem tau hne ht w hw
  obtain ⟨C', hC', δ', hδ', h'⟩ := C98_value b hb hcl hcr weights ho mem tau' hne' ht' w (by omega)
  refine ⟨C + C', by linarith, min δ δ', lt_min hδ hδ', fun u hu η h1 h2 lu hlu s s1 s1' s2 v v' hs hs1 hr hr' lu0 hlu0 s0 hs0 => ?_⟩
  obtain ⟨_, _, e, -, hv⟩ := h u ⟨hu.1, hu.2.1.trans (min_le_left _ _), hu.2.2.1, hu.2.2.2.trans (min_le_left _ _)⟩ η h1 (h2.trans (min_le_left _ _)) lu hlu s hs _ hr
  obtain ⟨_, _, e', -, hv'⟩ := h' u ⟨hu.1, hu.2.1.trans (min_le_right _ _), hu.2.2.1, hu.2.2.2.trans (min_le_right _ _)⟩ η h1 (h2.trans (min_le_right _ _)) lu (by rw [hl]; exact hlu)
    s1 hs1 _ hr'
  cases e
  cases e'
  obtain ⟨t0, v0, k1, k2⟩ := hv lu0 hlu0 s0 hs0
  obtain ⟨t1, v0', k3, k4⟩ := hv' lu0 hlu0 s0 hs0
  refine ⟨t0, t1, v0, v0', k1, k3, fun hlt => ?_⟩
  have := abs_le.mp k2
  have := abs_le.mp k4
  linarith

/-! ## Examples -/

/-- The hypotheses of the theorems hold for a new object and linear solvers with a backward error that is not zero; for each size of the errors there are results. -/
example : Interpolable (.legendre 4) ∧ Clear (.legendre 4) (-1) ∧ Clear (.legendre 4) 1 ∧ (∀ p ∈ [((1 : ℕ), (1 : ℝ))], Adds (.legendre 4) p.1 ∧ AddsDtau (.legendre 4) p.1) ∧
    (∀ t ∈ [(1 : ℝ), 2], 1 / 10 ^ 6 ≤ t) ∧ corner.rows = [(1 : ℝ), 2].length + 1 ∧ RSReach corner (.legendre 4) [(1, 1)] ⟨fun _ => 0, Mat.zero⟩ cornerNorm ∧
    ∀ δ > (0 : ℝ), ∃ u, Small u δ ∧ 0 < u.1 ∧ 0 < u.2 ∧ (∃ lu, StableLU δ ((Basis.legendre 4).dim * corner.cols * 2) lu ∧ ¬ LUContract lu) ∧
      (∃ r, Rounded.cost u exactLU cornerNorm [1, 2] (.ok r)) ∧ ∃ r, Rounded.grad u exactLU cornerNorm [1, 2] [0, 0, 7] (.ok r) := by
  have ht : ∀ t ∈ [(1 : ℝ), 2], 1 / 10 ^ 6 ≤ t := by simp; norm_num
  have ho : ∀ p ∈ [((1 : ℕ), (1 : ℝ))], Adds (.legendre 4) p.1 := by simp [Adds]
  have ho' : ∀ p ∈ [((1 : ℕ), (1 : ℝ))], AddsDtau (.legendre 4) p.1 := by simp [AddsDtau]
  refine ⟨interpolable4, trivial, trivial, by simp [Adds, AddsDtau], ht, rfl, .make cornerNorm_make, fun δ hδ => ⟨(δ, δ), ⟨hδ.le, le_rfl, hδ.le, le_rfl⟩, hδ, hδ, ⟨shrunkLU δ, shrunkLU_stable hδ.le _, fun hc => ?_⟩, ?_, ?_⟩⟩
  · have hI : Invertible 1 (fun _ _ => 1) := ⟨fun _ _ => 1, fun i hi j hj => by
      obtain rfl : i = 0 := by omega
      obtain rfl : j = 0 := by omega
      simp⟩
    have e1 := hc.solves 1 (fun _ _ => 1) (fun _ => 1) (hc.succeeds 1 _ hI) 0 (by omega)
    have e2 := exactLU_contract.solves 1 (fun _ _ => 1) (fun _ => 1) (exactLU_contract.succeeds 1 _ hI) 0 (by omega)
    simp only [shrunkLU, Finset.sum_range_one, one_mul] at e1 e2
    rw [e2] at e1
    linarith
  · obtain ⟨s', h⟩ := Rounded.cost_has (u := (δ, δ)) hδ.le hδ.le interpolable4 ho (mem := ⟨fun _ => 0, Mat.zero⟩) (by simp) ht (w := corner) rfl exactLU_contract (.make cornerNorm_make)
    exact ⟨_, h⟩
  · obtain ⟨s', out, h, -⟩ := Rounded.grad_has (u := (δ, δ)) hδ.le hδ.le interpolable4 ho ho' (mem := ⟨fun _ => 0, Mat.zero⟩) (by simp) ht (w := corner) rfl exactLU_contract (.make cornerNorm_make)
      (buff := [0, 0, 7]) (by simp)
    exact ⟨_, h⟩

/-- The hypotheses of `C98_integral` hold for the integrated squared jerk and Basis0101. -/
example (p : ℕ → ℕ → ℝ) : Interpolable (.b0101 (1 / 4)) ∧ Clear (.b0101 (1 / 4)) (-1) ∧ Clear (.b0101 (1 / 4)) 1 ∧ (∀ q ∈ [((3 : ℕ), (1 : ℝ))], RightOrder (.b0101 (1 / 4)) q.1) ∧
    (∃ s, RSReach ⟨4, 2, p⟩ (.b0101 (1 / 4)) [(3, 1)] ⟨fun _ => 0, Mat.zero⟩ s) :=
  ⟨interpolable0101 (by norm_num) (by norm_num), trivial, trivial, by simp [RightOrder], ⟨_, .make (junk := fun _ => 0) (by
    unfold Sobolev.make Interp.make
    rw [if_neg (by norm_num), if_neg (by simp [Basis.dim]), if_neg (by simp [Basis.dim])]
    rfl)⟩⟩

end GSplines.Props
