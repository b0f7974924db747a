import Verif.Props.SplineError
import Verif.Props.RoundingInterp
import Verif.Props.WellPosed

/-!
# C92: from a curve through samples, interpolation and evaluation with rounding errors back to the curve
-/

namespace GSplines.Props

open GSplines Spec Interp Residual Finset

/-- **C92.** Let a curve with `dim` continuous derivatives, at rest at both ends, be sampled at the breakpoints with errors of at most `μ`. If the rounding errors and the
backward error of the linear solver are small enough, then interpolating the samples and evaluating the result at a time of the domain succeeds and gives the position of the
curve at that time, up to three errors: that of exact interpolation between exact samples (C83), a constant times `μ`, and a number as small as wanted. The constant does not
depend on the samples, their errors or the time. (With a Lagrange basis: at times that rounding does not move into the neighbourhood of a node.) -/
theorem C92_tracking (b : Basis) (hb : Interpolable b) (hcl : Clear b (-1)) (hcr : Clear b 1) (tau : List ℝ) (hne : tau ≠ []) (ht : ∀ t ∈ tau, 1 / 10 ^ 6 ≤ t) (codim : ℕ)
    (φ : ℕ → ℝ → ℝ) (hφ : ∀ c < codim, ContDiff ℝ b.dim (φ c)) (hrest : ∀ c < codim, AtRest (b.dim / 2) tau.sum (φ c)) (step : ℝ) (hstep : ∀ t ∈ tau, t ≤ step) :
    ∃ C : ℝ, 0 ≤ C ∧ ∀ w : Pts, w.rows = tau.length + 1 → w.cols = codim → ∀ μ : ℝ, (∀ i ≤ tau.length, ∀ c < codim, |w.at' i c - φ c (instant tau i)| ≤ μ) →
      ∀ t, 0 ≤ t → t ≤ tau.sum → (∀ i < tau.length, instant tau i ≤ t → t ≤ instant tau (i + 1) → Clear b (window (vecOf tau i) (t - instant tau i))) →
      ∀ ε > 0, ∃ δ > 0, ∀ u u', Small u δ → Small u' δ → ∀ η, 0 ≤ η → η ≤ δ → ∀ lu, StableLU η (b.dim * codim * tau.length) lu → ∀ s, RReach codim tau.length b s →
        ∀ r, Rounded.interpolate u lu s tau w r → ∃ s' g, r = .ok (s', g) ∧ ∀ r', Rounded.value u' g t r' → ∃ x, r' = .ok x ∧ x.length = codim ∧ ∀ c < codim,
          |vecOf x c - φ c t| ≤ √(step ^ (2 * b.dim - 1) * ∫ s in (0)..tau.sum, residual b (φ c) s ^ 2) + C * μ + ε := by
  obtain ⟨C, hC, hway⟩ := C91_waypoints b hb codim tau hne ht 0
  refine ⟨C, hC, fun w hw hc μ hμ t h0 h1 hclear ε hε => ?_⟩
  obtain ⟨ge, hge, g1, g2, g3, g4, hacc⟩ := C83_interpolate_function exactLU exactLU_contract (fun _ => 0) b hb tau hne ht
    ⟨tau.length + 1, codim, fun i c => φ c (instant tau i)⟩ rfl φ hφ (fun _ _ _ _ => rfl) hrest step hstep
  obtain ⟨g0, ge', hg0, hge', hclose⟩ := hway w ⟨tau.length + 1, codim, fun i c => φ c (instant tau i)⟩ hw hc μ
    ⟨hw.symm, hc.symm, fun i hi c hcc => by rw [abs_sub_comm]; exact hμ i (by omega) c (by omega)⟩ exactLU exactLU exactLU_contract exactLU_contract (fun _ => 0) (fun _ => 0)
  rw [hge] at hge'
  cases hge'
  obtain ⟨G0, k1, k2, k3⟩ := Symmetry.good_of exactLU_contract hb hne ht hw hg0
  obtain ⟨Ge, -⟩ := Symmetry.good_of exactLU_contract hb hne ht (w := ⟨tau.length + 1, codim, fun i c => φ c (instant tau i)⟩) rfl hge
  have hd0 : g0.dom = (0, tau.sum) := by rw [G0.ends, k1]
  have hb0 : ∀ i, brk g0 i = instant tau i := fun i => by rw [brk_instant (by rw [hd0]), k1]
  have hbe : ∀ i, brk ge i = instant tau i := fun i => by rw [brk_instant (by rw [g1]), g2]
  have htouch : ∀ i, Touches g0 t i → Clear b (window (vecOf tau i) (t - brk g0 i)) := by
    rintro i ⟨a1, a2, a3⟩
    rw [k1] at a1
    rw [hb0] at a2 ⊢
    rw [hb0, k1] at a3
    refine hclear i a1 ?_ ?_
    · rcases a2 with h | rfl
      · exact h
      · simpa [instant] using h0
    · rcases a3 with h | h
      · exact h
      · rw [h]; simpa [instant] using h1
  obtain ⟨i, hi⟩ := GSpline.located_exists G0.pos t
  have hti : Touches g0 t i := by
    refine ⟨hi.1, ?_, ?_⟩
    · rcases hi.2 with ⟨_, h⟩ | ⟨h, _⟩ | ⟨h, _⟩
      · exact .inr h
      · exact .inl h.le
      · exact .inl ((GSpline.brk_mono G0.pos hi.1.le le_rfl).trans h.le)
    · rcases hi.2 with ⟨h, rfl⟩ | ⟨_, h⟩ | ⟨_, h⟩
      · exact .inl (h.trans (GSpline.brk_lt_succ G0.pos hi.1).le)
      · exact .inl h
      · exact .inr h
  have hclean : b.CleanAt (window (vecOf tau i) (t - instant tau i)) := by
    have := clean_of_clear (htouch i hti)
    rwa [hb0] at this
  have hie : Located ge t i := by
    have := hi
    unfold Located at this ⊢
    simp only [hb0, hbe, k1, g2] at this ⊢
    exact this
  have haway : Away g0 t := fun j hj => by
    have : j = i := by
      have e1 := GSpline.getInterval_of_located G0.pos hj
      have e2 := GSpline.getInterval_of_located G0.pos hi
      omega
    rw [this, k3, k1, hb0]
    exact hclean
  obtain ⟨x, xe, hx, hxe, hxx⟩ := hclose.values t (by rw [hd0]; exact h0) (by rw [hd0]; exact h1) haway
  obtain ⟨x0, hx0, hx0l, δ, hδ, hround⟩ := C85_values b hb hcl hcr tau hne ht w hw exactLU exactLU_contract (fun _ => 0) g0 hg0 t htouch ε hε
  refine ⟨δ, hδ, ?_⟩
  rw [← hc]
  intro u u' hu hu' η hη hηδ lu hlu s hs r hr
  obtain ⟨s', g, hr', hval⟩ := hround u u' hu hu' η hη hηδ lu hlu s hs r hr
  refine ⟨s', g, hr', fun r' hr' => ?_⟩
  obtain ⟨y, y1, y2, y3⟩ := hval r' hr'
  refine ⟨y, y1, y2, fun c hcc => ?_⟩
  have hcc' : c < codim := by omega
  -- the value of the exact spline through the given samples
  have e1 : vecOf x0 c = x c := by
    obtain ⟨v, v1, -, v3⟩ := hx
    rw [hx0] at v1
    cases v1
    have := v3 c (by rw [k2]; exact hcc)
    unfold vecOf
    rw [List.getD_eq_getElem?_getD, this]
    rfl
  -- the value of the exact spline through exact samples
  have e2 : xe c = curve ge i c t := by
    obtain ⟨v, v1, -, v3⟩ := hxe
    obtain ⟨v', w1, -, w3⟩ := C12_value ge (by rw [g4]; exact hb.valid) Ge.con Ge.pos t i hie (by rw [g4, g2, hbe]; exact hclean)
    rw [v1] at w1
    cases w1
    have a := v3 c (by rw [g3]; exact hcc')
    rw [w3 c (by rw [g3]; exact hcc')] at a
    exact (Option.some.inj a).symm
  have hm : 1 ≤ b.dim / 2 := by have := hb.ne; have := hb.even; omega
  have e3 : |curve ge i c t - φ c t| ≤ √(step ^ (2 * b.dim - 1) * ∫ s in (0)..tau.sum, residual b (φ c) s ^ 2) := by
    obtain ⟨gd, d1, d2⟩ := hacc.pointwise 0 (by rw [g4]; omega)
    obtain ⟨v, v1, v2, v3⟩ := d2 t (by rw [g1]; exact ⟨h0, h1⟩) i hie (by rw [g4, g2, hbe]; exact hclean)
    obtain ⟨gd', f1, f2, f3, f4, f5, f6, f7⟩ := C14_derivative_partial ge (by rw [g4]; exact hb.valid) Ge.con Ge.pos (by rw [g1]; exact h0.trans h1) 0 (by
      rw [g4]
      cases b with
      | b0101 a => exact Nat.zero_le 2
      | _ => trivial)
    rw [d1] at f1
    cases f1
    obtain ⟨v', w1, -, w3⟩ := f7 t i hie (by rw [g4, g2, hbe]; exact hclean)
    rw [v1] at w1
    cases w1
    obtain ⟨z, z1, z2⟩ := v3 c (by rw [g3]; exact hcc')
    rw [w3 c (by rw [g3]; exact hcc')] at z1
    cases z1
    rw [iteratedDeriv_zero, iteratedDeriv_zero, g4, g2, Nat.sub_zero] at z2
    exact Real.abs_le_sqrt z2
  have e4 := y3 c hcc
  have e5 := hxx c (by rw [k2]; exact hcc)
  rw [e1] at e4
  rw [e2] at e5
  calc |vecOf y c - φ c t| = |(vecOf y c - x c) + (x c - curve ge i c t) + (curve ge i c t - φ c t)| := by congr 1; ring
    _ ≤ |vecOf y c - x c| + |x c - curve ge i c t| + |curve ge i c t - φ c t| := abs_add_three _ _ _
    _ ≤ _ := by linarith

/-! ## The hypotheses can be met -/

/-- The theorem applies to the movement `10 t³ - 15 t⁴ + 6 t⁵` from `0` to `1`, cut into two intervals, with samples that are off by up to a thousandth: if the errors
are small enough a run exists, and every run ends within the error of C83 plus `(C + 1) / 1000` of the curve at time `1 / 3`. -/
example : ∃ w : Pts, w.at' 1 0 ≠ 10 * (1 / 2) ^ 3 - 15 * (1 / 2) ^ 4 + 6 * (1 / 2) ^ 5 ∧ ∃ C : ℝ, 0 ≤ C ∧ ∃ δ > 0, (∃ lu, StableLU δ (4 * 1 * 2) lu) ∧ ∀ u, Small u δ → ∀ lu, StableLU δ (4 * 1 * 2) lu →
    ∃ s, RReach 1 2 (.legendre 4) s ∧ (∃ r, Rounded.interpolate u lu s [1 / 2, 1 / 2] w r) ∧ ∀ r, Rounded.interpolate u lu s [1 / 2, 1 / 2] w r → ∃ s' g, r = .ok (s', g) ∧
      ∀ r', Rounded.value u g (1 / 3) r' → ∃ x, r' = .ok x ∧
        |vecOf x 0 - (10 * (1 / 3) ^ 3 - 15 * (1 / 3) ^ 4 + 6 * (1 / 3) ^ 5)| ≤
          √((1 / 2) ^ 7 * ∫ s in (0)..1, residual (.legendre 4) (fun t => 10 * t ^ 3 - 15 * t ^ 4 + 6 * t ^ 5) s ^ 2) + C * (1 / 1000) + 1 / 1000 := by
  have hsum : ([1 / 2, 1 / 2] : List ℝ).sum = 1 := by norm_num
  obtain ⟨C, hC, h⟩ := C92_tracking (.legendre 4) interpolable4 trivial trivial [1 / 2, 1 / 2] (by simp) (by norm_num) 1 (fun _ t => 10 * t ^ 3 - 15 * t ^ 4 + 6 * t ^ 5)
    (fun c _ => by fun_prop) (fun c _ d e1 e2 => by
      obtain rfl : d = 1 := by rw [show (Basis.legendre 4).dim = 4 from rfl] at e2; omega
      rw [quintic_deriv.1, hsum]
      norm_num) (1 / 2) (by norm_num)
  obtain ⟨δ, hδ, h⟩ := h ⟨3, 1, fun i _ => 10 * instant [1 / 2, 1 / 2] i ^ 3 - 15 * instant [1 / 2, 1 / 2] i ^ 4 + 6 * instant [1 / 2, 1 / 2] i ^ 5 + 1 / 1000⟩ rfl rfl (1 / 1000)
    (fun i _ c _ => by simp only [add_sub_cancel_left]; rw [abs_of_pos (by norm_num)]) (1 / 3) (by norm_num) (by rw [hsum]; norm_num) (fun _ _ _ _ => trivial) (1 / 1000) (by norm_num)
  refine ⟨⟨3, 1, fun i _ => 10 * instant [1 / 2, 1 / 2] i ^ 3 - 15 * instant [1 / 2, 1 / 2] i ^ 4 + 6 * instant [1 / 2, 1 / 2] i ^ 5 + 1 / 1000⟩, ?_, C, hC, δ, hδ, ⟨shrunkLU δ, shrunkLU_stable hδ.le _⟩, fun u hu lu hlu => ⟨⟨.legendre 4, 1, 2, Mat.zero, fun _ => 0, fun _ => 0, fun _ => Mat.zero, []⟩, RReach.make (junk := fun _ => 0) rfl,
    ⟨_, C85_exact u hu.1 hu.2.2.1 _ 1 2 (by norm_num) _ interpolable4 _ (RReach.make (junk := fun _ => 0) rfl) _ _⟩, fun r hr => ?_⟩⟩
  · norm_num [instant]
  · obtain ⟨s', g, e1, e2⟩ := h u u hu hu δ hδ.le le_rfl lu hlu _ (RReach.make (junk := fun _ => 0) rfl) r hr
    refine ⟨s', g, e1, fun r' hr' => ?_⟩
    obtain ⟨x, x1, -, x3⟩ := e2 r' hr'
    have := x3 0 (by norm_num)
    rw [hsum] at this
    exact ⟨x, x1, this⟩

end GSplines.Props
