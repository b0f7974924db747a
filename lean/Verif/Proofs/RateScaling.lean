import Verif.Model.RoundingScaling
import Verif.Proofs.RatePerturb
import Verif.Proofs.RateDeriv
import Verif.Proofs.Scaling

/-! # Scaling a spline in time: errors proportional to the rounding errors -/

namespace GSplines.Rounded

open Nd Spec

theorem scaledAlpha_rate {a f : ℝ} (h0 : 0 < a) (h1 : a < 1) (hf : f ≠ 0) :
    RateAt (fun u (q : ℝ × ℝ) => scaledAlpha u q.1 q.2) (a, f) (GSpline.scaledAlpha a f) := by
  have hd : (0 : ℝ) < 1 - a := by linarith
  unfold scaledAlpha
  refine RateAt.bind (RateAt.near (by fun_prop)) ?_
  refine RateAt.bind (RateAt.near (by fun_prop)) ?_
  refine RateAt.bind (RateAt.near (by apply LLip.rpow; (fun_prop); exact ne_of_gt h0)) ?_
  refine RateAt.bind (RateAt.near (by fun_prop)) ?_
  refine RateAt.bind (RateAt.near (by fun_prop)) ?_
  refine RateAt.bind (RateAt.near (by apply LLip.rpow; (fun_prop); exact ne_of_gt hd)) ?_
  refine RateAt.bind (RateAt.quot (by fun_prop) (by fun_prop) (ne_of_gt (Real.rpow_pos_of_pos hd _))) ?_
  refine RateAt.bind (RateAt.quot (by fun_prop) (by fun_prop) hf) ?_
  refine RateAt.bind (RateAt.near (pow_llip (by fun_prop) 4)) ?_
  refine RateAt.bind (RateAt.near (by fun_prop)) ?_
  refine RateAt.bind (RateAt.near (by fun_prop)) ?_
  exact (RateAt.quot (by fun_prop) (by fun_prop) (by positivity)).congr rfl

/-- The parameter of the scaled basis; zero for the other bases. -/
noncomputable def scaledPar (u : ℝ × ℝ) (b : Basis) (p f : ℝ) : Nd ℝ :=
  match b with
  | .b0101 _ => scaledAlpha u p f
  | _ => pure p

theorem scaledPar_rate {b : Basis} (hb : b.Valid) (hpos : ∀ a, b = .b0101 a → 0 < a) {f : ℝ} (hf : f ≠ 0) :
    RateAt (fun u (q : ℝ × ℝ) => scaledPar u b q.1 q.2) (par b, f) (par (GSpline.scaledBasis b f)) := by
  cases b with
  | b0101 a => exact scaledAlpha_rate (hpos a rfl) hb.2 hf
  | legendre d => exact RateAt.pure (f := fun q : ℝ × ℝ => q.1) (x := ((0 : ℝ), f)) (by fun_prop)
  | lagrange x => exact RateAt.pure (f := fun q : ℝ × ℝ => q.1) (x := ((0 : ℝ), f)) (by fun_prop)

/-- The numbers computed by GSpline.hpp:233-264 as a function of the end of the domain, the interval lengths and the parameter: lengths, end and parameter. -/
noncomputable def scalingCore (u : ℝ × ℝ) (b : Basis) (a0 T : ℝ) (m : ℕ) (q : (ℝ × Vec) × ℝ) : Nd ((List ℝ × ℝ) × ℝ) := do
  let len ← near u (q.1.1 - a0)
  let f ← quot u T len
  let tau ← (List.range m).mapM fun k => near u (q.1.2 k * f)
  let stop ← near u (a0 + T)
  let p ← scaledPar u b q.2 f
  return ((tau, stop), p)

theorem scalingCore_rate {g : GSpline} (hb : g.basis.Valid) (hpos : ∀ a, g.basis = .b0101 a → 0 < a) (hlen : 0 < g.domainLength) {T : ℝ} (hT : 0 < T) :
    RateAt (fun u q => scalingCore u g.basis g.dom.1 T g.tau.length q) ((g.dom.2, vecOf g.tau), par g.basis)
      (((g.tau.map (· * (T / g.domainLength))), g.dom.1 + T), par (GSpline.scaledBasis g.basis (T / g.domainLength))) := by
  have hl : g.dom.2 - g.dom.1 ≠ 0 := hlen.ne'
  have hf : T / g.domainLength ≠ 0 := (div_pos hT hlen).ne'
  unfold scalingCore
  refine RateAt.bind (RateAt.near (f := fun q : (ℝ × Vec) × ℝ => q.1.1 - g.dom.1) (by fun_prop)) ?_
  refine RateAt.bind (RateAt.quot (by fun_prop) (by fun_prop) hl) ?_
  refine RateAt.bind (RateAt.mapM (z := fun k => vecOf g.tau k * (T / g.domainLength)) _ fun k _ => (RateAt.near (by fun_prop)).congr rfl) ?_
  refine RateAt.bind (RateAt.near (f := fun _ => g.dom.1 + T) (LLip.const _ _)) ?_
  refine RateAt.bind (RateAt.comp (x := (((((((g.dom.2, vecOf g.tau), par g.basis) : (ℝ × Vec) × ℝ), g.dom.2 - g.dom.1), T / (g.dom.2 - g.dom.1)),
    (List.range g.tau.length).map fun k => vecOf g.tau k * (T / g.domainLength)), g.dom.1 + T))
    (f := fun q : (((((ℝ × Vec) × ℝ) × ℝ) × ℝ) × List ℝ) × ℝ => (q.1.1.1.1.2, q.1.1.2)) (scaledPar_rate hb hpos hf) (by fun_prop)) ?_
  refine (RateAt.pure (by fun_prop)).congr ?_
  have : (List.range g.tau.length).map (fun k => vecOf g.tau k * (T / g.domainLength)) = g.tau.map (· * (T / g.domainLength)) := by
    conv_rhs => rw [← range_map_vecOf g.tau]
    rw [List.map_map]
    rfl
  simp only [this]
  rfl

/-- The scaled spline is near the exactly scaled one. -/
theorem linearScaling_near {g : GSpline} (hb : g.basis.Valid) (hpos : ∀ a, g.basis = .b0101 a → 0 < a) (hcon : Consistent g) (hlen : 0 < g.domainLength) {T : ℝ} (hT : 1 / 10 ^ 8 ≤ T) :
    ∃ C ≥ (0 : ℝ), ∃ δ > (0 : ℝ), ∀ u, Small u δ → ∀ ε, 0 ≤ ε → ε ≤ δ → ∀ r, NearSpline ε r g → |r.dom.2 - g.dom.2| ≤ ε → ∀ o, linearScaling u r T o →
      ∃ s, o = .ok s ∧ NearSpline (C * (Nd.sz u + ε)) s (g.scaled (T / g.domainLength) (g.dom.1 + T)) ∧ |s.dom.2 - (g.dom.1 + T)| ≤ C * (Nd.sz u + ε) ∧ s.coeffs = r.coeffs := by
  have hT0 : 0 < T := lt_of_lt_of_le (by norm_num) hT
  obtain ⟨C, hC, δ, hδ, H⟩ := scalingCore_rate hb hpos hlen hT0
  -- the parameter stays in `(0, 1)`
  obtain ⟨κ, hκ, hpar⟩ : ∃ κ > (0 : ℝ), ∀ a, g.basis = .b0101 a → ∀ a', |a' - a| ≤ κ → 0 ≤ a' ∧ a' < 1 := by
    by_cases h : ∃ a, g.basis = .b0101 a
    · obtain ⟨a, ha⟩ := h
      have h0 := hpos a ha
      have h1 : a < 1 := by rw [ha] at hb; exact hb.2
      refine ⟨min a ((1 - a) / 2), lt_min h0 (by linarith), fun a1 e a' h => ?_⟩
      rw [ha] at e
      cases e
      obtain ⟨q1, q2⟩ := abs_le.mp h
      have := min_le_left a ((1 - a) / 2)
      have := min_le_right a ((1 - a) / 2)
      constructor <;> linarith
    · exact ⟨1, one_pos, fun a ha => absurd ⟨a, ha⟩ h⟩
  have hm : 0 < min (min δ κ) (T / (3 * C + 1)) := lt_min (lt_min hδ hκ) (by positivity)
  have l1 : min (min δ κ) (T / (3 * C + 1)) ≤ δ := (min_le_left _ _).trans (min_le_left _ _)
  have l2 : min (min δ κ) (T / (3 * C + 1)) ≤ κ := (min_le_left _ _).trans (min_le_right _ _)
  refine ⟨C + 1, by positivity, _, hm, fun u hu ε hε hεm r hr hr2 o ho => ?_⟩
  have hs := sz_nonneg hu
  have hCT : C * (Nd.sz u + ε) ≤ T := by
    have h1 := sz_le hu
    have h2 : (3 * C + 1) * min (min δ κ) (T / (3 * C + 1)) ≤ T := by
      have := mul_le_mul_of_nonneg_left (min_le_right (min δ κ) (T / (3 * C + 1))) (show (0 : ℝ) ≤ 3 * C + 1 by positivity)
      rwa [mul_div_cancel₀ _ (by positivity : 3 * C + 1 ≠ 0)] at this
    have h3 : C * (Nd.sz u + ε) ≤ C * (3 * min (min δ κ) (T / (3 * C + 1))) := mul_le_mul_of_nonneg_left (by linarith) hC
    linarith
  obtain ⟨hbas, hpb⟩ := near_basis hε hr
  have hcl : close ε ((r.dom.2, vecOf r.tau), par r.basis) ((g.dom.2, vecOf g.tau), par g.basis) := ⟨⟨hr2, near_vec hε hr.intervals hr.tau⟩, hpb⟩
  -- the run in terms of the data
  have hsub : ∃ o', scalingCore u g.basis g.dom.1 T g.tau.length ((r.dom.2, vecOf r.tau), par r.basis) o' ∧
      ∀ v, o' = .ok v → o = GSpline.make (g.dom.1, v.1.2) g.codim g.tau.length (withPar g.basis v.2) r.coeffs v.1.1 := by
    unfold linearScaling at ho
    rw [if_neg (by linarith)] at ho
    have e1 : ∀ f : ℝ, (r.tau.map (· * f)).mapM (near u) = (List.range g.tau.length).mapM fun k => near u (vecOf r.tau k * f) := fun f => by
      conv_lhs => rw [← range_map_vecOf r.tau]
      rw [List.map_map, hr.intervals]
      simp only [List.mapM_map]
      rfl
    simp only [e1, hr.start, hr.codim] at ho
    have hn : r.nIntervals = g.tau.length := hr.intervals
    rw [hn] at ho
    unfold scalingCore
    rcases ho with ⟨e, ⟨_, h, _⟩, -⟩ | ⟨len, hlen, ho⟩
    · cases h
    rcases ho with ⟨e, he, rfl⟩ | ⟨f, hf, ho⟩
    · exact ⟨.error e, .inr ⟨len, hlen, .inl ⟨e, he, rfl⟩⟩, fun v h => by cases h⟩
    rcases ho with ⟨e, he, rfl⟩ | ⟨tau, htau, ho⟩
    · exact ⟨.error e, .inr ⟨len, hlen, .inr ⟨f, hf, .inl ⟨e, he, rfl⟩⟩⟩, fun v h => by cases h⟩
    rcases ho with ⟨e, ⟨_, h, _⟩, -⟩ | ⟨stop, hstop, ho⟩
    · cases h
    have key : ∀ o1, scaledBasis u r.basis f o1 → ∃ o2, scaledPar u g.basis (par r.basis) f o2 ∧ (∀ e, o1 = .error e → o2 = .error e) ∧ ∀ b, o1 = .ok b → ∃ p, o2 = .ok p ∧ b = withPar g.basis p := by
      intro o1 h1
      rw [hbas] at h1
      cases hg : g.basis with
      | legendre d =>
        rw [hg] at h1
        exact ⟨.ok (par r.basis), rfl, fun e h => (by rw [h1] at h; cases h), fun b h => ⟨_, rfl, by rw [h1] at h; cases h; rfl⟩⟩
      | lagrange x =>
        rw [hg] at h1
        exact ⟨.ok (par r.basis), rfl, fun e h => (by rw [h1] at h; cases h), fun b h => ⟨_, rfl, by rw [h1] at h; cases h; rfl⟩⟩
      | b0101 a =>
        rw [hg] at h1 hpb
        simp only [withPar, scaledBasis, if_pos (hpar a hg _ (hpb.trans (hεm.trans l2)))] at h1
        rcases h1 with ⟨e, he, rfl⟩ | ⟨p, hp, h1⟩
        · exact ⟨.error e, he, fun e' h => by cases h; rfl, fun b h => by cases h⟩
        · exact ⟨.ok p, hp, fun e h => (by rw [h1] at h; cases h), fun b h => ⟨p, rfl, by rw [h1] at h; cases h; rfl⟩⟩
    rcases ho with ⟨e, he, rfl⟩ | ⟨b, hbb, ho⟩
    · obtain ⟨o2, h2, h3, -⟩ := key _ he
      rw [h3 e rfl] at h2
      exact ⟨.error e, .inr ⟨len, hlen, .inr ⟨f, hf, .inr ⟨tau, htau, .inr ⟨stop, hstop, .inl ⟨e, h2, rfl⟩⟩⟩⟩⟩, fun v h => by cases h⟩
    · obtain ⟨o2, h2, -, h4⟩ := key _ hbb
      obtain ⟨p, rfl, rfl⟩ := h4 b rfl
      exact ⟨.ok ((tau, stop), p), .inr ⟨len, hlen, .inr ⟨f, hf, .inr ⟨tau, htau, .inr ⟨stop, hstop, .inr ⟨p, h2, rfl⟩⟩⟩⟩⟩, fun v h => by cases h; exact ho⟩
  obtain ⟨o', ho', hmk⟩ := hsub
  obtain ⟨⟨⟨tau, stop⟩, p⟩, rfl, ⟨c1, c2⟩, c3⟩ := (H u (small_mono l1 hu) _ o' ho').1 ε hε (hεm.trans l1) hcl
  have c2' : |stop - (g.dom.1 + T)| ≤ C * (Nd.sz u + ε) := c2
  have c3' : |p - par (GSpline.scaledBasis g.basis (T / g.domainLength))| ≤ C * (Nd.sz u + ε) := c3
  have hF : List.Forall₂ (close (C * (Nd.sz u + ε))) tau (g.tau.map (· * (T / g.domainLength))) := c1
  have hlt := hF.length_eq
  have hmk := hmk _ rfl
  unfold GSpline.make at hmk
  have hstop : g.dom.1 ≤ stop := by have := (abs_le.mp c2').1; linarith
  rw [if_pos hstop, if_neg (by
    rw [not_not, withPar_dim, hr.size]
    exact hcon)] at hmk
  have hC1 : C * (Nd.sz u + ε) ≤ (C + 1) * (Nd.sz u + ε) := mul_le_mul_of_nonneg_right (by linarith) (by positivity)
  refine ⟨_, hmk, ⟨rfl, rfl, hlt, fun i hi => ?_, hr.size, fun k hk => ?_, ?_⟩, c2'.trans hC1, rfl⟩
  · have hi' : i < tau.length := lt_of_lt_of_eq hi hlt.symm
    have := (List.forall₂_iff_get.mp hF).2 i hi' hi
    change |vecOf tau i - vecOf (g.tau.map (· * (T / g.domainLength))) i| ≤ _
    unfold vecOf
    rw [List.getD_eq_getElem?_getD, List.getElem?_eq_getElem hi', List.getD_eq_getElem?_getD, List.getElem?_eq_getElem (show i < (g.tau.map (· * (T / g.domainLength))).length from hi)]
    exact le_trans this hC1
  · refine (hr.coeffs k hk).trans ?_
    have : 0 ≤ C * (Nd.sz u + ε) := by positivity
    linarith
  · cases hg : g.basis with
    | b0101 a =>
      rw [hg] at c3'
      exact .inr ⟨_, p, by simp only [GSpline.scaled, hg]; rfl, by simp only [hg]; rfl, c3'.trans hC1⟩
    | legendre d => exact .inl (by simp only [GSpline.scaled, hg]; rfl)
    | lagrange x => exact .inl (by simp only [GSpline.scaled, hg]; rfl)

end GSplines.Rounded
