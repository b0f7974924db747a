import Verif.Proofs.GSplineOps
import Verif.Proofs.FnDeriv
import Verif.Spec.Interp
import Mathlib.Analysis.Calculus.IteratedDeriv.Lemmas

/-! # The conditions of an interpolating spline survive a scaling of time -/

namespace GSplines.GSpline

open GSplines.Spec

theorem k0101_scaled {a f : ℝ} (h0 : 0 ≤ a) (h1 : a < 1) (hf : 0 < f) : k0101 (scaledAlpha a f) = k0101 a / f := by
  have e : ∀ a : ℝ, 0 ≤ a → a < 1 → k0101 a = B0101.kOf a := by
    intro a h0 h1
    unfold k0101 B0101.kOf
    rw [Real.div_rpow h0 (by linarith), mul_div_assoc]
  obtain ⟨s0, s1⟩ := scaledAlpha_valid (f := f) h1
  rw [e _ s0 s1, e _ h0 h1, kOf_scaled h0 h1 hf]

theorem basisFn_scaled {b : Basis} (hb : ParamOk b) {f : ℝ} (hf : 0 < f) (tau : ℝ) (k : ℕ) (t : ℝ) :
    basisFn (scaledBasis b f) (tau * f) k (f * t) = basisFn b tau k t := by
  have hw : window (tau * f) (f * t) = window tau t := by
    unfold window
    rw [show 2 * (f * t) = 2 * t * f by ring, mul_div_mul_right _ _ hf.ne']
  cases b with
  | legendre d => change (legendre k).eval _ = (legendre k).eval _; rw [hw]
  | lagrange x => change (_root_.Lagrange.basis _ _ k).eval _ = (_root_.Lagrange.basis _ _ k).eval _; rw [hw]
  | b0101 a =>
    change phi0101 _ _ _ _ = phi0101 _ _ _ _
    unfold phi0101
    rw [hw, k0101_scaled hb.1 hb.2 hf]
    congr 1
    field_simp

theorem curve_scaled {g : GSpline} (hb : ParamOk g.basis) {f : ℝ} (hf : 0 < f) (e : ℝ) {i : ℕ} (hi : i < g.tau.length) (c : ℕ) :
    curve (g.scaled f e) i c = fun t => curve g i c (g.dom.1 - f⁻¹ * g.dom.1 + f⁻¹ * t) := by
  funext t
  unfold curve piece comb
  rw [brk_scaled]
  simp only [scaled, scaledBasis_dim]
  refine Finset.sum_congr rfl fun k _ => ?_
  rw [vecOf_map hi]
  congr 1
  rw [← basisFn_scaled hb hf]
  congr 1
  field_simp
  ring

theorem iteratedDeriv_scaled {g : GSpline} (hb : ParamOk g.basis) {f : ℝ} (hf : 0 < f) (e : ℝ) {i : ℕ} (hi : i < g.tau.length) (c d : ℕ) (t : ℝ) :
    iteratedDeriv d (curve (g.scaled f e) i c) (g.dom.1 + f * (t - g.dom.1)) = f⁻¹ ^ d * iteratedDeriv d (curve g i c) t := by
  rw [curve_scaled hb hf e hi]
  have hs : ContDiff ℝ d (fun z => curve g i c (g.dom.1 - f⁻¹ * g.dom.1 + z)) := by
    refine ((Fn.contDiff_curve g i c).of_le ?_).comp ?_
    · exact_mod_cast le_top
    · fun_prop
  have h1 := iteratedDeriv_comp_const_mul hs f⁻¹
  rw [h1, iteratedDeriv_comp_const_add]
  beta_reduce
  congr 2
  field_simp
  ring

theorem meets_scaled {g : GSpline} (hb : ParamOk g.basis) (hc : Consistent g) (hne : g.tau ≠ []) {f : ℝ} (hf : 0 < f) {w : ℕ → ℕ → ℝ} (h : Meets g w) :
    Meets (g.scaled f (g.dom.1 + f * (g.dom.2 - g.dom.1))) w := by
  have hl : (g.scaled f (g.dom.1 + f * (g.dom.2 - g.dom.1))).tau.length = g.tau.length := by simp [scaled]
  have hpos : 0 < g.tau.length := List.length_pos_of_ne_nil hne
  refine ⟨fun i hi => ?_, fun i hi c hc' d hd => ?_, fun c hc' d h1 h2 => ?_, fun c hc' d h1 h2 => ?_⟩
  · rw [hl] at hi
    obtain ⟨v, h1, h2, h3⟩ := h.points i hi
    refine ⟨v, ?_, h2, h3⟩
    rw [brk_scaled, value_scaled hb hc hne hf, h1]
  · rw [hl] at hi
    rw [brk_scaled, iteratedDeriv_scaled hb hf _ (by omega), iteratedDeriv_scaled hb hf _ hi]
    congr 1
    refine h.joins i hi c hc' d ?_
    simpa [scaled, scaledBasis_dim] using hd
  · have e : (g.scaled f (g.dom.1 + f * (g.dom.2 - g.dom.1))).dom.1 = g.dom.1 + f * (g.dom.1 - g.dom.1) := by simp [scaled]
    rw [e, iteratedDeriv_scaled hb hf _ hpos, h.restL c hc' d h1 (by simpa [scaled, scaledBasis_dim] using h2), mul_zero]
  · have e : (g.scaled f (g.dom.1 + f * (g.dom.2 - g.dom.1))).dom.2 = g.dom.1 + f * (g.dom.2 - g.dom.1) := rfl
    rw [e, hl, iteratedDeriv_scaled hb hf _ (by omega), h.restR c hc' d h1 (by simpa [scaled, scaledBasis_dim] using h2), mul_zero]

end GSplines.GSpline
