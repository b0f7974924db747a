import Verif.Proofs.GSpline
import Verif.Proofs.Tools
import Mathlib.Analysis.SpecialFunctions.Pow.Real
import Mathlib.Tactic.FieldSimp
import Mathlib.Tactic.LinearCombination

/-! # GSpline: linear operations and time scaling -/

namespace GSplines.GSpline

open Finset Spec GSplines

open Classical in
theorem value_eq {g : GSpline} (hc : Consistent g) (hne : g.tau ≠ []) (t : ℝ) :
    g.value t = if vecOf g.tau (g.getInterval t) = 0 then .error .notFinite else (g.basis.evalOnWindow (window (vecOf g.tau (g.getInterval t)) (t - brk g (g.getInterval t))) (vecOf g.tau (g.getInterval t))).map
      (g.rowOf (g.getInterval t)) := by
  have hi := getInterval_lt g hne t
  by_cases hz : vecOf g.tau (g.getInterval t) = 0
  · rw [if_pos hz]
    have hw : g.intervalToWindow t (g.getInterval t) = .error .notFinite := by
      unfold intervalToWindow
      rw [segment_ok (by omega), rd_ok hi]
      simp only [fdiv, if_pos hz, bind, Except.bind]
    unfold value
    simp only [hw, bind, Except.bind]
  rw [if_neg hz]
  cases hb : g.basis.evalOnWindow (window (vecOf g.tau (g.getInterval t)) (t - brk g (g.getInterval t))) (vecOf g.tau (g.getInterval t)) with
  | ok buf => rw [value_ok hc rfl hi hz hb]; rfl
  | error e => rw [value_error rfl hi hz hb]; rfl

/-- Changing the coefficients keeps the interval. -/
theorem getInterval_congr {g h : GSpline} (hd : g.dom.1 = h.dom.1) (ht : g.tau = h.tau) (t : ℝ) : g.getInterval t = h.getInterval t := by
  unfold getInterval nIntervals
  rw [hd, ht]

theorem brk_congr {g h : GSpline} (hd : g.dom.1 = h.dom.1) (ht : g.tau = h.tau) (i : ℕ) : brk g i = brk h i := by
  unfold brk; rw [hd, ht]

theorem rowOf_zip {a b r : GSpline} (f : ℝ → ℝ → ℝ) (hf : ∀ x y z, f x y * z = f (x * z) (y * z)) (hf0 : f 0 0 = 0)
    (hfa : ∀ x y z w, f x y + f z w = f (x + z) (y + w)) (ha : Consistent a) (hb : Consistent b)
    (hbr : r.basis = a.basis) (hcr : r.codim = a.codim) (hba : b.basis = a.basis) (hca : b.codim = a.codim) (hta : b.tau = a.tau)
    (hr : r.coeffs = List.zipWith f a.coeffs b.coeffs) {i : ℕ} (hi : i < a.tau.length) (buf : Vec) :
    r.rowOf i buf = List.zipWith f (a.rowOf i buf) (b.rowOf i buf) := by
  have hla : a.coeffs.length = b.coeffs.length := by
    rw [ha, hb, hba, hca, hta]
  unfold rowOf
  rw [hbr, hcr, hba, hca, List.zipWith_map, List.zipWith_self]
  refine List.map_congr_left fun c hc => ?_
  have hcc := List.mem_range.mp hc
  have hbd := coef_bound ha hi hcc
  unfold Vec.dot
  have hs : ∀ (n : ℕ) (u v : ℕ → ℝ), f (∑ k ∈ range n, u k) (∑ k ∈ range n, v k) = ∑ k ∈ range n, f (u k) (v k) := by
    intro n u v
    induction n with
    | zero => simpa using hf0
    | succ n ih => rw [sum_range_succ, sum_range_succ, sum_range_succ, ← hfa, ih]
  rw [hs]
  refine sum_congr rfl fun k hk => ?_
  have hk := mem_range.mp hk
  have hlt : Basis.coefIdx a.basis.dim a.codim i c k < a.coeffs.length := by unfold Basis.coefIdx; omega
  beta_reduce
  rw [hr, vecOf_zipWith hlt (hla ▸ hlt), hf]

theorem value_zip {a b r : GSpline} (f : ℝ → ℝ → ℝ) (hf : ∀ x y z, f x y * z = f (x * z) (y * z)) (hf0 : f 0 0 = 0)
    (hfa : ∀ x y z w, f x y + f z w = f (x + z) (y + w)) (ha : Consistent a) (hb : Consistent b) (hne : a.tau ≠ [])
    (hd : b.dom.1 = a.dom.1) (hba : b.basis = a.basis) (hca : b.codim = a.codim) (hta : b.tau = a.tau)
    (hrd : r.dom.1 = a.dom.1) (hbr : r.basis = a.basis) (hcr : r.codim = a.codim) (hrt : r.tau = a.tau)
    (hr : r.coeffs = List.zipWith f a.coeffs b.coeffs) (t : ℝ) :
    r.value t = (do let x ← a.value t; let y ← b.value t; return List.zipWith f x y) := by
  have hla : a.coeffs.length = b.coeffs.length := by
    rw [ha, hb, hba, hca, hta]
  have hrc : Consistent r := by
    unfold Consistent; rw [hr, hrt, hbr, hcr, List.length_zipWith, ← hla, min_self]; exact ha
  have hi := getInterval_lt a hne t
  rw [value_eq ha hne, value_eq hb (hta ▸ hne), value_eq hrc (hrt ▸ hne), getInterval_congr hrd hrt, getInterval_congr hd hta,
    brk_congr hrd hrt, brk_congr hd hta, hta, hrt, hbr, hba]
  generalize a.getInterval t = i at hi ⊢
  by_cases hz : vecOf a.tau i = 0
  · simp only [if_pos hz]; rfl
  simp only [if_neg hz]
  cases a.basis.evalOnWindow (window (vecOf a.tau i) (t - brk a i)) (vecOf a.tau i) with
  | error e => rfl
  | ok buf =>
    change Except.ok (r.rowOf i buf) = Except.ok (List.zipWith f (a.rowOf i buf) (b.rowOf i buf))
    rw [rowOf_zip f hf hf0 hfa ha hb hbr hcr hba hca hta hr hi]

theorem rowOf_smul (g : GSpline) (a : ℝ) (i : ℕ) (buf : Vec) (hc : Consistent g) (hi : i < g.tau.length) :
    (smulInPlace a g).rowOf i buf = (g.rowOf i buf).map (· * a) := by
  unfold rowOf
  rw [List.map_map]
  refine List.map_congr_left fun c hcm => ?_
  have hcc := List.mem_range.mp hcm
  have hbd := coef_bound hc hi hcc
  simp only [Function.comp_apply, Vec.dot, smulInPlace, sum_mul]
  refine sum_congr rfl fun k hk => ?_
  have hk := mem_range.mp hk
  rw [vecOf_map (show Basis.coefIdx g.basis.dim g.codim i c k < g.coeffs.length by unfold Basis.coefIdx; omega)]
  ring

theorem consistent_smul {g : GSpline} (hc : Consistent g) (a : ℝ) : Consistent (smulInPlace a g) := by
  unfold Consistent smulInPlace
  rw [List.length_map]; exact hc

theorem value_smul {g : GSpline} (hc : Consistent g) (hne : g.tau ≠ []) (a t : ℝ) :
    (smulInPlace a g).value t = (g.value t).map (fun v => v.map (· * a)) := by
  have hi := getInterval_lt g hne t
  rw [value_eq hc hne, value_eq (consistent_smul hc a) hne, getInterval_congr (g := smulInPlace a g) (h := g) rfl rfl, brk_congr (g := smulInPlace a g) (h := g) rfl rfl]
  generalize g.getInterval t = i at hi ⊢
  have e : (smulInPlace a g).tau = g.tau := rfl
  rw [e]
  by_cases hz : vecOf g.tau i = 0
  · simp only [if_pos hz]; rfl
  simp only [if_neg hz]
  change (Except.map _ (g.basis.evalOnWindow _ (vecOf g.tau _))) = _
  cases g.basis.evalOnWindow (window (vecOf g.tau i) (t - brk g i)) (vecOf g.tau i) with
  | error e => rfl
  | ok buf =>
    change Except.ok ((smulInPlace a g).rowOf i buf) = Except.ok ((g.rowOf i buf).map (· * a))
    rw [rowOf_smul g a i buf hc hi]

/-! ## time scaling -/

theorem kOf_scaled {a f : ℝ} (h0 : 0 ≤ a) (h1 : a < 1) (hf : 0 < f) : B0101.kOf (scaledAlpha a f) = B0101.kOf a / f := by
  set k := B0101.kOf a / f with hk
  have hk0 : 0 ≤ k := by
    rw [hk]; unfold B0101.kOf
    have : 0 < 1 - a := by linarith
    positivity
  have e : scaledAlpha a f = k ^ 4 * 64 / (1 + k ^ 4 * 64) := rfl
  have hpos : 0 < 1 + k ^ 4 * 64 := by positivity
  have e1 : 1 - scaledAlpha a f = 1 / (1 + k ^ 4 * 64) := by rw [e]; field_simp; ring
  have h14 : 0 ≤ scaledAlpha a f := by rw [e]; positivity
  unfold B0101.kOf
  rw [mul_div_assoc, ← Real.div_rpow h14 (by rw [e1]; positivity), e1, e]
  have e2 : k ^ 4 * 64 / (1 + k ^ 4 * 64) / (1 / (1 + k ^ 4 * 64)) = (2 * √2 * k) ^ 4 := by
    have : √2 ^ 4 = 4 := by
      rw [show √2 ^ 4 = (√2 ^ 2) ^ 2 by ring, Real.sq_sqrt (by norm_num)]; norm_num
    rw [mul_pow, mul_pow, this]
    field_simp
    ring
  rw [e2, ← Real.rpow_natCast, ← Real.rpow_mul (by positivity)]
  norm_num
  have : √2 * √2 = 2 := Real.mul_self_sqrt (by norm_num)
  linear_combination (k / 2) * this

theorem scaledAlpha_valid {a f : ℝ} (h1 : a < 1) : 0 ≤ scaledAlpha a f ∧ scaledAlpha a f < 1 := by
  unfold scaledAlpha
  have : 0 < 1 - a := by linarith
  constructor
  · positivity
  · rw [div_lt_one (by positivity)]; linarith

theorem scaledBasis_dim (b : Basis) (f : ℝ) : (scaledBasis b f).dim = b.dim := by cases b <;> rfl

/-- For Basis0101, the parameter is in `[0, 1)`. -/
def ParamOk : Basis → Prop
  | .b0101 a => 0 ≤ a ∧ a < 1
  | _ => True

theorem paramOk_of_valid {b : Basis} (h : b.Valid) : ParamOk b := by cases b <;> first | exact h | trivial

theorem scaledBasis_valid {b : Basis} (h : b.Valid) (f : ℝ) : (scaledBasis b f).Valid := by
  cases b with
  | b0101 a => exact scaledAlpha_valid h.2
  | _ => exact h

theorem scaledBasis_eval {b : Basis} (hb : ParamOk b) {f : ℝ} (hf : 0 < f) (s tau : ℝ) :
    (scaledBasis b f).evalOnWindow s (tau * f) = b.evalOnWindow s tau := by
  cases b with
  | legendre d => rfl
  | lagrange x => rfl
  | b0101 a =>
    change Except.ok _ = Except.ok _
    unfold B0101.evalOnWindow
    rw [kOf_scaled hb.1 hb.2 hf]
    have : tau * f * (B0101.kOf a / f) * s = tau * B0101.kOf a * s := by field_simp
    rw [this]

/-- The spline with time scaled by `f`; the end of the domain is whatever the caller stores. -/
noncomputable def scaled (g : GSpline) (f e : ℝ) : GSpline :=
  ⟨(g.dom.1, e), g.codim, scaledBasis g.basis f, g.coeffs, g.tau.map (· * f)⟩

theorem sum_map_mul (l : List ℝ) (f : ℝ) : (l.map (· * f)).sum = l.sum * f := by
  induction l with
  | nil => simp
  | cons x xs ih => simp [ih]; ring

theorem scan_scaled {f : ℝ} (hf : 0 < f) (t t0 : ℝ) : ∀ (l : List ℝ) (i : ℕ) (left : ℝ),
    scan (t0 + f * (t - t0)) i (t0 + f * (left - t0)) (l.map (· * f)) = scan t i left l := by
  intro l
  induction l with
  | nil => intro i left; rfl
  | cons x xs ih =>
    intro i left
    rw [List.map_cons]
    unfold scan
    have e : t0 + f * (left - t0) + x * f = t0 + f * (left + x - t0) := by ring
    rw [e, ih]
    have c1 : t0 + f * (left - t0) < t0 + f * (t - t0) ↔ left < t := by
      rw [add_lt_add_iff_left, mul_lt_mul_iff_right₀ hf, sub_lt_sub_iff_right]
    have c2 : t0 + f * (t - t0) ≤ t0 + f * (left + x - t0) ↔ t ≤ left + x := by
      rw [add_le_add_iff_left, mul_le_mul_iff_right₀ hf, sub_le_sub_iff_right]
    simp only [c1, c2]

theorem getInterval_scaled (g : GSpline) {f : ℝ} (hf : 0 < f) (e t : ℝ) :
    (g.scaled f e).getInterval (g.dom.1 + f * (t - g.dom.1)) = g.getInterval t := by
  unfold getInterval
  have h := scan_scaled hf t g.dom.1 g.tau 0 g.dom.1
  rw [sub_self, mul_zero, add_zero] at h
  change (if g.dom.1 + f * (t - g.dom.1) ≤ g.dom.1 then _ else match scan _ 0 g.dom.1 (g.tau.map (· * f)) with
    | some i => i
    | none => if (g.tau.map (· * f)).length = 0 then _ else (g.tau.map (· * f)).length - 1) = _
  rw [h, List.length_map]
  have c : g.dom.1 + f * (t - g.dom.1) ≤ g.dom.1 ↔ t ≤ g.dom.1 := by
    constructor
    · intro hc
      have : f * (t - g.dom.1) ≤ 0 := by linarith
      by_contra hn
      push Not at hn
      have := mul_pos hf (sub_pos.mpr hn)
      linarith
    · intro hc
      have := mul_nonneg hf.le (sub_nonneg.mpr hc)
      nlinarith
  simp only [c]
  rfl

theorem brk_scaled (g : GSpline) (f e : ℝ) (i : ℕ) : brk (g.scaled f e) i = g.dom.1 + f * (brk g i - g.dom.1) := by
  unfold brk scaled
  simp only [← List.map_take, sum_map_mul]; ring

theorem consistent_scaled {g : GSpline} (hc : Consistent g) (f e : ℝ) : Consistent (g.scaled f e) := by
  unfold Consistent scaled
  rw [List.length_map, scaledBasis_dim]; exact hc

theorem rowOf_scaled (g : GSpline) (f e : ℝ) (i : ℕ) (buf : Vec) : (g.scaled f e).rowOf i buf = g.rowOf i buf := by
  unfold rowOf scaled
  simp only [scaledBasis_dim]

theorem scalingFinite_of_valid {b : Basis} (hb : b.Valid) {f : ℝ} (hf : f ≠ 0) : GSpline.ScalingFinite b f := by
  cases b with
  | b0101 a => exact ⟨hb.1, hb.2, hf⟩
  | _ => trivial

theorem value_scaled {g : GSpline} (hb : ParamOk g.basis) (hc : Consistent g) (hne : g.tau ≠ []) {f : ℝ} (hf : 0 < f) (e t : ℝ) :
    (g.scaled f e).value (g.dom.1 + f * (t - g.dom.1)) = g.value t := by
  have hi := getInterval_lt g hne t
  have hne' : (g.scaled f e).tau ≠ [] := by simpa [scaled] using hne
  rw [value_eq hc hne, value_eq (consistent_scaled hc f e) hne', getInterval_scaled g hf, brk_scaled]
  generalize g.getInterval t = i at hi ⊢
  have hv : vecOf (g.scaled f e).tau i = vecOf g.tau i * f := vecOf_map hi
  have hw : window (vecOf g.tau i * f) (g.dom.1 + f * (t - g.dom.1) - (g.dom.1 + f * (brk g i - g.dom.1))) = window (vecOf g.tau i) (t - brk g i) := by
    unfold window
    rw [show 2 * (g.dom.1 + f * (t - g.dom.1) - (g.dom.1 + f * (brk g i - g.dom.1))) = 2 * (t - brk g i) * f by ring,
      mul_div_mul_right _ _ hf.ne']
  rw [hv, hw]
  by_cases hz : vecOf g.tau i = 0
  · rw [if_pos hz, if_pos (by rw [hz, zero_mul])]
  rw [if_neg hz, if_neg (mul_ne_zero hz hf.ne')]
  change Except.map _ ((scaledBasis g.basis f).evalOnWindow _ _) = _
  rw [scaledBasis_eval hb hf]
  congr 1
  funext buf
  exact rowOf_scaled g f e i buf

/-! ## derivative of a scaled spline -/

theorem derivBlock_one_scaled {b : Basis} (hb : ParamOk b) {f : ℝ} (hf : 0 < f) (tau : ℝ) (v : Vec) (k : ℕ) :
    ((scaledBasis b f).derivBlock 1).mulVec b.dim v k * derivScale (scaledBasis b f) (tau * f) 1
      = (b.derivBlock 1).mulVec b.dim v k * derivScale b tau 1 * (1 / f) := by
  cases b with
  | legendre d =>
    simp only [scaledBasis, derivScale, pow_one]
    rw [show 2 / (tau * f) = 2 / tau * (1 / f) by rw [div_mul_div_comm, mul_one]]; ring
  | lagrange x =>
    simp only [scaledBasis, derivScale, pow_one]
    rw [show 2 / (tau * f) = 2 / tau * (1 / f) by rw [div_mul_div_comm, mul_one]]; ring
  | b0101 a =>
    have e : ∀ a, (Basis.b0101 a).derivBlock 1 = fun i j => B0101.d1mat i j * (B0101.kOf a * 2) := by
      intro a
      change B0101.derivMatrixImpl a 1 = _
      unfold B0101.derivMatrixImpl
      rw [if_neg (by norm_num), forLoop_of_le (by norm_num)]
    simp only [scaledBasis, derivScale, e, Mat.mulVec, one_ne_zero, if_false, mul_one, kOf_scaled hb.1 hb.2 hf, sum_mul]
    exact sum_congr rfl fun j _ => by ring

theorem ext_vecOf {a b : List ℝ} (hl : a.length = b.length) (h : ∀ i < a.length, vecOf a i = vecOf b i) : a = b := by
  refine List.ext_getElem hl fun i h1 h2 => ?_
  have := h i h1
  unfold vecOf at this
  simpa [h1, h2] using this

/-- A position of the coefficient vector is interval, component, basis function. -/
theorem coefIdx_surj {dim codim n x : ℕ} (h : x < n * dim * codim) :
    ∃ i c k, i < n ∧ c < codim ∧ k < dim ∧ x = Basis.coefIdx dim codim i c k := by
  have hd : 0 < dim := by
    rcases Nat.eq_zero_or_pos dim with h0 | h0
    · subst h0; simp at h
    · exact h0
  have hc : 0 < codim := by
    rcases Nat.eq_zero_or_pos codim with h0 | h0
    · subst h0; simp at h
    · exact h0
  refine ⟨x / dim / codim, x / dim % codim, x % dim, ?_, Nat.mod_lt _ hc, Nat.mod_lt _ hd, ?_⟩
  · rw [Nat.div_div_eq_div_mul]
    apply Nat.div_lt_of_lt_mul
    calc x < n * dim * codim := h
      _ = dim * codim * n := by ring
  · unfold Basis.coefIdx
    have h1 := Nat.div_add_mod x dim
    have h2 := Nat.div_add_mod (x / dim) codim
    calc x = dim * (x / dim) + x % dim := h1.symm
      _ = dim * (codim * (x / dim / codim) + x / dim % codim) + x % dim := by rw [h2]
      _ = _ := by ring

theorem not_mem_scaled {g : GSpline} (hz : 0 ∉ g.tau) {f : ℝ} (hf : 0 < f) (e : ℝ) : 0 ∉ (g.scaled f e).tau := by
  intro h
  obtain ⟨x, hx, h0⟩ := List.mem_map.mp (show (0 : ℝ) ∈ g.tau.map (· * f) from h)
  rcases mul_eq_zero.mp h0 with h0 | h0
  · exact hz (h0 ▸ hx)
  · exact hf.ne' h0

theorem deriv_one_ok {g : GSpline} (hdom : g.dom.1 ≤ g.dom.2) (hc : Consistent g) (hz : 0 ∉ g.tau) :
    g.derivate 1 = .ok { g with coeffs := (List.range g.coeffs.length).map (g.derivCoeffs 1) } := by
  rw [derivate_ok hdom hc hz, deriv_ok hdom hc hz, if_pos Nat.one_pos]

theorem derivate_scaled {g g1 : GSpline} (hb : ParamOk g.basis) (hdom : g.dom.1 ≤ g.dom.2) (hc : Consistent g) (hz : 0 ∉ g.tau) (h1 : g.derivate 1 = .ok g1)
    {f e : ℝ} (hf : 0 < f) (he : g.dom.1 ≤ e) :
    (g.scaled f e).derivate 1 = .ok (smulInPlace (1 / f) (g1.scaled f e)) := by
  rw [deriv_one_ok hdom hc hz] at h1
  injection h1 with h1
  rw [deriv_one_ok he (consistent_scaled hc f e) (not_mem_scaled hz hf e), ← h1]
  congr 1
  unfold smulInPlace scaled
  simp only [GSpline.mk.injEq, true_and, and_true]
  refine ext_vecOf (by simp) fun x hx => ?_
  rw [List.length_map, List.length_range] at hx
  rw [vecOf_map_range hx, vecOf_map (by simpa using hx), vecOf_map_range hx]
  rw [hc] at hx
  obtain ⟨i, c, k, hi, hcc, hk, rfl⟩ := coefIdx_surj hx
  rw [derivCoeffs_spec g 1 hi hcc hk]
  have := derivCoeffs_spec (g.scaled f e) 1 (i := i) (c := c) (k := k) (by simpa [scaled] using hi) hcc (by simpa [scaled, scaledBasis_dim] using hk)
  simp only [scaled, scaledBasis_dim] at this
  rw [this, vecOf_map hi, derivBlock_one_scaled hb hf]

theorem derivate_smul {g g1 : GSpline} (hdom : g.dom.1 ≤ g.dom.2) (hc : Consistent g) (hz : 0 ∉ g.tau) (h1 : g.derivate 1 = .ok g1) (a : ℝ) :
    (smulInPlace a g).derivate 1 = .ok (smulInPlace a g1) := by
  rw [deriv_one_ok hdom hc hz] at h1
  injection h1 with h1
  rw [deriv_one_ok (g := smulInPlace a g) hdom (consistent_smul hc a) hz, ← h1]
  congr 1
  unfold smulInPlace
  simp only [GSpline.mk.injEq, true_and, and_true]
  refine ext_vecOf (by simp) fun x hx => ?_
  rw [List.length_map, List.length_range, List.length_map] at hx
  rw [vecOf_map_range (by simpa using hx), vecOf_map (by simpa using hx), vecOf_map_range hx]
  have hx0 := hx
  rw [hc] at hx
  obtain ⟨i, c, k, hi, hcc, hk, rfl⟩ := coefIdx_surj hx
  rw [derivCoeffs_spec g 1 hi hcc hk]
  have := derivCoeffs_spec (smulInPlace a g) 1 (i := i) (c := c) (k := k) hi hcc hk
  simp only [smulInPlace] at this
  rw [this]
  unfold Mat.mulVec
  simp only [sum_mul]
  refine sum_congr rfl fun j hj => ?_
  have hj := mem_range.mp hj
  have hbd := coef_bound hc hi hcc
  rw [vecOf_map (show Basis.coefIdx g.basis.dim g.codim i c j < g.coeffs.length by unfold Basis.coefIdx; omega)]
  ring

end GSplines.GSpline
