import Verif.Proofs.GSplineOps
import Verif.Props.Basis

/-!
# C11 - C20: generalized splines

`Spec/GSpline.lean` says what the spline described by a `GSpline` object is: `brk g i` are its breakpoints, `Located g t i` says which
interval a point belongs to, `curve g i c` is component `c` of the function of interval `i`.
-/

namespace GSplines.Props

open GSplines Finset GSplines.Spec GSplines.GSpline

/-! ## Examples used below -/

/-- Legendre basis of dimension 2, two intervals of lengths 1 and 2, domain `[1, 4]`, one component. -/
noncomputable def exSpline : GSpline := ⟨(1, 4), 1, .legendre 2, [1, 2, 3, 4], [1, 2]⟩

theorem exSpline_positive : Positive exSpline := by
  refine ⟨by simp [exSpline], ?_⟩
  intro x hx
  simp [exSpline] at hx
  rcases hx with rfl | rfl <;> norm_num

theorem exSpline_consistent : Consistent exSpline := by simp [Consistent, exSpline, Basis.dim]

theorem exSpline_valid : exSpline.basis.Valid := (by norm_num : 2 ≤ 2)

/-! ## C11 -/

/-- **C11.** For positive interval lengths `get_interval` returns the interval that contains the point. -/
theorem C11_interval (g : GSpline) (hp : Positive g) (t : ℝ) (i : ℕ) : g.getInterval t = i ↔ Located g t i := by
  constructor
  · intro h
    obtain ⟨j, hj⟩ := located_exists hp t
    have := getInterval_of_located hp hj
    rw [← h, this]; exact hj
  · exact getInterval_of_located hp

/-- **C11.** Every point belongs to exactly one interval. -/
theorem C11_interval_unique (g : GSpline) (hp : Positive g) (t : ℝ) : ∃! i, Located g t i := by
  obtain ⟨i, hi⟩ := located_exists hp t
  exact ⟨i, hi, fun j hj => (getInterval_of_located hp hj).symm.trans (getInterval_of_located hp hi)⟩

/-- The point `3/2` of the example is in the first interval, the breakpoint `2` too, and `3` in the second. -/
example : Positive exSpline ∧ Located exSpline (3 / 2) 0 ∧ Located exSpline 2 0 ∧ Located exSpline 3 1 := by
  refine ⟨exSpline_positive, ⟨by simp [exSpline], .inr (.inl ⟨?_, ?_⟩)⟩, ⟨by simp [exSpline], .inr (.inl ⟨?_, ?_⟩)⟩,
    ⟨by simp [exSpline], .inr (.inl ⟨?_, ?_⟩)⟩⟩ <;> simp [brk, exSpline] <;> norm_num

/-! ## C12 -/

/-- **C12.** The value at `t` has one entry per component, the value of the function of the interval of `t`. The point must not be within
`1e-9` of a Lagrange node without being on it (`CleanAt`, void for the other bases). -/
theorem C12_value (g : GSpline) (hb : g.basis.Valid) (hc : Consistent g) (hp : Positive g) (t : ℝ) (i : ℕ) (hl : Located g t i)
    (hclean : g.basis.CleanAt (window (vecOf g.tau i) (t - brk g i))) :
    ∃ v, g.value t = .ok v ∧ v.length = g.codim ∧ ∀ c < g.codim, v[c]? = some (curve g i c t) :=
  value_spec hb hc (getInterval_of_located hp hl) hl.1 (vecOf_pos hp.2 hl.1).ne' hclean

/-- **C12**, near a Lagrange node: the value is the coefficient of a node closer than the tolerance. -/
theorem C12_value_near_node (g : GSpline) (x : List ℝ) (hx : g.basis = .lagrange x) (hc : Consistent g) (hp : Positive g) (t : ℝ) (i : ℕ)
    (hl : Located g t i)
    (hnear : ∃ j < x.length, Lagrange.almostEqual (window (vecOf g.tau i) (t - brk g i)) (vecOf x j) tol9 = true) :
    ∃ v, g.value t = .ok v ∧ v.length = g.codim ∧ ∃ j < x.length,
      Lagrange.almostEqual (window (vecOf g.tau i) (t - brk g i)) (vecOf x j) tol9 = true ∧
      ∀ c < g.codim, v[c]? = some (vecOf g.coeffs (i * x.length * g.codim + x.length * c + j)) := by
  obtain ⟨j, hj, hnj, hv⟩ := C26_lagrange_eval_near_node x.length (vecOf x) _ (vecOf g.tau i) hnear
  have hbuf : g.basis.evalOnWindow (window (vecOf g.tau i) (t - brk g i)) (vecOf g.tau i)
      = .ok (Lagrange.evalOnWindow x.length (vecOf x) (window (vecOf g.tau i) (t - brk g i)) (vecOf g.tau i)) := by rw [hx]; rfl
  refine ⟨_, value_ok hc (getInterval_of_located hp hl) hl.1 (vecOf_pos hp.2 hl.1).ne' hbuf, rowOf_length _ _ _, j, hj, hnj, fun c hcc => ?_⟩
  rw [rowOf_getElem? _ _ _ hcc]
  congr 1
  rw [hx]
  change ∑ k ∈ range x.length, _ = _
  rw [Finset.sum_eq_single j]
  · rw [hv j, if_pos rfl, mul_one]; rfl
  · intro k _ hk
    rw [hv k, if_neg hk, mul_zero]
  · intro h; exact absurd (mem_range.mpr hj) h

/-- **C12**, in formulas, for one interval coordinate: what `curve` is. -/
theorem C12_curve (g : GSpline) (i c : ℕ) (t : ℝ) :
    curve g i c t = ∑ k ∈ range g.basis.dim,
      vecOf g.coeffs (i * g.basis.dim * g.codim + g.basis.dim * c + k) * basisFn g.basis (vecOf g.tau i) k (t - brk g i) := rfl

example : ∃ v, exSpline.value 3 = .ok v ∧ v = [3] := by
  have hl : Located exSpline 3 1 := ⟨by simp [exSpline], .inr (.inl ⟨by simp [brk, exSpline]; norm_num, by simp [brk, exSpline]; norm_num⟩)⟩
  obtain ⟨v, hv, hlen, hc⟩ := C12_value exSpline exSpline_valid exSpline_consistent exSpline_positive 3 1 hl trivial
  refine ⟨v, hv, ?_⟩
  have h0 := hc 0 (by simp [exSpline])
  have hl1 : v.length = 1 := hlen
  match v, hl1, h0 with
  | [x], _, h0 =>
    simp only [List.getElem?_cons_zero, Option.some.injEq] at h0
    rw [h0]
    simp [curve, piece, comb, exSpline, Basis.dim, sum_range_succ, basisFn, window, vecOf, brk]
    simp [Spec.legendre]
    norm_num

/-! ## C13 -/

/-- **C13**, the constructor: the outcome for every combination of arguments. -/
theorem C13_constructor (dom : ℝ × ℝ) (codim nInt : ℕ) (b : Basis) (coeffs tau : List ℝ) :
    (dom.2 < dom.1 → GSpline.make dom codim nInt b coeffs tau = .error .assertFail) ∧
    (dom.1 ≤ dom.2 → coeffs.length ≠ nInt * b.dim * codim → GSpline.make dom codim nInt b coeffs tau = .error .invalidArgument) ∧
    (dom.1 ≤ dom.2 → coeffs.length = nInt * b.dim * codim → GSpline.make dom codim nInt b coeffs tau = .ok ⟨dom, codim, b, coeffs, tau⟩) := by
  refine ⟨fun h => ?_, fun h1 h2 => ?_, fun h1 h2 => make_ok h1 h2⟩
  · unfold GSpline.make; rw [if_neg (by linarith)]
  · unfold GSpline.make; rw [if_pos h1, if_pos h2]

/-- **C13** (the second half is false in general, see below): if the number of intervals given to the constructor is the number of interval
lengths, evaluation never reads out of range, and fails at no time unless the interval of that time has length zero (a division by zero). Missing: the constructor does
not check either. -/
theorem C13_no_out_of_bounds_partial (dom : ℝ × ℝ) (codim : ℕ) (b : Basis) (coeffs tau : List ℝ) (g : GSpline) (hb : b.Valid) (hne : tau ≠ [])
    (h : GSpline.make dom codim tau.length b coeffs tau = .ok g) (t : ℝ) :
    (0 ∉ tau → ∃ v, g.value t = .ok v ∧ v.length = codim) ∧ ((∃ v, g.value t = .ok v ∧ v.length = codim) ∨ g.value t = .error .notFinite ∧ tau.getD (g.getInterval t) 0 = 0) := by
  unfold GSpline.make at h
  split_ifs at h with h1 h2
  injection h with h
  subst h
  have hc : Consistent ⟨dom, codim, b, coeffs, tau⟩ := not_ne_iff.mp h2
  refine ⟨fun hz => value_total hb hc hne hz t, ?_⟩
  rw [value_eq hc hne]
  split_ifs with hz
  · exact .inr ⟨rfl, hz⟩
  · obtain ⟨buf, hbuf⟩ := evalOnWindow_total hb _ _
    rw [hbuf]
    exact .inl ⟨_, rfl, rowOf_length _ _ _⟩

/-- **C13 is false**: the constructor accepts two interval lengths with the coefficients of one interval, and evaluating in the second interval
reads out of range. -/
theorem C13_no_out_of_bounds_false : ∃ g : GSpline, GSpline.make (0, 2) 1 1 (.legendre 2) [1, 1] [1, 1] = .ok g ∧ g.value 2 = .error .ub := by
  refine ⟨_, make_ok (by norm_num) (by simp [Basis.dim]), ?_⟩
  set g : GSpline := ⟨(0, 2), 1, .legendre 2, [1, 1], [1, 1]⟩ with hg
  have hp : Positive g := ⟨by simp [hg], by simp [hg]⟩
  have hl : Located g 2 1 := ⟨by simp [hg], .inr (.inl ⟨by simp [brk, hg], by simp [brk, hg]; norm_num⟩)⟩
  unfold GSpline.value
  simp only [getInterval_of_located hp hl, intervalToWindow_ok g 2 hl.1 (vecOf_pos hp.2 hl.1).ne', rd_ok hl.1]
  simp [hg, Basis.evalOnWindow, Legendre.evalOnWindow, GSpline.coefficientSegment, segment, Basis.dim]
  rfl

/-- **C13 is false**, second way: no interval at all. -/
theorem C13_no_intervals_false : ∃ g : GSpline, GSpline.make (0, 2) 1 0 (.legendre 2) [] [] = .ok g ∧ ∀ t, g.value t = .error .ub := by
  refine ⟨_, make_ok (by norm_num) (by simp), fun t => ?_⟩
  unfold GSpline.value GSpline.intervalToWindow
  have hr : ∀ i, rd [] i = .error .ub := fun i => by simp [rd]
  simp only [hr]
  unfold segment
  split_ifs <;> rfl

/-! ## C14 -/

/-- **C14.** `deriv(n)` keeps domain, codomain, basis and interval lengths, and its function on every interval is the `n`-th derivative of the
original one. For Basis0101, `n ≤ 2` (see `C14_derivative_basis0101_false`). -/
theorem C14_derivative_partial (g : GSpline) (hb : g.basis.Valid) (hc : Consistent g) (hp : Positive g) (hdom : g.dom.1 ≤ g.dom.2)
    (n : ℕ) (hn : g.basis.MatOrderOk n) :
    ∃ g', g.deriv n = .ok g' ∧ g'.dom = g.dom ∧ g'.codim = g.codim ∧ g'.basis = g.basis ∧ g'.tau = g.tau ∧ Consistent g' ∧
      ∀ t i, Located g t i → g.basis.CleanAt (window (vecOf g.tau i) (t - brk g i)) →
        ∃ v, g'.value t = .ok v ∧ v.length = g.codim ∧ ∀ c < g.codim, v[c]? = some (iteratedDeriv n (curve g i c) t) := by
  have h := deriv_ok hdom hc hp.not_mem n
  refine ⟨_, h, rfl, rfl, rfl, rfl, ?_, ?_⟩
  · unfold Consistent; split_ifs <;> simp <;> exact hc
  · intro t i hl hclean
    set g' : GSpline := { g with coeffs := if 0 < n then (List.range g.coeffs.length).map (g.derivCoeffs n) else g.coeffs } with hg'
    have hcon : Consistent g' := by unfold Consistent; rw [hg']; dsimp only; split_ifs <;> (try simp only [List.length_map, List.length_range]) <;> exact hc
    obtain ⟨v, hv, hlen, hvc⟩ := value_spec (g := g') hb hcon (t := t) (i := i) (getInterval_of_located (g := g') hp hl) hl.1 (vecOf_pos hp.2 hl.1).ne' hclean
    refine ⟨v, hv, hlen, fun c hcc => ?_⟩
    rw [hvc c hcc, curve_deriv hb hdom hc hp.not_mem n hn h hl.1 (vecOf_pos hp.2 hl.1).ne' hcc]

/-- A basis whose evaluation is exact at every point: Legendre and Basis0101. -/
def Exact : Basis → Prop
  | .lagrange _ => False
  | _ => True

theorem exact_clean {b : Basis} (h : Exact b) (s : ℝ) : b.CleanAt s := by cases b <;> trivial

/-- Component `c` of what `value` returns (`0` if it fails). -/
noncomputable def comp (g : GSpline) (c : ℕ) (t : ℝ) : ℝ :=
  match g.value t with
  | .ok v => v.getD c 0
  | .error _ => 0

/-- **C14**, in terms of values only, for Legendre (all orders) and Basis0101 (`n ≤ 2`): inside every interval the value of `deriv(n)` is the `n`-th
derivative of the value of the spline. -/
theorem C14_derivative_of_values_partial (g : GSpline) (hb : g.basis.Valid) (hex : Exact g.basis) (hc : Consistent g) (hp : Positive g)
    (hdom : g.dom.1 ≤ g.dom.2) (n : ℕ) (hn : g.basis.MatOrderOk n) :
    ∃ g', g.deriv n = .ok g' ∧ ∀ i < g.tau.length, ∀ t, brk g i < t → t < brk g (i + 1) → ∀ c < g.codim,
      comp g' c t = iteratedDeriv n (comp g c) t := by
  obtain ⟨g', h, -, -, -, -, -, hv⟩ := C14_derivative_partial g hb hc hp hdom n hn
  refine ⟨g', h, fun i hi t h1 h2 c hcc => ?_⟩
  obtain ⟨v, hv', hlen, hvc⟩ := hv t i ⟨hi, .inr (.inl ⟨h1, h2.le⟩)⟩ (exact_clean hex _)
  have e1 : comp g' c t = iteratedDeriv n (curve g i c) t := by
    unfold comp; rw [hv']
    simp [List.getD_eq_getElem?_getD, hvc c hcc]
  rw [e1]
  have hnear : comp g c =ᶠ[nhds t] curve g i c := by
    filter_upwards [Ioo_mem_nhds h1 h2] with u hu
    obtain ⟨w, hw, -, hwc⟩ := C12_value g hb hc hp u i ⟨hi, .inr (.inl ⟨hu.1, hu.2.le⟩)⟩ (exact_clean hex _)
    unfold comp; rw [hw]
    simp [List.getD_eq_getElem?_getD, hwc c hcc]
  exact (hnear.iteratedDeriv_eq n).symm

example : exSpline.basis.Valid ∧ Exact exSpline.basis ∧ Consistent exSpline ∧ Positive exSpline ∧ exSpline.dom.1 ≤ exSpline.dom.2
    ∧ exSpline.basis.MatOrderOk 1 :=
  ⟨exSpline_valid, trivial, exSpline_consistent, exSpline_positive, by simp [exSpline], trivial⟩

/-- **C14 is false for Basis0101 from order 3 on** (orders that are not multiples of 4): one interval, the function `e^p sin p`. -/
theorem C14_derivative_basis0101_false (alpha : ℝ) (h0 : 0 < alpha) (h1 : alpha < 1) (n : ℕ) (hn : 3 ≤ n) (h4 : ¬ 4 ∣ n) :
    ∃ g' : GSpline, GSpline.deriv ⟨(0, 2), 1, .b0101 alpha, [0, 1, 0, 0, 0, 0], [2]⟩ n = .ok g' ∧ g'.value 1 = .ok [0] ∧
      iteratedDeriv n (comp ⟨(0, 2), 1, .b0101 alpha, [0, 1, 0, 0, 0, 0], [2]⟩ 0) 1 ≠ 0 := by
  set g : GSpline := ⟨(0, 2), 1, .b0101 alpha, [0, 1, 0, 0, 0, 0], [2]⟩ with hg
  have hc : Consistent g := by simp [Consistent, hg, Basis.dim]
  have hp : Positive g := ⟨by simp [hg], by simp [hg]⟩
  have hb : g.basis.Valid := ⟨h0.le, h1⟩
  have hdom : g.dom.1 ≤ g.dom.2 := by simp [hg]
  have hl : Located g 1 0 := ⟨by simp [hg], .inr (.inl ⟨by simp [brk, hg], by simp [brk, hg]⟩)⟩
  have hd := deriv_ok hdom hc hp.not_mem n
  have hfalse := C30_basis0101_derivative_matrix_false alpha h0 h1 2 (by norm_num) n hn h4
  refine ⟨_, hd, ?_, ?_⟩
  · set g' : GSpline := { g with coeffs := if 0 < n then (List.range g.coeffs.length).map (g.derivCoeffs n) else g.coeffs } with hg'
    have hcon : Consistent g' := by
      unfold Consistent; rw [hg']; dsimp only; split_ifs <;> (try simp only [List.length_map, List.length_range]) <;> exact hc
    obtain ⟨v, hv, hlen, hvc⟩ := value_spec (g := g') hb hcon (t := 1) (i := 0) (getInterval_of_located (g := g') hp hl) hl.1 (vecOf_pos hp.2 hl.1).ne' trivial
    rw [hv]
    have hlen1 : v.length = 1 := hlen
    have h00 := hvc 0 (by simp [hg', hg])
    match v, hlen1, h00 with
    | [x], _, h00 =>
      simp only [List.getElem?_cons_zero, Option.some.injEq] at h00
      rw [h00]
      congr 2
      rw [← hfalse.1]
      have hbrk : brk g' 0 = 0 := by simp [brk, hg', hg]
      unfold curve
      rw [hbrk]
      change ∑ k ∈ range 6, vecOf g'.coeffs (0 * 6 * 1 + 6 * 0 + k) * phi0101 alpha 2 k (1 - 0)
        = ∑ i ∈ range 6, (B0101.derivMatrixImpl alpha n).mulVec 6 _ i * phi0101 alpha 2 i (2 / 2)
      refine sum_congr rfl fun k hk => ?_
      have hk := mem_range.mp hk
      rw [show (1 : ℝ) - 0 = 2 / 2 by norm_num]
      congr 1
      have e : g'.coeffs = (List.range 6).map (g.derivCoeffs n) := by
        rw [hg']; dsimp only; rw [if_pos (by omega)]; rfl
      rw [e, vecOf_map_range (by omega)]
      have := derivCoeffs_spec g n (i := 0) (c := 0) (k := k) hl.1 (by simp [hg]) hk
      change g.derivCoeffs n (0 * 6 * 1 + 6 * 0 + k) = (B0101.derivMatrixImpl alpha n).mulVec 6 (fun j => vecOf g.coeffs (0 * 6 * 1 + 6 * 0 + j)) k
        * (if n = 0 then 0 else 1) at this
      rw [this, if_neg (by omega), mul_one]
      unfold Mat.mulVec
      refine sum_congr rfl fun j hj => ?_
      have hj := mem_range.mp hj
      congr 1
      interval_cases j <;> simp [vecOf, hg]
  · have hnear : comp g 0 =ᶠ[nhds 1] comb0101 alpha 2 (fun i => if i = 1 then 1 else 0) := by
      filter_upwards [Ioo_mem_nhds (show (0 : ℝ) < 1 by norm_num) (show (1 : ℝ) < 2 by norm_num)] with u hu
      obtain ⟨w, hw, -, hwc⟩ := C12_value g hb hc hp u 0 ⟨by simp [hg], .inr (.inl ⟨by simpa [brk, hg] using hu.1, by simpa [brk, hg] using hu.2.le⟩)⟩ trivial
      unfold comp; rw [hw]
      simp only [List.getD_eq_getElem?_getD, hwc 0 (by simp [hg] : 0 < g.codim), Option.getD_some]
      have hbrk : brk g 0 = 0 := by simp [brk, hg]
      unfold curve
      rw [hbrk, sub_zero]
      change ∑ k ∈ range 6, vecOf g.coeffs (0 * 6 * 1 + 6 * 0 + k) * phi0101 alpha 2 k u = ∑ i ∈ range 6, _ * phi0101 alpha 2 i u
      refine sum_congr rfl fun j hj => ?_
      have hj := mem_range.mp hj
      congr 1
      interval_cases j <;> simp [vecOf, hg]
    rw [hnear.iteratedDeriv_eq n]
    have := hfalse.2
    rwa [show (2 : ℝ) / 2 = 1 by norm_num] at this

/-- **C14 for Basis0101, the exact extent.** `deriv(n)` returns the `n`-th derivative of every Basis0101 spline with parameter `α` exactly when `n ≤ 2`, or,
by coincidence, when `α = 1/2` and `n` is a multiple of eight. -/
theorem C14_derivative_basis0101_iff (alpha : ℝ) (h0 : 0 < alpha) (h1 : alpha < 1) (n : ℕ) :
    (∀ g : GSpline, g.basis = .b0101 alpha → Consistent g → Positive g → g.dom.1 ≤ g.dom.2 →
      ∃ g', g.deriv n = .ok g' ∧ ∀ t i, Located g t i →
        ∃ v, g'.value t = .ok v ∧ v.length = g.codim ∧ ∀ c < g.codim, v[c]? = some (iteratedDeriv n (curve g i c) t)) ↔
      n ≤ 2 ∨ (alpha = 1 / 2 ∧ 8 ∣ n) := by
  constructor
  · intro h
    rcases Nat.eq_zero_or_pos n with hn0 | hn0
    · left; omega
    refine derivMatrix_middle alpha h0 h1 2 (by norm_num) n fun y => ?_
    set g : GSpline := ⟨(0, 2), 1, .b0101 alpha, (List.range 6).map y, [2]⟩ with hg
    have hc : Consistent g := by simp [Consistent, hg, Basis.dim]
    have hp : Positive g := ⟨by simp [hg], by simp [hg]⟩
    have hdom : g.dom.1 ≤ g.dom.2 := by simp [hg]
    have hb : g.basis.Valid := ⟨h0.le, h1⟩
    have hl : Located g 1 0 := ⟨by simp [hg], .inr (.inl ⟨by simp [brk, hg], by simp [brk, hg]⟩)⟩
    obtain ⟨g', hd, hv⟩ := h g rfl hc hp hdom
    obtain ⟨v, hv1, hlen, hvc⟩ := hv 1 0 hl
    have hd' := hd
    rw [deriv_ok hdom hc hp.not_mem n] at hd'
    injection hd' with hd'
    have hcon : Consistent g' := by
      rw [← hd']; unfold Consistent; split_ifs <;> simp <;> exact hc
    have hl' : Located g' 1 0 := by rw [← hd']; exact hl
    have hp' : Positive g' := by rw [← hd']; exact hp
    have hb' : g'.basis.Valid := by rw [← hd']; exact hb
    have hcl : g'.basis.CleanAt (window (vecOf g'.tau 0) (1 - brk g' 0)) := by rw [← hd']; trivial
    obtain ⟨w, hw, -, hwc⟩ := value_spec (g := g') hb' hcon (t := 1) (i := 0) (getInterval_of_located hp' hl') hl'.1 (vecOf_pos hp'.2 hl'.1).ne' hcl
    rw [hv1] at hw
    injection hw with hw
    subst hw
    have h2 := hvc 0 (by simp [hg])
    have h3 := hwc 0 (by rw [← hd']; simp [hg])
    rw [h3] at h2
    injection h2 with h2
    rw [curve_deriv_block hdom hc hp.not_mem n hn0 hd hl.1 (by simp [hg]) 1, iteratedDeriv_curve] at h2
    have hb0 : brk g 0 = 0 := by simp [brk, hg]
    have hy : comb (.b0101 alpha) 2 (fun k => vecOf g.coeffs (Basis.coefIdx 6 1 0 0 k)) = comb0101 alpha 2 y := by
      funext t
      change ∑ k ∈ range 6, vecOf g.coeffs (0 * 6 * 1 + 6 * 0 + k) * phi0101 alpha 2 k t = ∑ k ∈ range 6, y k * phi0101 alpha 2 k t
      refine sum_congr rfl fun k hk => ?_
      rw [show g.coeffs = (List.range 6).map y from rfl, vecOf_map_range (by have := mem_range.mp hk; omega)]
      simp
    have hm : (fun k => ((Basis.b0101 alpha).derivBlock n).mulVec 6 (fun k => vecOf g.coeffs (Basis.coefIdx 6 1 0 0 k)) k * 1)
        = (B0101.derivMatrixImpl alpha n).mulVec 6 y := by
      funext k
      rw [mul_one]
      change ∑ j ∈ range 6, B0101.derivMatrixImpl alpha n k j * vecOf g.coeffs (0 * 6 * 1 + 6 * 0 + j) = ∑ j ∈ range 6, B0101.derivMatrixImpl alpha n k j * y j
      refine sum_congr rfl fun j hj => ?_
      rw [show g.coeffs = (List.range 6).map y from rfl, vecOf_map_range (by have := mem_range.mp hj; omega)]
      simp
    rw [hb0] at h2
    change comb (.b0101 alpha) 2 (fun k => ((Basis.b0101 alpha).derivBlock n).mulVec 6 (fun k => vecOf g.coeffs (Basis.coefIdx 6 1 0 0 k)) k * 1) (1 - 0)
      = iteratedDeriv n (comb (.b0101 alpha) 2 (fun k => vecOf g.coeffs (Basis.coefIdx 6 1 0 0 k))) (1 - 0) at h2
    rw [hm, hy, sub_zero] at h2
    rw [show (2 : ℝ) / 2 = 1 by norm_num]
    exact h2
  · intro hn g hbas hc hp hdom
    have hd := deriv_ok hdom hc hp.not_mem n
    refine ⟨_, hd, fun t i hl => ?_⟩
    set g' : GSpline := { g with coeffs := if 0 < n then (List.range g.coeffs.length).map (g.derivCoeffs n) else g.coeffs } with hg'
    have hb : g.basis.Valid := by rw [hbas]; exact ⟨h0.le, h1⟩
    have hcon : Consistent g' := by unfold Consistent; rw [hg']; dsimp only; split_ifs <;> (try simp only [List.length_map, List.length_range]) <;> exact hc
    have hτ := (vecOf_pos hp.2 hl.1).ne'
    obtain ⟨v, hv, hlen, hvc⟩ := value_spec (g := g') hb hcon (t := t) (i := i) (getInterval_of_located (g := g') hp hl) hl.1 hτ
      (by change g.basis.CleanAt _; rw [hbas]; trivial)
    refine ⟨v, hv, hlen, fun c hcc => ?_⟩
    rw [hvc c hcc]
    congr 1
    rcases Nat.eq_zero_or_pos n with hn0 | hn0
    · rw [curve_deriv hb hdom hc hp.not_mem n (by rw [hbas]; simp [Basis.MatOrderOk, hn0]) hd hl.1 hτ hcc]
    rw [curve_deriv_block hdom hc hp.not_mem n hn0 hd hl.1 hcc t, iteratedDeriv_curve]
    rw [hbas]
    have key := (C30_basis0101_derivative_matrix_iff alpha h0 h1 (vecOf g.tau i) hτ n).mpr hn
      (fun k => vecOf g.coeffs (Basis.coefIdx 6 g.codim i c k)) (t - brk g i)
    have e : (fun k => ((Basis.b0101 alpha).derivBlock n).mulVec 6 (fun k => vecOf g.coeffs (Basis.coefIdx 6 g.codim i c k)) k * 1)
        = (B0101.derivMatrixImpl alpha n).mulVec 6 (fun k => vecOf g.coeffs (Basis.coefIdx 6 g.codim i c k)) := by
      funext k; rw [mul_one]; rfl
    change comb (.b0101 alpha) (vecOf g.tau i) (fun k => ((Basis.b0101 alpha).derivBlock n).mulVec 6
      (fun k => vecOf g.coeffs (Basis.coefIdx 6 g.codim i c k)) k * 1) (t - brk g i) = _
    rw [e]
    exact key

/-- The theorem applies: no Basis0101 parameter makes `deriv(4)` right for all splines. -/
example (alpha : ℝ) (h0 : 0 < alpha) (h1 : alpha < 1) : ¬ ∀ g : GSpline, g.basis = .b0101 alpha → Consistent g → Positive g → g.dom.1 ≤ g.dom.2 →
      ∃ g', g.deriv 4 = .ok g' ∧ ∀ t i, Located g t i →
        ∃ v, g'.value t = .ok v ∧ v.length = g.codim ∧ ∀ c < g.codim, v[c]? = some (iteratedDeriv 4 (curve g i c) t) := by
  rw [C14_derivative_basis0101_iff alpha h0 h1]; norm_num

/-! ## C15 -/

/-- **C15**, what "same vector space" means: same kind of basis and dimension, basis parameters closer than `1e-6`, same codomain
dimension, same number of intervals and interval lengths closer than `1e-8` (relative to the largest one and `1`). -/
theorem C15_same_vector_space_sound (a b : GSpline) (h : a.sameVectorSpace b = true) :
    a.basis.name = b.basis.name ∧ a.basis.dim = b.basis.dim ∧ a.codim = b.codim ∧ a.tau.length = b.tau.length ∧
      ∀ i (ha : i < a.tau.length) (hb : i < b.tau.length),
        |a.tau[i] - b.tau[i]| < 1 / 10 ^ 8 * max 1 (max (Tools.maxAbs a.tau) (Tools.maxAbs b.tau)) := by
  unfold GSpline.sameVectorSpace at h
  simp only [Bool.and_eq_true, beq_iff_eq] at h
  obtain ⟨⟨h1, h2⟩, h3⟩ := h
  obtain ⟨n1, n2, -, -⟩ := C36_basis_eq_sound _ _ h1
  obtain ⟨-, -, h6, h7⟩ := Tools.approxEqualM_bound h3
  exact ⟨n1, n2, h2, h6, h7⟩

/-- **C15**: splines with the same basis, codomain dimension and interval lengths are in the same vector space. -/
theorem C15_same_vector_space_complete (a b : GSpline) (h1 : b.basis = a.basis) (h2 : b.codim = a.codim) (h3 : b.tau = a.tau) :
    a.sameVectorSpace b = true := by
  unfold GSpline.sameVectorSpace
  rw [h1, h2, h3]
  simp [C36_basis_eq_refl, Tools.approxEqualV, Tools.approxEqualM_refl]

/-- The binary operations of `GSpline`: overloads and compound assignments. -/
inductive BinOp where
  | add | addToThat | addInPlace | sub | subToThat | subInPlace

/-- The call of an operation. -/
noncomputable def BinOp.run : BinOp → GSpline → GSpline → Res GSpline
  | .add => GSpline.add
  | .addToThat => GSpline.addToThat
  | .addInPlace => GSpline.addInPlace
  | .sub => GSpline.sub
  | .subToThat => GSpline.subToThat
  | .subInPlace => GSpline.subInPlace

/-- The operation on numbers. -/
def BinOp.num : BinOp → ℝ → ℝ → ℝ
  | .add | .addToThat | .addInPlace => (· + ·)
  | .sub | .subToThat | .subInPlace => (· - ·)

/-- **C15**, errors: an operation on splines that are not in the same vector space throws `std::invalid_argument`. -/
theorem C15_incompatible (op : BinOp) (a b : GSpline) (h : a.sameVectorSpace b = false) : op.run a b = .error .invalidArgument := by
  cases op <;> simp [BinOp.run, GSpline.add, GSpline.addToThat, GSpline.addInPlace, GSpline.sub, GSpline.subToThat, GSpline.subInPlace, h]

theorem consistent_length {a b : GSpline} (ha : Consistent a) (hb : Consistent b) (h : a.sameVectorSpace b = true) :
    a.coeffs.length = b.coeffs.length := by
  obtain ⟨-, h1, h2, h3, -⟩ := C15_same_vector_space_sound a b h
  rw [ha, hb, h1, h2, h3]

/-- **C15**, success: an operation on consistent splines succeeds exactly when they are in the same vector space, otherwise it throws. -/
theorem C15_throws_iff (op : BinOp) (a b : GSpline) (ha : Consistent a) (hb : Consistent b) :
    (∃ r, op.run a b = .ok r) ↔ a.sameVectorSpace b = true := by
  constructor
  · rintro ⟨r, hr⟩
    by_contra hc
    rw [C15_incompatible op a b (by simpa using hc)] at hr
    cases hr
  · intro h
    have hl := consistent_length ha hb h
    cases op <;> simp [BinOp.run, GSpline.add, GSpline.addToThat, GSpline.addInPlace, GSpline.sub, GSpline.subToThat, GSpline.subInPlace, h,
      copy_ok ha, zipRes, hl, bind, Except.bind, pure, Except.pure]

/-- **C15**, values: on consistent splines with the same basis, codomain dimension, interval lengths and start of the domain, every overload of `+`
and `-` and both compound assignments act pointwise on values at every `t`. Missing: splines that are in the same vector space only up to the tolerances, or
that start at different instants, for which the statement is false (`C15_pointwise_false`). -/
theorem C15_pointwise_partial (op : BinOp) (a b : GSpline) (ha : Consistent a) (hb : Consistent b) (hne : a.tau ≠ []) (hd : b.dom.1 = a.dom.1)
    (h1 : b.basis = a.basis) (h2 : b.codim = a.codim) (h3 : b.tau = a.tau) :
    ∃ r, op.run a b = .ok r ∧ r.basis = a.basis ∧ r.codim = a.codim ∧ r.tau = a.tau ∧ Consistent r ∧
      ∀ t, r.value t = (do let x ← a.value t; let y ← b.value t; return List.zipWith op.num x y) := by
  have hs := C15_same_vector_space_complete a b h1 h2 h3
  have hl := consistent_length ha hb hs
  have hadd : ∀ x y z : ℝ, (x + y) * z = x * z + y * z := fun x y z => by ring
  have hsub : ∀ x y z : ℝ, (x - y) * z = x * z - y * z := fun x y z => by ring
  have hadd2 : ∀ x y z w : ℝ, x + y + (z + w) = x + z + (y + w) := fun x y z w => by ring
  have hsub2 : ∀ x y z w : ℝ, x - y + (z - w) = x + z - (y + w) := fun x y z w => by ring
  have hlen : ∀ f : ℝ → ℝ → ℝ, (List.zipWith f a.coeffs b.coeffs).length = a.tau.length * a.basis.dim * a.codim := by
    intro f; rw [List.length_zipWith, ← hl, min_self]; exact ha
  have hcomm : List.zipWith (· + ·) b.coeffs a.coeffs = List.zipWith (fun x y : ℝ => x + y) a.coeffs b.coeffs := by
    rw [List.zipWith_comm]; congr 1; funext x y; ring
  cases op with
  | add =>
    refine ⟨{ a with coeffs := List.zipWith (· + ·) a.coeffs b.coeffs }, ?_, rfl, rfl, rfl, hlen _, fun t =>
      value_zip (r := { a with coeffs := List.zipWith (· + ·) a.coeffs b.coeffs }) _ hadd (by norm_num) hadd2 ha hb hne hd h1 h2 h3 rfl rfl rfl rfl rfl t⟩
    simp [BinOp.run, GSpline.add, hs, copy_ok ha, zipRes, hl, bind, Except.bind, pure, Except.pure]
  | addToThat =>
    refine ⟨{ b with coeffs := List.zipWith (· + ·) b.coeffs a.coeffs }, ?_, h1, h2, h3, ?_, fun t =>
      value_zip (r := { b with coeffs := List.zipWith (· + ·) b.coeffs a.coeffs }) _ hadd (by norm_num) hadd2 ha hb hne hd h1 h2 h3 hd h1 h2 h3 hcomm t⟩
    · simp [BinOp.run, GSpline.addToThat, hs, zipRes, hl, bind, Except.bind, pure, Except.pure]
    · unfold Consistent; rw [hcomm, h1, h2, h3]; exact hlen _
  | addInPlace =>
    refine ⟨{ a with coeffs := List.zipWith (· + ·) a.coeffs b.coeffs }, ?_, rfl, rfl, rfl, hlen _, fun t =>
      value_zip (r := { a with coeffs := List.zipWith (· + ·) a.coeffs b.coeffs }) _ hadd (by norm_num) hadd2 ha hb hne hd h1 h2 h3 rfl rfl rfl rfl rfl t⟩
    simp [BinOp.run, GSpline.addInPlace, hs, zipRes, hl, bind, Except.bind, pure, Except.pure]
  | sub =>
    refine ⟨{ a with coeffs := List.zipWith (· - ·) a.coeffs b.coeffs }, ?_, rfl, rfl, rfl, hlen _, fun t =>
      value_zip (r := { a with coeffs := List.zipWith (· - ·) a.coeffs b.coeffs }) _ hsub (by norm_num) hsub2 ha hb hne hd h1 h2 h3 rfl rfl rfl rfl rfl t⟩
    simp [BinOp.run, GSpline.sub, hs, copy_ok ha, zipRes, hl, bind, Except.bind, pure, Except.pure]
  | subToThat =>
    refine ⟨{ b with coeffs := List.zipWith (· - ·) a.coeffs b.coeffs }, ?_, h1, h2, h3, ?_, fun t =>
      value_zip (r := { b with coeffs := List.zipWith (· - ·) a.coeffs b.coeffs }) _ hsub (by norm_num) hsub2 ha hb hne hd h1 h2 h3 hd h1 h2 h3 rfl t⟩
    · simp [BinOp.run, GSpline.subToThat, hs, zipRes, hl, bind, Except.bind, pure, Except.pure]
    · unfold Consistent; rw [h1, h2, h3]; exact hlen _
  | subInPlace =>
    refine ⟨{ a with coeffs := List.zipWith (· - ·) a.coeffs b.coeffs }, ?_, rfl, rfl, rfl, hlen _, fun t =>
      value_zip (r := { a with coeffs := List.zipWith (· - ·) a.coeffs b.coeffs }) _ hsub (by norm_num) hsub2 ha hb hne hd h1 h2 h3 rfl rfl rfl rfl rfl t⟩
    simp [BinOp.run, GSpline.subInPlace, hs, zipRes, hl, bind, Except.bind, pure, Except.pure]

/-- **C15**, scalar multiplication (copying and in place). -/
theorem C15_scalar (k : ℝ) (g : GSpline) (hc : Consistent g) (hne : g.tau ≠ []) :
    GSpline.smul k g = .ok (GSpline.smulInPlace k g) ∧ Consistent (GSpline.smulInPlace k g) ∧ (GSpline.smulInPlace k g).basis = g.basis ∧
      (GSpline.smulInPlace k g).tau = g.tau ∧ (GSpline.smulInPlace k g).dom = g.dom ∧
      ∀ t, (GSpline.smulInPlace k g).value t = (g.value t).map (fun v => v.map (· * k)) := by
  refine ⟨?_, consistent_smul hc k, rfl, rfl, rfl, value_smul hc hne k⟩
  unfold GSpline.smul; rw [copy_ok hc]; rfl

/-- **C15**, unary minus (copying and in place). -/
theorem C15_neg (g : GSpline) (hc : Consistent g) (hne : g.tau ≠ []) :
    GSpline.neg g = .ok (GSpline.negInPlace g) ∧ Consistent (GSpline.negInPlace g) ∧
      ∀ t, (GSpline.negInPlace g).value t = (g.value t).map (fun v => v.map (fun x => -x)) := by
  have e : GSpline.negInPlace g = GSpline.smulInPlace (-1) g := rfl
  refine ⟨?_, e ▸ consistent_smul hc (-1), fun t => ?_⟩
  · unfold GSpline.neg; rw [copy_ok hc]; rfl
  · rw [e, value_smul hc hne]
    congr 1; funext v; congr 1; funext x; ring

/-- The example spline moved to the domain `[0, 3]`. -/
noncomputable def exSpline0 : GSpline := { exSpline with dom := (0, 3) }

theorem exSpline_value_eq (g : GSpline) (i : ℕ) (hb : g.basis = .legendre 2) (hc : Consistent g) (hp : Positive g) (h1 : g.codim = 1) (t : ℝ)
    (hl : Located g t i) : g.value t = .ok [curve g i 0 t] := by
  obtain ⟨v, hv, hlen, hvc⟩ := C12_value g (by rw [hb]; exact (by norm_num : 2 ≤ 2)) hc hp t i hl (by rw [hb]; trivial)
  rw [hv]
  have h0 := hvc 0 (by omega)
  rw [h1] at hlen
  match v, hlen, h0 with
  | [x], _, h0 =>
    simp only [List.getElem?_cons_zero, Option.some.injEq] at h0
    rw [h0]

theorem exSpline_located : Located exSpline 3 1 := ⟨by simp [exSpline], .inr (.inl ⟨by simp [brk, exSpline]; norm_num, by simp [brk, exSpline]; norm_num⟩)⟩

theorem exSpline0_located : Located exSpline0 3 1 :=
  ⟨by simp [exSpline0, exSpline], .inr (.inl ⟨by norm_num [brk, exSpline0, exSpline], by norm_num [brk, exSpline0, exSpline]⟩)⟩

theorem exSpline_value : exSpline.value 3 = .ok [3] := by
  rw [exSpline_value_eq exSpline 1 rfl exSpline_consistent exSpline_positive rfl 3 exSpline_located]
  simp [curve, piece, comb, exSpline, Basis.dim, sum_range_succ, basisFn, window, vecOf, brk]
  simp [Spec.legendre]
  norm_num

theorem exSpline0_value : exSpline0.value 3 = .ok [7] := by
  rw [exSpline_value_eq exSpline0 1 rfl exSpline_consistent exSpline_positive rfl 3 exSpline0_located]
  simp [curve, piece, comb, exSpline0, exSpline, Basis.dim, sum_range_succ, basisFn, window, vecOf, brk]
  simp [Spec.legendre]
  norm_num

/-- **C15 is false for splines that start at different instants:** they pass the check, and the sum is not the sum of the values. The overload
decides which of the two domains the result has. -/
theorem C15_pointwise_false : exSpline.sameVectorSpace exSpline0 = true ∧
    (∃ r, exSpline.add exSpline0 = .ok r ∧ r.dom = (1, 4) ∧
      r.value 3 ≠ (do let x ← exSpline.value 3; let y ← exSpline0.value 3; return List.zipWith (· + ·) x y)) ∧
    ∃ r, exSpline.addToThat exSpline0 = .ok r ∧ r.dom = (0, 3) := by
  have hs : exSpline.sameVectorSpace exSpline0 = true := C15_same_vector_space_complete _ _ rfl rfl rfl
  refine ⟨hs, ⟨{ exSpline with coeffs := List.zipWith (· + ·) exSpline.coeffs exSpline0.coeffs }, ?_, rfl, ?_⟩, ?_⟩
  · simp [GSpline.add, hs, copy_ok exSpline_consistent, zipRes, bind, Except.bind, pure, Except.pure]
    simp [exSpline0, exSpline]
  · rw [exSpline_value, exSpline0_value]
    set r : GSpline := { exSpline with coeffs := List.zipWith (· + ·) exSpline.coeffs exSpline0.coeffs } with hr
    have hcr : Consistent r := by simp [Consistent, hr, exSpline, exSpline0, Basis.dim]
    rw [exSpline_value_eq r 1 rfl hcr exSpline_positive rfl 3 exSpline_located]
    change ¬ (Except.ok _ = Except.ok _)
    simp [curve, piece, comb, hr, exSpline0, exSpline, Basis.dim, sum_range_succ, basisFn, window, vecOf, brk]
    simp [Spec.legendre]
    norm_num
  · refine ⟨{ exSpline0 with coeffs := List.zipWith (· + ·) exSpline0.coeffs exSpline.coeffs }, ?_, rfl⟩
    simp [GSpline.addToThat, hs, zipRes, bind, Except.bind, pure, Except.pure]
    simp [exSpline0, exSpline]

/-- The hypotheses of `C15_pointwise_partial` hold for the example spline and its double. -/
example : ∃ r, exSpline.add (GSpline.smulInPlace 2 exSpline) = .ok r ∧ r.value 3 = .ok [9] := by
  obtain ⟨-, hc2, -, -, -, hv2⟩ := C15_scalar 2 exSpline exSpline_consistent exSpline_positive.1
  obtain ⟨r, hr, -, -, -, -, hv⟩ := C15_pointwise_partial .add exSpline (GSpline.smulInPlace 2 exSpline) exSpline_consistent hc2 exSpline_positive.1 rfl rfl rfl rfl
  refine ⟨r, hr, ?_⟩
  rw [hv, hv2, exSpline_value]
  change Except.ok _ = Except.ok _
  norm_num [BinOp.num]

/-! ## C16 -/

/-- **C16.** `linear_scaling_new_execution_time(T)` throws exactly when `T < 1e-8`; otherwise the result starts at the same instant, has duration `T` and
takes at `t0 + c (t - t0)` exactly the value that the original takes at `t`. -/
theorem C16_linear_scaling (g : GSpline) (hb : g.basis.Valid) (hc : Consistent g) (hne : g.tau ≠ []) (hlen : 0 < g.domainLength) (T : ℝ) :
    (T < 1 / 10 ^ 8 → g.linearScaling T = .error .invalidArgument) ∧
    (1 / 10 ^ 8 ≤ T → ∃ r, g.linearScaling T = .ok r ∧ r.dom = (g.dom.1, g.dom.1 + T) ∧ r.domainLength = T ∧ r.codim = g.codim ∧
      r.coeffs = g.coeffs ∧ r.tau = g.tau.map (· * (T / g.domainLength)) ∧ r.basis.Valid ∧ Consistent r ∧
      ∀ t, r.value (g.dom.1 + T / g.domainLength * (t - g.dom.1)) = g.value t) := by
  constructor
  · intro h; unfold GSpline.linearScaling; rw [if_pos h]
  · intro h
    have hT : 0 < T := lt_of_lt_of_le (by norm_num) h
    have hf : 0 < T / g.domainLength := div_pos hT hlen
    refine ⟨g.scaled (T / g.domainLength) (g.dom.1 + T), ?_, rfl, ?_, rfl, rfl, rfl, scaledBasis_valid hb _, consistent_scaled hc _ _,
      value_scaled (paramOk_of_valid hb) hc hne hf _⟩
    · unfold GSpline.linearScaling
      rw [if_neg (by linarith), if_neg (by rintro (h | h); exacts [hlen.ne' h, h (scalingFinite_of_valid hb hf.ne')])]
      exact make_ok (by simp [hT.le]) (by rw [scaledBasis_dim]; exact hc)
    · simp [GSpline.domainLength, GSpline.scaled]

/-- **C16**, for a spline whose lengths add up to the duration of the domain: the last breakpoint of the result is its end of domain. -/
theorem C16_linear_scaling_end (g r : GSpline) (hlen : 0 < g.domainLength) (hsum : g.tau.sum = g.domainLength) (T : ℝ)
    (h : g.linearScaling T = .ok r) : r.tau.sum = r.domainLength := by
  unfold GSpline.linearScaling at h
  split_ifs at h with h1 h4
  simp only [GSpline.make] at h
  split_ifs at h with h2 h3
  injection h with h
  subst h
  simp only [GSpline.domainLength] at *
  rw [sum_map_mul, hsum]
  field_simp
  ring

/-- The example spline scaled to duration 6: the value at `3` is found at `5`. -/
example : ∃ r, exSpline.linearScaling 6 = .ok r ∧ r.value 5 = exSpline.value 3 := by
  obtain ⟨r, hr, -, -, -, -, -, -, -, hv⟩ := (C16_linear_scaling exSpline exSpline_valid exSpline_consistent exSpline_positive.1
    (by norm_num [GSpline.domainLength, exSpline]) 6).2 (by norm_num)
  refine ⟨r, hr, ?_⟩
  have := hv 3
  simp only [GSpline.domainLength, exSpline] at this ⊢
  rw [← this]; norm_num

/-! ## C17 -/

/-- **C17**, arguments: no bound at all, a too small sampling step and bounds of the wrong size are rejected with `std::invalid_argument`. -/
theorem C17_arguments (g : GSpline) (vb ab : Option (List ℝ)) (dt : ℝ) :
    (vb = none → ab = none → g.maxVelAcc vb ab dt = .error .invalidArgument) ∧
    (dt < 1 / 10 ^ 8 → g.maxVelAcc vb ab dt = .error .invalidArgument) ∧
    (∀ v a, vb = some v → ab = some a → v.length ≠ g.codim ∨ a.length ≠ g.codim → g.maxVelAcc vb ab dt = .error .invalidArgument) := by
  refine ⟨?_, fun h => ?_, ?_⟩
  · rintro rfl rfl; simp [GSpline.maxVelAcc]
  · unfold GSpline.maxVelAcc; rw [if_pos h]; split_ifs <;> rfl
  · rintro v a rfl rfl h
    unfold GSpline.maxVelAcc
    simp only [Option.isNone_some, Bool.false_eq_true, false_and, if_false]
    split_ifs <;> rfl

/-- **C17 is false with a single bound** (which the check of the arguments accepts): the call fails with `std::bad_optional_access`. -/
theorem C17_missing_bound_false (g : GSpline) (v : ℝ) (dt : ℝ) (hdt : 1 / 10 ^ 8 ≤ dt) :
    g.maxVelAccScalar (some v) none dt = .error .badOptionalAccess ∧ g.maxVelAccScalar none (some v) dt = .error .badOptionalAccess := by
  have h : ¬ dt < 1 / 10 ^ 8 := not_lt.mpr hdt
  constructor <;> simp only [GSpline.maxVelAccScalar, GSpline.maxVelAcc, Option.map_some, Option.map_none, Option.isNone_some, Option.isNone_none,
    Bool.false_eq_true, false_and, and_false, if_false, if_neg h, List.length_replicate, ne_eq, not_true]

/-- **C17**, the sampled instants: `⌊length / dt⌋ + 1` points, all in the domain, from its start (if there are at least two) to its end. -/
theorem C17_samples (g : GSpline) (dt : ℝ) (hdom : g.dom.1 ≤ g.dom.2) :
    (g.samples dt).length = ⌊g.domainLength / dt⌋₊ + 1 ∧ g.dom.2 ∈ g.samples dt ∧ ∀ s ∈ g.samples dt, g.dom.1 ≤ s ∧ s ≤ g.dom.2 := by
  unfold GSpline.samples GSpline.linSpaced
  generalize ⌊g.domainLength / dt⌋₊ = n
  have hN : ((n + 1 : ℕ) : ℝ) - 1 = n := by push_cast; ring
  refine ⟨by simp, ?_, ?_⟩
  · refine List.mem_map.mpr ⟨n, by simp, ?_⟩
    split_ifs with h
    · rfl
    · rw [hN]
      have : (n : ℝ) ≠ 0 := by exact_mod_cast (show n ≠ 0 by omega)
      field_simp; ring
  · intro s hs
    obtain ⟨k, hk, rfl⟩ := List.mem_map.mp hs
    have hk := List.mem_range.mp hk
    split_ifs with h
    · exact ⟨hdom, le_rfl⟩
    · rw [hN]
      have hn : (0 : ℝ) < n := by exact_mod_cast (show 0 < n by omega)
      have hkn : (k : ℝ) ≤ n := by exact_mod_cast (show k ≤ n by omega)
      have hk0 : (0 : ℝ) ≤ k := Nat.cast_nonneg k
      have hd : 0 ≤ g.dom.2 - g.dom.1 := by linarith
      constructor
      · have : 0 ≤ (k : ℝ) * ((g.dom.2 - g.dom.1) / n) := by positivity
        linarith
      · have : (k : ℝ) * ((g.dom.2 - g.dom.1) / n) ≤ n * ((g.dom.2 - g.dom.1) / n) := mul_le_mul_of_nonneg_right hkn (by positivity)
        rw [mul_div_cancel₀ _ hn.ne'] at this
        linarith

theorem le_maxCoeff {l : List ℝ} {x : ℝ} (h : x ∈ l) : x ≤ Tools.maxCoeff l := by
  by_contra hc
  have := (Tools.maxCoeff_lt (List.ne_nil_of_mem h) x).mp (not_le.mp hc) x h
  exact lt_irrefl _ this

theorem maxCoeff_mem {l : List ℝ} (h : l ≠ []) : Tools.maxCoeff l ∈ l := by
  cases l with
  | nil => exact absurd rfl h
  | cons x xs =>
    rcases Tools.foldl_max_mem xs x with h | h
    · change xs.foldl max x ∈ x :: xs; rw [h]; simp
    · exact List.mem_cons_of_mem _ h

theorem comp_of_value {g : GSpline} {t : ℝ} {v : List ℝ} (h : g.value t = .ok v) (c : ℕ) : comp g c t = v.getD c 0 := by
  unfold comp; rw [h]

theorem values_column {g : GSpline} {ts : List ℝ} {m : List (List ℝ)} (hm : g.values ts = .ok m) (htot : ∀ t, ∃ v, g.value t = .ok v) (c : ℕ) :
    GSpline.column m c = ts.map (comp g c) := by
  choose f hf using htot
  have : m = ts.map f := by
    have := mapM_ok (f := g.value) ts (g := f) fun t _ => hf t
    unfold GSpline.values at hm
    rw [this] at hm
    exact (Except.ok.inj hm).symm
  rw [this]
  unfold GSpline.column
  rw [List.map_map]
  exact List.map_congr_left fun t _ => (comp_of_value (hf t) c).symm

open Classical in
/-- The scaling factor is the smallest number that is at least every ratio of a sampled velocity to its bound and every root of a ratio of a sampled acceleration to
its bound. -/
theorem maxVelAcc_factor (g : GSpline) (hb : g.basis.Valid) (hc : Consistent g) (hp : Positive g) (hdom : g.dom.1 ≤ g.dom.2) (hcod : 0 < g.codim)
    (vb ab : List ℝ) (hv : vb.length = g.codim) (ha : ab.length = g.codim) (hvp : ∀ c < g.codim, 0 < vecOf vb c) (hap : ∀ c < g.codim, 0 < vecOf ab c)
    (dt : ℝ) (hdt : 1 / 10 ^ 8 ≤ dt) (g1 g2 : GSpline) (h1 : g.derivate 1 = .ok g1) (h2 : g1.derivate 1 = .ok g2) :
    ∃ f, 0 ≤ f ∧ (∀ s ∈ g.samples dt, ∀ c < g.codim, |comp g1 c s| / vecOf vb c ≤ f) ∧
      (∀ s ∈ g.samples dt, ∀ c < g.codim, √(|comp g2 c s| / vecOf ab c) ≤ f) ∧
      (∃ s ∈ g.samples dt, ∃ c < g.codim, f = |comp g1 c s| / vecOf vb c ∨ f = √(|comp g2 c s| / vecOf ab c)) ∧
      g.maxVelAcc (some vb) (some ab) dt = if GSpline.ScalingFinite g.basis f then .ok (g.scaled f (g.dom.1 + (g.tau.map (· * f)).sum)) else .error .notFinite := by
  have hne := hp.1
  have k1 := deriv_one_ok hdom hc hp.not_mem
  rw [h1] at k1
  have e1 := Except.ok.inj k1
  have hc1 : Consistent g1 := by rw [e1]; unfold Consistent; simp only [List.length_map, List.length_range]; exact hc
  have hd1 : g1.dom = g.dom := by rw [e1]
  have hb1 : g1.basis = g.basis := by rw [e1]
  have ht1 : g1.tau = g.tau := by rw [e1]
  have hk1 : g1.codim = g.codim := by rw [e1]
  have k2 := deriv_one_ok (g := g1) (hd1 ▸ hdom) hc1 (ht1 ▸ hp.not_mem)
  rw [h2] at k2
  have e2 := Except.ok.inj k2
  have hc2 : Consistent g2 := by rw [e2]; unfold Consistent; simp only [List.length_map, List.length_range]; exact hc1
  have hd2 : g2.dom = g.dom := by rw [e2]; exact hd1
  have hb2 : g2.basis = g.basis := by rw [e2]; exact hb1
  have ht2 : g2.tau = g.tau := by rw [e2]; exact ht1
  have hk2 : g2.codim = g.codim := by rw [e2]; exact hk1
  have tot1 : ∀ t, ∃ v, g1.value t = .ok v ∧ v.length = g.codim := fun t => hk1 ▸ value_total (hb1 ▸ hb) hc1 (ht1 ▸ hne) (ht1 ▸ hp.not_mem) t
  have tot2 : ∀ t, ∃ v, g2.value t = .ok v ∧ v.length = g.codim := fun t => hk2 ▸ value_total (hb2 ▸ hb) hc2 (ht2 ▸ hne) (ht2 ▸ hp.not_mem) t
  have hvals : ∀ (g' : GSpline), (∀ t, ∃ v, g'.value t = .ok v ∧ v.length = g.codim) → ∃ m, g'.values (g.samples dt) = .ok m := by
    intro g' h
    choose f hf _ using h
    exact ⟨_, mapM_ok _ fun t _ => hf t⟩
  obtain ⟨vel, hvel⟩ := hvals g1 tot1
  obtain ⟨acc, hacc⟩ := hvals g2 tot2
  have colv := values_column hvel fun t => ⟨_, (tot1 t).choose_spec.1⟩
  have cola := values_column hacc fun t => ⟨_, (tot2 t).choose_spec.1⟩
  have hsne : g.samples dt ≠ [] := List.ne_nil_of_mem (C17_samples g dt hdom).2.1
  set f := GSpline.scaleFactor g.codim vel acc vb ab with hf
  have hrne : ∀ h : ℕ → ℝ, (List.range g.codim).map h ≠ [] := by intro h; simp; omega
  -- the factor bounds every ratio
  have bv : ∀ s ∈ g.samples dt, ∀ c < g.codim, |comp g1 c s| / vecOf vb c ≤ f := by
    intro s hs c hcc
    refine le_trans ?_ (le_max_left _ _)
    refine le_trans ?_ (le_maxCoeff (List.mem_map.mpr ⟨c, List.mem_range.mpr hcc, rfl⟩))
    rw [colv]
    exact div_le_div_of_nonneg_right (Tools.le_maxAbs (List.mem_map.mpr ⟨s, hs, rfl⟩)) (hvp c hcc).le
  have ba : ∀ s ∈ g.samples dt, ∀ c < g.codim, √(|comp g2 c s| / vecOf ab c) ≤ f := by
    intro s hs c hcc
    refine le_trans ?_ (le_max_right _ _)
    refine le_trans ?_ (le_maxCoeff (List.mem_map.mpr ⟨c, List.mem_range.mpr hcc, rfl⟩))
    rw [cola]
    exact Real.sqrt_le_sqrt (div_le_div_of_nonneg_right (Tools.le_maxAbs (List.mem_map.mpr ⟨s, hs, rfl⟩)) (hap c hcc).le)
  -- and is one of them
  have bex : ∃ s ∈ g.samples dt, ∃ c < g.codim, f = |comp g1 c s| / vecOf vb c ∨ f = √(|comp g2 c s| / vecOf ab c) := by
    rcases max_choice (Tools.maxCoeff ((List.range g.codim).map fun c => Tools.maxAbs (GSpline.column vel c) / vecOf vb c))
      (Tools.maxCoeff ((List.range g.codim).map fun c => √(Tools.maxAbs (GSpline.column acc c) / vecOf ab c))) with h | h
    · obtain ⟨c, hcm, hce⟩ := List.mem_map.mp (maxCoeff_mem (hrne fun c => Tools.maxAbs (GSpline.column vel c) / vecOf vb c))
      obtain ⟨x, hx, hxe⟩ := Tools.exists_maxAbs (l := (g.samples dt).map (comp g1 c)) (by simpa using hsne)
      obtain ⟨s, hs, rfl⟩ := List.mem_map.mp hx
      refine ⟨s, hs, c, List.mem_range.mp hcm, .inl ?_⟩
      rw [hf]; unfold GSpline.scaleFactor
      rw [h, ← hce, colv, hxe]
    · obtain ⟨c, hcm, hce⟩ := List.mem_map.mp (maxCoeff_mem (hrne fun c => √(Tools.maxAbs (GSpline.column acc c) / vecOf ab c)))
      obtain ⟨x, hx, hxe⟩ := Tools.exists_maxAbs (l := (g.samples dt).map (comp g2 c)) (by simpa using hsne)
      obtain ⟨s, hs, rfl⟩ := List.mem_map.mp hx
      refine ⟨s, hs, c, List.mem_range.mp hcm, .inr ?_⟩
      rw [hf]; unfold GSpline.scaleFactor
      rw [h, ← hce, cola, hxe]
  have hf0 : 0 ≤ f := le_trans (Real.sqrt_nonneg _) (ba _ (C17_samples g dt hdom).2.1 0 hcod)
  have hsum : 0 ≤ g.tau.sum := List.sum_nonneg fun x hx => (hp.2 x hx).le
  set e := g.dom.1 + (g.tau.map (· * f)).sum with he
  have hee : e = g.dom.1 + f * g.tau.sum := by rw [he, sum_map_mul]; ring
  have hle : g.dom.1 ≤ e := by rw [hee]; have := mul_nonneg hf0 hsum; linarith
  have hfin : GSpline.RatiosFinite g.codim acc vb ab := fun c hcc =>
    ⟨(hvp c hcc).ne', (hap c hcc).ne', div_nonneg (by rw [cola]; exact le_trans (abs_nonneg _) (Tools.le_maxAbs (List.mem_map.mpr ⟨_, (C17_samples g dt hdom).2.1, rfl⟩))) (hap c hcc).le⟩
  have hr : g.maxVelAcc (some vb) (some ab) dt = if GSpline.ScalingFinite g.basis f then .ok (g.scaled f e) else .error .notFinite := by
    unfold GSpline.maxVelAcc
    simp only [Option.isNone_some, Bool.false_eq_true, false_and, if_false, if_neg (not_lt.mpr hdt), hv, ha, ne_eq, not_true, or_self,
      h1, h2, hvel, hacc, bind, Except.bind, if_neg hcod.ne', hfin, not_true, false_or, ← hf]
    by_cases hs : GSpline.ScalingFinite g.basis f
    · rw [if_neg (not_not.mpr hs), if_pos hs]
      exact make_ok hle (by rw [scaledBasis_dim]; exact hc)
    · rw [if_pos hs, if_neg hs]
  exact ⟨f, hf0, bv, ba, bex, hr⟩

/-- **C17.** With both bounds (one positive number per component) and a spline that moves at some sample, the result is the original run at a different speed
(`f` times slower), starts at the same instant, respects both bounds at all sampled instants in every component, and attains one of them. "Partial" because the call fails when one
bound is missing (`C17_missing_bound_false`), returns a spline of zero duration when the original stands still (`C17_still_false`), and bounds only the sampled instants. -/
theorem C17_bounds_partial (g : GSpline) (hb : g.basis.Valid) (hc : Consistent g) (hp : Positive g) (hdom : g.dom.1 ≤ g.dom.2) (hcod : 0 < g.codim)
    (vb ab : List ℝ) (hv : vb.length = g.codim) (ha : ab.length = g.codim) (hvp : ∀ c < g.codim, 0 < vecOf vb c) (hap : ∀ c < g.codim, 0 < vecOf ab c)
    (dt : ℝ) (hdt : 1 / 10 ^ 8 ≤ dt) (g1 g2 : GSpline) (h1 : g.derivate 1 = .ok g1) (h2 : g1.derivate 1 = .ok g2)
    (hmove : ∃ s ∈ g.samples dt, ∃ c < g.codim, comp g1 c s ≠ 0 ∨ comp g2 c s ≠ 0) :
    ∃ r r1 r2 f, g.maxVelAcc (some vb) (some ab) dt = .ok r ∧ r.derivate 1 = .ok r1 ∧ r1.derivate 1 = .ok r2 ∧ 0 < f ∧
      r.dom = (g.dom.1, g.dom.1 + f * g.tau.sum) ∧ (∀ t, r.value (g.dom.1 + f * (t - g.dom.1)) = g.value t) ∧
      (∀ s ∈ g.samples dt, ∀ c < g.codim, |comp r1 c (g.dom.1 + f * (s - g.dom.1))| ≤ vecOf vb c ∧
        |comp r2 c (g.dom.1 + f * (s - g.dom.1))| ≤ vecOf ab c) ∧
      (∃ s ∈ g.samples dt, ∃ c < g.codim, |comp r1 c (g.dom.1 + f * (s - g.dom.1))| = vecOf vb c ∨
        |comp r2 c (g.dom.1 + f * (s - g.dom.1))| = vecOf ab c) := by
  have hne := hp.1
  have k1 := deriv_one_ok hdom hc hp.not_mem
  rw [h1] at k1
  have e1 := Except.ok.inj k1
  have hc1 : Consistent g1 := by rw [e1]; unfold Consistent; simp only [List.length_map, List.length_range]; exact hc
  have hd1 : g1.dom = g.dom := by rw [e1]
  have hb1 : g1.basis = g.basis := by rw [e1]
  have ht1 : g1.tau = g.tau := by rw [e1]
  have hk1 : g1.codim = g.codim := by rw [e1]
  have k2 := deriv_one_ok (g := g1) (hd1 ▸ hdom) hc1 (ht1 ▸ hp.not_mem)
  rw [h2] at k2
  have e2 := Except.ok.inj k2
  have hc2 : Consistent g2 := by rw [e2]; unfold Consistent; simp only [List.length_map, List.length_range]; exact hc1
  have hd2 : g2.dom = g.dom := by rw [e2]; exact hd1
  have hb2 : g2.basis = g.basis := by rw [e2]; exact hb1
  have ht2 : g2.tau = g.tau := by rw [e2]; exact ht1
  have hk2 : g2.codim = g.codim := by rw [e2]; exact hk1
  have tot1 : ∀ t, ∃ v, g1.value t = .ok v ∧ v.length = g.codim := fun t => hk1 ▸ value_total (hb1 ▸ hb) hc1 (ht1 ▸ hne) (ht1 ▸ hp.not_mem) t
  have tot2 : ∀ t, ∃ v, g2.value t = .ok v ∧ v.length = g.codim := fun t => hk2 ▸ value_total (hb2 ▸ hb) hc2 (ht2 ▸ hne) (ht2 ▸ hp.not_mem) t
  obtain ⟨f, hf0, bv, ba, bex, hr⟩ := maxVelAcc_factor g hb hc hp hdom hcod vb ab hv ha hvp hap dt hdt g1 g2 h1 h2
  have hfpos : 0 < f := by
    obtain ⟨s, hs, c, hcc, h | h⟩ := hmove
    · exact lt_of_lt_of_le (div_pos (abs_pos.mpr h) (hvp c hcc)) (bv s hs c hcc)
    · exact lt_of_lt_of_le (Real.sqrt_pos.mpr (div_pos (abs_pos.mpr h) (hap c hcc))) (ba s hs c hcc)
  have hsum : 0 ≤ g.tau.sum := List.sum_nonneg fun x hx => (hp.2 x hx).le
  have hee : g.dom.1 + (g.tau.map (· * f)).sum = g.dom.1 + f * g.tau.sum := by rw [sum_map_mul]; ring
  rw [if_pos (scalingFinite_of_valid hb hfpos.ne'), hee] at hr
  set e := g.dom.1 + f * g.tau.sum with he
  have hle : g.dom.1 ≤ e := by have := mul_nonneg hfpos.le hsum; linarith
  have hpar := paramOk_of_valid hb
  have hr1 := derivate_scaled hpar hdom hc hp.not_mem h1 hfpos hle
  have hr2' : (g1.scaled f e).derivate 1 = .ok (GSpline.smulInPlace (1 / f) (g2.scaled f e)) :=
    derivate_scaled (hb1 ▸ hpar) (hd1 ▸ hdom) hc1 (ht1 ▸ hp.not_mem) h2 hfpos (hd1 ▸ hle)
  have hr2 : (GSpline.smulInPlace (1 / f) (g1.scaled f e)).derivate 1 = .ok (GSpline.smulInPlace (1 / f) (GSpline.smulInPlace (1 / f) (g2.scaled f e))) :=
    derivate_smul (g := g1.scaled f e) (by change g1.dom.1 ≤ e; rw [hd1]; exact hle) (consistent_scaled hc1 f e) (not_mem_scaled (ht1 ▸ hp.not_mem) hfpos e) hr2' (1 / f)
  have getD_mul : ∀ (v : List ℝ) (c : ℕ) (k : ℝ), (v.map (· * k)).getD c 0 = v.getD c 0 * k := by
    intro v c k
    simp only [List.getD_eq_getElem?_getD, List.getElem?_map]
    cases v[c]? <;> simp
  have comp1 : ∀ c t, comp (GSpline.smulInPlace (1 / f) (g1.scaled f e)) c (g.dom.1 + f * (t - g.dom.1)) = comp g1 c t * (1 / f) := by
    intro c t
    obtain ⟨v, hv, -⟩ := tot1 t
    have hs := value_scaled (g := g1) (hb1 ▸ hpar) hc1 (ht1 ▸ hne) hfpos e t
    rw [hd1, hv] at hs
    have := value_smul (g := g1.scaled f e) (consistent_scaled hc1 f e) (by simpa [GSpline.scaled, ht1] using hne) (1 / f) (g.dom.1 + f * (t - g.dom.1))
    rw [hs] at this
    rw [comp_of_value this, comp_of_value hv, getD_mul]
  have comp2 : ∀ c t, comp (GSpline.smulInPlace (1 / f) (GSpline.smulInPlace (1 / f) (g2.scaled f e))) c (g.dom.1 + f * (t - g.dom.1))
      = comp g2 c t * (1 / f) * (1 / f) := by
    intro c t
    obtain ⟨v, hv, -⟩ := tot2 t
    have hs := value_scaled (g := g2) (hb2 ▸ hpar) hc2 (ht2 ▸ hne) hfpos e t
    rw [hd2, hv] at hs
    have hne2 : (g2.scaled f e).tau ≠ [] := by simpa [GSpline.scaled, ht2] using hne
    have := value_smul (g := g2.scaled f e) (consistent_scaled hc2 f e) hne2 (1 / f) (g.dom.1 + f * (t - g.dom.1))
    rw [hs] at this
    have h' := value_smul (g := GSpline.smulInPlace (1 / f) (g2.scaled f e)) (consistent_smul (consistent_scaled hc2 f e) _) hne2 (1 / f)
      (g.dom.1 + f * (t - g.dom.1))
    rw [this] at h'
    rw [comp_of_value h', comp_of_value hv]
    change ((v.map (· * (1 / f))).map (· * (1 / f))).getD c 0 = _
    rw [getD_mul, getD_mul]
  refine ⟨_, _, _, f, hr, hr1, hr2, hfpos, rfl, value_scaled hpar hc hne hfpos e, ?_, ?_⟩
  · intro s hs c hcc
    rw [comp1, comp2]
    constructor
    · rw [abs_mul, abs_of_pos (show (0 : ℝ) < 1 / f by positivity), mul_one_div, div_le_iff₀ hfpos]
      have := bv s hs c hcc
      rw [div_le_iff₀ (hvp c hcc)] at this
      linarith
    · rw [abs_mul, abs_mul, abs_of_pos (show (0 : ℝ) < 1 / f by positivity), mul_one_div, mul_one_div, div_le_iff₀ hfpos, div_le_iff₀ hfpos]
      have := ba s hs c hcc
      rw [Real.sqrt_le_left hfpos.le, div_le_iff₀ (hap c hcc)] at this
      linarith
  · obtain ⟨s, hs, c, hcc, h | h⟩ := bex
    · refine ⟨s, hs, c, hcc, .inl ?_⟩
      rw [comp1, abs_mul, abs_of_pos (show (0 : ℝ) < 1 / f by positivity), mul_one_div, div_eq_iff hfpos.ne']
      rw [eq_div_iff (hvp c hcc).ne'] at h
      linarith
    · refine ⟨s, hs, c, hcc, .inr ?_⟩
      rw [comp2, abs_mul, abs_mul, abs_of_pos (show (0 : ℝ) < 1 / f by positivity), mul_one_div, mul_one_div, div_eq_iff hfpos.ne', div_eq_iff hfpos.ne']
      have h' : |comp g2 c s| / vecOf ab c = f ^ 2 := by
        rw [h, Real.sq_sqrt (div_nonneg (abs_nonneg _) (hap c hcc).le)]
      rw [div_eq_iff (hap c hcc).ne'] at h'
      linarith

/-- **C17**, a spline that stands still at all samples is turned into one of zero duration, all of whose intervals have length zero and that has no value at any time (a
division by zero): the result is not a reparametrisation of the original. With Basis0101 already the parameter of the basis is the result of a division by zero. -/
theorem C17_still_false (g : GSpline) (hb : g.basis.Valid) (hc : Consistent g) (hp : Positive g) (hdom : g.dom.1 ≤ g.dom.2) (hcod : 0 < g.codim)
    (vb ab : List ℝ) (hv : vb.length = g.codim) (ha : ab.length = g.codim) (hvp : ∀ c < g.codim, 0 < vecOf vb c) (hap : ∀ c < g.codim, 0 < vecOf ab c)
    (dt : ℝ) (hdt : 1 / 10 ^ 8 ≤ dt) (g1 g2 : GSpline) (h1 : g.derivate 1 = .ok g1) (h2 : g1.derivate 1 = .ok g2)
    (hstill : ∀ s ∈ g.samples dt, ∀ c < g.codim, comp g1 c s = 0 ∧ comp g2 c s = 0) :
    ((∀ a, g.basis ≠ .b0101 a) → ∃ r, g.maxVelAcc (some vb) (some ab) dt = .ok r ∧ r.domainLength = 0 ∧ (∀ x ∈ r.tau, x = 0) ∧ ∀ t, r.value t = .error .notFinite) ∧
    (∀ a, g.basis = .b0101 a → g.maxVelAcc (some vb) (some ab) dt = .error .notFinite) := by
  obtain ⟨f, -, -, -, ⟨s, hs, c, hcc, h⟩, hr⟩ := maxVelAcc_factor g hb hc hp hdom hcod vb ab hv ha hvp hap dt hdt g1 g2 h1 h2
  have hf : f = 0 := by
    obtain ⟨e1, e2⟩ := hstill s hs c hcc
    rw [e1, e2] at h
    simpa using h
  refine ⟨fun hnb => ?_, fun a hba => ?_⟩
  · have hfin : GSpline.ScalingFinite g.basis f := by
      cases hg : g.basis with
      | b0101 a => exact absurd hg (hnb a)
      | _ => trivial
    rw [if_pos hfin] at hr
    have hz : ∀ x ∈ (g.scaled f (g.dom.1 + (g.tau.map (· * f)).sum)).tau, x = 0 := by
      intro x hx
      simp only [GSpline.scaled, hf, mul_zero, List.mem_map] at hx
      obtain ⟨-, -, rfl⟩ := hx; rfl
    refine ⟨_, hr, by simp [GSpline.scaled, GSpline.domainLength, hf], hz, fun t => ?_⟩
    have hne : (g.scaled f (g.dom.1 + (g.tau.map (· * f)).sum)).tau ≠ [] := by simpa [GSpline.scaled] using hp.1
    rw [value_eq (consistent_scaled hc _ _) hne, if_pos]
    have hi := getInterval_lt _ hne t
    unfold vecOf
    rw [List.getD_eq_getElem?_getD, List.getElem?_eq_getElem hi]
    exact hz _ (List.getElem_mem hi)
  · rw [hr, if_neg]
    rw [hba]
    exact fun h => h.2.2 hf

/-- The hypotheses of `C17_bounds_partial` on the example spline: its velocity at the end is `4`, the bounds are `1`. -/
example : ∃ g1 g2, exSpline.derivate 1 = .ok g1 ∧ g1.derivate 1 = .ok g2 ∧
    ∃ s ∈ exSpline.samples 1, ∃ c < exSpline.codim, comp g1 c s ≠ 0 ∨ comp g2 c s ≠ 0 := by
  have hdom : exSpline.dom.1 ≤ exSpline.dom.2 := by simp [exSpline]
  have k1 := deriv_one_ok hdom exSpline_consistent exSpline_positive.not_mem
  set g1 : GSpline := { exSpline with coeffs := (List.range exSpline.coeffs.length).map (exSpline.derivCoeffs 1) } with hg1
  have hc1 : Consistent g1 := by unfold Consistent; simp only [hg1, List.length_map, List.length_range]; exact exSpline_consistent
  refine ⟨g1, _, k1, deriv_one_ok (g := g1) hdom hc1 exSpline_positive.not_mem, 4, (C17_samples exSpline 1 hdom).2.1, 0, by simp [exSpline], .inl ?_⟩
  have hl : Located exSpline 4 1 := ⟨by simp [exSpline], .inr (.inl ⟨by norm_num [brk, exSpline], by norm_num [brk, exSpline]⟩)⟩
  obtain ⟨g', h', -, -, -, -, -, hv⟩ := C14_derivative_partial exSpline exSpline_valid exSpline_consistent exSpline_positive hdom 1 trivial
  obtain ⟨v, hv, -, hvc⟩ := hv 4 1 hl trivial
  rw [← derivate_ok hdom exSpline_consistent exSpline_positive.not_mem, k1] at h'
  rw [← Except.ok.inj h'] at hv
  rw [comp_of_value hv, List.getD_eq_getElem?_getD, hvc 0 (by simp [exSpline]), iteratedDeriv_one]
  have : curve exSpline 1 0 = fun t => 3 + 4 * (t - 2 - 1) := by
    funext t
    simp [curve, piece, comb, exSpline, Basis.dim, sum_range_succ, basisFn, window, vecOf, brk]
    simp [Spec.legendre]
    ring
  rw [this]
  have hd : HasDerivAt (fun t : ℝ => 3 + 4 * (t - 2 - 1)) 4 4 := by
    have := ((((hasDerivAt_id (4 : ℝ)).sub_const 2).sub_const 1).const_mul 4).const_add 3
    simpa using this
  rw [hd.deriv]; norm_num

/-! ## C18 -/

/-- **C18**, breakpoints. -/
theorem C18_breakpoints (g : GSpline) :
    g.breakpoints.length = g.tau.length + 1 ∧ ∀ i ≤ g.tau.length, g.breakpoints[i]? = some (brk g i) := by
  unfold GSpline.breakpoints brk
  refine ⟨List.length_scanl, fun i hi => ?_⟩
  generalize g.dom.1 = t0
  induction i generalizing t0 with
  | zero => cases g.tau <;> simp
  | succ i ih =>
    rw [List.getElem?_succ_scanl, ih (by omega) t0]
    have hlt : i < g.tau.length := hi
    rw [List.getElem?_eq_getElem hlt]
    simp only [Option.bind_some, Option.map_some, Option.some.injEq]
    rw [sum_take_succ hlt]
    simp [vecOf, hlt]; ring

/-- **C18**, the first breakpoint is the start of the domain and consecutive ones differ by the interval lengths. -/
theorem C18_breakpoints_lengths (g : GSpline) : brk g 0 = g.dom.1 ∧ ∀ i (h : i < g.tau.length), brk g (i + 1) - brk g i = g.tau[i] := by
  refine ⟨brk_zero g, fun i h => ?_⟩
  rw [brk_succ g h]; simp [vecOf, h]

/-- **C18**, way points: one row per breakpoint, with the value of the spline there. -/
theorem C18_waypoints (g : GSpline) (hb : g.basis.Valid) (hc : Consistent g) (hne : g.tau ≠ []) (hz : ∀ x ∈ g.tau, x ≠ 0) :
    ∃ w, g.waypoints = .ok w ∧ w.length = g.tau.length + 1 ∧
      ∀ i ≤ g.tau.length, ∃ v, w[i]? = some v ∧ v.length = g.codim ∧ g.value (brk g i) = .ok v := by
  have hval : ∀ t, ∃ v, g.value t = .ok v ∧ v.length = g.codim := fun t => value_total hb hc hne (fun h => hz 0 h rfl) t
  choose f hf hfl using hval
  refine ⟨g.breakpoints.map f, mapM_ok _ fun t _ => hf t, ?_, fun i hi => ?_⟩
  · rw [List.length_map, (C18_breakpoints g).1]
  · refine ⟨f (brk g i), ?_, hfl _, hf _⟩
    rw [List.getElem?_map, (C18_breakpoints g).2 i hi]; rfl

example : exSpline.breakpoints = [1, 2, 4] := by
  simp [GSpline.breakpoints, exSpline]; norm_num

example : ∃ w, exSpline.waypoints = .ok w ∧ w.length = 3 := by
  obtain ⟨w, h1, h2, -⟩ := C18_waypoints exSpline exSpline_valid exSpline_consistent exSpline_positive.1 (by simp [exSpline])
  exact ⟨w, h1, h2⟩

/-! ## C19, C20 -/

/-- **C19**, splines: reflexive for every positive tolerance. -/
theorem C19_approx_equal_gspline_refl (g : GSpline) (tol : ℝ) (h : 0 < tol) : GSpline.approxEqual g g tol = true := by
  simp [GSpline.approxEqual, Tools.approxEqualV, Tools.approxEqualM_refl _ h, C36_basis_eq_refl]

/-- **C19**, splines: symmetric. -/
theorem C19_approx_equal_gspline_symm (a b : GSpline) (tol : ℝ) : GSpline.approxEqual a b tol = GSpline.approxEqual b a tol := by
  unfold GSpline.approxEqual Tools.approxEqualV
  rw [Tools.approxEqualM_symm _ _ tol, Tools.approxEqualM_symm (.ofVec a.tau) _ tol, C36_basis_eq_symm]

/-- **C19**, `==` and `!=` on splines. -/
theorem C19_gspline_eq (a b : GSpline) : a.beq a = true ∧ a.beq b = b.beq a ∧ a.bne b = !(a.beq b) :=
  ⟨C19_approx_equal_gspline_refl a _ (by norm_num), C19_approx_equal_gspline_symm a b _, rfl⟩

/-- **C20**, what `==` guarantees: same kind of basis, same sizes (also the codomain dimension, which is not compared), coefficients and lengths closer
than `1e-7` (relative to the largest one and `1`). -/
theorem C20_eq_sound (a b : GSpline) (ha : Consistent a) (hb : Consistent b) (hne : a.tau ≠ []) (hd : 0 < a.basis.dim) (h : a.beq b = true) :
    a.basis.name = b.basis.name ∧ a.basis.dim = b.basis.dim ∧ a.codim = b.codim ∧ a.tau.length = b.tau.length ∧ a.coeffs.length = b.coeffs.length ∧
      (∀ i (h1 : i < a.coeffs.length) (h2 : i < b.coeffs.length),
        |a.coeffs[i] - b.coeffs[i]| < 1 / 10 ^ 7 * max 1 (max (Tools.maxAbs a.coeffs) (Tools.maxAbs b.coeffs))) ∧
      ∀ i (h1 : i < a.tau.length) (h2 : i < b.tau.length),
        |a.tau[i] - b.tau[i]| < 1 / 10 ^ 7 * max 1 (max (Tools.maxAbs a.tau) (Tools.maxAbs b.tau)) := by
  unfold GSpline.beq GSpline.approxEqual at h
  simp only [Bool.and_eq_true] at h
  obtain ⟨⟨h1, h2⟩, h3⟩ := h
  obtain ⟨n1, n2, -, -⟩ := C36_basis_eq_sound _ _ h3
  obtain ⟨-, -, c1, c2⟩ := Tools.approxEqualM_bound h1
  obtain ⟨-, -, t1, t2⟩ := Tools.approxEqualM_bound h2
  refine ⟨n1, n2, ?_, t1, c1, c2, t2⟩
  have hl : a.coeffs.length = b.coeffs.length := c1
  have ht : a.tau.length = b.tau.length := t1
  rw [ha, hb, ← n2, ← ht] at hl
  have : 0 < a.tau.length * a.basis.dim := Nat.mul_pos (List.length_pos_iff.mpr hne) hd
  exact Nat.eq_of_mul_eq_mul_left this hl

/-- **C20** (false in general, see below): for splines with the same start, basis and interval lengths that compare equal, the curves are close: the
difference at `t` is at most `1e-7 max(1, coefficients)` times the sum of the absolute values of the basis functions. Missing: the start of the domain is not compared, and lengths
and parameters of the basis only approximately. -/
theorem C20_eq_close_partial (a b : GSpline) (hv : a.basis.Valid) (ha : Consistent a) (hb : Consistent b) (hp : Positive a) (hd : b.dom.1 = a.dom.1)
    (h1 : b.basis = a.basis) (h3 : b.tau = a.tau) (hdim : 0 < a.basis.dim) (h : a.beq b = true) (t : ℝ) (i : ℕ) (hl : Located a t i)
    (hclean : a.basis.CleanAt (window (vecOf a.tau i) (t - brk a i))) :
    ∃ x y, a.value t = .ok x ∧ b.value t = .ok y ∧ x.length = y.length ∧ ∀ c < a.codim, ∃ u v, x[c]? = some u ∧ y[c]? = some v ∧
      |u - v| ≤ 1 / 10 ^ 7 * max 1 (max (Tools.maxAbs a.coeffs) (Tools.maxAbs b.coeffs))
        * ∑ k ∈ range a.basis.dim, |basisFn a.basis (vecOf a.tau i) k (t - brk a i)| := by
  obtain ⟨-, -, hcod, -, hlen, hco, -⟩ := C20_eq_sound a b ha hb hp.1 hdim h
  have hpb : Positive b := by unfold Positive; rw [h3]; exact hp
  have hbrk : ∀ j, brk b j = brk a j := fun j => brk_congr hd h3 j
  have hlb : Located b t i := by
    unfold Located at hl ⊢
    rw [h3, hbrk, hbrk, hbrk, hbrk]; exact hl
  obtain ⟨x, hx, hxl, hxc⟩ := C12_value a hv ha hp t i hl hclean
  obtain ⟨y, hy, hyl, hyc⟩ := C12_value b (h1 ▸ hv) hb hpb t i hlb (by rw [h1, h3, hbrk]; exact hclean)
  refine ⟨x, y, hx, hy, by rw [hxl, hyl, hcod], fun c hc => ⟨_, _, hxc c hc, hyc c (hcod ▸ hc), ?_⟩⟩
  unfold curve piece comb
  rw [h1, h3, hbrk, ← hcod, ← sum_sub_distrib, mul_sum]
  refine (abs_sum_le_sum_abs _ _).trans (sum_le_sum fun k hk => ?_)
  have hk := mem_range.mp hk
  have hbd := coef_bound ha hl.1 hc
  have hlt : i * a.basis.dim * a.codim + a.basis.dim * c + k < a.coeffs.length := by omega
  rw [← sub_mul, abs_mul]
  beta_reduce
  refine mul_le_mul_of_nonneg_right ?_ (abs_nonneg _)
  have := hco _ hlt (hlen ▸ hlt)
  have e1 : vecOf a.coeffs (i * a.basis.dim * a.codim + a.basis.dim * c + k) = a.coeffs[i * a.basis.dim * a.codim + a.basis.dim * c + k] := by
    simp [vecOf, hlt]
  have e2 : vecOf b.coeffs (i * a.basis.dim * a.codim + a.basis.dim * c + k) = b.coeffs[i * a.basis.dim * a.codim + a.basis.dim * c + k]'(hlen ▸ hlt) := by
    simp [vecOf, hlen ▸ hlt]
  rw [e1, e2]; exact this.le

/-- The hypotheses of `C20_eq_close_partial` hold for two different splines. -/
example : exSpline.beq { exSpline with coeffs := [1, 2, 3, 4 + 1 / 10 ^ 8] } = true := by
  unfold GSpline.beq GSpline.approxEqual
  rw [C36_basis_eq_refl]
  have h2 : Tools.approxEqualV exSpline.tau exSpline.tau (1 / 10 ^ 7) = true := Tools.approxEqualM_refl _ (by norm_num)
  have h1 : Tools.approxEqualV exSpline.coeffs [1, 2, 3, 4 + 1 / 10 ^ 8] (1 / 10 ^ 7) = true := by
    norm_num [Tools.approxEqualV, Tools.approxEqualM, Tools.approxEqualMS, Tools.EMat.ofVec, exSpline, Tools.maxAbs, Tools.maxCoeff, abs_of_pos]
  simp only [Bool.and_true, Bool.and_eq_true]
  exact ⟨h1, h2⟩

/-- **C20 is false:** splines that compare equal can have different domains (and so be different functions of time). -/
theorem C20_eq_domain_false : exSpline.beq exSpline0 = true ∧ exSpline.dom ≠ exSpline0.dom ∧ exSpline.value 3 = .ok [3] ∧ exSpline0.value 3 = .ok [7] := by
  refine ⟨?_, by simp [exSpline, exSpline0], exSpline_value, exSpline0_value⟩
  exact C19_approx_equal_gspline_refl exSpline _ (by norm_num)

/-- **C20 is false** also on one domain: where a spline jumps, splines that compare equal (with interval lengths that differ by `1e-8`) can differ by any
amount `K`. -/
theorem C20_eq_jump_false (K : ℝ) : ∃ a b : GSpline, a.beq b = true ∧ Consistent a ∧ Consistent b ∧ Positive a ∧ Positive b ∧ a.dom = b.dom ∧
    a.basis = b.basis ∧ a.basis.Valid ∧ a.codim = b.codim ∧ a.coeffs = b.coeffs ∧ ∃ t, a.dom.1 < t ∧ t < a.dom.2 ∧ a.value t = .ok [K] ∧ b.value t = .ok [0] := by
  set a : GSpline := ⟨(0, 2), 1, .legendre 2, [0, 0, K, 0], [1, 1]⟩ with ha
  set b : GSpline := ⟨(0, 2), 1, .legendre 2, [0, 0, K, 0], [1 + 1 / 10 ^ 8, 1 - 1 / 10 ^ 8]⟩ with hb
  have ca : Consistent a := by simp [Consistent, ha, Basis.dim]
  have cb : Consistent b := by simp [Consistent, hb, Basis.dim]
  have pa : Positive a := ⟨by simp [ha], by simp [ha]⟩
  have pb : Positive b := ⟨by simp [hb], by simp [hb]; norm_num⟩
  have va : a.basis.Valid := by simp [ha, Basis.Valid]
  have la : Located a (1 + 1 / (2 * 10 ^ 8)) 1 :=
    ⟨by simp [ha], .inr (.inl ⟨by norm_num [brk, ha, vecOf, sum_range_succ], by norm_num [brk, ha, vecOf, sum_range_succ]⟩)⟩
  have lb : Located b (1 + 1 / (2 * 10 ^ 8)) 0 :=
    ⟨by simp [hb], .inr (.inl ⟨by norm_num [brk, hb, vecOf, sum_range_succ], by norm_num [brk, hb, vecOf, sum_range_succ]⟩)⟩
  refine ⟨a, b, ?_, ca, cb, pa, pb, rfl, rfl, va, rfl, rfl, 1 + 1 / (2 * 10 ^ 8), by norm_num [ha], by norm_num [ha], ?_, ?_⟩
  · unfold GSpline.beq GSpline.approxEqual
    rw [show a.basis.beq b.basis = true from C36_basis_eq_refl _]
    have h1 : Tools.approxEqualV a.coeffs b.coeffs (1 / 10 ^ 7) = true := Tools.approxEqualM_refl _ (by norm_num)
    have h2 : Tools.approxEqualV a.tau b.tau (1 / 10 ^ 7) = true := by
      norm_num [Tools.approxEqualV, Tools.approxEqualM, Tools.approxEqualMS, Tools.EMat.ofVec, ha, hb, Tools.maxAbs, Tools.maxCoeff, abs_of_pos]
    simp only [Bool.and_true, Bool.and_eq_true]
    exact ⟨h1, h2⟩
  · obtain ⟨v, hv, hlen, hvc⟩ := C12_value a va ca pa _ 1 la (by trivial)
    have h0 := hvc 0 (by simp [ha])
    have hlen : v.length = 1 := hlen
    match v, hlen, h0 with
    | [x], _, h0 =>
      simp only [List.getElem?_cons_zero, Option.some.injEq] at h0
      rw [hv, h0]
      simp [curve, piece, comb, basisFn, ha, Basis.dim, sum_range_succ, vecOf, Spec.legendre]
  · obtain ⟨v, hv, hlen, hvc⟩ := C12_value b va cb pb _ 0 lb (by trivial)
    have h0 := hvc 0 (by simp [hb])
    have hlen : v.length = 1 := hlen
    match v, hlen, h0 with
    | [x], _, h0 =>
      simp only [List.getElem?_cons_zero, Option.some.injEq] at h0
      rw [hv, h0]
      simp [curve, piece, comb, basisFn, hb, Basis.dim, sum_range_succ, vecOf, Spec.legendre]

end GSplines.Props
