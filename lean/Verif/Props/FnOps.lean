import Verif.Proofs.FnWF
import Mathlib.Tactic.NormNum

/-!
# Properties of the operations on functions (C01-C05, C09, C10)

`Built f`: the object `f` was built with the public interface (Spec/Fn.lean). `f.call ts = .ok x`: evaluating `f` at the points `ts` returns the matrix `x`, given
by its rows.
-/

namespace GSplines.Props

open GSplines Fn Spec

/-! ## C01 -/

/-- **C01.** Sums: when they throw, and their domain, codomain and values. Evaluating the sum succeeds exactly when evaluating both operands does. -/
theorem C01_sum (f g : Fn) (hf : Built f) (hg : Built g) :
    (¬ (|f.dom.1 - g.dom.1| < 1 / 10 ^ 9 ∧ |f.dom.2 - g.dom.2| < 1 / 10 ^ 9 ∧ f.codim = g.codim) → add f g = .error .invalidArgument) ∧
    (|f.dom.1 - g.dom.1| < 1 / 10 ^ 9 → |f.dom.2 - g.dom.2| < 1 / 10 ^ 9 → f.codim = g.codim →
      ∃ r, add f g = .ok r ∧ Built r ∧ r.dom = f.dom ∧ r.codim = f.codim ∧
        ∀ ts z, r.call ts = .ok z ↔ ∃ x y, f.call ts = .ok x ∧ g.call ts = .ok y ∧ z = addRows x y) := by
  refine ⟨fun h => ?_, fun h1 h2 h3 => ?_⟩
  · unfold add sameDomain tol9
    by_cases h1 : |f.dom.1 - g.dom.1| < 1 / 10 ^ 9 ∧ |f.dom.2 - g.dom.2| < 1 / 10 ^ 9
    · rw [if_neg (not_not.mpr h1), if_pos fun h2 => h ⟨h1.1, h1.2, h2⟩]
    · rw [if_pos h1]
  · have hadd : add f g = .ok (expr f.dom f.codim .sum (splice .sum f ++ splice .sum g)) := by
      unfold add sameDomain tol9
      rw [if_neg (not_not.mpr ⟨h1, h2⟩), if_neg (not_ne_iff.mpr h3)]
    exact ⟨_, hadd, .add hf hg hadd, rfl, rfl, call_sum (wf_of_built hf) (wf_of_built hg) h3 _⟩

/-- A sum of a sum and a product: the hypotheses hold and the value is the expected one. -/
example : ∃ s p r, add (sin (0, 1)) (cos (0, 1)) = .ok s ∧ mul ⟨false, false⟩ (dil (0, 1) 2) (exp (0, 1)) = .ok p ∧ add s p = .ok r ∧
    ∀ t, r.call [t] = .ok [[Real.sin t + Real.cos t + 2 * t * Real.exp t]] := by
  have hs : sameDomain (sin (0, 1)) (cos (0, 1)) := by simp [sameDomain, dom, tol9]
  have hp : sameDomain (dil (0, 1) 2) (exp (0, 1)) := by simp [sameDomain, dom, tol9]
  refine ⟨expr (0, 1) 1 .sum [sin (0, 1), cos (0, 1)], expr (0, 1) 1 .mul [dil (0, 1) 2, exp (0, 1)],
    expr (0, 1) 1 .sum [sin (0, 1), cos (0, 1), expr (0, 1) 1 .mul [dil (0, 1) 2, exp (0, 1)]], ?_, ?_, ?_, ?_⟩
  · unfold add; rw [if_neg (not_not.mpr hs), if_neg (by simp [codim])]; rfl
  · unfold mul; rw [if_neg (not_not.mpr hp), if_neg (by simp [codim])]; rfl
  · unfold add sameDomain
    rw [if_neg (by simp [dom, tol9]), if_neg (by simp [codim])]; rfl
  · intro t
    simp [call, run, evs, evalTy, evalSum, evalMul, scalarRun, codim, pure, Except.pure, bind, Except.bind]

/-! ## C02 -/

/-- **C02** for plain functions (and expressions that only wrap one): unary minus and difference. Missing: operands of another type, for which the claim is false (below). -/
theorem C02_neg_partial (f : Fn) (hf : Built f) (hu : f.parts.1 = .unique) : f.neg.dom = f.dom ∧ f.neg.codim = f.codim ∧
    ∀ ts z, f.neg.call ts = .ok z ↔ ∃ x, f.call ts = .ok x ∧ z = x.map fun r => r.map fun v => -v :=
  ⟨rfl, rfl, fun ts z => call_neg (wf_of_built hf) hu ts z⟩

theorem addRows_neg (x y : Rows) : addRows x (negRows y) = subRows x y := by
  unfold addRows subRows negRows
  induction x generalizing y with
  | nil => simp
  | cons a x ih =>
    cases y with
    | nil => simp
    | cons b y =>
      simp only [List.map_cons, List.zipWith_cons_cons, ih, List.cons.injEq, and_true]
      clear ih
      induction a generalizing b with
      | nil => simp
      | cons p a ih =>
        cases b with
        | nil => simp
        | cons q b => simp [ih, sub_eq_add_neg]

/-- **C02** for a plain subtrahend: when the difference throws, and its values. Missing: subtrahends of another type. -/
theorem C02_sub_partial (f g : Fn) (hf : Built f) (hg : Built g) (hu : g.parts.1 = .unique) :
    (¬ (|f.dom.1 - g.dom.1| < 1 / 10 ^ 9 ∧ |f.dom.2 - g.dom.2| < 1 / 10 ^ 9 ∧ f.codim = g.codim) → sub f g = .error .invalidArgument) ∧
    (|f.dom.1 - g.dom.1| < 1 / 10 ^ 9 → |f.dom.2 - g.dom.2| < 1 / 10 ^ 9 → f.codim = g.codim →
      ∃ r, sub f g = .ok r ∧ Built r ∧ r.dom = f.dom ∧ r.codim = f.codim ∧
        ∀ ts z, r.call ts = .ok z ↔ ∃ x y, f.call ts = .ok x ∧ g.call ts = .ok y ∧ z = subRows x y) := by
  refine ⟨fun h => ?_, fun h1 h2 h3 => ?_⟩
  · unfold sub sameDomain tol9
    by_cases h1 : |f.dom.1 - g.dom.1| < 1 / 10 ^ 9 ∧ |f.dom.2 - g.dom.2| < 1 / 10 ^ 9
    · rw [if_neg (not_not.mpr h1), if_pos fun h2 => h ⟨h1.1, h1.2, h2⟩]
    · rw [if_pos h1]
  · obtain ⟨r, hr, hb, hd, hc, hv⟩ := (C01_sum f g.neg hf (.neg hg hu)).2 h1 h2 h3
    have hsub : sub f g = .ok r := by
      unfold sub sameDomain tol9
      rw [if_neg (not_not.mpr ⟨h1, h2⟩), if_neg (not_ne_iff.mpr h3)]
      exact hr
    refine ⟨r, hsub, hb, hd, hc, fun ts z => ?_⟩
    rw [hv]
    constructor
    · rintro ⟨x, y, hx, hy, rfl⟩
      obtain ⟨y', hy', rfl⟩ := (call_neg (wf_of_built hg) hu ts y).mp hy
      exact ⟨x, y', hx, hy', addRows_neg x y'⟩
    · rintro ⟨x, y, hx, hy, rfl⟩
      exact ⟨x, _, hx, (call_neg (wf_of_built hg) hu ts _).mpr ⟨y, hy, rfl⟩, (addRows_neg x y).symm⟩

/-- The hypotheses hold: the difference of a sum and a polynomial. -/
example : ∃ s r, add (sin (0, 1)) (cos (0, 1)) = .ok s ∧ Built s ∧ Built (poly (0, 1) [1, 2]) ∧ (poly (0, 1) [1, 2]).parts.1 = .unique ∧
    sub s (poly (0, 1) [1, 2]) = .ok r ∧ ∀ t, r.call [t] = .ok [[Real.sin t + Real.cos t - (1 + 2 * t)]] := by
  obtain ⟨s, hs, hb, hd, hc, hv⟩ := (C01_sum (sin (0, 1)) (cos (0, 1)) (.sin _) (.cos _)).2 (by simp [dom]) (by simp [dom]) rfl
  have hd' : s.dom = (0, 1) := hd
  have hc' : s.codim = 1 := hc
  obtain ⟨r, hr, -, -, -, hrv⟩ := (C02_sub_partial s (poly (0, 1) [1, 2]) hb (.poly _ _) rfl).2 (by rw [hd']; simp [dom]) (by rw [hd']; simp [dom]) hc'
  refine ⟨s, r, hs, hb, .poly _ _, rfl, hr, fun t => ?_⟩
  rw [hrv]
  refine ⟨[[Real.sin t + Real.cos t]], [[1 + 2 * t]], (hv _ _).mpr ⟨[[Real.sin t]], [[Real.cos t]], ?_, ?_, rfl⟩, ?_, rfl⟩
  · simp [call, run, scalarRun, codim]
  · simp [call, run, scalarRun, codim]
  · simp [call, run, polyRun, scalarRun, codim, horner, add_comm]

/-- **C02 is false:** minus a sum, product, composition or concatenation of two or more functions can never be evaluated. -/
theorem C02_neg_false (f : Fn) (h : 2 ≤ f.parts.2.length) (ts : List ℝ) : f.neg.call ts = .error .assertFail := by
  unfold neg
  rw [call, run_expr]
  match hp : f.parts.2, h with
  | a :: b :: l, _ => rfl

/-- **C02 is false:** such functions exist; so minus the sum of two functions, and the difference of a function and this sum, fail. -/
theorem C02_neg_sum_false : ∃ s r, add (sin (0, 1)) (cos (0, 1)) = .ok s ∧ Built s ∧ s.neg.call [0] = .error .assertFail ∧
    sub (exp (0, 1)) s = .ok r ∧ r.call [0] = .error .assertFail := by
  have hs : sameDomain (sin (0, 1)) (cos (0, 1)) := by simp [sameDomain, dom, tol9]
  have hadd : add (sin (0, 1)) (cos (0, 1)) = .ok (expr (0, 1) 1 .sum [sin (0, 1), cos (0, 1)]) := by
    unfold add; rw [if_neg (not_not.mpr hs), if_neg (by simp [codim])]; rfl
  refine ⟨_, expr (0, 1) 1 .sum [exp (0, 1), expr (0, 1) 1 .neg [sin (0, 1), cos (0, 1)]], hadd, .add (.sin _) (.cos _) hadd,
    C02_neg_false _ (by simp [parts]) _, ?_, ?_⟩
  · unfold sub add sameDomain
    rw [if_neg (by simp [dom, tol9]), if_neg (by simp [codim]), if_neg (by simp [neg, dom, tol9]), if_neg (by simp [neg, codim])]; rfl
  · simp [call, run, evs, evalTy, evalSum, evalNeg, scalarRun, codim, bind, Except.bind, pure, Except.pure]

/-- **C02 is false:** minus minus `f` evaluates to minus `f`. -/
theorem C02_neg_neg_false (f : Fn) : f.neg.neg = f.neg ∧ ∃ g, Built g ∧ g.neg.neg.call [0] = .ok [[-1]] ∧ g.call [0] = .ok [[1]] := by
  refine ⟨rfl, const (0, 1) [1], .const _ _ (by simp), ?_, ?_⟩
  · simp [call, neg, parts, clone, run, evs, evalTy, evalNeg, codim, bind, Except.bind, pure, Except.pure]
  · simp [call, run, codim]

/-! ## C03 -/

theorem mulRow_scale {n c : ℕ} {x y : Rows} (hc : 1 ≤ c) (hx : Dims n c x) (hy : Dims n 1 y) : scaleRows x y = mulRows x y := by
  replace hx := hx.2
  replace hy := hy.2
  unfold scaleRows mulRows
  induction x generalizing y with
  | nil => simp
  | cons a x ih =>
    cases y with
    | nil => simp
    | cons b y =>
      rw [List.zipWith_cons_cons, List.zipWith_cons_cons, ih (fun r hr => hx r (by simp [hr])) fun r hr => hy r (by simp [hr])]
      congr 1
      unfold mulRow
      rw [if_pos (by rw [hx a (by simp), hy b (by simp)]; exact hc)]

theorem mulRow_scale' {n c : ℕ} {x y : Rows} (hc : 1 < c) (hx : Dims n 1 x) (hy : Dims n c y) : scaleRows y x = mulRows x y := by
  replace hx := hx.2
  replace hy := hy.2
  unfold scaleRows mulRows
  induction x generalizing y with
  | nil => simp
  | cons a x ih =>
    cases y with
    | nil => simp
    | cons b y =>
      rw [List.zipWith_cons_cons, List.zipWith_cons_cons, ih (fun r hr => hx r (by simp [hr])) fun r hr => hy r (by simp [hr])]
      congr 1
      unfold mulRow
      rw [if_neg (by rw [hx a (by simp), hy b (by simp)]; omega)]

/-- **C03.** Products, for all overloads: when they throw, and their domain, codomain and values. -/
theorem C03_product (ov : Ov) (f g : Fn) (hf : Built f) (hg : Built g) :
    (¬ (|f.dom.1 - g.dom.1| < 1 / 10 ^ 9 ∧ |f.dom.2 - g.dom.2| < 1 / 10 ^ 9 ∧ (f.codim = 1 ∨ g.codim = 1)) →
      mul ov f g = .error .invalidArgument) ∧
    (|f.dom.1 - g.dom.1| < 1 / 10 ^ 9 → |f.dom.2 - g.dom.2| < 1 / 10 ^ 9 → f.codim = 1 ∨ g.codim = 1 →
      ∃ r, mul ov f g = .ok r ∧ Built r ∧ (r.dom = f.dom ∨ r.dom = g.dom) ∧ r.codim = max f.codim g.codim ∧
        ∀ ts z, r.call ts = .ok z ↔ ∃ x y, f.call ts = .ok x ∧ g.call ts = .ok y ∧ z = mulRows x y) := by
  have pf := (wf_of_built hf).pos
  have pg := (wf_of_built hg).pos
  refine ⟨fun h => ?_, fun h1 h2 h3 => ?_⟩
  · unfold mul sameDomain tol9
    by_cases h1 : |f.dom.1 - g.dom.1| < 1 / 10 ^ 9 ∧ |f.dom.2 - g.dom.2| < 1 / 10 ^ 9
    · rw [if_neg (not_not.mpr h1), if_pos]
      by_contra h2
      exact h ⟨h1.1, h1.2, by omega⟩
    · rw [if_pos h1]
  · have hex : ∃ r, mul ov f g = .ok r := by
      unfold mul sameDomain tol9
      rw [if_neg (not_not.mpr ⟨h1, h2⟩), if_neg (by omega)]
      exact ⟨_, rfl⟩
    obtain ⟨r, hr⟩ := hex
    refine ⟨r, hr, .mul ov hf hg hr, ?_⟩
    obtain ⟨-, -, d, hd, hrr⟩ := mul_ok hr
    subst hrr
    split_ifs with hle
    · refine ⟨hd, (max_eq_left hle).symm, fun ts z => ?_⟩
      have hg1 : g.codim = 1 := by omega
      rw [call_mul (wf_of_built hf) (wf_of_built hg) hg1]
      constructor
      · rintro ⟨x, y, hx, hy, rfl⟩
        refine ⟨x, y, hx, hy, mulRow_scale pf (run_dims f _ _ _ hx) ?_⟩
        have := run_dims g _ _ _ hy; rwa [hg1] at this
      · rintro ⟨x, y, hx, hy, rfl⟩
        refine ⟨x, y, hx, hy, (mulRow_scale pf (run_dims f _ _ _ hx) ?_).symm⟩
        have := run_dims g _ _ _ hy; rwa [hg1] at this
    · refine ⟨hd, (max_eq_right (not_le.mp hle).le).symm, fun ts z => ?_⟩
      have hf1 : f.codim = 1 := by omega
      rw [call_mul (wf_of_built hg) (wf_of_built hf) hf1]
      constructor
      · rintro ⟨y, x, hy, hx, rfl⟩
        refine ⟨x, y, hx, hy, mulRow_scale' (by omega) ?_ (run_dims g _ _ _ hy)⟩
        have := run_dims f _ _ _ hx; rwa [hf1] at this
      · rintro ⟨x, y, hx, hy, rfl⟩
        refine ⟨y, x, hy, hx, (mulRow_scale' (by omega) ?_ (run_dims g _ _ _ hy)).symm⟩
        have := run_dims f _ _ _ hx; rwa [hf1] at this

/-- **C03**, for a number as the first factor. -/
theorem C03_scalar (k : ℝ) (f : Fn) (hf : Built f) : ∃ r, smul k f = .ok r ∧ Built r ∧ r.dom = f.dom ∧ r.codim = f.codim ∧
    ∀ ts z, r.call ts = .ok z ↔ ∃ x, f.call ts = .ok x ∧ z = x.map fun row => row.map (k * ·) := by
  have hk : Built (wrap (const f.dom [k])) := .toExpr (.const _ _ (by simp))
  have pf := (wf_of_built hf).pos
  obtain ⟨r, hr, hb, hd, hc, hv⟩ := (C03_product ⟨true, false⟩ (wrap (const f.dom [k])) f hk hf).2
    (by simp [wrap, dom]) (by simp [wrap, dom]) (.inl rfl)
  refine ⟨r, hr, hb, by rcases hd with hd | hd <;> exact hd, by rw [hc]; exact max_eq_right pf, fun ts z => ?_⟩
  rw [hv]
  have hcall : ∀ ts, (wrap (const f.dom [k])).call ts = .ok (ts.map fun _ => [k]) := by
    intro ts
    rw [call, run_wrap]
    simp [run, wrap, codim]
  have hrow : ∀ (ts : List ℝ) (y : Rows), Dims ts.length f.codim y → mulRows (ts.map fun _ => [k]) y = y.map fun row => row.map (k * ·) := by
    intro ts
    induction ts with
    | nil =>
      rintro y ⟨h1, -⟩
      rw [List.length_eq_zero_iff.mp h1]; rfl
    | cons t ts ih =>
      rintro y ⟨h1, h2⟩
      cases y with
      | nil => simp at h1
      | cons r y =>
        have := ih y ⟨by simpa using h1, fun x hx => h2 x (by simp [hx])⟩
        unfold mulRows at this ⊢
        rw [List.map_cons, List.zipWith_cons_cons, List.map_cons, this]
        congr 1
        have hlen := h2 r (by simp)
        unfold mulRow
        split_ifs with hle
        · obtain ⟨v, rfl⟩ := List.length_eq_one_iff.mp (show r.length = 1 by simp at hle; omega)
          simp
        · simp [mul_comm]
  constructor
  · rintro ⟨x, y, hx, hy, rfl⟩
    rw [hcall] at hx
    injection hx with hx
    subst hx
    exact ⟨y, hy, hrow ts y (run_dims f _ _ _ hy)⟩
  · rintro ⟨y, hy, rfl⟩
    exact ⟨_, y, hcall ts, hy, (hrow ts y (run_dims f _ _ _ hy)).symm⟩

/-- The hypotheses hold for a scalar and a vector, in this order. -/
example : ∃ r, mul ⟨false, true⟩ (cos (0, 1)) (const (0, 1) [1, 2]) = .ok r ∧ r.codim = 2 ∧ ∀ t, r.call [t] = .ok [[Real.cos t, 2 * Real.cos t]] := by
  obtain ⟨r, hr, -, -, hc, hv⟩ := (C03_product ⟨false, true⟩ (cos (0, 1)) (const (0, 1) [1, 2]) (.cos _) (.const _ _ (by simp))).2 (by simp [dom])
    (by simp [dom]) (.inl rfl)
  refine ⟨r, hr, by rw [hc]; rfl, fun t => ?_⟩
  rw [hv]
  refine ⟨[[Real.cos t]], [[1, 2]], ?_, ?_, ?_⟩
  · simp [call, run, scalarRun, codim]
  · simp [call, run, codim]
  · simp [mulRows, mulRow]

/-! ## C04 -/

/-- **C04** for the domain (see below) and all overloads: composition. The values of `f.compose(g)` at `ts` are the values of `f` at the values of `g`. Missing: the domain in the case
of the overload with an rvalue object and an lvalue argument, applied to an object that is itself a composition. -/
theorem C04_compose_partial (ov : Ov) (f g : Fn) (hf : Built f) (hg : Built g) :
    (g.codim ≠ 1 → compose ov f g = .error .invalidArgument) ∧
    (g.codim = 1 → ∃ r, compose ov f g = .ok r ∧ Built r ∧ r.codim = f.codim ∧
      (¬ (ov.this = true ∧ ov.that = false ∧ f.parts.1 = .comp) → r.dom = g.dom) ∧
        ∀ ts, r.call ts = (do let y ← g.call ts; f.call (y.map fun row => row.headD 0))) := by
  have pg := (wf_of_built hg).pos
  refine ⟨fun h => ?_, fun h => ?_⟩
  · unfold compose
    rw [if_pos (by omega)]
  · have hex : compose ov f g = .ok (expr (if ov.this ∧ ¬ ov.that ∧ f.parts.1 = .comp then f.dom else g.dom) f.codim .comp
        (chain .comp g ++ chain .comp f)) := by
      unfold compose; rw [if_neg (by omega)]
    refine ⟨_, hex, .compose ov hf hg hex, rfl, fun hov => ?_, fun ts => ?_⟩
    · change (if _ then _ else _) = _
      rw [if_neg]
      rintro ⟨h1, h2, h3⟩
      exact hov ⟨h1, by simpa using h2, h3⟩
    · rw [call, run_compose (wf_of_built hf) (wf_of_built hg), call, h]; rfl

/-- A composition of three functions. -/
example : ∃ h r, compose ⟨false, false⟩ (cos (0, 1)) (dil (0, 2) 3) = .ok h ∧ compose ⟨false, false⟩ (const (0, 1) [5, 6]) h = .ok r ∧ r.dom = (0, 2) ∧
    (∀ t, h.call [t] = .ok [[Real.cos (3 * t)]]) ∧ ∀ t, r.call [t] = .ok [[5, 6]] := by
  obtain ⟨h, hh, hb, hc, hd, hv⟩ := (C04_compose_partial ⟨false, false⟩ (cos (0, 1)) (dil (0, 2) 3) (.cos _) (.dil _ _)).2 rfl
  obtain ⟨r, hr, -, -, hrd, hrv⟩ := (C04_compose_partial ⟨false, false⟩ (const (0, 1) [5, 6]) h (.const _ _ (by simp)) hb).2 hc
  have hval : ∀ t, h.call [t] = .ok [[Real.cos (3 * t)]] := fun t => by
    rw [hv]; simp [call, run, scalarRun, codim, bind, Except.bind]
  refine ⟨h, r, hh, hr, ?_, hval, fun t => ?_⟩
  · rw [hrd (by simp), hd (by simp)]; rfl
  · rw [hrv, hval]; simp [call, run, codim, bind, Except.bind]

/-- **C04 is false** for the domain: composing a temporary composition with another function keeps the old domain. -/
theorem C04_domain_false : ∃ h r, compose ⟨false, false⟩ (cos (0, 1)) (dil (0, 2) 3) = .ok h ∧ Built h ∧
    compose ⟨true, false⟩ h (exp (5, 6)) = .ok r ∧ r.dom = (0, 2) ∧ (exp (5, 6)).dom = (5, 6) := by
  have hex : compose ⟨false, false⟩ (cos (0, 1)) (dil (0, 2) 3) = .ok (expr (0, 2) 1 .comp [wrap (dil (0, 2) 3), wrap (cos (0, 1))]) := by
    simp [compose, codim, dom, chain, parts, toExpr]
  refine ⟨_, expr (0, 2) 1 .comp [wrap (exp (5, 6)), wrap (dil (0, 2) 3), wrap (cos (0, 1))], hex, .compose _ (.cos _) (.dil _ _) hex, ?_, rfl, rfl⟩
  simp [compose, codim, dom, chain, parts, toExpr]

/-! ## C05 -/

/-- **C05.** Concatenation throws exactly when the number of components differ or there is a gap of more than `1e-9`. (A new object must have an ordered domain, which is
asserted; operands have one.) -/
theorem C05_throws (ov : Ov) (f g : Fn) (hfg : f.dom.1 ≤ g.dom.2) :
    (concat ov f g = .error .invalidArgument ↔ f.codim ≠ g.codim ∨ |f.dom.2 - g.dom.1| > 1 / 10 ^ 9) ∧
      (concat ov f g ≠ .error .invalidArgument → ∃ r, concat ov f g = .ok r) := by
  unfold concat tol9
  split_ifs with h1 h2 h3
  · simp [h1]
  · simp only [h2, or_true, iff_true, true_and]; simp
  · simp only [reduceCtorEq, false_iff, ne_eq, not_false_eq_true, Except.ok.injEq, exists_eq', implies_true, and_true]
    tauto
  · simp only [reduceCtorEq, false_iff, ne_eq, not_false_eq_true, Except.ok.injEq, exists_eq', implies_true, and_true]
    tauto

/-- **C05** (all but the domain, see below). With an exact joint, for all overloads and operands which themselves are concatenations of any number of pieces or not: the value is the one
of `f` before the joint and the one of `g` from the joint on, clamped outside. Missing: the overloads with an rvalue object that is itself a concatenation do not update the domain. -/
theorem C05_concat_partial (ov : Ov) (f g : Fn) (hf : Built f) (hg : Built g) (hjf : Spec.Joined f) (hjg : Spec.Joined g)
    (hc : f.codim = g.codim) (hj : f.dom.2 = g.dom.1) :
    ∃ r, concat ov f g = .ok r ∧ Built r ∧ r.codim = f.codim ∧
      (¬ (ov.this = true ∧ f.parts.1 = .concat) → r.dom = (f.dom.1, g.dom.2) ∧ Spec.Joined r) ∧
        ∀ t, r.call [t] = if t < f.dom.2 then f.call [max f.dom.1 t] else g.call [min t g.dom.2] := by
  have h1 := joined_lt hjf
  have h2 := joined_lt hjg
  have hle : f.dom.1 ≤ g.dom.2 := by linarith
  have hex : ∃ d, concat ov f g = .ok (expr d f.codim .concat (chain .concat f ++ chain .concat g)) ∧
      (¬ (ov.this = true ∧ f.parts.1 = .concat) → d = (f.dom.1, g.dom.2)) := by
    unfold concat
    rw [if_neg (not_ne_iff.mpr hc), if_neg (by rw [hj]; simp [tol9])]
    split_ifs with h3
    · exact ⟨_, rfl, fun h => absurd h3 h⟩
    · exact ⟨_, rfl, fun _ => rfl⟩
  obtain ⟨d, hd, hdom⟩ := hex
  refine ⟨_, hd, .concat ov hf hg hd, rfl, fun h => ⟨hdom h, ?_⟩, fun t => call_concat (wf_of_built hf) (wf_of_built hg) hc hjf hjg hj d t⟩
  rw [hdom h]
  change Pieces (chain .concat f ++ chain .concat g) f.dom.1 g.dom.2
  have := pieces_chain hjg
  rw [← hj] at this
  exact pieces_append (pieces_chain hjf) this

theorem pieces_cons_inv {f : Fn} {l : List Fn} {a b : ℝ} (h : Pieces (f :: l) a b) : f.dom.1 = a ∧ a < f.dom.2 ∧
    ((l = [] ∧ f.dom.2 = b) ∨ Pieces l f.dom.2 b) := by
  cases l with
  | nil => exact ⟨by rw [h.1], by rw [h.1]; exact h.2, .inl ⟨rfl, by rw [h.1]⟩⟩
  | cons g l => exact ⟨h.1, h.2.1, .inr h.2.2⟩

/-- **C05**, chains: concatenating any number of functions whose domains follow each other, one after the other (to an lvalue), gives a function on the union of their domains, which on the
domain of each of them is equal to it. -/
theorem C05_chain (that : Bool) (f : Fn) (gs : List Fn) (a b : ℝ) (hb : ∀ g ∈ f :: gs, Built g ∧ Spec.Joined g ∧ g.codim = f.codim)
    (hp : Pieces (f :: gs) a b) :
    ∃ r, gs.foldlM (concat ⟨false, that⟩) f = .ok r ∧ r.dom = (a, b) ∧ r.codim = f.codim ∧
      ∀ g ∈ f :: gs, ∀ t, g.dom.1 ≤ t → t < g.dom.2 → r.call [t] = g.call [t] := by
  induction gs generalizing f a with
  | nil =>
    refine ⟨f, rfl, hp.1, rfl, fun g hg t _ _ => ?_⟩
    rw [List.mem_singleton.mp hg]
  | cons g gs ih =>
    obtain ⟨h1, h2, h3⟩ := pieces_cons_inv hp
    have h3 : Pieces (g :: gs) f.dom.2 b := by
      rcases h3 with h3 | h3
      · cases h3.1
      · exact h3
    obtain ⟨hbf, hjf, -⟩ := hb f (by simp)
    obtain ⟨hbg, hjg, hcg⟩ := hb g (by simp)
    obtain ⟨g1, g2, g3⟩ := pieces_cons_inv h3
    obtain ⟨r, hr, hrb, hrc, hrd, hrv⟩ := C05_concat_partial ⟨false, that⟩ f g hbf hbg hjf hjg hcg.symm g1.symm
    obtain ⟨hrd, hrj⟩ := hrd (by simp)
    have hpr : Pieces (r :: gs) a b := by
      rcases g3 with ⟨rfl, e⟩ | g3
      · exact ⟨by rw [hrd, h1, e], pieces_lt hp⟩
      · cases gs with
        | nil => exact g3.elim
        | cons k gs =>
          refine ⟨by rw [hrd, ← h1], by rw [hrd]; exact h2.trans g2, ?_⟩
          rw [hrd]; exact g3
    obtain ⟨s, hs, hsd, hsc, hsv⟩ := ih r a (by
      intro x hx
      rcases List.mem_cons.mp hx with rfl | hx
      · exact ⟨hrb, hrj, rfl⟩
      · rw [hrc]; exact hb x (by simp [hx])) hpr
    refine ⟨s, by rw [List.foldlM_cons, hr]; exact hs, hsd, hsc.trans hrc, ?_⟩
    intro x hx t ht1 ht2
    simp only [List.mem_cons] at hx
    rcases hx with rfl | rfl | hx
    · rw [hsv r (by simp) t (by rw [hrd]; exact ht1) (by rw [hrd]; exact ht2.trans g2), hrv, if_pos ht2, max_eq_right ht1]
    · rw [hsv r (by simp) t (by rw [hrd]; dsimp only; linarith) (by rw [hrd]; exact ht2), hrv, if_neg (by rw [not_lt, ← g1]; exact ht1),
        min_eq_left ht2.le]
    · exact hsv x (by simp [hx]) t ht1 ht2

/-- The hypotheses of `C05_chain` hold for three functions. -/
example : Pieces [cos (0, 1), sin (1, 2), exp (2, 4)] 0 4 ∧
    ∀ g ∈ [cos (0, 1), sin (1, 2), exp (2, 4)], Built g ∧ Spec.Joined g ∧ g.codim = (cos (0, 1)).codim := by
  refine ⟨⟨rfl, by norm_num [dom], rfl, by norm_num [dom], rfl, ?_⟩, ?_⟩
  · change (2 : ℝ) < 4; norm_num
  intro g hg
  simp only [List.mem_cons, List.not_mem_nil, or_false] at hg
  rcases hg with rfl | rfl | rfl
  · exact ⟨.cos _, by norm_num [Spec.Joined, dom], rfl⟩
  · exact ⟨.sin _, by norm_num [Spec.Joined, dom], rfl⟩
  · exact ⟨.exp _, by norm_num [Spec.Joined, dom], rfl⟩

/-- **C05 is false** for the domain: concatenating a temporary concatenation with a third function keeps the domain of the first two; the fourth function, although it starts where the third one ends, is then
rejected. -/
theorem C05_domain_false : ∃ h r, concat ⟨false, false⟩ (cos (0, 1)) (sin (1, 2)) = .ok h ∧ Built h ∧ Spec.Joined h ∧
    concat ⟨true, false⟩ h (exp (2, 3)) = .ok r ∧ r.dom = (0, 2) ∧ concat ⟨true, false⟩ r (cos (3, 4)) = .error .invalidArgument := by
  obtain ⟨h, hh, hb, hc, hd, -⟩ := C05_concat_partial ⟨false, false⟩ (cos (0, 1)) (sin (1, 2)) (.cos _) (.sin _) (by norm_num [Spec.Joined, dom])
    (by norm_num [Spec.Joined, dom]) rfl rfl
  obtain ⟨hd, hj⟩ := hd (by simp)
  have hc' : h.codim = 1 := hc
  have hd' : h.dom = (0, 2) := hd
  have hty : h.parts.1 = .concat := by
    unfold concat at hh
    split_ifs at hh
    all_goals
      injection hh with hh
      rw [← hh]; rfl
  refine ⟨h, expr (0, 2) 1 .concat (chain .concat h ++ chain .concat (exp (2, 3))), hh, hb, hj, ?_, rfl, ?_⟩
  · unfold concat
    rw [if_neg (by rw [hc']; simp [codim]), if_neg (by rw [hd']; simp [dom, tol9]), if_pos (by simp [hty]), hd', hc']
  · unfold concat
    rw [if_neg (by simp [codim]), if_pos (by norm_num [dom, tol9, abs_of_neg])]

/-- A gap of at most `1e-9` between the domains is accepted, but the result throws when it is evaluated inside of the gap. -/
theorem C05_gap_throws : ∃ r, concat ⟨false, false⟩ (cos (0, 1)) (sin (1 + 1 / 10 ^ 9, 2)) = .ok r ∧ r.dom = (0, 2) ∧
    r.call [1 + 1 / (2 * 10 ^ 9)] = .error .invalidArgument := by
  refine ⟨expr (0, 2) 1 .concat [wrap (cos (0, 1)), wrap (sin (1 + 1 / 10 ^ 9, 2))], ?_, rfl, ?_⟩
  · unfold concat
    rw [if_neg (by simp [codim]), if_neg (by norm_num [dom, tol9]), if_neg (by simp), if_pos (by norm_num [dom])]
    rfl
  · rw [call, run_expr]
    have hn : search [wrap (cos (0, 1)), wrap (sin (1 + 1 / 10 ^ 9, 2))] (1 + 1 / (2 * 10 ^ 9)) = none := by
      refine search_none ?_
      intro f hf
      simp only [List.mem_cons, List.not_mem_nil, or_false] at hf
      rcases hf with rfl | rfl
      · right; norm_num [wrap, dom]
      · left; norm_num [wrap, dom]
    change evalConcat (List.map ev [wrap (cos (0, 1)), wrap (sin (1 + 1 / 10 ^ 9, 2))]) 1 _ = _
    rw [evalConcat_single (by simp) (by simp [wrap, codim])]
    unfold pickRun
    change (match search _ _ with | some f => _ | none => _) = _
    rw [hn]
    norm_num [wrap, dom]

/-! ## C09 -/

/-- One in-place update: `+= g` or `*= g`. -/
inductive Upd where
  | plus (g : Fn)
  | times (g : Fn)

/-- The object after an update. -/
def Upd.apply (f : Fn) : Upd → Fn
  | plus g => addInPlace f g
  | times g => mulInPlace f g

/-- Updates that make sense for a function with `c` components. -/
def Upd.Ok (c : ℕ) : Upd → Prop
  | plus g => Built g ∧ g.codim = c
  | times g => Built g ∧ g.codim = 1

/-- `y` is what `x` becomes by the update, in terms of values at the points `ts`. -/
def Upd.Value (ts : List ℝ) (u : Upd) (x y : Rows) : Prop :=
  match u with
  | plus g => ∃ v, g.call ts = .ok v ∧ y = addRows x v
  | times g => ∃ v, g.call ts = .ok v ∧ y = List.zipWith (fun r w => r.map (· * w.headD 0)) x v

/-- The values along a history of updates. -/
inductive Upd.Values (ts : List ℝ) : List Upd → Rows → Rows → Prop
  | nil (x : Rows) : Values ts [] x x
  | cons {u : Upd} {us : List Upd} {x y z : Rows} : u.Value ts x y → Values ts us y z → Values ts (u :: us) x z

/-- **C09.** After any history of in-place updates, the value is the value of the start, updated. -/
theorem C09_history (f : Fn) (hf : Built f) (us : List Upd) (hus : ∀ u ∈ us, u.Ok f.codim) (ts : List ℝ) (z : Rows) :
    Built (us.foldl Upd.apply f) ∧ (us.foldl Upd.apply f).dom = f.dom ∧ (us.foldl Upd.apply f).codim = f.codim ∧
      ((us.foldl Upd.apply f).call ts = .ok z ↔ ∃ x, f.call ts = .ok x ∧ Upd.Values ts us x z) := by
  induction us generalizing f with
  | nil =>
    refine ⟨hf, rfl, rfl, ?_⟩
    constructor
    · intro h; exact ⟨z, h, .nil z⟩
    · rintro ⟨x, hx, h⟩; cases h; exact hx
  | cons u us ih =>
    have hu := hus u (by simp)
    have hstep : Built (u.apply f) ∧ (u.apply f).dom = f.dom ∧ (u.apply f).codim = f.codim ∧
        ∀ y, (u.apply f).call ts = .ok y ↔ ∃ x, f.call ts = .ok x ∧ u.Value ts x y := by
      cases u with
      | plus g =>
        refine ⟨.addInPlace hf hu.1 hu.2.symm, ?_, ?_, fun y => ?_⟩
        · simp only [Upd.apply]; rw [addInPlace, inPlace_eq]; rfl
        · simp only [Upd.apply]; rw [addInPlace, inPlace_eq]; rfl
        · rw [Upd.apply, call_addInPlace (wf_of_built hf) hu.2.symm]
          constructor
          · rintro ⟨x, v, hx, hv, rfl⟩; exact ⟨x, hx, v, hv, rfl⟩
          · rintro ⟨x, hx, v, hv, rfl⟩; exact ⟨x, v, hx, hv, rfl⟩
      | times g =>
        refine ⟨.mulInPlace hf hu.1 hu.2, ?_, ?_, fun y => ?_⟩
        · simp only [Upd.apply]; rw [mulInPlace, inPlace_eq]; rfl
        · simp only [Upd.apply]; rw [mulInPlace, inPlace_eq]; rfl
        · rw [Upd.apply, call_mulInPlace (wf_of_built hf) hu.2]
          constructor
          · rintro ⟨x, v, hx, hv, rfl⟩; exact ⟨x, hx, v, hv, rfl⟩
          · rintro ⟨x, hx, v, hv, rfl⟩; exact ⟨x, v, hx, hv, rfl⟩
    obtain ⟨h1, h2, h3, h4⟩ := hstep
    obtain ⟨i1, i2, i3, i4⟩ := ih (u.apply f) h1 (by rw [h3]; exact fun x hx => hus x (by simp [hx]))
    refine ⟨i1, i2.trans h2, i3.trans h3, ?_⟩
    rw [List.foldl_cons, i4]
    constructor
    · rintro ⟨y, hy, hyz⟩
      obtain ⟨x, hx, hxy⟩ := (h4 y).mp hy
      exact ⟨x, hx, .cons hxy hyz⟩
    · rintro ⟨x, hx, h⟩
      cases h with
      | cons hxy hyz => exact ⟨_, (h4 _).mpr ⟨x, hx, hxy⟩, hyz⟩

/-- The hypotheses hold for a history with both operations on a product. -/
example : ∀ u ∈ [Upd.plus (sin (0, 1)), Upd.times (cos (0, 1)), Upd.plus (exp (0, 1))], u.Ok 1 := by
  intro u hu
  simp only [List.mem_cons, List.not_mem_nil, or_false] at hu
  rcases hu with rfl | rfl | rfl
  · exact ⟨.sin _, rfl⟩
  · exact ⟨.cos _, rfl⟩
  · exact ⟨.exp _, rfl⟩

/-- `+=` accepts a function with another number of components or another domain; in the first case the result cannot be evaluated. -/
theorem C09_add_unchecked : (addInPlace (sin (0, 1)) (const (5, 6) [1, 2])).call [0] = .error .ub ∧ (addInPlace (sin (0, 1)) (cos (5, 6))).call [0] = .ok [[1]] := by
  constructor
  · simp [addInPlace, inPlace, call, run, evs, evalTy, evalSum, evalUnique, scalarRun, codim, clone, toExpr, wrap, dom, pure, Except.pure, bind, Except.bind]
  · simp [addInPlace, inPlace, call, run, evs, evalTy, evalSum, evalUnique, scalarRun, codim, clone, toExpr, wrap, dom, pure, Except.pure, bind, Except.bind]

/-- `*=` accepts a vector valued function; the result cannot be evaluated. -/
theorem C09_mul_unchecked : (mulInPlace (sin (0, 1)) (const (0, 1) [1, 2])).call [0] = .error .ub := by
  simp [mulInPlace, inPlace, call, run, evs, evalTy, evalMul, evalUnique, scalarRun, codim, clone, toExpr, wrap, dom, bind, Except.bind]

/-! ## C10 -/

/-- **C10.** For every function object whatsoever: evaluating it at several points succeeds exactly when it does at each of them, and gives, row by row, the same values. -/
theorem C10_row_wise (f : Fn) (ts : List ℝ) (rows : Rows) (hne : ts ≠ []) :
    f.call ts = .ok rows ↔ List.Forall₂ (fun t r => f.call [t] = .ok [r]) ts rows :=
  law_forall₂ (run_law f f.codim) ts rows hne

/-- **C10.** The result has one row per point, and one column per component of the function. -/
theorem C10_shape (f : Fn) (ts : List ℝ) (rows : Rows) (h : f.call ts = .ok rows) : rows.length = ts.length ∧ ∀ r ∈ rows, r.length = f.codim :=
  run_dims f _ _ _ h

/-- An evaluation at two points that succeeds, of a concatenation. -/
example : ∃ r, concat ⟨false, false⟩ (dil (0, 1) 3) (const (1, 2) [7]) = .ok r ∧ r.call [1 / 2, 5] = .ok [[3 / 2], [7]] := by
  obtain ⟨r, hr, -, hc, -, hv⟩ := C05_concat_partial ⟨false, false⟩ (dil (0, 1) 3) (const (1, 2) [7]) (.dil _ _) (.const _ _ (by simp))
    (by norm_num [Spec.Joined, dom]) (by norm_num [Spec.Joined, dom]) rfl rfl
  refine ⟨r, hr, (C10_row_wise r _ _ (by simp)).mpr (.cons ?_ (.cons ?_ .nil))⟩
  · rw [hv, if_pos (by norm_num [dom])]
    norm_num [dom, call, run, scalarRun, codim]
  · rw [hv, if_neg (by norm_num [dom])]
    simp [call, run, codim]

end GSplines.Props
