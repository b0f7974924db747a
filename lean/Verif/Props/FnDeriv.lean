import Verif.Proofs.FnRegular
import Verif.Props.GSpline
import Mathlib.Tactic.NormNum

/-!
# Properties of the derivatives of functions (C06-C08)

`val f k t` is component `k` of the value of `f` at `t`; `Regular f` says that `f` was built with the public interface from operands that fit;
`Smooth f t` says that `t` is not a joint of a spline or of a concatenation that is part of `f` (Spec/FnDeriv.lean).
-/

namespace GSplines.Props

open GSplines Fn Spec

theorem call_of_nstep {n : ℕ} {f f' : Fn} (h : NStep n f f') {t : ℝ} (hs : Smooth f t) :
    f'.call [t] = .ok [(List.range f.codim).map fun k => iteratedDeriv n (val f k) t] := by
  rw [tot_of_good h.1 t, h.2.2.1]
  congr 2
  exact List.map_congr_left fun k hk => (h.2.2.2 t hs).2 k (List.mem_range.mp hk)

/-! ## C06 -/

/-- **C06.** Deriving any expression succeeds, keeps domain and codomain, and the result evaluates to the `n`-th derivative of the function that the expression
evaluates to. Missing: orders above two of expressions over Basis0101 splines that reach the spline without a product or composition in between, for
which the claim is false (`C06_basis0101_false`). -/
theorem C06_derivative_partial (f : Fn) (hf : Regular f) (n : ℕ) (hn : OrderOk n f) :
    ∃ f', f.deriv n = .ok f' ∧ f'.dom = f.dom ∧ f'.codim = f.codim ∧
      ∀ t, Smooth f t → f'.call [t] = .ok [(List.range f.codim).map fun k => iteratedDeriv n (val f k) t] := by
  obtain ⟨f', h1, h2⟩ := deriv_nstep (good_of_regular hf).1 hn
  exact ⟨f', h1, h2.2.1, h2.2.2.1, fun t hs => call_of_nstep h2 hs⟩

/-- The value of the expression itself, to which `C06_derivative_partial` refers: evaluating succeeds everywhere and returns one row. -/
theorem C06_value (f : Fn) (hf : Regular f) (t : ℝ) : f.call [t] = .ok [(List.range f.codim).map fun k => val f k t] :=
  tot_of_good (good_of_regular hf).1 t

/-- **C06**, orders up to two: without restriction on the bases. -/
theorem C06_derivative_le_two (f : Fn) (hf : Regular f) (n : ℕ) (hn : n ≤ 2) :
    ∃ f', f.deriv n = .ok f' ∧ f'.dom = f.dom ∧ f'.codim = f.codim ∧
      ∀ t, Smooth f t → f'.call [t] = .ok [(List.range f.codim).map fun k => iteratedDeriv n (val f k) t] :=
  C06_derivative_partial f hf n (orderOk_le_two hn f)

/-- **C06** for `derivate`, which wraps the derivative in an expression. -/
theorem C06_derivate_partial (f : Fn) (hf : Regular f) (n : ℕ) (hn : OrderOk n f) :
    ∃ f', f.derivate n = .ok f' ∧ f'.dom = f.dom ∧ f'.codim = f.codim ∧
      ∀ t, Smooth f t → f'.call [t] = .ok [(List.range f.codim).map fun k => iteratedDeriv n (val f k) t] := by
  obtain ⟨g, h1, h2, h3, h4⟩ := C06_derivative_partial f hf n hn
  refine ⟨expr f.dom f.codim .unique [g], ?_, rfl, rfl, fun t hs => ?_⟩
  · rw [derivate, h1]; rfl
  · rw [← h4 t hs]
    have : (expr f.dom f.codim .unique [g]).run = g.run := by
      funext c ts
      rw [run_expr]
      simp [evalTy, evalUnique, ev]
    rw [call, call, this, h3]; rfl

/-- **C06**, repeated first derivatives: right for every basis and every order. -/
theorem C06_repeated (f : Fn) (hf : Regular f) (n : ℕ) :
    ∃ f', iterD1 n f = .ok f' ∧ f'.dom = f.dom ∧ f'.codim = f.codim ∧
      ∀ t, Smooth f t → f'.call [t] = .ok [(List.range f.codim).map fun k => iteratedDeriv n (val f k) t] := by
  obtain ⟨f', h1, h2⟩ := iterD1_nstep n (good_of_regular hf).1
  exact ⟨f', h1, h2.2.1, h2.2.2.1, fun t hs => call_of_nstep h2 hs⟩

/-- The derivative used in `C06_repeated` is `deriv(1)`. -/
theorem C06_repeated_step (f : Fn) : f.d1 = f.deriv 1 := by
  have last : ∀ x : Res Fn, (do iterD1 0 (← x)) = x := fun x => by cases x <;> rfl
  induction f using ind with
  | hdot d a b _ _ =>
    rw [d1, Fn.deriv]
    conv_rhs => simp only [← bind_assoc]
    rw [last]
  | hexpr d c ty args ih =>
    have hds : d1s args = derivs args 1 := by
      induction args with
      | nil => rfl
      | cons a l ihl => rw [d1s, derivs, ih a (by simp), ihl fun b hb => ih b (by simp [hb])]
    rw [d1.eq_def, Fn.deriv.eq_def]
    dsimp only
    cases ty
    case mul =>
      dsimp only
      conv_rhs => simp only [← bind_assoc]
      rw [last]
    case comp =>
      dsimp only
      conv_rhs => simp only [← bind_assoc]
      rw [last]
    all_goals
      dsimp only
      rw [hds]
  | _ => rw [d1, Fn.deriv]

/-- The function is smooth around such a point: its derivatives of all orders exist, so that `iteratedDeriv` above is not a default value. -/
theorem C06_smooth (f : Fn) (hf : Regular f) (t : ℝ) (hs : Smooth f t) (k : ℕ) (hk : k < f.codim) (n : ℕ) : ContDiffAt ℝ n (val f k) t :=
  contDiffAt_val n (good_of_regular hf).1 hs hk

/-- **C06 is false for orders from 3 on over Basis0101** (orders that are not multiples of 4): the derivative evaluates to zero although the derivative of the
function is not zero. -/
theorem C06_basis0101_false (alpha : ℝ) (h0 : 0 < alpha) (h1 : alpha < 1) (n : ℕ) (hn : 3 ≤ n) (h4 : ¬ 4 ∣ n) :
    ∃ f f' : Fn, Regular f ∧ Smooth f 1 ∧ f.deriv n = .ok f' ∧ f'.call [1] = .ok [[0]] ∧ iteratedDeriv n (val f 0) 1 ≠ 0 := by
  obtain ⟨g', e1, e2, e3⟩ := C14_derivative_basis0101_false alpha h0 h1 n hn h4
  refine ⟨.gspl ⟨(0, 2), 1, .b0101 alpha, [0, 1, 0, 0, 0, 0], [2]⟩, .gspl g', ?_, ?_, ?_, (call_gspl _ _ _).mpr e2, ?_⟩
  · refine .gspl _ (by simp) ⟨h0.le, h1⟩ (by simp [Consistent, Basis.dim]) ⟨by simp, by simp⟩ (by simp)
  · refine .gspl _ _ 0 ?_
    have : ∀ᶠ s : ℝ in nhds 1, 0 < s ∧ s < 2 := (lt_mem_nhds (by norm_num)).and (gt_mem_nhds (by norm_num))
    filter_upwards [this] with s hs
    refine ⟨⟨by simp, .inr (.inl ⟨?_, ?_⟩)⟩, trivial⟩
    · simpa [brk] using hs.1
    · simpa [brk] using hs.2.le
  · rw [Fn.deriv, e1]; rfl
  · have e : val (.gspl ⟨(0, 2), 1, .b0101 alpha, [0, 1, 0, 0, 0, 0], [2]⟩) 0 = comp ⟨(0, 2), 1, .b0101 alpha, [0, 1, 0, 0, 0, 0], [2]⟩ 0 := by
      funext t
      unfold comp
      cases hv : GSpline.value ⟨(0, 2), 1, .b0101 alpha, [0, 1, 0, 0, 0, 0], [2]⟩ t with
      | ok v => rw [val_of_call ((call_gspl _ _ _).mpr hv)]
      | error e =>
        unfold val
        rw [call, run]
        simp [GSpline.values, hv, bind, Except.bind, codim]
    rw [e]; exact e3

/-! ## C07 -/

theorem elem_call {n : ℕ} {f f' : Fn} {F : ℝ → ℝ} (h : NStep n f f') (hc : f.codim = 1) (hF : val f 0 = F) (hs : ∀ t, Smooth f t) (t : ℝ) :
    f'.call [t] = .ok [[iteratedDeriv n F t]] := by
  rw [call_of_nstep h (hs t), hc, ← hF]; rfl

/-- **C07**, constants. -/
theorem C07_const (d : ℝ × ℝ) (v : List ℝ) (n : ℕ) :
    ∃ f', (Fn.const d v).deriv n = .ok f' ∧ ∀ t, f'.call [t] = .ok [v.map fun x => iteratedDeriv n (fun _ => x) t] := by
  refine ⟨_, by rw [Fn.deriv], fun t => ?_⟩
  rw [call_of_nstep (nstep_const n d v) (.const _ _ t)]
  congr 2
  refine List.ext_getElem (by simp [codim]) fun i h1 h2 => ?_
  have hi : i < v.length := by simpa using h2
  simp only [List.getElem_map, List.getElem_range]
  rw [(val_const d v).2 i hi]
  congr 1
  funext _
  simp [hi]

/-- **C07**, `t ↦ c t`. -/
theorem C07_dilation (d : ℝ × ℝ) (c : ℝ) (n : ℕ) :
    ∃ f', (Fn.dil d c).deriv n = .ok f' ∧ ∀ t, f'.call [t] = .ok [[iteratedDeriv n (fun t => c * t) t]] :=
  ⟨_, by rw [Fn.deriv], elem_call (nstep_dil n d c rfl rfl (val_dil d c).2) rfl (val_dil d c).2 fun t => .dil _ _ t⟩

/-- **C07**, the identity. -/
theorem C07_identity (d : ℝ × ℝ) (n : ℕ) :
    ∃ f', (Fn.ident d).deriv n = .ok f' ∧ ∀ t, f'.call [t] = .ok [[iteratedDeriv n (fun t => t) t]] :=
  ⟨_, by rw [Fn.deriv], elem_call (nstep_dil n d 1 rfl rfl (by rw [(val_ident d).2]; simp)) rfl (val_ident d).2 fun t => .ident _ t⟩

/-- **C07**, the exponential function. -/
theorem C07_exp (d : ℝ × ℝ) (n : ℕ) : ∃ f', (Fn.exp d).deriv n = .ok f' ∧ ∀ t, f'.call [t] = .ok [[iteratedDeriv n Real.exp t]] :=
  ⟨_, by rw [Fn.deriv], elem_call (nstep_exp n d) rfl (val_exp d).2 fun t => .exp _ t⟩

/-- **C07**, cosine. -/
theorem C07_cos (d : ℝ × ℝ) (n : ℕ) : ∃ f', (Fn.cos d).deriv n = .ok f' ∧ ∀ t, f'.call [t] = .ok [[iteratedDeriv n Real.cos t]] :=
  ⟨_, by rw [Fn.deriv], elem_call (nstep_cos n d) rfl (val_cos d).2 fun t => .cos _ t⟩

/-- **C07**, sine. -/
theorem C07_sin (d : ℝ × ℝ) (n : ℕ) : ∃ f', (Fn.sin d).deriv n = .ok f' ∧ ∀ t, f'.call [t] = .ok [[iteratedDeriv n Real.sin t]] :=
  ⟨_, by rw [Fn.deriv], elem_call (nstep_sin n d) rfl (val_sin d).2 fun t => .sin _ t⟩

theorem psum_eq (m : ℕ) (a : List ℝ) (t : ℝ) : psum m a t = ∑ i ∈ Finset.range a.length, a.getD i 0 * t ^ (m + i) := by
  induction a generalizing m with
  | nil => simp [psum]
  | cons x a ih =>
    rw [psum, ih, List.length_cons, Finset.sum_range_succ']
    rw [add_comm]
    congr 1
    exact Finset.sum_congr rfl fun i _ => by rw [List.getD_cons_succ, show m + 1 + i = m + (i + 1) by ring]

/-- **C07**, polynomials with at least one coefficient. -/
theorem C07_polynomial (d : ℝ × ℝ) (a : List ℝ) (ha : a ≠ []) (n : ℕ) : ∃ f', (Fn.poly d a).deriv n = .ok f' ∧
    ∀ t, f'.call [t] = .ok [[iteratedDeriv n (fun t => ∑ i ∈ Finset.range a.length, a.getD i 0 * t ^ i) t]] := by
  obtain ⟨f', h1, h2⟩ := nstep_poly n d ha
  refine ⟨f', h1, elem_call h2 rfl ?_ fun t => .poly _ _ t⟩
  rw [(val_poly d ha).2]
  funext t
  rw [horner_eq ha t, psum_eq]
  simp

/-- The values of the elementary functions themselves (the case `n = 0` with the code of `operator()`). -/
theorem C07_values (d : ℝ × ℝ) (c : ℝ) (v a : List ℝ) (ha : a ≠ []) (t : ℝ) :
    (Fn.const d v).call [t] = .ok [v] ∧ (Fn.dil d c).call [t] = .ok [[c * t]] ∧ (Fn.ident d).call [t] = .ok [[t]] ∧
    (Fn.exp d).call [t] = .ok [[Real.exp t]] ∧ (Fn.cos d).call [t] = .ok [[Real.cos t]] ∧ (Fn.sin d).call [t] = .ok [[Real.sin t]] ∧
    (Fn.poly d a).call [t] = .ok [[∑ i ∈ Finset.range a.length, a.getD i 0 * t ^ i]] := by
  refine ⟨by simp [call, run, codim], ?_, ?_, ?_, ?_, ?_, ?_⟩
  · rw [(val_dil d c).1 t, show (Fn.dil d c).codim = 1 from rfl]; simp [(val_dil d c).2]
  · rw [(val_ident d).1 t, show (Fn.ident d).codim = 1 from rfl]; simp [(val_ident d).2]
  · rw [(val_exp d).1 t, show (Fn.exp d).codim = 1 from rfl]; simp [(val_exp d).2]
  · rw [(val_cos d).1 t, show (Fn.cos d).codim = 1 from rfl]; simp [(val_cos d).2]
  · rw [(val_sin d).1 t, show (Fn.sin d).codim = 1 from rfl]; simp [(val_sin d).2]
  · rw [(val_poly d ha).1 t, show (Fn.poly d a).codim = 1 from rfl]
    simp only [List.range_one, List.map_cons, List.map_nil, (val_poly d ha).2, horner_eq ha t, psum_eq]
    simp

/-- The hypothesis: `1 + 2 t + 3 t²`, whose second derivative is 6. -/
example : ∃ f', (Fn.poly (0, 1) [1, 2, 3]).deriv 2 = .ok f' ∧ f'.call [5] = .ok [[6]] := by
  refine ⟨Fn.poly (0, 1) [6], ?_, by simp [call, run, polyRun, horner, codim]⟩
  simp [Fn.deriv, polyDeriv, polyLoop, polyStep, bind, Except.bind, pure, Except.pure]
  norm_num

/-! ## C08 -/

/-- **C08**, values. With different numbers of components an assertion fails. Otherwise, for both overloads and any points, evaluating the dot product
returns the dot products of the rows that the operands return. -/
theorem C08_dot_value (f g : Fn) (ov : Ov) :
    (f.codim ≠ g.codim → dotOp ov f g = .error .assertFail) ∧
    (f.codim = g.codim → ∃ r, dotOp ov f g = .ok r ∧ r.codim = 1 ∧ r.dom = (if ov.this then g.dom else f.dom) ∧
      ∀ ts z, r.call ts = .ok z ↔
        ∃ x y, f.call ts = .ok x ∧ g.call ts = .ok y ∧ z = List.zipWith (fun a b => [(List.zipWith (· * ·) a b).sum]) x y) := by
  unfold dotOp mkDot
  refine ⟨fun h => ?_, fun h => ?_⟩
  · rw [if_neg h, if_neg (Ne.symm h), ite_self]
  · rw [if_pos h, if_pos h.symm]
    by_cases ht : ov.this = true
    · rw [if_pos ht, if_pos ht]
      refine ⟨_, rfl, rfl, rfl, fun ts z => ?_⟩
      rw [call_mkDot h.symm]
      have e : ∀ x y : Rows, List.zipWith (fun a b : List ℝ => [(List.zipWith (· * ·) a b).sum]) x y =
          List.zipWith (fun a b : List ℝ => [(List.zipWith (· * ·) a b).sum]) y x := by
        intro x y
        rw [List.zipWith_comm]
        congr 1
        funext a b
        rw [List.zipWith_comm]
        congr 3
        funext p q
        exact mul_comm _ _
      constructor
      · rintro ⟨x, y, h1, h2, h3⟩; exact ⟨y, x, h2, h1, by rw [h3, e]⟩
      · rintro ⟨x, y, h1, h2, h3⟩; exact ⟨y, x, h2, h1, by rw [h3, e]⟩
    · rw [if_neg ht, if_neg ht]
      exact ⟨_, rfl, rfl, rfl, fun ts z => call_mkDot h _ ts z⟩

theorem deriv_dot_succ (d : ℝ × ℝ) (a b : Fn) (n : ℕ) : (dot d a b).deriv (n + 1) = iterD1 (n + 1) (dot d a b) := by
  rw [Fn.deriv, iterD1, d1]
  simp only [bind_assoc]

theorem dot_deriv_ok {a b : Fn} (dd : ℝ × ℝ) (ha : Good a) (hb : Good b) (hc : a.codim = b.codim) (hd : sameDomain a b) (n : ℕ) :
    ∃ r', (dot dd a b).deriv n = .ok r' ∧ ∀ t, Smooth a t → Smooth b t →
      r'.call [t] = .ok [[iteratedDeriv n (fun t => ∑ k ∈ Finset.range a.codim, val a k t * val b k t) t]] := by
  have hval := val_dot dd (tot_of_good ha) (tot_of_good hb) hc
  cases n with
  | zero =>
    refine ⟨wrap (dot dd a b), by rw [Fn.deriv], fun t _ _ => ?_⟩
    have := tot_wrap hval.1 t
    rw [this]
    simp only [iteratedDeriv_zero]
    rw [val_wrap, show (dot dd a b).wrap.codim = 1 from rfl]
    simp [hval.2]
  | succ n =>
    obtain ⟨r', h1, h2, h3⟩ := dtree_iterD1 (d := a.dom) (e := b.dom) hd (n + 1) (.dot dd a b ha hb hc (.inl ⟨rfl, rfl⟩))
    refine ⟨r', by rw [deriv_dot_succ]; exact h1, fun t sa sb => ?_⟩
    rw [h2.tot t, h2.codim]
    simp only [List.range_one, List.map_cons, List.map_nil]
    rw [h3 t (.dot _ _ _ _ sa sb), hval.2]

theorem dot_deriv_error {a b : Fn} (dd : ℝ × ℝ) (ha : Good a) (hb : Good b) (hc : a.codim = b.codim) (hd : ¬ sameDomain a b) (n : ℕ) :
    (dot dd a b).deriv (n + 1) = .error .invalidArgument := by
  obtain ⟨a', h1, sa⟩ := d1_step ha
  obtain ⟨b', h2, sb⟩ := d1_step hb
  rw [Fn.deriv, h1]
  change (do let d2 ← b.d1; let y ← firstDerivDot a b a' d2; iterD1 n y) = _
  rw [h2]
  change (do let y ← firstDerivDot a b a' b'; iterD1 n y) = _
  rw [firstDerivDot_error (hc.symm.trans sa.2.2.1.symm) (hc.trans sb.2.2.1.symm) hd]
  rfl

/-- **C08**, derivatives: if the domains agree, `deriv(n)` succeeds for every `n` and evaluates to the `n`-th derivative of the dot product. -/
theorem C08_dot_derivative (f g : Fn) (hf : Regular f) (hg : Regular g) (hc : f.codim = g.codim) (ov : Ov)
    (h1 : |f.dom.1 - g.dom.1| < 1 / 10 ^ 9) (h2 : |f.dom.2 - g.dom.2| < 1 / 10 ^ 9) (n : ℕ) :
    ∃ r r', dotOp ov f g = .ok r ∧ r.deriv n = .ok r' ∧ ∀ t, Smooth f t → Smooth g t →
      r'.call [t] = .ok [[iteratedDeriv n (fun t => ∑ k ∈ Finset.range f.codim, val f k t * val g k t) t]] := by
  have gf := good_wrap (good_of_regular hf).1
  have gg := good_wrap (good_of_regular hg).1
  have hd : sameDomain f.wrap g.wrap := ⟨h1, h2⟩
  unfold dotOp mkDot
  rw [if_pos hc, if_pos hc.symm]
  by_cases ht : ov.this = true
  · rw [if_pos ht]
    obtain ⟨r', e1, e2⟩ := dot_deriv_ok g.dom gg gf hc.symm (sameDomain_symm hd) n
    refine ⟨_, r', rfl, e1, fun t sf sg => ?_⟩
    rw [e2 t (smooth_wrap sg) (smooth_wrap sf)]
    simp only [val_wrap]
    congr 4
    funext t
    rw [show g.wrap.codim = f.codim from hc.symm]
    exact Finset.sum_congr rfl fun k _ => mul_comm _ _
  · rw [if_neg ht]
    obtain ⟨r', e1, e2⟩ := dot_deriv_ok f.dom gf gg hc hd n
    refine ⟨_, r', rfl, e1, fun t sf sg => ?_⟩
    rw [e2 t (smooth_wrap sf) (smooth_wrap sg)]
    simp only [val_wrap]
    rfl

/-- **C08**: deriving a dot product succeeds exactly when the domains agree; otherwise `std::invalid_argument` is thrown. -/
theorem C08_dot_derivative_iff (f g r : Fn) (hf : Regular f) (hg : Regular g) (ov : Ov) (h : dotOp ov f g = .ok r) (n : ℕ) :
    ((∃ r', r.deriv (n + 1) = .ok r') ↔ |f.dom.1 - g.dom.1| < 1 / 10 ^ 9 ∧ |f.dom.2 - g.dom.2| < 1 / 10 ^ 9) ∧
    (¬ (|f.dom.1 - g.dom.1| < 1 / 10 ^ 9 ∧ |f.dom.2 - g.dom.2| < 1 / 10 ^ 9) → r.deriv (n + 1) = .error .invalidArgument) := by
  have hc : f.codim = g.codim := by
    by_contra hne
    rw [(C08_dot_value f g ov).1 hne] at h
    simp at h
  have key : ¬ (|f.dom.1 - g.dom.1| < 1 / 10 ^ 9 ∧ |f.dom.2 - g.dom.2| < 1 / 10 ^ 9) → r.deriv (n + 1) = .error .invalidArgument := by
    intro hd
    have gf := good_wrap (good_of_regular hf).1
    have gg := good_wrap (good_of_regular hg).1
    have hd' : ¬ sameDomain f.wrap g.wrap := hd
    unfold dotOp mkDot at h
    rw [if_pos hc, if_pos hc.symm] at h
    by_cases ht : ov.this = true
    · rw [if_pos ht] at h
      injection h with h
      subst h
      exact dot_deriv_error _ gg gf hc.symm (fun h => hd' (sameDomain_symm h)) n
    · rw [if_neg ht] at h
      injection h with h
      subst h
      exact dot_deriv_error _ gf gg hc hd' n
  refine ⟨⟨?_, fun hd => ?_⟩, key⟩
  · rintro ⟨r', hr⟩
    by_contra hne
    rw [key hne] at hr
    simp at hr
  · obtain ⟨r2, r', e1, e2, -⟩ := C08_dot_derivative f g hf hg hc ov hd.1 hd.2 (n + 1)
    rw [h] at e1
    injection e1 with e1
    exact ⟨r', by rw [e1]; exact e2⟩

/-! ## The hypotheses can be met -/

/-- `sin(exp(t)) * (2 t)`, built by composition and product. -/
noncomputable def exCurve : Fn := expr (0, 1) 1 .mul [expr (0, 1) 1 .comp [expr (0, 1) 1 .unique [exp (0, 1)], expr (0, 1) 1 .unique [sin (0, 1)]], dil (0, 1) 2]

theorem exCurve_regular : Regular exCurve := by
  have hc : compose ⟨false, false⟩ (sin (0, 1)) (exp (0, 1)) =
      .ok (expr (0, 1) 1 .comp [expr (0, 1) 1 .unique [exp (0, 1)], expr (0, 1) 1 .unique [sin (0, 1)]]) := by
    unfold compose
    rw [if_neg (by simp [codim])]
    rfl
  have h1 := Regular.compose ⟨false, false⟩ (.sin (0, 1)) (.exp (0, 1)) hc rfl
  refine .mul (g := dil (0, 1) 2) ⟨false, false⟩ h1 (.dil _ _) rfl ?_
  unfold mul
  rw [if_neg (not_not.mpr (by simp [sameDomain, dom, tol9])), if_neg (by simp [codim])]
  rfl

theorem exCurve_val (t : ℝ) : val exCurve 0 t = Real.sin (Real.exp t) * (2 * t) := by
  have : exCurve.call [t] = .ok [[Real.sin (Real.exp t) * (2 * t)]] := by
    simp [exCurve, call, run, evs, evalTy, evalMul, evalComp, evalUnique, scalarRun, codim, pure, Except.pure, bind, Except.bind]
  rw [val_of_call this]; rfl

theorem exCurve_smooth (t : ℝ) : Smooth exCurve t := by
  refine .mul _ _ _ _ fun a ha => ?_
  simp only [List.mem_cons, List.not_mem_nil, or_false] at ha
  rcases ha with rfl | rfl
  · refine .comp _ _ _ _ fun pre a post h => ?_
    match pre, h with
    | [], h =>
      simp only [List.nil_append, List.cons.injEq] at h
      obtain ⟨rfl, -⟩ := h
      exact smooth_unique (.exp _ _)
    | [b], h =>
      simp only [List.cons_append, List.nil_append, List.cons.injEq] at h
      obtain ⟨-, rfl, -⟩ := h
      exact smooth_unique (.sin _ _)
    | b :: b' :: pre, h =>
      simp at h
  · exact .dil _ _ _

/-- The hypotheses of C06 hold for `sin(exp(t)) * (2 t)` and every order. -/
example (n : ℕ) : ∃ f', exCurve.deriv n = .ok f' ∧ ∀ t, f'.call [t] = .ok [[iteratedDeriv n (fun t => Real.sin (Real.exp t) * (2 * t)) t]] := by
  obtain ⟨f', h1, -, -, h4⟩ := C06_derivative_partial exCurve exCurve_regular n (.mul _ _ _)
  refine ⟨f', h1, fun t => ?_⟩
  rw [h4 t (exCurve_smooth t), show exCurve.codim = 1 from rfl]
  have : val exCurve 0 = fun t => Real.sin (Real.exp t) * (2 * t) := funext exCurve_val
  simp only [List.range_one, List.map_cons, List.map_nil, this]

/-- The hypotheses of C08 hold for this function and the cosine; with the cosine on another domain the derivative throws. -/
example (ov : Ov) (n : ℕ) : (∃ r r', dotOp ov exCurve (cos (0, 1)) = .ok r ∧ r.deriv n = .ok r' ∧ ∀ t,
      r'.call [t] = .ok [[iteratedDeriv n (fun t => Real.sin (Real.exp t) * (2 * t) * Real.cos t) t]]) ∧
    ∃ r, dotOp ov exCurve (cos (0, 2)) = .ok r ∧ r.deriv (n + 1) = .error .invalidArgument := by
  constructor
  · obtain ⟨r, r', h1, h2, h3⟩ := C08_dot_derivative exCurve (cos (0, 1)) exCurve_regular (.cos _) rfl ov (by simp [exCurve, dom]) (by simp [exCurve, dom]) n
    refine ⟨r, r', h1, h2, fun t => ?_⟩
    rw [h3 t (exCurve_smooth t) (.cos _ _), show exCurve.codim = 1 from rfl]
    have : (fun t => ∑ k ∈ Finset.range 1, val exCurve k t * val (cos (0, 1)) k t) = fun t => Real.sin (Real.exp t) * (2 * t) * Real.cos t := by
      funext t
      rw [Finset.sum_range_one, exCurve_val, (val_cos _).2]
    rw [this]
  · obtain ⟨r, hr, -⟩ := (C08_dot_value exCurve (cos (0, 2)) ov).2 rfl
    exact ⟨r, hr, (C08_dot_derivative_iff _ _ r exCurve_regular (.cos _) ov hr n).2 (by simp [exCurve, dom]; norm_num)⟩

end GSplines.Props
