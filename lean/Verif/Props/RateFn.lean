import Verif.Proofs.RateFn
import Verif.Props.RoundingFn
import Verif.Props.Rate

/-!
# C99: rounding changes the values of function expressions in proportion to the rounding errors

As in C93, `Rounded.call u f ts o` says that `f(ts)` may end with `o` when each operation has a relative error of at most `u.1` plus an absolute error of at most `u.2`, and
`val f k t` is component `k` of the value of `f` at `t` in exact arithmetic.
-/

namespace GSplines.Props

open GSplines Spec Fn Nd

theorem rv_uniform {f : Fn} (hg : Good f) {K : Set ℝ} (hK : IsCompact K) (hs : ∀ t ∈ K, Calm f t) :
    ∃ C ≥ (0 : ℝ), ∃ δ > (0 : ℝ), ∀ t ∈ K, ∀ u, Small u δ → ∀ t', |t' - t| ≤ δ → All (Rounded.row u f f.codim t') fun r =>
      ∃ v, r = .ok v ∧ v.length = f.codim ∧ ∀ k < f.codim, |vecOf v k - val f k t| ≤ C * (u.1 + u.2 + |t' - t|) := by
  refine hK.induction_on (p := fun S => ∃ C ≥ (0 : ℝ), ∃ δ > (0 : ℝ), ∀ t ∈ S, ∀ u, Small u δ → ∀ t', |t' - t| ≤ δ → All (Rounded.row u f f.codim t') fun r =>
      ∃ v, r = .ok v ∧ v.length = f.codim ∧ ∀ k < f.codim, |vecOf v k - val f k t| ≤ C * (u.1 + u.2 + |t' - t|)) ?_ ?_ ?_ ?_
  · exact ⟨0, le_rfl, 1, one_pos, fun t ht => absurd ht (Set.notMem_empty t)⟩
  · rintro S T hST ⟨C, hC, δ, hδ, h⟩
    exact ⟨C, hC, δ, hδ, fun t ht => h t (hST ht)⟩
  · rintro S T ⟨C, hC, δ, hδ, h⟩ ⟨D, hD, η, hη, h'⟩
    refine ⟨max C D, le_max_of_le_left hC, min δ η, lt_min hδ hη, fun t ht u hu t' ht' r hr => ?_⟩
    have hn : 0 ≤ u.1 + u.2 + |t' - t| := add_nonneg (sz_nonneg hu) (abs_nonneg _)
    rcases ht with ht | ht
    · obtain ⟨v, a1, a2, a3⟩ := h t ht u (Nd.small_mono (min_le_left _ _) hu) t' (ht'.trans (min_le_left _ _)) r hr
      exact ⟨v, a1, a2, fun k hk => (a3 k hk).trans (mul_le_mul_of_nonneg_right (le_max_left _ _) hn)⟩
    · obtain ⟨v, a1, a2, a3⟩ := h' t ht u (Nd.small_mono (min_le_right _ _) hu) t' (ht'.trans (min_le_right _ _)) r hr
      exact ⟨v, a1, a2, fun k hk => (a3 k hk).trans (mul_le_mul_of_nonneg_right (le_max_right _ _) hn)⟩
  · intro t₀ ht₀
    obtain ⟨C, hC, δ, hδ, h⟩ := Rounded.rv_of_good hg (hs t₀ ht₀)
    have hδ2 := half_pos hδ
    refine ⟨Metric.closedBall t₀ (δ / 2), mem_nhdsWithin_of_mem_nhds (Metric.closedBall_mem_nhds t₀ hδ2), C, hC, δ / 2, hδ2, fun t ht u hu t' ht' r hr => ?_⟩
    rw [Metric.mem_closedBall, Real.dist_eq] at ht
    have n1 : |t - t₀| ≤ δ := by linarith
    have n2 : |t' - t₀| ≤ δ := by have := abs_sub_le t' t t₀; linarith
    obtain ⟨h1, h2⟩ := h u (Nd.small_mono (by linarith) hu) t' r hr
    obtain ⟨v, e, hv⟩ := h1 _ (abs_nonneg _) n2 (le_refl |t' - t₀|)
    have h0 : Small (0 : ℝ × ℝ) δ := ⟨le_rfl, hδ.le, le_rfl, hδ.le⟩
    have hex := Rounded.row_has (u := 0) le_rfl le_rfl hg t
    have hcl := h2 0 t v _ h0 n2 n1 |t' - t| (abs_nonneg _) (le_refl |t' - t|) e hex
    have hl : v.length = f.codim := by
      have := close_length hv
      rwa [Rounded.length_vals] at this
    have e0 : sz (0 : ℝ × ℝ) = 0 := by simp [sz]
    refine ⟨v, e, hl, fun k hk => ?_⟩
    have := close_vecOf (mul_nonneg hC (by rw [e0]; exact add_nonneg (add_nonneg (sz_nonneg hu) le_rfl) (abs_nonneg _))) hcl k
    rw [Rounded.vecOf_vals hk, e0, add_zero] at this
    exact this

/-- **C99.** On a bounded closed set on which the function does not jump there are one constant and one bound: for errors below the bound, at all points of the set, however
many of them are evaluated, the evaluation succeeds and every component is off the exact value by at most the constant times the size of the errors. -/
theorem C99_uniform (f : Fn) (hg : Good f) (K : Set ℝ) (hK : IsCompact K) (hs : ∀ t ∈ K, Calm f t) :
    ∃ C δ, 0 < δ ∧ ∀ u, Small u δ → ∀ ts : List ℝ, (∀ t ∈ ts, t ∈ K) → ∀ o, Rounded.call u f ts o →
      ∃ m, o = .ok m ∧ List.Forall₂ (fun t v => v.length = f.codim ∧ ∀ k < f.codim, |vecOf v k - val f k t| ≤ C * (u.1 + u.2)) ts m := by
  obtain ⟨C, -, δ, hδ, h⟩ := rv_uniform hg hK hs
  refine ⟨C, δ, hδ, fun u hu ts hts => call_out fun t ht r hr => ?_⟩
  obtain ⟨v, e, hl, hv⟩ := h t (hts t ht) u hu t (by simpa using hδ.le) r hr
  exact ⟨v, e, hl, fun k hk => by simpa using hv k hk⟩

/-- **C99.** The same if the points themselves carry errors: the error of the value is at most the constant times the size of the errors plus the error of the point. -/
theorem C99_inexact_points (f : Fn) (hg : Good f) (K : Set ℝ) (hK : IsCompact K) (hs : ∀ t ∈ K, Calm f t) :
    ∃ C δ, 0 < δ ∧ ∀ u, Small u δ → ∀ t ∈ K, ∀ t', |t' - t| ≤ δ → ∀ o, Rounded.call u f [t'] o →
      ∃ v, o = .ok [v] ∧ v.length = f.codim ∧ ∀ k < f.codim, |vecOf v k - val f k t| ≤ C * (u.1 + u.2 + |t' - t|) := by
  obtain ⟨C, -, δ, hδ, h⟩ := rv_uniform hg hK hs
  refine ⟨C, δ, hδ, fun u hu t ht t' ht' o ho => ?_⟩
  obtain ⟨m, e, hm⟩ := call_out (u := u) (f := f) (ts := [t']) (P := fun _ v => v.length = f.codim ∧ ∀ k < f.codim, |vecOf v k - val f k t| ≤ C * (u.1 + u.2 + |t' - t|))
    (fun s hs' => by rw [List.mem_singleton] at hs'; subst hs'; exact h t ht u hu s ht') o ho
  cases hm with
  | cons hv hm => cases hm; exact ⟨_, e, hv⟩

/-- **C99.** In exact arithmetic the function is Lipschitz on a bounded interval where `Calm` holds. -/
theorem C99_lipschitz (f : Fn) (hg : Good f) (a b : ℝ) (hs : ∀ t ∈ Set.Icc a b, Calm f t) (k : ℕ) (hk : k < f.codim) :
    ∃ L, ∀ t ∈ Set.Icc a b, ∀ t' ∈ Set.Icc a b, |val f k t' - val f k t| ≤ L * |t' - t| := by
  obtain ⟨C, hC, δ, hδ, h⟩ := rv_uniform hg isCompact_Icc hs
  have loc : ∀ t ∈ Set.Icc a b, ∀ t', |t' - t| ≤ δ → |val f k t' - val f k t| ≤ C * |t' - t| := by
    intro t ht t' ht'
    obtain ⟨v, e, -, hv⟩ := h t ht 0 ⟨le_rfl, hδ.le, le_rfl, hδ.le⟩ t' ht' _ (Rounded.row_has le_rfl le_rfl hg t')
    cases e
    have := hv k hk
    rw [Rounded.vecOf_vals hk] at this
    simpa using this
  have hcont : ContinuousOn (val f k) (Set.Icc a b) := by
    intro t ht
    rw [Metric.continuousWithinAt_iff]
    intro ε hε
    refine ⟨min δ (ε / (C + 1)), lt_min hδ (by positivity), fun {x} _ hx => ?_⟩
    rw [Real.dist_eq] at hx ⊢
    have h1 := loc t ht x (hx.le.trans (min_le_left _ _))
    have h2 : |x - t| < ε / (C + 1) := lt_of_lt_of_le hx (min_le_right _ _)
    rw [lt_div_iff₀ (by positivity)] at h2
    nlinarith [abs_nonneg (x - t)]
  obtain ⟨M, hM⟩ := isCompact_Icc.exists_bound_of_continuousOn hcont
  refine ⟨C + 2 * |M| / δ, fun t ht t' ht' => ?_⟩
  have hMδ : 0 ≤ 2 * |M| / δ := by positivity
  by_cases hd : |t' - t| ≤ δ
  · refine (loc t ht t' hd).trans (mul_le_mul_of_nonneg_right (by linarith) (abs_nonneg _))
  · rw [not_le] at hd
    have h1 : |val f k t'| ≤ |M| := (hM t' ht').trans (le_abs_self M)
    have h2 : |val f k t| ≤ |M| := (hM t ht).trans (le_abs_self M)
    have h3 : |val f k t' - val f k t| ≤ 2 * |M| := by have := abs_sub (val f k t') (val f k t); linarith
    have h4 : 2 * |M| = 2 * |M| / δ * δ := by field_simp
    have h5 : 2 * |M| / δ * δ ≤ 2 * |M| / δ * |t' - t| := mul_le_mul_of_nonneg_left hd.le hMδ
    have h6 : 0 ≤ C * |t' - t| := mul_nonneg hC (abs_nonneg _)
    rw [add_mul]
    linarith

theorem steady_of_calm {f : Fn} {t : ℝ} (h : Calm f t) : Steady f t := by
  induction h with
  | const d v t => exact .const d v t
  | dil d c t => exact .dil d c t
  | ident d t => exact .ident d t
  | exp d t => exact .exp d t
  | cos d t => exact .cos d t
  | sin d t => exact .sin d t
  | poly d a t => exact .poly d a t
  | user d c F t h =>
    refine .user d c F t fun k hk => ?_
    obtain ⟨L, δ, hδ, h⟩ := h k hk
    rw [Metric.continuousAt_iff]
    intro ε hε
    refine ⟨min δ (ε / (|L| + 1)), lt_min hδ (by positivity), fun {x} hx => ?_⟩
    rw [Real.dist_eq] at hx ⊢
    have h1 := h x t (hx.le.trans (min_le_left _ _)) (by simpa using hδ.le)
    have h2 : |x - t| < ε / (|L| + 1) := lt_of_lt_of_le hx (min_le_right _ _)
    rw [lt_div_iff₀ (by positivity)] at h2
    have h3 := mul_le_mul_of_nonneg_right (le_abs_self L) (abs_nonneg (x - t))
    nlinarith [abs_nonneg (x - t)]
  | gspl g t h1 h2 => exact .gspl g t h1 h2
  | dot d f g t _ _ h1 h2 => exact .dot d f g t h1 h2
  | sum d c args t _ h => exact .sum d c args t h
  | mul d c args t _ h => exact .mul d c args t h
  | comp d c args t _ h => exact .comp d c args t h
  | concat d c args t _ hj h => exact .concat d c args t h hj
  | unique d c args t _ h => exact .unique d c args t h
  | neg d c args t _ h => exact .neg d c args t h

/-! ## Cases -/

theorem tent_calm (t : ℝ) : Calm tent t := by
  have h := tent_steady t
  cases h with
  | concat _ _ _ _ _ hj =>
    refine .concat _ _ _ _ (fun a ha _ _ => ?_) hj
    simp only [List.mem_cons, List.not_mem_nil, or_false] at ha
    rcases ha with rfl | rfl
    · exact .ident _ _
    · exact .poly _ _ _

theorem tentExp_calm (t : ℝ) : Calm tentExp t := by
  refine .mul _ _ _ _ fun a ha => ?_
  simp only [List.mem_cons, List.not_mem_nil, or_false] at ha
  rcases ha with rfl | rfl
  · exact tent_calm t
  · exact .exp _ _

/-- The hypotheses hold for the product of a concatenation with a function, on the whole domain. -/
example : ∃ C δ, 0 < δ ∧ ∀ u, Small u δ → ∀ ts : List ℝ, (∀ t ∈ ts, t ∈ Set.Icc (0 : ℝ) 2) → ∀ o, Rounded.call u tentExp ts o →
    ∃ m, o = .ok m ∧ List.Forall₂ (fun t v => v.length = 1 ∧ ∀ k < 1, |vecOf v k - val tentExp k t| ≤ C * (u.1 + u.2)) ts m :=
  C99_uniform tentExp tentExp_good _ isCompact_Icc fun t _ => tentExp_calm t

/-- A spline with a breakpoint inside the interval, composed with a function. -/
noncomputable def lineSin : Fn := .expr (0, 2) 1 .comp [.sin (0, 2), .gspl line]

theorem line_calm (t : ℝ) : Calm (.gspl line) t := by
  have hp : Positive line := ⟨by simp [line], by simp [line]⟩
  have hj : Unbroken line := by
    intro i hi c hc
    have hi0 : i = 0 := by simp [line] at hi; omega
    have hc0 : c = 0 := by simpa [line] using hc
    subst hi0 hc0
    simp [curve, piece, comb, line, Basis.dim, vecOf, Finset.sum_range_succ, basisFn, window, brk, LegendrePoly.legendre_zero, LegendrePoly.legendre_one]
    norm_num
  exact .gspl _ _ (fun _ _ => trivial) fun i j hi hj' c hc => touches_agree hp hj hi hj' hc

theorem lineSin_good : Good lineSin := by
  refine .expr _ _ _ _ (fun a ha => ?_) ⟨⟨_, _, rfl, rfl⟩, [.sin (0, 2)], _, rfl, rfl, by simp [codim]⟩
  simp only [List.mem_cons, List.not_mem_nil, or_false] at ha
  rcases ha with rfl | rfl
  · exact .sin _
  · exact .gspl _ (show 2 ≤ 2 from le_rfl) (by simp [Consistent, line, Basis.dim]) ⟨by simp [line], by simp [line]⟩ (by simp [line])

theorem lineSin_calm (t : ℝ) : Calm lineSin t := by
  refine .comp _ _ _ _ fun pre a post e => ?_
  match pre, e with
  | [], e => cases e; exact .sin _ _
  | [_], e => cases e; exact line_calm _
  | _ :: _ :: pre, e =>
    have := congrArg List.length e
    simp at this

example : ∃ C δ, 0 < δ ∧ ∀ u, Small u δ → ∀ t ∈ Set.Icc (0 : ℝ) 2, ∀ t', |t' - t| ≤ δ → ∀ o, Rounded.call u lineSin [t'] o →
    ∃ v, o = .ok [v] ∧ v.length = 1 ∧ ∀ k < 1, |vecOf v k - val lineSin k t| ≤ C * (u.1 + u.2 + |t' - t|) :=
  C99_inexact_points lineSin lineSin_good _ isCompact_Icc fun t _ => lineSin_calm t

example : ∃ L, ∀ t ∈ Set.Icc (0 : ℝ) 2, ∀ t' ∈ Set.Icc (0 : ℝ) 2, |val lineSin 0 t' - val lineSin 0 t| ≤ L * |t' - t| :=
  C99_lipschitz lineSin lineSin_good 0 2 (fun t _ => lineSin_calm t) 0 Nat.one_pos

/-- The square root of a product, where the root is a function of a user. -/
noncomputable def rootDil : Fn := .expr (0, 1) 1 .comp [.dil (0, 1) 1, .user (0, 1) 1 fun _ t _ => √t]

/-- Where a function of a user is continuous but not Lipschitz, the error is not proportional to the rounding errors: whatever the constant, there are arbitrarily small errors
for which the result may be off by more. -/
theorem C99_root_false (C δ : ℝ) (hδ : 0 < δ) : Steady rootDil 0 ∧ rootDil.call [0] = .ok [[0]] ∧
    ∃ u, Small u δ ∧ ∃ y, Rounded.call u rootDil [0] (.ok [[y]]) ∧ C * (u.1 + u.2) < |y - 0| := by
  refine ⟨.comp _ _ _ _ fun pre a post e => ?_, ?_, ?_⟩
  · match pre, e with
    | [], e => cases e; exact .dil _ _ _
    | [_], e => cases e; exact .user _ _ _ _ fun k _ => Real.continuous_sqrt.continuousAt
    | _ :: _ :: pre, e =>
      have := congrArg List.length e
      simp at this
  · rw [Fn.call, rootDil, run_expr]
    have e2 : (Fn.dil (0, 1) 1).run 1 [0] = .ok [[0]] := by
      rw [run]
      simp [scalarRun]
    change (do let temp ← (Fn.dil (0, 1) 1).run 1 [0]; (Fn.user (0, 1) 1 fun _ t _ => √t).run 1 (temp.map fun r : List ℝ => r.headD 0)) = _
    rw [e2]
    change (Fn.user (0, 1) 1 fun _ t _ => √t).run 1 [0] = _
    rw [run, if_pos (by rfl)]
    simp
  · set e : ℝ := min δ (1 / (C ^ 2 + 1)) with he
    have he0 : 0 < e := lt_min hδ (by positivity)
    have he1 : C ^ 2 * e < 1 := by
      have : e ≤ 1 / (C ^ 2 + 1) := min_le_right _ _
      rw [le_div_iff₀ (by positivity)] at this
      nlinarith
    refine ⟨(0, e), ⟨le_rfl, hδ.le, he0.le, min_le_left _ _⟩, √e, ?_, ?_⟩
    · unfold Rounded.call
      refine Rounded.Has.mapM (g := fun _ => [√e]) fun t ht => ?_
      rw [List.mem_singleton] at ht
      subst ht
      have e2 : Rounded.Has (Rounded.row (0, e) (Fn.dil (0, 1) 1) 1 0) [e] := by
        rw [Rounded.row]
        refine Rounded.has_scalar ⟨e, rfl, ?_⟩
        simp [abs_of_pos he0]
      have e1 : Rounded.Has (Rounded.row (0, e) (Fn.user (0, 1) 1 fun _ t _ => √t) 1 e) [√e] := by
        rw [Rounded.row, if_pos (by rfl)]
        exact Rounded.has_mapNear le_rfl he0.le [√e]
      rw [rootDil, Rounded.row_expr]
      exact Rounded.Has.bind e2 e1
    · have hs := Real.sqrt_pos.mpr he0
      have hq := Real.sq_sqrt he0.le
      rw [sub_zero, abs_of_pos hs, zero_add]
      by_contra hn
      rw [not_lt] at hn
      have h1 : √e * 1 ≤ √e * (C * √e) := by nlinarith
      have h2 : 1 ≤ C * √e := le_of_mul_le_mul_left h1 hs
      nlinarith

end GSplines.Props
