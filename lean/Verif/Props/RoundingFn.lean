import Verif.Proofs.RoundingFnExact
import Verif.Proofs.FnRegular

/-!
# C93: function expressions in floating point arithmetic

`Rounded.call u f ts o` says that `f(ts)` may end with `o` when each operation on doubles has a relative error of at most `u.1` plus an absolute error of at most `u.2`.
An outcome is a matrix (the list of its rows, one for each point) or an error. `val f k t` is component `k` of the value of `f` at `t` in exact arithmetic.
-/

namespace GSplines.Props

open GSplines Spec Fn Topology

theorem call_out {u : ℝ × ℝ} {f : Fn} {P : ℝ → List ℝ → Prop} : ∀ {ts : List ℝ}, (∀ t ∈ ts, Nd.All (Rounded.row u f f.codim t) fun r => ∃ v, r = .ok v ∧ P t v) →
    ∀ o, Rounded.call u f ts o → ∃ m, o = .ok m ∧ List.Forall₂ P ts m := fun h o ho => Nd.All.mapM h o ho

/-- **C93.** Whatever the rounding errors, the evaluation of an expression reads and writes nothing out of range, and if it does not throw then the matrix has one row for
each point and one column for each component. -/
theorem C93_in_range (u : ℝ × ℝ) (f : Fn) (hg : Good f) (ts : List ℝ) (o : Res Rows) (ho : Rounded.call u f ts o) :
    o ≠ .error .ub ∧ ∀ m, o = .ok m → m.length = ts.length ∧ ∀ v ∈ m, v.length = f.codim := by
  induction ts generalizing o with
  | nil =>
    have : o = .ok [] := ho
    subst this
    exact ⟨by simp, fun m hm => by cases hm; simp⟩
  | cons t ts ih =>
    unfold Rounded.call at ho ih
    rw [List.mapM_cons] at ho
    rcases ho with ⟨e, he, rfl⟩ | ⟨v, hv, ho⟩
    · exact ⟨fun h => (Rounded.row_fit u hg t _ he).1 (by cases h; rfl), fun m hm => by cases hm⟩
    rcases ho with ⟨e, he, rfl⟩ | ⟨m', hm', ho⟩
    · exact ⟨fun h => (ih _ he).1 (by cases h; rfl), fun m hm => by cases hm⟩
    have : o = .ok (v :: m') := ho
    subst this
    refine ⟨by simp, fun m hm => ?_⟩
    cases hm
    obtain ⟨h1, h2⟩ := (ih _ hm').2 m' rfl
    refine ⟨by simp [h1], fun w hw => ?_⟩
    rcases List.mem_cons.mp hw with rfl | hw
    · exact (Rounded.row_fit u hg t _ hv).2 w rfl
    · exact h2 w hw

/-- **C93.** The result of exact arithmetic is one of the possible results. -/
theorem C93_exact (u : ℝ × ℝ) (h1 : 0 ≤ u.1) (h2 : 0 ≤ u.2) (f : Fn) (hg : Good f) (ts : List ℝ) :
    Rounded.call u f ts (.ok (ts.map fun t => (List.range f.codim).map fun k => val f k t)) ∧ ∀ t, f.call [t] = .ok [(List.range f.codim).map fun k => val f k t] :=
  ⟨Rounded.Has.mapM fun t _ => Rounded.row_has h1 h2 hg t, tot_of_good hg⟩

/-- **C93.** If the errors are small enough, then at all points of a bounded closed set on which the function does not jump, however many of them are evaluated, the evaluation succeeds and every
component is as near as wanted to the exact value. -/
theorem C93_uniform (f : Fn) (hg : Good f) (K : Set ℝ) (hK : IsCompact K) (hs : ∀ t ∈ K, Steady f t) (ε : ℝ) (hε : 0 < ε) :
    ∃ δ > 0, ∀ u, Small u δ → ∀ ts : List ℝ, (∀ t ∈ ts, t ∈ K) → ∀ o, Rounded.call u f ts o →
      ∃ m, o = .ok m ∧ List.Forall₂ (fun t v => v.length = f.codim ∧ ∀ k < f.codim, |vecOf v k - val f k t| ≤ ε) ts m := by
  obtain ⟨δ, hδ, h⟩ := Rounded.cv_uniform hg hK hs hε
  exact ⟨δ, hδ, fun u hu ts hts => call_out fun t ht => h u hu t (hts t ht) t (by simpa using hδ.le)⟩

/-- **C93.** The same if the points themselves carry errors: a point within `δ` of `t` gives a value within `ε` of the one at `t`. -/
theorem C93_inexact_points (f : Fn) (hg : Good f) (K : Set ℝ) (hK : IsCompact K) (hs : ∀ t ∈ K, Steady f t) (ε : ℝ) (hε : 0 < ε) :
    ∃ δ > 0, ∀ u, Small u δ → ∀ t ∈ K, ∀ t', |t' - t| ≤ δ → ∀ o, Rounded.call u f [t'] o →
      ∃ v, o = .ok [v] ∧ v.length = f.codim ∧ ∀ k < f.codim, |vecOf v k - val f k t| ≤ ε := by
  obtain ⟨δ, hδ, h⟩ := Rounded.cv_uniform hg hK hs hε
  refine ⟨δ, hδ, fun u hu t ht t' ht' o ho => ?_⟩
  obtain ⟨m, e, hm⟩ := call_out (u := u) (f := f) (ts := [t']) (P := fun _ v => v.length = f.codim ∧ ∀ k < f.codim, |vecOf v k - val f k t| ≤ ε)
    (fun s hs' => by rw [List.mem_singleton] at hs'; subst hs'; exact h u hu t ht s ht') o ho
  cases hm with
  | cons hv hm => cases hm; exact ⟨_, e, hv⟩

/-- **C93.** Where `Steady` holds the function of exact arithmetic is continuous. -/
theorem C93_continuous (f : Fn) (hg : Good f) (t : ℝ) (hs : Steady f t) (k : ℕ) (hk : k < f.codim) : ContinuousAt (val f k) t :=
  Rounded.steady_continuousAt hg hs hk

/-! ## Cases -/

/-- `t` on `[0, 1]` and `2 - t` on `[1, 2]`. -/
noncomputable def tent : Fn := .expr (0, 2) 1 .concat [.ident (0, 1), .poly (1, 2) [2, -1]]

/-- The product with the exponential function, a function that is built from a concatenation. -/
noncomputable def tentExp : Fn := .expr (0, 2) 1 .mul [tent, .exp (0, 2)]

theorem tent_good : Good tent := by
  refine .expr _ _ _ _ (fun a ha => ?_) ⟨?_, fun a ha => ?_⟩
  · simp only [List.mem_cons, List.not_mem_nil, or_false] at ha
    rcases ha with rfl | rfl
    · exact .ident _
    · exact .poly _ _ (by simp)
  · exact ⟨rfl, by norm_num [dom], rfl, by norm_num [dom]⟩
  · simp only [List.mem_cons, List.not_mem_nil, or_false] at ha
    rcases ha with rfl | rfl <;> rfl

theorem tentExp_good : Good tentExp := by
  refine .expr _ _ _ _ (fun a ha => ?_) ⟨tent, [.exp (0, 2)], rfl, rfl, rfl, by simp [codim]⟩
  simp only [List.mem_cons, List.not_mem_nil, or_false] at ha
  rcases ha with rfl | rfl
  · exact tent_good
  · exact .exp _

theorem tent_steady (t : ℝ) : Steady tent t := by
  refine .concat _ _ _ _ (fun a ha _ _ => ?_) fun a ha b hb h1 h2 k hk => ?_
  · simp only [List.mem_cons, List.not_mem_nil, or_false] at ha
    rcases ha with rfl | rfl
    · exact .ident _ _
    · exact .poly _ _ _
  · have hk0 : k = 0 := by omega
    subst hk0
    simp only [List.mem_cons, List.not_mem_nil, or_false] at ha hb
    rcases ha with rfl | rfl <;> rcases hb with rfl | rfl
    · rfl
    · have h1 : 1 = clamp (0, 2) t := h1
      rw [← h1, (val_ident _).2, (val_poly _ (by simp)).2]
      norm_num [Fn.horner]
    · have h1 : 2 = clamp (0, 2) t := h1
      have h2 : 0 = clamp (0, 2) t := h2
      rw [← h1] at h2; norm_num at h2
    · rfl

theorem tentExp_steady (t : ℝ) : Steady tentExp t := by
  refine .mul _ _ _ _ fun a ha => ?_
  simp only [List.mem_cons, List.not_mem_nil, or_false] at ha
  rcases ha with rfl | rfl
  · exact tent_steady t
  · exact .exp _ _

/-- The hypotheses hold for the product of a concatenation with a function, on the whole domain. -/
example (ε : ℝ) (hε : 0 < ε) : ∃ δ > 0, ∀ u, Small u δ → ∀ ts : List ℝ, (∀ t ∈ ts, t ∈ Set.Icc (0 : ℝ) 2) → ∀ o, Rounded.call u tentExp ts o →
    ∃ m, o = .ok m ∧ List.Forall₂ (fun t v => v.length = 1 ∧ ∀ k < 1, |vecOf v k - val tentExp k t| ≤ ε) ts m :=
  C93_uniform tentExp tentExp_good _ isCompact_Icc (fun t _ => tentExp_steady t) ε hε

example : ContinuousAt (val tentExp 0) 1 := C93_continuous tentExp tentExp_good 1 (tentExp_steady 1) 0 Nat.one_pos

/-- Objects built with the public interface satisfy the hypothesis. -/
example (f : Fn) (h : Regular f) : Good f := (good_of_regular h).1

/-- A step from 0 to 1 at time 1, as a concatenation, applied to the time multiplied by one. -/
noncomputable def stepDil : Fn := .expr (0, 2) 1 .comp [.dil (0, 2) 1, .expr (0, 2) 1 .concat [.const (0, 1) [0], .const (1, 2) [1]]]

theorem stepDil_good : Good stepDil := by
  have h : Good (.expr (0, 2) 1 .concat [.const (0, 1) [0], .const (1, 2) [1]]) := by
    refine .expr _ _ _ _ (fun a ha => ?_) ⟨⟨rfl, by norm_num [dom], rfl, by norm_num [dom]⟩, fun a ha => ?_⟩
    · simp only [List.mem_cons, List.not_mem_nil, or_false] at ha
      rcases ha with rfl | rfl <;> exact .const _ _
    · simp only [List.mem_cons, List.not_mem_nil, or_false] at ha
      rcases ha with rfl | rfl <;> rfl
  refine .expr _ _ _ _ (fun a ha => ?_) ⟨⟨_, _, rfl, rfl⟩, [.dil (0, 2) 1], _, rfl, rfl, by simp [codim]⟩
  simp only [List.mem_cons, List.not_mem_nil, or_false] at ha
  rcases ha with rfl | rfl
  · exact .dil _ _
  · exact h

/-- Where a function jumps the result does not converge to the exact one: the argument of the step is rounded, and then the other piece is taken. -/
theorem C93_jump_false (u : ℝ × ℝ) (h1 : 0 < u.1) (h2 : 0 ≤ u.2) : stepDil.call [1] = .ok [[1]] ∧ Rounded.call u stepDil [1] (.ok [[0]]) := by
  have hp : Pieces [Fn.const (0, 1) [0], Fn.const (1, 2) [1]] (0, 2).1 (0, 2).2 := ⟨rfl, by norm_num [dom], rfl, by norm_num [dom]⟩
  have hc : ∀ a ∈ [Fn.const (0, 1) [0], Fn.const (1, 2) [1]], a.codim = 1 := by
    intro a ha
    simp only [List.mem_cons, List.not_mem_nil, or_false] at ha
    rcases ha with rfl | rfl <;> rfl
  constructor
  · have hs : search [Fn.const (0, 1) [0], Fn.const (1, 2) [1]] 1 = some (Fn.const (1, 2) [1]).ev := by
      rw [search_cons, if_neg (by norm_num [dom]), search_cons, if_pos (by norm_num [dom])]
    have e1 : (Fn.expr (0, 2) 1 .concat [.const (0, 1) [0], .const (1, 2) [1]]).run 1 [1] = .ok [[1]] := by
      rw [run_expr]
      change Fn.evalConcat (List.map ev [Fn.const (0, 1) [0], Fn.const (1, 2) [1]]) 1 [1] = .ok [[1]]
      rw [evalConcat_single (by simp) hc, pickRun_some hs]
      change (Fn.const (1, 2) [1]).run 1 [1] = _
      rw [run, if_pos (by rfl)]
      rfl
    have e2 : (Fn.dil (0, 2) 1).run 1 [1] = .ok [[1]] := by
      rw [run]
      simp [scalarRun]
    rw [Fn.call, stepDil, run_expr]
    change (do let temp ← (Fn.dil (0, 2) 1).run 1 [1]; (Fn.expr (0, 2) 1 .concat [.const (0, 1) [0], .const (1, 2) [1]]).run 1 (temp.map fun r : List ℝ => r.headD 0)) = _
    rw [e2]
    exact e1
  · set x : ℝ := 1 - min u.1 (1 / 2) with hx
    have hm0 : 0 < min u.1 (1 / 2) := lt_min h1 (by norm_num)
    have hm1 : min u.1 (1 / 2) ≤ 1 / 2 := min_le_right _ _
    have e2 : Rounded.Has (Rounded.row u (Fn.dil (0, 2) 1) 1 1) [x] := by
      rw [Rounded.row]
      refine Rounded.has_scalar ⟨x, rfl, ?_⟩
      rw [hx]
      have : min u.1 (1 / 2) ≤ u.1 := min_le_left _ _
      rw [show 1 - min u.1 (1 / 2) - 1 * 1 = -min u.1 (1 / 2) by ring, abs_neg, abs_of_pos hm0]
      rw [mul_one, abs_one, mul_one]
      linarith
    have e1 : Rounded.Has (Rounded.row u (Fn.expr (0, 2) 1 .concat [.const (0, 1) [0], .const (1, 2) [1]]) 1 x) [0] := by
      obtain ⟨a, ha, a1, a2, -, a4⟩ := Rounded.evalConcat_pick (d := (0, 2)) hc hp x
      have hcl : clamp ((0 : ℝ), (2 : ℝ)) x = x := by unfold clamp; rw [min_eq_right (by simp; linarith), max_eq_right (by simp; linarith)]
      rw [hcl] at a1 a2 a4
      rw [Rounded.row_expr, Rounded.evalTy, a4]
      simp only [List.mem_cons, List.not_mem_nil, or_false] at ha
      rcases ha with rfl | rfl
      · rw [Rounded.row, if_pos (by rfl)]
        exact Rounded.has_mapNear h1.le h2 [0]
      · have a1 : (1 : ℝ) ≤ x := a1
        linarith
    unfold Rounded.call
    refine Rounded.Has.mapM (g := fun _ => [(0 : ℝ)]) fun t ht => ?_
    rw [List.mem_singleton] at ht
    subst ht
    rw [stepDil, Rounded.row_expr]
    exact Rounded.Has.bind e2 e1

end GSplines.Props
