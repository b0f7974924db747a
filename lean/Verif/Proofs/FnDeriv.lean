import Verif.Proofs.FnVal
import Mathlib.Analysis.SpecialFunctions.Trigonometric.Deriv
import Mathlib.Analysis.SpecialFunctions.ExpDeriv
import Mathlib.Analysis.Calculus.Deriv.Comp

/-!
# One derivation step of a function object
-/

namespace GSplines.Fn

open GSplines Spec Filter Topology

/-- `f'` is a derivative of `f`. -/
def Step (f f' : Fn) : Prop :=
  Good f' ∧ f'.dom = f.dom ∧ f'.codim = f.codim ∧ ∀ t, Smooth f t → Smooth f' t ∧ ∀ k < f.codim, HasDerivAt (val f k) (val f' k t) t

theorem exists_mapM {α β : Type} {f : α → Res β} {R : α → β → Prop} : ∀ {l : List α}, (∀ a ∈ l, ∃ b, f a = .ok b ∧ R a b) →
    ∃ r, l.mapM f = .ok r ∧ List.Forall₂ R l r := by
  intro l
  induction l with
  | nil => intro _; exact ⟨[], rfl, .nil⟩
  | cons a l ih =>
    intro h
    obtain ⟨b, hb, hR⟩ := h a (by simp)
    obtain ⟨r, hr, hF⟩ := ih fun x hx => h x (by simp [hx])
    refine ⟨b :: r, ?_, .cons hR hF⟩
    rw [List.mapM_cons, hb, hr]; rfl

theorem good_clone {f : Fn} (h : Good f) : Good f.clone := by
  cases f <;> first | exact h | exact .dil _ _

theorem smooth_clone {f : Fn} {t : ℝ} (h : Smooth f t) : Smooth f.clone t := by
  cases f <;> first | exact h | exact .dil _ _ _

theorem good_wrap {f : Fn} (h : Good f) : Good f.wrap :=
  .expr _ _ _ _ (by simpa using good_clone h) ⟨_, rfl, dom_clone f, codim_clone f⟩

theorem smooth_wrap {f : Fn} {t : ℝ} (h : Smooth f t) : Smooth f.wrap t :=
  .unique _ _ _ _ (by simpa using smooth_clone h)

/-! ## Leaves -/

theorem good_unique {a : Fn} (h : Good a) : Good (expr a.dom a.codim .unique [a]) :=
  .expr _ _ _ _ (by simpa using h) ⟨a, rfl, rfl, rfl⟩

theorem good_neg {a : Fn} (h : Good a) : Good (expr a.dom a.codim .neg [a]) :=
  .expr _ _ _ _ (by simpa using h) ⟨a, rfl, rfl, rfl⟩

theorem smooth_unique {d : ℝ × ℝ} {c : ℕ} {a : Fn} {t : ℝ} (h : Smooth a t) : Smooth (expr d c .unique [a]) t :=
  .unique _ _ _ _ (by simpa using h)

theorem smooth_neg {d : ℝ × ℝ} {c : ℕ} {a : Fn} {t : ℝ} (h : Smooth a t) : Smooth (expr d c .neg [a]) t :=
  .neg _ _ _ _ (by simpa using h)

theorem step_const (d : ℝ × ℝ) (v : List ℝ) : Step (const d v) (constDeriv d v 1) := by
  unfold constDeriv
  rw [if_neg (by simp)]
  refine ⟨.const _ _, rfl, by simp [codim], fun t _ => ⟨.const _ _ _, fun k hk => ?_⟩⟩
  have hk : k < v.length := hk
  rw [(val_const d v).2 k hk, (val_const d _).2 k (by simpa using hk)]
  simpa [List.getD_eq_getElem?_getD, hk] using hasDerivAt_const t (v.getD k 0)

theorem step_scalar {f f' : Fn} {F F' : ℝ → ℝ} (hg : Good f') (hd : f'.dom = f.dom) (hc : f.codim = 1) (hc' : f'.codim = 1)
    (hs : ∀ t, Smooth f' t) (hF : val f 0 = F) (hF' : val f' 0 = F') (h : ∀ t, HasDerivAt F (F' t) t) : Step f f' := by
  refine ⟨hg, hd, by rw [hc, hc'], fun t _ => ⟨hs t, fun k hk => ?_⟩⟩
  have : k = 0 := by omega
  subst this
  rw [hF, hF']; exact h t

theorem val_const1 (d : ℝ × ℝ) (c : ℝ) : val (const d [c]) 0 = fun _ => c := (val_const d [c]).2 0 (by simp)

theorem step_dil {f : Fn} (d : ℝ × ℝ) (c : ℝ) (hd : f.dom = d) (hc : f.codim = 1) (hv : val f 0 = fun t => c * t) : Step f (dilDeriv d c 1) := by
  unfold dilDeriv
  rw [if_neg (by simp), if_pos rfl]
  refine step_scalar (F := fun t => c * t) (F' := fun _ => c) (good_unique (a := const d [c]) (.const _ _)) hd.symm hc rfl
    (fun t => smooth_unique (.const _ _ _)) hv ?_ fun t => by simpa using (hasDerivAt_id t).const_mul c
  rw [show val (expr d 1 .unique [const d [c]]) = _ from val_unique d (const d [c])]
  exact val_const1 d c

theorem step_exp (d : ℝ × ℝ) : Step (exp d) (exp d) :=
  step_scalar (.exp d) rfl rfl rfl (fun t => .exp _ t) (val_exp d).2 (val_exp d).2 Real.hasDerivAt_exp

theorem step_cos (d : ℝ × ℝ) : Step (cos d) (cosDeriv d 1) := by
  have : cosDeriv d 1 = expr d 1 .neg [sin d] := rfl
  rw [this]
  refine step_scalar (F' := fun t => - Real.sin t) (good_neg (a := sin d) (.sin d)) rfl rfl rfl (fun t => smooth_neg (.sin _ t)) (val_cos d).2 ?_
    Real.hasDerivAt_cos
  have := (val_neg d (val_sin d).1).2 0 (by change 0 < 1; omega)
  rw [(val_sin d).2] at this
  exact this

theorem step_sin (d : ℝ × ℝ) : Step (sin d) (sinDeriv d 1) := by
  have : sinDeriv d 1 = expr d 1 .unique [cos d] := rfl
  rw [this]
  refine step_scalar (F' := fun t => Real.cos t) (good_unique (a := cos d) (.cos d)) rfl rfl rfl (fun t => smooth_unique (.cos _ t)) (val_sin d).2 ?_
    Real.hasDerivAt_sin
  rw [show val (expr d 1 .unique [cos d]) = _ from val_unique d (cos d)]
  exact (val_cos d).2

/-! ### Polynomials -/

/-- `∑ a_i t^i`, starting with the power `m`. -/
noncomputable def psum (m : ℕ) : List ℝ → ℝ → ℝ
  | [], _ => 0
  | a :: l, t => a * t ^ m + psum (m + 1) l t

theorem psum_shift (m : ℕ) (l : List ℝ) (t : ℝ) : psum (m + 1) l t = t * psum m l t := by
  induction l generalizing m with
  | nil => simp [psum]
  | cons a l ih => simp only [psum, ih]; ring

theorem horner_eq {l : List ℝ} (h : l ≠ []) (t : ℝ) : horner l t = psum 0 l t := by
  obtain ⟨init, z, rfl⟩ : ∃ init z, l = init ++ [z] := ⟨_, _, (List.dropLast_append_getLast h).symm⟩
  unfold horner
  rw [List.dropLast_concat, List.getLastD_concat]
  clear h
  induction init with
  | nil => simp [psum]
  | cons a init ih =>
    rw [List.foldr_cons, ih, List.cons_append, psum, psum_shift]; ring

theorem psum_append (m : ℕ) (l r : List ℝ) (t : ℝ) : psum m (l ++ r) t = psum m l t + psum (m + l.length) r t := by
  induction l generalizing m with
  | nil => simp [psum]
  | cons a l ih => simp only [List.cons_append, psum, ih, List.length_cons]; rw [show m + 1 + l.length = m + (l.length + 1) by omega]; ring

theorem hasDerivAt_psum (l : List ℝ) (m : ℕ) (t : ℝ) :
    HasDerivAt (psum (m + 1) l) (psum m (l.mapIdx fun i c => ((m + i : ℕ) + 1 : ℝ) * c) t) t := by
  induction l generalizing m with
  | nil => simpa [psum] using hasDerivAt_const t (0 : ℝ)
  | cons a l ih =>
    have h1 : HasDerivAt (fun t : ℝ => a * t ^ (m + 1)) (a * ((m + 1 : ℕ) * t ^ m)) t := by
      simpa using (hasDerivAt_pow (m + 1) t).const_mul a
    have h2 := h1.add (ih (m + 1))
    refine HasDerivAt.congr_deriv h2 ?_
    rw [List.mapIdx_cons, psum]
    have : (l.mapIdx fun i c => ((m + 1 + i : ℕ) + 1 : ℝ) * c) = l.mapIdx fun i c => ((m + (i + 1) : ℕ) + 1 : ℝ) * c := by
      congr 1
      funext i c
      rw [show m + 1 + i = m + (i + 1) by omega]
    rw [this]
    push_cast
    ring

theorem psum_polyStep (l : List ℝ) (t : ℝ) : HasDerivAt (psum 0 l) (psum 0 (polyStep l) t) t := by
  cases l with
  | nil => simpa [psum, polyStep] using hasDerivAt_const t (0 : ℝ)
  | cons a l =>
    have h := (hasDerivAt_psum l 0 t).const_add a
    have e : psum 0 (a :: l) = fun t => a + psum (0 + 1) l t := by funext t; simp [psum]
    rw [e]
    refine HasDerivAt.congr_deriv h ?_
    simp [polyStep]

theorem polyDeriv_one {a : List ℝ} (ha : a ≠ []) : ∃ b, polyDeriv a 1 = .ok b ∧ b ≠ [] ∧ ∀ t, psum 0 b t = psum 0 (polyStep a) t := by
  unfold polyDeriv
  rw [if_neg (by simp)]
  by_cases h1 : a.length = 1
  · rw [if_pos h1]
    obtain ⟨x, rfl⟩ := List.length_eq_one_iff.mp h1
    exact ⟨[0], rfl, by simp, fun t => by simp [psum, polyStep]⟩
  · rw [if_neg h1, if_neg ha]
    have hne : polyStep a ≠ [] := by
      unfold polyStep
      have := List.length_pos_iff.mpr ha
      intro h
      have h := congrArg List.length h
      simp only [List.length_mapIdx, List.length_tail, List.length_nil] at h
      omega
    refine ⟨_, rfl, ?_⟩
    unfold polyLoop
    rw [if_neg hne]
    exact ⟨hne, fun t => rfl⟩

theorem step_poly (d : ℝ × ℝ) {a : List ℝ} (ha : a ≠ []) : ∃ f', (poly d a).d1 = .ok f' ∧ Step (poly d a) f' := by
  obtain ⟨b, hb, hne, hv⟩ := polyDeriv_one ha
  refine ⟨poly d b, by rw [d1, hb]; rfl, ?_⟩
  refine step_scalar (.poly d b hne) rfl rfl rfl (fun t => .poly _ _ t) (val_poly d ha).2 (val_poly d hne).2 fun t => ?_
  have e : horner a = psum 0 a := funext fun t => horner_eq ha t
  rw [horner_eq hne, hv, e]
  exact psum_polyStep a t

/-! ### User functions and splines -/

theorem step_user (d : ℝ × ℝ) (c : ℕ) (F : ℕ → ℝ → ℕ → ℝ) : Step (user d c F) (user d c fun n => F (n + 1)) := by
  refine ⟨.user _ _ _, rfl, rfl, fun t hs => ?_⟩
  cases hs with
  | user _ _ _ _ h =>
    refine ⟨.user _ _ _ _ (h.mono fun s hs n => hs (n + 1)), fun k hk => ?_⟩
    have hk : k < c := hk
    rw [(val_user d c F).2 k hk, (val_user d c _).2 k hk]
    exact h.self_of_nhds 0 k hk

theorem contDiff_curve (g : GSpline) (i c : ℕ) : ContDiff ℝ (⊤ : ℕ∞) (curve g i c) := by
  unfold curve piece comb
  refine ContDiff.sum fun k _ => ?_
  refine contDiff_const.mul ((Basis.contDiff_basisFn g.basis (vecOf g.tau i) k).comp ?_)
  fun_prop

theorem val_gspl_nhds {g : GSpline} (hb : g.basis.Valid) (hc : Consistent g) (hp : Positive g) {t : ℝ} {i : ℕ}
    (h : ∀ᶠ s in 𝓝 t, Located g s i ∧ g.basis.CleanAt (window (vecOf g.tau i) (s - brk g i))) {k : ℕ} (hk : k < g.codim) :
    val (gspl g) k =ᶠ[𝓝 t] curve g i k := by
  filter_upwards [h] with s hs
  exact val_gspl hb hc hp hs.1 hs.2 hk

/-- `deriv(n)` of a spline. -/
theorem gspl_deriv {g : GSpline} (hb : g.basis.Valid) (hc : Consistent g) (hp : Positive g) (hd : g.dom.1 ≤ g.dom.2) {n : ℕ} (hn : g.basis.MatOrderOk n) :
    ∃ g', g.deriv n = .ok g' ∧ Good (gspl g') ∧ g'.dom = g.dom ∧ g'.codim = g.codim ∧
      ∀ t, Smooth (gspl g) t → Smooth (gspl g') t ∧ ∀ k < g.codim, val (gspl g') k t = iteratedDeriv n (val (gspl g) k) t := by
  have h := GSpline.deriv_ok hd hc hp.not_mem n
  set g' : GSpline := { g with coeffs := if 0 < n then (List.range g.coeffs.length).map (g.derivCoeffs n) else g.coeffs } with hg'
  have hcon : Consistent g' := by
    unfold Consistent; rw [hg']; dsimp only; split_ifs <;> (try simp only [List.length_map, List.length_range]) <;> exact hc
  refine ⟨g', h, .gspl g' hb hcon hp hd, rfl, rfl, fun t hs => ?_⟩
  cases hs with
  | gspl _ _ i hi =>
    refine ⟨.gspl _ _ i hi, fun k hk => ?_⟩
    have h0 := hi.self_of_nhds
    rw [val_gspl (g := g') hb hcon hp h0.1 h0.2 hk, (val_gspl_nhds hb hc hp hi hk).iteratedDeriv_eq]
    rw [GSpline.curve_deriv hb hd hc hp.not_mem n hn h h0.1.1 (vecOf_pos hp.2 h0.1.1).ne' hk]

theorem step_gspl {g : GSpline} (hb : g.basis.Valid) (hc : Consistent g) (hp : Positive g) (hd : g.dom.1 ≤ g.dom.2) :
    ∃ f', (gspl g).d1 = .ok f' ∧ Step (gspl g) f' := by
  obtain ⟨g', h, hg, hdom, hcod, hv⟩ := gspl_deriv hb hc hp hd (n := 1) (by cases g.basis <;> simp [Basis.MatOrderOk])
  refine ⟨gspl g', by rw [d1, h]; rfl, hg, hdom, hcod, fun t hs => ?_⟩
  obtain ⟨h1, h2⟩ := hv t hs
  refine ⟨h1, fun k hk => ?_⟩
  rw [h2 k hk, iteratedDeriv_one]
  refine DifferentiableAt.hasDerivAt ?_
  cases hs with
  | gspl _ _ i hi =>
    rw [(val_gspl_nhds hb hc hp hi hk).differentiableAt_iff]
    exact (contDiff_curve g i k).differentiable (by simp) t

/-! ## Expressions -/

theorem step_mem_left {l l' : List Fn} (h : List.Forall₂ Step l l') : ∀ a ∈ l, ∃ a' ∈ l', Step a a' := by
  induction h with
  | nil => simp
  | cons h _ ih =>
    intro a ha
    rcases List.mem_cons.mp ha with rfl | ha
    · exact ⟨_, by simp, h⟩
    · obtain ⟨a', h1, h2⟩ := ih a ha
      exact ⟨a', by simp [h1], h2⟩

theorem step_mem_right {l l' : List Fn} (h : List.Forall₂ Step l l') : ∀ a' ∈ l', ∃ a ∈ l, Step a a' := by
  induction h with
  | nil => simp
  | cons h _ ih =>
    intro a ha
    rcases List.mem_cons.mp ha with rfl | ha
    · exact ⟨_, by simp, h⟩
    · obtain ⟨a', h1, h2⟩ := ih a ha
      exact ⟨a', by simp [h1], h2⟩

theorem hasDerivAt_listSum {l l' : List Fn} (h : List.Forall₂ Step l l') {k : ℕ} {t : ℝ} (hk : ∀ a ∈ l, k < a.codim) (hs : ∀ a ∈ l, Smooth a t) :
    HasDerivAt (fun t => (l.map fun a => val a k t).sum) ((l'.map fun a => val a k t).sum) t := by
  induction h with
  | nil => simpa using hasDerivAt_const t (0 : ℝ)
  | cons h _ ih =>
    rename_i a a' l l' _
    have h1 := (h.2.2.2 t (hs a (by simp))).2 k (hk a (by simp))
    have h2 := ih (fun b hb => hk b (by simp [hb])) (fun b hb => hs b (by simp [hb]))
    have e : (fun t => ((a :: l).map fun a => val a k t).sum) = val a k + fun t => (l.map fun a => val a k t).sum := by funext t; simp
    rw [e, List.map_cons, List.sum_cons]
    exact h1.add h2

theorem step_sum {d : ℝ × ℝ} {c : ℕ} {args ds : List Fn} (hg : ∀ a ∈ args, Good a) (hs : Shape d c .sum args) (h : List.Forall₂ Step args ds) :
    Step (expr d c .sum args) (expr d c .sum ds) := by
  obtain ⟨⟨a, rest, rfl, hd⟩, hc⟩ := hs
  have hg' : ∀ a' ∈ ds, Good a' := fun a' ha => by obtain ⟨_, _, h⟩ := step_mem_right h a' ha; exact h.1
  have hc' : ∀ a' ∈ ds, a'.codim = c := fun a' ha => by obtain ⟨a, ha, h⟩ := step_mem_right h a' ha; rw [h.2.2.1, hc a ha]
  have hne : ds ≠ [] := by rintro rfl; cases h
  refine ⟨.expr _ _ _ _ hg' ⟨?_, hc'⟩, rfl, rfl, fun t hsm => ?_⟩
  · cases h with
    | cons h _ => exact ⟨_, _, rfl, h.2.1.trans hd⟩
  · cases hsm with
    | sum _ _ _ _ hsm =>
      refine ⟨.sum _ _ _ _ fun a' ha => ?_, fun k hk => ?_⟩
      · obtain ⟨a, ha, h⟩ := step_mem_right h a' ha
        exact (h.2.2.2 t (hsm a ha)).1
      · have hk : k < c := hk
        rw [(val_sum d (by simp) (fun a ha => tot_of_good (hg a ha)) hc).2 k hk, (val_sum d hne (fun a ha => tot_of_good (hg' a ha)) hc').2 k hk]
        exact hasDerivAt_listSum h (fun a ha => by rw [hc a ha]; exact hk) hsm

theorem step_unique {d : ℝ × ℝ} {c : ℕ} {a a' : Fn} (hd : a.dom = d) (hc : a.codim = c) (h : Step a a') :
    Step (expr d c .unique [a]) (expr d c .unique [a']) := by
  subst hd hc
  refine ⟨?_, rfl, rfl, fun t hs => ?_⟩
  · rw [← h.2.1, ← h.2.2.1]; exact good_unique h.1
  · cases hs with
    | unique _ _ _ _ hs =>
      obtain ⟨h1, h2⟩ := h.2.2.2 t (hs a (by simp))
      refine ⟨smooth_unique h1, fun k hk => ?_⟩
      rw [val_unique]
      have e : val (expr a.dom a.codim .unique [a']) = val a' := by rw [← h.2.2.1]; exact val_unique _ _
      rw [e]; exact h2 k hk

theorem step_neg {d : ℝ × ℝ} {c : ℕ} {a a' : Fn} (hg : Good a) (hd : a.dom = d) (hc : a.codim = c) (h : Step a a') :
    Step (expr d c .neg [a]) (expr d c .neg [a']) := by
  subst hd hc
  refine ⟨?_, rfl, rfl, fun t hs => ?_⟩
  · rw [← h.2.1, ← h.2.2.1]; exact good_neg h.1
  · cases hs with
    | neg _ _ _ _ hs =>
      obtain ⟨h1, h2⟩ := h.2.2.2 t (hs a (by simp))
      refine ⟨smooth_neg h1, fun k hk => ?_⟩
      have hk : k < a.codim := hk
      rw [(val_neg a.dom (tot_of_good hg)).2 k hk]
      have e := (val_neg a.dom (tot_of_good h.1)).2 k (by rw [h.2.2.1]; exact hk)
      rw [h.2.2.1] at e
      rw [e]
      exact (h2 k hk).neg

theorem pieces_congr {l l' : List Fn} (h : l'.map dom = l.map dom) : ∀ {a b : ℝ}, Pieces l a b → Pieces l' a b := by
  induction l generalizing l' with
  | nil => intro a b hp; exact hp.elim
  | cons f l ih =>
    intro a b hp
    cases l' with
    | nil => simp at h
    | cons f' l' =>
      rw [List.map_cons, List.map_cons, List.cons.injEq] at h
      cases l with
      | nil =>
        have : l' = [] := by simpa using h.2
        subst this
        exact ⟨h.1.trans hp.1, hp.2⟩
      | cons g l =>
        cases l' with
        | nil => simp at h
        | cons g' l' =>
          obtain ⟨h1, h2, h3⟩ := hp
          refine ⟨by rw [h.1]; exact h1, by rw [h.1]; exact h2, ?_⟩
          rw [h.1]
          exact ih h.2 h3

theorem step_doms {l l' : List Fn} (h : List.Forall₂ Step l l') : l'.map dom = l.map dom := by
  induction h with
  | nil => rfl
  | cons h _ ih => rw [List.map_cons, List.map_cons, h.2.1, ih]

theorem concat_nhds (d : ℝ × ℝ) {c : ℕ} {l : List Fn} {a b : ℝ} (hp : Pieces l a b) (hc : ∀ x ∈ l, x.codim = c) {f : Fn} (hf : f ∈ l) {t : ℝ}
    (h1 : f.dom.1 < t) (h2 : t < f.dom.2) (k : ℕ) : val (expr d c .concat l) k =ᶠ[𝓝 t] val f k := by
  filter_upwards [Ioo_mem_nhds h1 h2] with s hs
  exact val_concat d hp hc hf hs.1 hs.2 k

theorem step_concat {d : ℝ × ℝ} {c : ℕ} {args ds : List Fn} (hs : Shape d c .concat args) (h : List.Forall₂ Step args ds) :
    Step (expr d c .concat args) (expr d c .concat ds) := by
  obtain ⟨hp, hc⟩ := hs
  have hg' : ∀ a' ∈ ds, Good a' := fun a' ha => by obtain ⟨_, _, h⟩ := step_mem_right h a' ha; exact h.1
  have hc' : ∀ a' ∈ ds, a'.codim = c := fun a' ha => by obtain ⟨a, ha, h⟩ := step_mem_right h a' ha; rw [h.2.2.1, hc a ha]
  have hp' := pieces_congr (step_doms h) hp
  refine ⟨.expr _ _ _ _ hg' ⟨hp', hc'⟩, rfl, rfl, fun t hsm => ?_⟩
  cases hsm with
  | concat _ _ _ _ a ha h1 h2 hsa =>
    obtain ⟨a', ha', hst⟩ := step_mem_left h a ha
    obtain ⟨s1, s2⟩ := hst.2.2.2 t hsa
    refine ⟨.concat _ _ _ _ a' ha' (by rw [hst.2.1]; exact h1) (by rw [hst.2.1]; exact h2) s1, fun k hk => ?_⟩
    have hk : k < c := hk
    rw [val_concat d hp' hc' ha' (by rw [hst.2.1]; exact h1) (by rw [hst.2.1]; exact h2)]
    exact (s2 k (by rw [hc a ha]; exact hk)).congr_of_eventuallyEq (concat_nhds d hp hc ha h1 h2 k)

/-! ### The product rule -/

/-- The product of the values, and its derivative. -/
noncomputable def pprod (l : List Fn) (t : ℝ) : ℝ := (l.map fun b => val b 0 t).prod

noncomputable def dprod : List Fn → List Fn → ℝ → ℝ
  | b :: r, b' :: r', t => val b' 0 t * pprod r t + val b 0 t * dprod r r' t
  | _, _, _ => 0

theorem hasDerivAt_pprod {l l' : List Fn} (h : List.Forall₂ Step l l') {t : ℝ} (hc : ∀ a ∈ l, a.codim = 1) (hs : ∀ a ∈ l, Smooth a t) :
    HasDerivAt (pprod l) (dprod l l' t) t := by
  induction h with
  | nil =>
    have e : pprod [] = fun _ => 1 := by funext t; simp [pprod]
    rw [e]
    exact hasDerivAt_const t (1 : ℝ)
  | cons h _ ih =>
    rename_i a a' l l' _
    have h1 := (h.2.2.2 t (hs a (by simp))).2 0 (by rw [hc a (by simp)]; omega)
    have h2 := ih (fun b hb => hc b (by simp [hb])) (fun b hb => hs b (by simp [hb]))
    have h3 := h1.mul h2
    have e : pprod (a :: l) = val a 0 * pprod l := by funext t; simp [pprod]
    rw [e]
    exact h3

theorem mulTerms_spec {d : ℝ × ℝ} {a : Fn} (hd : a.dom = d) (hga : Good a) : ∀ {p rest rest' : List Fn}, List.Forall₂ Step rest rest' →
    (∀ b ∈ p, Good b) → (∀ b ∈ p, b.codim = 1) → (∀ b ∈ rest, Good b) → (∀ b ∈ rest, b.codim = 1) →
    (∀ e ∈ mulTerms d a.codim (a :: p) rest rest', Good e ∧ e.codim = a.codim ∧
      ∀ t, Smooth a t → (∀ b ∈ p, Smooth b t) → (∀ b ∈ rest, Smooth b t) → Smooth e t) ∧
    ∀ k < a.codim, ∀ t, ((mulTerms d a.codim (a :: p) rest rest').map fun e => val e k t).sum = val a k t * pprod p t * dprod rest rest' t := by
  intro p rest rest' h
  induction h generalizing p with
  | nil => intro _ _ _ _; simp [mulTerms, dprod]
  | cons h hr ih =>
    rename_i b b' rest rest'
    intro hgp hcp hgr hcr
    obtain ⟨ih1, ih2⟩ := ih (p := p ++ [b]) (by
        intro x hx
        rcases List.mem_append.mp hx with hx | hx
        · exact hgp x hx
        · rw [List.mem_singleton.mp hx]; exact hgr b (by simp)) (by
        intro x hx
        rcases List.mem_append.mp hx with hx | hx
        · exact hcp x hx
        · rw [List.mem_singleton.mp hx]; exact hcr b (by simp)) (fun x hx => hgr x (by simp [hx])) (fun x hx => hcr x (by simp [hx]))
    have hcb' : b'.codim = 1 := by rw [h.2.2.1]; exact hcr b (by simp)
    have hgt : ∀ x ∈ p ++ rest ++ [b'], Good x := by
      intro x hx
      simp only [List.mem_append, List.mem_singleton] at hx
      rcases hx with (hx | hx) | rfl
      · exact hgp x hx
      · exact hgr x (by simp [hx])
      · exact h.1
    have hct : ∀ x ∈ p ++ rest ++ [b'], x.codim = 1 := by
      intro x hx
      simp only [List.mem_append, List.mem_singleton] at hx
      rcases hx with (hx | hx) | rfl
      · exact hcp x hx
      · exact hcr x (by simp [hx])
      · exact hcb'
    rw [mulTerms]
    refine ⟨?_, ?_⟩
    · intro e he
      rcases List.mem_cons.mp he with rfl | he
      · refine ⟨.expr _ _ _ _ ?_ ⟨a, p ++ rest ++ [b'], by simp, hd, rfl, hct⟩, rfl, ?_⟩
        · intro x hx
          rw [show a :: p ++ rest ++ [b'] = a :: (p ++ rest ++ [b']) by simp] at hx
          rcases List.mem_cons.mp hx with rfl | hx
          · exact hga
          · exact hgt x hx
        · intro t h1 h2 h3
          refine .mul _ _ _ _ fun x hx => ?_
          simp only [List.cons_append, List.mem_cons, List.mem_append, List.not_mem_nil, or_false] at hx
          rcases hx with rfl | (hx | hx) | rfl
          · exact h1
          · exact h2 x hx
          · exact h3 x (by simp [hx])
          · exact (h.2.2.2 t (h3 b (by simp))).1
      · obtain ⟨e1, e2, e3⟩ := ih1 e (by simpa using he)
        refine ⟨e1, e2, fun t h1 h2 h3 => e3 t h1 ?_ fun x hx => h3 x (by simp [hx])⟩
        intro x hx
        rcases List.mem_append.mp hx with hx | hx
        · exact h2 x hx
        · rw [List.mem_singleton.mp hx]; exact h3 b (by simp)
    · intro k hk t
      have e2 := ih2 k hk t
      rw [List.map_cons, List.sum_cons]
      rw [show a :: p ++ [b] = a :: (p ++ [b]) by simp, e2, show a :: p ++ rest ++ [b'] = a :: (p ++ rest ++ [b']) by simp]
      rw [(val_mul d (tot_of_good hga) (fun x hx => tot_of_good (hgt x hx)) hct).2 k hk]
      simp only [dprod, pprod, List.map_append, List.prod_append, List.map_cons, List.map_nil, List.prod_cons, List.prod_nil]
      ring

theorem step_mul {d : ℝ × ℝ} {c : ℕ} {args ds : List Fn} (hg : ∀ a ∈ args, Good a) (hs : Shape d c .mul args) (h : List.Forall₂ Step args ds) :
    ∃ f', firstDerivMul args ds = .ok f' ∧ Step (expr d c .mul args) f' := by
  obtain ⟨a, rest, rfl, hd, rfl, hc⟩ := hs
  cases h with
  | cons h hr =>
    rename_i a' rest'
    refine ⟨_, rfl, ?_⟩
    have hga := hg a (by simp)
    have hgr : ∀ b ∈ rest, Good b := fun b hb => hg b (by simp [hb])
    obtain ⟨m1, m2⟩ := mulTerms_spec (d := a.dom) rfl hga (p := []) hr (by simp) (by simp) hgr hc
    have hv0 := val_mul (a := a') (l := rest) a.dom (tot_of_good h.1) (fun b hb => tot_of_good (hgr b hb)) hc
    rw [h.2.2.1] at hv0
    have hg0 : Good (expr a.dom a.codim .mul (a' :: rest)) := by
      refine .expr _ _ _ _ ?_ ⟨a', rest, rfl, h.2.1, h.2.2.1, hc⟩
      intro x hx
      rcases List.mem_cons.mp hx with rfl | hx
      · exact h.1
      · exact hgr x hx
    set terms := mulTerms a.dom a.codim [a] rest rest' with hterms
    have hgood : ∀ e ∈ expr a.dom a.codim .mul (a' :: rest) :: terms, Good e := by
      intro e he
      rcases List.mem_cons.mp he with rfl | he
      · exact hg0
      · exact (m1 e he).1
    have hcod : ∀ e ∈ expr a.dom a.codim .mul (a' :: rest) :: terms, e.codim = a.codim := by
      intro e he
      rcases List.mem_cons.mp he with rfl | he
      · rfl
      · exact (m1 e he).2.1
    refine ⟨.expr _ _ _ _ hgood ⟨⟨_, _, rfl, rfl⟩, hcod⟩, hd, rfl, fun t hsm => ?_⟩
    cases hsm with
    | mul _ _ _ _ hsm =>
      have hsa := hsm a (by simp)
      have hsr : ∀ b ∈ rest, Smooth b t := fun b hb => hsm b (by simp [hb])
      obtain ⟨s1, s2⟩ := h.2.2.2 t hsa
      refine ⟨.sum _ _ _ _ fun e he => ?_, fun k hk => ?_⟩
      · rcases List.mem_cons.mp he with rfl | he
        · refine .mul _ _ _ _ fun x hx => ?_
          rcases List.mem_cons.mp hx with rfl | hx
          · exact s1
          · exact hsr x hx
        · exact (m1 e he).2.2 t hsa (by simp) hsr
      · have hk : k < a.codim := hk
        rw [(val_sum a.dom (by simp) (fun e he => tot_of_good (hgood e he)) hcod).2 k hk,
          (val_mul d (tot_of_good hga) (fun b hb => tot_of_good (hgr b hb)) hc).2 k hk]
        beta_reduce
        rw [List.map_cons, List.sum_cons, m2 k hk t, hv0.2 k hk]
        have h1 := (s2 k hk).mul (hasDerivAt_pprod hr hc hsr)
        refine HasDerivAt.congr_deriv h1 ?_
        simp [pprod]

/-! ### The chain rule -/

theorem through_append (l r : List Fn) (t : ℝ) : through (l ++ r) t = through r (through l t) := by
  unfold through; rw [List.foldl_append]

theorem through_cons (a : Fn) (l : List Fn) (t : ℝ) : through (a :: l) t = through l (val a 0 t) := rfl

/-- The derivative of `through`. -/
noncomputable def dthrough : List Fn → List Fn → ℝ → ℝ
  | b :: r, b' :: r', x => val b' 0 x * dthrough r r' (val b 0 x)
  | _, _, _ => 1

/-- Every function of the list is smooth where it is evaluated. -/
def SmoothAlong (l : List Fn) (t : ℝ) : Prop := ∀ pre a post, l = pre ++ a :: post → Smooth a (through pre t)

theorem smoothAlong_cons {a : Fn} {l : List Fn} {t : ℝ} : SmoothAlong (a :: l) t ↔ Smooth a t ∧ SmoothAlong l (val a 0 t) := by
  constructor
  · intro h
    refine ⟨h [] a l rfl, fun pre b post e => ?_⟩
    have := h (a :: pre) b post (by rw [e]; rfl)
    exact this
  · rintro ⟨h1, h2⟩ pre b post e
    cases pre with
    | nil =>
      simp only [List.nil_append, List.cons.injEq] at e
      rw [← e.1]; exact h1
    | cons x pre =>
      simp only [List.cons_append, List.cons.injEq] at e
      rw [← e.1]
      exact h2 pre b post e.2

theorem smoothAlong_nil {t : ℝ} : SmoothAlong [] t := fun pre a post e => by simp at e

theorem smoothAlong_append {l r : List Fn} {t : ℝ} : SmoothAlong (l ++ r) t ↔ SmoothAlong l t ∧ SmoothAlong r (through l t) := by
  induction l generalizing t with
  | nil => simp [smoothAlong_nil, through]
  | cons a l ih => rw [List.cons_append, smoothAlong_cons, smoothAlong_cons, ih, through_cons, and_assoc]

theorem smooth_comp_iff {d : ℝ × ℝ} {c : ℕ} {l : List Fn} {t : ℝ} : Smooth (expr d c .comp l) t ↔ SmoothAlong l t :=
  ⟨fun h => by cases h with | comp _ _ _ _ h => exact h, fun h => .comp _ _ _ _ h⟩

theorem hasDerivAt_through {l l' : List Fn} (h : List.Forall₂ Step l l') {t : ℝ} (hc : ∀ a ∈ l, a.codim = 1) (hs : SmoothAlong l t) :
    HasDerivAt (through l) (dthrough l l' t) t := by
  induction h generalizing t with
  | nil => exact hasDerivAt_id t
  | cons h _ ih =>
    rename_i a a' l l' _
    rw [smoothAlong_cons] at hs
    have h1 := (h.2.2.2 t hs.1).2 0 (by rw [hc a (by simp)]; omega)
    have h2 := ih (fun b hb => hc b (by simp [hb])) hs.2
    have h3 := h2.comp t h1
    refine HasDerivAt.congr_deriv h3 ?_
    simp only [dthrough]; ring

/-- One factor of the derivative of a composition. -/
theorem good_factor {d : ℝ × ℝ} {pre : List Fn} {b b' : Fn} (h : Step b b') (hgp : ∀ x ∈ pre, Good x) (hcp : ∀ x ∈ pre, x.codim = 1)
    (hd : ∃ a rest, pre = a :: rest ∧ a.dom = d) :
    Good (expr d b.codim .comp (pre ++ [b'])) ∧ (∀ t, SmoothAlong pre t → Smooth b (through pre t) → Smooth (expr d b.codim .comp (pre ++ [b'])) t) ∧
      ∀ k < b.codim, ∀ t, val (expr d b.codim .comp (pre ++ [b'])) k t = val b' k (through pre t) := by
  refine ⟨.expr _ _ _ _ ?_ ⟨?_, pre, b', rfl, h.2.2.1, hcp⟩, ?_, ?_⟩
  · intro x hx
    rcases List.mem_append.mp hx with hx | hx
    · exact hgp x hx
    · rw [List.mem_singleton.mp hx]; exact h.1
  · obtain ⟨a, rest, rfl, e⟩ := hd
    exact ⟨a, rest ++ [b'], rfl, e⟩
  · intro t h1 h2
    rw [smooth_comp_iff, smoothAlong_append, smoothAlong_cons]
    exact ⟨h1, (h.2.2.2 _ h2).1, smoothAlong_nil⟩
  · intro k hk t
    have := (val_comp d (tot_of_good h.1) (fun x hx => tot_of_good (hgp x hx)) hcp).2 k (by rw [h.2.2.1]; exact hk)
    rw [h.2.2.1] at this
    rw [this]

theorem compTerms_spec {d : ℝ × ℝ} : ∀ {pre rest rest' : List Fn}, List.Forall₂ Step rest rest' →
    (∀ x ∈ pre, Good x) → (∀ x ∈ pre, x.codim = 1) → (∃ a rest, pre = a :: rest ∧ a.dom = d) → (∀ x ∈ rest, Good x) → (∀ x ∈ rest, x.codim = 1) →
    (∀ e ∈ compTerms d pre rest rest', Good e ∧ e.codim = 1 ∧ e.dom = d ∧ ∀ t, SmoothAlong (pre ++ rest) t → Smooth e t) ∧
    ∀ t, ((compTerms d pre rest rest').map fun e => val e 0 t).prod = dthrough rest rest' (through pre t) := by
  intro pre rest rest' h
  induction h generalizing pre with
  | nil => intro _ _ _ _ _; simp [compTerms, dthrough]
  | cons h hr ih =>
    rename_i b b' rest rest'
    intro hgp hcp hd hgr hcr
    obtain ⟨ih1, ih2⟩ := ih (pre := pre ++ [b]) (by
        intro x hx
        rcases List.mem_append.mp hx with hx | hx
        · exact hgp x hx
        · rw [List.mem_singleton.mp hx]; exact hgr b (by simp)) (by
        intro x hx
        rcases List.mem_append.mp hx with hx | hx
        · exact hcp x hx
        · rw [List.mem_singleton.mp hx]; exact hcr b (by simp))
        (by obtain ⟨a, r, rfl, e⟩ := hd; exact ⟨a, r ++ [b], rfl, e⟩) (fun x hx => hgr x (by simp [hx])) (fun x hx => hcr x (by simp [hx]))
    obtain ⟨f1, f2, f3⟩ := good_factor (d := d) h hgp hcp hd
    have hcb : b.codim = 1 := hcr b (by simp)
    rw [compTerms]
    refine ⟨?_, ?_⟩
    · intro e he
      rcases List.mem_cons.mp he with rfl | he
      · refine ⟨f1, hcb, rfl, fun t hs => ?_⟩
        rw [smoothAlong_append, smoothAlong_cons] at hs
        exact f2 t hs.1 hs.2.1
      · obtain ⟨e1, e2, e3, e4⟩ := ih1 e he
        refine ⟨e1, e2, e3, fun t hs => e4 t ?_⟩
        rwa [List.append_assoc]
    · intro t
      rw [List.map_cons, List.prod_cons, ih2 t, f3 0 (by omega), dthrough, through_append]
      rfl

theorem compTerms_append (d : ℝ × ℝ) (z z' : Fn) : ∀ {pre r r' : List Fn}, r.length = r'.length →
    compTerms d pre (r ++ [z]) (r' ++ [z']) = compTerms d pre r r' ++ [expr d z.codim .comp (pre ++ r ++ [z'])] := by
  intro pre r
  induction r generalizing pre with
  | nil =>
    intro r' h
    have : r' = [] := by simpa using h.symm
    subst this
    simp [compTerms]
  | cons b r ih =>
    intro r' h
    cases r' with
    | nil => simp at h
    | cons b' r' =>
      simp only [List.cons_append, compTerms]
      rw [ih (by simpa using h)]
      simp

theorem forall₂_snoc {α β : Type} {R : α → β → Prop} {z : α} : ∀ {l : List α} {r : List β}, List.Forall₂ R (l ++ [z]) r →
    ∃ r' z', r = r' ++ [z'] ∧ List.Forall₂ R l r' ∧ R z z' := by
  intro l
  induction l with
  | nil =>
    intro r h
    cases h with
    | cons h hr => cases hr; exact ⟨[], _, rfl, .nil, h⟩
  | cons a l ih =>
    intro r h
    cases h with
    | cons h hr =>
      obtain ⟨r', z', rfl, h1, h2⟩ := ih hr
      exact ⟨_ :: r', z', rfl, .cons h h1, h2⟩

theorem step_comp {d : ℝ × ℝ} {c : ℕ} {args ds : List Fn} (hg : ∀ a ∈ args, Good a) (hs : Shape d c .comp args) (h : List.Forall₂ Step args ds) :
    ∃ f', firstDerivComp args ds = .ok f' ∧ Step (expr d c .comp args) f' := by
  obtain ⟨⟨a, rest, rfl, hd⟩, init, z, he, hz, hci⟩ := hs
  cases h with
  | cons h hr =>
    rename_i a' rest'
    refine ⟨_, rfl, ?_⟩
    have hga := hg a (by simp)
    rcases List.eq_nil_or_concat rest with hrest | ⟨r, w, hrest⟩
    · subst hrest
      cases hr
      have hi : init = [] ∧ z = a := by
        cases init with
        | nil => simpa using he.symm
        | cons x init => simp at he
      obtain ⟨rfl, rfl⟩ := hi
      subst hz
      simp only [compTerms, List.reverse_nil, List.nil_append, List.getLast_singleton]
      have hv := val_mul (a := a') (l := []) z.dom (tot_of_good h.1) (by simp) (by simp)
      rw [h.2.2.1] at hv
      refine ⟨.expr _ _ _ _ (by simpa using h.1) ⟨a', [], rfl, h.2.1, h.2.2.1, by simp⟩, hd, rfl, fun t hsm => ?_⟩
      rw [smooth_comp_iff, smoothAlong_cons] at hsm
      obtain ⟨s1, s2⟩ := h.2.2.2 t hsm.1
      refine ⟨.mul _ _ _ _ (by simpa using s1), fun k hk => ?_⟩
      have hk : k < z.codim := hk
      have hv' := (val_comp d (init := []) (tot_of_good hga) (by simp) (by simp)).2 k hk
      rw [hv.2 k hk]
      simp only [List.nil_append] at hv'
      rw [hv']
      simpa [through] using s2 k hk
    · rw [List.concat_eq_append] at hrest
      subst hrest
      have he' : init = a :: r ∧ z = w := by
        rw [← List.cons_append] at he
        exact (List.append_inj' he rfl).imp Eq.symm fun h => by simpa using h.symm
      obtain ⟨rfl, rfl⟩ := he'
      subst hz
      obtain ⟨r', z', rfl, hr', hstz⟩ := forall₂_snoc hr
      have hcr : ∀ x ∈ r, x.codim = 1 := fun x hx => hci x (by simp [hx])
      have hca : a.codim = 1 := hci a (by simp)
      have hgr : ∀ x ∈ r, Good x := fun x hx => hg x (by simp [hx])
      have hgz : Good z := hg z (by simp)
      have hgi : ∀ x ∈ a :: r, Good x := by
        intro x hx
        rcases List.mem_cons.mp hx with rfl | hx
        · exact hga
        · exact hgr x hx
      obtain ⟨m1, m2⟩ := compTerms_spec (d := a.dom) (pre := [a]) hr' (by simpa using hga) (by simpa using hca) ⟨a, [], rfl, rfl⟩ hgr hcr
      obtain ⟨f1, f2, f3⟩ := good_factor (d := a.dom) (pre := a :: r) hstz hgi hci ⟨a, r, rfl, rfl⟩
      rw [compTerms_append _ _ _ hr'.length_eq, List.reverse_append, List.reverse_singleton]
      have hlast : (a :: (r ++ [z])).getLast (by simp) = z := by simp
      rw [hlast]
      simp only [List.cons_append, List.nil_append]
      rw [show a :: (r ++ [z']) = a :: r ++ [z'] from rfl]
      set top := expr a.dom z.codim .comp (a :: r ++ [z']) with htop
      set fac := (compTerms a.dom [a] r r').reverse ++ [a'] with hfac
      have hgf : ∀ e ∈ fac, Good e := by
        intro e he
        rcases List.mem_append.mp he with he | he
        · exact (m1 e (List.mem_reverse.mp he)).1
        · rw [List.mem_singleton.mp he]; exact h.1
      have hcf : ∀ e ∈ fac, e.codim = 1 := by
        intro e he
        rcases List.mem_append.mp he with he | he
        · exact (m1 e (List.mem_reverse.mp he)).2.1
        · rw [List.mem_singleton.mp he, h.2.2.1]; exact hca
      have hgall : ∀ e ∈ top :: fac, Good e := by
        intro e he
        rcases List.mem_cons.mp he with rfl | he
        · exact f1
        · exact hgf e he
      refine ⟨.expr _ _ _ _ hgall ⟨top, fac, rfl, rfl, rfl, hcf⟩, hd, rfl, fun t hsm => ?_⟩
      rw [smooth_comp_iff, ← List.cons_append, smoothAlong_append] at hsm
      have hsa := hsm.1
      rw [smoothAlong_cons] at hsa
      have hsz : Smooth z (through (a :: r) t) := (smoothAlong_cons.mp hsm.2).1
      refine ⟨.mul _ _ _ _ fun e he => ?_, fun k hk => ?_⟩
      · rcases List.mem_cons.mp he with rfl | he
        · exact f2 t hsm.1 hsz
        · rcases List.mem_append.mp he with he | he
          · exact (m1 e (List.mem_reverse.mp he)).2.2.2 t hsm.1
          · rw [List.mem_singleton.mp he]; exact (h.2.2.2 t hsa.1).1
      · have hk : k < z.codim := hk
        have hv := (val_mul (a := top) (l := fac) a.dom (tot_of_good f1) (fun e he => tot_of_good (hgf e he)) hcf).2 k hk
        have hv' := (val_comp d (init := a :: r) (z := z) (tot_of_good hgz) (fun e he => tot_of_good (hgi e he)) hci).2 k hk
        rw [show expr a.dom z.codim .mul (top :: fac) = expr a.dom top.codim .mul (top :: fac) from rfl, hv, ← List.cons_append, hv']
        beta_reduce
        rw [f3 k hk t]
        have d1 := hasDerivAt_through (List.Forall₂.cons h hr') hci hsm.1
        have d2 := (hstz.2.2.2 _ hsz).2 k hk
        have d3 := d2.comp t d1
        refine HasDerivAt.congr_deriv d3 ?_
        congr 1
        rw [hfac, List.map_append, List.prod_append, List.map_reverse, List.prod_reverse, m2 t]
        simp only [dthrough, through, List.map_cons, List.map_nil, List.prod_cons, List.prod_nil, List.foldl_cons, List.foldl_nil]
        ring

/-! ### Dot products -/

theorem hasDerivAt_dot {f f' g g' : Fn} (hf : Step f f') (hg : Step g g') (hc : f.codim = g.codim) {t : ℝ} (h1 : Smooth f t) (h2 : Smooth g t) :
    HasDerivAt (fun t => ∑ k ∈ Finset.range f.codim, val f k t * val g k t)
      (∑ k ∈ Finset.range f.codim, (val f' k t * val g k t + val f k t * val g' k t)) t := by
  refine HasDerivAt.fun_sum fun k hk => ?_
  have hk := Finset.mem_range.mp hk
  exact ((hf.2.2.2 t h1).2 k hk).mul ((hg.2.2.2 t h2).2 k (hc ▸ hk))

theorem sameDomain_of_eq {f g : Fn} (h : f.dom = g.dom) : sameDomain f g := by
  unfold sameDomain
  rw [h]
  simp [Props.tol9_pos]

theorem step_uniq {f f' : Fn} (h : Step f f') : Step f (expr f.dom f.codim .unique [f']) := by
  have hg : ∀ a ∈ [f'], Good a := fun a ha => by rw [List.mem_singleton.mp ha]; exact h.1
  refine ⟨.expr _ _ _ _ hg ⟨f', rfl, h.2.1, h.2.2.1⟩, rfl, rfl, fun t hs =>
    ⟨.unique _ _ _ _ fun a ha => by rw [List.mem_singleton.mp ha]; exact (h.2.2.2 t hs).1, fun k hk => ?_⟩⟩
  refine HasDerivAt.congr_deriv ((h.2.2.2 t hs).2 k hk) ?_
  rw [← h.2.2.1, val_unique]

theorem step_dot {d : ℝ × ℝ} {f g f' g' : Fn} (hgf : Good f) (hgg : Good g) (hc : f.codim = g.codim) (hdf : f.dom = d) (hdg : g.dom = d)
    (hf : Step f f') (hg : Step g g') : ∃ r, firstDerivDot f g f' g' = .ok r ∧ Step (dot d f g) r := by
  unfold firstDerivDot
  have c1 : g.codim = f'.codim := by rw [hf.2.2.1]; exact hc.symm
  have c2 : f.codim = g'.codim := by rw [hg.2.2.1]; exact hc
  unfold mkDot
  rw [if_pos c1, if_pos c2]
  change ∃ r, add (dot g.dom g.wrap f'.wrap) (dot f.dom f.wrap g'.wrap) = .ok r ∧ _
  unfold add
  rw [if_neg (not_not.mpr (sameDomain_of_eq (f := dot g.dom g.wrap f'.wrap) (g := dot f.dom f.wrap g'.wrap) (hdg.trans hdf.symm))), if_neg (by simp [codim])]
  refine ⟨_, rfl, ?_⟩
  change Step _ (expr g.dom 1 .sum [dot g.dom g.wrap f'.wrap, dot f.dom f.wrap g'.wrap])
  have g1 : Good (dot g.dom g.wrap f'.wrap) := .dot _ _ _ (good_wrap hgg) (good_wrap hf.1) c1 rfl (by
    change f'.dom = g.dom
    rw [hf.2.1, hdf, hdg])
  have g2 : Good (dot f.dom f.wrap g'.wrap) := .dot _ _ _ (good_wrap hgf) (good_wrap hg.1) c2 rfl (by
    change g'.dom = f.dom
    rw [hg.2.1, hdf, hdg])
  have v1 := (val_dot g.dom (tot_wrap (tot_of_good hgg)) (tot_wrap (tot_of_good hf.1)) c1).2
  have v2 := (val_dot f.dom (tot_wrap (tot_of_good hgf)) (tot_wrap (tot_of_good hg.1)) c2).2
  have hgood : ∀ a ∈ [dot g.dom g.wrap f'.wrap, dot f.dom f.wrap g'.wrap], Good a := by
    intro a ha
    simp only [List.mem_cons, List.not_mem_nil, or_false] at ha
    rcases ha with rfl | rfl
    · exact g1
    · exact g2
  have hcod : ∀ a ∈ [dot g.dom g.wrap f'.wrap, dot f.dom f.wrap g'.wrap], a.codim = 1 := by
    intro a ha
    simp only [List.mem_cons, List.not_mem_nil, or_false] at ha
    rcases ha with rfl | rfl <;> rfl
  refine ⟨.expr _ _ _ _ hgood ⟨⟨_, _, rfl, rfl⟩, hcod⟩, hdg, rfl, fun t hs => ?_⟩
  cases hs with
  | dot _ _ _ _ h1 h2 =>
    refine ⟨.sum _ _ _ _ ?_, fun k hk => ?_⟩
    · intro a ha
      simp only [List.mem_cons, List.not_mem_nil, or_false] at ha
      rcases ha with rfl | rfl
      · exact .dot _ _ _ _ (smooth_wrap h2) (smooth_wrap (hf.2.2.2 t h1).1)
      · exact .dot _ _ _ _ (smooth_wrap h1) (smooth_wrap (hg.2.2.2 t h2).1)
    · have hk : k < 1 := hk
      have : k = 0 := by omega
      subst this
      rw [(val_dot d (tot_of_good hgf) (tot_of_good hgg) hc).2, (val_sum g.dom (by simp) (fun a ha => tot_of_good (hgood a ha)) hcod).2 0 (by omega)]
      refine HasDerivAt.congr_deriv (hasDerivAt_dot hf hg hc h1 h2) ?_
      simp only [List.map_cons, List.map_nil, List.sum_cons, List.sum_nil, v1, v2, val_wrap, add_zero]
      rw [show g.wrap.codim = f.codim from hc.symm, show f.wrap.codim = f.codim from rfl, ← Finset.sum_add_distrib]
      exact Finset.sum_congr rfl fun k _ => by ring

/-! ## The derivation step -/

theorem getLast_dom {l : List Fn} {a b : ℝ} (h : Pieces l a b) (hne : l ≠ []) : (l.getLast hne).dom.2 = b := by
  obtain ⟨f, hf, e⟩ := pieces_last h
  rw [List.getLast?_eq_some_getLast hne] at hf
  injection hf with hf
  rw [hf]; exact e

theorem derivLin_ok {d : ℝ × ℝ} {c : ℕ} {ty : Ty} {args ds : List Fn} (hs : Shape d c ty args) (h1 : ty ≠ .mul) (h2 : ty ≠ .comp) :
    derivLin ty args ds = .ok (expr d c ty ds) := by
  cases ty with
  | sum =>
    obtain ⟨⟨a, rest, rfl, rfl⟩, hc⟩ := hs
    unfold derivLin
    rw [← hc a (by simp)]
    simp
  | mul => exact absurd rfl h1
  | comp => exact absurd rfl h2
  | concat =>
    obtain ⟨hp, hc⟩ := hs
    cases args with
    | nil => exact hp.elim
    | cons a rest =>
      have e1 := getLast_dom hp (by simp)
      obtain ⟨f, hf, e2⟩ := pieces_head hp
      simp only [List.head?_cons, Option.some.injEq] at hf
      subst hf
      unfold derivLin
      simp only [reduceCtorEq, or_self, false_and, if_false, if_true]
      rw [e1, e2, hc a (by simp), if_pos (pieces_lt hp).le]
  | unique =>
    obtain ⟨a, rfl, rfl, rfl⟩ := hs
    simp [derivLin]
  | neg =>
    obtain ⟨a, rfl, rfl, rfl⟩ := hs
    simp [derivLin]

theorem d1_step {f : Fn} (h : Good f) : ∃ f', f.d1 = .ok f' ∧ Step f f' := by
  induction h with
  | const d v => exact ⟨_, by rw [d1], step_const d v⟩
  | dil d c => exact ⟨_, by rw [d1], step_dil d c rfl rfl (val_dil d c).2⟩
  | ident d => exact ⟨_, by rw [d1], step_dil d 1 rfl rfl (by rw [(val_ident d).2]; simp)⟩
  | exp d => exact ⟨_, by rw [d1], step_exp d⟩
  | cos d => exact ⟨_, by rw [d1], step_cos d⟩
  | sin d => exact ⟨_, by rw [d1], step_sin d⟩
  | poly d a ha => exact step_poly d ha
  | user d c F => exact ⟨_, by rw [d1], step_user d c F⟩
  | gspl g hb hc hp hd => exact step_gspl hb hc hp hd
  | dot d f g hgf hgg hc hdf hdg ihf ihg =>
    obtain ⟨f', hf', sf⟩ := ihf
    obtain ⟨g', hg', sg⟩ := ihg
    rw [d1, hf', hg']
    exact step_dot hgf hgg hc hdf hdg sf sg
  | expr d c ty args hg hs ih =>
    obtain ⟨ds, hds, hF⟩ := exists_mapM ih
    rw [d1.eq_def]
    dsimp only
    rw [d1s_eq, hds]
    cases ty with
    | mul => exact step_mul hg hs hF
    | comp => exact step_comp hg hs hF
    | sum => exact ⟨_, derivLin_ok hs (by simp) (by simp), step_sum hg hs hF⟩
    | concat => exact ⟨_, derivLin_ok hs (by simp) (by simp), step_concat hs hF⟩
    | unique =>
      refine ⟨_, derivLin_ok hs (by simp) (by simp), ?_⟩
      obtain ⟨a, rfl, hd, hc⟩ := hs
      cases hF with
      | cons h h' => cases h'; exact step_unique hd hc h
    | neg =>
      refine ⟨_, derivLin_ok hs (by simp) (by simp), ?_⟩
      obtain ⟨a, rfl, hd, hc⟩ := hs
      cases hF with
      | cons h h' => cases h'; exact step_neg (hg a (by simp)) hd hc h

end GSplines.Fn
