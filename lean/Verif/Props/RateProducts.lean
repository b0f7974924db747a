import Verif.Model.RoundingProducts
import Verif.Props.RateIntegral

/-!
# C105: inner products and norms of functions with rounded arithmetic

`Rounded.semiInner u f g terms n k jp jw o` says that `sobolev_semi_inner_product(f, g, terms, n, k)` may end with `o` when each operation on doubles has a relative error of at most
`u.1` plus an absolute error of at most `u.2`.
-/

namespace GSplines.Props

open GSplines Spec Fn Finset

/-! ## The integrand has no jumps if the derivatives have none -/

theorem calm_clone {f : Fn} {t : ℝ} (h : Calm f t) : Calm f.clone t := by
  cases f <;> first | exact h | exact .dil _ _ _

theorem calm_wrap {f : Fn} {t : ℝ} (h : Calm f t) : Calm f.wrap t := .unique _ _ _ _ (by simpa using calm_clone h)

theorem calm_toExpr {f : Fn} {t : ℝ} (h : Calm f t) : Calm f.toExpr t := by
  cases f <;> first | exact h | exact calm_wrap h

/-- The elements of a sum, a product, a negative or of type UNIQUE have no jumps if it has none by its structure. -/
theorem calm_args {d : ℝ × ℝ} {c : ℕ} {ty : Ty} {args : List Fn} {t : ℝ} (h : Calm (expr d c ty args) t) (h1 : ty ≠ .comp) (h2 : ty ≠ .concat) : ∀ a ∈ args, Calm a t := by
  cases h with
  | sum _ _ _ _ h => exact h
  | mul _ _ _ _ h => exact h
  | comp => exact absurd rfl h1
  | concat => exact absurd rfl h2
  | unique _ _ _ _ h => exact h
  | neg _ _ _ _ h => exact h

theorem calm_splice {f : Fn} {ty : Ty} {t : ℝ} (h : Calm f t) (h1 : ty ≠ .comp) (h2 : ty ≠ .concat) : ∀ a ∈ splice ty f, Calm a t := by
  unfold splice
  split_ifs with hp
  · cases f with
    | expr d c ty' args =>
      have hp : ty' = ty ∨ ty' = .unique := hp
      refine calm_args h ?_ ?_ <;> rintro rfl <;> rcases hp with rfl | hp <;> first | contradiction | cases hp
    | _ => exact fun a ha => by rw [List.mem_singleton.mp ha]; exact calm_clone h
  · intro a ha
    rw [List.mem_singleton.mp ha]
    exact h

theorem calm_smul {k : ℝ} {f r : Fn} (hr : smul k f = .ok r) {t : ℝ} (h : Calm f t) : Calm r t := by
  have hk : Calm (wrap (const f.dom [k])) t := calm_wrap (.const _ _ _)
  have key : ∀ d c (x y : Fn), Calm x t → Calm y t → Calm (expr d c .mul (splice .mul x ++ splice .mul y)) t := fun d c x y hx hy => .mul _ _ _ _ fun a ha => by
    rcases List.mem_append.mp ha with ha | ha
    exacts [calm_splice hx (by simp) (by simp) a ha, calm_splice hy (by simp) (by simp) a ha]
  unfold smul mul at hr
  split_ifs at hr <;> cases hr <;> first | exact key _ _ _ _ hk h | exact key _ _ _ _ h hk

theorem calm_addInPlace {f g : Fn} {t : ℝ} (hf : Calm f t) (hg : Calm g t) : Calm (addInPlace f g) t := by
  unfold addInPlace inPlace
  cases f with
  | expr d c ty args =>
    dsimp only
    split_ifs with hp
    · refine .sum _ _ _ _ fun a ha => ?_
      rcases List.mem_append.mp ha with ha | ha
      · exact calm_args hf (by rintro rfl; rcases hp with h | h <;> cases h) (by rintro rfl; rcases hp with h | h <;> cases h) a ha
      · rw [List.mem_singleton.mp ha]; exact calm_toExpr hg
    · refine .sum _ _ _ _ fun a ha => ?_
      simp only [List.mem_cons, List.not_mem_nil, or_false] at ha
      rcases ha with rfl | rfl
      exacts [hf, calm_toExpr hg]
  | _ =>
    refine .sum _ _ _ _ fun a ha => ?_
    simp only [List.mem_cons, List.not_mem_nil, or_false] at ha
    rcases ha with rfl | rfl
    exacts [calm_clone hf, calm_toExpr hg]

theorem calm_dot {f g r : Fn} (hr : dotOp ⟨true, true⟩ f g = .ok r) {t : ℝ} (hf : Calm f t) (hg : Calm g t) : Calm r t := by
  unfold dotOp mkDot at hr
  rw [if_pos rfl] at hr
  split_ifs at hr
  cases hr
  exact .dot _ _ _ _ (calm_wrap hg) (calm_wrap hf)

/-- The integrand built by `sobolev_semi_inner_product`. -/
theorem semiFold_calm {f g : Fn} (hf : Regular f) (hg : Regular g) (hc : f.codim = g.codim) (hdom : f.dom = g.dom) (P : ℝ → Prop) : ∀ (terms : List (ℕ × ℝ)) {s : Fn} {S : ℝ → ℝ},
    (∀ q ∈ terms, OrderOk q.1 f ∧ OrderOk q.1 g) → (∀ q ∈ terms, ∀ a, f.derivate q.1 = .ok a ∨ g.derivate q.1 = .ok a → ∀ t, P t → Calm a t) →
    Regular s → s.codim = 1 → (∀ t, P t → Calm s t) → (∀ t, s.call [t] = .ok [[S t]]) →
    ∃ r, terms.foldlM (semiStep f g) s = .ok r ∧ Regular r ∧ r.dom = s.dom ∧ r.codim = 1 ∧ (∀ t, P t → Calm r t) ∧
      ∀ t, r.call [t] = .ok [[S t + (terms.map fun q => q.2 * ∑ c ∈ range f.codim, dval f q.1 c t * dval g q.1 c t).sum]] := by
  intro terms
  induction terms with
  | nil => intro s S _ _ hs h1 h2 h3; exact ⟨s, rfl, hs, rfl, h1, h2, by simpa using h3⟩
  | cons q l ih =>
    intro s S ho hq hs h1 h2 h3
    obtain ⟨s', e1, e2, e3, e4, e5⟩ := semiStep_ok hf hg hc (ho q (by simp)).1 (ho q (by simp)).2 (built_of_regular hs) h1 h3
    obtain ⟨a, a1, a2, a3, a4, -⟩ := derivate_dval hf (ho q (by simp)).1
    obtain ⟨b, b1, b2, b3, b4, -⟩ := derivate_dval hg (ho q (by simp)).2
    obtain ⟨d, d1, d2, d3, -⟩ := (C08_dot_value a b ⟨true, true⟩).2 (by rw [a4, b4, hc])
    have ra : Regular a := .derivate _ hf (ho q (by simp)).1 a1
    have rb : Regular b := .derivate _ hg (ho q (by simp)).2 b1
    have rd : Regular d := .dot _ ra rb (by rw [a3, b3, hdom]) d1
    obtain ⟨t, t1, -, t3, t4, -⟩ := C03_scalar q.2 d (built_of_regular rd)
    have hst : s' = addInPlace s t := by
      have : semiStep f g s q = .ok (addInPlace s t) := by
        unfold semiStep
        rw [a1]; change (do let b ← g.derivate q.1; _) = _
        rw [b1]; change (do let d ← dotOp ⟨true, true⟩ a b; _) = _
        rw [d1]; change (do let t ← smul q.2 d; _) = _
        rw [t1]; rfl
      rw [e1] at this
      exact Except.ok.inj this
    have rs : Regular s' := by
      rw [hst]
      exact .addInPlace hs (.smul _ rd t1) (by rw [h1, t4, d2])
    have hcalm : ∀ x, P x → Calm s' x := fun x hx => by
      rw [hst]
      exact calm_addInPlace (h2 x hx) (calm_smul t1 (calm_dot d1 (hq q (by simp) a (.inl a1) x hx) (hq q (by simp) b (.inr b1) x hx)))
    obtain ⟨r, r1, r2, r3, r4, r5, r6⟩ := ih (fun x hx => ho x (by simp [hx])) (fun x hx => hq x (by simp [hx])) rs e4 hcalm e5
    refine ⟨r, ?_, r2, by rw [r3, e3], r4, r5, fun t => ?_⟩
    · rw [List.foldlM_cons, e1]; exact r1
    · rw [r6, List.map_cons, List.sum_cons, add_assoc]

/-- The integrand, from the zero function. -/
theorem integrand {f g : Fn} (hf : Regular f) (hg : Regular g) (hc : f.codim = g.codim) (hdom : f.dom = g.dom) (terms : List (ℕ × ℝ))
    (ho : ∀ q ∈ terms, OrderOk q.1 f ∧ OrderOk q.1 g) (P : ℝ → Prop) (hq : ∀ q ∈ terms, ∀ a, f.derivate q.1 = .ok a ∨ g.derivate q.1 = .ok a → ∀ t, P t → Calm a t) :
    ∃ r, terms.foldlM (semiStep f g) (zero f.dom 1) = .ok r ∧ Regular r ∧ r.dom = f.dom ∧ r.codim = 1 ∧ (∀ t, P t → Calm r t) ∧
      ∀ t, val r 0 t = (terms.map fun q => q.2 * ∑ c ∈ range f.codim, dval f q.1 c t * dval g q.1 c t).sum := by
  obtain ⟨r, r1, r2, r3, r4, r5, r6⟩ := semiFold_calm hf hg hc hdom P terms ho hq (s := zero f.dom 1) (S := fun _ => 0)
    (.toExpr (f := wrap (const f.dom [0])) (.wrap (.const _ _ (by simp)))) rfl (fun t _ => .unique _ _ _ _ fun a ha => by
      rw [List.mem_singleton.mp ha]; exact .const _ _ _) (fun t => by
      unfold zero; rw [call, run_expr]; simp [evalTy, evalUnique, run, codim, ev])
  exact ⟨r, r1, r2, r3, r4, r5, fun t => by rw [val_of_call (r6 t)]; simp⟩

/-! ## Derivatives of order zero -/

theorem run_one (d : ℝ × ℝ) (a : Fn) : (expr d a.codim .unique [a]).run = a.run := by
  rw [run_expr]
  funext cols ts
  simp [evalTy, evalUnique, ev]

/-- `a` is another object for the function `f`. -/
structure Same (f a : Fn) : Prop where
  dom : a.dom = f.dom
  codim : a.codim = f.codim
  run : a.run = f.run
  calm : ∀ t, Calm f t → Calm a t

theorem Same.refl (f : Fn) : Same f f := ⟨rfl, rfl, rfl, fun _ h => h⟩

theorem Same.ev {f a : Fn} (h : Same f a) : a.ev = f.ev := by unfold Fn.ev; rw [h.dom, h.codim, h.run]

theorem Same.val {f a : Fn} (h : Same f a) : val a = val f := by
  unfold Spec.val call
  rw [h.codim, h.run]

theorem Same.one {f a : Fn} (h : Same f a) : Same f (expr f.dom f.codim .unique [a]) := by
  refine ⟨rfl, rfl, ?_, fun t ht => .unique _ _ _ _ fun b hb => by rw [List.mem_singleton.mp hb]; exact h.calm t ht⟩
  rw [← h.codim, run_one, h.run]

theorem same_derivs {args : List Fn} (h : ∀ a ∈ args, ∃ a', a.deriv 0 = .ok a' ∧ Same a a') : ∃ ds, derivs args 0 = .ok ds ∧ List.Forall₂ Same args ds := by
  induction args with
  | nil => exact ⟨[], by rw [derivs], .nil⟩
  | cons a l ih =>
    obtain ⟨a', e1, e2⟩ := h a (by simp)
    obtain ⟨ds, f1, f2⟩ := ih fun b hb => h b (by simp [hb])
    refine ⟨a' :: ds, ?_, .cons e2 f2⟩
    rw [derivs, e1]
    change (do let l' ← derivs l 0; return a' :: l') = _
    rw [f1]
    rfl

theorem forall₂_ev {l l' : List Fn} (h : List.Forall₂ Same l l') : l'.map ev = l.map ev := by
  induction h with
  | nil => rfl
  | cons h _ ih => rw [List.map_cons, List.map_cons, h.ev, ih]

theorem forall₂_mem {l l' : List Fn} (h : List.Forall₂ Same l l') : ∀ b ∈ l', ∃ a ∈ l, Same a b := by
  induction h with
  | nil => intro b hb; cases hb
  | cons h _ ih =>
    intro b hb
    rcases List.mem_cons.mp hb with rfl | hb
    · exact ⟨_, by simp, h⟩
    · obtain ⟨a, ha, h'⟩ := ih b hb
      exact ⟨a, by simp [ha], h'⟩

/-- An expression whose elements are replaced. -/
theorem same_expr {d : ℝ × ℝ} {c : ℕ} {ty : Ty} {args ds : List Fn} (h : List.Forall₂ Same args ds) (hty : ty ≠ .comp) : Same (expr d c ty args) (expr d c ty ds) := by
  refine ⟨rfl, rfl, by rw [run_expr, run_expr, forall₂_ev h], fun t ht => ?_⟩
  have key : (∀ a ∈ args, Calm a t) → ∀ b ∈ ds, Calm b t := fun H b hb => by
    obtain ⟨a, ha, hab⟩ := forall₂_mem h b hb
    exact hab.calm t (H a ha)
  cases ht with
  | sum _ _ _ _ H => exact .sum _ _ _ _ (key H)
  | mul _ _ _ _ H => exact .mul _ _ _ _ (key H)
  | comp => exact absurd rfl hty
  | unique _ _ _ _ H => exact .unique _ _ _ _ (key H)
  | neg _ _ _ _ H => exact .neg _ _ _ _ (key H)
  | concat _ _ _ _ H1 H2 =>
    refine .concat _ _ _ _ (fun b hb e1 e2 => ?_) fun b hb b' hb' e1 e2 k hk => ?_
    · obtain ⟨a, ha, hab⟩ := forall₂_mem h b hb
      rw [hab.dom] at e1 e2
      exact hab.calm _ (H1 a ha e1 e2)
    · obtain ⟨a, ha, hab⟩ := forall₂_mem h b hb
      obtain ⟨a', ha', hab'⟩ := forall₂_mem h b' hb'
      rw [hab.dom] at e1
      rw [hab'.dom] at e2
      rw [hab.val, hab'.val]
      exact H2 a ha a' ha' e1 e2 k hk

/-- The derivative of order zero. -/
theorem deriv_same {f : Fn} (hg : Good f) : ∃ a, f.deriv 0 = .ok a ∧ Same f a := by
  induction hg with
  | const d v => exact ⟨.const d v, by rw [Fn.deriv]; rfl, .refl _⟩
  | dil d c => exact ⟨_, by rw [Fn.deriv]; rfl, (Same.refl (Fn.dil d c)).one⟩
  | ident d =>
    refine ⟨_, by rw [Fn.deriv]; rfl, (Same.mk rfl rfl (run_clone (Fn.ident d)) fun t _ => ?_ : Same (Fn.ident d) (Fn.dil d 1)).one⟩
    exact .dil _ _ _
  | exp d => exact ⟨_, by rw [Fn.deriv], .refl _⟩
  | cos d => exact ⟨_, by rw [Fn.deriv]; rfl, (Same.refl (Fn.cos d)).one⟩
  | sin d => exact ⟨_, by rw [Fn.deriv]; rfl, (Same.refl (Fn.sin d)).one⟩
  | poly d a h => exact ⟨_, by rw [Fn.deriv]; rfl, .refl _⟩
  | user d c F => exact ⟨_, by rw [Fn.deriv]; rfl, .refl _⟩
  | gspl g hb hc hp hd =>
    refine ⟨.gspl g, ?_, .refl _⟩
    have : g.deriv 0 = .ok g := by
      unfold GSpline.deriv GSpline.make
      rw [if_neg (by simp), if_pos hd, if_neg]
      unfold Consistent at hc
      simpa [GSpline.nIntervals] using hc
    rw [Fn.deriv, this]
    rfl
  | dot d f g _ _ hc e1 e2 => exact ⟨wrap (.dot d f g), by rw [Fn.deriv], ⟨rfl, rfl, run_wrap _, fun t ht => calm_wrap ht⟩⟩
  | expr d c ty args _ hs ih =>
    obtain ⟨ds, h1, h2⟩ := same_derivs ih
    cases ty with
    | mul =>
      obtain ⟨a, rest, rfl, rfl, rfl, -⟩ := hs
      exact ⟨_, by rw [Fn.deriv], .refl _⟩
    | comp =>
      obtain ⟨⟨a, rest, rfl, rfl⟩, init, z, hz, rfl, -⟩ := hs
      refine ⟨_, by rw [Fn.deriv], ?_⟩
      have : (a :: rest).getLast (by simp) = z := by simp [hz]
      rw [this]
      exact .refl _
    | sum =>
      obtain ⟨⟨a, rest, rfl, rfl⟩, hcod⟩ := hs
      refine ⟨_, ?_, same_expr h2 (by simp)⟩
      rw [Fn.deriv]
      · rw [h1]
        change derivLin .sum (a :: rest) ds = _
        simp [derivLin, hcod a (by simp)]
      all_goals simp
    | concat =>
      obtain ⟨hp, hcod⟩ := hs
      cases args with
      | nil => exact hp.elim
      | cons a rest =>
        refine ⟨_, ?_, same_expr h2 (by simp)⟩
        rw [Fn.deriv]
        · rw [h1]
          change derivLin .concat (a :: rest) ds = _
          have hl := getLast_dom hp (by simp)
          have hf : a.dom.1 = d.1 := by
            cases rest with
            | nil => exact congrArg Prod.fst hp.1
            | cons => exact hp.1
          have hlt := pieces_lt hp
          simp only [derivLin]
          rw [if_neg (by simp), if_pos trivial, if_pos (by rw [hl, hf]; exact hlt.le), hl, hf, hcod a (by simp)]
        all_goals simp
    | unique =>
      obtain ⟨a, rfl, rfl, rfl⟩ := hs
      refine ⟨_, ?_, same_expr h2 (by simp)⟩
      rw [Fn.deriv]
      · rw [h1]
        change derivLin .unique [a] ds = _
        simp [derivLin]
      all_goals simp
    | neg =>
      obtain ⟨a, rfl, rfl, rfl⟩ := hs
      refine ⟨_, ?_, same_expr h2 (by simp)⟩
      rw [Fn.deriv]
      · rw [h1]
        change derivLin .neg [a] ds = _
        simp [derivLin]
      all_goals simp

theorem derivate_same {f : Fn} (hf : Regular f) : ∃ a, f.derivate 0 = .ok a ∧ Same f a := by
  obtain ⟨a, h1, h2⟩ := deriv_same (good_of_regular hf).1
  exact ⟨_, by unfold derivate; rw [h1]; rfl, h2.one⟩

theorem order_zero {f : Fn} (hg : Good f) : OrderOk 0 f := by
  induction hg with
  | const d v => exact .const d v
  | dil d c => exact .dil d c
  | ident d => exact .ident d
  | exp d => exact .exp d
  | cos d => exact .cos d
  | sin d => exact .sin d
  | poly d a h => exact .poly d a
  | user d c F => exact .user d c F
  | gspl g hb hc hp hd =>
    refine .gspl g ?_
    cases h : g.basis <;> simp [Basis.MatOrderOk]
  | dot d f g _ _ hc e1 e2 => exact .dot d f g
  | expr d c ty args _ hs ih => exact .expr d c ty args ih

/-- **C105.** `derivate(0)` returns the same function: same domain, same number of components, same outcome of every evaluation. -/
theorem C105_order_zero (f : Fn) (hf : Regular f) : ∃ a, f.derivate 0 = .ok a ∧ a.dom = f.dom ∧ a.codim = f.codim ∧ ∀ ts, a.call ts = f.call ts := by
  obtain ⟨a, h1, h2⟩ := derivate_same hf
  refine ⟨a, h1, h2.dom, h2.codim, fun ts => ?_⟩
  unfold call
  rw [h2.run, h2.codim]

/-! ## The property -/

/-- **C105.** Let `f` and `g` have the same domain and number of components, let the derivatives that occur have no jumps, and let the weighted sum `φ` of the products of the derivatives
be `2 n - 2` times continuously differentiable on each of the `k` intervals. There are constants `C` and `δ > 0` such that for errors below `δ` every run of
`sobolev_semi_inner_product` returns the integral of `φ`, up to the error of exact arithmetic (C82) plus `C` times the size of the rounding errors. -/
theorem C105_inner_product (f g : Fn) (hf : Regular f) (hg : Regular g) (hc : f.codim = g.codim) (hdom : f.dom = g.dom) (hd : f.dom.1 < f.dom.2) (terms : List (ℕ × ℝ))
    (ho : ∀ q ∈ terms, OrderOk q.1 f ∧ OrderOk q.1 g)
    (hq : ∀ q ∈ terms, ∀ a, f.derivate q.1 = .ok a ∨ g.derivate q.1 = .ok a → ∀ t, f.dom.1 ≤ t → t ≤ f.dom.2 → Calm a t)
    (n k : ℕ) (h2 : 2 ≤ n) (hn : n ≤ 20000) (hk : 0 < k) (φ : ℝ → ℝ)
    (hφ : ∀ t, φ t = (terms.map fun q => q.2 * ∑ c ∈ range f.codim, dval f q.1 c t * dval g q.1 c t).sum) (D : ℝ) (ψ : ℕ → ℝ → ℝ)
    (hψ : ∀ iv < k, ContDiff ℝ (2 * n - 2 : ℕ) (ψ iv))
    (hag : ∀ iv < k, ∀ t, gridPoint f.dom k iv (-1) ≤ t → t ≤ gridPoint f.dom k iv 1 → φ t = ψ iv t)
    (hD : ∀ iv < k, ∀ t, gridPoint f.dom k iv (-1) ≤ t → t ≤ gridPoint f.dom k iv 1 → |iteratedDeriv (2 * n - 2) (ψ iv) t| ≤ D) (L M : ℝ)
    (hL : ∀ s t, f.dom.1 ≤ s → s ≤ f.dom.2 → f.dom.1 ≤ t → t ≤ f.dom.2 → |φ s - φ t| ≤ L * |s - t|) (hM : ∀ t, f.dom.1 ≤ t → t ≤ f.dom.2 → |φ t| ≤ M) :
    ∃ C δ, 0 < δ ∧ ∀ u, Small u δ → ∀ jp jw o, Rounded.semiInner u f g terms n k jp jw o → ∃ v, o = .ok v ∧
      |v - ∫ t in f.dom.1..f.dom.2, φ t| ≤
        (f.dom.2 - f.dom.1) * (2 * (D * Spec.step f k ^ (2 * n - 2) / (2 * n - 2).factorial) + 1 / 10 ^ 9 * L * Spec.step f k / 2 + 2 * (((n : ℝ) - 1 / 2) ^ 4 / 10 ^ 18) * M) + C * (u.1 + u.2) := by
  obtain ⟨r, r1, r2, r3, r4, r5, r6⟩ := integrand hf hg hc hdom terms ho (fun t => f.dom.1 ≤ t ∧ t ≤ f.dom.2) (fun q h a ha t ht => hq q h a ha t ht.1 ht.2)
  have hv : val r 0 = φ := funext fun t => (r6 t).trans (hφ t).symm
  have hc0 : ∀ c < r.codim, c = 0 := fun c h => by rw [r4] at h; omega
  obtain ⟨C, δ, hδ, H⟩ := C100_integral r (good_of_regular r2).1 r4 (by rw [r3]; exact hd) (fun t a b => r5 t (by rw [← r3]; exact ⟨a, b⟩)) n k h2 hn hk D (fun iv _ => ψ iv)
    ⟨fun iv hiv _ _ => hψ iv hiv, fun iv hiv c hcc t a b => by rw [hc0 c hcc, hv]; rw [r3] at a b; exact hag iv hiv t a b,
      fun iv hiv c _ t a b => by rw [r3] at a b; exact hD iv hiv t a b⟩ L M (by rw [hv, r3]; exact hL) (by rw [hv, r3]; exact hM)
  refine ⟨C, δ, hδ, fun u hu jp jw o h => ?_⟩
  unfold Rounded.semiInner at h
  rw [r1] at h
  rcases h with ⟨e, he, -⟩ | ⟨s, hs, h⟩
  · cases he
  · obtain rfl : s = r := by injection hs
    have := H u hu jp jw o h
    rw [r3, hv, show Spec.step s k = Spec.step f k by unfold Spec.step; rw [r3]] at this
    exact this

/-- **C105** (`l2_inner_product`). For functions without jumps whose product is `2 n - 2` times continuously differentiable on each of the `k` intervals, every run with small enough errors
returns the integral of the product up to the error of exact arithmetic plus `C` times the size of the errors. Here nothing is assumed of derivatives. -/
theorem C105_l2 (f g : Fn) (hf : Regular f) (hg : Regular g) (hc : f.codim = g.codim) (hdom : f.dom = g.dom) (hd : f.dom.1 < f.dom.2)
    (hcf : ∀ t, f.dom.1 ≤ t → t ≤ f.dom.2 → Calm f t) (hcg : ∀ t, g.dom.1 ≤ t → t ≤ g.dom.2 → Calm g t)
    (n k : ℕ) (h2 : 2 ≤ n) (hn : n ≤ 20000) (hk : 0 < k) (φ : ℝ → ℝ) (hφ : ∀ t, φ t = ∑ c ∈ range f.codim, val f c t * val g c t) (D : ℝ) (ψ : ℕ → ℝ → ℝ)
    (hψ : ∀ iv < k, ContDiff ℝ (2 * n - 2 : ℕ) (ψ iv))
    (hag : ∀ iv < k, ∀ t, gridPoint f.dom k iv (-1) ≤ t → t ≤ gridPoint f.dom k iv 1 → φ t = ψ iv t)
    (hD : ∀ iv < k, ∀ t, gridPoint f.dom k iv (-1) ≤ t → t ≤ gridPoint f.dom k iv 1 → |iteratedDeriv (2 * n - 2) (ψ iv) t| ≤ D) (L M : ℝ)
    (hL : ∀ s t, f.dom.1 ≤ s → s ≤ f.dom.2 → f.dom.1 ≤ t → t ≤ f.dom.2 → |φ s - φ t| ≤ L * |s - t|) (hM : ∀ t, f.dom.1 ≤ t → t ≤ f.dom.2 → |φ t| ≤ M) :
    ∃ C δ, 0 < δ ∧ ∀ u, Small u δ → ∀ jp jw o, Rounded.l2Inner u f g n k jp jw o → ∃ v, o = .ok v ∧
      |v - ∫ t in f.dom.1..f.dom.2, φ t| ≤
        (f.dom.2 - f.dom.1) * (2 * (D * Spec.step f k ^ (2 * n - 2) / (2 * n - 2).factorial) + 1 / 10 ^ 9 * L * Spec.step f k / 2 + 2 * (((n : ℝ) - 1 / 2) ^ 4 / 10 ^ 18) * M) + C * (u.1 + u.2) := by
  obtain ⟨a, a1, a2⟩ := derivate_same hf
  obtain ⟨b, b1, b2⟩ := derivate_same hg
  refine C105_inner_product f g hf hg hc hdom hd [(0, 1)] (fun q hq => ?_) (fun q hq x hx t h3 h4 => ?_) n k h2 hn hk φ (fun t => ?_) D ψ hψ hag hD L M hL hM
  · rw [List.mem_singleton.mp hq]
    exact ⟨order_zero (good_of_regular hf).1, order_zero (good_of_regular hg).1⟩
  · rw [List.mem_singleton.mp hq] at hx
    rcases hx with hx | hx
    · rw [a1] at hx
      cases hx
      exact a2.calm t (hcf t h3 h4)
    · rw [b1] at hx
      cases hx
      exact b2.calm t (hcg t (hdom ▸ h3) (hdom ▸ h4))
  · have e1 : ∀ c, dval f 0 c t = val f c t := fun c => by unfold dval; rw [a1]; exact congrFun (congrFun a2.val c) t
    have e2 : ∀ c, dval g 0 c t = val g c t := fun c => by unfold dval; rw [b1]; exact congrFun (congrFun b2.val c) t
    simp [hφ, e1, e2]

/-- **C105.** The norms are the inner products of a function with itself, those of degree `deg` have the orders up to `deg` with weight one, and the L2 products the order zero. -/
theorem C105_norms (u : ℝ × ℝ) (f g : Fn) (terms : List (ℕ × ℝ)) (deg n k : ℕ) (jp jw : Vec) :
    Rounded.semiNorm u f terms n k jp jw = Rounded.semiInner u f f terms n k jp jw ∧ Rounded.sobolevNorm u f deg n k jp jw = Rounded.sobolevInner u f f deg n k jp jw ∧
    Rounded.l2Norm u f n k jp jw = Rounded.l2Inner u f f n k jp jw ∧
    Rounded.sobolevInner u f g deg n k jp jw = Rounded.semiInner u f g ((List.range (deg + 1)).map fun i => (i, 1)) n k jp jw ∧
    Rounded.l2Inner u f g n k jp jw = Rounded.semiInner u f g [(0, 1)] n k jp jw := ⟨rfl, rfl, rfl, rfl, rfl⟩

/-- **C105.** No run leaves its buffers, whatever the size of the errors. -/
theorem C105_in_range (u : ℝ × ℝ) (f g : Fn) (hf : Regular f) (hg : Regular g) (hc : f.codim = g.codim) (hdom : f.dom = g.dom) (terms : List (ℕ × ℝ))
    (ho : ∀ q ∈ terms, OrderOk q.1 f ∧ OrderOk q.1 g) (n k : ℕ) (h2 : 2 ≤ n) (jp jw : Vec) (o : Res ℝ) (h : Rounded.semiInner u f g terms n k jp jw o) : o ≠ .error .ub := by
  obtain ⟨r, r1, r2, -⟩ := integrand hf hg hc hdom terms ho (fun _ => False) (fun _ _ _ _ _ h => h.elim)
  unfold Rounded.semiInner at h
  rw [r1] at h
  rcases h with ⟨e, he, -⟩ | ⟨s, hs, h⟩
  · cases he
  · obtain rfl : s = r := by injection hs
    exact C94_in_range u s (good_of_regular r2).1 n k h2 jp jw o h

/-- **C105.** The result of exact arithmetic is among the possible ones. -/
theorem C105_exact (u : ℝ × ℝ) (h1 : 0 ≤ u.1) (h2 : 0 ≤ u.2) (f g : Fn) (hf : Regular f) (hg : Regular g) (hc : f.codim = g.codim) (hdom : f.dom = g.dom) (terms : List (ℕ × ℝ))
    (ho : ∀ q ∈ terms, OrderOk q.1 f ∧ OrderOk q.1 g) (n k : ℕ) (jp jw : Vec) (v : ℝ) (h : semiInner f g terms n k jp jw = .ok v) :
    Rounded.semiInner u f g terms n k jp jw (.ok v) := by
  obtain ⟨r, r1, r2, -⟩ := integrand hf hg hc hdom terms ho (fun _ => False) (fun _ _ _ _ _ h => h.elim)
  unfold semiInner at h
  rw [r1] at h
  unfold Rounded.semiInner
  rw [r1]
  exact Rounded.Has.bind (Rounded.Has.lift r) (C94_exact u h1 h2 r (good_of_regular r2).1 n k jp jw v h)

/-- The hypotheses can be met: for `exp` on `[0, 1]` with the weights 1 and 2 of the orders 0 and 1, ten intervals and four points, every run with small enough errors returns
`3 (e² - 1) / 2` up to `10⁻⁴` plus a multiple of the errors. -/
example : ∃ C δ : ℝ, 0 < δ ∧ ∀ u, Small u δ → ∀ jp jw o, Rounded.semiInner u (Fn.exp (0, 1)) (Fn.exp (0, 1)) [(0, 1), (1, 2)] 4 10 jp jw o →
    ∃ v, o = .ok v ∧ |v - 3 * ((Real.exp 2 - 1) / 2)| ≤ 1 / 10 ^ 4 + C * (u.1 + u.2) := by
  have hv : ∀ m t, dval (Fn.exp (0, 1)) m 0 t = Real.exp t := fun m t => by
    rw [dval_smooth (.exp _) (.exp _) (.exp _ _) (by norm_num [codim]), show val (Fn.exp (0, 1)) 0 = Real.exp from funext fun t => exp_val _ t, iteratedDeriv_eq_iterate, Real.iter_deriv_exp]
  have hnine : ∀ t : ℝ, t ≤ 1 → Real.exp (2 * t) ≤ 9 := fun t ht => by
    rw [two_mul, Real.exp_add]
    have := exp_le_three ht
    have := Real.exp_pos t
    nlinarith
  have hder : ∀ k, iteratedDeriv k (fun t : ℝ => 3 * Real.exp (2 * t)) = fun t => 3 * (2 ^ k * Real.exp (2 * t)) := fun k => by
    have h := iteratedDeriv_comp_const_mul (n := k) (f := Real.exp) Real.contDiff_exp 2
    funext t
    rw [iteratedDeriv_const_mul_field, h, iteratedDeriv_eq_iterate, Real.iter_deriv_exp]
  have hle : ∀ iv < 10, ∀ s, s ≤ gridPoint (Fn.exp (0, 1)).dom 10 iv 1 → s ≤ 1 := fun iv hiv s b =>
    b.trans (gridPoint_mem (by norm_num [dom]) hiv (x := 1) ⟨by norm_num, le_rfl⟩).2.2.2
  obtain ⟨C, δ, hδ, H⟩ := C105_inner_product (Fn.exp (0, 1)) (Fn.exp (0, 1)) (.exp _) (.exp _) rfl rfl (by norm_num [dom]) [(0, 1), (1, 2)] (fun q _ => ⟨.exp _, .exp _⟩)
    (fun q _ a ha t _ _ => by
      have : (Fn.exp (0, 1)).derivate q.1 = .ok (expr (0, 1) 1 .unique [Fn.exp (0, 1)]) := rfl
      rw [this, or_self] at ha
      cases ha
      exact .unique _ _ _ _ fun a ha => by rw [List.mem_singleton.mp ha]; exact .exp _ _) 4 10
    (by norm_num) (by norm_num) (by norm_num) (fun t => 3 * Real.exp (2 * t)) (fun t => by simp [codim, hv, two_mul, Real.exp_add]; ring) (3 * (64 * 9)) (fun _ t => 3 * Real.exp (2 * t))
    (fun _ _ => contDiff_const.mul (Real.contDiff_exp.comp (contDiff_const.mul contDiff_id))) (fun _ _ _ _ _ => rfl)
    (fun iv hiv t _ b => by
      rw [hder, abs_of_pos (by positivity)]
      have := hnine t (hle iv hiv t b)
      norm_num
      linarith) 54 27
    (fun s t _ a _ b => by
      have := (convex_Iic (1 : ℝ)).norm_image_sub_le_of_norm_hasDerivWithin_le (f := fun t : ℝ => 3 * Real.exp (2 * t)) (f' := fun t => 3 * (Real.exp (2 * t) * (2 * 1))) (C := 54)
        (fun x _ => ((((hasDerivAt_id x).const_mul 2).exp).const_mul 3).hasDerivWithinAt)
        (fun x hx => by
          rw [Real.norm_eq_abs, abs_of_pos (by positivity)]
          have := hnine x hx
          linarith) (Set.mem_Iic.mpr b) (Set.mem_Iic.mpr a)
      exact this)
    (fun t _ b => by
      rw [abs_of_pos (by positivity)]
      linarith [hnine t b])
  refine ⟨C, δ, hδ, fun u hu jp jw o ho => ?_⟩
  obtain ⟨v, e, b⟩ := H u hu jp jw o ho
  refine ⟨v, e, ?_⟩
  have hi : ∫ t in (Fn.exp (0, 1)).dom.1..(Fn.exp (0, 1)).dom.2, 3 * Real.exp (2 * t) = 3 * ((Real.exp 2 - 1) / 2) := by
    simp only [dom]
    rw [intervalIntegral.integral_const_mul, intervalIntegral.integral_comp_mul_left (fun t => Real.exp t) (by norm_num : (2 : ℝ) ≠ 0), integral_exp]
    norm_num
    ring
  rw [hi] at b
  refine b.trans (add_le_add_left ?_ _)
  norm_num [Spec.step, dom, Nat.factorial]

/-- The hypotheses of `C105_l2` hold for `t ↦ 3 t` and `t ↦ t` on `[0, 1]`; the integral of the product is 1. -/
example : ∃ C δ : ℝ, 0 < δ ∧ ∀ u, Small u δ → ∀ jp jw o, Rounded.l2Inner u (Fn.dil (0, 1) 3) (Fn.ident (0, 1)) 4 1 jp jw o →
    ∃ v, o = .ok v ∧ |v - 1| ≤ 1 / 10 ^ 8 + C * (u.1 + u.2) := by
  have v1 : ∀ t, val (Fn.dil (0, 1) 3) 0 t = 3 * t := fun t => by rw [val_of_call (show (Fn.dil (0, 1) 3).call [t] = .ok [[3 * t]] from rfl)]; rfl
  have v2 : ∀ t, val (Fn.ident (0, 1)) 0 t = t := fun t => by rw [val_of_call (show (Fn.ident (0, 1)).call [t] = .ok [[t]] from rfl)]; rfl
  have hder : iteratedDeriv 6 (fun t : ℝ => 3 * t ^ 2) = fun _ => 0 := by
    funext t
    simp [iteratedDeriv_eq_iterate]
  obtain ⟨C, δ, hδ, H⟩ := C105_l2 (Fn.dil (0, 1) 3) (Fn.ident (0, 1)) (.dil _ _) (.ident _) rfl rfl (by norm_num [dom]) (fun t _ _ => .dil _ _ _) (fun t _ _ => .ident _ _) 4 1
    (by norm_num) (by norm_num) (by norm_num) (fun t => 3 * t ^ 2) (fun t => by simp [codim, v1, v2]; ring) 0 (fun _ t => 3 * t ^ 2)
    (fun _ _ => by fun_prop) (fun _ _ _ _ _ => rfl) (fun _ _ t _ _ => by rw [show 2 * 4 - 2 = 6 from rfl, hder, abs_zero]) 6 3
    (fun s t a b c d => by
      simp only [dom] at a b c d
      rw [show 3 * s ^ 2 - 3 * t ^ 2 = 3 * (s + t) * (s - t) by ring, abs_mul]
      refine mul_le_mul_of_nonneg_right ?_ (abs_nonneg _)
      rw [abs_le]
      constructor <;> linarith)
    (fun t a b => by
      simp only [dom] at a b
      rw [abs_of_nonneg (by positivity)]
      nlinarith)
  refine ⟨C, δ, hδ, fun u hu jp jw o ho => ?_⟩
  obtain ⟨v, e, b⟩ := H u hu jp jw o ho
  refine ⟨v, e, ?_⟩
  have hi : ∫ t in (Fn.dil (0, 1) 3).dom.1..(Fn.dil (0, 1) 3).dom.2, 3 * t ^ 2 = (1 : ℝ) := by
    simp only [dom]
    rw [intervalIntegral.integral_const_mul, integral_pow]
    norm_num
  rw [hi] at b
  refine b.trans (add_le_add_left ?_ _)
  norm_num [Spec.step, dom, Nat.factorial]

end GSplines.Props
