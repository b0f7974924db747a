import Verif.Proofs.FnRegular
import Verif.Proofs.FnDerivN
import Verif.Proofs.InterpUnique

/-!
# `deriv(n)` and `n` first derivatives return the same values, at all points
-/

namespace GSplines

open Finset Spec

namespace Basis

open Polynomial in
theorem comb_poly_inj {b : Basis} (hb : b.Valid) (hn : ∀ a, b ≠ .b0101 a) {y z : Vec} (h : comb b 2 y = comb b 2 z) : ∀ k < b.dim, y k = z k := by
  have poly : ∀ p q : ℝ[X], (∀ t : ℝ, p.eval (window 2 t) = q.eval (window 2 t)) → p = q := by
    intro p q hp
    refine Polynomial.funext fun s => ?_
    have := hp (s + 1)
    rwa [show window 2 (s + 1) = s by unfold window; ring] at this
  cases b with
  | legendre n =>
    rw [comb_poly_legendre, comb_poly_legendre] at h
    exact Legendre.comb_inj n (y := y) (z := z) (poly _ _ fun t => congrFun h t)
  | lagrange x =>
    rw [comb_poly_lagrange, comb_poly_lagrange] at h
    have e := poly _ _ fun t => congrFun h t
    have hinj : Set.InjOn (vecOf x) (range x.length) := Props.Separated.distinct hb
    intro k hk
    have e1 := _root_.Lagrange.eval_interpolate_at_node (s := range x.length) (v := vecOf x) y hinj (mem_range.mpr hk)
    have e2 := _root_.Lagrange.eval_interpolate_at_node (s := range x.length) (v := vecOf x) z hinj (mem_range.mpr hk)
    rw [_root_.Lagrange.interpolate_apply] at e1 e2
    rw [← e1, ← e2, e]
  | b0101 a => exact absurd rfl (hn a)

/-- The derivative matrices of two consecutive orders. -/
theorem derivBlock_succ {b : Basis} (hb : b.Valid) {n : ℕ} (hn : 0 < n) (ho : b.MatOrderOk (n + 1)) (y : Vec) {k : ℕ} (hk : k < b.dim) :
    (b.derivBlock (n + 1)).mulVec b.dim y k = (b.derivBlock n).mulVec b.dim ((b.derivBlock 1).mulVec b.dim y) k := by
  by_cases h : ∃ a, b = .b0101 a
  · obtain ⟨a, rfl⟩ := h
    change n + 1 ≤ 2 at ho
    obtain rfl : n = 1 := by omega
    change (B0101.derivMatrixImpl a 2).mulVec 6 y k = (B0101.derivMatrixImpl a 1).mulVec 6 ((B0101.derivMatrixImpl a 1).mulVec 6 y) k
    have e : B0101.derivMatrixImpl a 2 = (B0101.derivMatrixImpl a 1).mul 6 (B0101.derivMatrixImpl a 1) := by
      unfold B0101.derivMatrixImpl
      simp [forLoop]
    rw [e, Legendre.mulVec_mul]
  · push Not at h
    have h1 : ∀ m, b.MatOrderOk m := by intro m; cases b with
      | b0101 a => exact absurd rfl (h a)
      | _ => trivial
    have hs : ∀ (z : Vec) m, (fun k => z k * b.dscale 2 m) = z := by
      intro z m; funext k
      cases b with
      | b0101 a => exact absurd rfl (h a)
      | _ => simp [dscale]
    refine comb_poly_inj hb h ?_ k hk
    have key : ∀ m (z : Vec), comb b 2 ((b.derivBlock m).mulVec b.dim z) = iteratedDeriv m (comb b 2 z) := by
      intro m z
      have := derivBlock_spec hb 2 two_ne_zero m (h1 m) z
      rwa [hs] at this
    rw [key, key, key, iteratedDeriv_one, iteratedDeriv_succ']

end Basis

namespace GSpline

theorem derivScale_succ (b : Basis) (tau : ℝ) {n : ℕ} (hn : 0 < n) : derivScale b tau (n + 1) = derivScale b tau 1 * derivScale b tau n := by
  unfold derivScale
  cases b with
  | b0101 a => simp [hn.ne']
  | _ => simp [pow_succ, mul_comm]

theorem deriv_succ {g g1 : GSpline} (hb : g.basis.Valid) (hcon : Consistent g) (hz : 0 ∉ g.tau) (hd : g.dom.1 ≤ g.dom.2) {n : ℕ}
    (ho : g.basis.MatOrderOk (n + 1)) (h : g.deriv 1 = .ok g1) : g1.deriv n = g.deriv (n + 1) := by
  rw [deriv_ok hd hcon hz] at h
  injection h with h
  rw [if_pos one_pos] at h
  have hcon1 : Consistent g1 := by rw [← h]; unfold Consistent; simp only [List.length_map, List.length_range]; exact hcon
  have e : g1.deriv n = .ok { g1 with coeffs := if 0 < n then (List.range g1.coeffs.length).map (g1.derivCoeffs n) else g1.coeffs } := by
    refine deriv_ok ?_ hcon1 ?_ n
    · rw [← h]; exact hd
    · rw [← h]; exact hz
  rw [e, deriv_ok hd hcon hz, if_pos (Nat.succ_pos n)]
  rcases Nat.eq_zero_or_pos n with rfl | hn
  · rw [if_neg (by omega), ← h]
  rw [if_pos hn]
  have hl : g1.coeffs.length = g.coeffs.length := by rw [← h]; simp
  have ec : (List.range g1.coeffs.length).map (g1.derivCoeffs n) = (List.range g.coeffs.length).map (g.derivCoeffs (n + 1)) := by
    rw [hl]
    refine List.map_congr_left fun x hx => ?_
    have hx := List.mem_range.mp hx
    obtain ⟨i, c, k, hi, hc, hk, rfl⟩ := coefIdx_surj (hcon ▸ hx)
    rw [derivCoeffs_spec g (n + 1) hi hc hk]
    have hb1 : g1.basis = g.basis := by rw [← h]
    have hc1 : g1.codim = g.codim := by rw [← h]
    have ht1 : g1.tau = g.tau := by rw [← h]
    have := derivCoeffs_spec g1 n (i := i) (c := c) (k := k) (by rw [ht1]; exact hi) (by rw [hc1]; exact hc) (by rw [hb1]; exact hk)
    rw [hb1, hc1, ht1] at this
    rw [this, Basis.derivBlock_succ hb hn ho _ hk, derivScale_succ _ _ hn, ← mul_assoc]
    congr 1
    have hlin : ∀ (m : Mat) (y : Vec) (s : ℝ) j, m.mulVec g.basis.dim (fun k => y k * s) j = m.mulVec g.basis.dim y j * s := by
      intro m y s j
      unfold Mat.mulVec
      rw [sum_mul]
      exact sum_congr rfl fun _ _ => by ring
    rw [← hlin]
    unfold Mat.mulVec
    refine sum_congr rfl fun j hj => ?_
    have hj := mem_range.mp hj
    congr 1
    have hlt : Basis.coefIdx g.basis.dim g.codim i c j < g.coeffs.length := by
      have := coef_bound hcon hi hc
      unfold Basis.coefIdx; omega
    rw [← h]
    dsimp only
    rw [vecOf_map_range hlt, derivCoeffs_spec g 1 hi hc hj]
    rfl
  rw [ec, ← h]

end GSpline

namespace Fn

theorem matOrder_mono {b : Basis} {n : ℕ} (h : b.MatOrderOk (n + 1)) : b.MatOrderOk n := by
  cases b with
  | b0101 a => change n + 1 ≤ 2 at h; change n ≤ 2; omega
  | _ => trivial

theorem iterD1_gspl : ∀ (n : ℕ) {g : GSpline}, g.basis.Valid → Consistent g → 0 ∉ g.tau → g.dom.1 ≤ g.dom.2 → g.basis.MatOrderOk n →
    iterD1 n (gspl g) = (gspl g).deriv n := by
  intro n
  induction n with
  | zero =>
    intro g hb hc hz hd ho
    rw [deriv, GSpline.deriv_ok hd hc hz]
    rfl
  | succ n ih =>
    intro g hb hc hz hd ho
    have h := GSpline.deriv_ok hd hc hz 1
    have hs := GSpline.deriv_succ hb hc hz hd ho h
    rw [iterD1, d1, h]
    change iterD1 n (gspl _) = _
    have hc1 : Consistent { g with coeffs := if 0 < 1 then (List.range g.coeffs.length).map (g.derivCoeffs 1) else g.coeffs } := by
      unfold Consistent
      rw [if_pos one_pos, List.length_map, List.length_range]
      exact hc
    have := ih (g := { g with coeffs := if 0 < 1 then (List.range g.coeffs.length).map (g.derivCoeffs 1) else g.coeffs }) hb hc1 hz hd (matOrder_mono ho)
    rw [this, deriv, hs, deriv]

/-! ## Objects with the same values -/

/-- Two objects with the same domain, the same number of components and the same values. -/
def Same (f f' : Fn) : Prop := f'.dom = f.dom ∧ f'.codim = f.codim ∧ f.Tot ∧ f'.Tot ∧ ∀ k < f.codim, val f' k = val f k

theorem Same.run {f f' : Fn} (h : Same f f') {c : ℕ} (hc : f.codim = c) (t : ℝ) : f'.run c [t] = f.run c [t] := by
  subst hc
  obtain ⟨-, h2, h3, h4, h5⟩ := h
  rw [h3.run]
  have := h4.run t
  rw [h2] at this
  rw [this]
  congr 2
  exact List.map_congr_left fun k hk => by rw [h5 k (List.mem_range.mp hk)]

theorem Same.refl {f : Fn} (h : Good f) : Same f f := ⟨rfl, rfl, tot_of_good h, tot_of_good h, fun _ _ => rfl⟩

theorem same_search {l l' : List Fn} (h : List.Forall₂ Same l l') {c : ℕ} (hc : ∀ a ∈ l, a.codim = c) (t : ℝ) :
    (search l' t).map (fun e => e.run c [t]) = (search l t).map (fun e => e.run c [t]) := by
  induction h with
  | nil => rfl
  | cons h _ ih =>
    rename_i a a' l l' _
    rw [search_cons, search_cons, h.1]
    split_ifs
    · exact congrArg some (h.run (hc a (by simp)) t)
    · exact ih fun b hb => hc b (by simp [hb])

theorem same_head {l l' : List Fn} (h : List.Forall₂ Same l l') : (l.head? = none ∧ l'.head? = none) ∨ ∃ a ∈ l, ∃ a', l.head? = some a ∧ l'.head? = some a' ∧ Same a a' := by
  cases h with
  | nil => exact .inl ⟨rfl, rfl⟩
  | cons h _ => exact .inr ⟨_, by simp, _, rfl, rfl, h⟩

theorem same_last {l l' : List Fn} (h : List.Forall₂ Same l l') :
    (l.getLast? = none ∧ l'.getLast? = none) ∨ ∃ a ∈ l, ∃ a', l.getLast? = some a ∧ l'.getLast? = some a' ∧ Same a a' := by
  rcases same_head (List.rel_reverse h) with ⟨h1, h2⟩ | ⟨a, ha, a', h1, h2, h3⟩
  · rw [List.head?_reverse] at h1 h2; exact .inl ⟨h1, h2⟩
  · rw [List.head?_reverse] at h1 h2; exact .inr ⟨a, List.mem_reverse.mp ha, a', h1, h2, h3⟩

open Classical in
theorem same_pickRun {l l' : List Fn} (h : List.Forall₂ Same l l') {c : ℕ} (hc : ∀ a ∈ l, a.codim = c) (t : ℝ) : pickRun l' c t = pickRun l c t := by
  have hs := same_search h hc t
  unfold search at hs
  unfold pickRun
  cases h1 : (l.map ev).find? (fun f => decide (f.has t)) with
  | some e =>
    rw [h1] at hs
    cases h2 : (l'.map ev).find? (fun f => decide (f.has t)) with
    | some e' => rw [h2] at hs; injection hs
    | none => rw [h2] at hs; cases hs
  | none =>
    rw [h1] at hs
    cases h2 : (l'.map ev).find? (fun f => decide (f.has t)) with
    | some e' => rw [h2] at hs; cases hs
    | none =>
      dsimp only
      rcases same_head h with ⟨e1, e2⟩ | ⟨a, ha, a', e1, e2, e3⟩
      · rw [e1, e2]
      · rw [e1, e2]
        rcases same_last h with ⟨e4, e5⟩ | ⟨b, hb, b', e4, e5, e6⟩
        · rw [e4, e5]
        · rw [e4, e5]
          dsimp only
          rw [e3.1, e6.1, e3.run (hc a ha), e6.run (hc b hb)]

theorem same_mem {l l' : List Fn} (h : List.Forall₂ Same l l') : ∀ a' ∈ l', ∃ a ∈ l, Same a a' := by
  induction h with
  | nil => simp
  | cons h _ ih =>
    intro a ha
    rcases List.mem_cons.mp ha with rfl | ha
    · exact ⟨_, by simp, h⟩
    · obtain ⟨a', h1, h2⟩ := ih a ha
      exact ⟨a', by simp [h1], h2⟩

theorem same_listSum {l l' : List Fn} (h : List.Forall₂ Same l l') {k : ℕ} (hk : ∀ a ∈ l, k < a.codim) (t : ℝ) :
    (l'.map fun a => val a k t).sum = (l.map fun a => val a k t).sum := by
  induction h with
  | nil => rfl
  | cons h _ ih =>
    rename_i a a' l l' _
    rw [List.map_cons, List.sum_cons, List.map_cons, List.sum_cons, h.2.2.2.2 k (hk a (by simp)), ih fun b hb => hk b (by simp [hb])]

/-- An expression of a linear type whose elements have the same values. -/
theorem same_lin {d : ℝ × ℝ} {c : ℕ} {ty : Ty} {l l' : List Fn} (hg : Good (expr d c ty l)) (hg' : Good (expr d c ty l')) (h1 : ty ≠ .mul) (h2 : ty ≠ .comp)
    (h : List.Forall₂ Same l l') : Same (expr d c ty l) (expr d c ty l') := by
  refine ⟨rfl, rfl, tot_of_good hg, tot_of_good hg', fun k hk => ?_⟩
  have hk : k < c := hk
  obtain ⟨ga, hs⟩ := good_args hg
  obtain ⟨ga', hs'⟩ := good_args hg'
  cases ty with
  | mul => exact absurd rfl h1
  | comp => exact absurd rfl h2
  | sum =>
    obtain ⟨⟨a, rest, e, -⟩, hc⟩ := hs
    obtain ⟨⟨a', rest', e', -⟩, hc'⟩ := hs'
    rw [(val_sum d (by rw [e]; simp) (fun a ha => tot_of_good (ga a ha)) hc).2 k hk, (val_sum d (by rw [e']; simp) (fun a ha => tot_of_good (ga' a ha)) hc').2 k hk]
    funext t
    exact same_listSum h (fun a ha => by rw [hc a ha]; exact hk) t
  | unique =>
    obtain ⟨a, rfl, -, rfl⟩ := hs
    obtain ⟨a', rfl, -, hc'⟩ := hs'
    cases h with
    | cons h _ =>
      rw [val_unique]
      rw [← hc', val_unique]
      exact h.2.2.2.2 k hk
  | neg =>
    obtain ⟨a, rfl, -, rfl⟩ := hs
    obtain ⟨a', rfl, -, hc'⟩ := hs'
    cases h with
    | cons h _ =>
      rw [(val_neg d h.2.2.1).2 k hk, ← hc', (val_neg d h.2.2.2.1).2 k (by rw [hc']; exact hk), h.2.2.2.2 k hk]
  | concat =>
    obtain ⟨hp, hc⟩ := hs
    obtain ⟨hp', hc'⟩ := hs'
    funext t
    have hne : l ≠ [] := by rintro rfl; exact hp.elim
    have hne' : l' ≠ [] := by rintro rfl; exact hp'.elim
    unfold Spec.val
    rw [call, call, run_expr, run_expr]
    change (match evalConcat (l'.map ev) c [t] with | .ok [r] => r.getD k 0 | _ => 0) = (match evalConcat (l.map ev) c [t] with | .ok [r] => r.getD k 0 | _ => 0)
    rw [evalConcat_single hne hc, evalConcat_single hne' hc', same_pickRun h hc]

/-! ## Repeated first derivatives of expressions of a linear type -/

theorem iterD1_good (n : ℕ) {f : Fn} (h : Good f) : ∃ f', iterD1 n f = .ok f' ∧ Good f' ∧ f'.dom = f.dom ∧ f'.codim = f.codim := by
  obtain ⟨f', h1, h2, h3, h4, -⟩ := iterD1_nstep n h
  exact ⟨f', h1, h2, h3, h4⟩

theorem iterD1_lin {d : ℝ × ℝ} {c : ℕ} {ty : Ty} (h1 : ty ≠ .mul) (h2 : ty ≠ .comp) : ∀ (n : ℕ) {l : List Fn}, Good (expr d c ty l) →
    ∃ l', iterD1 n (expr d c ty l) = .ok (expr d c ty l') ∧ Good (expr d c ty l') ∧ List.Forall₂ (fun a a' => iterD1 n a = .ok a') l l' := by
  intro n
  induction n with
  | zero =>
    intro l hg
    refine ⟨l, rfl, hg, ?_⟩
    induction l with
    | nil => exact .nil
    | cons a l ih => exact List.forall₂_same.mpr fun x _ => rfl
  | succ n ih =>
    intro l hg
    obtain ⟨ga, hs⟩ := good_args hg
    obtain ⟨ds, hds, hF⟩ := exists_mapM (R := fun a b => d1 a = .ok b) fun a ha => (by
      obtain ⟨b, hb, -⟩ := d1_step (ga a ha); exact ⟨b, hb, hb⟩ : ∃ b, d1 a = .ok b ∧ d1 a = .ok b)
    have e : (expr d c ty l).d1 = .ok (expr d c ty ds) := by
      rw [d1.eq_def]
      dsimp only
      rw [d1s_eq, hds]
      cases ty with
      | mul => exact absurd rfl h1
      | comp => exact absurd rfl h2
      | _ => exact derivLin_ok hs (by simp) (by simp)
    obtain ⟨f', hf', hst⟩ := d1_step hg
    rw [e] at hf'
    injection hf' with hf'
    subst hf'
    obtain ⟨l', e1, e2, e3⟩ := ih hst.1
    refine ⟨l', by rw [iterD1, e]; exact e1, e2, ?_⟩
    clear e e1 e2 hst ih hs hg hds ga
    induction hF generalizing l' with
    | nil => cases e3; exact .nil
    | cons h _ ih =>
      cases e3 with
      | cons h' t' => exact .cons (by rw [iterD1, h]; exact h') (ih _ t')

/-- `deriv(n)` has the values of `n` first derivatives. -/
theorem deriv_same {n : ℕ} {f : Fn} (h : Good f) (ho : OrderOk n f) : ∃ f' f'', f.deriv n = .ok f' ∧ iterD1 n f = .ok f'' ∧ Good f' ∧ Good f'' ∧ f'.dom = f.dom ∧
    f'.codim = f.codim ∧ Same f' f'' := by
  have flat : ∀ {f : Fn}, Good f → OrderOk n f → (∀ t, Smooth f t) → ∃ f' f'', f.deriv n = .ok f' ∧ iterD1 n f = .ok f'' ∧ Good f' ∧ Good f'' ∧ f'.dom = f.dom ∧
      f'.codim = f.codim ∧ Same f' f'' := by
    intro f h ho hs
    obtain ⟨f', h1, h2, h3, h4, h5⟩ := deriv_nstep h ho
    obtain ⟨f'', g1, g2, g3, g4, g5⟩ := iterD1_nstep n h
    refine ⟨f', f'', h1, g1, h2, g2, h3, h4, by rw [g3, h3], by rw [g4, h4], tot_of_good h2, tot_of_good g2, fun k hk => ?_⟩
    rw [h4] at hk
    funext t
    rw [(h5 t (hs t)).2 k hk, (g5 t (hs t)).2 k hk]
  have same : ∀ {f : Fn}, Good f → OrderOk n f → f.deriv n = iterD1 n f → ∃ f' f'', f.deriv n = .ok f' ∧ iterD1 n f = .ok f'' ∧ Good f' ∧ Good f'' ∧ f'.dom = f.dom ∧
      f'.codim = f.codim ∧ Same f' f'' := by
    intro f h ho e
    obtain ⟨f', h1, h2, h3, h4⟩ := iterD1_good n h
    exact ⟨f', f', by rw [e]; exact h1, h1, h2, h2, h3, h4, .refl h2⟩
  induction h with
  | const d v => exact flat (.const d v) ho fun t => .const d v t
  | dil d v => exact flat (.dil d v) ho fun t => .dil d v t
  | ident d => exact flat (.ident d) ho fun t => .ident d t
  | exp d => exact flat (.exp d) ho fun t => .exp d t
  | cos d => exact flat (.cos d) ho fun t => .cos d t
  | sin d => exact flat (.sin d) ho fun t => .sin d t
  | poly d a ha => exact flat (.poly d a ha) ho fun t => .poly d a t
  | user d c F => exact same (.user d c F) ho (by rw [iterD1_user, deriv])
  | gspl g hb hc hp hd =>
    cases ho with
    | gspl _ ho => exact same (.gspl g hb hc hp hd) (.gspl g ho) (iterD1_gspl n hb hc hp.not_mem hd ho).symm
  | dot d f g hgf hgg hc hdf hdg _ _ =>
    have hgood : Good (dot d f g) := .dot d f g hgf hgg hc hdf hdg
    cases n with
    | zero =>
      refine ⟨_, _, by rw [deriv], rfl, good_wrap hgood, hgood, rfl, rfl, rfl, rfl, tot_of_good (good_wrap hgood), tot_of_good hgood, fun k _ => ?_⟩
      rw [val_wrap]
    | succ n =>
      refine same hgood ho ?_
      rw [deriv, iterD1, d1]
      simp only [bind_assoc]
  | expr d c ty args hg hs ih =>
    have hgood : Good (expr d c ty args) := .expr d c ty args hg hs
    have lin : ty ≠ .mul → ty ≠ .comp → ∃ f' f'', (expr d c ty args).deriv n = .ok f' ∧ iterD1 n (expr d c ty args) = .ok f'' ∧ Good f' ∧ Good f'' ∧
        f'.dom = (expr d c ty args).dom ∧ f'.codim = (expr d c ty args).codim ∧ Same f' f'' := by
      intro h1 h2
      have ha : ∀ a ∈ args, OrderOk n a := by
        cases ho with
        | mul => exact absurd rfl h1
        | comp => exact absurd rfl h2
        | expr _ _ _ _ ho => exact ho
      obtain ⟨ds, e1, e2⟩ := exists_mapM (R := fun a b => ∃ b', iterD1 n a = .ok b' ∧ Same b b') fun a haa => (by
        obtain ⟨b, b', hb, hb', -, -, -, -, hs⟩ := ih a haa (ha a haa)
        exact ⟨b, hb, b', hb', hs⟩ : ∃ b, a.deriv n = .ok b ∧ ∃ b', iterD1 n a = .ok b' ∧ Same b b')
      obtain ⟨l', f1, f2, f3⟩ := iterD1_lin h1 h2 n hgood
      obtain ⟨f', h3, h4, h5, h6, -⟩ := deriv_nstep hgood ho
      have e3 : (expr d c ty args).deriv n = .ok (expr d c ty ds) := by
        rw [deriv.eq_def]
        dsimp only
        rw [derivs_eq, e1]
        cases ty with
        | mul => exact absurd rfl h1
        | comp => exact absurd rfl h2
        | _ => exact derivLin_ok hs (by simp) (by simp)
      rw [e3] at h3
      injection h3 with h3
      subst h3
      refine ⟨_, _, e3, f1, h4, f2, rfl, rfl, same_lin h4 f2 h1 h2 ?_⟩
      clear e1 e3 f1 f2 h4 h5 h6 ih hg hs hgood ho ha
      induction e2 generalizing l' with
      | nil => cases f3; exact .nil
      | cons h _ ih =>
        cases f3 with
        | cons h' t' =>
          obtain ⟨b', hb', hs⟩ := h
          rw [hb'] at h'
          injection h' with h'
          subst h'
          exact .cons hs (ih _ t')
    cases ty with
    | mul =>
      refine same hgood ho ?_
      cases n with
      | zero =>
        obtain ⟨a, rest, rfl, rfl, rfl, hc⟩ := hs
        rw [deriv.eq_def]; rfl
      | succ n =>
        rw [deriv.eq_def, iterD1, d1.eq_def]
        simp only [bind_assoc]
    | comp =>
      refine same hgood ho ?_
      cases n with
      | zero =>
        obtain ⟨⟨a, rest, rfl, rfl⟩, init, z, he, rfl, hci⟩ := hs
        have hl : (a :: rest).getLast (by simp) = z := by simp only [he]; simp
        rw [deriv.eq_def]
        dsimp only
        rw [hl]; rfl
      | succ n =>
        rw [deriv.eq_def, iterD1, d1.eq_def]
        simp only [bind_assoc]
    | _ => exact lin (by simp) (by simp)

end Fn

end GSplines
