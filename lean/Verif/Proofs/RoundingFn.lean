import Verif.Model.RoundingFn
import Verif.Spec.RoundingFn
import Verif.Proofs.RoundingAt
import Verif.Proofs.FnVal
import Verif.Props.Rounding

/-! # Evaluation of expressions with rounding errors: helper lemmas -/

namespace GSplines.Rounded

open Nd Filter Topology Spec Fn

/-- The element of an expression as seen by the evaluation. -/
noncomputable def elt (u : ℝ × ℝ) (f : Fn) : Row := ⟨f.dom, f.codim, row u f⟩

theorem rows_eq (u : ℝ × ℝ) (l : List Fn) : rows u l = l.map (elt u) := by
  induction l with
  | nil => simp [rows]
  | cons a l ih => simp [rows, ih, elt]

theorem row_expr (u : ℝ × ℝ) (d : ℝ × ℝ) (c : ℕ) (ty : Ty) (args : List Fn) : row u (.expr d c ty args) = evalTy u ty (args.map (elt u)) := by
  funext cols t; rw [row, rows_eq]

/-- The values of all the components. -/
noncomputable def vals (f : Fn) (t : ℝ) : List ℝ := (List.range f.codim).map fun k => val f k t

/-- The rounded values of `f` near `t` converge to its value at `t`. -/
def Cv (f : Fn) (t : ℝ) : Prop := ConvAt (fun u t => row u f f.codim t) t (vals f t)

theorem map_range_continuousAt {α β : Type} [TopologicalSpace α] [TopologicalSpace β] {F : α → ℕ → β} {x : α} : ∀ {l : List ℕ}, (∀ k ∈ l, ContinuousAt (fun a => F a k) x) → ContinuousAt (fun a => l.map (F a)) x := by
  intro l
  induction l with
  | nil => intro _; exact continuousAt_const
  | cons k l ih => intro h; exact ContinuousAt.cons' (h k (by simp)) (ih fun j hj => h j (by simp [hj]))

theorem scalar_conv {F : ℝ × ℝ → ℝ → Nd ℝ} {t z : ℝ} (h : ConvAt F t z) : ConvAt (fun u t => scalar (F u t) 1) t [z] := by
  unfold scalar
  simp only [if_true]
  exact ConvAt.bind h (ConvAt.pure (x := (t, z)) (f := fun q : ℝ × ℝ => [q.2]) (ContinuousAt.cons' (by fun_prop) continuousAt_const))

theorem vals_one {f : Fn} (hc : f.codim = 1) (t : ℝ) : vals f t = [val f 0 t] := by
  unfold vals; rw [hc]; rfl

theorem cv_scalar {f : Fn} {F : ℝ × ℝ → ℝ → Nd ℝ} {g : ℝ → ℝ} {t : ℝ} (hc : f.codim = 1) (hr : ∀ u t, row u f 1 t = scalar (F u t) 1) (hv : val f 0 = g) (h : ConvAt F t (g t)) : Cv f t := by
  unfold Cv
  rw [vals_one hc, hc, hv]
  simp only [hr]
  exact scalar_conv h

theorem horner_conv (a : List ℝ) (t : ℝ) : ConvAt (fun u t => horner u a t) t (Fn.horner a t) := by
  unfold horner Fn.horner
  generalize a.getLastD 0 = z
  induction a.dropLast with
  | nil => exact ConvAt.pure (f := fun _ => z) continuousAt_const
  | cons c l ih =>
    simp only [List.foldr_cons]
    refine ConvAt.bind ih ?_
    refine ConvAt.bind (ConvAt.near (by fun_prop)) ?_
    exact ConvAt.near (by fun_prop)

theorem cv_poly (d : ℝ × ℝ) {a : List ℝ} (ha : a ≠ []) (t : ℝ) : Cv (.poly d a) t := by
  by_cases h1 : a.length = 1
  · unfold Cv
    rw [vals_one rfl, (val_poly d ha).2]
    obtain ⟨x, rfl⟩ := List.length_eq_one_iff.mp h1
    change ConvAt (fun u t => row u (.poly d [x]) 1 t) t _
    simp only [row, polyRow, if_neg ha, List.length_singleton, if_true]
    exact ConvAt.pure (f := fun _ => [x]) continuousAt_const
  · refine cv_scalar rfl (fun u t => ?_) (val_poly d ha).2 (horner_conv a t)
    rw [row, polyRow, if_neg ha, if_neg h1]

theorem cv_const (d : ℝ × ℝ) (v : List ℝ) (t : ℝ) : Cv (.const d v) t := by
  unfold Cv
  have h1 : vals (.const d v) t = v := by
    unfold vals
    conv_rhs => rw [eq_map_range (r := v) rfl]
    exact List.map_congr_left fun k hk => by rw [(val_const d v).2 k (List.mem_range.mp hk)]
  rw [h1]
  change ConvAt (fun u t => row u (.const d v) v.length t) t v
  simp only [row, if_true]
  exact ConvAt.comp (f := fun _ : ℝ => v) (ConvAt.mapNear v) continuousAt_const

theorem cv_user (d : ℝ × ℝ) (c : ℕ) (F : ℕ → ℝ → ℕ → ℝ) {t : ℝ} (h : ∀ k < c, ContinuousAt (fun s => F 0 s k) t) : Cv (.user d c F) t := by
  unfold Cv
  have h1 : vals (.user d c F) t = (List.range c).map (F 0 t) := by
    unfold vals
    exact List.map_congr_left fun k hk => by rw [(val_user d c F).2 k (List.mem_range.mp hk)]
  rw [h1]
  change ConvAt (fun u t => row u (.user d c F) c t) t _
  simp only [row, if_true]
  exact ConvAt.comp (f := fun t => (List.range c).map (F 0 t)) (ConvAt.mapNear _) (map_range_continuousAt fun k hk => h k (by simpa using hk))

theorem touches_of_located {g : GSpline} (hp : Positive g) {t : ℝ} {i : ℕ} (hi : Located g t i) : Touches g t i := by
  refine ⟨hi.1, ?_, ?_⟩
  · rcases hi.2 with ⟨_, h⟩ | ⟨h, _⟩ | ⟨h, _⟩
    · exact .inr h
    · exact .inl h.le
    · exact .inl ((GSpline.brk_mono hp hi.1.le le_rfl).trans h.le)
  · rcases hi.2 with ⟨h, rfl⟩ | ⟨_, h⟩ | ⟨_, h⟩
    · exact .inl (h.trans (GSpline.brk_lt_succ hp hi.1).le)
    · exact .inl h
    · exact .inr h

theorem vecOf_vals {f : Fn} {t : ℝ} {k : ℕ} (hk : k < f.codim) : vecOf (vals f t) k = val f k t := getD_map_range hk

theorem length_vals (f : Fn) (t : ℝ) : (vals f t).length = f.codim := by simp [vals]

theorem cv_gspl {g : GSpline} (hb : g.basis.Valid) (hcon : Consistent g) (hp : Positive g) {t : ℝ}
    (hc : ∀ i, Touches g t i → Clear g.basis (window (vecOf g.tau i) (t - brk g i)))
    (hj : ∀ i j, Touches g t i → Touches g t j → ∀ c < g.codim, curve g i c t = curve g j c t) : Cv (.gspl g) t := by
  intro U hU
  obtain ⟨ε, hε, hin⟩ := list_nhds hU
  rw [length_vals] at hin
  obtain ⟨i, hi⟩ := GSpline.located_exists hp t
  have hti := touches_of_located hp hi
  filter_upwards [value_at hb hcon hp hc hε] with q hq r hr
  change row q.1 (.gspl g) g.codim q.2 r at hr
  rw [row, if_pos rfl] at hr
  obtain ⟨v, e, hl, j, htj, h⟩ := hq r hr
  refine ⟨v, hin v hl fun k hk => ?_, e⟩
  rw [vecOf_vals hk, val_gspl hb hcon hp hi (Props.clean_of_clear (hc i hti)) hk, hj i j hti htj k hk]
  exact h k hk

theorem cv_dot (d : ℝ × ℝ) {f g : Fn} {t : ℝ} (hf : f.Tot) (hg : g.Tot) (hc : f.codim = g.codim) (h1 : Cv f t) (h2 : Cv g t) : Cv (.dot d f g) t := by
  unfold Cv
  rw [vals_one rfl, (val_dot d hf hg hc).2]
  change ConvAt (fun u t => row u (.dot d f g) 1 t) t _
  simp only [row, hc, and_self, if_true]
  have h1' : ConvAt (fun u t => row u f g.codim t) t (vals f t) := by rw [← hc]; exact h1
  refine ConvAt.bind h1' ?_
  refine ConvAt.bind (ConvAt.comp (x := (t, vals f t)) (f := fun q : ℝ × List ℝ => q.1) h2 (by fun_prop)) ?_
  refine ConvAt.bind (ConvAt.comp (x := ((t, vals f t), vals g t)) (f := fun q : (ℝ × List ℝ) × List ℝ => (q.1.2, q.2)) (dotList_conv _ _) (by fun_prop)) ?_
  refine (ConvAt.pure (f := fun q : ((ℝ × List ℝ) × List ℝ) × ℝ => [q.2]) (ContinuousAt.cons' (by fun_prop) continuousAt_const)).congr ?_
  congr 1
  unfold vals
  rw [hc, zip_range]
  rfl

/-! ## Sums, products and compositions -/

theorem cv_cols {f : Fn} {t : ℝ} {c : ℕ} (h : Cv f t) (hc : f.codim = c) : ConvAt (fun u t => row u f c t) t ((List.range c).map fun k => val f k t) := by
  subst hc; exact h

theorem sumRow_conv {f : Fn} {t : ℝ} {c : ℕ} (h : Cv f t) (hc : f.codim = c) (F : ℕ → ℝ) :
    ConvAt (fun u (q : ℝ × List ℝ) => sumRow u c c q.1 q.2 (elt u f)) (t, (List.range c).map F) ((List.range c).map fun k => F k + val f k t) := by
  unfold sumRow
  simp only [if_true]
  refine ConvAt.bind (ConvAt.comp (x := (t, (List.range c).map F)) (f := fun q : ℝ × List ℝ => q.1) (cv_cols h hc) (by fun_prop)) ?_
  rw [← zip_range c F (fun k => val f k t) (· + ·)]
  exact ConvAt.comp (x := ((t, (List.range c).map F), (List.range c).map fun k => val f k t)) (f := fun q : (ℝ × List ℝ) × List ℝ => List.zipWith (· + ·) q.1.2 q.2)
    (ConvAt.mapNear _) (ContinuousAt.comp (x := ((t, (List.range c).map F), (List.range c).map fun k => val f k t))
      (f := fun q : (ℝ × List ℝ) × List ℝ => (q.1.2, q.2)) (g := fun p : List ℝ × List ℝ => List.zipWith (· + ·) p.1 p.2) (continuous_zipWith continuous_add _ _) (by fun_prop))

theorem sumFold_conv {t : ℝ} {c : ℕ} : ∀ (l : List Fn) (F : ℕ → ℝ), (∀ a ∈ l, Cv a t) → (∀ a ∈ l, a.codim = c) →
    ConvAt (fun u (q : ℝ × List ℝ) => (l.map (elt u)).foldlM (sumRow u c c q.1) q.2) (t, (List.range c).map F)
      ((List.range c).map fun k => F k + (l.map fun a => val a k t).sum) := by
  intro l
  induction l with
  | nil =>
    intro F _ _
    simp only [List.map_nil, List.foldlM_nil, List.sum_nil, add_zero]
    exact ConvAt.pure (f := fun q : ℝ × List ℝ => q.2) continuousAt_snd
  | cons a l ih =>
    intro F h hc
    simp only [List.map_cons, List.foldlM_cons, List.sum_cons, ← add_assoc]
    refine ConvAt.bind (sumRow_conv (h a (by simp)) (hc a (by simp)) F) ?_
    exact ConvAt.comp (x := ((t, (List.range c).map F), (List.range c).map fun k => F k + val a k t)) (f := fun q : (ℝ × List ℝ) × List ℝ => (q.1.1, q.2))
      (ih _ (fun b hb => h b (by simp [hb])) (fun b hb => hc b (by simp [hb]))) (by fun_prop)

theorem cv_sum (d : ℝ × ℝ) {c : ℕ} {l : List Fn} {t : ℝ} (hne : l ≠ []) (ht : ∀ a ∈ l, a.Tot) (hc : ∀ a ∈ l, a.codim = c) (h : ∀ a ∈ l, Cv a t) :
    Cv (.expr d c .sum l) t := by
  unfold Cv
  have h1 : vals (.expr d c .sum l) t = (List.range c).map fun k => 0 + (l.map fun a => val a k t).sum := by
    unfold vals
    exact List.map_congr_left fun k hk => by rw [(val_sum d hne ht hc).2 k (List.mem_range.mp hk), zero_add]
  rw [h1]
  change ConvAt (fun u t => row u (.expr d c .sum l) c t) t _
  simp only [row_expr, evalTy]
  cases l with
  | nil => exact absurd rfl hne
  | cons a l =>
    simp only [evalSum, List.map_cons, show ∀ u, (elt u a).codim = c from fun u => hc a (by simp)]
    have h2 := sumFold_conv (a :: l) (fun _ => 0) h hc
    have h3 : (List.range c).map (fun _ => (0 : ℝ)) = List.replicate c 0 := by simp
    rw [h3] at h2
    exact ConvAt.comp (f := fun t : ℝ => (t, List.replicate c (0 : ℝ))) h2 (by fun_prop)

theorem mulRow_conv {f : Fn} {t : ℝ} (h : Cv f t) (hc : f.codim = 1) (l : List ℝ) :
    ConvAt (fun u (q : ℝ × List ℝ) => mulRow u q.1 q.2 (elt u f)) (t, l) (l.map fun x => x * val f 0 t) := by
  unfold mulRow
  refine ConvAt.bind (ConvAt.comp (x := (t, l)) (f := fun q : ℝ × List ℝ => q.1) (cv_cols h hc) (by fun_prop)) ?_
  refine ConvAt.comp (x := ((t, l), [val f 0 t])) (f := fun q : (ℝ × List ℝ) × List ℝ => q.1.2.map (· * q.2.headD 0)) (ConvAt.mapNear _) ?_
  refine ContinuousAt.comp (x := ((t, l), [val f 0 t])) (f := fun q : (ℝ × List ℝ) × List ℝ => (q.1.2, q.2.headD 0)) (g := fun p : List ℝ × ℝ => p.1.map (· * p.2))
    (continuous_mapOp (op := fun x y => x * y) continuous_mul _ _) ?_
  refine ContinuousAt.prodMk (by fun_prop) ?_
  exact ContinuousAt.comp (x := ((t, l), [val f 0 t])) (f := fun q : (ℝ × List ℝ) × List ℝ => q.2) (g := fun l : List ℝ => l.headD 0) (continuousAt_headD (by simp)) (by fun_prop)

theorem mulFold_conv {t : ℝ} : ∀ (l : List Fn) (r : List ℝ), (∀ a ∈ l, Cv a t) → (∀ a ∈ l, a.codim = 1) →
    ConvAt (fun u (q : ℝ × List ℝ) => (l.map (elt u)).foldlM (mulRow u q.1) q.2) (t, r) (r.map fun x => x * (l.map fun a => val a 0 t).prod) := by
  intro l
  induction l with
  | nil =>
    intro r _ _
    simp only [List.map_nil, List.foldlM_nil, List.prod_nil, mul_one, List.map_id']
    exact ConvAt.pure (f := fun q : ℝ × List ℝ => q.2) continuousAt_snd
  | cons a l ih =>
    intro r h hc
    simp only [List.map_cons, List.foldlM_cons, List.prod_cons]
    refine ConvAt.bind (mulRow_conv (h a (by simp)) (hc a (by simp)) r) ?_
    refine (ConvAt.comp (x := ((t, r), r.map fun x => x * val a 0 t)) (f := fun q : (ℝ × List ℝ) × List ℝ => (q.1.1, q.2))
      (ih _ (fun b hb => h b (by simp [hb])) (fun b hb => hc b (by simp [hb]))) (by fun_prop)).congr ?_
    rw [List.map_map]
    exact List.map_congr_left fun x _ => by simp [mul_assoc]

theorem cv_mul (d : ℝ × ℝ) {a : Fn} {l : List Fn} {t : ℝ} (ha : a.Tot) (ht : ∀ b ∈ l, b.Tot) (hc : ∀ b ∈ l, b.codim = 1) (h1 : Cv a t) (h : ∀ b ∈ l, Cv b t) :
    Cv (.expr d a.codim .mul (a :: l)) t := by
  unfold Cv
  have h2 : vals (.expr d a.codim .mul (a :: l)) t = (vals a t).map fun x => x * (l.map fun b => val b 0 t).prod := by
    unfold vals
    rw [List.map_map]
    exact List.map_congr_left fun k hk => by rw [(val_mul d ha ht hc).2 k (List.mem_range.mp hk)]; rfl
  rw [h2]
  change ConvAt (fun u t => row u (.expr d a.codim .mul (a :: l)) a.codim t) t _
  simp only [row_expr, evalTy, evalMul, List.map_cons]
  exact ConvAt.bind h1 (mulFold_conv l _ h hc)

theorem compFold_conv {z : Fn} : ∀ (init : List Fn) (t : ℝ), (∀ a ∈ init, a.codim = 1) → (∀ pre a post, init ++ [z] = pre ++ a :: post → Cv a (through pre t)) →
    ConvAt (fun u t => evalComp ((init ++ [z]).map (elt u)) z.codim t) t (vals z (through init t)) := by
  intro init
  induction init with
  | nil => intro t _ h; exact h [] z [] rfl
  | cons a init ih =>
    intro t hc h
    have h1 := h [] a (init ++ [z]) rfl
    have h2 := ih (val a 0 t) (fun b hb => hc b (by simp [hb])) fun pre b post e => by
      have := h (a :: pre) b post (by rw [List.cons_append, e]; rfl)
      exact this
    have hne : ∃ e es, init ++ [z] = e :: es := by cases init <;> exact ⟨_, _, rfl⟩
    obtain ⟨e, es, he⟩ := hne
    rw [he] at h2
    simp only [List.cons_append, he, List.map_cons, evalComp]
    refine ConvAt.bind (cv_cols h1 (hc a (by simp))) ?_
    refine ConvAt.comp (x := (t, [val a 0 t])) (F := fun u s => evalComp ((e :: es).map (elt u)) z.codim s) (f := fun q : ℝ × List ℝ => q.2.headD 0) h2 ?_
    exact ContinuousAt.comp (x := (t, [val a 0 t])) (f := fun q : ℝ × List ℝ => q.2) (g := fun l : List ℝ => l.headD 0) (continuousAt_headD (by simp)) (by fun_prop)

theorem cv_comp (d : ℝ × ℝ) {init : List Fn} {z : Fn} {t : ℝ} (hz : z.Tot) (ht : ∀ b ∈ init, b.Tot) (hc : ∀ b ∈ init, b.codim = 1)
    (h : ∀ pre a post, init ++ [z] = pre ++ a :: post → Cv a (through pre t)) : Cv (.expr d z.codim .comp (init ++ [z])) t := by
  unfold Cv
  have h2 : vals (.expr d z.codim .comp (init ++ [z])) t = vals z (through init t) := by
    unfold vals
    exact List.map_congr_left fun k hk => by rw [(val_comp d hz ht hc).2 k (List.mem_range.mp hk)]
  rw [h2]
  change ConvAt (fun u t => row u (.expr d z.codim .comp (init ++ [z])) z.codim t) t _
  simp only [row_expr, evalTy]
  exact compFold_conv init t hc h

/-! ## Concatenations -/

/-- Which piece is evaluated, and where. -/
theorem pick_spec {l : List Fn} {d : ℝ × ℝ} (hp : Pieces l d.1 d.2) (t : ℝ) (c : ℕ) :
    ∃ a ∈ l, a.dom.1 ≤ clamp d t ∧ clamp d t ≤ a.dom.2 ∧ pickRun l c t = a.run c [clamp d t] ∧
      ∀ u front back, l.head? = some front → l.getLast? = some back → pick (l.map (elt u)) (elt u front) (elt u back) t = .ok (elt u a, clamp d t) := by
  have hlt := pieces_lt hp
  have hfind : ∀ u, (l.map (elt u)).find? (fun f => @decide (f.has t) (Classical.propDecidable _)) = (l.find? fun f => @decide (f.dom.1 ≤ t ∧ t < f.dom.2) (Classical.propDecidable _)).map (elt u) := by
    intro u; rw [List.find?_map]; rfl
  have hfind' : (l.map ev).find? (fun f => @decide (f.has t) (Classical.propDecidable _)) = (l.find? fun f => @decide (f.dom.1 ≤ t ∧ t < f.dom.2) (Classical.propDecidable _)).map ev := by
    rw [List.find?_map]; rfl
  cases hs : l.find? fun f => @decide (f.dom.1 ≤ t ∧ t < f.dom.2) (Classical.propDecidable _) with
  | some a =>
    have ham := List.mem_of_find?_eq_some hs
    have hat : a.dom.1 ≤ t ∧ t < a.dom.2 := by have := List.find?_some hs; simpa using this
    have hb := pieces_mem hp a ham
    have hcl : clamp d t = t := by unfold clamp; rw [min_eq_right (by linarith), max_eq_right (by linarith)]
    rw [hcl]
    refine ⟨a, ham, hat.1, hat.2.le, ?_, fun u front back _ _ => ?_⟩
    · exact pickRun_some (e := a.ev) (by unfold search; rw [hfind', hs]; rfl)
    · unfold pick
      rw [hfind, hs]
      rfl
  | none =>
    have hnone : search l t = none := by unfold search; rw [hfind', hs]; rfl
    have hor : t < d.1 ∨ d.2 ≤ t := by
      by_contra hc
      rw [not_or, not_lt, not_le] at hc
      obtain ⟨e, he⟩ := search_cover hp hc.1 hc.2
      rw [hnone] at he
      cases he
    obtain ⟨fr, hfr, hfr'⟩ := pieces_head hp
    obtain ⟨bk, hbk, hbk'⟩ := pieces_last hp
    have hfm := List.mem_of_head? hfr
    have hbm := List.mem_of_getLast? hbk
    rcases hor with h | h
    · have hcl : clamp d t = d.1 := by unfold clamp; rw [min_eq_right (by linarith), max_eq_left h.le]
      rw [hcl]
      refine ⟨fr, hfm, hfr'.le, ?_, ?_, fun u front back h1 h2 => ?_⟩
      · have := pieces_mem hp fr hfm; linarith [this.2.1]
      · obtain ⟨f, hf, e⟩ := pickRun_low (c := c) hp h.le
        rw [hfr] at hf; cases hf
        exact e
      · rw [hfr] at h1; cases h1
        unfold pick
        rw [hfind, hs]
        change (if t ≤ fr.dom.1 then _ else _) = _
        rw [hfr', if_pos h.le]
        change Except.ok (elt u fr, fr.dom.1) = _
        rw [hfr']
    · have hcl : clamp d t = d.2 := by unfold clamp; rw [min_eq_left h, max_eq_right hlt.le]
      rw [hcl]
      refine ⟨bk, hbm, ?_, hbk'.ge, ?_, fun u front back h1 h2 => ?_⟩
      · have := pieces_mem hp bk hbm; linarith [this.2.1]
      · obtain ⟨f, hf, e⟩ := pickRun_high (c := c) hp h
        rw [hbk] at hf; cases hf
        exact e
      · rw [hbk] at h2; cases h2
        rw [hfr] at h1; cases h1
        unfold pick
        rw [hfind, hs]
        change (if t ≤ fr.dom.1 then _ else if t ≥ bk.dom.2 then _ else _) = _
        rw [hfr', hbk', if_neg (by linarith), if_pos h]
        change Except.ok (elt u bk, bk.dom.2) = _
        rw [hbk']

/-- Two pieces that contain the same point meet there. -/
theorem pieces_meet : ∀ {l : List Fn} {a b p : ℝ}, Pieces l a b → ∀ f ∈ l, ∀ g ∈ l, f.dom.1 ≤ p → p ≤ f.dom.2 → g.dom.1 ≤ p → p ≤ g.dom.2 →
    f = g ∨ (f.dom.2 = p ∧ g.dom.1 = p) ∨ (g.dom.2 = p ∧ f.dom.1 = p) := by
  intro l
  induction l with
  | nil => intro a b p h; exact h.elim
  | cons e l ih =>
    intro a b p h f hf g hg f1 f2 g1 g2
    cases l with
    | nil =>
      rw [List.mem_singleton] at hf hg
      exact .inl (hf.trans hg.symm)
    | cons e' l =>
      obtain ⟨-, -, h3⟩ := h
      rcases List.mem_cons.mp hf with rfl | hf' <;> rcases List.mem_cons.mp hg with rfl | hg'
      · exact .inl rfl
      · have := (pieces_mem h3 g hg').1
        exact .inr (.inl ⟨by linarith, by linarith⟩)
      · have := (pieces_mem h3 f hf').1
        exact .inr (.inr ⟨by linarith, by linarith⟩)
      · exact ih h3 f hf' g hg' f1 f2 g1 g2

theorem evalConcat_pick {l : List Fn} {c : ℕ} (hc : ∀ a ∈ l, a.codim = c) {d : ℝ × ℝ} (hp : Pieces l d.1 d.2) (t : ℝ) :
    ∃ a ∈ l, a.dom.1 ≤ clamp d t ∧ clamp d t ≤ a.dom.2 ∧ pickRun l c t = a.run c [clamp d t] ∧ ∀ u, evalConcat (l.map (elt u)) c t = row u a c (clamp d t) := by
  obtain ⟨a, ha, h1, h2, h3, h4⟩ := pick_spec hp t c
  refine ⟨a, ha, h1, h2, h3, fun u => ?_⟩
  cases l with
  | nil => exact hp.elim
  | cons f l =>
    have hlast : (elt u f :: l.map (elt u)).getLast (by simp) = elt u ((f :: l).getLast (by simp)) := by
      rw [← List.getLast_map (f := elt u) (by simp)]; rfl
    have := h4 u f ((f :: l).getLast (by simp)) rfl (List.getLast?_eq_some_getLast _)
    rw [List.map_cons] at this
    simp only [List.map_cons, evalConcat]
    rw [hlast, this, lift_ok, LawfulMonad.pure_bind, show (elt u f).codim = c from hc f (by simp)]
    simp only [if_true]
    exact LawfulMonad.bind_pure_comp id _ |>.trans (LawfulFunctor.id_map _)

theorem clamp_continuous (d : ℝ × ℝ) : Continuous (clamp d) := by unfold clamp; fun_prop

theorem val_concat_clamp (d : ℝ × ℝ) {c : ℕ} {l : List Fn} (hp : Pieces l d.1 d.2) (hc : ∀ x ∈ l, x.codim = c) {t : ℝ} {a : Fn} (ha : a ∈ l)
    (e : pickRun l c t = a.run c [clamp d t]) (k : ℕ) : val (.expr d c .concat l) k t = val a k (clamp d t) := by
  have hne : l ≠ [] := by rintro rfl; exact hp.elim
  unfold val
  have : (expr d c .concat l).call [t] = a.call [clamp d t] := by
    rw [Fn.call, run_expr]
    change Fn.evalConcat (l.map ev) c [t] = _
    rw [evalConcat_single hne hc, e, Fn.call, hc a ha]
  rw [this]

theorem cv_concat (d : ℝ × ℝ) {c : ℕ} {l : List Fn} (hp : Pieces l d.1 d.2) (hc : ∀ x ∈ l, x.codim = c) {t : ℝ}
    (h : ∀ a ∈ l, a.dom.1 ≤ clamp d t → clamp d t ≤ a.dom.2 → Cv a (clamp d t))
    (hj : ∀ a ∈ l, ∀ b ∈ l, a.dom.2 = clamp d t → b.dom.1 = clamp d t → ∀ k < c, val a k (clamp d t) = val b k (clamp d t)) : Cv (.expr d c .concat l) t := by
  intro U hU
  obtain ⟨b, hb, b1, b2, b3, -⟩ := evalConcat_pick hc hp t
  have hv : ∀ a ∈ l, a.dom.1 ≤ clamp d t → clamp d t ≤ a.dom.2 → vals (.expr d c .concat l) t = vals a (clamp d t) := by
    intro a ha a1 a2
    unfold vals
    rw [hc a ha]
    refine List.map_congr_left fun k hk => ?_
    have hk' : k < c := List.mem_range.mp hk
    rw [val_concat_clamp d hp hc hb b3]
    rcases pieces_meet hp a ha b hb a1 a2 b1 b2 with rfl | ⟨x, y⟩ | ⟨x, y⟩
    · rfl
    · exact (hj a ha b hb x y k hk').symm
    · exact hj b hb a ha x y k hk'
  have hcont : Tendsto (fun q : (ℝ × ℝ) × ℝ => clamp d q.2) (𝓝 ((0 : ℝ × ℝ), t)) (𝓝 (clamp d t)) := ((clamp_continuous d).comp continuous_snd).tendsto _
  have key : ∀ a ∈ l, ∀ᶠ q in 𝓝 ((0 : ℝ × ℝ), t), a.dom.1 ≤ clamp d q.2 → clamp d q.2 ≤ a.dom.2 → All (row q.1 a c (clamp d q.2)) fun r => ∃ y ∈ U, r = .ok y := by
    intro a ha
    by_cases h1 : a.dom.1 ≤ clamp d t
    · by_cases h2 : clamp d t ≤ a.dom.2
      · have h3 := ConvAt.comp (x := t) (f := clamp d) (h a ha h1 h2) (clamp_continuous d).continuousAt U (hv a ha h1 h2 ▸ hU)
        filter_upwards [h3] with q hq _ _
        rw [← hc a ha]
        exact hq
      · filter_upwards [hcont.eventually (lt_mem_nhds (not_le.mp h2))] with q hq _ h4
        exact absurd h4 (not_le.mpr hq)
    · filter_upwards [hcont.eventually (gt_mem_nhds (not_le.mp h1))] with q hq h4
      exact absurd h4 (not_le.mpr hq)
  have key' : ∀ᶠ q in 𝓝 ((0 : ℝ × ℝ), t), ∀ a ∈ l, a.dom.1 ≤ clamp d q.2 → clamp d q.2 ≤ a.dom.2 → All (row q.1 a c (clamp d q.2)) fun r => ∃ y ∈ U, r = .ok y := by
    have := (Filter.eventually_all_finite (List.finite_toSet l)).mpr key
    exact this
  filter_upwards [key'] with q hq r hr
  obtain ⟨a, ha, a1, a2, -, a4⟩ := evalConcat_pick hc hp q.2
  change row q.1 (.expr d c .concat l) c q.2 r at hr
  rw [row_expr, evalTy, a4] at hr
  exact hq a ha a1 a2 r hr

theorem cv_neg (d : ℝ × ℝ) {a : Fn} {t : ℝ} (ht : a.Tot) (h : Cv a t) : Cv (.expr d a.codim .neg [a]) t := by
  unfold Cv
  have h2 : vals (.expr d a.codim .neg [a]) t = (vals a t).map (· * -1) := by
    unfold vals
    rw [List.map_map]
    exact List.map_congr_left fun k hk => by rw [(val_neg d ht).2 k (List.mem_range.mp hk)]; simp
  rw [h2]
  change ConvAt (fun u t => row u (.expr d a.codim .neg [a]) a.codim t) t _
  simp only [row_expr, evalTy, evalNeg, List.map_cons, List.map_nil]
  refine ConvAt.bind h ?_
  refine ConvAt.comp (x := (t, vals a t)) (f := fun q : ℝ × List ℝ => q.2.map (· * -1)) (ConvAt.mapNear _) ?_
  exact ContinuousAt.comp (x := (t, vals a t)) (f := fun q : ℝ × List ℝ => q.2) (g := fun l : List ℝ => l.map (· * -1)) (continuous_map (by fun_prop) _) (by fun_prop)

theorem cv_unique (d : ℝ × ℝ) {a : Fn} {t : ℝ} (h : Cv a t) : Cv (.expr d a.codim .unique [a]) t := by
  unfold Cv
  have h2 : vals (.expr d a.codim .unique [a]) t = vals a t := by
    unfold vals
    rw [val_unique]; rfl
  rw [h2]
  change ConvAt (fun u t => row u (.expr d a.codim .unique [a]) a.codim t) t _
  simp only [row_expr, evalTy, evalUnique, List.map_cons, List.map_nil]
  exact h

/-- Rounded evaluation converges where the function does not jump. -/
theorem cv_of_good {f : Fn} (hg : Good f) : ∀ {t : ℝ}, Steady f t → Cv f t := by
  induction hg with
  | const d v => intro t _; exact cv_const d v t
  | dil d c => intro t _; exact cv_scalar rfl (fun u t => by rw [row]) (val_dil d c).2 (ConvAt.near (f := fun t => c * t) (by fun_prop))
  | ident d => intro t _; exact cv_scalar rfl (fun u t => by rw [row]) (val_ident d).2 (ConvAt.pure (f := fun t => t) (by fun_prop))
  | exp d => intro t _; exact cv_scalar rfl (fun u t => by rw [row]) (val_exp d).2 (ConvAt.near (by fun_prop))
  | cos d => intro t _; exact cv_scalar rfl (fun u t => by rw [row]) (val_cos d).2 (ConvAt.near (by fun_prop))
  | sin d => intro t _; exact cv_scalar rfl (fun u t => by rw [row]) (val_sin d).2 (ConvAt.near (by fun_prop))
  | poly d a ha => intro t _; exact cv_poly d ha t
  | user d c F => intro t hs; cases hs with | user _ _ _ _ h => exact cv_user d c F h
  | gspl g hb hcon hp _ => intro t hs; cases hs with | gspl _ _ h1 h2 => exact cv_gspl hb hcon hp h1 h2
  | dot d f g hf hg hc _ _ ihf ihg => intro t hs; cases hs with | dot _ _ _ _ h1 h2 => exact cv_dot d (tot_of_good hf) (tot_of_good hg) hc (ihf h1) (ihg h2)
  | expr d c ty args ha hsh ih =>
    intro t hs
    have hto : ∀ a ∈ args, a.Tot := fun a h => tot_of_good (ha a h)
    cases hs with
    | sum _ _ _ _ h =>
      obtain ⟨⟨a, rest, rfl, -⟩, hc⟩ := hsh
      exact cv_sum d (by simp) hto hc fun a h' => ih a h' (h a h')
    | mul _ _ _ _ h =>
      obtain ⟨a, rest, rfl, -, rfl, hc⟩ := hsh
      exact cv_mul d (hto a (by simp)) (fun b hb => hto b (by simp [hb])) hc (ih a (by simp) (h a (by simp))) fun b hb => ih b (by simp [hb]) (h b (by simp [hb]))
    | comp _ _ _ _ h =>
      obtain ⟨-, init, z, rfl, rfl, hc⟩ := hsh
      exact cv_comp d (hto z (by simp)) (fun b hb => hto b (by simp [hb])) hc fun pre a post e => ih a (by rw [e]; simp) (h pre a post e)
    | concat _ _ _ _ h hj =>
      exact cv_concat d hsh.1 hsh.2 (fun a h' a1 a2 => ih a h' (h a h' a1 a2)) hj
    | unique _ _ _ _ h =>
      obtain ⟨a, rfl, -, rfl⟩ := hsh
      exact cv_unique d (ih a (by simp) (h a (by simp)))
    | neg _ _ _ _ h =>
      obtain ⟨a, rfl, -, rfl⟩ := hsh
      exact cv_neg d (hto a (by simp)) (ih a (by simp) (h a (by simp)))

end GSplines.Rounded
