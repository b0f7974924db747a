import Verif.Proofs.RoundingFn
import Verif.Proofs.RoundingExact

/-! # Evaluation of expressions with rounding errors: the exact result is possible, and no access is out of range -/

namespace GSplines.Rounded

open Nd Filter Topology Spec Fn

/-! ## The exact result -/

section exact

variable {u : ℝ × ℝ} (h1 : 0 ≤ u.1) (h2 : 0 ≤ u.2)

include h1 h2

theorem has_mapNear (l : List ℝ) : Has (l.mapM (near u)) l := by
  have := Has.mapM (l := l) (f := near u) (g := fun x => x) fun a _ => Has.near h1 h2 a
  rwa [List.map_id'] at this

omit h1 h2 in
theorem has_scalar {x : Nd ℝ} {z : ℝ} (h : Has x z) : Has (scalar x 1) [z] := by
  unfold scalar
  rw [if_pos rfl]
  exact Has.bind h (Has.pure _)

theorem horner_has (a : List ℝ) (t : ℝ) : Has (horner u a t) (Fn.horner a t) := by
  unfold horner Fn.horner
  induction a.dropLast with
  | nil => exact Has.pure _
  | cons c l ih =>
    rw [List.foldr_cons, List.foldr_cons]
    exact Has.bind ih (Has.bind (Has.near h1 h2 _) (Has.near h1 h2 _))

theorem sumFold_has {t : ℝ} {c : ℕ} : ∀ (l : List Fn) (F : ℕ → ℝ), (∀ a ∈ l, ∀ t, Has (row u a a.codim t) (vals a t)) → (∀ a ∈ l, a.codim = c) →
    Has ((l.map (elt u)).foldlM (sumRow u c c t) ((List.range c).map F)) ((List.range c).map fun k => F k + (l.map fun a => val a k t).sum) := by
  intro l
  induction l with
  | nil => intro F _ _; simp only [List.map_nil, List.foldlM_nil, List.sum_nil, add_zero]; exact Has.pure _
  | cons a l ih =>
    intro F h hc
    simp only [List.map_cons, List.foldlM_cons, List.sum_cons, ← add_assoc]
    refine Has.bind (a := (List.range c).map fun k => F k + val a k t) ?_ (ih _ (fun b hb => h b (by simp [hb])) (fun b hb => hc b (by simp [hb])))
    unfold sumRow
    have ha := h a (by simp) t
    unfold vals at ha
    rw [hc a (by simp)] at ha
    refine Has.bind ha ?_
    rw [if_pos rfl, zip_range]
    exact has_mapNear h1 h2 _

theorem mulFold_has {t : ℝ} : ∀ (l : List Fn) (r : List ℝ), (∀ a ∈ l, ∀ t, Has (row u a a.codim t) (vals a t)) → (∀ a ∈ l, a.codim = 1) →
    Has ((l.map (elt u)).foldlM (mulRow u t) r) (r.map fun x => x * (l.map fun a => val a 0 t).prod) := by
  intro l
  induction l with
  | nil => intro r _ _; simp only [List.map_nil, List.foldlM_nil, List.prod_nil, mul_one, List.map_id']; exact Has.pure _
  | cons a l ih =>
    intro r h hc
    simp only [List.map_cons, List.foldlM_cons, List.prod_cons]
    refine Has.bind (a := r.map fun x => x * val a 0 t) ?_ ?_
    · unfold mulRow
      have ha := h a (by simp) t
      rw [vals_one (hc a (by simp)), hc a (by simp)] at ha
      exact Has.bind ha (has_mapNear h1 h2 _)
    · have := ih (r.map fun x => x * val a 0 t) (fun b hb => h b (by simp [hb])) (fun b hb => hc b (by simp [hb]))
      rw [List.map_map] at this
      refine cast (congrArg _ (List.map_congr_left fun x _ => ?_)) this
      simp [mul_assoc]

omit h1 h2 in
theorem compFold_has {z : Fn} (hz : ∀ t, Has (row u z z.codim t) (vals z t)) : ∀ (init : List Fn) (t : ℝ), (∀ a ∈ init, a.codim = 1) →
    (∀ a ∈ init, ∀ t, Has (row u a a.codim t) (vals a t)) → Has (evalComp ((init ++ [z]).map (elt u)) z.codim t) (vals z (through init t)) := by
  intro init
  induction init with
  | nil => intro t _ _; exact hz t
  | cons a init ih =>
    intro t hc h
    have h2 := ih (val a 0 t) (fun b hb => hc b (by simp [hb])) fun b hb => h b (by simp [hb])
    have hne : ∃ e es, init ++ [z] = e :: es := by cases init <;> exact ⟨_, _, rfl⟩
    obtain ⟨e, es, he⟩ := hne
    rw [he] at h2
    simp only [List.cons_append, he, List.map_cons, evalComp]
    have ha := h a (by simp) t
    rw [vals_one (hc a (by simp)), hc a (by simp)] at ha
    exact Has.bind ha h2

/-- The result of exact arithmetic is one of the results. -/
theorem row_has {f : Fn} (hg : Good f) : ∀ t, Has (row u f f.codim t) (vals f t) := by
  induction hg with
  | const d v =>
    intro t
    have e : vals (.const d v) t = v := by
      unfold vals
      conv_rhs => rw [eq_map_range (r := v) rfl]
      exact List.map_congr_left fun k hk => by rw [(val_const d v).2 k (List.mem_range.mp hk)]
    rw [e, row, if_pos (by rfl)]
    exact has_mapNear h1 h2 v
  | dil d c => intro t; rw [vals_one rfl, (val_dil d c).2, row]; exact has_scalar (Has.near h1 h2 _)
  | ident d => intro t; rw [vals_one rfl, (val_ident d).2, row]; exact has_scalar (Has.pure _)
  | exp d => intro t; rw [vals_one rfl, (val_exp d).2, row]; exact has_scalar (Has.near h1 h2 _)
  | cos d => intro t; rw [vals_one rfl, (val_cos d).2, row]; exact has_scalar (Has.near h1 h2 _)
  | sin d => intro t; rw [vals_one rfl, (val_sin d).2, row]; exact has_scalar (Has.near h1 h2 _)
  | poly d a ha =>
    intro t
    rw [vals_one rfl, (val_poly d ha).2, row, polyRow, if_neg ha]
    by_cases hl : a.length = 1
    · rw [if_pos hl]
      obtain ⟨x, rfl⟩ := List.length_eq_one_iff.mp hl
      exact Has.pure _
    · rw [if_neg hl]
      exact has_scalar (horner_has h1 h2 a t)
  | user d c F =>
    intro t
    have e : vals (.user d c F) t = (List.range c).map (F 0 t) := by
      unfold vals
      exact List.map_congr_left fun k hk => by rw [(val_user d c F).2 k (List.mem_range.mp hk)]
    rw [e, row, if_pos (by rfl)]
    exact has_mapNear h1 h2 _
  | gspl g hb hcon hp _ =>
    intro t
    obtain ⟨v, hv, -⟩ := GSpline.value_total hb hcon hp.1 hp.not_mem t
    have h3 := value_has h1 h2 hb hcon hp.1 hp.not_mem t
    rw [hv] at h3
    rw [row, if_pos (by rfl)]
    have h4 : vals (.gspl g) t = v := by
      have h5 := (tot_gspl hb hcon hp).run t
      have h6 := (call_gspl g t v).mpr hv
      unfold Fn.call at h6
      rw [h5] at h6
      cases h6
      rfl
    rw [h4]
    exact h3
  | dot d f g hf hg hc _ _ ihf ihg =>
    intro t
    rw [vals_one rfl, (val_dot d (tot_of_good hf) (tot_of_good hg) hc).2, row]
    refine Has.bind (ihf t) (Has.bind (ihg t) ?_)
    rw [if_pos ⟨hc, rfl⟩]
    refine Has.bind ?_ (Has.pure _)
    unfold dot
    refine Has.bind (has_mapNear h1 h2 _) ?_
    have := Has.sum h1 h2 (List.zipWith (· * ·) (vals f t) (vals g t))
    unfold vals at this ⊢
    rw [← hc, zip_range] at this ⊢
    exact this
  | expr d c ty args ha hsh ih =>
    intro t
    have hto : ∀ a ∈ args, a.Tot := fun a h => tot_of_good (ha a h)
    rw [row_expr]
    cases ty with
    | sum =>
      obtain ⟨⟨a, rest, rfl, -⟩, hc⟩ := hsh
      have e : vals (.expr d c .sum (a :: rest)) t = (List.range c).map fun k => 0 + ((a :: rest).map fun a => val a k t).sum := by
        unfold vals
        exact List.map_congr_left fun k hk => by rw [(val_sum d (by simp) hto hc).2 k (List.mem_range.mp hk), zero_add]
      rw [e]
      change Has ((List.map (elt u) (a :: rest)).foldlM (sumRow u c a.codim t) (List.replicate c 0)) _
      rw [hc a (by simp)]
      have := sumFold_has h1 h2 (t := t) (a :: rest) (fun _ => 0) ih hc
      rwa [show (List.range c).map (fun _ => (0 : ℝ)) = List.replicate c 0 by simp] at this
    | mul =>
      obtain ⟨a, rest, rfl, -, rfl, hc⟩ := hsh
      have e : vals (.expr d a.codim .mul (a :: rest)) t = (vals a t).map fun x => x * (rest.map fun b => val b 0 t).prod := by
        unfold vals
        rw [List.map_map]
        exact List.map_congr_left fun k hk => by rw [(val_mul d (hto a (by simp)) (fun b hb => hto b (by simp [hb])) hc).2 k (List.mem_range.mp hk)]; rfl
      rw [e]
      exact Has.bind (ih a (by simp) t) (mulFold_has h1 h2 rest _ (fun b hb => ih b (by simp [hb])) hc)
    | comp =>
      obtain ⟨-, init, z, rfl, rfl, hc⟩ := hsh
      have e : vals (.expr d z.codim .comp (init ++ [z])) t = vals z (through init t) := by
        unfold vals
        exact List.map_congr_left fun k hk => by rw [(val_comp d (hto z (by simp)) (fun b hb => hto b (by simp [hb])) hc).2 k (List.mem_range.mp hk)]
      rw [e]
      exact compFold_has (ih z (by simp)) init t hc fun b hb => ih b (by simp [hb])
    | concat =>
      obtain ⟨a, hm, -, -, a3, a4⟩ := evalConcat_pick hsh.2 hsh.1 t
      have e : vals (.expr d c .concat args) t = vals a (clamp d t) := by
        unfold vals
        rw [hsh.2 a hm]
        exact List.map_congr_left fun k _ => val_concat_clamp d hsh.1 hsh.2 hm a3 k
      rw [e]
      change Has (evalConcat (args.map (elt u)) c t) _
      rw [a4, ← hsh.2 a hm]
      exact ih a hm _
    | unique =>
      obtain ⟨a, rfl, -, rfl⟩ := hsh
      have e : vals (.expr d a.codim .unique [a]) t = vals a t := by unfold vals; rw [val_unique]; rfl
      rw [e]
      exact ih a (by simp) t
    | neg =>
      obtain ⟨a, rfl, -, rfl⟩ := hsh
      have e : vals (.expr d a.codim .neg [a]) t = (vals a t).map (· * -1) := by
        unfold vals
        rw [List.map_map]
        exact List.map_congr_left fun k hk => by rw [(val_neg d (hto a (by simp))).2 k (List.mem_range.mp hk)]; simp
      rw [e]
      exact Has.bind (ih a (by simp) t) (has_mapNear h1 h2 _)

end exact

/-! ## No access out of range -/

/-- No undefined behaviour, and a row of the right length. -/
def Fit (c : ℕ) (r : Res (List ℝ)) : Prop := r ≠ .error .ub ∧ ∀ v, r = .ok v → v.length = c

theorem fit_ok {c : ℕ} {v : List ℝ} (h : v.length = c) : Fit c (.ok v) := ⟨by simp, fun w hw => by cases hw; exact h⟩

theorem fit_bind {α : Type} {p : Nd α} {f : α → Nd (List ℝ)} {c : ℕ} {P : α → Prop} (h : All p fun r => r ≠ .error .ub ∧ ∀ a, r = .ok a → P a) (hf : ∀ a, P a → All (f a) (Fit c)) :
    All (p >>= f) (Fit c) := by
  rintro r (⟨e, he, rfl⟩ | ⟨a, ha, hr⟩)
  · exact ⟨fun h' => (h _ he).1 (by cases h'; rfl), fun v hv => by cases hv⟩
  · exact hf a ((h _ ha).2 a rfl) r hr

theorem safe_and {α : Type} {p : Nd α} (h : All p Safe) : All p fun r => r ≠ .error .ub ∧ ∀ a, r = .ok a → True := fun r hr => ⟨h r hr, fun _ _ => trivial⟩

theorem fit_mapM {α : Type} {f : α → Nd ℝ} : ∀ {l : List α}, (∀ a ∈ l, All (f a) Safe) → All (l.mapM f) (Fit l.length) := by
  intro l
  induction l with
  | nil => intro _ r hr; rw [show r = .ok [] from hr]; exact fit_ok rfl
  | cons a l ih =>
    intro h
    rw [List.mapM_cons]
    refine fit_bind (P := fun _ => True) (safe_and (h a (by simp))) fun x _ => fit_bind (P := fun v => v.length = l.length) (ih fun b hb => h b (by simp [hb])) fun v hv => ?_
    intro r hr
    rw [show r = .ok (x :: v) from hr]
    exact fit_ok (by simp [hv])

theorem fit_near (u : ℝ × ℝ) (l : List ℝ) : All (l.mapM (near u)) (Fit l.length) := fit_mapM fun a _ => safe_near u a

theorem fit_scalar {x : Nd ℝ} (h : All x Safe) : All (scalar x 1) (Fit 1) := by
  unfold scalar
  rw [if_pos rfl]
  exact fit_bind (P := fun _ => True) (safe_and h) fun y _ r hr => by rw [show r = .ok [y] from hr]; exact fit_ok rfl

theorem fit_foldlM {c : ℕ} {β : Type} {body : List ℝ → β → Nd (List ℝ)} : ∀ {l : List β}, (∀ b ∈ l, ∀ v : List ℝ, v.length = c → All (body v b) (Fit c)) →
    ∀ v : List ℝ, v.length = c → All (l.foldlM body v) (Fit c) := by
  intro l
  induction l with
  | nil => intro _ v hv r hr; rw [show r = .ok v from hr]; exact fit_ok hv
  | cons b l ih =>
    intro h v hv
    rw [List.foldlM_cons]
    exact fit_bind (P := fun w => w.length = c) (h b (by simp) v hv) fun w hw => ih (fun b' hb' => h b' (by simp [hb'])) w hw

theorem safe_horner (u : ℝ × ℝ) (a : List ℝ) (t : ℝ) : All (horner u a t) Safe := by
  unfold horner
  induction a.dropLast with
  | nil => exact safe_pure _
  | cons c l ih =>
    rw [List.foldr_cons]
    exact safe_bind ih fun x => safe_bind (safe_near _ _) fun y => safe_near _ _

theorem fit_value (u : ℝ × ℝ) {g : GSpline} (hb : g.basis.Valid) (hcon : Consistent g) (hp : Positive g) (t : ℝ) : All (value u g t) (Fit g.codim) := by
  intro r hr
  refine ⟨safe_value u (fun d e => by rw [e] at hb; exact hb) hcon hp.1 t r hr, fun v hv => ?_⟩
  subst hv
  rcases hr with ⟨e, he, h⟩ | ⟨i, hi, hr⟩
  · cases h
  rcases hr with ⟨e, he, h⟩ | ⟨s, hs, hr⟩
  · cases h
  rcases hr with ⟨e, he, h⟩ | ⟨tau, htau, hr⟩
  · cases h
  rcases hr with ⟨e, he, h⟩ | ⟨buf, hbuf, hr⟩
  · cases h
  have key : ∀ {α : Type} {f : α → Nd ℝ} (l : List α) (v : List ℝ), (l.mapM f) (.ok v) → v.length = l.length := by
    intro α f l
    induction l with
    | nil => intro v h; cases h; rfl
    | cons a l ih =>
      intro v h
      rw [List.mapM_cons] at h
      rcases h with ⟨e, he, h⟩ | ⟨x, hx, h⟩
      · cases h
      rcases h with ⟨e, he, h⟩ | ⟨w, hw, h⟩
      · cases h
      cases h
      simp [ih w hw]
  simpa using key _ v hr

theorem fit_comp {u : ℝ × ℝ} {z : Fn} (hz : ∀ t, All (row u z z.codim t) (Fit z.codim)) : ∀ (init : List Fn) (t : ℝ), (∀ a ∈ init, a.codim = 1) →
    (∀ a ∈ init, ∀ t, All (row u a a.codim t) (Fit a.codim)) → All (evalComp ((init ++ [z]).map (elt u)) z.codim t) (Fit z.codim) := by
  intro init
  induction init with
  | nil => intro t _ _; exact hz t
  | cons a init ih =>
    intro t hc h
    have hne : ∃ e es, init ++ [z] = e :: es := by cases init <;> exact ⟨_, _, rfl⟩
    obtain ⟨e, es, he⟩ := hne
    have h2 : ∀ s, All (evalComp ((e :: es).map (elt u)) z.codim s) (Fit z.codim) := fun s => by
      have := ih s (fun b hb => hc b (by simp [hb])) fun b hb => h b (by simp [hb])
      rwa [he] at this
    simp only [List.cons_append, he, List.map_cons, evalComp]
    have ha := h a (by simp) t
    rw [hc a (by simp)] at ha
    exact fit_bind (P := fun v => v.length = 1) ha fun v _ => h2 _

theorem row_fit (u : ℝ × ℝ) {f : Fn} (hg : Good f) : ∀ t, All (row u f f.codim t) (Fit f.codim) := by
  induction hg with
  | const d v => intro t; rw [row, if_pos (by rfl)]; exact fit_near u v
  | dil d c => intro t; rw [row]; exact fit_scalar (safe_near _ _)
  | ident d => intro t; rw [row]; exact fit_scalar (safe_pure _)
  | exp d => intro t; rw [row]; exact fit_scalar (safe_near _ _)
  | cos d => intro t; rw [row]; exact fit_scalar (safe_near _ _)
  | sin d => intro t; rw [row]; exact fit_scalar (safe_near _ _)
  | poly d a ha =>
    intro t
    rw [row, polyRow, if_neg ha]
    by_cases hl : a.length = 1
    · rw [if_pos hl]
      intro r hr
      rw [show r = .ok _ from hr]
      exact fit_ok (by simp)
    · rw [if_neg hl]
      exact fit_scalar (safe_horner u a t)
  | user d c F =>
    intro t
    rw [row, if_pos (by rfl)]
    have := fit_near u ((List.range c).map (F 0 t))
    rwa [List.length_map, List.length_range] at this
  | gspl g hb hcon hp _ => intro t; rw [row, if_pos (by rfl)]; exact fit_value u hb hcon hp t
  | dot d f g hf hg hc _ _ ihf ihg =>
    intro t
    rw [row]
    refine fit_bind (ihf t) fun a _ => fit_bind (ihg t) fun b _ => ?_
    rw [if_pos ⟨hc, rfl⟩]
    refine fit_bind (P := fun _ => True) (safe_and ?_) fun x _ r hr => by rw [show r = .ok [x] from hr]; exact fit_ok rfl
    unfold dot
    exact safe_bind (safe_mapM fun _ _ => safe_near _ _) fun _ => safe_sum _ _
  | expr d c ty args ha hsh ih =>
    intro t
    rw [row_expr]
    cases ty with
    | sum =>
      obtain ⟨⟨a, rest, rfl, -⟩, hc⟩ := hsh
      change All ((List.map (elt u) (a :: rest)).foldlM (sumRow u c a.codim t) (List.replicate c 0)) (Fit c)
      refine fit_foldlM (fun e he v hv => ?_) _ (by simp)
      obtain ⟨b, hb, rfl⟩ := List.mem_map.mp he
      unfold sumRow
      rw [hc a (by simp)]
      have hbf := ih b hb t
      rw [hc b hb] at hbf
      refine fit_bind hbf fun w hw => ?_
      rw [if_pos rfl]
      have := fit_near u (List.zipWith (· + ·) v w)
      rwa [List.length_zipWith, hv, hw, min_self] at this
    | mul =>
      obtain ⟨a, rest, rfl, -, rfl, hc⟩ := hsh
      refine fit_bind (ih a (by simp) t) fun v hv => fit_foldlM (fun e he w hw => ?_) v hv
      obtain ⟨b, hb, rfl⟩ := List.mem_map.mp he
      unfold mulRow
      have hbf := ih b (by simp [hb]) t
      rw [hc b hb] at hbf
      refine fit_bind hbf fun x _ => ?_
      have := fit_near u (w.map (· * x.headD 0))
      rwa [List.length_map, hw] at this
    | comp =>
      obtain ⟨-, init, z, rfl, rfl, hc⟩ := hsh
      exact fit_comp (ih z (by simp)) init t hc fun b hb => ih b (by simp [hb])
    | concat =>
      obtain ⟨a, hm, -, -, -, a4⟩ := evalConcat_pick hsh.2 hsh.1 t
      change All (evalConcat (args.map (elt u)) c t) (Fit c)
      rw [a4, ← hsh.2 a hm]
      exact ih a hm _
    | unique =>
      obtain ⟨a, rfl, -, rfl⟩ := hsh
      exact ih a (by simp) t
    | neg =>
      obtain ⟨a, rfl, -, rfl⟩ := hsh
      refine fit_bind (ih a (by simp) t) fun v hv => ?_
      have := fit_near u (v.map (· * -1))
      rwa [List.length_map, hv] at this

/-! ## One error for all points of a compact set -/

theorem cv_uniform {f : Fn} (hg : Good f) {K : Set ℝ} (hK : IsCompact K) (hs : ∀ t ∈ K, Steady f t) {ε : ℝ} (hε : 0 < ε) :
    ∃ δ > 0, ∀ u, Small u δ → ∀ t ∈ K, ∀ t', |t' - t| ≤ δ → All (row u f f.codim t') fun r =>
      ∃ v, r = .ok v ∧ v.length = f.codim ∧ ∀ k < f.codim, |vecOf v k - val f k t| ≤ ε := by
  have loc : ∀ t ∈ K, ∃ δ > 0, ∀ u, Small u δ → ∀ t', |t' - t| < 2 * δ → All (row u f f.codim t') fun r =>
      ∃ v, r = .ok v ∧ v.length = f.codim ∧ ∀ k < f.codim, |vecOf v k - val f k t| ≤ ε / 2 := by
    intro t ht
    have h := cv_of_good hg (hs t ht) _ (nhds_list_close (l := vals f t) (half_pos hε))
    obtain ⟨δ, hδ, h⟩ := Metric.eventually_nhds_iff.mp h
    refine ⟨δ / 2, half_pos hδ, fun u hu t' ht' r hr => ?_⟩
    have hd : dist (u, t') ((0 : ℝ × ℝ), t) < δ := by
      rw [Prod.dist_eq, max_lt_iff]
      constructor
      · change dist u (0 : ℝ × ℝ) < δ
        rw [Prod.dist_eq, max_lt_iff]
        constructor
        · rw [Real.dist_eq, Prod.fst_zero, sub_zero, abs_of_nonneg hu.1]; linarith [hu.2.1]
        · rw [Real.dist_eq, Prod.snd_zero, sub_zero, abs_of_nonneg hu.2.2.1]; linarith [hu.2.2.2]
      · change dist t' t < δ
        rw [Real.dist_eq]; linarith
    obtain ⟨v, hv, e⟩ := h hd r hr
    obtain ⟨h1, h2⟩ := hv
    rw [length_vals] at h1 h2
    exact ⟨v, e, h1, fun k hk => by rw [← vecOf_vals hk]; exact h2 k hk⟩
  choose! D hD hloc using loc
  obtain ⟨S, hS, hcov⟩ := hK.elim_nhds_subcover (fun t => Metric.ball t (D t)) fun t ht => Metric.ball_mem_nhds t (hD t ht)
  have hmin : ∃ δ > 0, ∀ s ∈ S, δ ≤ D s := by
    by_cases hne : S.Nonempty
    · obtain ⟨s0, h0, hle⟩ := S.exists_min_image D hne
      exact ⟨D s0, hD s0 (hS s0 h0), hle⟩
    · rw [Finset.not_nonempty_iff_eq_empty] at hne
      exact ⟨1, one_pos, by simp [hne]⟩
  obtain ⟨δ, hδ, hle⟩ := hmin
  refine ⟨δ, hδ, fun u hu t ht t' ht' r hr => ?_⟩
  obtain ⟨s, hsS, hts⟩ : ∃ s ∈ S, t ∈ Metric.ball s (D s) := by simpa using hcov ht
  have hds : |t - s| < D s := by rwa [Metric.mem_ball, Real.dist_eq] at hts
  have hu' : Small u (D s) := ⟨hu.1, hu.2.1.trans (hle s hsS), hu.2.2.1, hu.2.2.2.trans (hle s hsS)⟩
  have hsK := hS s hsS
  obtain ⟨v, e, hl, hv⟩ := hloc s hsK u hu' t' (by
    have := abs_sub_le t' t s
    linarith [hle s hsS]) r hr
  obtain ⟨w, e', hl', hw⟩ := hloc s hsK u hu' t (by linarith [hD s hsK]) _ (row_has hu.1 hu.2.2.1 hg t)
  cases e'
  refine ⟨v, e, hl, fun k hk => ?_⟩
  have h3 := hv k hk
  have h4 := hw k hk
  rw [vecOf_vals hk] at h4
  have := abs_sub_le (vecOf v k) (val f k s) (val f k t)
  rw [abs_sub_comm (val f k s)] at this
  linarith

/-- A function that does not jump at `t` is continuous there. -/
theorem steady_continuousAt {f : Fn} (hg : Good f) {t : ℝ} (hs : Steady f t) {k : ℕ} (hk : k < f.codim) : ContinuousAt (val f k) t := by
  rw [Metric.continuousAt_iff]
  intro ε hε
  obtain ⟨δ, hδ, h⟩ := cv_uniform hg (K := {t}) isCompact_singleton (by rintro _ rfl; exact hs) (half_pos hε)
  refine ⟨δ, hδ, fun {x} hx => ?_⟩
  obtain ⟨v, e, -, hv⟩ := h (0, 0) ⟨le_rfl, hδ.le, le_rfl, hδ.le⟩ t rfl x (by rw [Real.dist_eq] at hx; exact hx.le) _ (row_has le_rfl le_rfl hg x)
  cases e
  have := hv k hk
  rw [vecOf_vals hk] at this
  rw [Real.dist_eq]
  linarith

end GSplines.Rounded
