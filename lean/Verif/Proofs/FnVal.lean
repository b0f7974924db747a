import Verif.Proofs.FnWF
import Verif.Spec.FnDeriv

/-!
# Values of function objects, one point at a time
-/

namespace GSplines.Fn

open GSplines Spec

/-- The object can be evaluated everywhere. -/
def Tot (f : Fn) : Prop := ∀ t, f.call [t] = .ok [(List.range f.codim).map fun k => val f k t]

theorem val_of_call {f : Fn} {t : ℝ} {r : List ℝ} (h : f.call [t] = .ok [r]) (k : ℕ) : val f k t = r.getD k 0 := by
  unfold val; rw [h]

theorem getD_map_range {F : ℕ → ℝ} {n k : ℕ} (h : k < n) : ((List.range n).map F).getD k 0 = F k := by
  rw [List.getD_eq_getElem?_getD, List.getElem?_map, List.getElem?_range h]; rfl

theorem eq_map_range {r : List ℝ} {n : ℕ} (h : r.length = n) : r = (List.range n).map fun k => r.getD k 0 := by
  subst h
  refine List.ext_getElem (by simp) fun i h1 h2 => ?_
  simp [List.getD_eq_getElem?_getD, h1]

/-- How to find the values of an object. -/
theorem tot_intro {f : Fn} {F : ℕ → ℝ → ℝ} (h : ∀ t, f.call [t] = .ok [(List.range f.codim).map fun k => F k t]) :
    f.Tot ∧ ∀ k < f.codim, val f k = F k := by
  have h2 : ∀ t, ∀ k < f.codim, val f k t = F k t := by
    intro t k hk
    rw [val_of_call (h t), getD_map_range hk]
  refine ⟨fun t => ?_, fun k hk => funext fun t => h2 t k hk⟩
  rw [h t]
  congr 2
  exact List.map_congr_left fun k hk => (h2 t k (List.mem_range.mp hk)).symm

theorem tot_of_call {f : Fn} (h : ∀ t, ∃ r, f.call [t] = .ok [r]) : f.Tot := by
  intro t
  obtain ⟨r, hr⟩ := h t
  have hl : r.length = f.codim := (run_dims f _ _ _ hr).2 r (by simp)
  rw [hr, eq_map_range hl]
  congr 2
  refine List.map_congr_left fun k _ => ?_
  rw [val_of_call hr]

theorem Tot.run {f : Fn} (h : f.Tot) (t : ℝ) : f.run f.codim [t] = .ok [(List.range f.codim).map fun k => val f k t] := h t

theorem val_congr {f g : Fn} (hr : f.run = g.run) (hc : f.codim = g.codim) : val f = val g := by
  unfold val call
  rw [hr, hc]

theorem tot_congr {f g : Fn} (hr : f.run = g.run) (hc : f.codim = g.codim) (h : f.Tot) : g.Tot := by
  intro t
  rw [← val_congr hr hc, call, ← hr, ← hc]
  exact h t

theorem tot_wrap {f : Fn} (h : f.Tot) : f.wrap.Tot := tot_congr (run_wrap f).symm rfl h
theorem val_wrap (f : Fn) : val f.wrap = val f := val_congr (run_wrap f) rfl

/-! ## Leaves -/

theorem val_scalar {f : Fn} {F : ℝ → ℝ} (hc : f.codim = 1) (hr : ∀ cols ts, f.run cols ts = scalarRun F cols ts) : f.Tot ∧ val f 0 = F := by
  have := tot_intro (f := f) (F := fun _ => F) fun t => by
    rw [call, hr, hc]
    simp [scalarRun]
  exact ⟨this.1, this.2 0 (by omega)⟩

theorem val_dil (d : ℝ × ℝ) (c : ℝ) : (dil d c).Tot ∧ val (dil d c) 0 = fun t => c * t := val_scalar rfl fun cols ts => by rw [run]
theorem val_ident (d : ℝ × ℝ) : (ident d).Tot ∧ val (ident d) 0 = fun t => t := val_scalar rfl fun cols ts => by rw [run]
theorem val_exp (d : ℝ × ℝ) : (exp d).Tot ∧ val (exp d) 0 = Real.exp := val_scalar rfl fun cols ts => by rw [run]
theorem val_cos (d : ℝ × ℝ) : (cos d).Tot ∧ val (cos d) 0 = Real.cos := val_scalar rfl fun cols ts => by rw [run]
theorem val_sin (d : ℝ × ℝ) : (sin d).Tot ∧ val (sin d) 0 = Real.sin := val_scalar rfl fun cols ts => by rw [run]

theorem val_const (d : ℝ × ℝ) (v : List ℝ) : (const d v).Tot ∧ ∀ k < v.length, val (const d v) k = fun _ => v.getD k 0 :=
  tot_intro (f := const d v) (F := fun k _ => v.getD k 0) fun t => by
    rw [call, run, if_pos (by rfl)]
    simp only [List.map_cons, List.map_nil]
    congr 2
    exact eq_map_range rfl

theorem val_poly (d : ℝ × ℝ) {a : List ℝ} (ha : a ≠ []) : (poly d a).Tot ∧ val (poly d a) 0 = horner a := by
  have := tot_intro (f := poly d a) (F := fun _ => horner a) fun t => by
    rw [call, run, show (poly d a).codim = 1 from rfl, polyRun, if_neg ha]
    split_ifs
    · simp
    · simp [scalarRun]
  exact ⟨this.1, this.2 0 (by change 0 < 1; omega)⟩

theorem val_user (d : ℝ × ℝ) (c : ℕ) (F : ℕ → ℝ → ℕ → ℝ) : (user d c F).Tot ∧ ∀ k < c, val (user d c F) k = fun t => F 0 t k :=
  tot_intro (f := user d c F) (F := fun k t => F 0 t k) fun t => by
    rw [call, run, if_pos (by rfl)]
    rfl

theorem call_gspl (g : GSpline) (t : ℝ) (r : List ℝ) : (gspl g).call [t] = .ok [r] ↔ g.value t = .ok r := by
  rw [call, run, if_pos (by rfl), GSpline.values, mapM_single, bind_ok]
  simp only [pure_ok]
  constructor
  · rintro ⟨x, h, h2⟩; injection h2 with h2; rw [← h2]; exact h
  · intro h; exact ⟨r, h, rfl⟩

theorem tot_gspl {g : GSpline} (hb : g.basis.Valid) (hc : Consistent g) (hp : Positive g) : (gspl g).Tot :=
  tot_of_call fun t => by
    obtain ⟨v, hv, -⟩ := GSpline.value_total hb hc hp.1 hp.not_mem t
    exact ⟨v, (call_gspl g t v).mpr hv⟩

theorem val_gspl {g : GSpline} (hb : g.basis.Valid) (hc : Consistent g) (hp : Positive g) {t : ℝ} {i : ℕ} (hl : Located g t i)
    (hcl : g.basis.CleanAt (window (vecOf g.tau i) (t - brk g i))) {k : ℕ} (hk : k < g.codim) : val (gspl g) k t = curve g i k t := by
  obtain ⟨v, hv, -, hvc⟩ := GSpline.value_spec hb hc (GSpline.getInterval_of_located hp hl) hl.1 (vecOf_pos hp.2 hl.1).ne' hcl
  rw [val_of_call ((call_gspl g t v).mpr hv), List.getD_eq_getElem?_getD, hvc k hk]; rfl

/-! ## Dot products -/

theorem zip_range (n : ℕ) (F G : ℕ → ℝ) (op : ℝ → ℝ → ℝ) :
    List.zipWith op ((List.range n).map F) ((List.range n).map G) = (List.range n).map fun k => op (F k) (G k) := by
  rw [List.zipWith_map, List.zipWith_self]

theorem val_dot (d : ℝ × ℝ) {f g : Fn} (hf : f.Tot) (hg : g.Tot) (hc : f.codim = g.codim) :
    (dot d f g).Tot ∧ val (dot d f g) 0 = fun t => ∑ k ∈ Finset.range f.codim, val f k t * val g k t := by
  have := tot_intro (f := dot d f g) (F := fun _ t => ∑ k ∈ Finset.range f.codim, val f k t * val g k t) fun t => by
    rw [call, run, hf.run t, hg.run t]
    change (if f.codim = g.codim ∧ (1 : ℕ) = 1 then _ else _) = _
    rw [if_pos ⟨hc, rfl⟩, ← hc]
    change Except.ok _ = _
    simp only [List.zipWith_cons_cons, List.zipWith_nil_right, zip_range]
    rfl
  exact ⟨this.1, this.2 0 (by change 0 < 1; omega)⟩

/-! ## Sums -/

theorem sumFold_val {c : ℕ} (t : ℝ) : ∀ (l : List Fn) (F : ℕ → ℝ), (∀ a ∈ l, a.Tot) → (∀ a ∈ l, a.codim = c) →
    (l.map ev).foldlM (sumStep c c [t]) [(List.range c).map F] = .ok [(List.range c).map fun k => F k + (l.map fun a => val a k t).sum] := by
  intro l
  induction l with
  | nil => intro F _ _; simp [pure, Except.pure]
  | cons a l ih =>
    intro F ht hc
    rw [List.map_cons, List.foldlM_cons]
    have h1 : sumStep c c [t] [(List.range c).map F] a.ev = .ok [(List.range c).map fun k => F k + val a k t] := by
      rw [sumStep_ok]
      refine ⟨[(List.range c).map fun k => val a k t], ?_, ?_⟩
      · have := (ht a (by simp)).run t
        rw [hc a (by simp)] at this
        exact this
      · simp [addRows]
    rw [h1]
    change (l.map ev).foldlM _ _ = _
    rw [ih _ (fun b hb => ht b (by simp [hb])) (fun b hb => hc b (by simp [hb]))]
    congr 2
    refine List.map_congr_left fun k _ => ?_
    rw [List.map_cons, List.sum_cons]; ring

theorem val_sum (d : ℝ × ℝ) {c : ℕ} {l : List Fn} (hne : l ≠ []) (ht : ∀ a ∈ l, a.Tot) (hc : ∀ a ∈ l, a.codim = c) :
    (expr d c .sum l).Tot ∧ ∀ k < c, val (expr d c .sum l) k = fun t => (l.map fun a => val a k t).sum :=
  tot_intro (f := expr d c .sum l) (F := fun k t => (l.map fun a => val a k t).sum) fun t => by
    rw [call, run_expr]
    change evalSum (l.map ev) c [t] = .ok [(List.range c).map _]
    rw [evalSum_eq hne hc]
    have := sumFold_val t l (fun _ => 0) ht hc
    simp only [zero_add] at this
    rw [← this]
    congr 1
    simp

/-! ## Products -/

theorem mulFold_val {c : ℕ} (t : ℝ) : ∀ (l : List Fn) (F : ℕ → ℝ), (∀ a ∈ l, a.Tot) → (∀ a ∈ l, a.codim = 1) →
    (l.map ev).foldlM (mulStep [t]) [(List.range c).map F] = .ok [(List.range c).map fun k => F k * (l.map fun a => val a 0 t).prod] := by
  intro l
  induction l with
  | nil => intro F _ _; simp [pure, Except.pure]
  | cons a l ih =>
    intro F ht hc
    rw [List.map_cons, List.foldlM_cons]
    have h1 : mulStep [t] [(List.range c).map F] a.ev = .ok [(List.range c).map fun k => F k * val a 0 t] := by
      rw [mulStep_ok]
      refine ⟨[[val a 0 t]], ?_, ?_⟩
      · have := (ht a (by simp)).run t
        rw [hc a (by simp)] at this
        exact this
      · simp [scaleRows]
    rw [h1]
    change (l.map ev).foldlM _ _ = _
    rw [ih _ (fun b hb => ht b (by simp [hb])) (fun b hb => hc b (by simp [hb]))]
    congr 2
    refine List.map_congr_left fun k _ => ?_
    rw [List.map_cons, List.prod_cons]; ring

theorem val_mul (d : ℝ × ℝ) {a : Fn} {l : List Fn} (ha : a.Tot) (ht : ∀ b ∈ l, b.Tot) (hc : ∀ b ∈ l, b.codim = 1) :
    (expr d a.codim .mul (a :: l)).Tot ∧
      ∀ k < a.codim, val (expr d a.codim .mul (a :: l)) k = fun t => val a k t * (l.map fun b => val b 0 t).prod :=
  tot_intro (f := expr d a.codim .mul (a :: l)) (F := fun k t => val a k t * (l.map fun b => val b 0 t).prod) fun t => by
    rw [call, run_expr]
    change evalMul (a.ev :: l.map ev) a.codim [t] = _
    rw [evalMul_cons]
    change (do let res ← a.run a.codim [t]; (l.map ev).foldlM (mulStep [t]) res) = _
    rw [ha.run t]
    exact mulFold_val t l _ ht hc

/-! ## Compositions -/

theorem evalComp_val : ∀ (init : List Fn) (z : Fn) (cols : ℕ) (t : ℝ), (∀ a ∈ init, a.Tot) → (∀ a ∈ init, a.codim = 1) →
    evalComp ((init ++ [z]).map ev) cols [t] = z.run cols [through init t] := by
  intro init
  induction init with
  | nil => intro z cols t _ _; rfl
  | cons a init ih =>
    intro z cols t ht hc
    have ha := (ht a (by simp)).run t
    rw [hc a (by simp)] at ha
    have h := ih z cols (val a 0 t) (fun b hb => ht b (by simp [hb])) (fun b hb => hc b (by simp [hb]))
    have hne : ∃ e es, (init ++ [z]).map ev = e :: es := by cases init <;> exact ⟨_, _, rfl⟩
    obtain ⟨e, es, he⟩ := hne
    rw [List.cons_append, List.map_cons, he, evalComp]
    change (do let temp ← a.run 1 [t]; evalComp (e :: es) cols (temp.map fun r : List ℝ => r.headD 0)) = _
    rw [ha, ← he]
    exact h

theorem val_comp (d : ℝ × ℝ) {init : List Fn} {z : Fn} (hz : z.Tot) (ht : ∀ b ∈ init, b.Tot) (hc : ∀ b ∈ init, b.codim = 1) :
    (expr d z.codim .comp (init ++ [z])).Tot ∧
      ∀ k < z.codim, val (expr d z.codim .comp (init ++ [z])) k = fun t => val z k (through init t) :=
  tot_intro (f := expr d z.codim .comp (init ++ [z])) (F := fun k t => val z k (through init t)) fun t => by
    rw [call, run_expr]
    change evalComp _ z.codim [t] = _
    rw [evalComp_val init z _ t ht hc]
    exact hz.run _

/-! ## Concatenations -/

theorem search_mem {l : List Fn} {t : ℝ} {e : Ev} (h : search l t = some e) : ∃ a ∈ l, e = a.ev := by
  have := List.mem_of_find?_eq_some h
  obtain ⟨a, ha, rfl⟩ := List.mem_map.mp this
  exact ⟨a, ha, rfl⟩

theorem tot_concat (d : ℝ × ℝ) {c : ℕ} {l : List Fn} {a b : ℝ} (hp : Pieces l a b) (ht : ∀ x ∈ l, x.Tot) (hc : ∀ x ∈ l, x.codim = c) :
    (expr d c .concat l).Tot := by
  have hne : l ≠ [] := by rintro rfl; exact hp.elim
  refine tot_of_call fun t => ?_
  rw [call, run_expr]
  change ∃ r, evalConcat (l.map ev) c [t] = .ok [r]
  rw [evalConcat_single hne hc]
  have key : ∀ x ∈ l, ∀ s, ∃ r, x.run c [s] = .ok [r] := by
    intro x hx s
    have := (ht x hx).run s
    rw [hc x hx] at this
    exact ⟨_, this⟩
  rcases lt_or_ge t a with h1 | h1
  · obtain ⟨f, hf, e⟩ := pickRun_low (c := c) hp h1.le
    rw [e]; exact key f (List.mem_of_head? hf) _
  rcases lt_or_ge t b with h2 | h2
  · obtain ⟨e, he⟩ := search_cover hp h1 h2
    rw [pickRun_some he]
    obtain ⟨x, hx, rfl⟩ := search_mem he
    exact key x hx t
  · obtain ⟨f, hf, e⟩ := pickRun_high (c := c) hp h2
    rw [e]; exact key f (List.mem_of_getLast? hf) _

/-- Inside a piece the search finds this piece. -/
theorem search_inside : ∀ {l : List Fn} {a b : ℝ}, Pieces l a b → ∀ f ∈ l, ∀ t, f.dom.1 < t → t < f.dom.2 → search l t = some f.ev := by
  intro l
  induction l with
  | nil => intro a b h; exact h.elim
  | cons g l ih =>
    intro a b h f hf t h1 h2
    rw [search_cons]
    rcases List.mem_cons.mp hf with rfl | hf
    · rw [if_pos ⟨h1.le, h2⟩]
    · cases l with
      | nil => simp at hf
      | cons g' l =>
        obtain ⟨-, -, h3⟩ := h
        have := (pieces_mem h3 f hf).1
        rw [if_neg (by intro h; linarith [h.2])]
        exact ih h3 f hf t h1 h2

theorem val_concat (d : ℝ × ℝ) {c : ℕ} {l : List Fn} {a b : ℝ} (hp : Pieces l a b) (hc : ∀ x ∈ l, x.codim = c)
    {f : Fn} (hf : f ∈ l) {t : ℝ} (h1 : f.dom.1 < t) (h2 : t < f.dom.2) (k : ℕ) : val (expr d c .concat l) k t = val f k t := by
  have hne : l ≠ [] := by rintro rfl; exact hp.elim
  unfold val
  have : (expr d c .concat l).call [t] = f.call [t] := by
    rw [call, run_expr]
    change evalConcat (l.map ev) c [t] = _
    rw [evalConcat_single hne hc, pickRun_some (search_inside hp f hf t h1 h2), call, hc f hf]
    rfl
  rw [this]

/-! ## UNIQUE and NEGATIVE -/

theorem val_unique (d : ℝ × ℝ) (a : Fn) : val (expr d a.codim .unique [a]) = val a :=
  val_congr (by rw [run_expr]; rfl) rfl

theorem tot_unique (d : ℝ × ℝ) {a : Fn} (h : a.Tot) : (expr d a.codim .unique [a]).Tot :=
  tot_congr (f := a) (by rw [run_expr]; rfl) rfl h

theorem val_neg (d : ℝ × ℝ) {a : Fn} (h : a.Tot) :
    (expr d a.codim .neg [a]).Tot ∧ ∀ k < a.codim, val (expr d a.codim .neg [a]) k = fun t => - val a k t :=
  tot_intro (f := expr d a.codim .neg [a]) (F := fun k t => - val a k t) fun t => by
    rw [call, run_expr]
    change (do let res ← a.run a.codim [t]; return res.map fun r : List ℝ => r.map (· * -1)) = _
    rw [h.run t]
    change Except.ok _ = _
    simp
    rfl

/-! ## Good objects can be evaluated -/

theorem tot_of_good {f : Fn} (h : Good f) : f.Tot := by
  induction h with
  | const d v => exact (val_const d v).1
  | dil d c => exact (val_dil d c).1
  | ident d => exact (val_ident d).1
  | exp d => exact (val_exp d).1
  | cos d => exact (val_cos d).1
  | sin d => exact (val_sin d).1
  | poly d a ha => exact (val_poly d ha).1
  | user d c F => exact (val_user d c F).1
  | gspl g hb hc hp _ => exact tot_gspl hb hc hp
  | dot d f g _ _ hc _ _ hf hg => exact (val_dot d hf hg hc).1
  | expr d c ty args _ hs ih =>
    cases ty with
    | sum =>
      obtain ⟨⟨a, rest, rfl, -⟩, hc⟩ := hs
      exact (val_sum d (by simp) ih hc).1
    | mul =>
      obtain ⟨a, rest, rfl, -, rfl, hc⟩ := hs
      exact (val_mul d (ih a (by simp)) (fun b hb => ih b (by simp [hb])) hc).1
    | comp =>
      obtain ⟨-, init, z, rfl, rfl, hc⟩ := hs
      exact (val_comp d (ih z (by simp)) (fun b hb => ih b (by simp [hb])) hc).1
    | concat => exact tot_concat d hs.1 ih hs.2
    | unique =>
      obtain ⟨a, rfl, -, rfl⟩ := hs
      exact tot_unique d (ih a (by simp))
    | neg =>
      obtain ⟨a, rfl, -, rfl⟩ := hs
      exact (val_neg d (ih a (by simp))).1

end GSplines.Fn
