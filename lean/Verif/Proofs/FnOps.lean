import Verif.Spec.Fn
import Verif.Proofs.FnEval

/-!
# Operations on functions: helper lemmas
-/

namespace GSplines.Fn

open GSplines Spec

/-! ## Shapes -/

theorem mapM_length {α β : Type} {f : α → Res β} : ∀ (l : List α) (r : List β), l.mapM f = .ok r → r.length = l.length := by
  intro l
  induction l with
  | nil => intro r h; simp only [List.mapM_nil, pure_ok] at h; subst h; rfl
  | cons a l ih =>
    intro r h
    simp only [List.mapM_cons, bind_ok, pure_ok] at h
    obtain ⟨x, -, xs, hxs, rfl⟩ := h
    simp [ih xs hxs]

theorem zip2_length {a b : List ℝ} {c : ℕ} {f : ℝ → ℝ → ℝ} (ha : a.length = c) (hb : b.length = c) : (List.zipWith f a b).length = c := by
  simp [ha, hb]

theorem dims_zip {n c : ℕ} {a b : Rows} {f : List ℝ → List ℝ → List ℝ} (ha : Dims n c a) (hb : b.length = n)
    (hf : ∀ x ∈ a, ∀ y ∈ b, (f x y).length = c) : Dims n c (List.zipWith f a b) := by
  refine ⟨by simp [ha.1, hb], fun r hr => ?_⟩
  obtain ⟨i, hi, rfl⟩ := List.mem_iff_getElem.mp hr
  rw [List.getElem_zipWith]
  exact hf _ (List.getElem_mem _) _ (List.getElem_mem _)

theorem dims_add {n c : ℕ} {a b : Rows} (ha : Dims n c a) (hb : Dims n c b) : Dims n c (addRows a b) :=
  dims_zip ha hb.1 fun x hx y hy => zip2_length (ha.2 x hx) (hb.2 y hy)

/-- `res.array().colwise() *= temp.col(0)`. -/
def scaleRows (acc temp : Rows) : Rows := List.zipWith (fun r x => r.map (· * x.headD 0)) acc temp

theorem dims_scale {n c : ℕ} {a b : Rows} (ha : Dims n c a) (hb : b.length = n) : Dims n c (scaleRows a b) :=
  dims_zip ha hb fun x hx y _ => by simp [ha.2 x hx]

theorem dims_zeros (n c : ℕ) : Dims n c (List.replicate n (List.replicate c 0)) := by
  refine ⟨by simp, fun r hr => ?_⟩
  rw [(List.mem_replicate.mp hr).2]; simp

theorem run_length (f : Fn) {cols : ℕ} {ts : List ℝ} {rows : Rows} (h : f.run cols ts = .ok rows) : rows.length = ts.length :=
  law_length (run_law f cols) ts rows h

/-- The result of an evaluation has one row per point and as many columns as the buffer. -/
theorem run_dims (f : Fn) : ∀ cols ts rows, f.run cols ts = .ok rows → Dims ts.length cols rows := by
  induction f using ind with
  | hconst d v =>
    intro cols ts rows h
    rw [run] at h
    split_ifs at h with hc
    injection h with h; subst h
    exact ⟨by simp, by simp +contextual [hc]⟩
  | hdil d c =>
    intro cols ts rows h
    rw [run, scalarRun] at h
    split_ifs at h with hc
    injection h with h; subst h
    exact ⟨by simp, by simp +contextual [hc]⟩
  | hident d =>
    intro cols ts rows h
    rw [run, scalarRun] at h
    split_ifs at h with hc
    injection h with h; subst h
    exact ⟨by simp, by simp +contextual [hc]⟩
  | hexp d =>
    intro cols ts rows h
    rw [run, scalarRun] at h
    split_ifs at h with hc
    injection h with h; subst h
    exact ⟨by simp, by simp +contextual [hc]⟩
  | hcos d =>
    intro cols ts rows h
    rw [run, scalarRun] at h
    split_ifs at h with hc
    injection h with h; subst h
    exact ⟨by simp, by simp +contextual [hc]⟩
  | hsin d =>
    intro cols ts rows h
    rw [run, scalarRun] at h
    split_ifs at h with hc
    injection h with h; subst h
    exact ⟨by simp, by simp +contextual [hc]⟩
  | hpoly d a =>
    intro cols ts rows h
    rw [run, polyRun] at h
    simp only [scalarRun] at h
    split_ifs at h with h1 h2 hc
    · injection h with h; subst h
      exact ⟨by simp, by simp +contextual⟩
    · injection h with h; subst h
      exact ⟨by simp, by simp +contextual [hc]⟩
  | huser d c F =>
    intro cols ts rows h
    rw [run] at h
    split_ifs at h with hc
    injection h with h; subst h
    exact ⟨by simp, by simp +contextual [hc]⟩
  | hgspl g =>
    intro cols ts rows h
    refine ⟨run_length _ h, ?_⟩
    rw [run] at h
    split_ifs at h with hc
    rw [hc]
    clear hc
    unfold GSpline.values at h
    induction ts generalizing rows with
    | nil => simp only [List.mapM_nil, pure_ok] at h; subst h; simp
    | cons t ts ih =>
      simp only [List.mapM_cons, bind_ok, pure_ok] at h
      obtain ⟨r, hr, rs, hrs, rfl⟩ := h
      intro x hx
      rcases List.mem_cons.mp hx with rfl | hx
      · unfold GSpline.value at hr
        simp only [bind_ok] at hr
        obtain ⟨_, -, _, -, _, -, hr⟩ := hr
        rw [mapM_length _ _ hr, List.length_range]
      · exact ih rs hrs x hx
  | hdot d f1 f2 h1 h2 =>
    intro cols ts rows h
    refine ⟨run_length _ h, ?_⟩
    simp only [run, bind_ok] at h
    obtain ⟨a, ha, b, hb, h⟩ := h
    split_ifs at h with hc
    rw [pure_ok] at h
    subst h
    intro r hr
    obtain ⟨i, hi, rfl⟩ := List.mem_iff_getElem.mp hr
    rw [List.getElem_zipWith]
    simp [hc.2]
  | hexpr d c ty args hargs =>
    intro cols ts rows h
    refine ⟨run_length _ h, ?_⟩
    rw [run_expr] at h
    have hall : ∀ e ∈ args.map ev, ∀ c ts rows, e.run c ts = .ok rows → Dims ts.length c rows := by
      intro e he c
      obtain ⟨a, ha, rfl⟩ := List.mem_map.mp he
      exact hargs a ha c
    generalize args.map ev = l at hall h
    cases ty with
    | sum =>
      change evalSum l cols ts = _ at h
      cases l with
      | nil => simp [evalSum] at h
      | cons f l =>
        rw [evalSum_cons] at h
        have key : ∀ (l : List Ev) (c0 : ℕ) (acc : Rows), (∀ e ∈ l, ∀ c ts rows, e.run c ts = .ok rows → Dims ts.length c rows) →
            Dims ts.length cols acc → ∀ rows, l.foldlM (sumStep cols c0 ts) acc = .ok rows → Dims ts.length cols rows := by
          intro l c0
          induction l with
          | nil => intro acc _ ha rows h; simp only [List.foldlM_nil, pure_ok] at h; rw [← h]; exact ha
          | cons e l ih =>
            intro acc hl ha rows h
            simp only [List.foldlM_cons, bind_ok, sumStep] at h
            obtain ⟨acc', ⟨temp, ht, h2⟩, h3⟩ := h
            split_ifs at h2 with hc
            rw [pure_ok] at h2
            subst h2
            have htd := hl e (by simp) _ _ _ ht
            rw [← hc] at htd
            exact ih _ (fun e he => hl e (by simp [he])) (dims_add ha htd) rows h3
        exact (key _ _ _ hall (dims_zeros _ _) rows h).2
    | mul =>
      change evalMul l cols ts = _ at h
      cases l with
      | nil => simp [evalMul] at h
      | cons f l =>
        rw [evalMul_cons, bind_ok] at h
        obtain ⟨res, hres, h⟩ := h
        have key : ∀ (l : List Ev) (acc : Rows), (∀ e ∈ l, ∀ c ts rows, e.run c ts = .ok rows → Dims ts.length c rows) →
            Dims ts.length cols acc → ∀ rows, l.foldlM (mulStep ts) acc = .ok rows → Dims ts.length cols rows := by
          intro l
          induction l with
          | nil => intro acc _ ha rows h; simp only [List.foldlM_nil, pure_ok] at h; rw [← h]; exact ha
          | cons e l ih =>
            intro acc hl ha rows h
            simp only [List.foldlM_cons, bind_ok, mulStep] at h
            obtain ⟨acc', ⟨temp, ht, h2⟩, h3⟩ := h
            rw [pure_ok] at h2
            subst h2
            exact ih _ (fun e he => hl e (by simp [he])) (dims_scale ha (hl e (by simp) _ _ _ ht).1) rows h3
        exact (key _ _ (fun e he => hall e (by simp [he])) (hall f (by simp) _ _ _ hres) rows h).2
    | comp =>
      change evalComp l cols ts = _ at h
      clear hargs
      induction l generalizing ts with
      | nil => simp [evalComp] at h
      | cons f l ih =>
        cases l with
        | nil => exact (hall f (by simp) _ _ _ h).2
        | cons g l =>
          simp only [evalComp, bind_ok] at h
          obtain ⟨temp, ht, h⟩ := h
          exact ih _ (fun e he => hall e (by simp only [List.mem_cons] at he ⊢; exact .inr he)) h
    | concat =>
      change evalConcat l cols ts = _ at h
      cases l with
      | nil => simp [evalConcat] at h
      | cons f l =>
        simp only [evalConcat] at h
        have key : ∀ (p : ℝ → Res (List ℝ)), (∀ t r, p t = .ok r → r.length = cols) → ∀ (ts : List ℝ) (rows : Rows), ts.mapM p = .ok rows → ∀ r ∈ rows, r.length = cols := by
          intro p hp ts
          induction ts with
          | nil => intro rows h; simp only [List.mapM_nil, pure_ok] at h; subst h; simp
          | cons t ts ih =>
            intro rows h
            simp only [List.mapM_cons, bind_ok, pure_ok] at h
            obtain ⟨r, hr, rs, hrs, rfl⟩ := h
            intro x hx
            rcases List.mem_cons.mp hx with rfl | hx
            · exact hp _ _ hr
            · exact ih rs hrs x hx
        refine key _ ?_ ts rows h
        intro t r hr
        simp only [bind_ok] at hr
        obtain ⟨⟨e, s⟩, hp, temp, ht, h2⟩ := hr
        split_ifs at h2 with hc
        rw [pure_ok] at h2
        have he : e ∈ f :: l := by
          unfold pick at hp
          cases hfind : (f :: l).find? (fun x => @decide (x.has t) (Classical.propDecidable _)) with
          | some x =>
            rw [hfind] at hp
            injection hp with hp
            injection hp with hp _
            subst hp
            exact List.mem_of_find?_eq_some hfind
          | none =>
            rw [hfind] at hp
            dsimp only at hp
            split_ifs at hp
            · injection hp with hp
              injection hp with hp _
              subst hp
              simp
            · injection hp with hp
              injection hp with hp _
              subst hp
              exact List.getLast_mem _
        have hd := hall e he _ _ _ ht
        dsimp only at hd
        obtain ⟨x, hx⟩ := List.length_eq_one_iff.mp hd.1
        rw [hx] at hd h2
        rw [← h2, hc]
        exact hd.2 x (by simp)
    | unique =>
      change evalUnique l cols ts = _ at h
      match l, hall, h with
      | [f], hall, h => exact (hall f (by simp) _ _ _ h).2
    | neg =>
      change evalNeg l cols ts = _ at h
      match l, hall, h with
      | [f], hall, h =>
        simp only [evalNeg, bind_ok, pure_ok] at h
        obtain ⟨res, hres, h⟩ := h
        subst h
        intro r hr
        obtain ⟨x, hx, rfl⟩ := List.mem_map.mp hr
        simpa using (hall f (by simp) _ _ _ hres).2 x hx

/-! ## Well-formed objects -/

/-- What the numbers of components of the elements of an expression must be. -/
def Fits : Ty → ℕ → List ℕ → Prop
  | .sum, c, l | .concat, c, l => l ≠ [] ∧ ∀ x ∈ l, x = c
  | .mul, c, l => ∃ rest, l = c :: rest ∧ ∀ x ∈ rest, x = 1
  | .comp, c, l => ∃ init, l = init ++ [c] ∧ ∀ x ∈ init, x = 1
  | .unique, c, l | .neg, c, l => l = [c]

mutual

/-- The numbers of components fit together. -/
def WF : Fn → Prop
  | const _ v => v ≠ []
  | user _ c _ => 0 < c
  | gspl g => 0 < g.codim
  | dot _ a b => a.WF ∧ b.WF ∧ a.codim = b.codim
  | expr _ c ty args => 0 < c ∧ WFs args ∧ Fits ty c (args.map codim)
  | _ => True

/-- `WF` for all elements. -/
def WFs : List Fn → Prop
  | [] => True
  | f :: l => f.WF ∧ WFs l

end

theorem wfs_iff (l : List Fn) : WFs l ↔ ∀ a ∈ l, a.WF := by
  induction l with
  | nil => simp [WFs]
  | cons a l ih => simp [WFs, ih]

theorem WF.pos {f : Fn} (h : f.WF) : 0 < f.codim := by
  cases f with
  | const d v => exact List.length_pos_iff.mpr (by simpa [WF] using h)
  | user d c F => rw [WF] at h; exact h
  | gspl g => rw [WF] at h; exact h
  | expr d c ty args => rw [WF] at h; exact h.1
  | _ => simp [codim]

theorem wf_clone {f : Fn} (h : f.WF) : f.clone.WF := by
  cases f <;> exact h

theorem wf_wrap {f : Fn} (h : f.WF) : f.wrap.WF := by
  unfold wrap
  rw [WF]
  refine ⟨h.pos, ?_, ?_⟩
  · simp [wfs_iff, wf_clone h]
  · simp [Fits, codim_clone]

theorem wf_toExpr {f : Fn} (h : f.WF) : f.toExpr.WF := by
  cases f <;> first | exact h | exact wf_wrap h

/-! ## Sums -/

theorem addRows_assoc (a b c : Rows) : addRows (addRows a b) c = addRows a (addRows b c) := by
  unfold addRows
  induction a generalizing b c with
  | nil => simp
  | cons x a ih =>
    cases b with
    | nil => simp
    | cons y b =>
      cases c with
      | nil => simp
      | cons z c =>
        simp only [List.zipWith_cons_cons, ih, List.cons.injEq, and_true]
        clear ih
        induction x generalizing y z with
        | nil => simp
        | cons p x ih =>
          cases y with
          | nil => simp
          | cons q y =>
            cases z with
            | nil => simp
            | cons r z => simp [ih, add_assoc]

theorem zip_zeros_left (c : ℕ) (x : List ℝ) (h : x.length = c) : List.zipWith (· + ·) (List.replicate c 0) x = x := by
  induction x generalizing c with
  | nil => simp
  | cons p x ih =>
    cases c with
    | zero => simp at h
    | succ c => simp [List.replicate_succ, ih c (by simpa using h)]

theorem zip_zeros_right (c : ℕ) (x : List ℝ) (h : x.length = c) : List.zipWith (· + ·) x (List.replicate c 0) = x := by
  induction x generalizing c with
  | nil => simp
  | cons p x ih =>
    cases c with
    | zero => simp at h
    | succ c => simp [List.replicate_succ, ih c (by simpa using h)]

theorem zeros_add {n c : ℕ} {a : Rows} (h : Dims n c a) : addRows (List.replicate n (List.replicate c 0)) a = a := by
  obtain ⟨h1, h2⟩ := h
  unfold addRows
  induction a generalizing n with
  | nil => simp
  | cons x a ih =>
    cases n with
    | zero => simp at h1
    | succ n =>
      rw [List.replicate_succ, List.zipWith_cons_cons, zip_zeros_left c x (h2 x (by simp)), ih (by simpa using h1) fun r hr => h2 r (by simp [hr])]

theorem add_zeros {n c : ℕ} {a : Rows} (h : Dims n c a) : addRows a (List.replicate n (List.replicate c 0)) = a := by
  obtain ⟨h1, h2⟩ := h
  unfold addRows
  induction a generalizing n with
  | nil => simp
  | cons x a ih =>
    cases n with
    | zero => simp at h1
    | succ n =>
      rw [List.replicate_succ, List.zipWith_cons_cons, zip_zeros_right c x (h2 x (by simp)), ih (by simpa using h1) fun r hr => h2 r (by simp [hr])]

theorem sumStep_ok {c : ℕ} {ts : List ℝ} {acc rows : Rows} {e : Ev} :
    sumStep c c ts acc e = .ok rows ↔ ∃ y, e.run c ts = .ok y ∧ rows = addRows acc y := by
  simp only [sumStep, bind_ok, if_true, pure_ok, addRows]
  constructor
  · rintro ⟨y, h, rfl⟩; exact ⟨y, h, rfl⟩
  · rintro ⟨y, h, rfl⟩; exact ⟨y, h, rfl⟩

theorem sumFold_shift {c : ℕ} {ts : List ℝ} : ∀ (l : List Fn) (acc rows : Rows), Dims ts.length c acc →
    ((l.map ev).foldlM (sumStep c c ts) acc = .ok rows ↔
      ∃ s, (l.map ev).foldlM (sumStep c c ts) (List.replicate ts.length (List.replicate c 0)) = .ok s ∧ rows = addRows acc s) := by
  intro l
  induction l with
  | nil =>
    intro acc rows ha
    simp only [List.map_nil, List.foldlM_nil, pure_ok]
    constructor
    · rintro rfl; exact ⟨_, rfl, (add_zeros ha).symm⟩
    · rintro ⟨s, rfl, rfl⟩; exact (add_zeros ha).symm
  | cons e l ih =>
    intro acc rows ha
    simp only [List.map_cons, List.foldlM_cons, bind_ok, sumStep_ok]
    constructor
    · rintro ⟨a1, ⟨y, hy, rfl⟩, h⟩
      have hd := run_dims e _ _ _ hy
      obtain ⟨s, hs, rfl⟩ := (ih _ _ (dims_add ha hd)).mp h
      refine ⟨addRows y s, ⟨y, ⟨y, hy, (zeros_add hd).symm⟩, (ih _ _ hd).mpr ⟨s, hs, rfl⟩⟩, addRows_assoc _ _ _⟩
    · rintro ⟨s, ⟨a1, ⟨y, hy, rfl⟩, h⟩, rfl⟩
      have hd := run_dims e _ _ _ hy
      rw [zeros_add hd] at h
      obtain ⟨s', hs', rfl⟩ := (ih _ _ hd).mp h
      exact ⟨_, ⟨y, hy, rfl⟩, (ih _ _ (dims_add ha hd)).mpr ⟨s', hs', (addRows_assoc _ _ _).symm⟩⟩

theorem evalSum_eq {l : List Fn} {c : ℕ} (hne : l ≠ []) (h : ∀ a ∈ l, a.codim = c) (ts : List ℝ) :
    evalSum (l.map ev) c ts = (l.map ev).foldlM (sumStep c c ts) (List.replicate ts.length (List.replicate c 0)) := by
  cases l with
  | nil => exact absurd rfl hne
  | cons a l =>
    rw [List.map_cons, evalSum_cons]
    have : a.ev.codim = c := h a (by simp)
    rw [this]

theorem splice_expr (t : Ty) (d : ℝ × ℝ) (c : ℕ) (ty : Ty) (args : List Fn) :
    splice t (expr d c ty args) = if ty = t ∨ ty = .unique then args else [expr d c ty args] := rfl

theorem splice_codim {f : Fn} (h : f.WF) : (splice .sum f ≠ [] ∧ ∀ a ∈ splice .sum f, a.codim = f.codim) := by
  cases f with
  | expr d c ty args =>
    rw [WF] at h
    obtain ⟨-, -, h⟩ := h
    rw [splice_expr]
    by_cases hty : ty = .sum ∨ ty = .unique
    · rw [if_pos hty]
      rcases hty with rfl | rfl
      · simp only [Fits, List.mem_map, forall_exists_index, and_imp, forall_apply_eq_imp_iff₂] at h
        exact ⟨fun e => h.1 (by rw [e]; rfl), h.2⟩
      · simp only [Fits, List.map_eq_cons_iff, List.map_eq_nil_iff] at h
        obtain ⟨a, l, rfl, ha, rfl⟩ := h
        simp only [ne_eq, List.cons_ne_nil, not_false_eq_true, List.mem_singleton, forall_eq, true_and]
        exact ha
    · rw [if_neg hty]; simp
  | _ => simp [splice, parts, codim_clone]

theorem wf_splice {f : Fn} (ty : Ty) (h : f.WF) : ∀ a ∈ splice ty f, a.WF := by
  cases f with
  | expr d c ty args =>
    rw [splice_expr]
    split_ifs
    · rw [WF] at h; exact (wfs_iff _).mp h.2.1
    · simpa using h
  | _ =>
    simp only [splice, parts, or_true, if_true, List.mem_singleton, forall_eq]
    exact wf_clone h

/-- The elements that an operand contributes to a sum add its value. -/
theorem sumFold_splice {f : Fn} (h : f.WF) {ts : List ℝ} {acc rows : Rows} (ha : Dims ts.length f.codim acc) :
    ((splice .sum f).map ev).foldlM (sumStep f.codim f.codim ts) acc = .ok rows ↔ ∃ y, f.call ts = .ok y ∧ rows = addRows acc y := by
  have single : ∀ a : Fn, a.run = f.run → (([a].map ev).foldlM (sumStep f.codim f.codim ts) acc = .ok rows ↔
      ∃ y, f.call ts = .ok y ∧ rows = addRows acc y) := by
    intro a har
    simp only [List.map_cons, List.map_nil, List.foldlM_cons, List.foldlM_nil, bind_ok, sumStep_ok, pure_ok, call, ev, har]
    constructor
    · rintro ⟨_, ⟨y, hy, rfl⟩, rfl⟩; exact ⟨y, hy, rfl⟩
    · rintro ⟨y, hy, rfl⟩; exact ⟨_, ⟨y, hy, rfl⟩, rfl⟩
  cases f with
  | expr d c ty args =>
    have hs := splice_codim h
    rw [WF] at h
    rw [splice_expr] at hs ⊢
    by_cases hsum : ty = .sum
    · subst hsum
      simp only [true_or, if_true] at hs ⊢
      rw [sumFold_shift _ _ _ ha, ← evalSum_eq hs.1 hs.2]
      rw [call, run_expr]; rfl
    · by_cases hun : ty = .unique
      · subst hun
        simp only [or_true, if_true] at hs ⊢
        have := h.2.2
        simp only [Fits, List.map_eq_cons_iff, List.map_eq_nil_iff] at this
        obtain ⟨a, l, rfl, hac, rfl⟩ := this
        refine single a ?_
        rw [run_expr]; rfl
      · rw [if_neg (by tauto)]
        exact single _ rfl
  | _ => exact single _ (run_clone _)

/-- The value of a sum. -/
theorem call_sum {f g : Fn} (hf : f.WF) (hg : g.WF) (hc : f.codim = g.codim) (d : ℝ × ℝ) (ts : List ℝ) (z : Rows) :
    (expr d f.codim .sum (splice .sum f ++ splice .sum g)).call ts = .ok z ↔
      ∃ x y, f.call ts = .ok x ∧ g.call ts = .ok y ∧ z = addRows x y := by
  rw [call, run_expr]
  change evalSum _ f.codim ts = _ ↔ _
  have h1 := splice_codim hf
  have h2 := splice_codim hg
  rw [evalSum_eq (by simp [h1.1]) (by
    intro a ha
    rcases List.mem_append.mp ha with ha | ha
    · exact h1.2 a ha
    · rw [hc]; exact h2.2 a ha), List.map_append, List.foldlM_append]
  simp only [bind_ok, sumFold_splice hf (dims_zeros _ _)]
  constructor
  · rintro ⟨_, ⟨x, hx, rfl⟩, h⟩
    have hdx : Dims ts.length f.codim x := run_dims f _ _ _ hx
    rw [zeros_add hdx] at h
    rw [hc] at h hdx
    obtain ⟨y, hy, rfl⟩ := (sumFold_splice hg hdx).mp h
    exact ⟨x, y, hx, hy, rfl⟩
  · rintro ⟨x, y, hx, hy, rfl⟩
    have hdx : Dims ts.length f.codim x := run_dims f _ _ _ hx
    refine ⟨_, ⟨x, hx, rfl⟩, ?_⟩
    rw [zeros_add hdx]
    rw [hc] at hdx ⊢
    exact (sumFold_splice hg hdx).mpr ⟨y, hy, rfl⟩

theorem wf_sum {f g : Fn} (hf : f.WF) (hg : g.WF) (hc : f.codim = g.codim) (d : ℝ × ℝ) :
    (expr d f.codim .sum (splice .sum f ++ splice .sum g)).WF := by
  rw [WF, wfs_iff]
  have h1 := splice_codim hf
  have h2 := splice_codim hg
  refine ⟨hf.pos, ?_, ?_⟩
  · intro a ha
    rcases List.mem_append.mp ha with ha | ha
    · exact wf_splice _ hf a ha
    · exact wf_splice _ hg a ha
  · simp only [Fits, List.map_append]
    refine ⟨by simp [h1.1], ?_⟩
    intro x hx
    rcases List.mem_append.mp hx with hx | hx
    · obtain ⟨a, ha, rfl⟩ := List.mem_map.mp hx; exact h1.2 a ha
    · obtain ⟨a, ha, rfl⟩ := List.mem_map.mp hx; rw [hc]; exact h2.2 a ha

/-! ## Products -/

theorem mulStep_ok {ts : List ℝ} {acc rows : Rows} {e : Ev} :
    mulStep ts acc e = .ok rows ↔ ∃ y, e.run 1 ts = .ok y ∧ rows = scaleRows acc y := by
  simp only [mulStep, bind_ok, pure_ok, scaleRows]
  constructor
  · rintro ⟨y, h, rfl⟩; exact ⟨y, h, rfl⟩
  · rintro ⟨y, h, rfl⟩; exact ⟨y, h, rfl⟩

theorem scaleRows_assoc {n : ℕ} {a b c : Rows} (hb : Dims n 1 b) : scaleRows (scaleRows a b) c = scaleRows a (scaleRows b c) := by
  replace hb := hb.2
  unfold scaleRows
  induction a generalizing b c with
  | nil => simp
  | cons x a ih =>
    cases b with
    | nil => simp
    | cons y b =>
      cases c with
      | nil => simp
      | cons z c =>
        obtain ⟨q, rfl⟩ := List.length_eq_one_iff.mp (hb y (by simp))
        have := @ih b c fun r hr => hb r (by simp [hr])
        simp only [List.zipWith_cons_cons, this, List.cons.injEq, and_true]
        simp [mul_assoc]

theorem mulFold_shift {ts : List ℝ} (acc : Rows) : ∀ (l : List Fn) (temp rows : Rows), Dims ts.length 1 temp →
    ((l.map ev).foldlM (mulStep ts) (scaleRows acc temp) = .ok rows ↔
      ∃ y, (l.map ev).foldlM (mulStep ts) temp = .ok y ∧ rows = scaleRows acc y) := by
  intro l
  induction l with
  | nil =>
    intro temp rows _
    simp only [List.map_nil, List.foldlM_nil, pure_ok]
    constructor
    · rintro rfl; exact ⟨_, rfl, rfl⟩
    · rintro ⟨_, rfl, rfl⟩; rfl
  | cons e l ih =>
    intro temp rows ht
    simp only [List.map_cons, List.foldlM_cons, bind_ok, mulStep_ok]
    constructor
    · rintro ⟨a1, ⟨y, hy, rfl⟩, h⟩
      have hd := run_dims e _ _ _ hy
      rw [scaleRows_assoc ht] at h
      obtain ⟨s, hs, rfl⟩ := (ih _ _ (dims_scale ht hd.1)).mp h
      exact ⟨s, ⟨_, ⟨y, hy, rfl⟩, hs⟩, rfl⟩
    · rintro ⟨s, ⟨a1, ⟨y, hy, rfl⟩, h⟩, rfl⟩
      have hd := run_dims e _ _ _ hy
      refine ⟨_, ⟨y, hy, rfl⟩, ?_⟩
      rw [scaleRows_assoc ht]
      exact (ih _ _ (dims_scale ht hd.1)).mpr ⟨s, h, rfl⟩

theorem splice_mul_codim {f : Fn} (h : f.WF) : ∃ a rest, splice .mul f = a :: rest ∧ a.codim = f.codim ∧ ∀ b ∈ rest, b.codim = 1 := by
  cases f with
  | expr d c ty args =>
    rw [WF] at h
    obtain ⟨-, -, h⟩ := h
    rw [splice_expr]
    by_cases hty : ty = .mul ∨ ty = .unique
    · rw [if_pos hty]
      rcases hty with rfl | rfl
      · simp only [Fits, List.map_eq_cons_iff] at h
        obtain ⟨_, ⟨a, l, rfl, hac, rfl⟩, h⟩ := h
        exact ⟨a, l, rfl, hac, fun b hb => h _ (List.mem_map_of_mem hb)⟩
      · simp only [Fits, List.map_eq_cons_iff, List.map_eq_nil_iff] at h
        obtain ⟨a, l, rfl, ha, rfl⟩ := h
        exact ⟨a, [], rfl, ha, by simp⟩
    · rw [if_neg hty]; exact ⟨_, [], rfl, rfl, by simp⟩
  | _ => exact ⟨_, [], rfl, codim_clone _, by simp⟩

/-- The elements that a scalar operand contributes to a product multiply with its value. -/
theorem mulFold_splice {f : Fn} (h : f.WF) (hc : f.codim = 1) {ts : List ℝ} {acc rows : Rows} :
    ((splice .mul f).map ev).foldlM (mulStep ts) acc = .ok rows ↔ ∃ y, f.call ts = .ok y ∧ rows = scaleRows acc y := by
  have single : ∀ a : Fn, a.run = f.run → (([a].map ev).foldlM (mulStep ts) acc = .ok rows ↔
      ∃ y, f.call ts = .ok y ∧ rows = scaleRows acc y) := by
    intro a har
    simp only [List.map_cons, List.map_nil, List.foldlM_cons, List.foldlM_nil, bind_ok, mulStep_ok, pure_ok, call, ev, har, hc]
    constructor
    · rintro ⟨_, ⟨y, hy, rfl⟩, rfl⟩; exact ⟨y, hy, rfl⟩
    · rintro ⟨y, hy, rfl⟩; exact ⟨_, ⟨y, hy, rfl⟩, rfl⟩
  cases f with
  | expr d c ty args =>
    rw [WF] at h
    obtain rfl : c = 1 := hc
    rw [splice_expr]
    by_cases hmul : ty = .mul
    · subst hmul
      simp only [true_or, if_true]
      have := h.2.2
      simp only [Fits, List.map_eq_cons_iff] at this
      obtain ⟨_, ⟨a, l, rfl, hac, rfl⟩, -⟩ := this
      rw [call, run_expr]
      simp only [evalTy, List.map_cons, evalMul_cons, List.foldlM_cons, bind_ok, mulStep_ok]
      constructor
      · rintro ⟨_, ⟨y, hy, rfl⟩, h⟩
        obtain ⟨z, hz, rfl⟩ := (mulFold_shift acc l y rows (run_dims a _ _ _ hy)).mp h
        exact ⟨z, ⟨y, hy, hz⟩, rfl⟩
      · rintro ⟨z, ⟨y, hy, hz⟩, rfl⟩
        exact ⟨_, ⟨y, hy, rfl⟩, (mulFold_shift acc l y _ (run_dims a _ _ _ hy)).mpr ⟨z, hz, rfl⟩⟩
    · by_cases hun : ty = .unique
      · subst hun
        simp only [or_true, if_true]
        have := h.2.2
        simp only [Fits, List.map_eq_cons_iff, List.map_eq_nil_iff] at this
        obtain ⟨a, l, rfl, hac, rfl⟩ := this
        refine single a ?_
        rw [run_expr]; rfl
      · rw [if_neg (by tauto)]
        exact single _ rfl
  | _ => exact single _ (run_clone _)

/-- The elements that the first operand contributes to a product start it with its value. -/
theorem evalMul_splice {f : Fn} (h : f.WF) (l : List Ev) (ts : List ℝ) :
    evalMul ((splice .mul f).map ev ++ l) f.codim ts = (do let res ← f.call ts; l.foldlM (mulStep ts) res) := by
  have single : ∀ a : Fn, a.run = f.run → evalMul ([a].map ev ++ l) f.codim ts = (do let res ← f.call ts; l.foldlM (mulStep ts) res) := by
    intro a har
    simp only [List.map_cons, List.map_nil, List.cons_append, List.nil_append, evalMul_cons, call, ev, har]
  cases f with
  | expr d c ty args =>
    rw [WF] at h
    rw [splice_expr]
    by_cases hmul : ty = .mul
    · subst hmul
      simp only [true_or, if_true]
      have := h.2.2
      simp only [Fits, List.map_eq_cons_iff] at this
      obtain ⟨_, ⟨a, r, rfl, hac, rfl⟩, -⟩ := this
      rw [call, run_expr]
      simp only [evalTy, List.map_cons, List.cons_append, evalMul_cons, List.foldlM_append, bind_assoc, codim]
    · by_cases hun : ty = .unique
      · subst hun
        simp only [or_true, if_true]
        have := h.2.2
        simp only [Fits, List.map_eq_cons_iff, List.map_eq_nil_iff] at this
        obtain ⟨a, r, rfl, hac, rfl⟩ := this
        refine single a ?_
        rw [run_expr]; rfl
      · rw [if_neg (by tauto)]
        exact single _ rfl
  | _ => exact single _ (run_clone _)

/-- The value of a product. -/
theorem call_mul {v s : Fn} (hv : v.WF) (hs : s.WF) (hc : s.codim = 1) (d : ℝ × ℝ) (ts : List ℝ) (z : Rows) :
    (expr d v.codim .mul (splice .mul v ++ splice .mul s)).call ts = .ok z ↔
      ∃ x y, v.call ts = .ok x ∧ s.call ts = .ok y ∧ z = scaleRows x y := by
  rw [call, run_expr]
  change evalMul _ v.codim ts = _ ↔ _
  rw [List.map_append, evalMul_splice hv]
  simp only [bind_ok, mulFold_splice hs hc]
  constructor
  · rintro ⟨x, hx, y, hy, rfl⟩; exact ⟨x, y, hx, hy, rfl⟩
  · rintro ⟨x, y, hx, hy, rfl⟩; exact ⟨x, hx, y, hy, rfl⟩

theorem wf_mul {v s : Fn} (hv : v.WF) (hs : s.WF) (hc : s.codim = 1) (d : ℝ × ℝ) :
    (expr d v.codim .mul (splice .mul v ++ splice .mul s)).WF := by
  rw [WF, wfs_iff]
  refine ⟨hv.pos, ?_, ?_⟩
  · intro a ha
    rcases List.mem_append.mp ha with ha | ha
    · exact wf_splice _ hv a ha
    · exact wf_splice _ hs a ha
  · obtain ⟨a, l, h1, h2, h3⟩ := splice_mul_codim hv
    obtain ⟨b, m, g1, g2, g3⟩ := splice_mul_codim hs
    rw [h1, g1]
    refine ⟨(l ++ b :: m).map codim, by simp [h2], ?_⟩
    intro x hx
    obtain ⟨e, he, rfl⟩ := List.mem_map.mp hx
    rcases List.mem_append.mp he with he | he
    · exact h3 e he
    · rcases List.mem_cons.mp he with rfl | he
      · rw [g2, hc]
      · exact g3 e he

/-! ## Compositions -/

theorem evalComp_append : ∀ (l1 l2 : List Ev), l1 ≠ [] → l2 ≠ [] → ∀ cols ts,
    evalComp (l1 ++ l2) cols ts = (do let temp ← evalComp l1 1 ts; evalComp l2 cols (temp.map fun r => r.headD 0)) := by
  intro l1
  induction l1 with
  | nil => intro l2 h; exact absurd rfl h
  | cons e l1 ih =>
    intro l2 _ h2 cols ts
    cases l1 with
    | nil =>
      obtain ⟨b, l2, rfl⟩ := List.exists_cons_of_ne_nil h2
      rfl
    | cons e' l1 =>
      change (do let temp ← e.run 1 ts; evalComp (e' :: l1 ++ l2) cols (temp.map fun r : List ℝ => r.headD 0)) = _
      have : ∀ us, evalComp (e' :: l1 ++ l2) cols us = _ := fun us => ih l2 (by simp) h2 cols us
      simp only [this]
      simp only [evalComp, bind_assoc]

theorem evalComp_chain {f : Fn} (cols : ℕ) (ts : List ℝ) : evalComp ((chain .comp f).map ev) cols ts = f.run cols ts := by
  unfold chain
  split_ifs with h
  · cases f with
    | expr d c ty args =>
      simp only [parts] at h ⊢
      subst h
      rw [run_expr]; rfl
    | _ => simp [parts] at h
  · simp only [List.map_cons, List.map_nil, evalComp]
    exact congrFun (congrFun (run_toExpr f) cols) ts

theorem chain_ne_nil {f : Fn} (ty : Ty) (h : f.WF) : chain ty f ≠ [] := by
  unfold chain
  split_ifs with hp
  · cases f with
    | expr d c ty args =>
      rw [WF] at h
      intro (e : args = [])
      subst e
      have := h.2.2
      cases ty <;> simp [Fits] at this
    | _ => simp [parts]
  · simp

theorem wf_chain {f : Fn} (ty : Ty) (h : f.WF) : ∀ a ∈ chain ty f, a.WF := by
  unfold chain
  split_ifs with hp
  · cases f with
    | expr d c ty args => rw [WF] at h; exact (wfs_iff _).mp h.2.1
    | _ => simpa [parts] using wf_clone h
  · simpa using wf_toExpr h

/-- The value of a composition. -/
theorem run_compose {f g : Fn} (hf : f.WF) (hg : g.WF) (d : ℝ × ℝ) (c cols : ℕ) (ts : List ℝ) :
    (expr d c .comp (chain .comp g ++ chain .comp f)).run cols ts = (do let temp ← g.run 1 ts; f.run cols (temp.map fun r => r.headD 0)) := by
  rw [run_expr]
  change evalComp _ cols ts = _
  rw [List.map_append, evalComp_append _ _ (by simp [chain_ne_nil _ hg]) (by simp [chain_ne_nil _ hf]), evalComp_chain]
  simp only [evalComp_chain]

theorem chain_comp_codim {f : Fn} (h : f.WF) : ∃ init, (chain .comp f).map codim = init ++ [f.codim] ∧ ∀ x ∈ init, x = 1 := by
  unfold chain
  split_ifs with hp
  · cases f with
    | expr d c ty args =>
      simp only [parts] at hp ⊢
      subst hp
      rw [WF] at h
      exact h.2.2
    | _ => simp [parts] at hp
  · exact ⟨[], by simp [toExpr_codim], by simp⟩

theorem wf_compose {f g : Fn} (hf : f.WF) (hg : g.WF) (hc : g.codim = 1) (d : ℝ × ℝ) :
    (expr d f.codim .comp (chain .comp g ++ chain .comp f)).WF := by
  rw [WF, wfs_iff]
  refine ⟨hf.pos, ?_, ?_⟩
  · intro a ha
    rcases List.mem_append.mp ha with ha | ha
    · exact wf_chain _ hg a ha
    · exact wf_chain _ hf a ha
  · obtain ⟨i1, h1, h1'⟩ := chain_comp_codim hg
    obtain ⟨i2, h2, h2'⟩ := chain_comp_codim hf
    refine ⟨i1 ++ [g.codim] ++ i2, ?_, ?_⟩
    · rw [List.map_append, h1, h2]; simp
    · intro x hx
      simp only [List.mem_append, List.mem_singleton] at hx
      rcases hx with (hx | rfl) | hx
      · exact h1' x hx
      · exact hc
      · exact h2' x hx

end GSplines.Fn
