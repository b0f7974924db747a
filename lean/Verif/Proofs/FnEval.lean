import Verif.Model.Fn
import Verif.Proofs.GSpline

/-!
# Evaluation of functions: helper lemmas
-/

namespace GSplines.Fn

open GSplines

/-- Induction over function objects. -/
theorem ind {P : Fn → Prop} (hconst : ∀ d v, P (const d v)) (hdil : ∀ d c, P (dil d c)) (hident : ∀ d, P (ident d)) (hexp : ∀ d, P (exp d))
    (hcos : ∀ d, P (cos d)) (hsin : ∀ d, P (sin d)) (hpoly : ∀ d a, P (poly d a)) (huser : ∀ d c F, P (user d c F)) (hgspl : ∀ g, P (gspl g))
    (hdot : ∀ d a b, P a → P b → P (dot d a b)) (hexpr : ∀ d c ty args, (∀ a ∈ args, P a) → P (expr d c ty args)) (f : Fn) : P f :=
  Fn.rec (motive_1 := P) (motive_2 := fun l => ∀ a ∈ l, P a) hconst hdil hident hexp hcos hsin hpoly huser hgspl hdot hexpr (by simp)
    (fun a l ha hl => by
      intro b hb
      rcases List.mem_cons.mp hb with rfl | hb
      · exact ha
      · exact hl b hb) f

/-- The element of an expression as seen by the evaluation. -/
noncomputable def ev (f : Fn) : Ev := ⟨f.dom, f.codim, f.run⟩

theorem evs_eq (l : List Fn) : evs l = l.map ev := by
  induction l with
  | nil => simp [evs]
  | cons a l ih => simp [evs, ih, ev]

theorem run_expr (d : ℝ × ℝ) (c : ℕ) (ty : Ty) (args : List Fn) : (expr d c ty args).run = evalTy ty (args.map ev) := by
  funext cols ts; rw [run, evs_eq]

theorem run_clone (f : Fn) : f.clone.run = f.run := by
  cases f <;> first | rfl | (funext cols ts; simp [clone, run])

theorem dom_clone (f : Fn) : f.clone.dom = f.dom := by cases f <;> rfl
theorem codim_clone (f : Fn) : f.clone.codim = f.codim := by cases f <;> rfl

theorem ev_clone (f : Fn) : f.clone.ev = f.ev := by
  unfold ev; rw [run_clone, dom_clone, codim_clone]

theorem run_wrap (f : Fn) : f.wrap.run = f.run := by
  unfold wrap
  rw [run_expr]
  funext cols ts
  simp [evalTy, evalUnique, ev, run_clone]

theorem toExpr_dom (f : Fn) : f.toExpr.dom = f.dom := by cases f <;> rfl
theorem toExpr_codim (f : Fn) : f.toExpr.codim = f.codim := by cases f <;> rfl
theorem run_toExpr (f : Fn) : f.toExpr.run = f.run := by
  cases f <;> first | rfl | exact run_wrap _

theorem ev_toExpr (f : Fn) : f.toExpr.ev = f.ev := by
  unfold ev; rw [run_toExpr, toExpr_dom, toExpr_codim]

/-! ## Rows -/

theorem bind_ok {α β : Type} {x : Res α} {f : α → Res β} {b : β} : (x >>= f) = .ok b ↔ ∃ a, x = .ok a ∧ f a = .ok b := by
  cases x with
  | error e => simp [bind, Except.bind]
  | ok a => simp [bind, Except.bind]

theorem pure_ok {α : Type} {a b : α} : (pure a : Res α) = .ok b ↔ a = b := by simp [pure, Except.pure]

/-- A matrix with `n` rows and `c` columns. -/
def Dims (n c : ℕ) (m : Rows) : Prop := m.length = n ∧ ∀ r ∈ m, r.length = c

/-- The law of row-wise evaluation. -/
def Law (run : List ℝ → Res Rows) : Prop :=
  (∀ rows, run [] = .ok rows → rows = []) ∧
    ∀ t ts rows, run (t :: ts) = .ok rows ↔ ∃ r rs, rows = r :: rs ∧ run [t] = .ok [r] ∧ run ts = .ok rs

theorem law_map (f : ℝ → List ℝ) : Law fun ts => .ok (ts.map f) := by
  refine ⟨by simp, fun t ts rows => ?_⟩
  simp only [List.map_cons, List.map_nil, Except.ok.injEq, List.cons.injEq, and_true]
  constructor
  · rintro rfl; exact ⟨_, _, rfl, rfl, rfl⟩
  · rintro ⟨r, rs, rfl, rfl, rfl⟩; rfl

theorem law_error (e : Err) : Law fun _ => .error e := ⟨by simp, by simp⟩

theorem law_ite {p : Prop} [Decidable p] {a b : List ℝ → Res Rows} (ha : Law a) (hb : Law b) : Law fun ts => if p then a ts else b ts := by
  by_cases h : p
  · simpa [h] using ha
  · simpa [h] using hb

theorem law_mapM (f : ℝ → Res (List ℝ)) : Law fun ts => ts.mapM f := by
  refine ⟨?_, ?_⟩
  · intro rows h
    simp only [List.mapM_nil] at h
    exact (pure_ok.mp h).symm
  · intro t ts rows
    simp only [List.mapM_cons, List.mapM_nil, bind_ok, pure_ok]
    constructor
    · rintro ⟨r, hr, rs, hrs, rfl⟩
      exact ⟨r, rs, rfl, ⟨r, hr, [], rfl, rfl⟩, hrs⟩
    · rintro ⟨r, rs, rfl, ⟨r', hr, _, h, h'⟩, hrs⟩
      subst h
      injection h' with h'
      subst h'
      exact ⟨_, hr, rs, hrs, rfl⟩

theorem law_length {run : List ℝ → Res Rows} (h : Law run) : ∀ ts rows, run ts = .ok rows → rows.length = ts.length := by
  intro ts
  induction ts with
  | nil => intro rows hr; rw [h.1 rows hr]; rfl
  | cons t ts ih =>
    intro rows hr
    obtain ⟨r, rs, rfl, -, hrs⟩ := (h.2 t ts rows).mp hr
    simp [ih rs hrs]

/-- Row-wise evaluation, for lists of points. -/
theorem law_forall₂ {run : List ℝ → Res Rows} (h : Law run) : ∀ ts rows, ts ≠ [] →
    (run ts = .ok rows ↔ List.Forall₂ (fun t r => run [t] = .ok [r]) ts rows) := by
  intro ts
  induction ts with
  | nil => intro rows h; exact absurd rfl h
  | cons t ts ih =>
    intro rows _
    rw [h.2]
    constructor
    · rintro ⟨r, rs, rfl, hr, hrs⟩
      refine List.Forall₂.cons hr ?_
      cases ts with
      | nil => rw [h.1 rs hrs]; exact List.Forall₂.nil
      | cons t' ts' => exact (ih rs (by simp)).mp hrs
    · intro hf
      cases hf with
      | cons hr hrs =>
        rename_i r rs
        refine ⟨r, rs, rfl, hr, ?_⟩
        cases ts with
        | nil =>
          cases hrs
          obtain ⟨_, _, h1, _, h3⟩ := (h.2 t [] [r]).mp hr
          have := h.1 _ h3
          injection h1 with _ h1
          rw [h1]; exact h3
        | cons t' ts' => exact (ih rs (by simp)).mpr hrs

/-! ### The folds of sums and products -/

/-- The body of the loop of `evalSum`. -/
noncomputable def sumStep (cols c0 : ℕ) (ts : List ℝ) (acc : Rows) (g : Ev) : Res Rows := do
  let temp ← g.run c0 ts
  if cols = c0 then return List.zipWith (List.zipWith (· + ·)) acc temp else .error .ub

theorem evalSum_cons (f : Ev) (l : List Ev) (cols : ℕ) (ts : List ℝ) :
    evalSum (f :: l) cols ts = (f :: l).foldlM (sumStep cols f.codim ts) (List.replicate ts.length (List.replicate cols 0)) := rfl

/-- The body of the loop of `evalMul`. -/
noncomputable def mulStep (ts : List ℝ) (acc : Rows) (g : Ev) : Res Rows := do
  let temp ← g.run 1 ts
  return List.zipWith (fun r x => r.map (· * x.headD 0)) acc temp

theorem evalMul_cons (f : Ev) (l : List Ev) (cols : ℕ) (ts : List ℝ) :
    evalMul (f :: l) cols ts = (do let res ← f.run cols ts; l.foldlM (mulStep ts) res) := rfl

theorem sumFold_law (cols c0 : ℕ) : ∀ (l : List Ev), (∀ e ∈ l, Law (e.run c0)) →
    (∀ rows, l.foldlM (sumStep cols c0 []) [] = .ok rows → rows = []) ∧ ∀ t ts a acc rows,
      l.foldlM (sumStep cols c0 (t :: ts)) (a :: acc) = .ok rows ↔
        ∃ r rs, rows = r :: rs ∧ l.foldlM (sumStep cols c0 [t]) [a] = .ok [r] ∧ l.foldlM (sumStep cols c0 ts) acc = .ok rs := by
  intro l
  induction l with
  | nil =>
    intro _
    refine ⟨fun rows h => ?_, fun t ts a acc rows => ?_⟩
    · simp only [List.foldlM_nil] at h; exact (pure_ok.mp h).symm
    · simp only [List.foldlM_nil, pure_ok]
      constructor
      · rintro rfl; exact ⟨a, acc, rfl, rfl, rfl⟩
      · rintro ⟨r, rs, rfl, h, rfl⟩; injection h with h; rw [h]
  | cons e l ih =>
    intro hl
    have he := hl e (by simp)
    obtain ⟨ih0, ih1⟩ := ih fun x hx => hl x (by simp [hx])
    refine ⟨fun rows h => ?_, fun t ts a acc rows => ?_⟩
    · simp only [List.foldlM_cons, bind_ok, sumStep] at h
      obtain ⟨acc', ⟨temp, ht, h2⟩, h3⟩ := h
      split_ifs at h2 with hc
      rw [pure_ok] at h2
      rw [he.1 temp ht] at h2
      rw [← h2] at h3
      exact ih0 rows h3
    · simp only [List.foldlM_cons, bind_ok]
      constructor
      · rintro ⟨acc', h2, h3⟩
        simp only [sumStep, bind_ok] at h2
        obtain ⟨temp, ht, h2⟩ := h2
        split_ifs at h2 with hc
        rw [pure_ok] at h2
        obtain ⟨x, xs, rfl, hx, hxs⟩ := (he.2 t ts temp).mp ht
        subst h2
        obtain ⟨r, rs, rfl, hr, hrs⟩ := (ih1 t ts _ _ rows).mp h3
        refine ⟨r, rs, rfl, ⟨_, ?_, hr⟩, _, ?_, hrs⟩
        · simp only [sumStep, bind_ok]; exact ⟨_, hx, by rw [if_pos hc]; rfl⟩
        · simp only [sumStep, bind_ok]; exact ⟨_, hxs, by rw [if_pos hc]; rfl⟩
      · rintro ⟨r, rs, rfl, ⟨a1, ha1, hr⟩, acc1, hacc1, hrs⟩
        simp only [sumStep, bind_ok] at ha1 hacc1
        obtain ⟨x, hx, ha1⟩ := ha1
        obtain ⟨xs, hxs, hacc1⟩ := hacc1
        split_ifs at ha1 hacc1 with hc
        rw [pure_ok] at ha1 hacc1
        obtain ⟨x', _, h4, hx', h5⟩ := (he.2 t [] x).mp hx
        have := he.1 _ h5
        subst this h4 ha1 hacc1
        refine ⟨_, ?_, (ih1 t ts _ _ _).mpr ⟨r, rs, rfl, hr, hrs⟩⟩
        simp only [sumStep, bind_ok]
        exact ⟨x' :: xs, (he.2 t ts _).mpr ⟨x', xs, rfl, hx', hxs⟩, by rw [if_pos hc]; rfl⟩

theorem mulFold_law : ∀ (l : List Ev), (∀ e ∈ l, Law (e.run 1)) →
    (∀ rows, l.foldlM (mulStep []) [] = .ok rows → rows = []) ∧ ∀ t ts a acc rows,
      l.foldlM (mulStep (t :: ts)) (a :: acc) = .ok rows ↔
        ∃ r rs, rows = r :: rs ∧ l.foldlM (mulStep [t]) [a] = .ok [r] ∧ l.foldlM (mulStep ts) acc = .ok rs := by
  intro l
  induction l with
  | nil =>
    intro _
    refine ⟨fun rows h => ?_, fun t ts a acc rows => ?_⟩
    · simp only [List.foldlM_nil] at h; exact (pure_ok.mp h).symm
    · simp only [List.foldlM_nil, pure_ok]
      constructor
      · rintro rfl; exact ⟨a, acc, rfl, rfl, rfl⟩
      · rintro ⟨r, rs, rfl, h, rfl⟩; injection h with h; rw [h]
  | cons e l ih =>
    intro hl
    have he := hl e (by simp)
    obtain ⟨ih0, ih1⟩ := ih fun x hx => hl x (by simp [hx])
    refine ⟨fun rows h => ?_, fun t ts a acc rows => ?_⟩
    · simp only [List.foldlM_cons, bind_ok, mulStep] at h
      obtain ⟨acc', ⟨temp, ht, h2⟩, h3⟩ := h
      rw [pure_ok] at h2
      rw [he.1 temp ht] at h2
      rw [← h2] at h3
      exact ih0 rows h3
    · simp only [List.foldlM_cons, bind_ok]
      constructor
      · rintro ⟨acc', h2, h3⟩
        simp only [mulStep, bind_ok] at h2
        obtain ⟨temp, ht, h2⟩ := h2
        rw [pure_ok] at h2
        obtain ⟨x, xs, rfl, hx, hxs⟩ := (he.2 t ts temp).mp ht
        subst h2
        obtain ⟨r, rs, rfl, hr, hrs⟩ := (ih1 t ts _ _ rows).mp h3
        refine ⟨r, rs, rfl, ⟨_, ?_, hr⟩, _, ?_, hrs⟩
        · simp only [mulStep, bind_ok]; exact ⟨_, hx, rfl⟩
        · simp only [mulStep, bind_ok]; exact ⟨_, hxs, rfl⟩
      · rintro ⟨r, rs, rfl, ⟨a1, ha1, hr⟩, acc1, hacc1, hrs⟩
        simp only [mulStep, bind_ok] at ha1 hacc1
        obtain ⟨x, hx, ha1⟩ := ha1
        obtain ⟨xs, hxs, hacc1⟩ := hacc1
        rw [pure_ok] at ha1 hacc1
        obtain ⟨x', _, h4, hx', h5⟩ := (he.2 t [] x).mp hx
        have := he.1 _ h5
        subst this h4 ha1 hacc1
        refine ⟨_, ?_, (ih1 t ts _ _ _).mpr ⟨r, rs, rfl, hr, hrs⟩⟩
        simp only [mulStep, bind_ok]
        exact ⟨x' :: xs, (he.2 t ts _).mpr ⟨x', xs, rfl, hx', hxs⟩, rfl⟩

theorem law_comp : ∀ (l : List Ev), (∀ e ∈ l, ∀ c, Law (e.run c)) → ∀ cols, Law (evalComp l cols) := by
  intro l
  induction l with
  | nil => intro _ _; exact law_error _
  | cons e l ih =>
    intro hl cols
    cases l with
    | nil => exact hl e (by simp) cols
    | cons g l =>
      have he := hl e (by simp) 1
      have ih := ih (fun x hx => hl x (by simp only [List.mem_cons] at hx ⊢; exact .inr hx)) cols
      refine ⟨fun rows h => ?_, fun t ts rows => ?_⟩
      · simp only [evalComp, bind_ok] at h
        obtain ⟨temp, ht, h⟩ := h
        rw [he.1 temp ht] at h
        exact ih.1 rows h
      · simp only [evalComp, bind_ok]
        constructor
        · rintro ⟨temp, ht, h⟩
          obtain ⟨x, xs, rfl, hx, hxs⟩ := (he.2 t ts temp).mp ht
          obtain ⟨r, rs, rfl, hr, hrs⟩ := (ih.2 _ _ rows).mp h
          exact ⟨r, rs, rfl, ⟨_, hx, hr⟩, _, hxs, hrs⟩
        · rintro ⟨r, rs, rfl, ⟨x, hx, hr⟩, xs, hxs, hrs⟩
          obtain ⟨x', _, h4, hx', h5⟩ := (he.2 t [] x).mp hx
          have := he.1 _ h5
          subst this h4
          exact ⟨x' :: xs, (he.2 t ts _).mpr ⟨x', xs, rfl, hx', hxs⟩, (ih.2 _ _ _).mpr ⟨r, rs, rfl, hr, hrs⟩⟩

/-- Evaluation of every function object is row-wise. -/
theorem run_law (f : Fn) : ∀ cols, Law (f.run cols) := by
  induction f using ind with
  | hconst d v =>
    intro cols
    have : (const d v).run cols = fun ts => if cols = v.length then .ok (ts.map fun _ => v) else .error .ub := by funext ts; rw [run]
    rw [this]; exact law_ite (law_map _) (law_error _)
  | hdil d c =>
    intro cols
    have : (dil d c).run cols = fun ts => if cols = 1 then .ok (ts.map fun t => [c * t]) else .error .ub := by funext ts; rw [run, scalarRun]
    rw [this]; exact law_ite (law_map _) (law_error _)
  | hident d =>
    intro cols
    have : (ident d).run cols = fun ts => if cols = 1 then .ok (ts.map fun t => [t]) else .error .ub := by funext ts; rw [run, scalarRun]
    rw [this]; exact law_ite (law_map _) (law_error _)
  | hexp d =>
    intro cols
    have : (exp d).run cols = fun ts => if cols = 1 then .ok (ts.map fun t => [Real.exp t]) else .error .ub := by funext ts; rw [run, scalarRun]
    rw [this]; exact law_ite (law_map _) (law_error _)
  | hcos d =>
    intro cols
    have : (cos d).run cols = fun ts => if cols = 1 then .ok (ts.map fun t => [Real.cos t]) else .error .ub := by funext ts; rw [run, scalarRun]
    rw [this]; exact law_ite (law_map _) (law_error _)
  | hsin d =>
    intro cols
    have : (sin d).run cols = fun ts => if cols = 1 then .ok (ts.map fun t => [Real.sin t]) else .error .ub := by funext ts; rw [run, scalarRun]
    rw [this]; exact law_ite (law_map _) (law_error _)
  | hpoly d a =>
    intro cols
    have : (poly d a).run cols = fun ts => if a = [] then .error .ub else if a.length = 1 then .ok (ts.map fun t => List.replicate cols (horner a t))
        else if cols = 1 then .ok (ts.map fun t => [horner a t]) else .error .ub := by
      funext ts; rw [run, polyRun]; rfl
    rw [this]; exact law_ite (law_error _) (law_ite (law_map _) (law_ite (law_map _) (law_error _)))
  | huser d c F =>
    intro cols
    have : (user d c F).run cols = fun ts => if cols = c then .ok (ts.map fun t => (List.range c).map (F 0 t)) else .error .ub := by
      funext ts; rw [run]
    rw [this]; exact law_ite (law_map _) (law_error _)
  | hgspl g =>
    intro cols
    have : (gspl g).run cols = fun ts => if cols = g.codim then ts.mapM g.value else .error .ub := by funext ts; rw [run]; rfl
    rw [this]; exact law_ite (law_mapM _) (law_error _)
  | hdot d f1 f2 h1 h2 =>
    intro cols
    have h1 := h1 f1.codim
    have h2 := h2 f2.codim
    refine ⟨fun rows h => ?_, fun t ts rows => ?_⟩
    · simp only [run, bind_ok] at h
      obtain ⟨a, ha, b, hb, h⟩ := h
      split_ifs at h with hc
      rw [h1.1 a ha, h2.1 b hb, pure_ok] at h
      exact h.symm
    · simp only [run, bind_ok]
      constructor
      · rintro ⟨a, ha, b, hb, h⟩
        split_ifs at h with hc
        obtain ⟨x, xs, rfl, hx, hxs⟩ := (h1.2 t ts a).mp ha
        obtain ⟨y, ys, rfl, hy, hys⟩ := (h2.2 t ts b).mp hb
        rw [pure_ok] at h
        subst h
        exact ⟨_, _, rfl, ⟨_, hx, _, hy, by rw [if_pos hc]; rfl⟩, _, hxs, _, hys, by rw [if_pos hc]; rfl⟩
      · rintro ⟨r, rs, rfl, ⟨x, hx, y, hy, hr⟩, xs, hxs, ys, hys, hrs⟩
        split_ifs at hr hrs with hc
        obtain ⟨x', _, h4, hx', h5⟩ := (h1.2 t [] x).mp hx
        have := h1.1 _ h5
        subst this h4
        obtain ⟨y', _, h4, hy', h5⟩ := (h2.2 t [] y).mp hy
        have := h2.1 _ h5
        subst this h4
        rw [pure_ok] at hr hrs
        refine ⟨_, (h1.2 t ts _).mpr ⟨x', xs, rfl, hx', hxs⟩, _, (h2.2 t ts _).mpr ⟨y', ys, rfl, hy', hys⟩, ?_⟩
        rw [if_pos hc, pure_ok, List.zipWith_cons_cons, hrs]
        simp only [List.zipWith_cons_cons, List.zipWith_nil_right, List.cons.injEq, and_true] at hr
        rw [hr]
  | hexpr d c ty args hargs =>
    intro cols
    rw [run_expr]
    have hall : ∀ e ∈ args.map ev, ∀ c, Law (e.run c) := by
      intro e he c
      obtain ⟨a, ha, rfl⟩ := List.mem_map.mp he
      exact hargs a ha c
    generalize args.map ev = l at hall
    cases ty with
    | sum =>
      change Law (evalSum l cols)
      cases l with
      | nil => exact law_error _
      | cons f l =>
        have := sumFold_law cols f.codim (f :: l) fun e he => hall e he _
        refine ⟨fun rows h => this.1 rows h, fun t ts rows => ?_⟩
        rw [evalSum_cons, List.length_cons, List.replicate_succ, this.2]
        rfl
    | mul =>
      change Law (evalMul l cols)
      cases l with
      | nil => exact law_error _
      | cons f l =>
        have hf := hall f (by simp) cols
        have := mulFold_law l fun e he => hall e (by simp [he]) _
        refine ⟨fun rows h => ?_, fun t ts rows => ?_⟩
        · rw [evalMul_cons, bind_ok] at h
          obtain ⟨res, hres, h⟩ := h
          rw [hf.1 _ hres] at h
          exact this.1 rows h
        · simp only [evalMul_cons, bind_ok]
          constructor
          · rintro ⟨res, hres, h⟩
            obtain ⟨x, xs, rfl, hx, hxs⟩ := (hf.2 t ts res).mp hres
            obtain ⟨r, rs, rfl, hr, hrs⟩ := (this.2 _ _ _ _ _).mp h
            exact ⟨r, rs, rfl, ⟨_, hx, hr⟩, _, hxs, hrs⟩
          · rintro ⟨r, rs, rfl, ⟨x, hx, hr⟩, xs, hxs, hrs⟩
            obtain ⟨x', _, h4, hx', h5⟩ := (hf.2 t [] x).mp hx
            have h6 := hf.1 _ h5
            subst h6 h4
            exact ⟨x' :: xs, (hf.2 t ts _).mpr ⟨x', xs, rfl, hx', hxs⟩, (this.2 _ _ _ _ _).mpr ⟨r, rs, rfl, hr, hrs⟩⟩
    | comp => exact law_comp l hall cols
    | concat =>
      change Law (evalConcat l cols)
      cases l with
      | nil => exact law_error _
      | cons f l => exact law_mapM _
    | unique =>
      change Law (evalUnique l cols)
      match l, hall with
      | [], _ => exact law_error _
      | [f], hall => exact hall f (by simp) cols
      | _ :: _ :: _, _ => exact law_error _
    | neg =>
      change Law (evalNeg l cols)
      match l, hall with
      | [], _ => exact law_error _
      | [f], hall =>
        have hf := hall f (by simp) cols
        refine ⟨fun rows h => ?_, fun t ts rows => ?_⟩
        · simp only [evalNeg, bind_ok] at h
          obtain ⟨res, hres, h⟩ := h
          rw [hf.1 _ hres, pure_ok] at h
          exact h.symm
        · simp only [evalNeg, bind_ok, pure_ok]
          constructor
          · rintro ⟨res, hres, h⟩
            obtain ⟨x, xs, rfl, hx, hxs⟩ := (hf.2 t ts res).mp hres
            subst h
            exact ⟨_, _, rfl, ⟨_, hx, rfl⟩, _, hxs, rfl⟩
          · rintro ⟨r, rs, rfl, ⟨x, hx, hr⟩, xs, hxs, hrs⟩
            obtain ⟨x', _, h4, hx', h5⟩ := (hf.2 t [] x).mp hx
            have h6 := hf.1 _ h5
            subst h6 h4
            refine ⟨x' :: xs, (hf.2 t ts _).mpr ⟨x', xs, rfl, hx', hxs⟩, ?_⟩
            rw [List.map_cons, hrs]
            simp only [List.map_cons, List.map_nil, List.cons.injEq, and_true] at hr
            rw [hr]
      | _ :: _ :: _, _ => exact law_error _

end GSplines.Fn
