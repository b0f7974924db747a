import Verif.Proofs.FnOps

/-!
# Concatenations, unary minus, in-place operations: helper lemmas
-/

namespace GSplines.Fn

open GSplines Spec

/-! ## Concatenations -/

open Classical in
/-- `pick` and the evaluation of the piece. -/
noncomputable def pickRun (l : List Fn) (c : ℕ) (t : ℝ) : Res Rows :=
  match (l.map ev).find? (fun f => decide (f.has t)) with
  | some f => f.run c [t]
  | none =>
    match l.head?, l.getLast? with
    | some a, some b => if t ≤ a.dom.1 then a.run c [a.dom.1] else if t ≥ b.dom.2 then b.run c [b.dom.2] else .error .invalidArgument
    | _, _ => .error .ub

theorem run_single_head {f : Fn} {c : ℕ} {s : ℝ} :
    (do
      let b ← (do
        let x ← (.ok (f.ev, s) : Res (Ev × ℝ))
        let temp ← x.1.run c [x.2]
        return temp.headD [])
      return [b] : Res Rows) = f.run c [s] := by
  change (do
      let b ← (do
        let temp ← f.run c [s]
        return temp.headD [])
      return [b] : Res Rows) = f.run c [s]
  cases h : f.run c [s] with
  | error e => rfl
  | ok rows =>
    have := run_length f h
    obtain ⟨x, rfl⟩ := List.length_eq_one_iff.mp this
    rfl

theorem mapM_single {α β : Type} (f : α → Res β) (a : α) : [a].mapM f = (do let b ← f a; return [b]) := by
  simp [List.mapM_cons]

theorem evalConcat_single {l : List Fn} {c : ℕ} (hne : l ≠ []) (hc : ∀ a ∈ l, a.codim = c) (t : ℝ) :
    evalConcat (l.map ev) c [t] = pickRun l c t := by
  cases l with
  | nil => exact absurd rfl hne
  | cons a l =>
    have hac : a.ev.codim = c := hc a (by simp)
    have hlast : (a.ev :: l.map ev).getLast (by simp) = ((a :: l).getLast (by simp)).ev := by
      rw [← List.getLast_map (f := ev) (by simp)]; rfl
    have hl? : (a :: l).getLast? = some ((a :: l).getLast (by simp)) := List.getLast?_eq_some_getLast _
    simp only [List.map_cons, evalConcat]
    rw [mapM_single, hac, hlast]
    unfold pickRun pick
    rw [hl?]
    simp only [List.head?_cons, if_true, List.map_cons]
    cases hfind : (a.ev :: l.map ev).find? (fun x => @decide (x.has t) (Classical.propDecidable _)) with
    | some e =>
      have he : e ∈ (a :: l).map ev := by rw [List.map_cons]; exact List.mem_of_find?_eq_some hfind
      obtain ⟨x, hx, rfl⟩ := List.mem_map.mp he
      exact run_single_head
    | none =>
      have e1 : a.ev.dom = a.dom := rfl
      have e2 : ((a :: l).getLast (by simp)).ev.dom = ((a :: l).getLast (by simp)).dom := rfl
      dsimp only
      rw [e1, e2]
      by_cases h1 : t ≤ a.dom.1
      · rw [if_pos h1, if_pos h1]; exact run_single_head
      · rw [if_neg h1, if_neg h1]
        by_cases h2 : t ≥ ((a :: l).getLast (by simp)).dom.2
        · rw [if_pos h2, if_pos h2]; exact run_single_head
        · rw [if_neg h2, if_neg h2]; rfl

theorem pieces_lt : ∀ {l : List Fn} {a b : ℝ}, Pieces l a b → a < b := by
  intro l
  induction l with
  | nil => intro a b h; exact h.elim
  | cons f l ih =>
    intro a b h
    cases l with
    | nil => exact h.2
    | cons g l => exact h.2.1.trans (ih h.2.2)

theorem pieces_mem : ∀ {l : List Fn} {a b : ℝ}, Pieces l a b → ∀ f ∈ l, a ≤ f.dom.1 ∧ f.dom.1 < f.dom.2 ∧ f.dom.2 ≤ b := by
  intro l
  induction l with
  | nil => intro a b h; exact h.elim
  | cons f l ih =>
    intro a b h e he
    cases l with
    | nil =>
      rw [List.mem_singleton.mp he, h.1]
      exact ⟨le_rfl, h.2, le_rfl⟩
    | cons g l =>
      rcases List.mem_cons.mp he with rfl | he
      · exact ⟨h.1.ge, by rw [h.1]; exact h.2.1, (pieces_lt h.2.2).le⟩
      · have := ih h.2.2 e he
        exact ⟨h.2.1.le.trans this.1, this.2⟩

theorem pieces_head : ∀ {l : List Fn} {a b : ℝ}, Pieces l a b → ∃ f, l.head? = some f ∧ f.dom.1 = a := by
  intro l a b h
  match l, h with
  | [f], h => exact ⟨f, rfl, by rw [h.1]⟩
  | f :: g :: l, h => exact ⟨f, rfl, h.1⟩

theorem pieces_last : ∀ {l : List Fn} {a b : ℝ}, Pieces l a b → ∃ f, l.getLast? = some f ∧ f.dom.2 = b := by
  intro l
  induction l with
  | nil => intro a b h; exact h.elim
  | cons f l ih =>
    intro a b h
    cases l with
    | nil => exact ⟨f, rfl, by rw [h.1]⟩
    | cons g l =>
      obtain ⟨e, he, hb⟩ := ih h.2.2
      exact ⟨e, by rw [List.getLast?_cons_cons]; exact he, hb⟩

open Classical in
/-- The search of `pick`. -/
noncomputable def search (l : List Fn) (t : ℝ) : Option Ev := (l.map ev).find? (fun f => decide (f.has t))

theorem search_cons (f : Fn) (l : List Fn) (t : ℝ) : search (f :: l) t = if f.dom.1 ≤ t ∧ t < f.dom.2 then some f.ev else search l t := by
  unfold search
  rw [List.map_cons, List.find?_cons]
  by_cases h : f.dom.1 ≤ t ∧ t < f.dom.2
  · rw [if_pos h]
    have : f.ev.has t := h
    simp [this]
  · rw [if_neg h]
    have : ¬ f.ev.has t := h
    simp [this]

theorem search_append (l1 l2 : List Fn) (t : ℝ) : search (l1 ++ l2) t = (search l1 t).or (search l2 t) := by
  unfold search
  rw [List.map_append, List.find?_append]

theorem search_none {l : List Fn} {t : ℝ} (h : ∀ f ∈ l, t < f.dom.1 ∨ f.dom.2 ≤ t) : search l t = none := by
  unfold search
  rw [List.find?_eq_none]
  intro e he
  obtain ⟨f, hf, rfl⟩ := List.mem_map.mp he
  simp only [decide_eq_true_eq]
  rintro ⟨h1, h2⟩
  rcases h f hf with h | h
  · exact absurd h1 (not_le.mpr h)
  · exact absurd h2 (not_lt.mpr h)

theorem search_cover : ∀ {l : List Fn} {a b t : ℝ}, Pieces l a b → a ≤ t → t < b → ∃ e, search l t = some e := by
  intro l
  induction l with
  | nil => intro a b t h; exact h.elim
  | cons f l ih =>
    intro a b t h h1 h2
    rw [search_cons]
    split_ifs with hf
    · exact ⟨_, rfl⟩
    · cases l with
      | nil => rw [h.1] at hf; exact absurd ⟨h1, h2⟩ hf
      | cons g l =>
        rw [h.1] at hf
        exact ih h.2.2 (by by_contra hlt; exact hf ⟨h1, not_le.mp hlt⟩) h2

theorem pickRun_some {l : List Fn} {c : ℕ} {t : ℝ} {e : Ev} (h : search l t = some e) : pickRun l c t = e.run c [t] := by
  unfold pickRun
  change (match search l t with | some f => _ | none => _) = _
  rw [h]

theorem pickRun_low {l : List Fn} {c : ℕ} {a b t : ℝ} (h : Pieces l a b) (ht : t ≤ a) :
    ∃ f, l.head? = some f ∧ pickRun l c t = f.run c [a] := by
  obtain ⟨f, hf, hfa⟩ := pieces_head h
  obtain ⟨g, hg, hgb⟩ := pieces_last h
  refine ⟨f, hf, ?_⟩
  rcases ht.lt_or_eq with hlt | rfl
  · have hn : search l t = none := search_none fun e he => .inl (hlt.trans_le (pieces_mem h e he).1)
    unfold pickRun
    change (match search l t with | some f => _ | none => _) = _
    rw [hn, hf, hg]
    dsimp only
    rw [if_pos (by rw [hfa]; exact ht), hfa]
  · have : search l t = some f.ev := by
      obtain ⟨x, l, rfl⟩ : ∃ x l', l = x :: l' := by
        cases l with
        | nil => simp at hf
        | cons x l => exact ⟨x, l, rfl⟩
      injection hf with hf
      subst hf
      rw [search_cons, if_pos ⟨hfa.le, by rw [← hfa]; exact (pieces_mem h x (by simp)).2.1⟩]
    rw [pickRun_some this]; rfl

theorem pickRun_high {l : List Fn} {c : ℕ} {a b t : ℝ} (h : Pieces l a b) (ht : b ≤ t) :
    ∃ f, l.getLast? = some f ∧ pickRun l c t = f.run c [b] := by
  obtain ⟨f, hf, hfa⟩ := pieces_head h
  obtain ⟨g, hg, hgb⟩ := pieces_last h
  refine ⟨g, hg, ?_⟩
  have hn : search l t = none := search_none fun e he => .inr ((pieces_mem h e he).2.2.trans ht)
  unfold pickRun
  change (match search l t with | some f => _ | none => _) = _
  rw [hn, hf, hg]
  dsimp only
  rw [if_neg (by rw [hfa, not_le]; exact (pieces_lt h).trans_le ht), if_pos (by rw [hgb]; exact ht), hgb]

theorem pickRun_clamp {l : List Fn} {c : ℕ} {a b : ℝ} (h : Pieces l a b) (t : ℝ) : pickRun l c (max a (min t b)) = pickRun l c t := by
  have hab := pieces_lt h
  rcases le_total t a with h1 | h1
  · rw [max_eq_left (by rw [min_eq_left (h1.trans hab.le)]; exact h1)]
    obtain ⟨f, hf, e1⟩ := pickRun_low (c := c) h le_rfl
    obtain ⟨g, hg, e2⟩ := pickRun_low (c := c) h h1
    rw [e1, e2]
    rw [hf] at hg; injection hg with hg; rw [hg]
  · rcases le_total b t with h2 | h2
    · rw [min_eq_right h2, max_eq_right hab.le]
      obtain ⟨f, hf, e1⟩ := pickRun_high (c := c) h le_rfl
      obtain ⟨g, hg, e2⟩ := pickRun_high (c := c) h h2
      rw [e1, e2]
      rw [hf] at hg; injection hg with hg; rw [hg]
    · rw [min_eq_left h2, max_eq_right h1]

theorem pickRun_append_left {l1 l2 : List Fn} {c : ℕ} {a j b t : ℝ} (h1 : Pieces l1 a j) (h2 : Pieces l2 j b) (ht : t < j) :
    pickRun (l1 ++ l2) c t = pickRun l1 c t := by
  have hn : search l2 t = none := search_none fun e he => .inl (ht.trans_le (pieces_mem h2 e he).1)
  obtain ⟨f, hf, hfa⟩ := pieces_head h1
  obtain ⟨g, hg, hgb⟩ := pieces_last h1
  obtain ⟨g', hg', hgb'⟩ := pieces_last h2
  unfold pickRun
  change (match search (l1 ++ l2) t with | some f => _ | none => _) = (match search l1 t with | some f => _ | none => _)
  rw [search_append, hn, Option.or_none]
  cases hs : search l1 t with
  | some e => rfl
  | none =>
    have hta : t < a := by
      by_contra hlt
      obtain ⟨e, he⟩ := search_cover h1 (not_lt.mp hlt) ht
      rw [hs] at he; cases he
    rw [List.head?_append, hf, List.getLast?_append, hg, hg']
    dsimp only [Option.some_or]
    rw [if_pos (by rw [hfa]; exact hta.le), if_pos (by rw [hfa]; exact hta.le)]

theorem pickRun_append_right {l1 l2 : List Fn} {c : ℕ} {a j b t : ℝ} (h1 : Pieces l1 a j) (h2 : Pieces l2 j b) (ht : j ≤ t) :
    pickRun (l1 ++ l2) c t = pickRun l2 c t := by
  have hn : search l1 t = none := search_none fun e he => .inr ((pieces_mem h1 e he).2.2.trans ht)
  obtain ⟨f, hf, hfa⟩ := pieces_head h1
  obtain ⟨f', hf', hfa'⟩ := pieces_head h2
  obtain ⟨g, hg, hgb⟩ := pieces_last h1
  obtain ⟨g', hg', hgb'⟩ := pieces_last h2
  unfold pickRun
  change (match search (l1 ++ l2) t with | some f => _ | none => _) = (match search l2 t with | some f => _ | none => _)
  rw [search_append, hn, Option.none_or]
  cases hs : search l2 t with
  | some e => rfl
  | none =>
    have htb : b ≤ t := by
      by_contra hlt
      obtain ⟨e, he⟩ := search_cover h2 ht (not_le.mp hlt)
      rw [hs] at he; cases he
    rw [List.head?_append, hf, List.getLast?_append, hf', hg']
    dsimp only [Option.some_or]
    have hab := pieces_lt h2
    have haj := pieces_lt h1
    have n1 : ¬ t ≤ f.dom.1 := by rw [hfa]; linarith
    have n2 : ¬ t ≤ f'.dom.1 := by rw [hfa']; linarith
    rw [if_neg n1, if_neg n2]

theorem joined_lt {f : Fn} (h : Spec.Joined f) : f.dom.1 < f.dom.2 := by
  unfold Spec.Joined at h
  split at h
  · exact pieces_lt h
  · exact h

theorem pieces_chain {f : Fn} (h : Spec.Joined f) : Pieces (chain .concat f) f.dom.1 f.dom.2 := by
  unfold chain
  split_ifs with hp
  · cases f with
    | expr d c ty args =>
      simp only [parts] at hp ⊢
      subst hp
      exact h
    | _ => simp [parts] at hp
  · exact ⟨toExpr_dom f, joined_lt h⟩

theorem chain_concat_codim {f : Fn} (h : f.WF) : ∀ a ∈ chain .concat f, a.codim = f.codim := by
  unfold chain
  split_ifs with hp
  · cases f with
    | expr d c ty args =>
      simp only [parts] at hp ⊢
      subst hp
      rw [WF] at h
      intro a ha
      exact h.2.2.2 _ (List.mem_map_of_mem ha)
    | _ => simp [parts] at hp
  · simp [toExpr_codim]

theorem pickRun_chain {f : Fn} (hw : f.WF) (h : Spec.Joined f) (t : ℝ) :
    pickRun (chain .concat f) f.codim t = f.call [max f.dom.1 (min t f.dom.2)] := by
  have hp := pieces_chain h
  by_cases hc : f.parts.1 = .concat
  · rw [← pickRun_clamp hp t]
    cases f with
    | expr d c ty args =>
      simp only [parts] at hc
      subst hc
      rw [call, run_expr]
      exact (evalConcat_single (chain_ne_nil _ hw) (chain_concat_codim hw) _).symm
    | _ => simp [parts] at hc
  · have hch : chain .concat f = [f.toExpr] := by unfold chain; rw [if_neg hc]
    have hlt := joined_lt h
    rcases lt_or_ge t f.dom.1 with h1 | h1
    · obtain ⟨g, hg, e⟩ := pickRun_low (c := f.codim) hp h1.le
      rw [e]
      rw [hch] at hg
      injection hg with hg
      rw [← hg, run_toExpr, min_eq_left (h1.trans hlt).le, max_eq_left h1.le]
      rfl
    · rcases lt_or_ge t f.dom.2 with h2 | h2
      · have : search (chain .concat f) t = some f.ev := by
          rw [hch, search_cons, toExpr_dom, if_pos ⟨h1, h2⟩, ev_toExpr]
        rw [pickRun_some this, min_eq_left h2.le, max_eq_right h1]
        rfl
      · obtain ⟨g, hg, e⟩ := pickRun_high (c := f.codim) hp h2
        rw [e]
        rw [hch] at hg
        replace hg : some f.toExpr = some g := hg
        injection hg with hg
        rw [← hg, run_toExpr, min_eq_right h2, max_eq_right hlt.le]
        rfl

/-- The value of a concatenation. -/
theorem call_concat {f g : Fn} (hf : f.WF) (hg : g.WF) (hc : f.codim = g.codim) (hjf : Spec.Joined f) (hjg : Spec.Joined g) (hj : f.dom.2 = g.dom.1)
    (d : ℝ × ℝ) (t : ℝ) :
    (expr d f.codim .concat (chain .concat f ++ chain .concat g)).call [t] =
      if t < f.dom.2 then f.call [max f.dom.1 t] else g.call [min t g.dom.2] := by
  rw [call, run_expr]
  change evalConcat _ f.codim [t] = _
  have h1 := chain_concat_codim hf
  have h2 := chain_concat_codim hg
  rw [evalConcat_single (by simp [chain_ne_nil _ hf]) (by
    intro a ha
    rcases List.mem_append.mp ha with ha | ha
    · exact h1 a ha
    · rw [h2 a ha, hc])]
  have p1 := pieces_chain hjf
  have p2 := pieces_chain hjg
  rw [← hj] at p2
  split_ifs with ht
  · rw [pickRun_append_left p1 p2 ht, pickRun_chain hf hjf, min_eq_left ht.le]
  · rw [not_lt] at ht
    rw [pickRun_append_right p1 p2 ht, hc, pickRun_chain hg hjg, max_eq_right (by
      rw [← hj]; exact le_min ht (pieces_lt p2).le)]

theorem pieces_append : ∀ {l1 l2 : List Fn} {a j b : ℝ}, Pieces l1 a j → Pieces l2 j b → Pieces (l1 ++ l2) a b := by
  intro l1
  induction l1 with
  | nil => intro l2 a j b h; exact h.elim
  | cons f l1 ih =>
    intro l2 a j b h1 h2
    cases l1 with
    | nil =>
      cases l2 with
      | nil => exact h2.elim
      | cons g l2 =>
        refine ⟨by rw [h1.1], by rw [h1.1]; exact h1.2, ?_⟩
        rw [h1.1]; exact h2
    | cons g l1 => exact ⟨h1.1, h1.2.1, ih h1.2.2 h2⟩

theorem wf_concat {f g : Fn} (hf : f.WF) (hg : g.WF) (hc : f.codim = g.codim) (d : ℝ × ℝ) :
    (expr d f.codim .concat (chain .concat f ++ chain .concat g)).WF := by
  rw [WF, wfs_iff]
  refine ⟨hf.pos, ?_, ?_, ?_⟩
  · intro a ha
    rcases List.mem_append.mp ha with ha | ha
    · exact wf_chain _ hf a ha
    · exact wf_chain _ hg a ha
  · simp [chain_ne_nil _ hf]
  · intro x hx
    obtain ⟨a, ha, rfl⟩ := List.mem_map.mp hx
    rcases List.mem_append.mp ha with ha | ha
    · exact chain_concat_codim hf a ha
    · rw [chain_concat_codim hg a ha, hc]

/-! ## Unary minus -/

/-- Minus a matrix. -/
def negRows (x : Rows) : Rows := x.map fun r => r.map fun v => -v

theorem unique_parts {f : Fn} (hf : f.WF) (hu : f.parts.1 = .unique) : ∃ a, f.parts.2 = [a] ∧ a.run = f.run ∧ a.codim = f.codim ∧ a.WF := by
  cases f with
  | expr d c ty args =>
    simp only [parts] at hu ⊢
    subst hu
    rw [WF, wfs_iff] at hf
    have := hf.2.2
    simp only [Fits, List.map_eq_cons_iff, List.map_eq_nil_iff] at this
    obtain ⟨a, l, rfl, hac, rfl⟩ := this
    exact ⟨a, rfl, by rw [run_expr]; rfl, hac, hf.2.1 a (by simp)⟩
  | _ => exact ⟨_, rfl, run_clone _, codim_clone _, wf_clone hf⟩

theorem call_neg {f : Fn} (hf : f.WF) (hu : f.parts.1 = .unique) (ts : List ℝ) (z : Rows) :
    f.neg.call ts = .ok z ↔ ∃ x, f.call ts = .ok x ∧ z = negRows x := by
  obtain ⟨a, ha, har, -, -⟩ := unique_parts hf hu
  unfold neg
  rw [ha, call, run_expr]
  simp only [List.map_cons, List.map_nil, evalTy, evalNeg, bind_ok, pure_ok, ev, har, codim, call, negRows, mul_neg_one]
  constructor
  · rintro ⟨x, hx, rfl⟩; exact ⟨x, hx, rfl⟩
  · rintro ⟨x, hx, rfl⟩; exact ⟨x, hx, rfl⟩

theorem wf_neg {f : Fn} (hf : f.WF) (hu : f.parts.1 = .unique) : f.neg.WF := by
  obtain ⟨a, ha, -, hac, haw⟩ := unique_parts hf hu
  unfold neg
  rw [ha, WF, wfs_iff]
  exact ⟨hf.pos, by simpa using haw, by simp [Fits, hac]⟩

/-! ## In-place operations -/

theorem inPlace_eq (ty : Ty) (f g : Fn) : inPlace ty f g = expr f.dom f.codim ty (splice ty f ++ [g.toExpr]) := by
  cases f with
  | expr d c t args =>
    rw [splice_expr]
    by_cases h : t = .unique ∨ t = ty
    · simp only [inPlace]; rw [if_pos h, if_pos h.symm]; rfl
    · simp only [inPlace]; rw [if_neg h, if_neg (fun h' => h h'.symm)]; rfl
  | _ => simp [inPlace, splice, parts]

/-- The value after `+=`. -/
theorem call_addInPlace {f g : Fn} (hf : f.WF) (hc : f.codim = g.codim) (ts : List ℝ) (z : Rows) :
    (addInPlace f g).call ts = .ok z ↔ ∃ x y, f.call ts = .ok x ∧ g.call ts = .ok y ∧ z = addRows x y := by
  rw [addInPlace, inPlace_eq, call, run_expr]
  change evalSum _ f.codim ts = _ ↔ _
  have h1 := splice_codim hf
  rw [evalSum_eq (by simp) (by
    intro a ha
    rcases List.mem_append.mp ha with ha | ha
    · exact h1.2 a ha
    · rw [List.mem_singleton.mp ha, hc, toExpr_codim]), List.map_append, List.foldlM_append]
  simp only [bind_ok, sumFold_splice hf (dims_zeros _ _), List.map_cons, List.map_nil, List.foldlM_cons, List.foldlM_nil, sumStep_ok, pure_ok,
    ev_toExpr]
  have hgr : g.ev.run f.codim ts = g.call ts := by rw [hc]; rfl
  rw [hgr]
  constructor
  · rintro ⟨_, ⟨x, hx, rfl⟩, _, ⟨y, hy, rfl⟩, rfl⟩
    rw [zeros_add (run_dims f _ _ _ hx)]
    exact ⟨x, y, hx, hy, rfl⟩
  · rintro ⟨x, y, hx, hy, rfl⟩
    refine ⟨_, ⟨x, hx, rfl⟩, _, ⟨y, hy, rfl⟩, ?_⟩
    rw [zeros_add (run_dims f _ _ _ hx)]

theorem wf_addInPlace {f g : Fn} (hf : f.WF) (hg : g.WF) (hc : f.codim = g.codim) : (addInPlace f g).WF := by
  rw [addInPlace, inPlace_eq, WF, wfs_iff]
  have h1 := splice_codim hf
  refine ⟨hf.pos, ?_, by simp, ?_⟩
  · intro a ha
    rcases List.mem_append.mp ha with ha | ha
    · exact wf_splice _ hf a ha
    · rw [List.mem_singleton.mp ha]; exact wf_toExpr hg
  · intro x hx
    obtain ⟨a, ha, rfl⟩ := List.mem_map.mp hx
    rcases List.mem_append.mp ha with ha | ha
    · exact h1.2 a ha
    · rw [List.mem_singleton.mp ha, hc, toExpr_codim]

/-- The value after `*=`. -/
theorem call_mulInPlace {f g : Fn} (hf : f.WF) (hc : g.codim = 1) (ts : List ℝ) (z : Rows) :
    (mulInPlace f g).call ts = .ok z ↔ ∃ x y, f.call ts = .ok x ∧ g.call ts = .ok y ∧ z = scaleRows x y := by
  rw [mulInPlace, inPlace_eq, call, run_expr]
  change evalMul _ f.codim ts = _ ↔ _
  have hgr : g.ev.run 1 ts = g.call ts := by rw [call, hc]; rfl
  rw [List.map_append, evalMul_splice hf]
  simp only [bind_ok, List.map_cons, List.map_nil, List.foldlM_cons, List.foldlM_nil, mulStep_ok, pure_ok, ev_toExpr, hgr]
  constructor
  · rintro ⟨x, hx, _, ⟨y, hy, rfl⟩, rfl⟩; exact ⟨x, y, hx, hy, rfl⟩
  · rintro ⟨x, y, hx, hy, rfl⟩; exact ⟨x, hx, _, ⟨y, hy, rfl⟩, rfl⟩

theorem wf_mulInPlace {f g : Fn} (hf : f.WF) (hg : g.WF) (hc : g.codim = 1) : (mulInPlace f g).WF := by
  rw [mulInPlace, inPlace_eq, WF, wfs_iff]
  refine ⟨hf.pos, ?_, ?_⟩
  · intro a ha
    rcases List.mem_append.mp ha with ha | ha
    · exact wf_splice _ hf a ha
    · rw [List.mem_singleton.mp ha]; exact wf_toExpr hg
  · obtain ⟨a, l, h1, h2, h3⟩ := splice_mul_codim hf
    rw [h1]
    refine ⟨(l ++ [g.toExpr]).map codim, by simp [h2], ?_⟩
    intro x hx
    obtain ⟨e, he, rfl⟩ := List.mem_map.mp hx
    rcases List.mem_append.mp he with he | he
    · exact h3 e he
    · rw [List.mem_singleton.mp he, toExpr_codim, hc]

/-! ## Dot products -/

theorem wf_mkDot {f g r : Fn} (hf : f.WF) (hg : g.WF) (h : mkDot f g = .ok r) : r.WF := by
  unfold mkDot at h
  split_ifs at h with hc
  injection h with h
  subst h
  rw [WF]
  exact ⟨wf_wrap hf, wf_wrap hg, hc⟩

theorem call_mkDot {f g : Fn} (hc : f.codim = g.codim) (d : ℝ × ℝ) (ts : List ℝ) (z : Rows) : (dot d f.wrap g.wrap).call ts = .ok z ↔
    ∃ x y, f.call ts = .ok x ∧ g.call ts = .ok y ∧ z = List.zipWith (fun a b => [(List.zipWith (· * ·) a b).sum]) x y := by
  have h1 : f.wrap.codim = f.codim := rfl
  have h2 : g.wrap.codim = g.codim := rfl
  have h3 : (dot d f.wrap g.wrap).codim = 1 := rfl
  simp only [call, run, bind_ok, run_wrap, h1, h2, h3, hc, and_self, if_true, pure_ok]
  constructor
  · rintro ⟨x, hx, y, hy, rfl⟩; exact ⟨x, y, hx, hy, rfl⟩
  · rintro ⟨x, y, hx, hy, rfl⟩; exact ⟨x, hx, y, hy, rfl⟩

end GSplines.Fn
