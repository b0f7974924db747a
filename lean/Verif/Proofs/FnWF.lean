import Verif.Proofs.FnConcat

/-!
# Derivation keeps objects well-formed
-/

namespace GSplines.Fn

open GSplines Spec

theorem d1s_eq (l : List Fn) : d1s l = l.mapM d1 := by
  induction l with
  | nil => simp [d1s, pure, Except.pure]
  | cons a l ih => simp [d1s, ih, List.mapM_cons]

theorem derivs_eq (l : List Fn) (n : ℕ) : derivs l n = l.mapM fun a => a.deriv n := by
  induction l with
  | nil => simp [derivs, pure, Except.pure]
  | cons a l ih => simp [derivs, ih, List.mapM_cons]

theorem mapM_forall₂ {α β : Type} {f : α → Res β} : ∀ {l : List α} {r : List β}, l.mapM f = .ok r → List.Forall₂ (fun a b => f a = .ok b) l r := by
  intro l
  induction l with
  | nil => intro r h; simp only [List.mapM_nil, pure_ok] at h; subst h; exact .nil
  | cons a l ih =>
    intro r h
    simp only [List.mapM_cons, bind_ok, pure_ok] at h
    obtain ⟨x, hx, xs, hxs, rfl⟩ := h
    exact .cons hx (ih hxs)

/-- What derivation keeps. -/
def Keeps (f f' : Fn) : Prop := f'.WF ∧ f'.codim = f.codim

theorem gspl_deriv_codim {g g' : GSpline} {n : ℕ} (h : g.deriv n = .ok g') : g'.codim = g.codim := by
  unfold GSpline.deriv GSpline.make at h
  split_ifs at h <;> first | (injection h with h; subst h; rfl)

theorem keeps_dilDeriv (d : ℝ × ℝ) (c : ℝ) (n : ℕ) (f : Fn) (hf : f.codim = 1) : Keeps f (dilDeriv d c n) := by
  unfold dilDeriv Keeps
  rw [hf]
  split_ifs <;> simp [WF, WFs, Fits, codim]

theorem keeps_cosDeriv (d : ℝ × ℝ) (n : ℕ) : Keeps (cos d) (cosDeriv d n) := by
  unfold cosDeriv Keeps
  split_ifs <;> simp [WF, WFs, Fits, codim]

theorem keeps_sinDeriv (d : ℝ × ℝ) (n : ℕ) : Keeps (sin d) (sinDeriv d n) := by
  unfold sinDeriv Keeps
  split_ifs <;> simp [WF, WFs, Fits, codim]

theorem keeps_constDeriv (d : ℝ × ℝ) (v : List ℝ) (n : ℕ) (h : (const d v).WF) : Keeps (const d v) (constDeriv d v n) := by
  unfold constDeriv Keeps
  split_ifs
  · exact ⟨h, rfl⟩
  · refine ⟨?_, by simp [codim]⟩
    rw [WF] at h ⊢
    simpa using h

theorem keeps_gspl {g g' : GSpline} {n : ℕ} (hw : (gspl g).WF) (h : g.deriv n = .ok g') : Keeps (gspl g) (gspl g') := by
  have := gspl_deriv_codim h
  refine ⟨?_, this⟩
  rw [WF] at hw ⊢
  rwa [this]

theorem keeps_list {l l' : List Fn} (h : List.Forall₂ Keeps l l') : (∀ a ∈ l', a.WF) ∧ l'.map codim = l.map codim := by
  induction h with
  | nil => simp
  | cons h hs ih =>
    refine ⟨?_, by simp [h.2, ih.2]⟩
    intro a ha
    rcases List.mem_cons.mp ha with rfl | ha
    · exact h.1
    · exact ih.1 a ha

theorem keeps_derivLin {d : ℝ × ℝ} {c : ℕ} {ty : Ty} {args ds : List Fn} {r : Fn} (hw : (expr d c ty args).WF) (hty : ty ≠ .mul ∧ ty ≠ .comp)
    (hds : List.Forall₂ Keeps args ds) (h : derivLin ty args ds = .ok r) : Keeps (expr d c ty args) r := by
  obtain ⟨h1, h2⟩ := keeps_list hds
  rw [WF] at hw
  cases args with
  | nil => unfold derivLin at h; dsimp only at h; split_ifs at h
  | cons a rest =>
    have hac : a.codim = c := by
      have := hw.2.2
      cases ty with
      | sum => exact this.2 _ (by simp)
      | concat => exact this.2 _ (by simp)
      | unique => simp only [Fits, List.map_cons, List.cons.injEq] at this; exact this.1
      | neg => simp only [Fits, List.map_cons, List.cons.injEq] at this; exact this.1
      | mul => exact absurd rfl hty.1
      | comp => exact absurd rfl hty.2
    unfold derivLin at h
    dsimp only at h
    split_ifs at h
    all_goals
      injection h with h
      subst h
      rw [hac]
      refine ⟨?_, rfl⟩
      rw [WF, wfs_iff, h2]
      exact ⟨hw.1, h1, hw.2.2⟩

theorem mulTerms_wf {d : ℝ × ℝ} {c : ℕ} (hc : 0 < c) : ∀ {pre rest rest' : List Fn}, (∀ a ∈ pre, a.WF) → (∀ a ∈ rest, a.WF) →
    (∃ p, pre.map codim = c :: p ∧ ∀ x ∈ p, x = 1) → (∀ a ∈ rest, a.codim = 1) → List.Forall₂ Keeps rest rest' →
    ∀ e ∈ mulTerms d c pre rest rest', e.WF ∧ e.codim = c := by
  intro pre rest
  induction rest generalizing pre with
  | nil => intro rest' _ _ _ _ h; cases h; simp [mulTerms]
  | cons a rest ih =>
    intro rest' hp hr hpre hrc h
    cases h with
    | cons ha hrest =>
      rename_i a' rest'
      intro e he
      obtain ⟨p, hp1, hp2⟩ := hpre
      rw [mulTerms] at he
      rcases List.mem_cons.mp he with rfl | he
      · refine ⟨?_, rfl⟩
        rw [WF, wfs_iff]
        refine ⟨hc, ?_, ?_⟩
        · intro x hx
          simp only [List.mem_append, List.mem_singleton] at hx
          rcases hx with (hx | hx) | rfl
          · exact hp x hx
          · exact hr x (by simp [hx])
          · exact ha.1
        · refine ⟨p ++ rest.map codim ++ [a'.codim], by simp [hp1], ?_⟩
          intro x hx
          simp only [List.mem_append, List.mem_singleton] at hx
          rcases hx with (hx | hx) | rfl
          · exact hp2 x hx
          · obtain ⟨y, hy, rfl⟩ := List.mem_map.mp hx
            exact hrc y (by simp [hy])
          · rw [ha.2]; exact hrc a (by simp)
      · refine ih (pre := pre ++ [a]) ?_ (fun x hx => hr x (by simp [hx])) ?_ (fun x hx => hrc x (by simp [hx])) hrest e he
        · intro x hx
          rcases List.mem_append.mp hx with hx | hx
          · exact hp x hx
          · rw [List.mem_singleton.mp hx]; exact hr a (by simp)
        · refine ⟨p ++ [a.codim], by simp [hp1], ?_⟩
          intro x hx
          rcases List.mem_append.mp hx with hx | hx
          · exact hp2 x hx
          · rw [List.mem_singleton.mp hx]; exact hrc a (by simp)

theorem keeps_firstDerivMul {d : ℝ × ℝ} {c : ℕ} {args ds : List Fn} {r : Fn} (hw : (expr d c .mul args).WF)
    (hds : List.Forall₂ Keeps args ds) (h : firstDerivMul args ds = .ok r) : Keeps (expr d c .mul args) r := by
  rw [WF, wfs_iff] at hw
  obtain ⟨hc, hwf, cs, hcs, h1⟩ := hw
  cases hds with
  | nil => simp [firstDerivMul] at h
  | cons ha hrest =>
    rename_i a a' rest rest'
    simp only [firstDerivMul] at h
    injection h with h
    subst h
    simp only [List.map_cons, List.cons.injEq] at hcs
    obtain ⟨rfl, rfl⟩ := hcs
    refine ⟨?_, rfl⟩
    have hrc : ∀ x ∈ rest, x.codim = 1 := fun x hx => h1 _ (List.mem_map_of_mem hx)
    have hm := mulTerms_wf (d := a.dom) hc (pre := [a]) (by simpa using hwf a (by simp)) (fun x hx => hwf x (by simp [hx]))
      ⟨[], rfl, by simp⟩ hrc hrest
    have h0 : (expr a.dom a.codim .mul (a' :: rest)).WF := by
      rw [WF, wfs_iff]
      refine ⟨hc, ?_, rest.map codim, by simp [ha.2], h1⟩
      intro x hx
      rcases List.mem_cons.mp hx with rfl | hx
      · exact ha.1
      · exact hwf x (by simp [hx])
    rw [WF, wfs_iff]
    refine ⟨hc, ?_, by simp, ?_⟩
    · intro x hx
      rcases List.mem_cons.mp hx with rfl | hx
      · exact h0
      · exact (hm x hx).1
    · intro x hx
      obtain ⟨y, hy, rfl⟩ := List.mem_map.mp hx
      rcases List.mem_cons.mp hy with rfl | hy
      · rfl
      · exact (hm y hy).2

theorem compTerms_wf {d : ℝ × ℝ} : ∀ {pre rest rest' : List Fn}, (∀ a ∈ pre, a.WF) → (∀ a ∈ rest, a.WF) →
    (∀ a ∈ pre, a.codim = 1) → (∀ a ∈ rest.dropLast, a.codim = 1) → List.Forall₂ Keeps rest rest' →
    (∀ e ∈ compTerms d pre rest rest', e.WF) ∧ (compTerms d pre rest rest').map codim = rest.map codim := by
  intro pre rest
  induction rest generalizing pre with
  | nil => intro rest' _ _ _ _ h; cases h; simp [compTerms]
  | cons a rest ih =>
    intro rest' hp hr hpre hrc h
    cases h with
    | cons ha hrest =>
      rename_i a' rest'
      rw [compTerms]
      have hterm : (expr d a.codim .comp (pre ++ [a'])).WF := by
        rw [WF, wfs_iff]
        refine ⟨(hr a (by simp)).pos, ?_, pre.map codim, by simp [ha.2], ?_⟩
        · intro x hx
          rcases List.mem_append.mp hx with hx | hx
          · exact hp x hx
          · rw [List.mem_singleton.mp hx]; exact ha.1
        · intro x hx
          obtain ⟨y, hy, rfl⟩ := List.mem_map.mp hx
          exact hpre y hy
      cases rest with
      | nil =>
        cases hrest
        simp only [compTerms, List.mem_singleton, forall_eq, List.map_cons, List.map_nil]
        exact ⟨hterm, rfl⟩
      | cons b rest =>
        have := ih (pre := pre ++ [a]) (rest' := rest') (by
            intro x hx
            rcases List.mem_append.mp hx with hx | hx
            · exact hp x hx
            · rw [List.mem_singleton.mp hx]; exact hr a (by simp)) (fun x hx => hr x (by simp only [List.mem_cons] at hx ⊢; exact .inr hx)) (by
            intro x hx
            rcases List.mem_append.mp hx with hx | hx
            · exact hpre x hx
            · rw [List.mem_singleton.mp hx]; exact hrc a (by simp)) (fun x hx => hrc x (by simp [hx])) hrest
        refine ⟨?_, ?_⟩
        · intro e he
          rcases List.mem_cons.mp he with rfl | he
          · exact hterm
          · exact this.1 e he
        · rw [List.map_cons, this.2]; rfl

theorem comp_codims {c : ℕ} {args : List Fn} (h : Fits .comp c (args.map codim)) :
    ∃ init last, args = init ++ [last] ∧ last.codim = c ∧ ∀ a ∈ init, a.codim = 1 := by
  obtain ⟨i, hi, h1⟩ := h
  rcases List.eq_nil_or_concat args with rfl | ⟨init, last, rfl⟩
  · simp at hi
  · rw [List.concat_eq_append, List.map_append, List.map_cons, List.map_nil] at hi
    rw [List.concat_eq_append]
    obtain ⟨e1, e2⟩ := List.append_inj' hi rfl
    subst e1
    simp only [List.cons.injEq, and_true] at e2
    exact ⟨init, last, rfl, e2, fun a ha => h1 _ (List.mem_map_of_mem ha)⟩

theorem keeps_firstDerivComp {d : ℝ × ℝ} {c : ℕ} {args ds : List Fn} {r : Fn} (hw : (expr d c .comp args).WF)
    (hds : List.Forall₂ Keeps args ds) (h : firstDerivComp args ds = .ok r) : Keeps (expr d c .comp args) r := by
  rw [WF, wfs_iff] at hw
  obtain ⟨hc, hwf, hfit⟩ := hw
  obtain ⟨init, last, hargs, hlast, hinit⟩ := comp_codims hfit
  cases hds with
  | nil => simp [firstDerivComp] at h
  | cons ha hrest =>
    rename_i a a' rest rest'
    simp only [firstDerivComp] at h
    injection h with h
    subst h
    have hgl : (a :: rest).getLast (by simp) = last := by simp only [hargs, List.getLast_append_singleton]
    rw [hgl, hlast]
    refine ⟨?_, rfl⟩
    cases init with
    | nil =>
      simp only [List.nil_append, List.cons.injEq] at hargs
      obtain ⟨rfl, rfl⟩ := hargs
      cases hrest
      simp only [compTerms, List.reverse_nil, List.nil_append]
      rw [WF, wfs_iff]
      exact ⟨hc, by simpa using ha.1, [], by simp [ha.2, hlast], by simp⟩
    | cons b init =>
      simp only [List.cons_append, List.cons.injEq] at hargs
      obtain ⟨rfl, rfl⟩ := hargs
      have hm := compTerms_wf (d := a.dom) (pre := [a]) (by simpa using hwf a (by simp)) (fun x hx => hwf x (by simp only [List.mem_cons]; exact .inr hx))
        (by simpa using hinit a (by simp)) (by
          intro x hx
          rw [List.dropLast_concat] at hx
          exact hinit x (by simp [hx])) hrest
      rw [WF, wfs_iff]
      refine ⟨hc, ?_, (init.map codim).reverse ++ [a'.codim], ?_, ?_⟩
      · intro x hx
        rcases List.mem_append.mp hx with hx | hx
        · exact hm.1 x (List.mem_reverse.mp hx)
        · rw [List.mem_singleton.mp hx]; exact ha.1
      · rw [List.map_append, List.map_reverse, hm.2]
        simp [hlast]
      · intro x hx
        simp only [List.mem_append, List.mem_reverse, List.mem_singleton] at hx
        rcases hx with hx | rfl
        · obtain ⟨y, hy, rfl⟩ := List.mem_map.mp hx
          exact hinit y (by simp [hy])
        · rw [ha.2]; exact hinit a (by simp)

theorem add_ok {f g r : Fn} (h : add f g = .ok r) : sameDomain f g ∧ f.codim = g.codim ∧ r = expr f.dom f.codim .sum (splice .sum f ++ splice .sum g) := by
  unfold add at h
  split_ifs at h with h1 h2
  injection h with h
  exact ⟨h1, not_ne_iff.mp h2, h.symm⟩

theorem wf_add {f g r : Fn} (hf : f.WF) (hg : g.WF) (h : add f g = .ok r) : r.WF := by
  obtain ⟨-, hc, rfl⟩ := add_ok h
  exact wf_sum hf hg hc _

theorem keeps_firstDerivDot {d : ℝ × ℝ} {f1 f2 f1' f2' r : Fn} (hw : (dot d f1 f2).WF) (h1 : Keeps f1 f1') (h2 : Keeps f2 f2')
    (h : firstDerivDot f1 f2 f1' f2' = .ok r) : Keeps (dot d f1 f2) r := by
  rw [WF] at hw
  unfold firstDerivDot at h
  simp only [bind_ok] at h
  obtain ⟨a, ha, b, hb, h⟩ := h
  refine ⟨wf_add (wf_mkDot hw.2.1 h1.1 ha) (wf_mkDot hw.1 h2.1 hb) h, ?_⟩
  obtain ⟨-, -, rfl⟩ := add_ok h
  change a.codim = 1
  unfold mkDot at ha
  split_ifs at ha
  injection ha with ha
  subst ha
  rfl

theorem forall₂_keeps {P : Fn → Fn → Prop} {l l' : List Fn} (h : List.Forall₂ P l l') (hl : ∀ a ∈ l, a.WF)
    (hk : ∀ a ∈ l, ∀ a', a.WF → P a a' → Keeps a a') : List.Forall₂ Keeps l l' := by
  induction h with
  | nil => exact .nil
  | cons h hs ih =>
    exact .cons (hk _ (by simp) _ (hl _ (by simp)) h) (ih (fun a ha => hl a (by simp [ha])) fun a ha => hk a (by simp [ha]))

theorem keeps_d1 (f : Fn) : ∀ f', f.WF → f.d1 = .ok f' → Keeps f f' := by
  induction f using ind with
  | hconst d v => intro f' hw h; rw [d1] at h; injection h with h; subst h; exact keeps_constDeriv d v 1 hw
  | hdil d c => intro f' hw h; rw [d1] at h; injection h with h; subst h; exact keeps_dilDeriv d c 1 _ rfl
  | hident d => intro f' hw h; rw [d1] at h; injection h with h; subst h; exact keeps_dilDeriv d 1 1 _ rfl
  | hexp d => intro f' hw h; rw [d1] at h; injection h with h; subst h; exact ⟨hw, rfl⟩
  | hcos d => intro f' hw h; rw [d1] at h; injection h with h; subst h; exact keeps_cosDeriv d 1
  | hsin d => intro f' hw h; rw [d1] at h; injection h with h; subst h; exact keeps_sinDeriv d 1
  | hpoly d a =>
    intro f' hw h
    rw [d1, bind_ok] at h
    obtain ⟨b, -, h⟩ := h
    rw [pure_ok] at h; subst h; exact ⟨by simp [WF], rfl⟩
  | huser d c F => intro f' hw h; rw [d1] at h; injection h with h; subst h; exact ⟨by rw [WF] at hw ⊢; exact hw, rfl⟩
  | hgspl g =>
    intro f' hw h
    rw [d1, bind_ok] at h
    obtain ⟨b, hb, h⟩ := h
    rw [pure_ok] at h; subst h; exact keeps_gspl hw hb
  | hdot d f1 f2 h1 h2 =>
    intro f' hw h
    rw [d1] at h
    simp only [bind_ok] at h
    obtain ⟨a, ha, b, hb, h⟩ := h
    have hw' := hw
    rw [WF] at hw'
    exact keeps_firstDerivDot hw (h1 a hw'.1 ha) (h2 b hw'.2.1 hb) h
  | hexpr d c ty args hargs =>
    intro f' hw h
    have hwf : ∀ a ∈ args, a.WF := by rw [WF, wfs_iff] at hw; exact hw.2.1
    have hk : ∀ ds, d1s args = .ok ds → List.Forall₂ Keeps args ds := by
      intro ds hds
      rw [d1s_eq] at hds
      exact forall₂_keeps (mapM_forall₂ hds) hwf fun a ha a' => hargs a ha a'
    rw [d1.eq_def] at h
    cases ty <;> simp only [bind_ok] at h <;> obtain ⟨ds, hds, h⟩ := h
    · exact keeps_derivLin hw (by simp) (hk ds hds) h
    · exact keeps_firstDerivMul hw (hk ds hds) h
    · exact keeps_firstDerivComp hw (hk ds hds) h
    · exact keeps_derivLin hw (by simp) (hk ds hds) h
    · exact keeps_derivLin hw (by simp) (hk ds hds) h
    · exact keeps_derivLin hw (by simp) (hk ds hds) h

theorem keeps_iterD1 : ∀ (n : ℕ) (f f' : Fn), f.WF → iterD1 n f = .ok f' → Keeps f f' := by
  intro n
  induction n with
  | zero => intro f f' hw h; rw [iterD1] at h; injection h with h; subst h; exact ⟨hw, rfl⟩
  | succ n ih =>
    intro f f' hw h
    rw [iterD1, bind_ok] at h
    obtain ⟨g, hg, h⟩ := h
    have h1 := keeps_d1 f g hw hg
    have h2 := ih g f' h1.1 h
    exact ⟨h2.1, h2.2.trans h1.2⟩

theorem keeps_deriv (f : Fn) : ∀ n f', f.WF → f.deriv n = .ok f' → Keeps f f' := by
  induction f using ind with
  | hconst d v => intro n f' hw h; rw [deriv] at h; injection h with h; subst h; exact keeps_constDeriv d v n hw
  | hdil d c => intro n f' hw h; rw [deriv] at h; injection h with h; subst h; exact keeps_dilDeriv d c n _ rfl
  | hident d => intro n f' hw h; rw [deriv] at h; injection h with h; subst h; exact keeps_dilDeriv d 1 n _ rfl
  | hexp d => intro n f' hw h; rw [deriv] at h; injection h with h; subst h; exact ⟨hw, rfl⟩
  | hcos d => intro n f' hw h; rw [deriv] at h; injection h with h; subst h; exact keeps_cosDeriv d n
  | hsin d => intro n f' hw h; rw [deriv] at h; injection h with h; subst h; exact keeps_sinDeriv d n
  | hpoly d a =>
    intro n f' hw h
    rw [deriv, bind_ok] at h
    obtain ⟨b, -, h⟩ := h
    rw [pure_ok] at h; subst h; exact ⟨by simp [WF], rfl⟩
  | huser d c F => intro n f' hw h; rw [deriv] at h; injection h with h; subst h; exact ⟨by rw [WF] at hw ⊢; exact hw, rfl⟩
  | hgspl g =>
    intro n f' hw h
    rw [deriv, bind_ok] at h
    obtain ⟨b, hb, h⟩ := h
    rw [pure_ok] at h; subst h; exact keeps_gspl hw hb
  | hdot d f1 f2 h1 h2 =>
    intro n f' hw h
    cases n with
    | zero => rw [deriv] at h; injection h with h; subst h; exact ⟨wf_wrap hw, rfl⟩
    | succ n =>
      rw [deriv] at h
      simp only [bind_ok] at h
      obtain ⟨a, ha, b, hb, c, hc, h⟩ := h
      have hw' := hw
      rw [WF] at hw'
      have k1 := keeps_firstDerivDot hw (keeps_d1 f1 a hw'.1 ha) (keeps_d1 f2 b hw'.2.1 hb) hc
      have k2 := keeps_iterD1 n c f' k1.1 h
      exact ⟨k2.1, k2.2.trans k1.2⟩
  | hexpr d c ty args hargs =>
    intro n f' hw h
    have hwf : ∀ a ∈ args, a.WF := by rw [WF, wfs_iff] at hw; exact hw.2.1
    have hk : ∀ ds, d1s args = .ok ds → List.Forall₂ Keeps args ds := by
      intro ds hds
      rw [d1s_eq] at hds
      exact forall₂_keeps (mapM_forall₂ hds) hwf fun a ha a' => keeps_d1 a a'
    have hkn : ∀ ds, derivs args n = .ok ds → List.Forall₂ Keeps args ds := by
      intro ds hds
      rw [derivs_eq] at hds
      exact forall₂_keeps (mapM_forall₂ hds) hwf fun a ha a' => hargs a ha n a'
    rw [deriv.eq_def] at h
    cases ty with
    | mul =>
      cases n with
      | zero =>
        cases args with
        | nil => simp at h
        | cons a rest =>
          dsimp only at h
          injection h with h
          subst h
          have hw' := hw
          rw [WF] at hw'
          obtain ⟨_, hcs, -⟩ := hw'.2.2
          simp only [List.map_cons, List.cons.injEq] at hcs
          obtain ⟨rfl, -⟩ := hcs
          exact ⟨by rw [WF] at hw ⊢; exact hw, rfl⟩
      | succ n =>
        simp only [bind_ok] at h
        obtain ⟨ds, hds, g, hg, h⟩ := h
        have k1 := keeps_firstDerivMul hw (hk ds hds) hg
        have k2 := keeps_iterD1 n g f' k1.1 h
        exact ⟨k2.1, k2.2.trans k1.2⟩
    | comp =>
      cases n with
      | zero =>
        cases args with
        | nil => simp at h
        | cons a rest =>
          dsimp only at h
          injection h with h
          subst h
          have hw' := hw
          rw [WF] at hw'
          obtain ⟨init, last, e, hlast, -⟩ := comp_codims hw'.2.2
          have hgl : (a :: rest).getLast (by simp) = last := by simp only [e, List.getLast_append_singleton]
          rw [hgl, hlast]
          exact ⟨by rw [WF] at hw ⊢; exact hw, rfl⟩
      | succ n =>
        simp only [bind_ok] at h
        obtain ⟨ds, hds, g, hg, h⟩ := h
        have k1 := keeps_firstDerivComp hw (hk ds hds) hg
        have k2 := keeps_iterD1 n g f' k1.1 h
        exact ⟨k2.1, k2.2.trans k1.2⟩
    | sum => simp only [bind_ok] at h; obtain ⟨ds, hds, h⟩ := h; exact keeps_derivLin hw (by simp) (hkn ds hds) h
    | concat => simp only [bind_ok] at h; obtain ⟨ds, hds, h⟩ := h; exact keeps_derivLin hw (by simp) (hkn ds hds) h
    | unique => simp only [bind_ok] at h; obtain ⟨ds, hds, h⟩ := h; exact keeps_derivLin hw (by simp) (hkn ds hds) h
    | neg => simp only [bind_ok] at h; obtain ⟨ds, hds, h⟩ := h; exact keeps_derivLin hw (by simp) (hkn ds hds) h

theorem mul_ok {ov : Ov} {f g r : Fn} (h : mul ov f g = .ok r) : sameDomain f g ∧ (f.codim ≤ 1 ∨ g.codim ≤ 1) ∧
    ∃ d, (d = f.dom ∨ d = g.dom) ∧ r = if g.codim ≤ f.codim then expr d f.codim .mul (splice .mul f ++ splice .mul g)
      else expr d g.codim .mul (splice .mul g ++ splice .mul f) := by
  unfold mul at h
  by_cases h1 : sameDomain f g
  swap
  · rw [if_pos h1] at h; cases h
  rw [if_neg (not_not.mpr h1)] at h
  by_cases h2 : 1 < f.codim ∧ 1 < g.codim
  · rw [if_pos h2] at h; cases h
  rw [if_neg h2] at h
  dsimp only at h
  injection h with h
  refine ⟨h1, by omega, if ov.this = true ∨ ov.that = true then f.dom else (if g.codim ≤ f.codim then f else g).dom, ?_, ?_⟩
  · split_ifs <;> simp
  · rw [← h]
    split_ifs <;> rfl

theorem wf_mulOp {ov : Ov} {f g r : Fn} (hf : f.WF) (hg : g.WF) (h : mul ov f g = .ok r) : r.WF := by
  obtain ⟨-, hc, d, -, rfl⟩ := mul_ok h
  have := hf.pos
  have := hg.pos
  split_ifs with hle
  · exact wf_mul hf hg (by omega) d
  · exact wf_mul hg hf (by omega) d

/-- Every object built with the interface is well-formed. -/
theorem wf_of_built {f : Fn} (h : Built f) : f.WF := by
  induction h with
  | const d v hv => rw [WF]; exact hv
  | dil d c => simp [WF]
  | ident d => simp [WF]
  | exp d => simp [WF]
  | cos d => simp [WF]
  | sin d => simp [WF]
  | poly d a => simp [WF]
  | user d c F hc => rw [WF]; exact hc
  | gspl g hg => rw [WF]; exact hg
  | toExpr _ ih => exact wf_toExpr ih
  | wrap _ ih => exact wf_wrap ih
  | add _ _ h ih1 ih2 => exact wf_add ih1 ih2 h
  | neg _ hu ih => exact wf_neg ih hu
  | sub _ _ hu h ih1 ih2 =>
    unfold sub at h
    split_ifs at h
    exact wf_add ih1 (wf_neg ih2 hu) h
  | mul ov _ _ h ih1 ih2 => exact wf_mulOp ih1 ih2 h
  | smul k _ h ih => exact wf_mulOp (wf_wrap (by rw [WF]; simp)) ih h
  | compose ov _ _ h ih1 ih2 =>
    rename_i f g r _ _
    unfold compose at h
    by_cases hc : 1 < g.codim
    · rw [if_pos hc] at h; cases h
    rw [if_neg hc] at h
    dsimp only at h
    injection h with h
    subst h
    have := ih2.pos
    exact wf_compose ih1 ih2 (by omega) _
  | concat ov _ _ h ih1 ih2 =>
    unfold concat at h
    split_ifs at h with hc
    all_goals
      injection h with h
      subst h
      exact wf_concat ih1 ih2 (not_ne_iff.mp hc) _
  | dot ov _ _ h ih1 ih2 =>
    unfold dotOp at h
    split_ifs at h
    · exact wf_mkDot ih2 ih1 h
    · exact wf_mkDot ih1 ih2 h
  | addInPlace _ _ hc ih1 ih2 => exact wf_addInPlace ih1 ih2 hc
  | mulInPlace _ _ hc ih1 ih2 => exact wf_mulInPlace ih1 ih2 hc
  | derivate n _ h ih =>
    unfold derivate at h
    rw [bind_ok] at h
    obtain ⟨e, he, h⟩ := h
    rw [pure_ok] at h
    subst h
    have hk := keeps_deriv _ n e ih he
    rw [WF, wfs_iff]
    exact ⟨ih.pos, by simpa using hk.1, by simp [Fits, hk.2]⟩
  | deriv n _ h ih => exact (keeps_deriv _ n _ ih h).1

end GSplines.Fn
