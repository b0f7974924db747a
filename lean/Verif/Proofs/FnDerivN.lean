import Verif.Proofs.FnDeriv
import Mathlib.Analysis.Calculus.ContDiff.Basic
import Mathlib.Analysis.Calculus.ContDiff.Deriv
import Mathlib.Analysis.Calculus.IteratedDeriv.Lemmas

/-!
# Derivatives of all orders
-/

namespace GSplines.Fn

open GSplines Spec Filter Topology

/-! ## Smoothness holds around a point -/

theorem smoothAlong_open : ∀ {l : List Fn}, (∀ a ∈ l, Good a) → (∀ a ∈ l, ∀ t, Smooth a t → ∀ᶠ s in 𝓝 t, Smooth a s) →
    (∀ init z, l = init ++ [z] → ∀ a ∈ init, a.codim = 1) → ∀ {t}, SmoothAlong l t → ∀ᶠ s in 𝓝 t, SmoothAlong l s := by
  intro l
  induction l with
  | nil => intro _ _ _ t _; exact .of_forall fun s => smoothAlong_nil
  | cons a l ih =>
    intro hg ho hc t hs
    rw [smoothAlong_cons] at hs
    have h1 := ho a (by simp) t hs.1
    have h2 := ih (fun b hb => hg b (by simp [hb])) (fun b hb => ho b (by simp [hb]))
      (fun init z e b hb => hc (a :: init) z (by rw [e]; rfl) b (by simp [hb])) hs.2
    cases l with
    | nil =>
      filter_upwards [h1] with s hs'
      exact smoothAlong_cons.mpr ⟨hs', smoothAlong_nil⟩
    | cons b l =>
      have hca : a.codim = 1 := by
        obtain ⟨init, z, e⟩ : ∃ init z, b :: l = init ++ [z] := ⟨_, _, (List.dropLast_append_getLast (by simp)).symm⟩
        exact hc (a :: init) z (by rw [e]; rfl) a (by simp)
      obtain ⟨a', -, st⟩ := d1_step (hg a (by simp))
      have hcont := ((st.2.2.2 t hs.1).2 0 (by omega)).continuousAt
      filter_upwards [h1, hcont.eventually h2] with s e1 e2
      exact smoothAlong_cons.mpr ⟨e1, e2⟩

theorem all_open {l : List Fn} (h : ∀ a ∈ l, ∀ t, Smooth a t → ∀ᶠ s in 𝓝 t, Smooth a s) {t : ℝ} (hs : ∀ a ∈ l, Smooth a t) :
    ∀ᶠ s in 𝓝 t, ∀ a ∈ l, Smooth a s := by
  induction l with
  | nil => simp
  | cons a l ih =>
    filter_upwards [h a (by simp) t (hs a (by simp)), ih (fun b hb => h b (by simp [hb])) (fun b hb => hs b (by simp [hb]))] with s e1 e2 b hb
    rcases List.mem_cons.mp hb with rfl | hb
    · exact e1
    · exact e2 b hb

theorem smooth_open {f : Fn} (h : Good f) : ∀ t, Smooth f t → ∀ᶠ s in 𝓝 t, Smooth f s := by
  induction h with
  | const d v => intro t _; exact .of_forall fun s => .const _ _ _
  | dil d c => intro t _; exact .of_forall fun s => .dil _ _ _
  | ident d => intro t _; exact .of_forall fun s => .ident _ _
  | exp d => intro t _; exact .of_forall fun s => .exp _ _
  | cos d => intro t _; exact .of_forall fun s => .cos _ _
  | sin d => intro t _; exact .of_forall fun s => .sin _ _
  | poly d a ha => intro t _; exact .of_forall fun s => .poly _ _ _
  | user d c F =>
    intro t hs
    cases hs with
    | user _ _ _ _ h => exact h.eventually_nhds.mono fun s hs => .user _ _ _ _ hs
  | gspl g hb hc hp hd =>
    intro t hs
    cases hs with
    | gspl _ _ i h => exact h.eventually_nhds.mono fun s hs => .gspl _ _ i hs
  | dot d f g hgf hgg hc hdf hdg ihf ihg =>
    intro t hs
    cases hs with
    | dot _ _ _ _ h1 h2 => filter_upwards [ihf t h1, ihg t h2] with s e1 e2; exact .dot _ _ _ _ e1 e2
  | expr d c ty args hg hs ih =>
    intro t hsm
    cases hsm with
    | sum _ _ _ _ h => exact (all_open ih h).mono fun s hs => .sum _ _ _ _ hs
    | mul _ _ _ _ h => exact (all_open ih h).mono fun s hs => .mul _ _ _ _ hs
    | unique _ _ _ _ h => exact (all_open ih h).mono fun s hs => .unique _ _ _ _ hs
    | neg _ _ _ _ h => exact (all_open ih h).mono fun s hs => .neg _ _ _ _ hs
    | concat _ _ _ _ a ha h1 h2 h =>
      filter_upwards [ih a ha t h, Ioo_mem_nhds h1 h2] with s e1 e2
      exact .concat _ _ _ _ a ha e2.1 e2.2 e1
    | comp _ _ _ _ h =>
      obtain ⟨-, init, z, rfl, -, hci⟩ := hs
      refine (smoothAlong_open hg ih ?_ h).mono fun s hs => .comp _ _ _ _ hs
      intro init' z' e
      have := (List.append_inj' e rfl).1
      rw [← this]; exact hci

/-! ## Iterated derivation -/

/-- `f'` is the `n`-th derivative of `f`. -/
def NStep (n : ℕ) (f f' : Fn) : Prop :=
  Good f' ∧ f'.dom = f.dom ∧ f'.codim = f.codim ∧ ∀ t, Smooth f t → Smooth f' t ∧ ∀ k < f.codim, val f' k t = iteratedDeriv n (val f k) t

theorem deriv_nhds {f f' : Fn} (hg : Good f) (h : Step f f') {t : ℝ} (hs : Smooth f t) {k : ℕ} (hk : k < f.codim) :
    val f' k =ᶠ[𝓝 t] _root_.deriv (val f k) := by
  filter_upwards [smooth_open hg t hs] with s hs
  exact ((h.2.2.2 s hs).2 k hk).deriv.symm

theorem iterD1_nstep : ∀ (n : ℕ) {f : Fn}, Good f → ∃ f', iterD1 n f = .ok f' ∧ NStep n f f' := by
  intro n
  induction n with
  | zero => intro f h; exact ⟨f, rfl, h, rfl, rfl, fun t hs => ⟨hs, fun k _ => by simp⟩⟩
  | succ n ih =>
    intro f h
    obtain ⟨g, hg, st⟩ := d1_step h
    obtain ⟨f', hf', g1, g2, g3, g4⟩ := ih st.1
    refine ⟨f', by rw [iterD1, hg]; exact hf', g1, g2.trans st.2.1, g3.trans st.2.2.1, fun t hs => ?_⟩
    obtain ⟨s1, s2⟩ := st.2.2.2 t hs
    obtain ⟨e1, e2⟩ := g4 t s1
    refine ⟨e1, fun k hk => ?_⟩
    rw [e2 k (by rw [st.2.2.1]; exact hk), iteratedDeriv_succ', (deriv_nhds h st hs hk).iteratedDeriv_eq]

/-- The values of an object are smooth functions of time at its smooth points. -/
theorem contDiffAt_val (n : ℕ) : ∀ {f : Fn}, Good f → ∀ {t : ℝ}, Smooth f t → ∀ {k : ℕ}, k < f.codim → ContDiffAt ℝ n (val f k) t := by
  induction n with
  | zero =>
    intro f h t hs k hk
    obtain ⟨g, -, st⟩ := d1_step h
    rw [CharP.cast_eq_zero, contDiffAt_zero]
    obtain ⟨u, hu, hu'⟩ := (smooth_open h t hs).exists_mem
    exact ⟨u, hu, fun s hsu => ((st.2.2.2 s (hu' s hsu)).2 k hk).continuousAt.continuousWithinAt⟩
  | succ n ih =>
    intro f h t hs k hk
    obtain ⟨g, -, st⟩ := d1_step h
    rw [show ((n + 1 : ℕ) : WithTop ℕ∞) = (n : WithTop ℕ∞) + 1 by norm_cast, contDiffAt_succ_iff_hasFDerivAt]
    refine ⟨fun s => ContinuousLinearMap.toSpanSingleton ℝ (val g k s), ?_, ?_⟩
    · obtain ⟨u, hu, hu'⟩ := (smooth_open h t hs).exists_mem
      exact ⟨u, hu, fun s hsu => ((st.2.2.2 s (hu' s hsu)).2 k hk).hasFDerivAt⟩
    · have := ih st.1 (st.2.2.2 t hs).1 (k := k) (by rw [st.2.2.1]; exact hk)
      exact (ContinuousLinearMap.toSpanSingletonCLE (𝕜 := ℝ) (E := ℝ)).contDiff.contDiffAt.comp t this

/-! ## `deriv(n)` of the leaves -/

theorem nstep_scalar {n : ℕ} {f f' : Fn} {F F' : ℝ → ℝ} (hg : Good f') (hd : f'.dom = f.dom) (hc : f.codim = 1) (hc' : f'.codim = 1)
    (hs : ∀ t, Smooth f' t) (hF : val f 0 = F) (hF' : val f' 0 = F') (h : iteratedDeriv n F = F') : NStep n f f' := by
  refine ⟨hg, hd, by rw [hc, hc'], fun t _ => ⟨hs t, fun k hk => ?_⟩⟩
  have : k = 0 := by omega
  subst this
  rw [hF, hF', h]

theorem nstep_const (n : ℕ) (d : ℝ × ℝ) (v : List ℝ) : NStep n (const d v) (constDeriv d v n) := by
  unfold constDeriv
  split_ifs with hn
  · subst hn
    exact ⟨.const _ _, rfl, rfl, fun t _ => ⟨.const _ _ _, fun k _ => by simp⟩⟩
  · refine ⟨.const _ _, rfl, by simp [codim], fun t _ => ⟨.const _ _ _, fun k hk => ?_⟩⟩
    have hk : k < v.length := hk
    rw [(val_const d v).2 k hk, (val_const d _).2 k (by simpa using hk), iteratedDeriv_const]
    simp [List.getD_eq_getElem?_getD, hk, hn]

theorem iteratedDeriv_lin (c : ℝ) (n : ℕ) : iteratedDeriv (n + 2) (fun t : ℝ => c * t) = fun _ => 0 := by
  have h1 : _root_.deriv (fun t : ℝ => c * t) = fun _ => c := by
    funext t
    simpa using ((hasDerivAt_id t).const_mul c).deriv
  rw [iteratedDeriv_succ', h1]
  funext t
  rw [iteratedDeriv_const]; simp

theorem nstep_dil {f : Fn} (n : ℕ) (d : ℝ × ℝ) (c : ℝ) (hd : f.dom = d) (hc : f.codim = 1) (hv : val f 0 = fun t => c * t) :
    NStep n f (dilDeriv d c n) := by
  unfold dilDeriv
  split_ifs with h0 h1
  · subst h0
    refine nstep_scalar (F := fun t => c * t) (F' := fun t => c * t) (good_unique (a := dil d c) (.dil _ _)) hd.symm hc rfl
      (fun t => smooth_unique (.dil _ _ _)) hv ?_ (by simp)
    rw [show val (expr d 1 .unique [dil d c]) = _ from val_unique d (dil d c)]
    exact (val_dil d c).2
  · subst h1
    refine nstep_scalar (F := fun t => c * t) (F' := fun t => c) (good_unique (a := const d [c]) (.const _ _)) hd.symm hc rfl
      (fun t => smooth_unique (.const _ _ _)) hv ?_ ?_
    · rw [show val (expr d 1 .unique [const d [c]]) = _ from val_unique d (const d [c])]
      exact val_const1 d c
    · rw [iteratedDeriv_one]
      funext t
      simp
  · obtain ⟨m, rfl⟩ : ∃ m, n = m + 2 := ⟨n - 2, by omega⟩
    refine nstep_scalar (F := fun t => c * t) (F' := fun t => 0) (good_unique (a := const d [0]) (.const _ _)) hd.symm hc rfl
      (fun t => smooth_unique (.const _ _ _)) hv ?_ (iteratedDeriv_lin c m)
    rw [show val (expr d 1 .unique [const d [0]]) = _ from val_unique d (const d [0])]
    exact val_const1 d 0

theorem tower_exp : Tower (fun _ => Real.exp) := fun _ t => Real.hasDerivAt_exp t

theorem nstep_exp (n : ℕ) (d : ℝ × ℝ) : NStep n (exp d) (exp d) :=
  nstep_scalar (.exp d) rfl rfl rfl (fun t => .exp _ t) (val_exp d).2 (val_exp d).2 (tower_exp.iteratedDeriv n)

/-- The derivatives of the cosine. -/
noncomputable def cosN (n : ℕ) (t : ℝ) : ℝ :=
  if n % 4 = 0 then Real.cos t else if n % 4 = 1 then - Real.sin t else if n % 4 = 2 then - Real.cos t else Real.sin t

theorem tower_cos : Tower cosN := by
  intro n t
  unfold cosN
  have : n % 4 = 0 ∨ n % 4 = 1 ∨ n % 4 = 2 ∨ n % 4 = 3 := by omega
  rcases this with h | h | h | h
  · simp only [h, Nat.add_mod n 1 4]; norm_num; exact Real.hasDerivAt_cos t
  · simp only [h, Nat.add_mod n 1 4]; norm_num; exact (Real.hasDerivAt_sin t).neg
  · simp only [h, Nat.add_mod n 1 4]; norm_num; exact (Real.hasDerivAt_cos t).neg.congr_deriv (neg_neg _)
  · simp only [h, Nat.add_mod n 1 4]; norm_num; exact Real.hasDerivAt_sin t

theorem iteratedDeriv_cosN (n : ℕ) : iteratedDeriv n Real.cos = cosN n := by
  have := tower_cos.iteratedDeriv n
  rwa [show cosN 0 = Real.cos from funext fun t => by simp [cosN]] at this

theorem iteratedDeriv_sinN (n : ℕ) : iteratedDeriv n Real.sin = cosN (n + 3) := by
  have h : Tower (fun n => cosN (n + 3)) := fun n t => tower_cos (n + 3) t
  have := h.iteratedDeriv n
  rwa [show cosN (0 + 3) = Real.sin from funext fun t => by simp [cosN]] at this

theorem val_negSin (d : ℝ × ℝ) : val (expr d 1 .neg [sin d]) 0 = fun t => - Real.sin t := by
  have := (val_neg d (val_sin d).1).2 0 (by change 0 < 1; omega)
  rw [(val_sin d).2] at this
  exact this

theorem val_negCos (d : ℝ × ℝ) : val (expr d 1 .neg [cos d]) 0 = fun t => - Real.cos t := by
  have := (val_neg d (val_cos d).1).2 0 (by change 0 < 1; omega)
  rw [(val_cos d).2] at this
  exact this

theorem val_uniqSin (d : ℝ × ℝ) : val (expr d 1 .unique [sin d]) 0 = fun t => Real.sin t := by
  rw [show val (expr d 1 .unique [sin d]) = _ from val_unique d (sin d)]
  exact (val_sin d).2

theorem val_uniqCos (d : ℝ × ℝ) : val (expr d 1 .unique [cos d]) 0 = fun t => Real.cos t := by
  rw [show val (expr d 1 .unique [cos d]) = _ from val_unique d (cos d)]
  exact (val_cos d).2

theorem nstep_cos (n : ℕ) (d : ℝ × ℝ) : NStep n (cos d) (cosDeriv d n) := by
  unfold cosDeriv
  split_ifs with h0 h1 h2
  · refine nstep_scalar (good_unique (a := cos d) (.cos d)) rfl rfl rfl (fun t => smooth_unique (.cos _ t)) (val_cos d).2 (val_uniqCos d) ?_
    rw [iteratedDeriv_cosN]; funext t; simp [cosN, h0]
  · refine nstep_scalar (good_neg (a := sin d) (.sin d)) rfl rfl rfl (fun t => smooth_neg (.sin _ t)) (val_cos d).2 (val_negSin d) ?_
    rw [iteratedDeriv_cosN]; funext t; simp [cosN, h1]
  · refine nstep_scalar (good_neg (a := cos d) (.cos d)) rfl rfl rfl (fun t => smooth_neg (.cos _ t)) (val_cos d).2 (val_negCos d) ?_
    rw [iteratedDeriv_cosN]; funext t; simp [cosN, h2]
  · refine nstep_scalar (good_unique (a := sin d) (.sin d)) rfl rfl rfl (fun t => smooth_unique (.sin _ t)) (val_cos d).2 (val_uniqSin d) ?_
    rw [iteratedDeriv_cosN]; funext t; simp [cosN, h0, h1, h2]

theorem nstep_sin (n : ℕ) (d : ℝ × ℝ) : NStep n (sin d) (sinDeriv d n) := by
  unfold sinDeriv
  split_ifs with h0 h1 h2
  · refine nstep_scalar (good_unique (a := sin d) (.sin d)) rfl rfl rfl (fun t => smooth_unique (.sin _ t)) (val_sin d).2 (val_uniqSin d) ?_
    rw [iteratedDeriv_sinN]; funext t; simp [cosN, Nat.add_mod n 3 4, h0]
  · refine nstep_scalar (good_unique (a := cos d) (.cos d)) rfl rfl rfl (fun t => smooth_unique (.cos _ t)) (val_sin d).2 (val_uniqCos d) ?_
    rw [iteratedDeriv_sinN]; funext t; simp [cosN, Nat.add_mod n 3 4, h1]
  · refine nstep_scalar (good_neg (a := sin d) (.sin d)) rfl rfl rfl (fun t => smooth_neg (.sin _ t)) (val_sin d).2 (val_negSin d) ?_
    rw [iteratedDeriv_sinN]; funext t; simp [cosN, Nat.add_mod n 3 4, h2]
  · refine nstep_scalar (good_neg (a := cos d) (.cos d)) rfl rfl rfl (fun t => smooth_neg (.cos _ t)) (val_sin d).2 (val_negCos d) ?_
    have h3 : n % 4 = 3 := by omega
    rw [iteratedDeriv_sinN]; funext t; simp [cosN, Nat.add_mod n 3 4, h3]

theorem iteratedDeriv_psum (n : ℕ) (a : List ℝ) : iteratedDeriv n (psum 0 a) = psum 0 (polyStep^[n] a) := by
  have h : Tower (fun n => psum 0 (polyStep^[n] a)) := fun n t => by
    beta_reduce
    rw [Function.iterate_succ_apply']; exact psum_polyStep _ t
  exact h.iteratedDeriv n

theorem polyStep_iter_length (n : ℕ) (a : List ℝ) : (polyStep^[n] a).length = a.length - n := by
  induction n with
  | zero => rfl
  | succ n ih =>
    rw [Function.iterate_succ_apply', polyStep, List.length_mapIdx, List.length_tail, ih]; omega

theorem polyStep_nil (n : ℕ) : polyStep^[n] [] = [] := by
  have := polyStep_iter_length n []
  simpa using this

theorem polyLoop_spec (n : ℕ) : ∀ {a : List ℝ}, a ≠ [] → polyLoop n a ≠ [] ∧ ∀ t, psum 0 (polyLoop n a) t = psum 0 (polyStep^[n] a) t := by
  induction n with
  | zero => intro a ha; exact ⟨ha, fun t => rfl⟩
  | succ n ih =>
    intro a ha
    unfold polyLoop
    split_ifs with h
    · refine ⟨by simp, fun t => ?_⟩
      rw [Function.iterate_succ_apply, h, polyStep_nil]
      simp [psum]
    · rw [Function.iterate_succ_apply]
      exact ih h

theorem polyDeriv_spec (n : ℕ) {a : List ℝ} (ha : a ≠ []) :
    ∃ b, polyDeriv a n = .ok b ∧ b ≠ [] ∧ ∀ t, psum 0 b t = psum 0 (polyStep^[n] a) t := by
  unfold polyDeriv
  split_ifs with h0 h1
  · subst h0; exact ⟨a, rfl, ha, fun t => rfl⟩
  · refine ⟨[0], rfl, by simp, fun t => ?_⟩
    have : polyStep^[n] a = [] := by
      rw [← List.length_eq_zero_iff, polyStep_iter_length]; omega
    rw [this]
    simp [psum]
  · obtain ⟨h2, h3⟩ := polyLoop_spec n ha
    exact ⟨_, rfl, h2, h3⟩

theorem nstep_poly (n : ℕ) (d : ℝ × ℝ) {a : List ℝ} (ha : a ≠ []) : ∃ f', (poly d a).deriv n = .ok f' ∧ NStep n (poly d a) f' := by
  obtain ⟨b, hb, hne, hv⟩ := polyDeriv_spec n ha
  refine ⟨poly d b, by rw [deriv, hb]; rfl, ?_⟩
  refine nstep_scalar (.poly d b hne) rfl rfl rfl (fun t => .poly _ _ t) (val_poly d ha).2 (val_poly d hne).2 ?_
  have e : horner a = psum 0 a := funext fun t => horner_eq ha t
  rw [e, iteratedDeriv_psum]
  funext t
  rw [horner_eq hne, hv]

theorem iterD1_user (n : ℕ) (d : ℝ × ℝ) (c : ℕ) : ∀ F, iterD1 n (user d c F) = .ok (user d c fun m => F (m + n)) := by
  induction n with
  | zero => intro F; rfl
  | succ n ih =>
    intro F
    rw [iterD1, d1]
    change iterD1 n (user d c fun n => F (n + 1)) = _
    rw [ih]
    congr 2

theorem nstep_user (n : ℕ) (d : ℝ × ℝ) (c : ℕ) (F : ℕ → ℝ → ℕ → ℝ) : NStep n (user d c F) (user d c fun m => F (m + n)) := by
  obtain ⟨f', h1, h2⟩ := iterD1_nstep n (.user d c F)
  rw [iterD1_user] at h1
  injection h1 with h1
  rw [h1]; exact h2

/-! ## `deriv(n)` of expressions -/

theorem nstep_mem_left {n : ℕ} {l l' : List Fn} (h : List.Forall₂ (NStep n) l l') : ∀ a ∈ l, ∃ a' ∈ l', NStep n a a' := by
  induction h with
  | nil => simp
  | cons h _ ih =>
    intro a ha
    rcases List.mem_cons.mp ha with rfl | ha
    · exact ⟨_, by simp, h⟩
    · obtain ⟨a', h1, h2⟩ := ih a ha
      exact ⟨a', by simp [h1], h2⟩

theorem nstep_mem_right {n : ℕ} {l l' : List Fn} (h : List.Forall₂ (NStep n) l l') : ∀ a' ∈ l', ∃ a ∈ l, NStep n a a' := by
  induction h with
  | nil => simp
  | cons h _ ih =>
    intro a ha
    rcases List.mem_cons.mp ha with rfl | ha
    · exact ⟨_, by simp, h⟩
    · obtain ⟨a', h1, h2⟩ := ih a ha
      exact ⟨a', by simp [h1], h2⟩

theorem nstep_doms {n : ℕ} {l l' : List Fn} (h : List.Forall₂ (NStep n) l l') : l'.map dom = l.map dom := by
  induction h with
  | nil => rfl
  | cons h _ ih => rw [List.map_cons, List.map_cons, h.2.1, ih]

theorem iteratedDeriv_listSum {n : ℕ} {l l' : List Fn} (h : List.Forall₂ (NStep n) l l') {k : ℕ} {t : ℝ} (hg : ∀ a ∈ l, Good a)
    (hk : ∀ a ∈ l, k < a.codim) (hs : ∀ a ∈ l, Smooth a t) :
    ContDiffAt ℝ n (fun t => (l.map fun a => val a k t).sum) t ∧
      (l'.map fun a => val a k t).sum = iteratedDeriv n (fun t => (l.map fun a => val a k t).sum) t := by
  induction h with
  | nil =>
    refine ⟨by simpa using contDiffAt_const, ?_⟩
    simp only [List.map_nil, List.sum_nil, iteratedDeriv_const]
    simp
  | cons h _ ih =>
    rename_i a a' l l' _
    have h1 := (h.2.2.2 t (hs a (by simp))).2 k (hk a (by simp))
    have c1 := contDiffAt_val n (hg a (by simp)) (hs a (by simp)) (hk a (by simp))
    obtain ⟨c2, h2⟩ := ih (fun b hb => hg b (by simp [hb])) (fun b hb => hk b (by simp [hb])) (fun b hb => hs b (by simp [hb]))
    have e : (fun t => ((a :: l).map fun a => val a k t).sum) = val a k + fun t => (l.map fun a => val a k t).sum := by funext t; simp
    rw [e]
    refine ⟨c1.add c2, ?_⟩
    rw [iteratedDeriv_add c1 c2, List.map_cons, List.sum_cons, h1, h2]

theorem nstep_sum {n : ℕ} {d : ℝ × ℝ} {c : ℕ} {args ds : List Fn} (hg : ∀ a ∈ args, Good a) (hs : Shape d c .sum args)
    (h : List.Forall₂ (NStep n) args ds) : NStep n (expr d c .sum args) (expr d c .sum ds) := by
  obtain ⟨⟨a, rest, rfl, hd⟩, hc⟩ := hs
  have hg' : ∀ a' ∈ ds, Good a' := fun a' ha => by obtain ⟨_, _, h⟩ := nstep_mem_right h a' ha; exact h.1
  have hc' : ∀ a' ∈ ds, a'.codim = c := fun a' ha => by obtain ⟨a, ha, h⟩ := nstep_mem_right h a' ha; rw [h.2.2.1, hc a ha]
  have hne : ds ≠ [] := by rintro rfl; cases h
  refine ⟨.expr _ _ _ _ hg' ⟨?_, hc'⟩, rfl, rfl, fun t hsm => ?_⟩
  · cases h with
    | cons h _ => exact ⟨_, _, rfl, h.2.1.trans hd⟩
  · cases hsm with
    | sum _ _ _ _ hsm =>
      refine ⟨.sum _ _ _ _ fun a' ha => ?_, fun k hk => ?_⟩
      · obtain ⟨a, ha, h⟩ := nstep_mem_right h a' ha
        exact (h.2.2.2 t (hsm a ha)).1
      · have hk : k < c := hk
        rw [(val_sum d (by simp) (fun a ha => tot_of_good (hg a ha)) hc).2 k hk, (val_sum d hne (fun a ha => tot_of_good (hg' a ha)) hc').2 k hk]
        exact (iteratedDeriv_listSum h hg (fun a ha => by rw [hc a ha]; exact hk) hsm).2

theorem nstep_unique {n : ℕ} {d : ℝ × ℝ} {c : ℕ} {a a' : Fn} (hd : a.dom = d) (hc : a.codim = c) (h : NStep n a a') :
    NStep n (expr d c .unique [a]) (expr d c .unique [a']) := by
  subst hd hc
  refine ⟨?_, rfl, rfl, fun t hs => ?_⟩
  · rw [← h.2.1, ← h.2.2.1]; exact good_unique h.1
  · cases hs with
    | unique _ _ _ _ hs =>
      obtain ⟨h1, h2⟩ := h.2.2.2 t (hs a (by simp))
      refine ⟨smooth_unique h1, fun k hk => ?_⟩
      rw [val_unique]
      have e : val (expr a.dom a.codim .unique [a']) = val a' := by rw [← h.2.2.1]; exact val_unique _ _
      rw [e]; exact h2 k hk

theorem nstep_neg {n : ℕ} {d : ℝ × ℝ} {c : ℕ} {a a' : Fn} (hg : Good a) (hd : a.dom = d) (hc : a.codim = c) (h : NStep n a a') :
    NStep n (expr d c .neg [a]) (expr d c .neg [a']) := by
  subst hd hc
  refine ⟨?_, rfl, rfl, fun t hs => ?_⟩
  · rw [← h.2.1, ← h.2.2.1]; exact good_neg h.1
  · cases hs with
    | neg _ _ _ _ hs =>
      obtain ⟨h1, h2⟩ := h.2.2.2 t (hs a (by simp))
      refine ⟨smooth_neg h1, fun k hk => ?_⟩
      have hk : k < a.codim := hk
      rw [(val_neg a.dom (tot_of_good hg)).2 k hk]
      have e := (val_neg a.dom (tot_of_good h.1)).2 k (by rw [h.2.2.1]; exact hk)
      rw [h.2.2.1] at e
      rw [e]
      beta_reduce
      rw [h2 k hk]
      exact (iteratedDeriv_fun_neg n (val a k) t).symm

theorem nstep_concat {n : ℕ} {d : ℝ × ℝ} {c : ℕ} {args ds : List Fn} (hs : Shape d c .concat args) (h : List.Forall₂ (NStep n) args ds) :
    NStep n (expr d c .concat args) (expr d c .concat ds) := by
  obtain ⟨hp, hc⟩ := hs
  have hg' : ∀ a' ∈ ds, Good a' := fun a' ha => by obtain ⟨_, _, h⟩ := nstep_mem_right h a' ha; exact h.1
  have hc' : ∀ a' ∈ ds, a'.codim = c := fun a' ha => by obtain ⟨a, ha, h⟩ := nstep_mem_right h a' ha; rw [h.2.2.1, hc a ha]
  have hp' := pieces_congr (nstep_doms h) hp
  refine ⟨.expr _ _ _ _ hg' ⟨hp', hc'⟩, rfl, rfl, fun t hsm => ?_⟩
  cases hsm with
  | concat _ _ _ _ a ha h1 h2 hsa =>
    obtain ⟨a', ha', hst⟩ := nstep_mem_left h a ha
    obtain ⟨s1, s2⟩ := hst.2.2.2 t hsa
    refine ⟨.concat _ _ _ _ a' ha' (by rw [hst.2.1]; exact h1) (by rw [hst.2.1]; exact h2) s1, fun k hk => ?_⟩
    have hk : k < c := hk
    rw [val_concat d hp' hc' ha' (by rw [hst.2.1]; exact h1) (by rw [hst.2.1]; exact h2), (concat_nhds d hp hc ha h1 h2 k).iteratedDeriv_eq]
    exact s2 k (by rw [hc a ha]; exact hk)

theorem nstep_refl {f : Fn} (h : Good f) : NStep 0 f f := ⟨h, rfl, rfl, fun t hs => ⟨hs, fun k _ => by simp⟩⟩

theorem deriv_nstep {n : ℕ} {f : Fn} (h : Good f) (ho : OrderOk n f) : ∃ f', f.deriv n = .ok f' ∧ NStep n f f' := by
  induction h with
  | const d v => exact ⟨_, by rw [deriv], nstep_const n d v⟩
  | dil d c => exact ⟨_, by rw [deriv], nstep_dil n d c rfl rfl (val_dil d c).2⟩
  | ident d => exact ⟨_, by rw [deriv], nstep_dil n d 1 rfl rfl (by rw [(val_ident d).2]; simp)⟩
  | exp d => exact ⟨_, by rw [deriv], nstep_exp n d⟩
  | cos d => exact ⟨_, by rw [deriv], nstep_cos n d⟩
  | sin d => exact ⟨_, by rw [deriv], nstep_sin n d⟩
  | poly d a ha => exact nstep_poly n d ha
  | user d c F => exact ⟨_, by rw [deriv], nstep_user n d c F⟩
  | gspl g hb hc hp hd =>
    cases ho with
    | gspl _ ho =>
      obtain ⟨g', h, h1, h2, h3, h4⟩ := gspl_deriv hb hc hp hd ho
      exact ⟨gspl g', by rw [deriv, h]; rfl, h1, h2, h3, h4⟩
  | dot d f g hgf hgg hc hdf hdg _ _ =>
    have hgood : Good (dot d f g) := .dot d f g hgf hgg hc hdf hdg
    cases n with
    | zero =>
      refine ⟨_, by rw [deriv], good_wrap hgood, rfl, rfl, fun t hs => ⟨smooth_wrap hs, fun k _ => ?_⟩⟩
      rw [val_wrap]; simp
    | succ n =>
      have := iterD1_nstep (n + 1) hgood
      rw [iterD1, d1] at this
      rw [deriv]
      simpa only [bind_assoc] using this
  | expr d c ty args hg hs ih =>
    have hgood : Good (expr d c ty args) := .expr d c ty args hg hs
    have lin : ty ≠ .mul → ty ≠ .comp → ∃ ds, derivs args n = .ok ds ∧ List.Forall₂ (NStep n) args ds := by
      intro h1 h2
      rw [derivs_eq]
      refine exists_mapM fun a ha => ih a ha ?_
      cases ho with
      | mul => exact absurd rfl h1
      | comp => exact absurd rfl h2
      | expr _ _ _ _ ho => exact ho a ha
    rw [deriv.eq_def]
    dsimp only
    cases ty with
    | mul =>
      cases n with
      | zero =>
        obtain ⟨a, rest, rfl, rfl, rfl, hc⟩ := hs
        exact ⟨_, rfl, nstep_refl hgood⟩
      | succ n =>
        have := iterD1_nstep (n + 1) hgood
        rw [iterD1, d1.eq_def] at this
        simpa only [bind_assoc] using this
    | comp =>
      cases n with
      | zero =>
        obtain ⟨⟨a, rest, rfl, rfl⟩, init, z, he, rfl, hci⟩ := hs
        have hl : (a :: rest).getLast (by simp) = z := by simp only [he]; simp
        exact ⟨_, rfl, by rw [hl]; exact nstep_refl hgood⟩
      | succ n =>
        have := iterD1_nstep (n + 1) hgood
        rw [iterD1, d1.eq_def] at this
        simpa only [bind_assoc] using this
    | sum =>
      obtain ⟨ds, h1, h2⟩ := lin (by simp) (by simp)
      refine ⟨_, ?_, nstep_sum hg hs h2⟩
      rw [h1]; exact derivLin_ok hs (by simp) (by simp)
    | concat =>
      obtain ⟨ds, h1, h2⟩ := lin (by simp) (by simp)
      refine ⟨_, ?_, nstep_concat hs h2⟩
      rw [h1]; exact derivLin_ok hs (by simp) (by simp)
    | unique =>
      obtain ⟨ds, h1, h2⟩ := lin (by simp) (by simp)
      rw [h1]
      refine ⟨_, derivLin_ok hs (by simp) (by simp), ?_⟩
      obtain ⟨a, rfl, hd, hc⟩ := hs
      cases h2 with
      | cons h h' => cases h'; exact nstep_unique hd hc h
    | neg =>
      obtain ⟨ds, h1, h2⟩ := lin (by simp) (by simp)
      rw [h1]
      refine ⟨_, derivLin_ok hs (by simp) (by simp), ?_⟩
      obtain ⟨a, rfl, hd, hc⟩ := hs
      cases h2 with
      | cons h h' => cases h'; exact nstep_neg (hg a (by simp)) hd hc h

/-! ## Dot products of functions whose domains differ by less than the tolerance -/

/-- The objects that appear when a dot product is derived several times; `d`, `e` are the domains of its two functions. -/
inductive DTree (d e : ℝ × ℝ) : Fn → Prop
  | dot (dd : ℝ × ℝ) (a b : Fn) : Good a → Good b → a.codim = b.codim → (a.dom = d ∧ b.dom = e ∨ a.dom = e ∧ b.dom = d) → DTree d e (dot dd a b)
  | sum (dd : ℝ × ℝ) (l : List Fn) : l ≠ [] → (∀ x ∈ l, DTree d e x) → DTree d e (expr dd 1 .sum l)

theorem DTree.codim {d e : ℝ × ℝ} {x : Fn} (h : DTree d e x) : x.codim = 1 := by cases h <;> rfl

theorem DTree.tot {d e : ℝ × ℝ} {x : Fn} (h : DTree d e x) : x.Tot := by
  induction h with
  | dot dd a b ha hb hc _ => exact (val_dot dd (tot_of_good ha) (tot_of_good hb) hc).1
  | sum dd l hne hl ih => exact (val_sum dd hne ih fun a ha => (hl a ha).codim).1

theorem DTree.smooth_open {d e : ℝ × ℝ} {x : Fn} (h : DTree d e x) : ∀ t, Smooth x t → ∀ᶠ s in 𝓝 t, Smooth x s := by
  induction h with
  | dot dd a b ha hb hc _ =>
    intro t hs
    cases hs with
    | dot _ _ _ _ h1 h2 => filter_upwards [Fn.smooth_open ha t h1, Fn.smooth_open hb t h2] with s e1 e2; exact .dot _ _ _ _ e1 e2
  | sum dd l hne hl ih =>
    intro t hs
    cases hs with
    | sum _ _ _ _ h => exact (all_open ih h).mono fun s hs => .sum _ _ _ _ hs

theorem sameDomain_symm {f g : Fn} (h : sameDomain f g) : sameDomain g f := by
  unfold sameDomain at h ⊢
  rw [abs_sub_comm, abs_sub_comm g.dom.2]
  exact h

theorem firstDerivDot_ok {f g f' g' : Fn} (c1 : g.codim = f'.codim) (c2 : f.codim = g'.codim) (h : sameDomain f g) :
    firstDerivDot f g f' g' = .ok (expr g.dom 1 .sum [Fn.dot g.dom g.wrap f'.wrap, Fn.dot f.dom f.wrap g'.wrap]) := by
  unfold firstDerivDot
  unfold mkDot
  rw [if_pos c1, if_pos c2]
  change add (Fn.dot g.dom g.wrap f'.wrap) (Fn.dot f.dom f.wrap g'.wrap) = _
  have hs : sameDomain (Fn.dot g.dom g.wrap f'.wrap) (Fn.dot f.dom f.wrap g'.wrap) := sameDomain_symm h
  unfold add
  rw [if_neg (not_not.mpr hs), if_neg (by simp [Fn.codim])]
  rfl

theorem firstDerivDot_error {f g f' g' : Fn} (c1 : g.codim = f'.codim) (c2 : f.codim = g'.codim) (h : ¬ sameDomain f g) :
    firstDerivDot f g f' g' = .error .invalidArgument := by
  unfold firstDerivDot
  unfold mkDot
  rw [if_pos c1, if_pos c2]
  change add (Fn.dot g.dom g.wrap f'.wrap) (Fn.dot f.dom f.wrap g'.wrap) = _
  have hs : ¬ sameDomain (Fn.dot g.dom g.wrap f'.wrap) (Fn.dot f.dom f.wrap g'.wrap) := fun h' => h (sameDomain_symm (f := g) (g := f) h')
  unfold add
  rw [if_pos hs]

/-- `f'` is a derivative of `f`, without a statement on the domain. -/
def DStep (d e : ℝ × ℝ) (f f' : Fn) : Prop := DTree d e f' ∧ ∀ t, Smooth f t → Smooth f' t ∧ HasDerivAt (val f 0) (val f' 0 t) t

theorem dsum_deriv {d e : ℝ × ℝ} {l l' : List Fn} (h : List.Forall₂ (DStep d e) l l') {t : ℝ} (hs : ∀ a ∈ l, Smooth a t) :
    HasDerivAt (fun t => (l.map fun a => val a 0 t).sum) ((l'.map fun a => val a 0 t).sum) t := by
  induction h with
  | nil => simpa using hasDerivAt_const t (0 : ℝ)
  | cons h _ ih =>
    rename_i b b' l l' _
    have h1 := (h.2 t (hs b (by simp))).2
    have h2 := ih fun x hx => hs x (by simp [hx])
    have e : (fun t => ((b :: l).map fun x => val x 0 t).sum) = val b 0 + fun t => (l.map fun x => val x 0 t).sum := by funext t; simp
    rw [e, List.map_cons, List.sum_cons]
    exact h1.add h2

theorem dtree_d1 {d e : ℝ × ℝ} (hde : |d.1 - e.1| < tol9 ∧ |d.2 - e.2| < tol9) {x : Fn} (h : DTree d e x) : ∃ x', x.d1 = .ok x' ∧ DStep d e x x' := by
  induction h with
  | dot dd a b ha hb hc hdom =>
    obtain ⟨a', ha', sa⟩ := d1_step ha
    obtain ⟨b', hb', sb⟩ := d1_step hb
    rw [Fn.d1, ha', hb']
    change ∃ x', firstDerivDot a b a' b' = .ok x' ∧ _
    have c1 : b.codim = a'.codim := by rw [sa.2.2.1]; exact hc.symm
    have c2 : a.codim = b'.codim := by rw [sb.2.2.1]; exact hc
    have hsd : sameDomain a b := by
      rcases hdom with ⟨h1, h2⟩ | ⟨h1, h2⟩
      · unfold sameDomain; rw [h1, h2]; exact hde
      · refine sameDomain_symm ?_
        unfold sameDomain; rw [h1, h2]; exact hde
    have t1 : DTree d e (Fn.dot b.dom b.wrap a'.wrap) := .dot _ _ _ (good_wrap hb) (good_wrap sa.1) c1 (by
      change (b.dom = d ∧ a'.dom = e) ∨ (b.dom = e ∧ a'.dom = d)
      rw [sa.2.1]
      exact hdom.elim (fun h => .inr ⟨h.2, h.1⟩) fun h => .inl ⟨h.2, h.1⟩)
    have t2 : DTree d e (Fn.dot a.dom a.wrap b'.wrap) := .dot _ _ _ (good_wrap ha) (good_wrap sb.1) c2 (by
      change (a.dom = d ∧ b'.dom = e) ∨ (a.dom = e ∧ b'.dom = d)
      rw [sb.2.1]
      exact hdom)
    have ht : ∀ x ∈ [Fn.dot b.dom b.wrap a'.wrap, Fn.dot a.dom a.wrap b'.wrap], DTree d e x := by
      intro x hx
      simp only [List.mem_cons, List.not_mem_nil, or_false] at hx
      rcases hx with rfl | rfl
      · exact t1
      · exact t2
    have v1 := (val_dot b.dom (tot_wrap (tot_of_good hb)) (tot_wrap (tot_of_good sa.1)) c1).2
    have v2 := (val_dot a.dom (tot_wrap (tot_of_good ha)) (tot_wrap (tot_of_good sb.1)) c2).2
    refine ⟨_, firstDerivDot_ok c1 c2 hsd, .sum _ _ (by simp) ht, fun t hs => ?_⟩
    cases hs with
    | dot _ _ _ _ h1 h2 =>
      refine ⟨.sum _ _ _ _ ?_, ?_⟩
      · intro x hx
        simp only [List.mem_cons, List.not_mem_nil, or_false] at hx
        rcases hx with rfl | rfl
        · exact .dot _ _ _ _ (smooth_wrap h2) (smooth_wrap (sa.2.2.2 t h1).1)
        · exact .dot _ _ _ _ (smooth_wrap h1) (smooth_wrap (sb.2.2.2 t h2).1)
      · rw [(val_dot dd (tot_of_good ha) (tot_of_good hb) hc).2, (val_sum b.dom (by simp) (fun x hx => (ht x hx).tot) fun x hx => (ht x hx).codim).2 0 (by omega)]
        refine HasDerivAt.congr_deriv (hasDerivAt_dot sa sb hc h1 h2) ?_
        simp only [List.map_cons, List.map_nil, List.sum_cons, List.sum_nil, v1, v2, val_wrap, add_zero]
        rw [show b.wrap.codim = a.codim from hc.symm, show a.wrap.codim = a.codim from rfl, ← Finset.sum_add_distrib]
        exact Finset.sum_congr rfl fun k _ => by ring
  | sum dd l hne hl ih =>
    obtain ⟨ds, hds, hF⟩ := exists_mapM ih
    have hmem : ∀ x' ∈ ds, ∃ x ∈ l, DStep d e x x' := by
      clear hne hl ih hds
      induction hF with
      | nil => simp
      | cons h _ ih =>
        intro a ha
        rcases List.mem_cons.mp ha with rfl | ha
        · exact ⟨_, by simp, h⟩
        · obtain ⟨a', h1, h2⟩ := ih a ha
          exact ⟨a', by simp [h1], h2⟩
    have hds' : ∀ x' ∈ ds, DTree d e x' := fun x' hx => by obtain ⟨_, _, h⟩ := hmem x' hx; exact h.1
    have hne' : ds ≠ [] := by rintro rfl; cases hF; exact hne rfl
    obtain ⟨a, rest, rfl⟩ := List.exists_cons_of_ne_nil hne
    have hca := (hl a (by simp)).codim
    refine ⟨expr a.dom 1 .sum ds, ?_, .sum _ _ hne' hds', fun t hs => ?_⟩
    · rw [Fn.d1.eq_def]
      dsimp only
      rw [d1s_eq, hds]
      change derivLin .sum (a :: rest) ds = _
      unfold derivLin
      simp [hca]
    · cases hs with
      | sum _ _ _ _ hsm =>
        refine ⟨.sum _ _ _ _ fun x' hx => ?_, ?_⟩
        · obtain ⟨x, hx, h⟩ := hmem x' hx
          exact (h.2 t (hsm x hx)).1
        · rw [(val_sum dd (by simp) (fun x hx => (hl x hx).tot) fun x hx => (hl x hx).codim).2 0 (by omega),
            (val_sum a.dom hne' (fun x hx => (hds' x hx).tot) fun x hx => (hds' x hx).codim).2 0 (by omega)]
          exact dsum_deriv hF hsm

theorem dtree_iterD1 {d e : ℝ × ℝ} (hde : |d.1 - e.1| < tol9 ∧ |d.2 - e.2| < tol9) (n : ℕ) : ∀ {x : Fn}, DTree d e x →
    ∃ x', iterD1 n x = .ok x' ∧ DTree d e x' ∧ ∀ t, Smooth x t → val x' 0 t = iteratedDeriv n (val x 0) t := by
  induction n with
  | zero => intro x h; exact ⟨x, rfl, h, fun t _ => by simp⟩
  | succ n ih =>
    intro x h
    obtain ⟨y, hy, st⟩ := dtree_d1 hde h
    obtain ⟨x', hx', g1, g2⟩ := ih st.1
    refine ⟨x', by rw [iterD1, hy]; exact hx', g1, fun t hs => ?_⟩
    have hn : val y 0 =ᶠ[𝓝 t] _root_.deriv (val x 0) := by
      filter_upwards [h.smooth_open t hs] with s hs
      exact ((st.2 s hs).2).deriv.symm
    rw [g2 t (st.2 t hs).1, iteratedDeriv_succ', hn.iteratedDeriv_eq]

end GSplines.Fn
