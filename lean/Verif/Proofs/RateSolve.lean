import Verif.Proofs.RateDeriv
import Verif.Proofs.RoundingSolve

/-! # Interpolation: errors of the coefficients proportional to the rounding errors and the backward error -/

namespace GSplines

open Spec Interp Nd

namespace Rounded

theorem columns_llip (j : ℕ) (m : Mat) (v : Vec) : LLip (fun (q : (Unit × Mat) × Vec) (k j' : ℕ) => if j' = j then q.2 k else q.1.2 k j') (((), m), v) :=
  LLip.of_bound (C := 1) (δ := 1) (by norm_num) (by norm_num) fun a a' _ _ r hr h k l => by
    rw [one_mul]
    by_cases e : l = j
    · simp only [if_pos e]; exact h.2 k
    · simp only [if_neg e]; exact h.1.2 k l

/-- Outcomes of a program without input. -/
theorem rate_unit {β : Type} [Gauge β] {F : ℝ × ℝ → Nd β} {y : β} (h : RateAt (fun u (_ : Unit) => F u) () y) :
    ∃ C ≥ (0 : ℝ), ∃ δ > (0 : ℝ), ∀ u, Small u δ → ∀ o, F u o → ∃ b, o = .ok b ∧ close (C * sz u) b y := by
  obtain ⟨C, hC, δ, hδ, h⟩ := h
  refine ⟨C, hC, δ, hδ, fun u hu o ho => ?_⟩
  obtain ⟨b, e, hb⟩ := (h u hu () o ho).1 0 le_rfl hδ.le trivial
  exact ⟨b, e, by simpa using hb⟩

/-- Common constants for finitely many statements. -/
theorem common {P : ℕ → ℝ → ℝ → Prop} (hP : ∀ i C C' δ δ', C ≤ C' → δ' ≤ δ → P i C δ → P i C' δ') {n : ℕ} (h : ∀ i < n, ∃ C ≥ (0 : ℝ), ∃ δ > (0 : ℝ), P i C δ) :
    ∃ C ≥ (0 : ℝ), ∃ δ > (0 : ℝ), ∀ i < n, P i C δ := by
  induction n with
  | zero => exact ⟨0, le_rfl, 1, one_pos, fun i hi => by omega⟩
  | succ n ih =>
    obtain ⟨C, hC, δ, hδ, h1⟩ := ih fun i hi => h i (by omega)
    obtain ⟨D, hD, η, hη, h2⟩ := h n (by omega)
    refine ⟨max C D, le_max_of_le_left hC, min δ η, lt_min hδ hη, fun i hi => ?_⟩
    rcases Nat.lt_succ_iff_lt_or_eq.mp hi with h3 | rfl
    · exact hP i _ _ _ _ (le_max_left _ _) (min_le_left _ _) (h1 i h3)
    · exact hP _ _ _ _ _ (le_max_right _ _) (min_le_right _ _) h2

theorem BufNear.mono {b : Basis} {δ δ' s tau : ℝ} {q : Vec × Mat} (h : δ ≤ δ') (hq : BufNear b δ s tau q) : BufNear b δ' s tau q :=
  ⟨fun k hk => (hq.1 k hk).trans h, fun k hk j hj => (hq.2 k hk j hj).trans h⟩

theorem fillBuffers_rate {b : Basis} {h : ℕ} (hb : Usable b h) {s tau : ℝ} (ht : tau ≠ 0) (hc : Clear b s) (hc' : b.CleanAt s) :
    ∃ C ≥ (0 : ℝ), ∃ δ > (0 : ℝ), ∀ u, Small u δ → All (fillBuffers u b s tau) (Out (fun _ => False) (BufNear b (C * sz u) s tau)) := by
  obtain ⟨z0, c0, e0⟩ := evalDeriv_rate hb.valid ht (hb.order (Nat.zero_le _)) hc hc'
  have hz : ∀ j, ∃ z : Vec, j < b.dim - 2 → RateAt (fun u (_ : Unit) => evalDerivOnWindow u b s tau (j + 1)) () z ∧ ∀ k < b.dim, z k = b.ev s tau (j + 1) k := by
    intro j
    by_cases hj : j < b.dim - 2
    · obtain ⟨z, h1, h2⟩ := evalDeriv_rate hb.valid ht (hb.order (show j + 1 ≤ b.dim - 2 by omega)) hc hc'
      exact ⟨z, fun _ => ⟨h1, h2⟩⟩
    · exact ⟨fun _ => 0, fun h => absurd h hj⟩
  choose z hz using hz
  have hl := RateAt.loop (a := 0) (b := b.dim - 2) (α := Unit) (σ := Mat) (body := fun u j _ (m : Mat) => do
      let v ← evalDerivOnWindow u b s tau (j + 1)
      return fun k j' => if j' = j then v k else m k j') (exact := fun j m => fun k j' => if j' = j then z j k else m k j') (x := ()) (s := Mat.zero)
    fun j _ hj m => by
      refine RateAt.bind (RateAt.comp (x := ((), m)) (f := fun _ : Unit × Mat => ()) (hz j hj).1 (LLip.const _ _)) ?_
      refine RateAt.pure (f := fun (q : (Unit × Mat) × Vec) k j' => if j' = j then q.2 k else q.1.2 k j') (columns_llip j m (z j))
  have key : RateAt (fun u (_ : Unit) => fillBuffers u b s tau) () (z0, forLoop 0 (b.dim - 2) (fun j (m : Mat) => fun k j' => if j' = j then z j k else m k j') Mat.zero) := by
    unfold fillBuffers
    refine RateAt.bind c0 (RateAt.bind (RateAt.comp (x := ((), z0)) (f := fun q : Unit × Vec => ((), Mat.zero)) hl (LLip.const _ _)) ?_)
    exact RateAt.pure (f := fun q : (Unit × Vec) × Mat => (q.1.2, q.2)) (by fun_prop)
  obtain ⟨C, hC, δ, hδ, H⟩ := rate_unit key
  refine ⟨C, hC, δ, hδ, fun u hu r hr => ?_⟩
  obtain ⟨q, rfl, hq⟩ := H u hu r hr
  refine .inr ⟨q, ⟨fun k hk => ?_, fun k hk j hj => ?_⟩, rfl⟩
  · rw [← e0 k hk]
    exact hq.1 k
  · rw [← (hz j hj).2 k hk, ← columns_loop (b.dim - 2) z k j hj]
    exact hq.2 k j

/-- The matrix with rounding: the errors of the entries are proportional to the rounding errors. -/
theorem fillMatrix_rate {b : Basis} {h n c : ℕ} (hb : Usable b h) (hcl : Clear b (-1)) (hcr : Clear b 1) (hn : 0 < n) {tau : List ℝ} (hl : tau.length = n)
    (ht : ∀ i < n, vecOf tau i ≠ 0) {A : Mat} (S : System b h n c (vecOf tau) A) :
    ∃ C ≥ (0 : ℝ), ∃ δ > (0 : ℝ), ∀ u, Small u δ → ∀ m0, Clean n c h m0 → All (fillMatrix u b c n tau m0)
      (Out (fun _ => False) fun m => Clean n c h m ∧ ∀ r < b.dim * c * n, ∀ k, |m r k - A r k| ≤ C * sz u) := by
  have h1 : ∀ s, s = -1 ∨ s = 1 → ∃ C ≥ (0 : ℝ), ∃ δ > (0 : ℝ), ∀ iv < n, ∀ u, Small u δ →
      All (fillBuffers u b s (vecOf tau iv)) (Out (fun _ => False) (BufNear b (C * sz u) s (vecOf tau iv))) := by
    intro s hs
    refine common (P := fun iv C δ => ∀ u, Small u δ → All (fillBuffers u b s (vecOf tau iv)) (Out (fun _ => False) (BufNear b (C * sz u) s (vecOf tau iv))))
      (fun iv C C' δ δ' hC hδ H u hu => All.mono (H u (small_mono hδ hu)) ?_) fun iv hiv => fillBuffers_rate hb (ht iv hiv) ?_ ?_
    · rintro r (h | ⟨q, hq, rfl⟩)
      · exact .inl h
      · exact .inr ⟨q, hq.mono (mul_le_mul_of_nonneg_right hC (sz_nonneg hu)), rfl⟩
    · rcases hs with rfl | rfl
      · exact hcl
      · exact hcr
    · rcases hs with rfl | rfl
      · exact hb.left
      · exact hb.right
  obtain ⟨C1, hC1, δ1, hδ1, H1⟩ := h1 (-1) (.inl rfl)
  obtain ⟨C2, hC2, δ2, hδ2, H2⟩ := h1 1 (.inr rfl)
  refine ⟨max C1 C2, le_max_of_le_left hC1, min δ1 δ2, lt_min hδ1 hδ2, fun u hu m0 hm => ?_⟩
  have hsz := sz_nonneg hu
  have up : ∀ {C s tau} {r : Res (Vec × Mat)}, C ≤ max C1 C2 → Out (fun _ => False) (BufNear b (C * sz u) s tau) r → Out (fun _ => False) (BufNear b (max C1 C2 * sz u) s tau) r := by
    rintro C s tau r hC (h | ⟨q, hq, rfl⟩)
    · exact .inl h
    · exact .inr ⟨q, hq.mono (mul_le_mul_of_nonneg_right hC hsz), rfl⟩
  refine All.mono (fillMatrix_out (E := fun _ => False) (G := fun s iv => BufNear b (max C1 C2 * sz u) s (vecOf tau iv)) (fun iv hiv s hs => ?_) hn hl m0) ?_
  · rcases hs with rfl | rfl
    · exact All.mono (H1 iv hiv u (small_mono (min_le_left _ _) hu)) fun r h => up (le_max_left _ _) h
    · exact All.mono (H2 iv hiv u (small_mono (min_le_right _ _) hu)) fun r h => up (le_max_right _ _) h
  rintro r (⟨e, h, -⟩ | ⟨m, ⟨B, hB, rfl⟩, rfl⟩)
  · exact h.elim
  have hrow : ∀ x : Cond n c h, fillP b.dim c n B m0 (row n c h x) = over B x fun _ => 0 := fun x => by rw [hb.dim]; exact fillP_rows B hn hm x
  refine .inr ⟨_, ⟨fun x => ⟨B, hrow x⟩, fun r hr k => ?_⟩, rfl⟩
  rw [hb.dim] at hr
  obtain ⟨x, rfl⟩ := row_surj (n := n) (c := c) (h := h) hn hr
  rw [hrow x, S.rows x]
  exact over_near hb hn (mul_nonneg (le_max_of_le_left hC1) hsz) hB x k

/-- The errors of the coefficients that a call finds. -/
theorem solve_rate_inv {b : Basis} (hb : Interpolable b) (hcl : Clear b (-1)) (hcr : Clear b 1) {tau : List ℝ} (hne : tau ≠ []) (ht : ∀ t ∈ tau, 1 / 10 ^ 6 ≤ t) {w : Pts}
    (hw : w.rows = tau.length + 1) {y0 : Vec} (hy0 : Interpolates b tau.length w.cols (vecOf tau) w.at' y0) :
    ∃ C ≥ (0 : ℝ), ∃ δ > (0 : ℝ), ∀ u, Small u δ → ∀ η, 0 ≤ η → η ≤ δ → ∀ lu, StableLU η (b.dim * w.cols * tau.length) lu → ∀ s, Inv (b.dim / 2 - 1) s → s.basis = b → s.codim = w.cols →
      s.n = tau.length → All (Rounded.solveInterpolation u lu s tau w) (Out (fun _ => False) fun q => Rounded.solveInterpolation u lu s tau w (.ok q) ∧
        q.2.length = b.dim * w.cols * tau.length ∧ ∀ k < b.dim * w.cols * tau.length, |vecOf q.2 k - y0 k| ≤ C * (sz u + η)) := by
  have U := Props.usable_of hb.valid hb.even hb.ne hb.left hb.right
  have hn : 0 < tau.length := List.length_pos_of_ne_nil hne
  have hpos : ∀ i < tau.length, 0 < vecOf tau i := fun i hi' => vecOf_pos (fun t h => lt_of_lt_of_le (by norm_num) (ht t h)) hi'
  have hind : Independent b := by
    cases b with
    | b0101 a => exact hb.pos a rfl
    | _ => trivial
  obtain ⟨h, hh⟩ : ∃ h, h = b.dim / 2 - 1 := ⟨_, rfl⟩
  rw [← hh] at U
  have S : System b h tau.length w.cols (vecOf tau) (fillP (2 * h + 2) w.cols tau.length (bufs b (vecOf tau)) Mat.zero) :=
    ⟨fun x => fillP_rows _ hn (clean_zero _ _ _) x⟩
  obtain ⟨A, hA⟩ : ∃ A, A = fillP (2 * h + 2) w.cols tau.length (bufs b (vecOf tau)) Mat.zero := ⟨_, rfl⟩
  rw [← hA] at S
  obtain ⟨inv, hinv⟩ := system_invertible U hind hn hpos S
  obtain ⟨v0, -, hv0⟩ := fillVector_ok (n := tau.length) (c := w.cols) (h := h) hn (w := w) (by omega) le_rfl (fun _ => 0)
  have hv0' : ∀ q : Cond tau.length w.cols h, v0 (row tau.length w.cols h q) = q.target w.at' := fun q => by
    rw [hv0 q]
    cases q <;> simp [IsValue, Cond.target]
  obtain ⟨N, hN⟩ : ∃ N, N = b.dim * w.cols * tau.length := ⟨_, rfl⟩
  rw [← hN] at hinv ⊢
  have hS0 : Solves N A y0 v0 := by
    rw [hN]
    exact (solves_iff U hn (fun i hi => (hpos i hi).ne') S hv0' y0).mpr hy0
  obtain ⟨D, hD, δ₀, hδ₀, H⟩ := perturbed_rate (fun i hi j hj => (hinv i hi j hj).1) (fun i hi j hj => (hinv i hi j hj).2) (V := ∑ r ∈ Finset.range N, |v0 r|)
    (Finset.sum_nonneg fun i _ => abs_nonneg _)
  obtain ⟨E, hE, δ₁, hδ₁, hfill⟩ := fillMatrix_rate U hcl hcr hn rfl (fun i hi => (hpos i hi).ne') S
  have hm : 0 < min δ₁ (δ₀ / (2 * E + 1)) := lt_min hδ₁ (by positivity)
  refine ⟨D * (E + 1), by positivity, min δ₁ (δ₀ / (2 * E + 1)), hm, fun u hu₀ η hη hηδ lu hlu s I e1 e2 e3 => ?_⟩
  have hu := hfill u (small_mono (min_le_left _ _) hu₀)
  have hsu := sz_nonneg hu₀
  have hδ' : E * sz u + η ≤ δ₀ := by
    have h1 : (2 * E + 1) * min δ₁ (δ₀ / (2 * E + 1)) ≤ (2 * E + 1) * (δ₀ / (2 * E + 1)) := mul_le_mul_of_nonneg_left (min_le_right _ _) (by positivity)
    rw [mul_div_cancel₀ _ (by positivity : 2 * E + 1 ≠ 0)] at h1
    have h2 := mul_le_mul_of_nonneg_left (sz_le hu₀) hE
    linarith
  rw [← hh] at I
  have hmat : Clean tau.length w.cols h s.mat := by have := I.mat; rwa [e2, e3] at this
  have hvec : ∀ x : Cond tau.length w.cols h, ¬ IsValue x → s.vec (row tau.length w.cols h x) = 0 := by
    have := I.vec; rw [e2, e3] at this; exact this
  have hsz : s.size = N := by unfold Interp.size; rw [e1, e2, e3, hN]
  intro r hr
  have hr' := hr
  unfold Rounded.solveInterpolation at hr
  rw [if_neg (by push Not; exact ht), e1, e2, e3] at hr
  have hm := hu s.mat hmat
  obtain ⟨v, hv, hrow⟩ := fillVector_ok (n := tau.length) (c := w.cols) (h := h) hn (w := w) (by omega) le_rfl s.vec
  rw [← U.dim] at hv
  have hvv : ∀ r < N, v r = v0 r := fun r hr => by
    rw [hN, U.dim] at hr
    obtain ⟨q, rfl⟩ := row_surj (n := tau.length) (c := w.cols) (h := h) hn hr
    rw [hv0', hrow q]
    split_ifs with hq
    · rfl
    · rw [hvec q hq]
      cases q with
      | start iv comp => exact absurd trivial hq
      | stop iv comp => exact absurd trivial hq
      | _ => rfl
  obtain ⟨e, he, rfl⟩ | ⟨m, hm1, hr⟩ := hr
  · obtain ⟨_, h, _⟩ | ⟨_, _, h⟩ := hm _ he
    · exact h.elim
    · cases h
  obtain ⟨_, h, _⟩ | ⟨m', ⟨-, hnear⟩, h⟩ := hm _ hm1
  · exact h.elim
  cases h
  rw [hv] at hr
  obtain ⟨e, he, rfl⟩ | ⟨v', hv', hr⟩ := hr
  · cases he
  cases hv'
  obtain ⟨hinvm, hsol⟩ := H (E * sz u + η) (by positivity) hδ' m (fun r hr k _ => (hnear r (hN ▸ hr) k).trans (by linarith)) η hη (by have := mul_nonneg hE hsu; linarith)
  have hsucc := hlu.succeeds m hinvm
  rw [hsz, if_pos hsucc] at hr
  have hr := show r = .ok _ from hr
  subst hr
  refine .inr ⟨_, ⟨hr', by simp, fun k hk => ?_⟩, rfl⟩
  simp only
  rw [vecOf_map_range hk]
  refine (hsol y0 v0 (fun r hr => Finset.single_le_sum (f := fun r => |v0 r|) (fun r _ => abs_nonneg _) (Finset.mem_range.mpr hr)) hS0 _
    (backward_congr hvv (hlu.stable m v hsucc)) k hk).trans ?_
  rw [mul_assoc]
  refine mul_le_mul_of_nonneg_left ?_ hD
  have := mul_nonneg hE hη
  linarith

theorem solve_rate {b : Basis} (hb : Interpolable b) (hcl : Clear b (-1)) (hcr : Clear b 1) {tau : List ℝ} (hne : tau ≠ []) (ht : ∀ t ∈ tau, 1 / 10 ^ 6 ≤ t) {w : Pts}
    (hw : w.rows = tau.length + 1) {y0 : Vec} (hy0 : Interpolates b tau.length w.cols (vecOf tau) w.at' y0) :
    ∃ C ≥ (0 : ℝ), ∃ δ > (0 : ℝ), ∀ u, Small u δ → ∀ η, 0 ≤ η → η ≤ δ → ∀ lu, StableLU η (b.dim * w.cols * tau.length) lu → ∀ s, RReach w.cols tau.length b s →
      All (Rounded.solveInterpolation u lu s tau w) (Out (fun _ => False) fun q => RReach w.cols tau.length b q.1 ∧ q.1.basis = b ∧ q.1.codim = w.cols ∧ q.1.n = tau.length ∧
        q.2.length = b.dim * w.cols * tau.length ∧ ∀ k < b.dim * w.cols * tau.length, |vecOf q.2 k - y0 k| ≤ C * (sz u + η)) := by
  have U := Props.usable_of hb.valid hb.even hb.ne hb.left hb.right
  have hn : 0 < tau.length := List.length_pos_of_ne_nil hne
  obtain ⟨C, hC, δ, hδ, H⟩ := solve_rate_inv hb hcl hcr hne ht hw hy0
  refine ⟨C, hC, δ, hδ, fun u hu η h1 h2 lu hlu s hs => ?_⟩
  obtain ⟨I, e1, e2, e3⟩ := rreach_inv U.dim hn hs
  refine All.mono (H u hu η h1 h2 lu hlu s I e1 e2 e3) ?_
  rintro r (h | ⟨q, ⟨h3, h4, h5⟩, rfl⟩)
  · exact .inl h
  obtain ⟨-, g1, g2, g3⟩ := solve_inv (by omega) I h3
  exact .inr ⟨q, ⟨.solve hs h3, g1.trans e1, g2.trans e2, g3.trans e3, h4, h5⟩, rfl⟩

end Rounded

end GSplines
