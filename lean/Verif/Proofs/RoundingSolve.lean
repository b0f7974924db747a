import Verif.Proofs.RoundingFill
import Verif.Spec.RoundingInterp

/-!
# The interpolation call with rounded arithmetic
-/

namespace GSplines.Rounded

open Nd Spec Interp Topology Filter

/-- What a call that ends with a value has done. -/
theorem solve_cases {u : ℝ × ℝ} {lu : LU} {s s' : Interp} {tau : List ℝ} {w : Pts} {x : List ℝ} (h : Rounded.solveInterpolation u lu s tau w (.ok (s', x))) :
    (∀ t ∈ tau, (1 : ℝ) / 10 ^ 6 ≤ t) ∧ Rounded.fillMatrix u s.basis s.codim s.n tau s.mat (.ok s'.mat) ∧
      Interp.fillVector s.basis.dim s.codim s.n w s.vec = .ok s'.vec ∧ s'.basis = s.basis ∧ s'.codim = s.codim ∧ s'.n = s.n ∧ s'.ders = s.ders ∧ s'.sol = x ∧
      x = if lu.succeeds s.size s'.mat = true then (List.range s.size).map (lu.solve s.size s'.mat s'.vec) else s.sol := by
  unfold Rounded.solveInterpolation at h
  by_cases h1 : ∃ x ∈ tau, x < 1 / 10 ^ 6
  · rw [if_pos h1] at h; cases h
  rw [if_neg h1] at h
  push Not at h1
  obtain ⟨e, -, h⟩ | ⟨m, hm, h⟩ := h
  · cases h
  obtain ⟨e, -, h⟩ | ⟨v, hv, h⟩ := h
  · cases h
  by_cases hs : lu.succeeds s.size m = true
  · rw [if_pos hs] at h
    cases h
    exact ⟨h1, hm, hv.symm, rfl, rfl, rfl, rfl, rfl, (if_pos hs).symm⟩
  · rw [if_neg hs] at h
    cases h
    exact ⟨h1, hm, hv.symm, rfl, rfl, rfl, rfl, rfl, (if_neg hs).symm⟩

theorem fillMatrix_clean {u : ℝ × ℝ} {b : Basis} {h n c : ℕ} (hb : b.dim = 2 * h + 2) (hn : 0 < n) {tau : List ℝ} {m0 m : Mat} (hm : Clean n c h m0)
    (hr : Rounded.fillMatrix u b c n tau m0 (.ok m)) : tau.length = n ∧ Clean n c h m := by
  have hl : tau.length = n := by
    by_contra hl
    unfold Rounded.fillMatrix at hr
    rw [if_pos hl] at hr
    cases hr
  refine ⟨hl, ?_⟩
  obtain ⟨e, -, h⟩ | ⟨m', ⟨B, -, rfl⟩, h⟩ := fillMatrix_out (E := fun _ => True) (G := fun _ _ _ => True) (fun iv _ s _ r _ => by
    cases r with
    | error e => exact .inl ⟨e, trivial, rfl⟩
    | ok a => exact .inr ⟨a, trivial, rfl⟩) hn hl m0 _ hr
  · cases h
  · cases h
    exact fun x => ⟨B, by rw [hb]; exact fillP_rows B hn hm x⟩

theorem solve_inv {u : ℝ × ℝ} {lu : LU} {h : ℕ} {s s' : Interp} {tau : List ℝ} {w : Pts} {x : List ℝ} (hn : 0 < s.n) (I : Inv h s)
    (hs : Rounded.solveInterpolation u lu s tau w (.ok (s', x))) : Inv h s' ∧ s'.basis = s.basis ∧ s'.codim = s.codim ∧ s'.n = s.n := by
  obtain ⟨h1, hm, hv, e1, e2, e3, e4, e5, -⟩ := solve_cases hs
  obtain ⟨hl, hc⟩ := fillMatrix_clean I.dim hn I.mat hm
  refine ⟨⟨by rw [e1]; exact I.dim, ?_, ?_, ?_⟩, e1, e2, e3⟩
  · rw [e2, e3]; exact hc
  · rw [e2, e3]
    intro x hx
    rcases Nat.eq_zero_or_pos s.codim with hc | hc
    · exfalso
      cases x with
      | start iv comp => exact hx trivial
      | stop iv comp => exact hx trivial
      | restL comp j => have := comp.2; omega
      | restR comp j => have := comp.2; omega
      | join iv comp j => have := comp.2; omega
    · obtain ⟨hw1, hw2⟩ := fillVector_size hv hc
      obtain ⟨v', hv', hrow⟩ := fillVector_ok (h := h) hn hw1 hw2 s.vec
      rw [I.dim] at hv
      have : v' = s'.vec := by rw [hv] at hv'; exact (Except.ok.inj hv').symm
      rw [← this, hrow x, if_neg hx]
      exact I.vec x hx
  · rw [e2, e3, e4]; exact I.ders

theorem rreach_inv {codim n : ℕ} {b : Basis} {h : ℕ} (hb : b.dim = 2 * h + 2) (hn : 0 < n) {s : Interp} (hr : RReach codim n b s) :
    Inv h s ∧ s.basis = b ∧ s.codim = codim ∧ s.n = n := by
  induction hr with
  | make hm =>
    obtain ⟨q, I, rfl, rfl, rfl⟩ := make_inv hm
    have : q = h := by have := I.dim; omega
    subst this
    exact ⟨I, rfl, rfl, rfl⟩
  | @solve u lu s s' tau w x _ hs ih =>
    obtain ⟨I, rfl, rfl, rfl⟩ := ih
    exact solve_inv hn I hs

theorem backward_congr {η : ℝ} {N : ℕ} {m : Mat} {y v v' : ℕ → ℝ} (hv : ∀ r < N, v r = v' r) (h : BackwardError η N m y v) : BackwardError η N m y v' := by
  intro r hr
  have e : ∑ r ∈ Finset.range N, |v r| = ∑ r ∈ Finset.range N, |v' r| := Finset.sum_congr rfl fun r hr => by rw [hv r (Finset.mem_range.mp hr)]
  rw [← hv r hr, ← e]
  exact h r hr

/-- The coefficients that a call finds tend to those of the exact problem. -/
theorem solve_near_inv {b : Basis} (hb : Interpolable b) (hcl : Clear b (-1)) (hcr : Clear b 1) {tau : List ℝ} (hne : tau ≠ []) (ht : ∀ t ∈ tau, 1 / 10 ^ 6 ≤ t) {w : Pts}
    (hw : w.rows = tau.length + 1) {y0 : Vec} (hy0 : Interpolates b tau.length w.cols (vecOf tau) w.at' y0) {ε : ℝ} (hε : 0 < ε) :
    ∃ δ > 0, ∀ᶠ u in 𝓝 (0 : ℝ × ℝ), ∀ η, 0 ≤ η → η ≤ δ → ∀ lu, StableLU η (b.dim * w.cols * tau.length) lu → ∀ s, Inv (b.dim / 2 - 1) s → s.basis = b → s.codim = w.cols →
      s.n = tau.length → All (Rounded.solveInterpolation u lu s tau w) (Out (fun _ => False) fun q => Rounded.solveInterpolation u lu s tau w (.ok q) ∧
        q.2.length = b.dim * w.cols * tau.length ∧ ∀ k < b.dim * w.cols * tau.length, |vecOf q.2 k - y0 k| ≤ ε) := by
  have U := Props.usable_of hb.valid hb.even hb.ne hb.left hb.right
  have hn : 0 < tau.length := List.length_pos_of_ne_nil hne
  have hpos : ∀ i < tau.length, 0 < vecOf tau i := fun i hi' => vecOf_pos (fun t h => lt_of_lt_of_le (by norm_num) (ht t h)) hi'
  have hind : Independent b := by
    cases b with
    | b0101 a => exact hb.pos a rfl
    | _ => trivial
  obtain ⟨h, hh⟩ : ∃ h, h = b.dim / 2 - 1 := ⟨_, rfl⟩
  rw [← hh] at U
  have S : System b h tau.length w.cols (vecOf tau) (fillP (2 * h + 2) w.cols tau.length (bufs b (vecOf tau)) Mat.zero) :=
    ⟨fun x => fillP_rows _ hn (clean_zero _ _ _) x⟩
  obtain ⟨A, hA⟩ : ∃ A, A = fillP (2 * h + 2) w.cols tau.length (bufs b (vecOf tau)) Mat.zero := ⟨_, rfl⟩
  rw [← hA] at S
  obtain ⟨inv, hinv⟩ := system_invertible U hind hn hpos S
  obtain ⟨v0, -, hv0⟩ := fillVector_ok (n := tau.length) (c := w.cols) (h := h) hn (w := w) (by omega) le_rfl (fun _ => 0)
  have hv0' : ∀ q : Cond tau.length w.cols h, v0 (row tau.length w.cols h q) = q.target w.at' := fun q => by
    rw [hv0 q]
    cases q <;> simp [IsValue, Cond.target]
  obtain ⟨N, hN⟩ : ∃ N, N = b.dim * w.cols * tau.length := ⟨_, rfl⟩
  rw [← hN] at hinv ⊢
  have hS0 : Solves N A y0 v0 := by
    rw [hN]
    exact (solves_iff U hn (fun i hi => (hpos i hi).ne') S hv0' y0).mpr hy0
  obtain ⟨δ, hδ, H⟩ := perturbed (fun i hi j hj => (hinv i hi j hj).1) (fun i hi j hj => (hinv i hi j hj).2) hS0 hε
  refine ⟨δ, hδ, ?_⟩
  filter_upwards [fillMatrix_near U hcl hcr hn rfl (fun i hi => (hpos i hi).ne') S hδ] with u hu η hη hηδ lu hlu s I e1 e2 e3
  rw [← hh] at I
  have hmat : Clean tau.length w.cols h s.mat := by have := I.mat; rwa [e2, e3] at this
  have hvec : ∀ x : Cond tau.length w.cols h, ¬ IsValue x → s.vec (row tau.length w.cols h x) = 0 := by
    have := I.vec; rw [e2, e3] at this; exact this
  have hsz : s.size = N := by unfold Interp.size; rw [e1, e2, e3, hN]
  intro r hr
  have hr' := hr
  unfold Rounded.solveInterpolation at hr
  rw [if_neg (by push Not; exact ht), e1, e2, e3] at hr
  have hm := hu s.mat hmat
  obtain ⟨v, hv, hrow⟩ := fillVector_ok (n := tau.length) (c := w.cols) (h := h) hn (w := w) (by omega) le_rfl s.vec
  rw [← U.dim] at hv
  have hvv : ∀ r < N, v r = v0 r := fun r hr => by
    rw [hN, U.dim] at hr
    obtain ⟨q, rfl⟩ := row_surj (n := tau.length) (c := w.cols) (h := h) hn hr
    rw [hv0', hrow q]
    split_ifs with hq
    · rfl
    · rw [hvec q hq]
      cases q with
      | start iv comp => exact absurd trivial hq
      | stop iv comp => exact absurd trivial hq
      | _ => rfl
  obtain ⟨e, he, rfl⟩ | ⟨m, hm1, hr⟩ := hr
  · obtain ⟨_, h, _⟩ | ⟨_, _, h⟩ := hm _ he
    · exact h.elim
    · cases h
  obtain ⟨_, h, _⟩ | ⟨m', ⟨-, hnear⟩, h⟩ := hm _ hm1
  · exact h.elim
  cases h
  rw [hv] at hr
  obtain ⟨e, he, rfl⟩ | ⟨v', hv', hr⟩ := hr
  · cases he
  cases hv'
  obtain ⟨hinvm, hsol⟩ := H m (fun r hr k _ => hnear r (hN ▸ hr) k) η hη hηδ
  have hsucc := hlu.succeeds m hinvm
  rw [hsz, if_pos hsucc] at hr
  have hr := show r = .ok _ from hr
  subst hr
  refine .inr ⟨_, ⟨hr', by simp, fun k hk => ?_⟩, rfl⟩
  simp only
  rw [vecOf_map_range hk]
  exact hsol _ (backward_congr hvv (hlu.stable m v hsucc)) k hk

theorem solve_near {b : Basis} (hb : Interpolable b) (hcl : Clear b (-1)) (hcr : Clear b 1) {tau : List ℝ} (hne : tau ≠ []) (ht : ∀ t ∈ tau, 1 / 10 ^ 6 ≤ t) {w : Pts}
    (hw : w.rows = tau.length + 1) {y0 : Vec} (hy0 : Interpolates b tau.length w.cols (vecOf tau) w.at' y0) {ε : ℝ} (hε : 0 < ε) :
    ∃ δ > 0, ∀ᶠ u in 𝓝 (0 : ℝ × ℝ), ∀ η, 0 ≤ η → η ≤ δ → ∀ lu, StableLU η (b.dim * w.cols * tau.length) lu → ∀ s, RReach w.cols tau.length b s →
      All (Rounded.solveInterpolation u lu s tau w) (Out (fun _ => False) fun q => RReach w.cols tau.length b q.1 ∧ q.1.basis = b ∧ q.1.codim = w.cols ∧ q.1.n = tau.length ∧
        q.2.length = b.dim * w.cols * tau.length ∧ ∀ k < b.dim * w.cols * tau.length, |vecOf q.2 k - y0 k| ≤ ε) := by
  have U := Props.usable_of hb.valid hb.even hb.ne hb.left hb.right
  have hn : 0 < tau.length := List.length_pos_of_ne_nil hne
  obtain ⟨δ, hδ, H⟩ := solve_near_inv hb hcl hcr hne ht hw hy0 hε
  refine ⟨δ, hδ, H.mono fun u hu η h1 h2 lu hlu s hs => ?_⟩
  obtain ⟨I, e1, e2, e3⟩ := rreach_inv U.dim hn hs
  refine All.mono (hu η h1 h2 lu hlu s I e1 e2 e3) ?_
  rintro r (h | ⟨q, ⟨h3, h4, h5⟩, rfl⟩)
  · exact .inl h
  obtain ⟨-, g1, g2, g3⟩ := solve_inv (by omega) I h3
  exact .inr ⟨q, ⟨.solve hs h3, g1.trans e1, g2.trans e2, g3.trans e3, h4, h5⟩, rfl⟩

end GSplines.Rounded
