import Verif.Proofs.RoundingGrad
import Verif.Proofs.Residual
import Verif.Spec.RoundingSobolev

/-! # Value and gradient of the cost with rounding tend to the exact ones -/

namespace GSplines.Rounded

open Nd Spec Interp Sobolev Topology Filter

/-- What a call that ends with a value has done. -/
theorem coeff_cases {u : ℝ × ℝ} {lu : LU} {s s' : Interp} {y tau : List ℝ} {idx : ℕ} {x : Vec} (h : Rounded.coeffDerivative u lu s y tau idx (.ok (s', x))) :
    s' = s ∨ (idx < s.n ∧ Rounded.fillMatrix u s.basis s.codim s.n tau s.mat (.ok s'.mat) ∧ s'.basis = s.basis ∧ s'.codim = s.codim ∧ s'.n = s.n ∧ s'.vec = s.vec ∧
      ∃ d, Rounded.fillDer u s.basis s.codim s.n tau idx (s.ders idx) (.ok d) ∧ s'.ders = setAt s.ders idx d) := by
  unfold Rounded.coeffDerivative at h
  by_cases h1 : ∃ x ∈ tau, x < 1 / 10 ^ 6
  · rw [if_pos h1] at h; cases h
  rw [if_neg h1] at h
  by_cases h2 : tau.length ≠ s.n ∨ s.n ≤ idx
  · rw [if_pos h2] at h; cases h; exact .inl rfl
  rw [if_neg h2] at h
  push Not at h2
  right
  obtain ⟨e, -, h⟩ | ⟨d, hd, h⟩ := h
  · cases h
  unfold Rounded.solveDerivative at h
  by_cases h3 : y.length ≠ s.size
  · rw [if_pos h3] at h; cases h
  rw [if_neg h3] at h
  obtain ⟨e, -, h⟩ | ⟨rhs, -, h⟩ := h
  · cases h
  obtain ⟨e, -, h⟩ | ⟨m, hm, h⟩ := h
  · cases h
  by_cases hs : lu.succeeds s.size m = true
  · rw [if_pos hs] at h
    cases h
    exact ⟨h2.2, hm, rfl, rfl, rfl, rfl, d, hd, rfl⟩
  · rw [if_neg hs] at h; cases h

theorem coeff_inv {u : ℝ × ℝ} {lu : LU} {h : ℕ} {s s' : Interp} {y tau : List ℝ} {idx : ℕ} {x : Vec} (hn : 0 < s.n) (I : Inv h s)
    (hs : Rounded.coeffDerivative u lu s y tau idx (.ok (s', x))) : Inv h s' ∧ s'.basis = s.basis ∧ s'.codim = s.codim ∧ s'.n = s.n := by
  rcases coeff_cases hs with rfl | ⟨hi, hm, e1, e2, e3, e4, d, hd, e5⟩
  · exact ⟨I, rfl, rfl, rfl⟩
  obtain ⟨-, hc⟩ := fillMatrix_clean I.dim hn I.mat hm
  refine ⟨⟨by rw [e1]; exact I.dim, ?_, ?_, ?_⟩, e1, e2, e3⟩
  · rw [e2, e3]; exact hc
  · rw [e2, e3, e4]; exact I.vec
  · rw [e2, e3, e5]
    intro i hi'
    by_cases hii : i = idx
    · subst hii
      rw [setAt_self]
      exact fillDer_clean I.dim hi (I.ders i hi) hd
    · rw [setAt_ne _ _ hii]
      exact I.ders i hi'

/-- The derivatives of the coefficients that a call finds tend to those of the exact problem. -/
theorem coeff_near {b : Basis} {h n c idx N : ℕ} (U : Usable b h) (hcl : Clear b (-1)) (hcr : Clear b 1) (hi : idx < n) {tau : List ℝ} (hl : tau.length = n)
    (ht : ∀ t ∈ tau, 1 / 10 ^ 6 ≤ t) (hN : N = b.dim * c * n) {A inv D0 : Mat} (S : System b h n c (vecOf tau) A)
    (hinv : ∀ i < N, ∀ j < N, ∑ k ∈ Finset.range N, inv i k * A k j = if i = j then 1 else 0)
    (hinv' : ∀ i < N, ∀ j < N, ∑ k ∈ Finset.range N, A i k * inv k j = if i = j then 1 else 0)
    (hD : ∀ x : Cond n c h, D0 (row n c h x) = overI idx (bufsT b (vecOf tau)) x fun _ => 0) {y0 d0 : Vec} (hd0 : Solves N A d0 (D0.mulVec N y0)) {ε : ℝ} (hε : 0 < ε) :
    ∃ δ > 0, ∃ κ > 0, ∀ᶠ u in 𝓝 (0 : ℝ × ℝ), ∀ η, 0 ≤ η → η ≤ δ → ∀ lu, StableLU η N lu → ∀ s, Inv h s → s.basis = b → s.codim = c → s.n = n →
      ∀ y : List ℝ, y.length = N → (∀ k < N, |vecOf y k - y0 k| ≤ κ) → All (Rounded.coeffDerivative u lu s y tau idx)
        (Out (fun _ => False) fun q => Rounded.coeffDerivative u lu s y tau idx (.ok q) ∧ ∀ k < N, |q.2 k + d0 k| ≤ ε) := by
  have hpos : ∀ i < n, vecOf tau i ≠ 0 := fun i hi' => (vecOf_pos (fun t h => lt_of_lt_of_le (by norm_num) (ht t h)) (by omega)).ne'
  obtain ⟨K, hK⟩ : ∃ K, K = ∑ i ∈ Finset.range N, ∑ r ∈ Finset.range N, |inv i r| := ⟨_, rfl⟩
  have hK0 : 0 ≤ K := by rw [hK]; exact Finset.sum_nonneg fun i _ => Finset.sum_nonneg fun r _ => abs_nonneg _
  obtain ⟨V, hV⟩ : ∃ V, V = ∑ r ∈ Finset.range N, |D0.mulVec N y0 r| + 1 := ⟨_, rfl⟩
  have hV0 : 0 ≤ V := by rw [hV]; exact add_nonneg (Finset.sum_nonneg fun i _ => abs_nonneg _) zero_le_one
  obtain ⟨ε2, hε2⟩ : ∃ ε2, ε2 = min 1 (ε / (2 * (K + 1))) := ⟨_, rfl⟩
  have hε20 : 0 < ε2 := by rw [hε2]; exact lt_min one_pos (by positivity)
  have hKε : K * ε2 ≤ ε / 2 := by
    have h1 : ε2 ≤ ε / (2 * (K + 1)) := by rw [hε2]; exact min_le_right _ _
    have h2 : ε / (2 * (K + 1)) * (K + 1) = ε / 2 := by field_simp
    nlinarith
  obtain ⟨δ, hδ, H⟩ := perturbed_all hinv hinv' hV0 (half_pos hε)
  obtain ⟨κ, hκ, Hmv⟩ := matVec_near N D0 y0 hε20
  refine ⟨δ, hδ, κ, hκ, ?_⟩
  filter_upwards [Hmv, fillDer_near (c := c) U hcl hcr hi hl (hpos idx hi) hκ hD, fillMatrix_near U hcl hcr (by omega) hl hpos S hδ]
    with u hmv hfd hfm η hη hηδ lu hlu s I e1 e2 e3 y hy hyn
  have hsz : s.size = N := by unfold Interp.size; rw [e1, e2, e3, hN]
  have hmat : Clean n c h s.mat := by have := I.mat; rwa [e2, e3] at this
  have hder : CleanI n c h idx (s.ders idx) := by have := I.ders idx (by omega); rwa [e2, e3] at this
  intro r hr
  have hr' := hr
  suffices hs : Out (fun _ => False) (fun q : Interp × Vec => ∀ k < N, |q.2 k + d0 k| ≤ ε) r by
    obtain ⟨_, h, _⟩ | ⟨q, hq, rfl⟩ := hs
    · exact h.elim
    · exact .inr ⟨q, ⟨hr', hq⟩, rfl⟩
  unfold Rounded.coeffDerivative at hr
  rw [if_neg (by push Not; exact ht), if_neg (by push Not; omega), e1, e2, e3] at hr
  clear hr'
  revert r
  refine Out.bind (hfd _ hder) fun d hd => ?_
  unfold Rounded.solveDerivative
  rw [if_neg (by rw [hsz]; simpa using hy), hsz, e1, e2, e3]
  refine Out.bind (hmv d (vecOf y) (fun r hr k _ => hd.2 r (hN ▸ hr) k) hyn) fun v hv => Out.bind (hfm _ hmat) fun m hm => ?_
  obtain ⟨hwc, hsol⟩ := H m (fun r hr k _ => hm.2 r (hN ▸ hr) k) η hη hηδ
  have hsucc := hlu.succeeds m hwc
  rw [if_pos hsucc]
  refine Out.pure fun k hk => ?_
  have hvV : ∀ r < N, |v r| ≤ V := fun r hr => by
    have h1 := hv r hr
    have h2 : |D0.mulVec N y0 r| ≤ ∑ r ∈ Finset.range N, |D0.mulVec N y0 r| :=
      Finset.single_le_sum (f := fun r => |D0.mulVec N y0 r|) (fun _ _ => abs_nonneg _) (Finset.mem_range.mpr hr)
    have h3 : ε2 ≤ 1 := by rw [hε2]; exact min_le_left _ _
    have h4 : |v r| ≤ |v r - D0.mulVec N y0 r| + |D0.mulVec N y0 r| := by
      have := abs_add_le (v r - D0.mulVec N y0 r) (D0.mulVec N y0 r)
      simpa using this
    linarith
  have hy' : Solves N A (fun k => ∑ r ∈ Finset.range N, inv k r * v r) v := fun r hr => by
    have e : ∀ k ∈ Finset.range N, A r k * ∑ j ∈ Finset.range N, inv k j * v j = ∑ j ∈ Finset.range N, A r k * inv k j * v j := fun k _ => by
      rw [Finset.mul_sum]; exact Finset.sum_congr rfl fun j _ => by ring
    rw [Finset.sum_congr rfl e, Finset.sum_comm, Finset.sum_congr rfl fun j hj => by rw [← Finset.sum_mul, hinv' r hr j (Finset.mem_range.mp hj)]]
    simp [hr]
  have h1 := hsol _ v hvV hy' _ (hlu.stable m v hsucc) k hk
  have h2 := Residual.solution_error hinv hd0 (y := fun k => ∑ r ∈ Finset.range N, inv k r * v r) (ε := ε2) (fun r hr => by rw [hy' r hr]; exact hv r hr) hk
  rw [← hK] at h2
  simp only
  have h3 := abs_add_le (-(lu.solve N m v k - ∑ r ∈ Finset.range N, inv k r * v r)) (-((∑ r ∈ Finset.range N, inv k r * v r) - d0 k))
  rw [abs_neg, abs_neg] at h3
  refine (le_of_eq ?_).trans (h3.trans (by linarith))
  congr 1
  ring

/-! ## One entry of the gradient -/

/-- The entry as a function of coefficients given as functions. -/
noncomputable def gradX (u : ℝ × ℝ) (b : Basis) (mem : LagMem) (ws : List (ℕ × ℝ)) (n codim : ℕ) (tau y d : Vec) (idx : ℕ) : Nd ℝ := do
  let m ← weighted u b.dim (addDerivMatrixDtau u b mem (tau idx)) ws
  let r ← loop 0 codim (fun c r => addFormX u b codim m y y idx c r) 0
  let p ← innerX u b mem ws n codim tau y d
  let p ← near u (2 * p)
  near u (r + p)

theorem gradEntry_eq {u : ℝ × ℝ} {b : Basis} {mem : LagMem} {ws : List (ℕ × ℝ)} {n codim idx : ℕ} {tau y d : List ℝ} (ht : tau.length = n) (hi : idx < n)
    (h1 : y.length = b.dim * codim * n) (h2 : d.length = b.dim * codim * n) :
    gradEntry u b mem ws n codim tau y d idx = gradX u b mem ws n codim (vecOf tau) (vecOf y) (vecOf d) idx := by
  unfold gradEntry gradX
  rw [rd_ok (by omega), lift_ok, LawfulMonad.pure_bind, innerProd_eq ht h1 h2]
  congr 1
  funext m
  rw [loop_congr (fun c _ hc r => addForm_eq h1 h1 hi hc r)]

theorem gradX_conv {b : Basis} (hb : b.Valid) (hp : PosParam b) (mem : LagMem) {ws : List (ℕ × ℝ)} (hw : ∀ p ∈ ws, Adds b p.1) (hw' : ∀ p ∈ ws, AddsDtau b p.1) {n codim idx : ℕ}
    {tau : Vec} (ht : ∀ i < n, tau i ≠ 0) (hi : idx < n) (y d : Vec) :
    ConvAt (fun u (p : Vec × Vec) => gradX u b mem ws n codim tau p.1 p.2 idx) (y, d) (gradFn b mem ws n codim tau y d idx) := by
  unfold gradX
  obtain ⟨z, hz, ez⟩ := weighted_conv (add := fun u => addDerivMatrixDtau u b mem (tau idx)) (Q := dq b mem (tau idx)) (n := b.dim) (ws := ws)
    (fun p hp' m => addDerivMatrixDtau_conv hb hp mem (ht idx hi) (hw' p hp') m) ((y, d) : Vec × Vec)
  have h1 := ConvAt.comp (F := fun u (p : (Mat × Vec × Vec) × ℝ) => Nd.loop 0 codim (fun c r => addFormX u b codim p.1.1 p.1.2.1 p.1.2.2 idx c r) p.2)
    (f := fun p : (Vec × Vec) × Mat => ((p.2, p.1.1, p.1.1), (0 : ℝ))) (x := ((y, d), z)) (comps_conv b codim idx z y y 0) (by fun_prop)
  refine (ConvAt.bind hz (ConvAt.bind h1 (ConvAt.bind (ConvAt.comp (F := fun u (p : Vec × Vec) => innerX u b mem ws n codim tau p.1 p.2)
    (f := fun p : ((Vec × Vec) × Mat) × ℝ => (p.1.1.1, p.1.1.2)) (innerX_conv hb hp mem hw ht y d) (by fun_prop))
    (ConvAt.bind (ConvAt.near (f := fun p : (((Vec × Vec) × Mat) × ℝ) × ℝ => 2 * p.2) (by fun_prop))
      (ConvAt.near (f := fun p : ((((Vec × Vec) × Mat) × ℝ) × ℝ) × ℝ => p.1.1.2 + p.2) (by fun_prop)))))).congr ?_
  unfold gradFn
  dsimp only
  rw [zero_add]
  congr 1
  exact Finset.sum_congr rfl fun c _ => form_congr ez (fun _ _ => rfl) fun _ _ => rfl

/-- A program of two vectors that converges: it is near its limit for all vectors near the given ones. -/
theorem two_near {F : ℝ × ℝ → Vec → Vec → Nd ℝ} {y0 d0 : Vec} {z : ℝ} (h : ConvAt (fun u (p : Vec × Vec) => F u p.1 p.2) (y0, d0) z) {ε : ℝ} (hε : 0 < ε) :
    ∃ κ > 0, ∀ᶠ u in 𝓝 (0 : ℝ × ℝ), ∀ y d : Vec, (∀ k, |y k - y0 k| ≤ κ) → (∀ k, |d k - d0 k| ≤ κ) → All (F u y d) (Out (fun _ => False) fun r => |r - z| ≤ ε) := by
  have h := h _ (Metric.closedBall_mem_nhds z hε)
  rw [nhds_prod_eq] at h
  obtain ⟨pu, hpu, pq, hpq, h⟩ := Filter.eventually_prod_iff.mp h
  rw [nhds_prod_eq] at hpq
  obtain ⟨pd, hpd, py, hpy, h'⟩ := Filter.eventually_prod_iff.mp hpq
  obtain ⟨κ1, hκ1, H1⟩ := vec_nhds hpd
  obtain ⟨κ2, hκ2, H2⟩ := vec_nhds hpy
  refine ⟨min κ1 κ2, lt_min hκ1 hκ2, hpu.mono fun u hu y d hy hd r hr => ?_⟩
  obtain ⟨v, hv, rfl⟩ := h hu (h' (H1 y fun k => (hy k).trans (min_le_left _ _)) (H2 d fun k => (hd k).trans (min_le_right _ _))) r hr
  exact .inr ⟨v, hv, rfl⟩

/-! ## The states -/

/-- A property that every pass of a loop preserves. -/
theorem loop_inv {σ : Type} (P : σ → Prop) {a b : ℕ} {body : ℕ → σ → Nd σ} (hs : ∀ i st st', P st → body i st (.ok st') → P st') {s s' : σ} (h0 : P s)
    (h : Nd.loop a b body s (.ok s')) : P s' := by
  unfold Nd.loop at h
  generalize List.range' a (b - a) = l at h
  induction l generalizing s with
  | nil => cases h; exact h0
  | cons i l ih =>
    rw [List.foldlM_cons] at h
    obtain ⟨e, -, h⟩ | ⟨s1, h1, h⟩ := h
    · cases h
    · exact ih (hs i s s1 h0 h1) h

/-- A loop all of whose passes end as wanted. -/
theorem loop_out {σ : Type} {E : Err → Prop} (P : ℕ → σ → Prop) {a b : ℕ} (hab : a ≤ b) {body : ℕ → σ → Nd σ} {s : σ} (h0 : P a s)
    (hs : ∀ i, a ≤ i → i < b → ∀ st, P i st → All (body i st) (Out E (P (i + 1)))) : All (Nd.loop a b body s) (Out E (P b)) := by
  unfold Nd.loop
  obtain ⟨d, rfl⟩ : ∃ d, b = a + d := ⟨b - a, by omega⟩
  rw [show a + d - a = d by omega]
  clear hab
  induction d generalizing a s with
  | zero => exact Out.pure h0
  | succ d ih =>
    simp only [List.range'_succ, List.foldlM_cons]
    refine Out.bind (hs a le_rfl (by omega) s h0) fun s1 h1 => ?_
    rw [show a + (d + 1) = a + 1 + d by omega]
    exact ih h1 fun i h3 h4 => hs i (by omega) (by omega)

theorem gradStep_inv {u : ℝ × ℝ} {lu : LU} {h n c : ℕ} {b : Basis} {s : Sobolev} {tau y : List ℝ} {idx : ℕ} {st st' : Interp × List ℝ} (hn : 0 < n)
    (I : Inv h st.1 ∧ st.1.basis = b ∧ st.1.codim = c ∧ st.1.n = n) (hr : gradStep u lu s tau y idx st (.ok st')) :
    Inv h st'.1 ∧ st'.1.basis = b ∧ st'.1.codim = c ∧ st'.1.n = n := by
  obtain ⟨I, rfl, rfl, rfl⟩ := I
  unfold gradStep at hr
  obtain ⟨e, -, hr⟩ | ⟨p, hp, hr⟩ := hr
  · cases hr
  obtain ⟨e, -, hr⟩ | ⟨r, -, hr⟩ := hr
  · cases hr
  obtain ⟨e, -, hr⟩ | ⟨l, -, hr⟩ := hr
  · cases hr
  cases hr
  exact coeff_inv hn I hp

theorem rsreach_inv {w : Pts} {b : Basis} {weights : List (ℕ × ℝ)} {mem : LagMem} {h : ℕ} (hb : b.dim = 2 * h + 2) (hn : 0 < w.rows - 1) {s : Sobolev}
    (hr : RSReach w b weights mem s) : (Inv h s.interp ∧ s.interp.basis = b ∧ s.interp.codim = w.cols ∧ s.interp.n = w.rows - 1) ∧
      s.weights = weights ∧ s.points = w ∧ s.mem = mem := by
  induction hr with
  | @make junk s hm =>
    unfold Sobolev.make at hm
    split_ifs at hm
    cases hi : Interp.make w.cols (w.rows - 1) b junk with
    | error e => rw [hi] at hm; cases hm
    | ok i =>
      rw [hi, Interp.ok_bind] at hm
      cases hm
      exact ⟨rreach_inv hb hn (.make hi), rfl, rfl, rfl⟩
  | @cost u lu s s' tau v _ hs ih =>
    obtain ⟨⟨I, e1, e2, e3⟩, rfl, rfl, rfl⟩ := ih
    unfold Rounded.cost at hs
    obtain ⟨e, -, hs⟩ | ⟨p, hp, hs⟩ := hs
    · cases hs
    obtain ⟨e, -, hs⟩ | ⟨r, -, hs⟩ := hs
    · cases hs
    cases hs
    obtain ⟨I', f1, f2, f3⟩ := solve_inv (by omega) I hp
    exact ⟨⟨I', f1.trans e1, f2.trans e2, f3.trans e3⟩, rfl, rfl, rfl⟩
  | @grad u lu s s' tau buff out _ hs ih =>
    obtain ⟨⟨I, e1, e2, e3⟩, rfl, rfl, rfl⟩ := ih
    unfold Rounded.grad at hs
    obtain ⟨e, -, hs⟩ | ⟨p, hp, hs⟩ := hs
    · cases hs
    obtain ⟨e, -, hs⟩ | ⟨st, hst, hs⟩ := hs
    · cases hs
    cases hs
    obtain ⟨I', f1, f2, f3⟩ := solve_inv (by omega) I hp
    exact ⟨loop_inv (fun st : Interp × List ℝ => Inv h st.1 ∧ st.1.basis = b ∧ st.1.codim = s.points.cols ∧ st.1.n = s.points.rows - 1)
      (s := (p.1, buff)) (body := gradStep u lu s tau p.2) (fun i st st' I h => gradStep_inv hn I h) ⟨I', f1.trans e1, f2.trans e2, f3.trans e3⟩ hst, rfl, rfl, rfl⟩

/-! ## The cost -/

/-- The first `N` entries. -/
def cut (N : ℕ) (y : Vec) : Vec := fun k => if k < N then y k else 0

theorem cut_near {N : ℕ} {l : List ℝ} (hl : l.length = N) {y0 : Vec} {κ : ℝ} (hκ : 0 ≤ κ) (h : ∀ k < N, |vecOf l k - y0 k| ≤ κ) (k : ℕ) : |vecOf l k - cut N y0 k| ≤ κ := by
  unfold cut
  split_ifs with hk
  · exact h k hk
  · have : vecOf l k = 0 := by
      unfold vecOf
      rw [List.getD_eq_getElem?_getD, List.getElem?_eq_none (by omega)]
      rfl
    rw [this]
    simpa using hκ

theorem posParam_of {b : Basis} (hb : Interpolable b) : PosParam b := fun a h => hb.pos a h

theorem cost_near {b : Basis} (hb : Interpolable b) (hcl : Clear b (-1)) (hcr : Clear b 1) {weights : List (ℕ × ℝ)} (ho : ∀ p ∈ weights, Adds b p.1) (mem : LagMem)
    {tau : List ℝ} (hne : tau ≠ []) (ht : ∀ t ∈ tau, 1 / 10 ^ 6 ≤ t) {w : Pts} (hw : w.rows = tau.length + 1) {ε : ℝ} (hε : 0 < ε) :
    ∃ δ > 0, ∀ᶠ u in 𝓝 (0 : ℝ × ℝ), ∀ η, 0 ≤ η → η ≤ δ → ∀ lu, StableLU η (b.dim * w.cols * tau.length) lu → ∀ s, RSReach w b weights mem s →
      All (Rounded.cost u lu s tau) (Out (fun _ => False) fun q => |q.2 - costFn b mem weights tau.length w.cols w.at' (vecOf tau)| ≤ ε) := by
  have U := Props.usable_of hb.valid hb.even hb.ne hb.left hb.right
  have hn : 0 < tau.length := List.length_pos_of_ne_nil hne
  have hpos : ∀ i < tau.length, 0 < vecOf tau i := fun i hi' => vecOf_pos (fun t h => lt_of_lt_of_le (by norm_num) (ht t h)) hi'
  obtain ⟨y0, hy0⟩ : ∃ y0, y0 = sol b tau.length w.cols w.at' (vecOf tau) := ⟨_, rfl⟩
  have hI := (sol_spec hb (codim := w.cols) (w := w.at') hn hpos).1
  rw [← hy0] at hI
  obtain ⟨κ, hκ, H⟩ := two_near (innerX_conv hb.valid (posParam_of hb) mem ho (n := tau.length) (codim := w.cols) (fun i hi => (hpos i hi).ne')
    (cut (b.dim * w.cols * tau.length) y0) (cut (b.dim * w.cols * tau.length) y0)) hε
  obtain ⟨δ, hδ, H'⟩ := solve_near_inv hb hcl hcr hne ht hw hI hκ
  refine ⟨δ, hδ, ?_⟩
  filter_upwards [H, H'] with u hu hu' η h1 h2 lu hlu s hs
  obtain ⟨⟨I, e1, e2, e3⟩, rfl, rfl, rfl⟩ := rsreach_inv U.dim (by omega) hs
  have e3' : s.interp.n = tau.length := by omega
  unfold Rounded.cost
  refine Out.bind (hu' η h1 h2 lu hlu s.interp I e1 e2 e3') fun p ⟨hp, hpl, hpn⟩ => ?_
  obtain ⟨-, f1, f2, f3⟩ := solve_inv (by omega) I hp
  rw [f1, f2, f3, e1, e2, e3', innerProd_eq rfl hpl hpl]
  refine Out.bind (hu _ _ (cut_near hpl hκ.le hpn) (cut_near hpl hκ.le hpn)) fun r hr => Out.pure ?_
  refine le_trans (le_of_eq ?_) hr
  congr 2
  unfold costFn
  rw [← hy0]
  exact total_congr (fun _ _ _ _ _ _ => rfl) (fun k hk => by simp [cut, hk]) (fun k hk => by simp [cut, hk])

/-! ## The gradient -/

/-- The exact problem: the matrix of the system, its inverse and its derivative, and the derivatives of the coefficients. -/
theorem exact_problem {b : Basis} (hb : Interpolable b) {tau : List ℝ} (ht : ∀ t ∈ tau, 1 / 10 ^ 6 ≤ t) (c : ℕ) (w : ℕ → ℕ → ℝ) {idx : ℕ} (hi : idx < tau.length) :
    ∃ A inv D : Mat, ∃ d0 : Vec, System b (b.dim / 2 - 1) tau.length c (vecOf tau) A ∧
      (∀ i < b.dim * c * tau.length, ∀ j < b.dim * c * tau.length, ∑ k ∈ Finset.range (b.dim * c * tau.length), inv i k * A k j = if i = j then 1 else 0) ∧
      (∀ i < b.dim * c * tau.length, ∀ j < b.dim * c * tau.length, ∑ k ∈ Finset.range (b.dim * c * tau.length), A i k * inv k j = if i = j then 1 else 0) ∧
      (∀ x : Cond tau.length c (b.dim / 2 - 1), D (row tau.length c (b.dim / 2 - 1) x) = overI idx (bufsT b (vecOf tau)) x fun _ => 0) ∧
      Solves (b.dim * c * tau.length) A d0 (D.mulVec (b.dim * c * tau.length) (sol b tau.length c w (vecOf tau))) ∧
      ∀ k < b.dim * c * tau.length, HasDerivAt (fun z => sol b tau.length c w (Function.update (vecOf tau) idx z) k) (- d0 k) (vecOf tau idx) := by
  have U := Props.usable_of hb.valid hb.even hb.ne hb.left hb.right
  have hn : 0 < tau.length := by omega
  have hposv : ∀ i < tau.length, 0 < vecOf tau i := fun i hi' => vecOf_pos (fun t h => lt_of_lt_of_le (by norm_num) (ht t h)) hi'
  have hind : Independent b := by
    cases b with
    | b0101 a => exact hb.pos a rfl
    | _ => trivial
  obtain ⟨m, hm⟩ : ∃ m, m = b.dim / 2 - 1 := ⟨_, rfl⟩
  rw [← hm] at U ⊢
  obtain ⟨N, hN⟩ : ∃ N, N = b.dim * c * tau.length := ⟨_, rfl⟩
  rw [← hN]
  let A : ℝ → Mat := fun z => fillP (2 * m + 2) c tau.length (bufs b (Function.update (vecOf tau) idx z)) Mat.zero
  have hArow : ∀ z (x : Cond tau.length c m), A z (row tau.length c m x) = over (bufs b (Function.update (vecOf tau) idx z)) x fun _ => 0 :=
    fun z x => fillP_rows _ hn (clean_zero _ _ _) x
  have hAS : ∀ z, System b m tau.length c (Function.update (vecOf tau) idx z) (A z) := fun z => ⟨hArow z⟩
  have hself : Function.update (vecOf tau) idx (vecOf tau idx) = vecOf tau := Function.update_eq_self _ _
  obtain ⟨D, hD⟩ : ∃ D, D = derP (2 * m + 2) c tau.length idx (bufsT b (vecOf tau)) Mat.zero := ⟨_, rfl⟩
  have hDrow : ∀ x : Cond tau.length c m, D (row tau.length c m x) = overI idx (bufsT b (vecOf tau)) x fun _ => 0 := fun x => by
    rw [hD]; exact derP_rows _ hi (cleanI_zero _ _ _ _) x
  have hA : ∀ i < N, ∀ j < N, HasDerivAt (fun z => A z i j) (D i j) (vecOf tau idx) := by
    intro i hi' j hj'
    obtain ⟨x, rfl⟩ := row_surj (n := tau.length) (c := c) (h := m) hn (r := i) (by rw [hN, U.dim] at hi'; exact hi')
    rw [hDrow x, show (fun z => A z (row tau.length c m x) j) = fun z => over (bufs b (Function.update (vecOf tau) idx z)) x (fun _ => 0) j from
      funext fun z => congrFun (hArow z x) j]
    exact over_hasDerivAt U (hposv idx hi).ne' x j
  have hS := hAS (vecOf tau idx)
  rw [hself] at hS
  have hinvA : Invertible N (A (vecOf tau idx)) := by
    rw [hN]; exact system_invertible U hind hn hposv hS
  obtain ⟨v, hv⟩ : ∃ v : Vec, ∀ x : Cond tau.length c m, v (row tau.length c m x) = x.target w := by
    classical
    refine ⟨fun r => if h : ∃ x : Cond tau.length c m, row tau.length c m x = r then h.choose.target w else 0, fun x => ?_⟩
    have hex : ∃ x' : Cond tau.length c m, row tau.length c m x' = row tau.length c m x := ⟨x, rfl⟩
    beta_reduce
    rw [dif_pos hex, row_injective hn hex.choose_spec]
  have hsolA : ∀ᶠ z in nhds (vecOf tau idx), Solves N (A z) (sol b tau.length c w (Function.update (vecOf tau) idx z)) v := by
    filter_upwards [lt_mem_nhds (hposv idx hi)] with z hz
    have hzp : ∀ i < tau.length, 0 < Function.update (vecOf tau) idx z i := fun i hi' => by
      by_cases hii : i = idx
      · rw [hii, Function.update_self]; exact hz
      · rw [Function.update_of_ne hii]; exact hposv i hi'
    rw [hN]
    exact (solves_iff U hn (fun i hi' => (hzp i hi').ne') (hAS z) hv _).mpr (sol_spec hb hn hzp).1
  obtain ⟨inv, hinv⟩ := hinvA
  obtain ⟨d0, hd0⟩ : ∃ d0 : Vec, Solves N (A (vecOf tau idx)) d0 (D.mulVec N (sol b tau.length c w (vecOf tau))) := by
    refine ⟨fun k => ∑ r ∈ Finset.range N, inv k r * D.mulVec N (sol b tau.length c w (vecOf tau)) r, fun r hr => ?_⟩
    have e : ∀ k ∈ Finset.range N, A (vecOf tau idx) r k * ∑ j ∈ Finset.range N, inv k j * D.mulVec N (sol b tau.length c w (vecOf tau)) j =
        ∑ j ∈ Finset.range N, A (vecOf tau idx) r k * inv k j * D.mulVec N (sol b tau.length c w (vecOf tau)) j := fun k _ => by
      rw [Finset.mul_sum]; exact Finset.sum_congr rfl fun j _ => by ring
    rw [Finset.sum_congr rfl e, Finset.sum_comm, Finset.sum_congr rfl fun j hj => by rw [← Finset.sum_mul, (hinv r hr j (Finset.mem_range.mp hj)).2]]
    simp [hr]
  exact ⟨A (vecOf tau idx), inv, D, d0, hS, fun i hi j hj => (hinv i hi j hj).1, fun i hi j hj => (hinv i hi j hj).2, hDrow, hd0,
    solution_hasDerivAt hA ⟨inv, hinv⟩ hsolA (by rw [hself]; exact hd0)⟩

/-- The derivatives of the coefficients exist, and those that a call finds tend to them. -/
theorem coeff_sol {b : Basis} (hb : Interpolable b) (hcl : Clear b (-1)) (hcr : Clear b 1) {tau : List ℝ} (ht : ∀ t ∈ tau, 1 / 10 ^ 6 ≤ t) (c : ℕ) (w : ℕ → ℕ → ℝ)
    {idx : ℕ} (hi : idx < tau.length) : ∃ d : Vec,
      (∀ k < b.dim * c * tau.length, HasDerivAt (fun z => sol b tau.length c w (Function.update (vecOf tau) idx z) k) (d k) (vecOf tau idx)) ∧
      ∀ ε > 0, ∃ δ > 0, ∃ κ > 0, ∀ᶠ u in 𝓝 (0 : ℝ × ℝ), ∀ η, 0 ≤ η → η ≤ δ → ∀ lu, StableLU η (b.dim * c * tau.length) lu → ∀ s, Inv (b.dim / 2 - 1) s → s.basis = b →
        s.codim = c → s.n = tau.length → ∀ y : List ℝ, y.length = b.dim * c * tau.length →
        (∀ k < b.dim * c * tau.length, |vecOf y k - sol b tau.length c w (vecOf tau) k| ≤ κ) → All (Rounded.coeffDerivative u lu s y tau idx)
        (Out (fun _ => False) fun q => Rounded.coeffDerivative u lu s y tau idx (.ok q) ∧ ∀ k < b.dim * c * tau.length, |q.2 k - d k| ≤ ε) := by
  have U := Props.usable_of hb.valid hb.even hb.ne hb.left hb.right
  obtain ⟨A, inv, D, d0, hS, hinv, hinv', hDrow, hd0, hder⟩ := exact_problem hb ht c w hi
  refine ⟨fun k => - d0 k, hder, fun ε hε => ?_⟩
  obtain ⟨δ, hδ, κ, hκ, H⟩ := coeff_near U hcl hcr hi rfl ht rfl hS hinv hinv' hDrow hd0 hε
  refine ⟨δ, hδ, κ, hκ, H.mono fun u hu η h1 h2 lu hlu s I e1 e2 e3 y hy hyn => ?_⟩
  refine All.mono (hu η h1 h2 lu hlu s I e1 e2 e3 y hy hyn) ?_
  rintro r (h | ⟨q, ⟨h3, h4⟩, rfl⟩)
  · exact .inl h
  · exact .inr ⟨q, ⟨h3, fun k hk => by simpa using h4 k hk⟩, rfl⟩

/-- One pass of the loop. -/
theorem gradStep_near {b : Basis} (hb : Interpolable b) (hcl : Clear b (-1)) (hcr : Clear b 1) {weights : List (ℕ × ℝ)} (ho : ∀ p ∈ weights, Adds b p.1)
    (ho' : ∀ p ∈ weights, AddsDtau b p.1) (mem : LagMem) {tau : List ℝ} (ht : ∀ t ∈ tau, 1 / 10 ^ 6 ≤ t) (w : Pts) {idx : ℕ} (hi : idx < tau.length) : ∃ d : Vec,
      (∀ k < b.dim * w.cols * tau.length, HasDerivAt (fun z => sol b tau.length w.cols w.at' (Function.update (vecOf tau) idx z) k) (d k) (vecOf tau idx)) ∧
      ∀ ε > 0, ∃ δ > 0, ∃ κ > 0, ∀ᶠ u in 𝓝 (0 : ℝ × ℝ), ∀ η, 0 ≤ η → η ≤ δ → ∀ lu, StableLU η (b.dim * w.cols * tau.length) lu → ∀ s : Sobolev, s.mem = mem → s.weights = weights →
        ∀ st : Interp × List ℝ, Inv (b.dim / 2 - 1) st.1 ∧ st.1.basis = b ∧ st.1.codim = w.cols ∧ st.1.n = tau.length → idx < st.2.length →
        ∀ y : List ℝ, y.length = b.dim * w.cols * tau.length → (∀ k < b.dim * w.cols * tau.length, |vecOf y k - sol b tau.length w.cols w.at' (vecOf tau) k| ≤ κ) →
        All (gradStep u lu s tau y idx st) (Out (fun _ => False) fun st' => (Inv (b.dim / 2 - 1) st'.1 ∧ st'.1.basis = b ∧ st'.1.codim = w.cols ∧ st'.1.n = tau.length) ∧
          ∃ r, st'.2 = st.2.set idx r ∧ |r - gradFn b mem weights tau.length w.cols (vecOf tau) (sol b tau.length w.cols w.at' (vecOf tau)) d idx| ≤ ε) := by
  have hpos : ∀ i < tau.length, vecOf tau i ≠ 0 := fun i hi' => (vecOf_pos (fun t h => lt_of_lt_of_le (by norm_num) (ht t h)) hi').ne'
  obtain ⟨d, hd, H⟩ := coeff_sol hb hcl hcr ht w.cols w.at' hi
  refine ⟨d, hd, fun ε hε => ?_⟩
  obtain ⟨N, hN⟩ : ∃ N, N = b.dim * w.cols * tau.length := ⟨_, rfl⟩
  obtain ⟨κ1, hκ1, H1⟩ := two_near (F := fun u y d => gradX u b mem weights tau.length w.cols (vecOf tau) y d idx) (gradX_conv hb.valid (posParam_of hb) mem ho ho' (n := tau.length) (codim := w.cols) hpos hi
    (cut N (sol b tau.length w.cols w.at' (vecOf tau))) (cut N d)) hε
  obtain ⟨δ, hδ, κ, hκ, H⟩ := H κ1 hκ1
  refine ⟨δ, hδ, min κ κ1, lt_min hκ hκ1, ?_⟩
  filter_upwards [H, H1] with u hu hu1 η h1 h2 lu hlu s hmem hws st I hst y hy hyn
  obtain ⟨I, e1, e2, e3⟩ := I
  rw [← hN] at hy hyn
  unfold gradStep
  refine Out.bind (hu η h1 h2 lu hlu st.1 I e1 e2 e3 y (hN ▸ hy) fun k hk => (hyn k (hN ▸ hk)).trans (min_le_left _ _)) fun p ⟨hp, hpn⟩ => ?_
  rw [← hN] at hpn
  obtain ⟨I', f1, f2, f3⟩ := coeff_inv (by omega) I hp
  have hsz : p.1.size = N := by unfold Interp.size; rw [f1, f2, f3, e1, e2, e3, hN]
  rw [hsz, f1, f2, f3, e1, e2, e3, hmem, hws, gradEntry_eq rfl hi (hN ▸ hy) (by simp [hN])]
  refine Out.bind (hu1 _ _ (cut_near hy hκ1.le fun k hk => (hyn k hk).trans (min_le_right _ _)) (cut_near (by simp) hκ1.le fun k hk => by
    rw [vecOf_map_range hk]; exact hpn k hk)) fun r hr => ?_
  unfold store
  rw [if_pos hst]
  refine Out.bind (Out.lift (P := fun l => l = st.2.set idx r) rfl) fun l hl => Out.pure ⟨⟨I', f1.trans e1, f2.trans e2, f3.trans e3⟩, r, hl, ?_⟩
  refine le_trans (le_of_eq ?_) hr
  congr 2
  unfold gradFn
  congr 1
  · refine Finset.sum_congr rfl fun c hc => form_congr (fun _ _ _ _ => rfl) (fun k hk => ?_) fun k hk => ?_
    · simp only [part, cut]; rw [if_pos (hN ▸ part_bound hi (Finset.mem_range.mp hc) hk)]
    · simp only [part, cut]; rw [if_pos (hN ▸ part_bound hi (Finset.mem_range.mp hc) hk)]
  · congr 1
    exact total_congr (fun _ _ _ _ _ _ => rfl) (fun k hk => by simp [cut, hN, hk]) (fun k hk => by simp [cut, hN, hk])

theorem min_pos (n : ℕ) {r : ℕ → ℝ} (h : ∀ i < n, 0 < r i) : ∃ κ > 0, ∀ i < n, κ ≤ r i := by
  induction n with
  | zero => exact ⟨1, one_pos, by simp⟩
  | succ n ih =>
    obtain ⟨κ, h1, h2⟩ := ih fun i hi => h i (by omega)
    refine ⟨min κ (r n), lt_min h1 (h n (by omega)), fun i hi => ?_⟩
    rcases Nat.lt_succ_iff_lt_or_eq.mp hi with h3 | rfl
    · exact (min_le_left _ _).trans (h2 i h3)
    · exact min_le_right _ _

theorem grad_near {b : Basis} (hb : Interpolable b) (hcl : Clear b (-1)) (hcr : Clear b 1) {weights : List (ℕ × ℝ)} (ho : ∀ p ∈ weights, Adds b p.1)
    (ho' : ∀ p ∈ weights, AddsDtau b p.1) (mem : LagMem) {tau : List ℝ} (hne : tau ≠ []) (ht : ∀ t ∈ tau, 1 / 10 ^ 6 ≤ t) {w : Pts} (hw : w.rows = tau.length + 1)
    {ε : ℝ} (hε : 0 < ε) : ∃ g : ℕ → ℝ, (∀ idx < tau.length, ∃ d : Vec,
        (∀ k < b.dim * w.cols * tau.length, HasDerivAt (fun z => sol b tau.length w.cols w.at' (Function.update (vecOf tau) idx z) k) (d k) (vecOf tau idx)) ∧
        g idx = gradFn b mem weights tau.length w.cols (vecOf tau) (sol b tau.length w.cols w.at' (vecOf tau)) d idx) ∧
      ∃ δ > 0, ∀ᶠ u in 𝓝 (0 : ℝ × ℝ), ∀ η, 0 ≤ η → η ≤ δ → ∀ lu, StableLU η (b.dim * w.cols * tau.length) lu → ∀ s, RSReach w b weights mem s →
        ∀ buff : List ℝ, tau.length ≤ buff.length → All (Rounded.grad u lu s tau buff) (Out (fun _ => False) fun q => q.2.length = buff.length ∧
          (∀ idx < tau.length, |vecOf q.2 idx - g idx| ≤ ε) ∧ ∀ idx, tau.length ≤ idx → vecOf q.2 idx = vecOf buff idx) := by
  have U := Props.usable_of hb.valid hb.even hb.ne hb.left hb.right
  have hn : 0 < tau.length := List.length_pos_of_ne_nil hne
  have hpos : ∀ i < tau.length, 0 < vecOf tau i := fun i hi' => vecOf_pos (fun t h => lt_of_lt_of_le (by norm_num) (ht t h)) hi'
  have hI := (sol_spec hb (codim := w.cols) (w := w.at') hn hpos).1
  choose! d hd H using fun idx (hi : idx < tau.length) => gradStep_near hb hcl hcr ho ho' mem ht w hi
  choose! δ hδ κ hκ H using fun idx hi => H idx hi ε hε
  obtain ⟨δ0, hδ0, Hδ⟩ := min_pos tau.length hδ
  obtain ⟨κ0, hκ0, Hκ⟩ := min_pos tau.length hκ
  refine ⟨fun idx => gradFn b mem weights tau.length w.cols (vecOf tau) (sol b tau.length w.cols w.at' (vecOf tau)) (d idx) idx, fun idx hi => ⟨d idx, hd idx hi, rfl⟩, ?_⟩
  obtain ⟨δ1, hδ1, H'⟩ := solve_near_inv hb hcl hcr hne ht hw hI hκ0
  refine ⟨min δ0 δ1, lt_min hδ0 hδ1, ?_⟩
  filter_upwards [H', (Filter.eventually_all_finset (Finset.range tau.length)).mpr fun idx hi => H idx (Finset.mem_range.mp hi)] with u hu' hu η h1 h2 lu hlu s hs buff hbuff
  obtain ⟨⟨I, e1, e2, e3⟩, rfl, rfl, rfl⟩ := rsreach_inv U.dim (by omega) hs
  have e3' : s.interp.n = tau.length := by omega
  unfold Rounded.grad
  refine Out.bind (hu' η h1 (h2.trans (min_le_right _ _)) lu hlu s.interp I e1 e2 e3') fun p ⟨hp, hpl, hpn⟩ => ?_
  obtain ⟨I', f1, f2, f3⟩ := solve_inv (by omega) I hp
  rw [f3, e3']
  refine Out.bind (loop_out (fun k (st : Interp × List ℝ) => (Inv (b.dim / 2 - 1) st.1 ∧ st.1.basis = b ∧ st.1.codim = s.points.cols ∧ st.1.n = tau.length) ∧
      st.2.length = buff.length ∧ (∀ idx < k, |vecOf st.2 idx - gradFn b s.mem s.weights tau.length s.points.cols (vecOf tau)
        (sol b tau.length s.points.cols s.points.at' (vecOf tau)) (d idx) idx| ≤ ε) ∧ ∀ idx, k ≤ idx → vecOf st.2 idx = vecOf buff idx)
    (Nat.zero_le _) ⟨⟨I', f1.trans e1, f2.trans e2, f3.trans e3'⟩, rfl, fun idx h => absurd h (by omega), fun _ _ => rfl⟩ ?_) fun st ⟨_, h4, h5, h6⟩ => Out.pure ⟨h4, h5, h6⟩
  rintro idx - hidx st ⟨g1, g2, g3, g4⟩
  refine All.mono (hu idx (Finset.mem_range.mpr hidx) η h1 (h2.trans ((min_le_left _ _).trans (Hδ idx hidx))) lu hlu s rfl rfl st g1 (by omega) p.2 hpl
    fun k hk => (hpn k hk).trans (Hκ idx hidx)) ?_
  rintro r (h | ⟨q, ⟨h3, r, h4, h5⟩, rfl⟩)
  · exact .inl h
  refine .inr ⟨q, ⟨h3, by rw [h4]; simpa using g2, fun k hk => ?_, fun k hk => ?_⟩, rfl⟩
  · rw [h4, vecOf_set (by omega)]
    by_cases hk' : k = idx
    · subst hk'; rw [Function.update_self]; exact h5
    · rw [Function.update_of_ne hk']; exact g3 k (by omega)
  · rw [h4, vecOf_set (by omega), Function.update_of_ne (by omega)]
    exact g4 k (by omega)

end GSplines.Rounded
