import Verif.Proofs.RateInner

/-! # Value and gradient of the cost: errors proportional to the rounding errors and the backward error -/

namespace GSplines.Rounded

open Nd Spec Interp Sobolev

/-- The rounding errors are at most `e` together. -/
def Within (u : ℝ × ℝ) (e : ℝ) : Prop := 0 ≤ u.1 ∧ 0 ≤ u.2 ∧ u.1 + u.2 ≤ e

theorem Within.mono {u : ℝ × ℝ} {e e' : ℝ} (h : Within u e) (he : e ≤ e') : Within u e' := ⟨h.1, h.2.1, h.2.2.trans he⟩

theorem Within.small {u : ℝ × ℝ} {e δ : ℝ} (h : Within u e) (he : e ≤ δ) : Small u δ :=
  ⟨h.1, by linarith [h.2.1, h.2.2], h.2.1, by linarith [h.1, h.2.2]⟩

theorem Within.sz {u : ℝ × ℝ} {e : ℝ} (h : Within u e) : sz u ≤ e := h.2.2

theorem fits {C e δ : ℝ} (hC : 1 ≤ C) (h : e ≤ δ / C) : C * e ≤ δ := by
  rw [le_div_iff₀ (by linarith)] at h
  linarith

theorem grow {C e : ℝ} (hC : 1 ≤ C) (he : 0 ≤ e) : e ≤ C * e := by nlinarith

/-- Outcomes of a program whose input is off by at most `e`. -/
theorem rate_all {α β : Type} [Gauge α] [Gauge β] {F : ℝ × ℝ → α → Nd β} {x : α} {y : β} (h : RateAt F x y) :
    ∃ C ≥ (1 : ℝ), ∃ δ > (0 : ℝ), ∀ e, 0 ≤ e → e ≤ δ → ∀ u, Within u e → ∀ a, close e a x → All (F u a) (Out (fun _ => False) fun b => close (C * e) b y) := by
  obtain ⟨C, hC, δ, hδ, h⟩ := h
  refine ⟨max 1 (2 * C), le_max_left _ _, δ, hδ, fun e h0 he u hu a ha o ho => ?_⟩
  obtain ⟨b, rfl, hb⟩ := (h u (hu.small he) a o ho).1 e h0 he ha
  refine .inr ⟨b, Gauge.mono' ?_ hb, rfl⟩
  have h1 : C * (Nd.sz u + e) ≤ C * (2 * e) := mul_le_mul_of_nonneg_left (by linarith [hu.sz]) hC
  have h2 : 2 * C * e ≤ max 1 (2 * C) * e := mul_le_mul_of_nonneg_right (le_max_right _ _) h0
  linarith

theorem BufNearT.mono {b : Basis} {δ δ' s tau : ℝ} {q : Vec × Mat} (h : δ ≤ δ') (hq : BufNearT b δ s tau q) : BufNearT b δ' s tau q :=
  ⟨fun k hk => (hq.1 k hk).trans h, fun k hk j hj => (hq.2 k hk j hj).trans h⟩

theorem fillBuffersTau_rate {b : Basis} {h : ℕ} (hb : Usable b h) {s tau : ℝ} (ht : tau ≠ 0) (hc : Clear b s) (hc' : b.CleanAt s) :
    ∃ C ≥ (1 : ℝ), ∃ δ > (0 : ℝ), ∀ e, 0 ≤ e → e ≤ δ → ∀ u, Within u e → All (fillBuffersTau u b s tau) (Out (fun _ => False) (BufNearT b (C * e) s tau)) := by
  obtain ⟨z0, c0, e0⟩ := evalDerivWrtTau_rate hb.valid ht (hb.order (Nat.zero_le _)) hc hc'
  have hz : ∀ j, ∃ z : Vec, j < b.dim - 2 → RateAt (fun u (_ : Unit) => evalDerivWrtTau u b s tau (j + 1)) () z ∧ ∀ k < b.dim, z k = b.evT s tau (j + 1) k := by
    intro j
    by_cases hj : j < b.dim - 2
    · obtain ⟨z, h1, h2⟩ := evalDerivWrtTau_rate hb.valid ht (hb.order (show j + 1 ≤ b.dim - 2 by omega)) hc hc'
      exact ⟨z, fun _ => ⟨h1, h2⟩⟩
    · exact ⟨fun _ => 0, fun h => absurd h hj⟩
  choose z hz using hz
  have hl := RateAt.loop (a := 0) (b := b.dim - 2) (α := Unit) (σ := Mat) (body := fun u j _ (m : Mat) => do
      let v ← evalDerivWrtTau u b s tau (j + 1)
      return fun k j' => if j' = j then v k else m k j') (exact := fun j m => fun k j' => if j' = j then z j k else m k j') (x := ()) (s := Mat.zero)
    fun j _ hj m => by
      refine RateAt.bind (RateAt.comp (x := ((), m)) (f := fun _ : Unit × Mat => ()) (hz j hj).1 (LLip.const _ _)) ?_
      refine RateAt.pure (f := fun (q : (Unit × Mat) × Vec) k j' => if j' = j then q.2 k else q.1.2 k j') (columns_llip j m (z j))
  have key : RateAt (fun u (_ : Unit) => fillBuffersTau u b s tau) () (z0, forLoop 0 (b.dim - 2) (fun j (m : Mat) => fun k j' => if j' = j then z j k else m k j') Mat.zero) := by
    unfold fillBuffersTau
    refine RateAt.bind c0 (RateAt.bind (RateAt.comp (x := ((), z0)) (f := fun q : Unit × Vec => ((), Mat.zero)) hl (LLip.const _ _)) ?_)
    exact RateAt.pure (f := fun q : (Unit × Vec) × Mat => (q.1.2, q.2)) (by fun_prop)
  obtain ⟨C, hC, δ, hδ, H⟩ := rate_all key
  refine ⟨C, hC, δ, hδ, fun e h0 he u hu r hr => ?_⟩
  obtain ⟨_, hf, _⟩ | ⟨q, hq, rfl⟩ := H e h0 he u hu () trivial r hr
  · exact hf.elim
  refine .inr ⟨q, ⟨fun k hk => ?_, fun k hk j hj => ?_⟩, rfl⟩
  · rw [← e0 k hk]
    exact hq.1 k
  · rw [← (hz j hj).2 k hk, ← columns_loop (b.dim - 2) z k j hj]
    exact hq.2 k j

theorem fillDer_rate {b : Basis} {h n c idx : ℕ} (hb : Usable b h) (hcl : Clear b (-1)) (hcr : Clear b 1) (hi : idx < n) {tau : List ℝ} (hl : tau.length = n)
    (ht : vecOf tau idx ≠ 0) {D0 : Mat} (hD : ∀ x : Cond n c h, D0 (row n c h x) = overI idx (bufsT b (vecOf tau)) x fun _ => 0) :
    ∃ C ≥ (1 : ℝ), ∃ δ > (0 : ℝ), ∀ e, 0 ≤ e → e ≤ δ → ∀ u, Within u e → ∀ m0, CleanI n c h idx m0 → All (fillDer u b c n tau idx m0)
      (Out (fun _ => False) fun d => CleanI n c h idx d ∧ ∀ r < b.dim * c * n, ∀ k, |d r k - D0 r k| ≤ C * e) := by
  obtain ⟨C1, hC1, δ1, hδ1, H1⟩ := fillBuffersTau_rate hb ht hcl hb.left
  obtain ⟨C2, hC2, δ2, hδ2, H2⟩ := fillBuffersTau_rate hb ht hcr hb.right
  refine ⟨max C1 C2, le_max_of_le_left hC1, min δ1 δ2, lt_min hδ1 hδ2, fun e h0 he u hu m0 hm => ?_⟩
  have hu1 := H1 e h0 (he.trans (min_le_left _ _)) u hu
  have hu2 := H2 e h0 (he.trans (min_le_right _ _)) u hu
  unfold fillDer
  rw [rd_ok (show idx < tau.length by omega)]
  refine Out.bind (Out.lift (P := fun t => t = vecOf tau idx) rfl) fun t ht => ?_
  subst ht
  refine Out.bind hu1 fun l hl' => Out.bind hu2 fun r hr' => ?_
  have hrow : ∀ x : Cond n c h, derBlocks b.dim c n idx l r m0 (row n c h x) = overI idx ⟨fun _ => l.1, fun _ => l.2, fun _ => r.1, fun _ => r.2⟩ x fun _ => 0 :=
    fun x => by rw [derBlocks_eq hi, hb.dim]; exact derP_rows _ hi hm x
  refine Out.pure ⟨fun x => ⟨_, hrow x⟩, fun r hr k => ?_⟩
  rw [hb.dim] at hr
  obtain ⟨x, rfl⟩ := row_surj (n := n) (c := c) (h := h) (by omega) hr
  rw [hrow x, hD x]
  exact overI_near hb (mul_nonneg (zero_le_one.trans (le_max_of_le_left hC1)) h0) (hl'.mono (mul_le_mul_of_nonneg_right (le_max_left _ _) h0))
    (hr'.mono (mul_le_mul_of_nonneg_right (le_max_right _ _) h0)) x k

/-- The product with the coefficients. -/
theorem matVec_all (n : ℕ) (D0 : Mat) (y0 : Vec) : ∃ C ≥ (1 : ℝ), ∃ δ > (0 : ℝ), ∀ e, 0 ≤ e → e ≤ δ → ∀ u, Within u e → ∀ (d : Mat) (y : Vec),
    (∀ r < n, ∀ k < n, |d r k - D0 r k| ≤ e) → (∀ k < n, |y k - y0 k| ≤ e) →
    All (matVec u n d y) (Out (fun _ => False) fun v => ∀ k < n, |v k - D0.mulVec n y0 k| ≤ C * e) := by
  obtain ⟨z, hz, ez⟩ := matVec_rate n D0 y0
  obtain ⟨C, hC, δ, hδ, H⟩ := rate_all hz
  refine ⟨C, hC, δ, hδ, fun e h0 he u hu d y hd hy => ?_⟩
  rw [matVec_congr (d' := fun i k => if i < n ∧ k < n then d i k else D0 i k) (y' := fun k => if k < n then y k else y0 k)
    (fun i hi k hk => (if_pos ⟨hi, hk⟩).symm) fun k hk => (if_pos hk).symm]
  intro r hr
  obtain ⟨_, hf, _⟩ | ⟨v, hv, rfl⟩ := H e h0 he u hu ((fun i k => if i < n ∧ k < n then d i k else D0 i k), fun k => if k < n then y k else y0 k) ⟨fun i k => by
      by_cases hik : i < n ∧ k < n
      · simp only [if_pos hik]; exact hd i hik.1 k hik.2
      · simp only [if_neg hik]; exact Gauge.refl' _ h0, fun k => by
      by_cases hk : k < n
      · simp only [if_pos hk]; exact hy k hk
      · simp only [if_neg hk]; exact Gauge.refl' _ h0⟩ r hr
  · exact hf.elim
  exact .inr ⟨v, fun k hk => by rw [← ez k hk]; exact hv k, rfl⟩

/-- The errors of the derivatives of the coefficients that a call finds. -/
theorem coeff_rate {b : Basis} {h n c idx N : ℕ} (U : Usable b h) (hcl : Clear b (-1)) (hcr : Clear b 1) (hi : idx < n) {tau : List ℝ} (hl : tau.length = n)
    (ht : ∀ t ∈ tau, 1 / 10 ^ 6 ≤ t) (hN : N = b.dim * c * n) {A inv D0 : Mat} (S : System b h n c (vecOf tau) A)
    (hinv : ∀ i < N, ∀ j < N, ∑ k ∈ Finset.range N, inv i k * A k j = if i = j then 1 else 0)
    (hinv' : ∀ i < N, ∀ j < N, ∑ k ∈ Finset.range N, A i k * inv k j = if i = j then 1 else 0)
    (hD : ∀ x : Cond n c h, D0 (row n c h x) = overI idx (bufsT b (vecOf tau)) x fun _ => 0) {y0 d0 : Vec} (hd0 : Solves N A d0 (D0.mulVec N y0)) :
    ∃ C ≥ (1 : ℝ), ∃ δ > (0 : ℝ), ∀ e, 0 ≤ e → e ≤ δ → ∀ u, Within u e → ∀ η, 0 ≤ η → η ≤ e → ∀ lu, StableLU η N lu → ∀ s, Inv h s → s.basis = b → s.codim = c → s.n = n →
      ∀ y : List ℝ, y.length = N → (∀ k < N, |vecOf y k - y0 k| ≤ e) → All (Rounded.coeffDerivative u lu s y tau idx)
        (Out (fun _ => False) fun q => Rounded.coeffDerivative u lu s y tau idx (.ok q) ∧ ∀ k < N, |q.2 k + d0 k| ≤ C * e) := by
  have hpos : ∀ i < n, vecOf tau i ≠ 0 := fun i hi' => (vecOf_pos (fun t h => lt_of_lt_of_le (by norm_num) (ht t h)) (by omega)).ne'
  obtain ⟨K, hK⟩ : ∃ K, K = ∑ i ∈ Finset.range N, ∑ r ∈ Finset.range N, |inv i r| := ⟨_, rfl⟩
  have hK0 : 0 ≤ K := by rw [hK]; exact Finset.sum_nonneg fun i _ => Finset.sum_nonneg fun r _ => abs_nonneg _
  obtain ⟨V, hV⟩ : ∃ V, V = ∑ r ∈ Finset.range N, |D0.mulVec N y0 r| + 1 := ⟨_, rfl⟩
  have hV0 : 0 ≤ V := by rw [hV]; exact add_nonneg (Finset.sum_nonneg fun i _ => abs_nonneg _) zero_le_one
  obtain ⟨D, hD', δ, hδ, H⟩ := perturbed_rate hinv hinv' hV0
  obtain ⟨C2, hC2, δ2, hδ2, Hmv⟩ := matVec_all N D0 y0
  obtain ⟨C1, hC1, δ1, hδ1, hfd⟩ := fillDer_rate (c := c) U hcl hcr hi hl (hpos idx hi) hD
  obtain ⟨C3', hC3', δ3, hδ3, hfm⟩ := fillMatrix_rate U hcl hcr (by omega) hl hpos S
  obtain ⟨C3, hC3, hC33⟩ : ∃ C3 ≥ (1 : ℝ), C3' ≤ C3 := ⟨max 1 C3', le_max_left _ _, le_max_right _ _⟩
  have hC12 : 1 ≤ C2 * C1 := one_le_mul_of_one_le_of_one_le hC2 hC1
  have hm : 0 < min (min (min (δ2 / C1) δ1) (min δ3 (δ / C3))) (1 / (C2 * C1)) := by
    refine lt_min (lt_min (lt_min ?_ hδ1) (lt_min hδ3 ?_)) ?_ <;> positivity
  refine ⟨max 1 (D * C3 + K * (C2 * C1)), le_max_left _ _, _, hm, fun e h0 he u hu η hη hηe lu hlu s I e1 e2 e3 y hy hyn => ?_⟩
  have i1 := he.trans (min_le_left _ _)
  have i2 := fits hC12 (he.trans (min_le_right _ _))
  have i3 := fits hC1 ((i1.trans (min_le_left _ _)).trans (min_le_left _ _))
  have i4 := (i1.trans (min_le_left _ _)).trans (min_le_right _ _)
  have i5 := (i1.trans (min_le_right _ _)).trans (min_le_left _ _)
  have i6 := fits hC3 ((i1.trans (min_le_right _ _)).trans (min_le_right _ _))
  have g1 := grow hC1 h0
  have g3 := grow hC3 h0
  replace hfd := hfd e h0 i4 u hu
  replace hfm := hfm u (hu.small i5)
  replace hmv := Hmv (C1 * e) (by linarith) i3 u (hu.mono g1)
  have hsz : s.size = N := by unfold Interp.size; rw [e1, e2, e3, hN]
  have hmat : Clean n c h s.mat := by have := I.mat; rwa [e2, e3] at this
  have hder : CleanI n c h idx (s.ders idx) := by have := I.ders idx (by omega); rwa [e2, e3] at this
  intro r hr
  have hr' := hr
  suffices hs : Out (fun _ => False) (fun q : Interp × Vec => ∀ k < N, |q.2 k + d0 k| ≤ max 1 (D * C3 + K * (C2 * C1)) * e) r by
    obtain ⟨_, h, _⟩ | ⟨q, hq, rfl⟩ := hs
    · exact h.elim
    · exact .inr ⟨q, ⟨hr', hq⟩, rfl⟩
  unfold Rounded.coeffDerivative at hr
  rw [if_neg (by push Not; exact ht), if_neg (by push Not; omega), e1, e2, e3] at hr
  clear hr'
  revert r
  refine Out.bind (hfd _ hder) fun d hd => ?_
  unfold Rounded.solveDerivative
  rw [if_neg (by rw [hsz]; simpa using hy), hsz, e1, e2, e3]
  refine Out.bind (hmv d (vecOf y) (fun r hr k _ => hd.2 r (hN ▸ hr) k) fun k hk => (hyn k hk).trans g1) fun v hv => Out.bind (hfm _ hmat) fun m hm => ?_
  have hCe : C3' * Nd.sz u ≤ C3 * e := mul_le_mul hC33 hu.sz (add_nonneg hu.1 hu.2.1) (by linarith)
  obtain ⟨hwc, hsol⟩ := H (C3 * e) (by linarith) i6 m (fun r hr k _ => (hm.2 r (hN ▸ hr) k).trans hCe) η hη (hηe.trans g3)
  have hsucc := hlu.succeeds m hwc
  rw [if_pos hsucc]
  refine Out.pure fun k hk => ?_
  have hvV : ∀ r < N, |v r| ≤ V := fun r hr => by
    have h1 := hv r hr
    have h2 : |D0.mulVec N y0 r| ≤ ∑ r ∈ Finset.range N, |D0.mulVec N y0 r| :=
      Finset.single_le_sum (f := fun r => |D0.mulVec N y0 r|) (fun _ _ => abs_nonneg _) (Finset.mem_range.mpr hr)
    have h4 : |v r| ≤ |v r - D0.mulVec N y0 r| + |D0.mulVec N y0 r| := by
      have := abs_add_le (v r - D0.mulVec N y0 r) (D0.mulVec N y0 r)
      simpa using this
    linarith
  have hy' : Solves N A (fun k => ∑ r ∈ Finset.range N, inv k r * v r) v := fun r hr => by
    have e : ∀ k ∈ Finset.range N, A r k * ∑ j ∈ Finset.range N, inv k j * v j = ∑ j ∈ Finset.range N, A r k * inv k j * v j := fun k _ => by
      rw [Finset.mul_sum]; exact Finset.sum_congr rfl fun j _ => by ring
    rw [Finset.sum_congr rfl e, Finset.sum_comm, Finset.sum_congr rfl fun j hj => by rw [← Finset.sum_mul, hinv' r hr j (Finset.mem_range.mp hj)]]
    simp [hr]
  have h1 := hsol _ v hvV hy' _ (hlu.stable m v hsucc) k hk
  have h2 := Residual.solution_error hinv hd0 (y := fun k => ∑ r ∈ Finset.range N, inv k r * v r) (ε := C2 * (C1 * e)) (fun r hr => by rw [hy' r hr]; exact hv r hr) hk
  rw [← hK] at h2
  simp only
  have h3 := abs_add_le (-(lu.solve N m v k - ∑ r ∈ Finset.range N, inv k r * v r)) (-((∑ r ∈ Finset.range N, inv k r * v r) - d0 k))
  rw [abs_neg, abs_neg] at h3
  have h4 : (D * C3 + K * (C2 * C1)) * e ≤ max 1 (D * C3 + K * (C2 * C1)) * e := mul_le_mul_of_nonneg_right (le_max_right _ _) h0
  refine (le_of_eq ?_).trans (h3.trans (by linarith))
  congr 1
  ring

/-- A program of two vectors. -/
theorem two_rate {F : ℝ × ℝ → Vec → Vec → Nd ℝ} {y0 d0 : Vec} {z : ℝ} (h : RateAt (fun u (p : Vec × Vec) => F u p.1 p.2) (y0, d0) z) :
    ∃ C ≥ (1 : ℝ), ∃ δ > (0 : ℝ), ∀ e, 0 ≤ e → e ≤ δ → ∀ u, Within u e → ∀ y d : Vec, (∀ k, |y k - y0 k| ≤ e) → (∀ k, |d k - d0 k| ≤ e) →
      All (F u y d) (Out (fun _ => False) fun r => |r - z| ≤ C * e) := by
  obtain ⟨C, hC, δ, hδ, H⟩ := rate_all h
  exact ⟨C, hC, δ, hδ, fun e h0 he u hu y d hy hd => H e h0 he u hu (y, d) ⟨hy, hd⟩⟩

/-- The coefficients, with one bound for all errors. -/
theorem solve_all {b : Basis} (hb : Interpolable b) (hcl : Clear b (-1)) (hcr : Clear b 1) {tau : List ℝ} (hne : tau ≠ []) (ht : ∀ t ∈ tau, 1 / 10 ^ 6 ≤ t) {w : Pts}
    (hw : w.rows = tau.length + 1) {y0 : Vec} (hy0 : Interpolates b tau.length w.cols (vecOf tau) w.at' y0) :
    ∃ C ≥ (1 : ℝ), ∃ δ > (0 : ℝ), ∀ e, 0 ≤ e → e ≤ δ → ∀ u, Within u e → ∀ η, 0 ≤ η → η ≤ e → ∀ lu, StableLU η (b.dim * w.cols * tau.length) lu → ∀ s, Inv (b.dim / 2 - 1) s →
      s.basis = b → s.codim = w.cols → s.n = tau.length → All (Rounded.solveInterpolation u lu s tau w) (Out (fun _ => False) fun q =>
        Rounded.solveInterpolation u lu s tau w (.ok q) ∧ q.2.length = b.dim * w.cols * tau.length ∧ ∀ k < b.dim * w.cols * tau.length, |vecOf q.2 k - y0 k| ≤ C * e) := by
  obtain ⟨C, hC, δ, hδ, H⟩ := solve_rate_inv hb hcl hcr hne ht hw hy0
  refine ⟨max 1 (2 * C), le_max_left _ _, δ, hδ, fun e h0 he u hu η hη hηe lu hlu s I e1 e2 e3 => ?_⟩
  refine All.mono (H u (hu.small he) η hη (hηe.trans he) lu hlu s I e1 e2 e3) ?_
  rintro r (h | ⟨q, ⟨h3, h4, h5⟩, rfl⟩)
  · exact .inl h
  refine .inr ⟨q, ⟨h3, h4, fun k hk => (h5 k hk).trans ?_⟩, rfl⟩
  have h1 : C * (Nd.sz u + η) ≤ C * (2 * e) := mul_le_mul_of_nonneg_left (by linarith [hu.sz]) hC
  have h2 : 2 * C * e ≤ max 1 (2 * C) * e := mul_le_mul_of_nonneg_right (le_max_right _ _) h0
  linarith

theorem cost_rate {b : Basis} (hb : Interpolable b) (hcl : Clear b (-1)) (hcr : Clear b 1) {weights : List (ℕ × ℝ)} (ho : ∀ p ∈ weights, Adds b p.1) (mem : LagMem)
    {tau : List ℝ} (hne : tau ≠ []) (ht : ∀ t ∈ tau, 1 / 10 ^ 6 ≤ t) {w : Pts} (hw : w.rows = tau.length + 1) :
    ∃ C ≥ (1 : ℝ), ∃ δ > (0 : ℝ), ∀ e, 0 ≤ e → e ≤ δ → ∀ u, Within u e → ∀ η, 0 ≤ η → η ≤ e → ∀ lu, StableLU η (b.dim * w.cols * tau.length) lu → ∀ s, RSReach w b weights mem s →
      All (Rounded.cost u lu s tau) (Out (fun _ => False) fun q => |q.2 - costFn b mem weights tau.length w.cols w.at' (vecOf tau)| ≤ C * e) := by
  have U := Props.usable_of hb.valid hb.even hb.ne hb.left hb.right
  have hn : 0 < tau.length := List.length_pos_of_ne_nil hne
  have hpos : ∀ i < tau.length, 0 < vecOf tau i := fun i hi' => vecOf_pos (fun t h => lt_of_lt_of_le (by norm_num) (ht t h)) hi'
  obtain ⟨y0, hy0⟩ : ∃ y0, y0 = sol b tau.length w.cols w.at' (vecOf tau) := ⟨_, rfl⟩
  have hI := (sol_spec hb (codim := w.cols) (w := w.at') hn hpos).1
  rw [← hy0] at hI
  obtain ⟨C1, hC1, δ1, hδ1, H⟩ := two_rate (innerX_rate hb.valid (posParam_of hb) mem ho (n := tau.length) (codim := w.cols) (fun i hi => (hpos i hi).ne')
    (cut (b.dim * w.cols * tau.length) y0) (cut (b.dim * w.cols * tau.length) y0))
  obtain ⟨C0, hC0, δ0, hδ0, H'⟩ := solve_all hb hcl hcr hne ht hw hI
  refine ⟨C1 * C0, one_le_mul_of_one_le_of_one_le hC1 hC0, min δ0 (δ1 / C0), lt_min hδ0 (by positivity), fun e h0 he u hu η h1 h2 lu hlu s hs => ?_⟩
  obtain ⟨⟨I, e1, e2, e3⟩, rfl, rfl, rfl⟩ := rsreach_inv U.dim (by omega) hs
  have e3' : s.interp.n = tau.length := by omega
  have g0 := grow hC0 h0
  unfold Rounded.cost
  refine Out.bind (H' e h0 (he.trans (min_le_left _ _)) u hu η h1 h2 lu hlu s.interp I e1 e2 e3') fun p ⟨hp, hpl, hpn⟩ => ?_
  obtain ⟨-, f1, f2, f3⟩ := solve_inv (by omega) I hp
  rw [f1, f2, f3, e1, e2, e3', innerProd_eq rfl hpl hpl]
  have hc := cut_near hpl (by linarith) hpn
  refine Out.bind (H (C0 * e) (by linarith) (fits hC0 (he.trans (min_le_right _ _))) u (hu.mono g0) _ _ hc hc) fun r hr => Out.pure ?_
  rw [mul_assoc]
  refine le_trans (le_of_eq ?_) hr
  congr 2
  unfold costFn
  rw [← hy0]
  exact total_congr (fun _ _ _ _ _ _ => rfl) (fun k hk => by simp [cut, hk]) (fun k hk => by simp [cut, hk])

/-- The derivatives of the coefficients exist, with the errors of those that a call finds. -/
theorem coeff_sol_rate {b : Basis} (hb : Interpolable b) (hcl : Clear b (-1)) (hcr : Clear b 1) {tau : List ℝ} (ht : ∀ t ∈ tau, 1 / 10 ^ 6 ≤ t) (c : ℕ) (w : ℕ → ℕ → ℝ)
    {idx : ℕ} (hi : idx < tau.length) : ∃ d : Vec,
      (∀ k < b.dim * c * tau.length, HasDerivAt (fun z => sol b tau.length c w (Function.update (vecOf tau) idx z) k) (d k) (vecOf tau idx)) ∧
      ∃ C ≥ (1 : ℝ), ∃ δ > (0 : ℝ), ∀ e, 0 ≤ e → e ≤ δ → ∀ u, Within u e → ∀ η, 0 ≤ η → η ≤ e → ∀ lu, StableLU η (b.dim * c * tau.length) lu → ∀ s, Inv (b.dim / 2 - 1) s →
        s.basis = b → s.codim = c → s.n = tau.length → ∀ y : List ℝ, y.length = b.dim * c * tau.length →
        (∀ k < b.dim * c * tau.length, |vecOf y k - sol b tau.length c w (vecOf tau) k| ≤ e) → All (Rounded.coeffDerivative u lu s y tau idx)
        (Out (fun _ => False) fun q => Rounded.coeffDerivative u lu s y tau idx (.ok q) ∧ ∀ k < b.dim * c * tau.length, |q.2 k - d k| ≤ C * e) := by
  have U := Props.usable_of hb.valid hb.even hb.ne hb.left hb.right
  obtain ⟨A, inv, D, d0, hS, hinv, hinv', hDrow, hd0, hder⟩ := exact_problem hb ht c w hi
  obtain ⟨C, hC, δ, hδ, H⟩ := coeff_rate U hcl hcr hi rfl ht rfl hS hinv hinv' hDrow hd0
  refine ⟨fun k => - d0 k, hder, C, hC, δ, hδ, fun e h0 he u hu η h1 h2 lu hlu s I e1 e2 e3 y hy hyn => ?_⟩
  refine All.mono (H e h0 he u hu η h1 h2 lu hlu s I e1 e2 e3 y hy hyn) ?_
  rintro r (h | ⟨q, ⟨h3, h4⟩, rfl⟩)
  · exact .inl h
  · exact .inr ⟨q, ⟨h3, fun k hk => by simpa using h4 k hk⟩, rfl⟩

/-- One pass of the loop. -/
theorem gradStep_rate {b : Basis} (hb : Interpolable b) (hcl : Clear b (-1)) (hcr : Clear b 1) {weights : List (ℕ × ℝ)} (ho : ∀ p ∈ weights, Adds b p.1)
    (ho' : ∀ p ∈ weights, AddsDtau b p.1) (mem : LagMem) {tau : List ℝ} (ht : ∀ t ∈ tau, 1 / 10 ^ 6 ≤ t) (w : Pts) {idx : ℕ} (hi : idx < tau.length) : ∃ d : Vec,
      (∀ k < b.dim * w.cols * tau.length, HasDerivAt (fun z => sol b tau.length w.cols w.at' (Function.update (vecOf tau) idx z) k) (d k) (vecOf tau idx)) ∧
      ∃ C ≥ (1 : ℝ), ∃ δ > (0 : ℝ), ∀ e, 0 ≤ e → e ≤ δ → ∀ u, Within u e → ∀ η, 0 ≤ η → η ≤ e → ∀ lu, StableLU η (b.dim * w.cols * tau.length) lu → ∀ s : Sobolev, s.mem = mem →
        s.weights = weights → ∀ st : Interp × List ℝ, Inv (b.dim / 2 - 1) st.1 ∧ st.1.basis = b ∧ st.1.codim = w.cols ∧ st.1.n = tau.length → idx < st.2.length →
        ∀ y : List ℝ, y.length = b.dim * w.cols * tau.length → (∀ k < b.dim * w.cols * tau.length, |vecOf y k - sol b tau.length w.cols w.at' (vecOf tau) k| ≤ e) →
        All (gradStep u lu s tau y idx st) (Out (fun _ => False) fun st' => (Inv (b.dim / 2 - 1) st'.1 ∧ st'.1.basis = b ∧ st'.1.codim = w.cols ∧ st'.1.n = tau.length) ∧
          ∃ r, st'.2 = st.2.set idx r ∧ |r - gradFn b mem weights tau.length w.cols (vecOf tau) (sol b tau.length w.cols w.at' (vecOf tau)) d idx| ≤ C * e) := by
  have hpos : ∀ i < tau.length, vecOf tau i ≠ 0 := fun i hi' => (vecOf_pos (fun t h => lt_of_lt_of_le (by norm_num) (ht t h)) hi').ne'
  obtain ⟨d, hd, C0, hC0, δ0, hδ0, H⟩ := coeff_sol_rate hb hcl hcr ht w.cols w.at' hi
  obtain ⟨N, hN⟩ : ∃ N, N = b.dim * w.cols * tau.length := ⟨_, rfl⟩
  obtain ⟨C1, hC1, δ1, hδ1, H1⟩ := two_rate (F := fun u y d => gradX u b mem weights tau.length w.cols (vecOf tau) y d idx) (gradX_rate hb.valid (posParam_of hb) mem ho ho' (n := tau.length) (codim := w.cols) hpos hi
    (cut N (sol b tau.length w.cols w.at' (vecOf tau))) (cut N d))
  refine ⟨d, hd, C1 * C0, one_le_mul_of_one_le_of_one_le hC1 hC0, min δ0 (δ1 / C0), lt_min hδ0 (by positivity), fun e h0 he u hu η h1 h2 lu hlu s hmem hws st I hst y hy hyn => ?_⟩
  have g0 := grow hC0 h0
  obtain ⟨I, e1, e2, e3⟩ := I
  rw [← hN] at hy hyn
  unfold gradStep
  refine Out.bind (H e h0 (he.trans (min_le_left _ _)) u hu η h1 h2 lu hlu st.1 I e1 e2 e3 y (hN ▸ hy) fun k hk => hyn k (hN ▸ hk)) fun p ⟨hp, hpn⟩ => ?_
  rw [← hN] at hpn
  obtain ⟨I', f1, f2, f3⟩ := coeff_inv (by omega) I hp
  have hsz : p.1.size = N := by unfold Interp.size; rw [f1, f2, f3, e1, e2, e3, hN]
  rw [hsz, f1, f2, f3, e1, e2, e3, hmem, hws, gradEntry_eq rfl hi (hN ▸ hy) (by simp [hN])]
  refine Out.bind (H1 (C0 * e) (by linarith) (fits hC0 (he.trans (min_le_right _ _))) u (hu.mono g0) _ _ (cut_near hy (by linarith) fun k hk => (hyn k hk).trans g0)
    (cut_near (by simp) (by linarith) fun k hk => by rw [vecOf_map_range hk]; exact hpn k hk)) fun r hr => ?_
  unfold store
  rw [if_pos hst]
  refine Out.bind (Out.lift (P := fun l => l = st.2.set idx r) rfl) fun l hl => Out.pure ⟨⟨I', f1.trans e1, f2.trans e2, f3.trans e3⟩, r, hl, ?_⟩
  rw [mul_assoc]
  refine le_trans (le_of_eq ?_) hr
  congr 2
  unfold gradFn
  congr 1
  · refine Finset.sum_congr rfl fun c hc => form_congr (fun _ _ _ _ => rfl) (fun k hk => ?_) fun k hk => ?_
    · simp only [part, cut]; rw [if_pos (hN ▸ part_bound hi (Finset.mem_range.mp hc) hk)]
    · simp only [part, cut]; rw [if_pos (hN ▸ part_bound hi (Finset.mem_range.mp hc) hk)]
  · congr 1
    exact total_congr (fun _ _ _ _ _ _ => rfl) (fun k hk => by simp [cut, hN, hk]) (fun k hk => by simp [cut, hN, hk])

theorem max_bound (n : ℕ) (C : ℕ → ℝ) : ∃ D ≥ (1 : ℝ), ∀ i < n, C i ≤ D := by
  induction n with
  | zero => exact ⟨1, le_rfl, by simp⟩
  | succ n ih =>
    obtain ⟨D, h1, h2⟩ := ih
    refine ⟨max D (C n), le_max_of_le_left h1, fun i hi => ?_⟩
    rcases Nat.lt_succ_iff_lt_or_eq.mp hi with h3 | rfl
    · exact (h2 i h3).trans (le_max_left _ _)
    · exact le_max_right _ _

theorem grad_rate {b : Basis} (hb : Interpolable b) (hcl : Clear b (-1)) (hcr : Clear b 1) {weights : List (ℕ × ℝ)} (ho : ∀ p ∈ weights, Adds b p.1)
    (ho' : ∀ p ∈ weights, AddsDtau b p.1) (mem : LagMem) {tau : List ℝ} (hne : tau ≠ []) (ht : ∀ t ∈ tau, 1 / 10 ^ 6 ≤ t) {w : Pts} (hw : w.rows = tau.length + 1) :
    ∃ g : ℕ → ℝ, (∀ idx < tau.length, ∃ d : Vec,
        (∀ k < b.dim * w.cols * tau.length, HasDerivAt (fun z => sol b tau.length w.cols w.at' (Function.update (vecOf tau) idx z) k) (d k) (vecOf tau idx)) ∧
        g idx = gradFn b mem weights tau.length w.cols (vecOf tau) (sol b tau.length w.cols w.at' (vecOf tau)) d idx) ∧
      ∃ C ≥ (1 : ℝ), ∃ δ > (0 : ℝ), ∀ e, 0 ≤ e → e ≤ δ → ∀ u, Within u e → ∀ η, 0 ≤ η → η ≤ e → ∀ lu, StableLU η (b.dim * w.cols * tau.length) lu → ∀ s, RSReach w b weights mem s →
        ∀ buff : List ℝ, tau.length ≤ buff.length → All (Rounded.grad u lu s tau buff) (Out (fun _ => False) fun q => q.2.length = buff.length ∧
          (∀ idx < tau.length, |vecOf q.2 idx - g idx| ≤ C * e) ∧ ∀ idx, tau.length ≤ idx → vecOf q.2 idx = vecOf buff idx) := by
  have U := Props.usable_of hb.valid hb.even hb.ne hb.left hb.right
  have hn : 0 < tau.length := List.length_pos_of_ne_nil hne
  have hpos : ∀ i < tau.length, 0 < vecOf tau i := fun i hi' => vecOf_pos (fun t h => lt_of_lt_of_le (by norm_num) (ht t h)) hi'
  have hI := (sol_spec hb (codim := w.cols) (w := w.at') hn hpos).1
  choose! d hd C hC δ hδ H using fun idx (hi : idx < tau.length) => gradStep_rate hb hcl hcr ho ho' mem ht w hi
  obtain ⟨δ1, hδ1, Hδ⟩ := min_pos tau.length hδ
  obtain ⟨C1, hC1, HC⟩ := max_bound tau.length C
  refine ⟨fun idx => gradFn b mem weights tau.length w.cols (vecOf tau) (sol b tau.length w.cols w.at' (vecOf tau)) (d idx) idx, fun idx hi => ⟨d idx, hd idx hi, rfl⟩, ?_⟩
  obtain ⟨C0, hC0, δ0, hδ0, H'⟩ := solve_all hb hcl hcr hne ht hw hI
  refine ⟨C1 * C0, one_le_mul_of_one_le_of_one_le hC1 hC0, min δ0 (δ1 / C0), lt_min hδ0 (by positivity), fun e h0 he u hu η h1 h2 lu hlu s hs buff hbuff => ?_⟩
  have g0 := grow hC0 h0
  have i1 := fits hC0 (he.trans (min_le_right _ _))
  obtain ⟨⟨I, e1, e2, e3⟩, rfl, rfl, rfl⟩ := rsreach_inv U.dim (by omega) hs
  have e3' : s.interp.n = tau.length := by omega
  unfold Rounded.grad
  refine Out.bind (H' e h0 (he.trans (min_le_left _ _)) u hu η h1 h2 lu hlu s.interp I e1 e2 e3') fun p ⟨hp, hpl, hpn⟩ => ?_
  obtain ⟨I', f1, f2, f3⟩ := solve_inv (by omega) I hp
  rw [f3, e3']
  refine Out.bind (loop_out (fun k (st : Interp × List ℝ) => (Inv (b.dim / 2 - 1) st.1 ∧ st.1.basis = b ∧ st.1.codim = s.points.cols ∧ st.1.n = tau.length) ∧
      st.2.length = buff.length ∧ (∀ idx < k, |vecOf st.2 idx - gradFn b s.mem s.weights tau.length s.points.cols (vecOf tau)
        (sol b tau.length s.points.cols s.points.at' (vecOf tau)) (d idx) idx| ≤ C1 * C0 * e) ∧ ∀ idx, k ≤ idx → vecOf st.2 idx = vecOf buff idx)
    (Nat.zero_le _) ⟨⟨I', f1.trans e1, f2.trans e2, f3.trans e3'⟩, rfl, fun idx h => absurd h (by omega), fun _ _ => rfl⟩ ?_) fun st ⟨_, h4, h5, h6⟩ => Out.pure ⟨h4, h5, h6⟩
  rintro idx - hidx st ⟨g1, g2, g3, g4⟩
  refine All.mono (H idx hidx (C0 * e) (by linarith) (i1.trans (Hδ idx hidx)) u (hu.mono g0) η h1 (h2.trans g0) lu hlu s rfl rfl st g1 (by omega) p.2 hpl hpn) ?_
  rintro r (h | ⟨q, ⟨h3, r, h4, h5⟩, rfl⟩)
  · exact .inl h
  refine .inr ⟨q, ⟨h3, by rw [h4]; simpa using g2, fun k hk => ?_, fun k hk => ?_⟩, rfl⟩
  · rw [h4, vecOf_set (by omega)]
    by_cases hk' : k = idx
    · subst hk'
      rw [Function.update_self, mul_assoc]
      exact h5.trans (mul_le_mul_of_nonneg_right (HC _ hidx) (by linarith))
    · rw [Function.update_of_ne hk']; exact g3 k (by omega)
  · rw [h4, vecOf_set (by omega), Function.update_of_ne (by omega)]
    exact g4 k (by omega)

end GSplines.Rounded
