import Verif.Spec.WellPosed
import Verif.Proofs.CostCont
import Verif.Proofs.Residual
import Verif.Proofs.RoundingCurve
import Mathlib.Topology.UniformSpace.HeineCantor

/-! # The interpolating curve depends continuously on the data -/

namespace GSplines.WellPosed

open GSplines Spec Finset Interp Sobolev Topology Filter

/-- Lengths and way points. -/
abbrev Data := Vec × (ℕ → ℕ → ℝ)

/-- Data with positive lengths. -/
def good (n : ℕ) : Set Data := {z | ∀ i < n, 0 < z.1 i}

theorem good_open (n : ℕ) : IsOpen (good n) := by
  have e : good n = ⋂ i ∈ range n, {z : Data | 0 < z.1 i} := by ext z; simp [good]
  rw [e]
  refine isOpen_biInter_finset fun i _ => isOpen_lt continuous_const ?_
  fun_prop

theorem det_continuousOn {E : Type} [TopologicalSpace E] {N : ℕ} {S : Set E} {M : E → Matrix (Fin N) (Fin N) ℝ} (h : ∀ i j, ContinuousOn (fun z => M z i j) S) :
    ContinuousOn (fun z => (M z).det) S := by
  simp only [Matrix.det_apply]
  refine continuousOn_finset_sum _ fun σ _ => ?_
  refine ContinuousOn.const_smul ?_ _
  exact continuousOn_finset_prod _ fun i _ => h _ _

/-- The solution of a linear system depends continuously on the matrix and the right hand side. -/
theorem solution_continuousOn {E : Type} [TopologicalSpace E] {N : ℕ} {S : Set E} {A : E → Mat} {Y v : E → Vec} (hA : ∀ i < N, ∀ j < N, ContinuousOn (fun z => A z i j) S)
    (hv : ∀ i < N, ContinuousOn (fun z => v z i) S)
    (hinv : ∀ z ∈ S, Invertible N (A z)) (hY : ∀ z ∈ S, Solves N (A z) (Y z) (v z)) : ∀ k < N, ContinuousOn (fun z => Y z k) S := by
  classical
  have hent : ∀ i j : Fin N, ContinuousOn (fun z => toMat N (A z) i j) S := fun i j => hA i i.2 j j.2
  have hdet := det_continuousOn (M := fun z => toMat N (A z)) hent
  have hd0 : ∀ z ∈ S, (toMat N (A z)).det ≠ 0 := by
    intro z hz
    obtain ⟨inv, hi⟩ := hinv z hz
    have : toMat N inv * toMat N (A z) = 1 := by
      ext i j
      rw [Matrix.mul_apply, Matrix.one_apply]
      have := (hi i i.2 j j.2).1
      rw [Finset.sum_range] at this
      exact this.trans (by simp [Fin.ext_iff])
    have h2 := congrArg Matrix.det this
    rw [Matrix.det_mul, Matrix.det_one] at h2
    intro h0
    rw [h0, mul_zero] at h2
    exact zero_ne_one h2
  intro k hk
  have hcr : ∀ z ∈ S, Y z k = ((toMat N (A z)).det)⁻¹ * ((toMat N (A z)).updateCol ⟨k, hk⟩ fun i : Fin N => v z i).det := by
    intro z hz
    have hz0 := hd0 z hz
    have hs : (toMat N (A z)).mulVec (fun i : Fin N => Y z i) = fun i : Fin N => v z i := by
      funext i
      simp only [Matrix.mulVec, dotProduct, toMat, Matrix.of_apply]
      rw [← hY z hz i i.2, Finset.sum_range]
    have h1 : Matrix.cramer (toMat N (A z)) (fun i : Fin N => v z i) = (toMat N (A z)).det • fun i : Fin N => Y z i := by
      rw [Matrix.cramer_eq_adjugate_mulVec, ← hs, Matrix.mulVec_mulVec, Matrix.adjugate_mul, Matrix.smul_mulVec, Matrix.one_mulVec]
    have h2 := congrFun h1 ⟨k, hk⟩
    rw [Matrix.cramer_apply] at h2
    rw [h2]
    simp only [Pi.smul_apply, smul_eq_mul]
    field_simp
  refine ContinuousOn.congr ?_ hcr
  refine (hdet.inv₀ hd0).mul (det_continuousOn fun i j => ?_)
  simp only [Matrix.updateCol_apply]
  by_cases hj : j = ⟨k, hk⟩
  · simp only [if_pos hj]; exact hv i i.2
  · simp only [if_neg hj]; exact hent i j

/-- The coefficients depend continuously on lengths and way points. -/
theorem sol_continuousOn {b : Basis} (hb : Interpolable b) {n codim : ℕ} (hn : 0 < n) :
    ∀ k < b.dim * codim * n, ContinuousOn (fun z : Data => sol b n codim z.2 z.1 k) (good n) := by
  have U := Props.usable_of hb.valid hb.even hb.ne hb.left hb.right
  have hind : Independent b := by
    cases b with
    | b0101 a => exact hb.pos a rfl
    | _ => trivial
  set m := b.dim / 2 - 1
  have S : ∀ tau, System b m n codim tau (fillP (2 * m + 2) codim n (bufs b tau) Mat.zero) := fun tau => ⟨fun x => fillP_rows _ hn (clean_zero _ _ _) x⟩
  obtain ⟨v, hv, hvc⟩ : ∃ v : (ℕ → ℕ → ℝ) → Vec, (∀ w, ∀ x : Cond n codim m, v w (row n codim m x) = x.target w) ∧ ∀ r, Continuous fun w => v w r := by
    classical
    refine ⟨fun w r => if h : ∃ x : Cond n codim m, row n codim m x = r then h.choose.target w else 0, fun w x => ?_, fun r => ?_⟩
    · have hex : ∃ x' : Cond n codim m, row n codim m x' = row n codim m x := ⟨x, rfl⟩
      beta_reduce
      rw [dif_pos hex, row_injective hn hex.choose_spec]
    · by_cases h : ∃ x : Cond n codim m, row n codim m x = r
      · simp only [dif_pos h]
        generalize h.choose = x
        cases x <;> simp only [Cond.target] <;> fun_prop
      · simp only [dif_neg h]
        exact continuous_const
  refine solution_continuousOn (A := fun z : Data => fillP (2 * m + 2) codim n (bufs b z.1) Mat.zero) (v := fun z => v z.2) (fun i hi j hj => ?_)
    (fun i _ => ((hvc i).comp continuous_snd).continuousOn)
    (fun z ht => system_invertible U hind hn ht (S z.1)) (fun z ht => ?_)
  · rw [U.dim] at hi
    obtain ⟨x, rfl⟩ := row_surj (n := n) (c := codim) (h := m) hn hi
    simp only [(S _).rows x]
    exact (over_continuousOn U hn x j).comp continuous_fst.continuousOn fun z hz => hz
  · exact (solves_iff U hn (fun i hi' => (ht i hi').ne') (S z.1) (hv z.2) _).mpr (sol_spec hb hn ht).1

/-- The functions of a basis are one function of one variable, shifted and stretched. -/
theorem basis_line (b : Basis) (k : ℕ) : ∃ (G : ℝ → ℝ) (p q : ℝ → ℝ), AnalyticOnNhd ℝ G Set.univ ∧ ContinuousOn p {0}ᶜ ∧ ContinuousOn q {0}ᶜ ∧
    ∀ tau ≠ 0, basisFn b tau k = fun t => G (p tau + q tau * t) := by
  have hq : ContinuousOn (fun tau : ℝ => 2 / tau) {0}ᶜ := continuousOn_const.div continuousOn_id fun x hx => hx
  have hw : ∀ tau t : ℝ, window tau t = -1 + 2 / tau * t := fun tau t => by unfold window; ring
  have hp : ∀ p : Polynomial ℝ, AnalyticOnNhd ℝ (fun t => p.eval t) Set.univ := fun p t _ => analyticAt_id.aeval_polynomial p
  cases b with
  | legendre n => exact ⟨_, fun _ => -1, _, hp (legendre k), continuousOn_const, hq, fun tau _ => by funext t; simp only [basisFn, hw]⟩
  | lagrange x => exact ⟨_, fun _ => -1, _, hp (_root_.Lagrange.basis (range x.length) (vecOf x) k), continuousOn_const, hq, fun tau _ => by funext t; simp only [basisFn, hw]⟩
  | b0101 a =>
    refine ⟨f0101 k, fun tau => -(tau * k0101 a), fun _ => 2 * k0101 a, fun t _ => ?_, by fun_prop, continuousOn_const, fun tau h => ?_⟩
    · have h1 : AnalyticAt ℝ (fun t : ℝ => t) t := analyticAt_id
      match k with
      | 0 => exact h1.rexp.mul (Real.analyticAt_cos.comp h1)
      | 1 => exact h1.rexp.mul (Real.analyticAt_sin.comp h1)
      | 2 => exact h1.neg.rexp.mul (Real.analyticAt_cos.comp h1)
      | 3 => exact h1.neg.rexp.mul (Real.analyticAt_sin.comp h1)
      | 4 => exact h1
      | _ + 5 => exact analyticAt_const
    · funext t
      simp only [basisFn, phi0101, hw]
      congr 1
      field_simp

theorem basis_continuousAt (b : Basis) (k d : ℕ) {tau : ℝ} (ht : tau ≠ 0) (t : ℝ) : ContinuousAt (fun q : ℝ × ℝ => iteratedDeriv d (basisFn b q.1 k) q.2) (tau, t) := by
  obtain ⟨G, p, q, hG, hp, hq, h⟩ := basis_line b k
  have hmem : ({0}ᶜ : Set ℝ) ∈ 𝓝 tau := isOpen_compl_singleton.mem_nhds ht
  have hp' : ContinuousAt (fun z : ℝ × ℝ => p z.1) (tau, t) := ContinuousAt.comp (f := Prod.fst) (hp.continuousAt hmem) continuousAt_fst
  have hq' : ContinuousAt (fun z : ℝ × ℝ => q z.1) (tau, t) := ContinuousAt.comp (f := Prod.fst) (hq.continuousAt hmem) continuousAt_fst
  have hD : Continuous (iteratedDeriv d G) := (Symmetry.contDiff_of hG).continuous_iteratedDeriv d (by exact_mod_cast le_top)
  have hc : ContinuousAt (fun z : ℝ × ℝ => q z.1 ^ d * iteratedDeriv d G (p z.1 + q z.1 * z.2)) (tau, t) :=
    (hq'.pow d).mul (ContinuousAt.comp (g := iteratedDeriv d G) hD.continuousAt (hp'.add (hq'.mul continuousAt_snd)))
  refine hc.congr ?_
  filter_upwards [continuousAt_fst.preimage_mem_nhds hmem] with z hz
  rw [h z.1 hz, Symmetry.iteratedDeriv_line hG]

/-- Derivative `d` of component `c` of piece `i`. -/
noncomputable def pieceD (b : Basis) (n codim i c d : ℕ) (q : Data × ℝ) : ℝ :=
  ∑ k ∈ range b.dim, sol b n codim q.1.2 q.1.1 (i * b.dim * codim + b.dim * c + k) * iteratedDeriv d (basisFn b (q.1.1 i) k) (q.2 - ∑ j ∈ range i, q.1.1 j)

theorem pieceD_continuousAt {b : Basis} (hb : Interpolable b) {n codim i c : ℕ} (hi : i < n) (hc : c < codim) (d : ℕ) {z : Data} (hz : z ∈ good n) (t : ℝ) :
    ContinuousAt (pieceD b n codim i c d) (z, t) := by
  unfold pieceD
  refine tendsto_finsetSum _ fun k hk => Tendsto.mul ?_ ?_
  · have hk' : i * b.dim * codim + b.dim * c + k < b.dim * codim * n := part_bound hi hc (mem_range.mp hk)
    exact ContinuousAt.comp (f := Prod.fst) ((sol_continuousOn hb (by omega) _ hk').continuousAt ((good_open n).mem_nhds hz)) continuousAt_fst
  · have h1 := basis_continuousAt b k d (hz i hi).ne' (t - ∑ j ∈ range i, z.1 j)
    exact ContinuousAt.comp (f := fun q : Data × ℝ => (q.1.1 i, q.2 - ∑ j ∈ range i, q.1.1 j)) (x := (z, t)) h1 (by fun_prop)

/-- Near the data `z` the pieces are close to those of `z`, on every bounded interval. -/
theorem pieceD_near {b : Basis} (hb : Interpolable b) {n codim : ℕ} {z : Data} (hz : z ∈ good n) (D : ℕ) (R : ℝ) {ε : ℝ} (hε : 0 < ε) :
    ∀ᶠ z' in 𝓝 z, ∀ i < n, ∀ c < codim, ∀ d ≤ D, ∀ t ∈ Set.Icc (-R) R, |pieceD b n codim i c d (z', t) - pieceD b n codim i c d (z, t)| ≤ ε := by
  have h : ∀ i ∈ range n, ∀ c ∈ range codim, ∀ d ∈ range (D + 1), ∀ᶠ z' in 𝓝 z, ∀ t ∈ Set.Icc (-R) R,
      |pieceD b n codim i c d (z', t) - pieceD b n codim i c d (z, t)| ≤ ε := by
    intro i hi c hc d _
    refine isCompact_Icc.eventually_forall_of_forall_eventually fun t _ => ?_
    have h1 := pieceD_continuousAt hb (mem_range.mp hi) (mem_range.mp hc) d hz t
    have h2 : ContinuousAt (fun q : Data × ℝ => pieceD b n codim i c d (z, q.2)) (z, t) :=
      ContinuousAt.comp (f := fun q : Data × ℝ => (z, q.2)) (g := pieceD b n codim i c d) h1 (by fun_prop)
    have h3 := (h1.sub h2).abs
    have h4 := h3.eventually (ge_mem_nhds (show |pieceD b n codim i c d (z, t) - pieceD b n codim i c d (z, t)| < ε by simpa using hε))
    exact h4
  filter_upwards [(eventually_all_finset _).mpr fun i hi => (eventually_all_finset _).mpr fun c hc => (eventually_all_finset _).mpr fun d hd => h i hi c hc d hd] with z' hz'
    i hi c hc d hd
  exact hz' i (mem_range.mpr hi) c (mem_range.mpr hc) d (mem_range.mpr (by omega))

/-! ## Splines -/

/-- The data of a call. -/
noncomputable def dataOf (tau : List ℝ) (w : Pts) : Data := (vecOf tau, fun i c => if i < w.rows ∧ c < w.cols then w.at' i c else 0)

theorem data_near {tau : List ℝ} {w : Pts} {U : Set Data} (hU : U ∈ 𝓝 (dataOf tau w)) :
    ∃ δ > 0, ∀ tau' w', NearLengths δ tau tau' → NearPts δ w w' → dataOf tau' w' ∈ U := by
  obtain ⟨A, hA, B, hB, hAB⟩ := mem_nhds_prod_iff.mp hU
  obtain ⟨κ, hκ, h1⟩ := Rounded.vec_nhds hA
  let φ : Vec → ℕ → ℕ → ℝ := fun v i c => v (Nat.pair i c)
  have hφ : Continuous φ := by
    refine continuous_pi fun i => continuous_pi fun c => ?_
    exact continuous_apply _
  let W : Pts → Vec := fun w r => (dataOf tau w).2 r.unpair.1 r.unpair.2
  have hW : ∀ w, φ (W w) = (dataOf tau w).2 := fun w => by
    funext i c
    simp only [φ, W, Nat.unpair_pair]
  obtain ⟨κ', hκ', h2⟩ := Rounded.vec_nhds (hφ.continuousAt.preimage_mem_nhds (x := W w) (t := B) (by rw [hW]; exact hB))
  refine ⟨min κ κ', lt_min hκ hκ', fun tau' w' ht hw => hAB ⟨h1 _ fun k => ?_, ?_⟩⟩
  · by_cases hk : k < tau.length
    · exact (ht.2 k hk).trans (min_le_left _ _)
    · change |vecOf tau' k - vecOf tau k| ≤ κ
      unfold vecOf
      rw [List.getD_eq_getElem?_getD, List.getD_eq_getElem?_getD, List.getElem?_eq_none (by have := ht.1; omega), List.getElem?_eq_none (by omega)]
      simpa using hκ.le
  · have := h2 (W w') fun r => ?_
    · rwa [Set.mem_preimage, hW] at this
    · change |(if r.unpair.1 < w'.rows ∧ r.unpair.2 < w'.cols then w'.at' r.unpair.1 r.unpair.2 else 0) - (if r.unpair.1 < w.rows ∧ r.unpair.2 < w.cols then w.at' r.unpair.1 r.unpair.2 else 0)| ≤ κ'
      rw [hw.1, hw.2.1]
      split_ifs with h
      · exact (hw.2.2 _ h.1 _ h.2).trans (min_le_right _ _)
      · simpa using hκ'.le

theorem brk_sum {g : GSpline} {i : ℕ} (hi : i ≤ g.tau.length) : brk g i = g.dom.1 + ∑ j ∈ range i, vecOf g.tau j := by
  induction i with
  | zero => simp [brk]
  | succ i ih => rw [GSpline.brk_succ g (by omega), ih (by omega), sum_range_succ]; ring

theorem interpolates_data {b : Basis} {tau : List ℝ} {w : Pts} (hw : w.rows = tau.length + 1) {y : Vec} :
    Interpolates b tau.length w.cols (vecOf tau) w.at' y → Interpolates b tau.length w.cols (vecOf tau) (dataOf tau w).2 y := fun h =>
  ⟨fun iv hi c hc => by rw [h.start iv hi c hc]; exact (if_pos ⟨by omega, hc⟩).symm, fun iv hi c hc => by rw [h.stop iv hi c hc]; exact (if_pos ⟨by omega, hc⟩).symm,
    h.restL, h.restR, h.join⟩

theorem curve_pieceD {b : Basis} (hb : Interpolable b) {tau : List ℝ} (hne : tau ≠ []) (ht : ∀ t ∈ tau, 0 < t) {w : Pts} (hw : w.rows = tau.length + 1) {x : List ℝ}
    (hI : Interpolates b tau.length w.cols (vecOf tau) w.at' (vecOf x)) {e : ℝ} {i c : ℕ} (hi : i < tau.length) (hc : c < w.cols) (d : ℕ) (t : ℝ) :
    iteratedDeriv d (curve ⟨(0, e), w.cols, b, x, tau⟩ i c) t = pieceD b tau.length w.cols i c d (dataOf tau w, t) := by
  have hpos : ∀ i < tau.length, 0 < vecOf tau i := fun i hi' => vecOf_pos ht hi'
  have hs := (sol_spec hb (List.length_pos_of_ne_nil hne) hpos).2 _ (interpolates_data hw hI)
  have h1 : curve ⟨(0, e), w.cols, b, x, tau⟩ i c = fun t => piece b w.cols (vecOf tau) (vecOf x) i c (t - ∑ j ∈ range i, vecOf tau j) := by
    funext t
    have := brk_sum (g := ⟨(0, e), w.cols, b, x, tau⟩) (i := i) hi.le
    simp only [zero_add] at this
    unfold curve
    rw [this]
  rw [h1, iteratedDeriv_comp_sub_const]
  have h2 : iteratedDeriv d (piece b w.cols (vecOf tau) (vecOf x) i c) = _ := Basis.iteratedDeriv_comb b (vecOf tau i) (fun k => vecOf x (i * b.dim * w.cols + b.dim * c + k)) d
  rw [h2]
  unfold pieceD
  refine sum_congr rfl fun k hk => ?_
  rw [hs _ (part_bound hi hc (mem_range.mp hk))]
  rfl

/-- The pieces are uniformly continuous on bounded intervals. -/
theorem pieceD_uniform {b : Basis} (hb : Interpolable b) {n codim : ℕ} {z : Data} (hz : z ∈ good n) (d : ℕ) (R : ℝ) {ε : ℝ} (hε : 0 < ε) :
    ∃ ρ > 0, ∀ i < n, ∀ c < codim, ∀ s ∈ Set.Icc (-R) R, ∀ t ∈ Set.Icc (-R) R, |s - t| ≤ ρ → |pieceD b n codim i c d (z, s) - pieceD b n codim i c d (z, t)| ≤ ε := by
  have h : ∀ i ∈ range n, ∀ c ∈ range codim, ∀ᶠ ρ in 𝓝[>] (0 : ℝ), ∀ s ∈ Set.Icc (-R) R, ∀ t ∈ Set.Icc (-R) R, |s - t| ≤ ρ →
      |pieceD b n codim i c d (z, s) - pieceD b n codim i c d (z, t)| ≤ ε := by
    intro i hi c hc
    have hc : Continuous fun t => pieceD b n codim i c d (z, t) := continuous_iff_continuousAt.mpr fun t =>
      ContinuousAt.comp (f := fun t : ℝ => (z, t)) (g := pieceD b n codim i c d) (pieceD_continuousAt hb (mem_range.mp hi) (mem_range.mp hc) d hz t) (by fun_prop)
    have hu := isCompact_Icc (a := -R) (b := R) |>.uniformContinuousOn_of_continuous hc.continuousOn
    obtain ⟨δ, hδ, h⟩ := Metric.uniformContinuousOn_iff_le.mp hu ε hε
    filter_upwards [Ioc_mem_nhdsGT hδ] with ρ hρ s hs t ht hst
    exact h s hs t ht (by rw [Real.dist_eq]; exact hst.trans hρ.2)
  obtain ⟨ρ, h1, h2⟩ := (((eventually_all_finset _).mpr fun i hi => (eventually_all_finset _).mpr fun c hc => h i hi c hc).and self_mem_nhdsWithin).exists
  exact ⟨ρ, h2, fun i hi c hc => h1 i (mem_range.mpr hi) c (mem_range.mpr hc)⟩

theorem brk_near {g g' : GSpline} (h0 : g.dom.1 = 0) (h0' : g'.dom.1 = 0) {δ : ℝ} (hδ : 0 ≤ δ) (h : NearLengths δ g.tau g'.tau) {j : ℕ} (hj : j ≤ g.tau.length) :
    |brk g' j - brk g j| ≤ g.tau.length * δ := by
  rw [brk_sum hj, brk_sum (by rw [h.1]; exact hj), h0, h0', zero_add, zero_add, ← sum_sub_distrib]
  refine (abs_sum_le_sum_abs _ _).trans ?_
  refine (sum_le_sum fun i hi => h.2 i (by rw [mem_range] at hi; omega)).trans ?_
  rw [sum_const, card_range, nsmul_eq_mul]
  exact mul_le_mul_of_nonneg_right (by exact_mod_cast hj) hδ

theorem located_le {g : GSpline} (hp : Positive g) {t : ℝ} {i : ℕ} (h : Located g t i) (hi : i + 1 < g.tau.length) : t ≤ brk g (i + 1) := by
  rcases h.2 with ⟨a, rfl⟩ | a | a
  · exact a.trans (GSpline.brk_lt_succ hp h.1).le
  · exact a.2
  · omega

theorem located_gt {g : GSpline} (hp : Positive g) {t : ℝ} {i : ℕ} (h : Located g t i) (hi : 0 < i) : brk g i < t := by
  rcases h.2 with a | a | a
  · omega
  · exact a.1
  · exact lt_of_le_of_lt (GSpline.brk_mono hp h.1.le le_rfl) a.1

/-- Near times are in the same interval for near lengths, or on the two sides of a breakpoint that is near. -/
theorem located_near {g g' : GSpline} (hp : Positive g) (hp' : Positive g') (h0 : g.dom.1 = 0) (h0' : g'.dom.1 = 0) (hmin : ∀ t ∈ g.tau, 1 / 10 ^ 6 ≤ t) {δ : ℝ} (hδ : 0 ≤ δ)
    (hsmall : (g.tau.length + 1) * δ < 1 / 10 ^ 6) (h : NearLengths δ g.tau g'.tau) {t t' : ℝ} (ht : |t' - t| ≤ δ) {i i' : ℕ} (hi : Located g t i) (hi' : Located g' t' i') :
    i' = i ∨ (i' = i + 1 ∧ |t - brk g (i + 1)| ≤ (g.tau.length + 1) * δ) ∨ (i = i' + 1 ∧ |t - brk g i| ≤ (g.tau.length + 1) * δ) := by
  have ht' := abs_le.mp ht
  have hl : i' < g.tau.length := by have := hi'.1; rw [h.1] at this; exact this
  have hlen : ∀ j < g.tau.length, 1 / 10 ^ 6 ≤ vecOf g.tau j := fun j hj => by
    unfold vecOf
    rw [List.getD_eq_getElem?_getD, List.getElem?_eq_getElem hj]
    exact hmin _ (List.getElem_mem hj)
  rcases Nat.lt_trichotomy i i' with hlt | heq | hgt
  · right; left
    have h1 := located_le hp hi (by omega)
    have h2 := located_gt hp' hi' (by omega)
    have h3 := abs_le.mp (brk_near h0 h0' hδ h hl.le)
    have e : i' = i + 1 := by
      by_contra hne
      have h4 := GSpline.brk_mono hp (show i + 2 ≤ i' by omega) hl.le
      have h5 := GSpline.brk_succ g (show i + 1 < g.tau.length by omega)
      have h6 := hlen (i + 1) (by omega)
      rw [show i + 1 + 1 = i + 2 by ring] at h5
      linarith
    subst e
    refine ⟨rfl, abs_le.mpr ⟨?_, ?_⟩⟩
    · linarith
    · have : 0 ≤ (g.tau.length + 1 : ℝ) * δ := by positivity
      linarith
  · exact .inl heq.symm
  · right; right
    have h1 := located_gt hp hi (by omega)
    have h2 := located_le hp' hi' (by rw [h.1]; have := hi.1; omega)
    have h3 := abs_le.mp (brk_near h0 h0' hδ h (show i' + 1 ≤ g.tau.length by omega))
    have e : i = i' + 1 := by
      by_contra hne
      have h4 := GSpline.brk_mono hp (show i' + 2 ≤ i by omega) hi.1.le
      have h5 := GSpline.brk_succ g (show i' + 1 < g.tau.length by have := hi.1; omega)
      have h6 := hlen (i' + 1) (by have := hi.1; omega)
      rw [show i' + 1 + 1 = i' + 2 by ring] at h5
      linarith
    subst e
    refine ⟨rfl, abs_le.mpr ⟨?_, ?_⟩⟩
    · have : 0 ≤ (g.tau.length + 1 : ℝ) * δ := by positivity
      linarith
    · linarith

/-! ## The cost -/

theorem wsum_continuousOn {E : Type} [TopologicalSpace E] {S : Set E} {q : E → ℕ → Mat} {ws : List (ℕ × ℝ)} {i j : ℕ} (h : ∀ p ∈ ws, ContinuousOn (fun t => q t p.1 i j) S)
    {M : E → Mat} (hM : ContinuousOn (fun t => M t i j) S) : ContinuousOn (fun t => wsum (q t) ws (M t) i j) S := by
  induction ws generalizing M with
  | nil => exact hM
  | cons p ps ih =>
    simp only [wsum]
    exact ih (fun r hr => h r (by simp [hr])) (M := fun t i j => (M t i j + q t p.1 i j) * p.2) ((hM.add (h p (by simp))).mul continuousOn_const)

theorem costFn_continuousOn {b : Basis} (hb : Interpolable b) {mem : LagMem} {ws : List (ℕ × ℝ)} (ho : ∀ p ∈ ws, AddsDtau b p.1) {n codim : ℕ} (hn : 0 < n) :
    ContinuousOn (fun z : Data => costFn b mem ws n codim z.2 z.1) (good n) := by
  have hv : ∀ a, b = .b0101 a → 0 < a ∧ a < 1 := fun a ha => ⟨hb.pos a ha, by have := hb.valid; rw [ha] at this; exact this.2⟩
  have hs := sol_continuousOn hb (codim := codim) hn
  unfold costFn total form
  refine continuousOn_finset_sum _ fun iv hiv => continuousOn_finset_sum _ fun c hc => continuousOn_finset_sum _ fun i hi => continuousOn_finset_sum _ fun j hj => ?_
  rw [mem_range] at hiv hc hi hj
  refine ((hs _ (part_bound hiv hc hi)).mul (wsum_continuousOn (fun p hp => ?_) continuousOn_const)).mul (hs _ (part_bound hiv hc hj))
  intro z hz
  exact (ContinuousAt.comp (f := fun z : Data => z.1 iv) (q_hasDerivAt hv (hz iv hiv) (ho p hp) hi hj).continuousAt (by fun_prop)).continuousWithinAt

theorem costFn_data {b : Basis} (hb : Interpolable b) {mem : LagMem} {ws : List (ℕ × ℝ)} {tau : List ℝ} (hne : tau ≠ []) (ht : ∀ t ∈ tau, 0 < t) {w : Pts}
    (hw : w.rows = tau.length + 1) : costFn b mem ws tau.length w.cols w.at' (vecOf tau) = costFn b mem ws tau.length w.cols (dataOf tau w).2 (dataOf tau w).1 := by
  have hpos : ∀ i < tau.length, 0 < vecOf tau i := fun i hi' => vecOf_pos ht hi'
  have hn := List.length_pos_of_ne_nil hne
  have hs := (sol_spec hb hn hpos).2 _ (interpolates_data hw (sol_spec hb (codim := w.cols) (w := w.at') hn hpos).1)
  exact total_congr (fun _ _ _ _ _ _ => rfl) hs hs

end GSplines.WellPosed
