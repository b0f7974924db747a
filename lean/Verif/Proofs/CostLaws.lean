import Verif.Props.Symmetry
import Verif.Props.Sobolev

/-! # How coefficients and Sobolev forms behave when the data are moved -/

namespace GSplines.CostLaws

open GSplines Spec Finset Interp Sobolev Symmetry

/-- If the way points of one component are a combination of those of other splines, so are the coefficients. -/
theorem part_linear {K : ℕ} {g : ℕ → GSpline} {w : ℕ → ℕ → ℕ → ℝ} {g' : GSpline} {w' : ℕ → ℕ → ℝ} (h : ∀ k < K, Good (g k) (w k)) (h' : Good g' w')
    (ht : ∀ k < K, (g k).tau = g'.tau) (hb : ∀ k < K, (g k).basis = g'.basis) {c : ℕ} (hc : c < g'.codim) {cs : ℕ → ℕ} (hcs : ∀ k < K, cs k < (g k).codim)
    (a : ℕ → ℝ) (e : ∀ i ≤ g'.tau.length, w' i c = ∑ k ∈ range K, a k * w k i (cs k)) {i : ℕ} (hi : i < g'.tau.length) {l : ℕ} (hl : l < g'.basis.dim) :
    part g'.basis g'.codim (vecOf g'.coeffs) i c l = ∑ k ∈ range K, a k * part g'.basis (g k).codim (vecOf (g k).coeffs) i (cs k) l := by
  have key := fun t => curve_affine h h' ht (fun k hk => by rw [hb k hk]) (fun k hk => by rw [hb k hk]) hc hcs a 0 (fun i hi => by rw [e i hi, add_zero]) hi t
  have hbrk : ∀ k < K, brk (g k) = brk g' := fun k hk => by funext i; simp [brk, ht k hk, (h k hk).ends, h'.ends]
  have hz := comb_independent (Props.usable_of h'.basis.valid h'.basis.even h'.basis.ne h'.basis.left h'.basis.right)
    (b := g'.basis) (by cases hg : g'.basis with | b0101 a => exact h'.basis.pos a hg | _ => trivial) (vecOf_pos h'.pos.2 hi)
    (y := fun l => part g'.basis g'.codim (vecOf g'.coeffs) i c l - ∑ k ∈ range K, a k * part g'.basis (g k).codim (vecOf (g k).coeffs) i (cs k) l)
    (fun t _ => by
      have e1 := key (brk g' i + t)
      rw [add_zero] at e1
      have e2 : ∀ k ∈ range K, a k * curve (g k) i (cs k) (brk g' i + t)
          = a k * comb g'.basis (vecOf g'.tau i) (part g'.basis (g k).codim (vecOf (g k).coeffs) i (cs k)) t := by
        intro k hk
        have hk := mem_range.mp hk
        unfold curve piece
        rw [hbrk k hk, ht k hk, hb k hk, add_sub_cancel_left]
        rfl
      rw [sum_congr rfl e2] at e1
      have e3 : curve g' i c (brk g' i + t) = comb g'.basis (vecOf g'.tau i) (part g'.basis g'.codim (vecOf g'.coeffs) i c) t := by
        unfold curve piece
        rw [add_sub_cancel_left]
        rfl
      rw [e3] at e1
      have e4 : comb g'.basis (vecOf g'.tau i) (fun l => part g'.basis g'.codim (vecOf g'.coeffs) i c l
            - ∑ k ∈ range K, a k * part g'.basis (g k).codim (vecOf (g k).coeffs) i (cs k) l) t
          = comb g'.basis (vecOf g'.tau i) (part g'.basis g'.codim (vecOf g'.coeffs) i c) t
            - ∑ k ∈ range K, a k * comb g'.basis (vecOf g'.tau i) (part g'.basis (g k).codim (vecOf (g k).coeffs) i (cs k)) t := by
        unfold comb
        simp only [sub_mul, sum_sub_distrib, sum_mul, mul_sum]
        rw [sum_comm (s := range g'.basis.dim)]
        congr 1
        exact sum_congr rfl fun k _ => sum_congr rfl fun l _ => by ring
      rw [e4, e1, sub_self]) l hl
  exact sub_eq_zero.mp hz

theorem form_left {n K : ℕ} {M : Mat} {a : ℕ → ℝ} {u : ℕ → Vec} {v : Vec} :
    form n M (fun l => ∑ k ∈ range K, a k * u k l) v = ∑ k ∈ range K, a k * form n M (u k) v := by
  unfold form
  simp only [mul_sum]
  rw [sum_comm (s := range K)]
  refine sum_congr rfl fun i _ => ?_
  rw [sum_comm (s := range K)]
  refine sum_congr rfl fun j _ => ?_
  rw [sum_mul, sum_mul]
  exact sum_congr rfl fun k _ => by ring

theorem form_right {n K : ℕ} {M : Mat} {a : ℕ → ℝ} {u : ℕ → Vec} {v : Vec} :
    form n M v (fun l => ∑ k ∈ range K, a k * u k l) = ∑ k ∈ range K, a k * form n M v (u k) := by
  unfold form
  simp only [mul_sum]
  rw [sum_comm (s := range K)]
  refine sum_congr rfl fun i _ => ?_
  rw [sum_comm (s := range K)]
  exact sum_congr rfl fun j _ => sum_congr rfl fun k _ => by ring

/-- The form of combinations. -/
theorem form_combine {n K : ℕ} {M : Mat} {a b : ℕ → ℝ} {u : ℕ → Vec} :
    form n M (fun l => ∑ k ∈ range K, a k * u k l) (fun l => ∑ k ∈ range K, b k * u k l) = ∑ k ∈ range K, ∑ k' ∈ range K, a k * b k' * form n M (u k) (u k') := by
  rw [form_left]
  refine sum_congr rfl fun k _ => ?_
  rw [form_right, mul_sum]
  exact sum_congr rfl fun k' _ => by ring

/-- A sum over components of forms of moved coefficients, when the columns of the map are orthogonal and have equal lengths. -/
theorem form_orthogonal {n K L : ℕ} {M : Mat} {A : ℕ → ℕ → ℝ} {r : ℝ} (hA : ∀ k < K, ∀ k' < K, ∑ c ∈ range L, A c k * A c k' = if k = k' then r ^ 2 else 0)
    {u : ℕ → Vec} :
    ∑ c ∈ range L, form n M (fun l => ∑ k ∈ range K, A c k * u k l) (fun l => ∑ k ∈ range K, A c k * u k l) = r ^ 2 * ∑ k ∈ range K, form n M (u k) (u k) := by
  simp only [form_combine]
  rw [sum_comm, mul_sum]
  refine sum_congr rfl fun k hk => ?_
  rw [sum_comm, sum_eq_single_of_mem k hk]
  · rw [← sum_mul, hA k (mem_range.mp hk) k (mem_range.mp hk), if_pos rfl]
  · intro k' hk' hne
    rw [← sum_mul, hA k (mem_range.mp hk) k' (mem_range.mp hk'), if_neg (Ne.symm hne), zero_mul]

/-! ## Time -/

theorem right_scaled {b : Basis} {k : ℕ} (h : RightOrder b k) (f : ℝ) : RightOrder (GSpline.scaledBasis b f) k := by cases b <;> exact h

theorem interpolable_scaled {b : Basis} (hb : Interpolable b) {f : ℝ} (hf : 0 < f) : Interpolable (GSpline.scaledBasis b f) := by
  cases b with
  | b0101 a =>
    have h0 := hb.pos a rfl
    have h1 : a < 1 := hb.valid.2
    have := GSpline.scaledAlpha_valid (a := a) (f := f) h1
    refine Props.interpolable0101 ?_ this.2
    unfold GSpline.scaledAlpha
    have : 0 < 1 - a := by linarith
    positivity
  | _ => exact hb

theorem gram_scaled {b : Basis} (hb : Interpolable b) {f : ℝ} (hf : 0 < f) (t : ℝ) (k i j : ℕ) :
    f ^ (2 * k) * gram (basisFn (GSpline.scaledBasis b f) (t * f)) (t * f) k i j = f * gram (basisFn b t) t k i j := by
  have hp : GSpline.ParamOk b := GSpline.paramOk_of_valid hb.valid
  have he : ∀ i, basisFn (GSpline.scaledBasis b f) (t * f) i = fun s => basisFn b t i (0 + f⁻¹ * s) := by
    intro i
    funext s
    rw [← GSpline.basisFn_scaled hp hf t i, zero_add, mul_inv_cancel_left₀ hf.ne']
  have hD : ∀ i s, iteratedDeriv k (basisFn (GSpline.scaledBasis b f) (t * f) i) s = f⁻¹ ^ k * iteratedDeriv k (basisFn b t i) (f⁻¹ * s) := by
    intro i s
    rw [he, iteratedDeriv_line (analytic_basisFn b t i), zero_add]
  unfold gram
  simp only [hD]
  have h1 := intervalIntegral.integral_comp_mul_left (a := 0) (b := t * f) (fun s => iteratedDeriv k (basisFn b t i) s * iteratedDeriv k (basisFn b t j) s)
    (inv_ne_zero hf.ne')
  rw [mul_zero, show f⁻¹ * (t * f) = t by field_simp, inv_inv, smul_eq_mul] at h1
  rw [← h1, ← intervalIntegral.integral_const_mul]
  refine intervalIntegral.integral_congr fun s _ => ?_
  beta_reduce
  rw [show 2 * k = k + k by ring, pow_add, inv_pow]
  field_simp

/-- How the matrix of one order changes with the unit of time. -/
theorem q_scaled {b : Basis} (hb : Interpolable b) {k : ℕ} (h : (∃ d, b = .legendre d) ∨ RightOrder b k) (mem : LagMem) {f : ℝ} (hf : 0 < f) {t : ℝ} (ht : 0 < t)
    {i j : ℕ} (hi : i < b.dim) (hj : j < b.dim) : f ^ (2 * k) * q (GSpline.scaledBasis b f) mem (t * f) k i j = f * q b mem t k i j := by
  rcases h with ⟨d, rfl⟩ | h
  · simp only [GSpline.scaledBasis, q, Basis.addDerivMatrix, Legendre.addDerivativeMatrix]
    split_ifs with hk
    · beta_reduce
      rw [show (Mat.zero i j : ℝ) = 0 from rfl, zero_add, zero_add, Legendre.sobScale_eq (by positivity), Legendre.sobScale_eq ht.ne']
      rw [show (2 / (t * f)) = f⁻¹ * (2 / t) by field_simp, mul_pow, inv_pow]
      field_simp
    · simp [Mat.zero]
  · rw [Props.q_gram (interpolable_scaled hb hf) (right_scaled h f) mem (by positivity) (by rw [GSpline.scaledBasis_dim]; exact hi) (by rw [GSpline.scaledBasis_dim]; exact hj),
      Props.q_gram hb h mem ht hi hj, gram_scaled hb hf]

/-! ## Reversal -/

theorem dpow_parity (dim k : ℕ) (hk : 1 ≤ k) {i m : ℕ} (hi : i < dim) (hm : m < dim) (h : (i + m + k) % 2 = 1) : Legendre.dpow dim k i m = 0 := by
  have step : ∀ n, ∀ i m, i < dim → m < dim → (i + m + (n + 1)) % 2 = 1 → Legendre.dpow dim (n + 1) i m = 0 := by
    intro n
    induction n with
    | zero =>
      intro i m hi hm h
      change (Legendre.dmat dim).tr i m = 0
      rw [Mat.tr, Legendre.dmat_closed dim m i hm hi, Legendre.dmatC, if_neg (by omega)]
    | succ n ih =>
      intro i m hi hm h
      have e : Legendre.dpow dim (n + 1 + 1) = (Legendre.dpow dim (n + 1)).mul dim (Legendre.dmat dim).tr := by
        unfold Legendre.dpow forLoop
        rw [show n + 1 + 1 - 1 = (n + 1 - 1) + 1 by omega, List.range'_concat, List.foldl_append]
        rfl
      rw [e, Mat.mul]
      refine sum_eq_zero fun l hl => ?_
      have hl := mem_range.mp hl
      by_cases hp : (i + l + (n + 1)) % 2 = 1
      · rw [ih i l hi hl hp, zero_mul]
      · rw [Mat.tr, Legendre.dmat_closed dim m l hm hl, Legendre.dmatC, if_neg (by omega), mul_zero]
  obtain ⟨n, rfl⟩ : ∃ n, k = n + 1 := ⟨k - 1, by omega⟩
  exact step n i m hi hm h

theorem buffer_parity (dim k : ℕ) {i j : ℕ} (hi : i < dim) (hj : j < dim) (h : (i + j) % 2 = 1) : Legendre.sobolevBuffer dim k i j = 0 := by
  rcases Nat.eq_zero_or_pos k with rfl | hk
  · simp only [Legendre.sobolevBuffer, if_true, Legendre.l2Mat]
    rw [if_neg (by omega)]
  · rw [Legendre.sobolevBuffer_entry dim k hk]
    refine sum_eq_zero fun m hm => ?_
    have hm := mem_range.mp hm
    by_cases hp : (i + m + k) % 2 = 1
    · rw [dpow_parity dim k hk hi hm hp]; ring
    · rw [dpow_parity dim k hk hj hm (by omega)]; ring

theorem q_parity (d : ℕ) (mem : LagMem) (t : ℝ) (k : ℕ) {i j : ℕ} (hi : i < d) (hj : j < d) (h : (i + j) % 2 = 1) : q (.legendre d) mem t k i j = 0 := by
  simp only [q, Basis.addDerivMatrix, Legendre.addDerivativeMatrix]
  split_ifs
  · beta_reduce
    rw [buffer_parity d k hi hj h]; simp [Mat.zero]
  · rfl

theorem wsum_parity (d : ℕ) (mem : LagMem) (t : ℝ) (ws : List (ℕ × ℝ)) {i j : ℕ} (hi : i < d) (hj : j < d) (h : (i + j) % 2 = 1) :
    wsum (q (.legendre d) mem t) ws Mat.zero i j = 0 := by
  rw [wsum_effective]
  simp [q_parity d mem t _ hi hj h, Mat.zero]

/-- Changing the sign of every other coefficient does not change the form of a Legendre matrix. -/
theorem form_alternate (d : ℕ) (mem : LagMem) (t : ℝ) (ws : List (ℕ × ℝ)) (y : Vec) :
    form d (wsum (q (.legendre d) mem t) ws Mat.zero) (fun l => (-1) ^ l * y l) (fun l => (-1) ^ l * y l)
      = form d (wsum (q (.legendre d) mem t) ws Mat.zero) y y := by
  unfold form
  refine sum_congr rfl fun i hi => sum_congr rfl fun j hj => ?_
  rw [mem_range] at hi hj
  by_cases h : (i + j) % 2 = 1
  · rw [wsum_parity d mem t ws hi hj h]; ring
  · have : (-1 : ℝ) ^ i * (-1) ^ j = 1 := by rw [← pow_add]; exact Even.neg_one_pow (Nat.even_iff.mpr (by omega))
    linear_combination (y i * wsum (q (.legendre d) mem t) ws Mat.zero i j * y j) * this

/-- The curve for the way points in the opposite order. -/
theorem curve_reverse {g g' : GSpline} {w : ℕ → ℕ → ℝ} (G : Good g w) (G' : Good g' fun i c => w (g.tau.length - i) c) (ht : g'.tau = g.tau.reverse)
    (hb : g'.basis = g.basis) (hcd : g'.codim = g.codim) {i : ℕ} (hi : i < g.tau.length) {c : ℕ} (hc : c < g.codim) (t : ℝ) :
    curve g' (g.tau.length - 1 - i) c t = curve g i c (g.tau.sum - t) := by
  have hn' : g'.tau.length = g.tau.length := by rw [ht, List.length_reverse]
  have hbr := Props.brk_reverse (g := g) (g' := g') (by rw [G.ends]) (by rw [G'.ends]) ht
  have S := (G.sol hc).reverse (by omega) g.tau.sum (b' := brk g') (fun i _ => hbr i)
  have S' := G'.sol (c := c) (by rw [hcd]; exact hc)
  rw [hn', hb] at S'
  have key := Sol.unique (half_pos G.basis) (kappa_nonneg _) (b := brk g') (fun i hi => GSpline.brk_lt_succ G'.pos (by rw [hn']; exact hi)) S' S
    (g.tau.length - 1 - i) (by omega)
  have := congrFun key t
  rw [show g.tau.length - 1 - (g.tau.length - 1 - i) = i by omega, show g.tau.sum + -1 * t = g.tau.sum - t by ring] at this
  exact this

theorem part_reverse {d : ℕ} {g g' : GSpline} {w : ℕ → ℕ → ℝ} (G : Good g w) (G' : Good g' fun i c => w (g.tau.length - i) c) (ht : g'.tau = g.tau.reverse)
    (hl : g.basis = .legendre d) (hb : g'.basis = g.basis) (hcd : g'.codim = g.codim) {i : ℕ} (hi : i < g.tau.length) {c : ℕ} (hc : c < g.codim) {l : ℕ} (hld : l < d) :
    part (.legendre d) g.codim (vecOf g'.coeffs) (g.tau.length - 1 - i) c l = (-1) ^ l * part (.legendre d) g.codim (vecOf g.coeffs) i c l := by
  have key := fun t => curve_reverse G G' ht hb hcd hi hc t
  have hpos : 0 < vecOf g.tau i := vecOf_pos G.pos.2 hi
  have hn' : g'.tau.length = g.tau.length := by rw [ht, List.length_reverse]
  have hbr := Props.brk_reverse (g := g) (g' := g') (by rw [G.ends]) (by rw [G'.ends]) ht
  have hb1 := hbr (g.tau.length - 1 - i)
  rw [show g.tau.length - (g.tau.length - 1 - i) = i + 1 by omega] at hb1
  have hb2 := GSpline.brk_succ g hi
  have htau : vecOf g'.tau (g.tau.length - 1 - i) = vecOf g.tau i := by
    unfold vecOf
    rw [ht, List.getD_eq_getElem?_getD, List.getD_eq_getElem?_getD, List.getElem?_reverse (by omega), show g.tau.length - 1 - (g.tau.length - 1 - i) = i by omega]
  have hB := G.basis
  rw [hl] at hB
  have hz := comb_independent (b := .legendre d) (Props.usable_of hB.valid hB.even hB.ne hB.left hB.right) trivial hpos
    (y := fun l => part (.legendre d) g.codim (vecOf g'.coeffs) (g.tau.length - 1 - i) c l - (-1) ^ l * part (.legendre d) g.codim (vecOf g.coeffs) i c l)
    (fun s _ => by
      have e1 := key (brk g' (g.tau.length - 1 - i) + s)
      unfold curve piece at e1
      rw [hb, hl, hcd, htau, add_sub_cancel_left, show g.tau.sum - (brk g' (g.tau.length - 1 - i) + s) - brk g i = vecOf g.tau i - s by rw [hb1]; linarith] at e1
      unfold comb at e1 ⊢
      simp only [sub_mul, sum_sub_distrib]
      rw [sub_eq_zero]
      refine e1.trans (sum_congr rfl fun l _ => ?_)
      have e2 : basisFn (.legendre d) (vecOf g.tau i) l (vecOf g.tau i - s) = (-1) ^ l * basisFn (.legendre d) (vecOf g.tau i) l s := by
        change (legendre l).eval _ = (-1) ^ l * (legendre l).eval _
        rw [← GLL.legendre_neg]
        congr 1
        unfold window
        field_simp
        ring
      rw [e2]
      unfold part
      ring) l hld
  exact sub_eq_zero.mp hz

end GSplines.CostLaws
