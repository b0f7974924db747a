import Verif.Proofs.InterpSolve
import Verif.Proofs.GSplineOps
import Mathlib.Analysis.Calculus.MeanValue
import Mathlib.Analysis.Calculus.Deriv.MeanValue
import Mathlib.Topology.Order.DenselyOrdered
import Mathlib.LinearAlgebra.Matrix.ToLin
import Mathlib.LinearAlgebra.Matrix.NonsingularInverse

/-!
# The interpolation problem has exactly one solution

Uniqueness is shown with the energy `∫ |f^(m)|² + κ |f'|²`, where `2 m` is the number of basis functions.
-/

namespace GSplines.Interp

open GSplines Spec Finset

/-- The function whose increments are the energies. -/
noncomputable def energy (F : ℕ → ℝ → ℝ) (m : ℕ) (κ t : ℝ) : ℝ :=
  ∑ j ∈ range m, (-1 : ℝ) ^ j * (F (m + j) t * F (m - 1 - j) t) + κ * (F 1 t * F 0 t)

theorem energy_hasDerivAt {F : ℕ → ℝ → ℝ} (hF : Tower F) (m : ℕ) (κ t : ℝ) :
    HasDerivAt (energy F m κ) (F m t ^ 2 + ((-1) ^ (m + 1) * F (2 * m) t + κ * F 2 t) * F 0 t + κ * F 1 t ^ 2) t := by
  have h1 : HasDerivAt (fun t => ∑ j ∈ range m, (-1 : ℝ) ^ j * (F (m + j) t * F (m - 1 - j) t))
      (∑ j ∈ range m, (-1 : ℝ) ^ j * (F (m + j + 1) t * F (m - 1 - j) t + F (m + j) t * F (m - 1 - j + 1) t)) t :=
    HasDerivAt.fun_sum fun j _ => ((hF (m + j) t).mul (hF (m - 1 - j) t)).const_mul _
  have h2 : HasDerivAt (fun t => κ * (F 1 t * F 0 t)) (κ * (F 2 t * F 0 t + F 1 t * F 1 t)) t := ((hF 1 t).mul (hF 0 t)).const_mul κ
  have e : ∑ j ∈ range m, (-1 : ℝ) ^ j * (F (m + j + 1) t * F (m - 1 - j) t + F (m + j) t * F (m - 1 - j + 1) t) =
      F m t ^ 2 + (-1) ^ (m + 1) * F (2 * m) t * F 0 t := by
    have := sum_range_sub' (fun j => (-1 : ℝ) ^ j * (F (m + j) t * F (m - j) t)) m
    simp only [Nat.add_zero, Nat.sub_zero, pow_zero, Nat.sub_self] at this
    rw [show m + m = 2 * m by ring] at this
    have e2 : F m t ^ 2 + (-1) ^ (m + 1) * F (2 * m) t * F 0 t = 1 * (F m t * F m t) - (-1) ^ m * (F (2 * m) t * F 0 t) := by ring
    rw [e2, ← this]
    refine sum_congr rfl fun j hj => ?_
    have hj' := mem_range.mp hj
    rw [show m - 1 - j + 1 = m - j by omega, show m - 1 - j = m - (j + 1) by omega, show m + j + 1 = m + (j + 1) by ring]
    ring
  refine HasDerivAt.congr_deriv (h1.add h2) ?_
  rw [e]
  ring

/-- Continuity of the members of a tower. -/
theorem tower_continuous {F : ℕ → ℝ → ℝ} (hF : Tower F) (d : ℕ) : Continuous (F d) :=
  continuous_iff_continuousAt.mpr fun t => (hF d t).continuousAt

theorem zero_of_start {F : ℕ → ℝ → ℝ} (hF : Tower F) {m : ℕ} {τ : ℝ} (hτ : 0 < τ) (hm : ∀ t ∈ Set.Ioo 0 τ, F m t = 0) (h0 : ∀ d < m, F d 0 = 0) :
    ∀ d, ∀ t ∈ Set.Icc 0 τ, F d t = 0 := by
  -- orders from `m` on, inside
  have hin : ∀ e, ∀ t ∈ Set.Ioo 0 τ, F (m + e) t = 0 := by
    intro e
    induction e with
    | zero => exact hm
    | succ e ih =>
      intro t ht
      have h1 : HasDerivAt (fun _ : ℝ => (0 : ℝ)) (F (m + e + 1) t) t :=
        (hF (m + e) t).congr_of_eventuallyEq (Filter.eventually_of_mem (isOpen_Ioo.mem_nhds ht) fun s hs => (ih s hs).symm)
      exact h1.unique (hasDerivAt_const t 0)
  have hcl : ∀ d, (∀ t ∈ Set.Ioo 0 τ, F d t = 0) → ∀ t ∈ Set.Icc 0 τ, F d t = 0 := by
    intro d hd t ht
    have hs : IsClosed {t | F d t = 0} := isClosed_eq (tower_continuous hF d) continuous_const
    have : closure (Set.Ioo 0 τ) ⊆ {t | F d t = 0} := hs.closure_subset_iff.mpr hd
    rw [closure_Ioo hτ.ne] at this
    exact this ht
  have hhigh : ∀ e, ∀ t ∈ Set.Icc 0 τ, F (m + e) t = 0 := fun e => hcl _ (hin e)
  have hlow : ∀ e ≤ m, ∀ t ∈ Set.Icc 0 τ, F (m - e) t = 0 := by
    intro e
    induction e with
    | zero => intro _; exact hhigh 0
    | succ e ih =>
      intro he t ht
      have hc := constant_of_has_deriv_right_zero (f := F (m - (e + 1))) (a := 0) (b := τ) (tower_continuous hF _).continuousOn
        (fun x hx => by
          have := (hF (m - (e + 1)) x).hasDerivWithinAt (s := Set.Ici x)
          rw [show m - (e + 1) + 1 = m - e by omega, ih (by omega) x ⟨hx.1, hx.2.le⟩] at this
          exact this) t ht
      rw [hc, h0 _ (by omega)]
  intro d t ht
  rcases Nat.lt_or_ge d m with h | h
  · have := hlow (m - d) (by omega) t ht
    rwa [show m - (m - d) = d by omega] at this
  · have := hhigh (d - m) t ht
    rwa [show m + (d - m) = d by omega] at this

/-- Pieces that meet the conditions with zero way points vanish. -/
theorem pieces_zero {n m : ℕ} (hm : 1 ≤ m) {κ : ℝ} (hκ : 0 ≤ κ) {F : ℕ → ℕ → ℝ → ℝ} {τ : ℕ → ℝ} (hF : ∀ i < n, Tower (F i)) (hτ : ∀ i < n, 0 < τ i)
    (hode : ∀ i < n, ∀ t, (-1) ^ (m + 1) * F i (2 * m) t + κ * F i 2 t = 0)
    (h0 : ∀ i < n, F i 0 0 = 0) (h1 : ∀ i < n, F i 0 (τ i) = 0)
    (hL : ∀ d, 1 ≤ d → d ≤ m - 1 → F 0 d 0 = 0) (hR : ∀ d, 1 ≤ d → d ≤ m - 1 → F (n - 1) d (τ (n - 1)) = 0)
    (hJ : ∀ i, i + 1 < n → ∀ d, 1 ≤ d → d ≤ 2 * m - 2 → F i d (τ i) = F (i + 1) d 0) :
    ∀ i < n, ∀ t ∈ Set.Icc 0 (τ i), F i 0 t = 0 := by
  set G := fun i => energy (F i) m κ with hG
  have hGd : ∀ i < n, ∀ t, HasDerivAt (G i) (F i m t ^ 2 + κ * F i 1 t ^ 2) t := by
    intro i hi t
    refine (energy_hasDerivAt (hF i hi) m κ t).congr_deriv ?_
    rw [hode i hi t]; ring
  have hmono : ∀ i < n, Monotone (G i) := fun i hi =>
    monotone_of_deriv_nonneg (fun t => (hGd i hi t).differentiableAt) fun t => by
      rw [(hGd i hi t).deriv]
      positivity
  have hzero : ∀ (i : ℕ) (t : ℝ), (∀ d ≤ m - 1, F i d t = 0) → G i t = 0 := by
    intro i t h
    simp only [hG, energy]
    rw [h 0 (by omega), sum_eq_zero fun j _ => by rw [h (m - 1 - j) (by omega)]; ring]
    ring
  have hjoin : ∀ i, i + 1 < n → G i (τ i) = G (i + 1) 0 := by
    intro i hi
    simp only [hG, energy]
    rw [h1 i (by omega), h0 (i + 1) hi]
    congr 1
    · refine sum_congr rfl fun j hj => ?_
      have hj' := mem_range.mp hj
      by_cases hz : m - 1 - j = 0
      · rw [hz, h1 i (by omega), h0 (i + 1) hi]; ring
      · rw [hJ i hi (m + j) (by omega) (by omega), hJ i hi (m - 1 - j) (by omega) (by omega)]
    · ring
  have hup : ∀ i < n, 0 ≤ G i 0 := by
    intro i
    induction i with
    | zero =>
      intro hi
      refine (hzero 0 0 fun d hd => ?_).ge
      rcases Nat.eq_zero_or_pos d with rfl | hd0
      · exact h0 0 hi
      · exact hL d hd0 hd
    | succ i ih =>
      intro hi
      rw [← hjoin i hi]
      exact (ih (by omega)).trans (hmono i (by omega) (hτ i (by omega)).le)
  have hdown : ∀ e i, i + e + 1 = n → G i (τ i) ≤ 0 := by
    intro e
    induction e with
    | zero =>
      intro i hi
      refine (hzero i (τ i) fun d hd => ?_).le
      rcases Nat.eq_zero_or_pos d with rfl | hd0
      · exact h1 i (by omega)
      · have := hR d hd0 hd
        rwa [show n - 1 = i by omega] at this
    | succ e ih =>
      intro i hi
      rw [hjoin i (by omega)]
      exact (hmono (i + 1) (by omega) (hτ (i + 1) (by omega)).le).trans (ih (i + 1) (by omega))
  have hFm : ∀ i < n, ∀ t ∈ Set.Ioo 0 (τ i), F i m t = 0 := by
    intro i hi t ht
    have hc : ∀ s ∈ Set.Ioo 0 (τ i), G i s = 0 := fun s hs =>
      le_antisymm ((hmono i hi hs.2.le).trans (hdown (n - 1 - i) i (by omega))) ((hup i hi).trans (hmono i hi hs.1.le))
    have hd : HasDerivAt (fun _ : ℝ => (0 : ℝ)) (F i m t ^ 2 + κ * F i 1 t ^ 2) t :=
      (hGd i hi t).congr_of_eventuallyEq (Filter.eventually_of_mem (isOpen_Ioo.mem_nhds ht) fun s hs => (hc s hs).symm)
    have he := hd.unique (hasDerivAt_const t 0)
    have := mul_nonneg hκ (sq_nonneg (F i 1 t))
    have h2 := sq_nonneg (F i m t)
    exact pow_eq_zero_iff (two_ne_zero) |>.mp (by linarith)
  have hall : ∀ i < n, ∀ d, ∀ t ∈ Set.Icc 0 (τ i), F i d t = 0 := by
    intro i
    induction i with
    | zero =>
      intro hi
      refine zero_of_start (hF 0 hi) (hτ 0 hi) (hFm 0 hi) fun d hd => ?_
      rcases Nat.eq_zero_or_pos d with rfl | hd0
      · exact h0 0 hi
      · exact hL d hd0 (by omega)
    | succ i ih =>
      intro hi
      refine zero_of_start (hF _ hi) (hτ _ hi) (hFm _ hi) fun d hd => ?_
      rcases Nat.eq_zero_or_pos d with rfl | hd0
      · exact h0 _ hi
      · rw [← hJ i hi d hd0 (by omega)]
        exact ih (by omega) d _ ⟨(hτ i (by omega)).le, le_rfl⟩
  exact fun i hi => hall i hi 0

/-! ## The functions of a basis -/

/-- Parameters for which the functions of a basis are linearly independent: for Basis0101, `α` is not `0`. -/
def Independent : Basis → Prop
  | .b0101 a => 0 < a
  | _ => True

/-- The coefficient of the lower order term in the differential equation of the functions of a basis. -/
noncomputable def kappa : Basis → ℝ
  | .b0101 a => 4 * (2 * B0101.kOf a) ^ 4
  | _ => 0

theorem kappa_nonneg (b : Basis) : 0 ≤ kappa b := by
  cases b with
  | b0101 a => unfold kappa; positivity
  | _ => exact le_rfl

theorem comb_b0101 (a tau : ℝ) (y : Vec) : comb (.b0101 a) tau y = Props.comb0101 a tau y := rfl

theorem iter_poly_zero {p : Polynomial ℝ} {d : ℕ} (h : p.degree < d) : Polynomial.derivative^[d] p = 0 := by
  rcases eq_or_ne p 0 with rfl | hp
  · simp
  · exact Polynomial.iterate_derivative_eq_zero ((Polynomial.natDegree_lt_iff_degree_lt hp).mpr h)

open Polynomial in
theorem degree_legendre_comb (n : ℕ) (y : Vec) : (∑ i ∈ range n, C (y i) * Spec.legendre i).degree < n := by
  refine (degree_sum_le _ _).trans_lt ((Finset.sup_lt_iff (WithBot.bot_lt_coe n)).mpr fun i hi => ?_)
  have h1 : (C (y i) * Spec.legendre i).degree ≤ (Spec.legendre i).degree := by
    by_cases hy : y i = 0
    · simp [hy]
    · rw [degree_mul, degree_C hy, zero_add]
  refine h1.trans_lt (degree_le_natDegree.trans_lt ?_)
  have := mem_range.mp hi
  exact WithBot.coe_lt_coe.mpr ((LegendrePoly.natDegree_legendre_le i).trans_lt this)

open Polynomial in
theorem comb_ode {b : Basis} {h : ℕ} (hb : Usable b h) {tau : ℝ} (ht : tau ≠ 0) (y : Vec) (t : ℝ) :
    (-1) ^ (h + 1 + 1) * iteratedDeriv (2 * (h + 1)) (comb b tau y) t + kappa b * iteratedDeriv 2 (comb b tau y) t = 0 := by
  have hdim := hb.dim
  cases b with
  | legendre n =>
    have hn : n = 2 * (h + 1) := by change n = _ at hdim; omega
    rw [Basis.comb_poly_legendre, Basis.iteratedDeriv_poly_window, ← hn, iter_poly_zero (degree_legendre_comb n y)]
    simp [kappa]
  | lagrange x =>
    have hn : x.length = 2 * (h + 1) := by change x.length = _ at hdim; omega
    have hinj : Set.InjOn (vecOf x) (range x.length) := Props.Separated.distinct hb.valid
    rw [Basis.comb_poly_lagrange, Basis.iteratedDeriv_poly_window, iter_poly_zero]
    · simp [kappa]
    · rw [← hn]
      have := _root_.Lagrange.degree_interpolate_lt (s := range x.length) (v := vecOf x) y hinj
      rw [_root_.Lagrange.interpolate_apply, card_range] at this
      exact this
  | b0101 a =>
    have hh : h = 2 := by change 6 = _ at hdim; omega
    subst hh
    rw [comb_b0101, Props.comb_iteratedDeriv hb.valid.1 hb.valid.2 ht, Props.comb_iteratedDeriv hb.valid.1 hb.valid.2 ht]
    simp only [kappa, mul_sum]
    rw [← sum_add_distrib]
    refine sum_eq_zero fun i hi => ?_
    generalize B0101.wv (tau * B0101.kOf a * window tau t) = v
    have hi' := mem_range.mp hi
    interval_cases i <;> simp [B0101.dstep, B0101.vec6] <;> ring

open Polynomial in
theorem comb_independent {b : Basis} {h : ℕ} (hb : Usable b h) (hi : Independent b) {tau : ℝ} (ht : 0 < tau) {y : Vec}
    (hz : ∀ t ∈ Set.Icc 0 tau, comb b tau y t = 0) : ∀ k < b.dim, y k = 0 := by
  have poly : ∀ p : ℝ[X], (∀ t ∈ Set.Icc 0 tau, p.eval (window tau t) = 0) → p = 0 := by
    intro p hp
    refine eq_zero_of_infinite_isRoot p (Set.Infinite.mono (s := Set.Icc (-1) 1) ?_ (Set.Icc_infinite (by norm_num)))
    intro s hs
    have := hp (tau * (s + 1) / 2) ⟨by have := hs.1; have : 0 ≤ s + 1 := by linarith
                                       positivity, by have := hs.2; nlinarith⟩
    rwa [show window tau (tau * (s + 1) / 2) = s by unfold window; field_simp; ring] at this
  cases b with
  | legendre n =>
    rw [Basis.comb_poly_legendre] at hz
    have := poly _ hz
    exact Legendre.comb_inj n (y := y) (z := fun _ => 0) (by rw [Legendre.comb_zero]; exact this)
  | lagrange x =>
    rw [Basis.comb_poly_lagrange] at hz
    have := poly _ hz
    have hinj : Set.InjOn (vecOf x) (range x.length) := Props.Separated.distinct hb.valid
    intro k hk
    have e := _root_.Lagrange.eval_interpolate_at_node (s := range x.length) (v := vecOf x) y hinj (mem_range.mpr hk)
    rw [_root_.Lagrange.interpolate_apply, this, eval_zero] at e
    exact e.symm
  | b0101 a =>
    have hk : 0 < B0101.kOf a := B0101.kOf_pos hi hb.valid.2
    have hF : Tower (fun d => iteratedDeriv d (comb (.b0101 a) tau y)) := by
      have := Tower.sum (n := (Basis.b0101 a).dim) (F := fun k d => iteratedDeriv d (basisFn (.b0101 a) tau k)) y (fun k _ => Basis.tower_basisFn _ tau k)
      intro d t
      simp only [Basis.iteratedDeriv_comb]
      exact this d t
    have hall := zero_of_start (m := 0) hF ht (fun t ht' => by
      simp only [iteratedDeriv_zero]; exact hz t ⟨ht'.1.le, ht'.2.le⟩) (fun d hd => by omega)
    have hd : ∀ d, ∑ i ∈ range 6, y i * ((2 * B0101.kOf a) ^ d * B0101.dstep^[d] (B0101.wv 0) i) = 0 := by
      intro d
      have h1 := hall d (tau / 2) ⟨by positivity, by linarith⟩
      simp only [comb_b0101] at h1
      rw [Props.comb_iteratedDeriv hb.valid.1 hb.valid.2 ht.ne'] at h1
      have hw : tau * B0101.kOf a * window tau (tau / 2) = 0 := by unfold window; field_simp; ring
      beta_reduce at h1
      rw [hw] at h1
      exact h1
    have hd' : ∀ d, ∑ i ∈ range 6, y i * B0101.dstep^[d] (B0101.wv 0) i = 0 := by
      intro d
      have hp : (2 * B0101.kOf a) ^ d ≠ 0 := by positivity
      have := hd d
      rw [sum_congr rfl fun i _ => show y i * ((2 * B0101.kOf a) ^ d * B0101.dstep^[d] (B0101.wv 0) i) =
        (2 * B0101.kOf a) ^ d * (y i * B0101.dstep^[d] (B0101.wv 0) i) by ring, ← mul_sum] at this
      exact (mul_eq_zero.mp this).resolve_left hp
    have e0 := hd' 0
    have e1 := hd' 1
    have e2 := hd' 2
    have e3 := hd' 3
    have e4 := hd' 4
    have e5 := hd' 5
    simp [sum_range_succ, B0101.dstep, B0101.vec6, B0101.wv] at e0 e1 e2 e3 e4 e5
    intro k hk6
    change k < 6 at hk6
    interval_cases k <;> linarith

/-! ## Uniqueness and invertibility -/

theorem unique_zero {b : Basis} {h n c : ℕ} (hb : Usable b h) (hi : Independent b) {tau y : Vec} (ht : ∀ i < n, 0 < tau i)
    (H : Interpolates b n c tau (fun _ _ => 0) y) : ∀ k < b.dim * c * n, y k = 0 := by
  have hdim := hb.dim
  have piecewise : ∀ comp < c, ∀ i < n, ∀ t ∈ Set.Icc 0 (tau i), piece b c tau y i comp t = 0 := by
    intro comp hc
    have := pieces_zero (n := n) (m := h + 1) (by omega) (kappa_nonneg b) (F := fun i d => iteratedDeriv d (piece b c tau y i comp)) (τ := tau)
      (fun i hi' => by
        have := Tower.sum (n := b.dim) (F := fun k d => iteratedDeriv d (basisFn b (tau i) k)) (fun k => y (i * b.dim * c + b.dim * comp + k))
          (fun k _ => Basis.tower_basisFn _ (tau i) k)
        intro d t
        have e : ∀ d, iteratedDeriv d (piece b c tau y i comp) = _ := fun d => Basis.iteratedDeriv_comb b (tau i) (fun k => y (i * b.dim * c + b.dim * comp + k)) d
        simp only [e]
        exact this d t)
      ht
      (fun i hi' t => comb_ode hb (ht i hi').ne' _ t)
      (fun i hi' => by simp only [iteratedDeriv_zero]; exact H.start i hi' comp hc)
      (fun i hi' => by simp only [iteratedDeriv_zero]; exact H.stop i hi' comp hc)
      (fun d h1 h2 => H.restL comp hc d h1 (by omega))
      (fun d h1 h2 => H.restR comp hc d h1 (by omega))
      (fun i hi' d h1 h2 => H.join i hi' comp hc d h1 (by omega))
    intro i hi' t ht'
    have := this i hi' t ht'
    simpa only [iteratedDeriv_zero] using this
  intro k hk
  obtain ⟨i, comp, l, hi', hc, hl, rfl⟩ := GSpline.coefIdx_surj (dim := b.dim) (codim := c) (n := n) (x := k) (by
    rw [show n * b.dim * c = b.dim * c * n by ring]; exact hk)
  exact comb_independent hb hi (ht i hi') (y := fun k => y (i * b.dim * c + b.dim * comp + k)) (piecewise comp hc i hi') l hl

/-- The square part of an infinite matrix. -/
def toMat (N : ℕ) (m : Mat) : Matrix (Fin N) (Fin N) ℝ := Matrix.of fun i j => m i j

theorem invertible_of_injective {N : ℕ} {m : Mat} (h : ∀ y : Vec, Solves N m y (fun _ => 0) → ∀ k < N, y k = 0) : Invertible N m := by
  classical
  have hinj : Function.Injective (toMat N m).mulVec := by
    intro u v huv
    funext k
    have h0 : (toMat N m).mulVec (u - v) = 0 := by rw [Matrix.mulVec_sub, huv, sub_self]
    have := h (fun i => if hi : i < N then (u - v) ⟨i, hi⟩ else 0) (fun r hr => by
      have hr0 := congrFun h0 ⟨r, hr⟩
      simp only [Matrix.mulVec, dotProduct, toMat, Matrix.of_apply, Pi.zero_apply] at hr0
      rw [← hr0, Finset.sum_range]
      exact sum_congr rfl fun j _ => by simp) k k.2
    simp only [k.2, dite_true] at this
    exact sub_eq_zero.mp this
  have hu : IsUnit (toMat N m) := Matrix.mulVec_injective_iff_isUnit.mp hinj
  have hdet := (Matrix.isUnit_iff_isUnit_det _).mp hu
  have e1 := Matrix.nonsing_inv_mul (toMat N m) hdet
  have e2 := Matrix.mul_nonsing_inv (toMat N m) hdet
  refine ⟨fun i j => if hi : i < N then if hj : j < N then (toMat N m)⁻¹ ⟨i, hi⟩ ⟨j, hj⟩ else 0 else 0, fun i hi j hj => ⟨?_, ?_⟩⟩
  · have := congrFun (congrFun e1 ⟨i, hi⟩) ⟨j, hj⟩
    rw [Matrix.mul_apply, Matrix.one_apply] at this
    rw [Finset.sum_range]
    refine Eq.trans (sum_congr rfl fun k _ => ?_) (this.trans (by simp [Fin.ext_iff]))
    simp [hi, toMat]
  · have := congrFun (congrFun e2 ⟨i, hi⟩) ⟨j, hj⟩
    rw [Matrix.mul_apply, Matrix.one_apply] at this
    rw [Finset.sum_range]
    refine Eq.trans (sum_congr rfl fun k _ => ?_) (this.trans (by simp [Fin.ext_iff]))
    simp [hj, toMat]

theorem system_invertible {b : Basis} {h n c : ℕ} (hb : Usable b h) (hi : Independent b) (hn : 0 < n) {tau : Vec} (ht : ∀ i < n, 0 < tau i) {m : Mat}
    (H : System b h n c tau m) : Invertible (b.dim * c * n) m :=
  invertible_of_injective fun y hy => unique_zero hb hi ht ((solves_iff hb hn (fun i hi => (ht i hi).ne') H (v := fun _ => 0) (w := fun _ _ => 0)
    (fun x => by cases x <;> rfl) y).mp hy)

theorem Invertible.unique {N : ℕ} {m : Mat} (h : Invertible N m) {y z v : Vec} (hy : Solves N m y v) (hz : Solves N m z v) : ∀ k < N, y k = z k := by
  obtain ⟨inv, hinv⟩ := h
  have key : ∀ y, Solves N m y v → ∀ k < N, y k = ∑ r ∈ range N, inv k r * v r := by
    intro y hy k hk
    have e : ∑ r ∈ range N, inv k r * v r = ∑ j ∈ range N, (∑ r ∈ range N, inv k r * m r j) * y j := by
      rw [sum_congr rfl fun r hr => by rw [← hy r (mem_range.mp hr), mul_sum], sum_comm]
      refine sum_congr rfl fun j _ => ?_
      rw [sum_mul]
      exact sum_congr rfl fun r _ => by ring
    rw [e, sum_congr rfl fun j hj => by rw [(hinv k hk j (mem_range.mp hj)).1]]
    simp [hk]
  intro k hk
  rw [key y hy k hk, key z hz k hk]

end GSplines.Interp
