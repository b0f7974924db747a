import Verif.Proofs.GLLNodes

/-!
# How far the computed weights are from the exact ones
-/

namespace GSplines.GLL

open GSplines Polynomial Spec LegendrePoly Legendre Real

/-- The weight of a point. -/
noncomputable def wt (N : ℕ) (x : ℝ) : ℝ := 2 / ((N : ℝ) * (N + 1) * (legendre N).eval x ^ 2)

theorem sin_mid {N j : ℕ} (h : Win N j) {x : ℝ} (hx : x ∈ Set.Icc (pt N j (π / 20)) (pt N j (3 * π / 8))) : 4.41 / nu N ^ 2 ≤ 1 - x ^ 2 := by
  have hpi := pi_pos
  have hn := nu_pos N
  obtain ⟨u, hu, rfl⟩ := exists_pt N j (by linarith) hx
  have hm := ang_mem h (s := u) (by linarith [hu.1]) (by linarith [hu.2])
  have hj : (1 : ℝ) ≤ j := by exact_mod_cast h.one
  have s1 := mul_le_sin hm.1.le hm.2
  have e : 1 - pt N j u ^ 2 = sin (ang N j u) ^ 2 := by unfold pt; have := sin_sq_add_cos_sq (ang N j u); linarith
  have b1 : 2.1 ≤ nu N * (2 / π * ang N j u) := by
    have : nu N * (2 / π * ang N j u) = 2 / π * (nu N * ang N j u) := by ring
    rw [this, nu_ang, div_mul_eq_mul_div, le_div_iff₀ hpi]
    nlinarith [hu.1]
  have c1 := mul_le_mul_of_nonneg_left s1 hn.le
  rw [e, div_le_iff₀ (by positivity)]
  nlinarith

/-- The square of the polynomial changes little between a point and the exact one. -/
theorem legendre_close {N j : ℕ} (h : Win N j) {x r : ℝ} (hx : x ∈ Set.Icc (pt N j (π / 20)) (pt N j (3 * π / 8)))
    (hr : r ∈ Set.Icc (pt N j (π / 20)) (pt N j (3 * π / 8))) (hr0 : (qPoly N).eval r = 0) (hxr : |x - r| ≤ tol9 * |x|) :
    (legendre N).eval x ^ 2 ≤ (legendre N).eval r ^ 2 ∧ (legendre N).eval r ^ 2 * (1 - nu N ^ 4 / 10 ^ 18) ≤ (legendre N).eval x ^ 2 := by
  have hN : 1 ≤ N := by have := h.three; omega
  have hN0 : (0 : ℝ) < N := by exact_mod_cast hN
  have hn := nu_pos N
  have htol : 0 < tol9 := by unfold tol9; positivity
  have hfix : hstep N r = 0 := by unfold hstep; rw [hr0, zero_div]
  -- the step at `z` has the sign of `z - r` and is at most `44/25 |z - r|`
  have hh : ∀ z ∈ Set.Icc (pt N j (π / 20)) (pt N j (3 * π / 8)), |hstep N z| ≤ 44 / 25 * |z - r| ∧ 0 ≤ hstep N z * (z - r) := by
    intro z hz
    have hc := nmap_contr h hz hr
    have hf : nmap N r = r := by unfold nmap; rw [hfix, sub_zero]
    rw [hf] at hc
    have e : hstep N z = (z - r) - (nmap N z - r) := by unfold nmap; ring
    constructor
    · rw [e]
      refine (abs_sub _ _).trans ?_
      linarith
    · rw [e]
      have h1 : (nmap N z - r) * (z - r) ≤ |nmap N z - r| * |z - r| := by rw [← abs_mul]; exact le_abs_self _
      have h2 : |nmap N z - r| * |z - r| ≤ 19 / 25 * |z - r| * |z - r| := mul_le_mul_of_nonneg_right hc (abs_nonneg _)
      have h3 : |z - r| * |z - r| = (z - r) * (z - r) := abs_mul_abs_self _
      nlinarith [sq_nonneg (z - r)]
  -- the derivative of the square
  have hd : ∀ z ∈ Set.Icc (pt N j (π / 20)) (pt N j (3 * π / 8)),
      HasDerivAt (fun z => (legendre N).eval z ^ 2) (-(2 * ((N : ℝ) * (N + 1)) / (1 - z ^ 2) * hstep N z * (legendre N).eval z ^ 2)) z := by
    intro z hz
    have hs := sin_mid h hz
    have hp : 0 < 1 - z ^ 2 := lt_of_lt_of_le (by positivity) hs
    have hP := win_ne h hz
    refine (((legendre N).hasDerivAt z).pow 2).congr_deriv ?_
    have hq := congrArg (eval z) (qPoly_eq hN)
    simp only [eval_mul, eval_C, eval_sub, eval_pow, eval_X, eval_one] at hq
    unfold hstep
    have h2 : (2 * (N : ℝ) + 1) ≠ 0 := by positivity
    field_simp
    simp only [Nat.cast_ofNat, Nat.add_one_sub_one, pow_one]
    linear_combination (2 * (legendre N).eval z) * hq
  -- the square is largest at `r`
  have hsub : ∀ {a b : ℝ}, a ∈ Set.Icc (pt N j (π / 20)) (pt N j (3 * π / 8)) → b ∈ Set.Icc (pt N j (π / 20)) (pt N j (3 * π / 8)) →
      Set.Icc a b ⊆ Set.Icc (pt N j (π / 20)) (pt N j (3 * π / 8)) := fun ha hb => Set.Icc_subset_Icc ha.1 hb.2
  have hmax : ∀ z ∈ Set.Icc (pt N j (π / 20)) (pt N j (3 * π / 8)), (legendre N).eval z ^ 2 ≤ (legendre N).eval r ^ 2 := by
    intro z hz
    rcases le_total z r with hle | hle
    · have hm : MonotoneOn (fun z => (legendre N).eval z ^ 2) (Set.Icc z r) := by
        refine monotoneOn_of_deriv_nonneg (convex_Icc _ _) (fun y hy => (hd y (hsub hz hr hy)).continuousAt.continuousWithinAt)
          (fun y hy => (hd y (hsub hz hr (interior_subset hy))).differentiableAt.differentiableWithinAt) fun y hy => ?_
        have hy' := hsub hz hr (interior_subset hy)
        rw [(hd y hy').deriv]
        have hp : 0 < 1 - y ^ 2 := lt_of_lt_of_le (by positivity) (sin_mid h hy')
        rw [interior_Icc] at hy
        have hneg : hstep N y ≤ 0 := by
          by_contra hcon
          push Not at hcon
          have := (hh y hy').2
          nlinarith [hy.2]
        have : 0 ≤ 2 * ((N : ℝ) * (N + 1)) / (1 - y ^ 2) * (legendre N).eval y ^ 2 := by positivity
        nlinarith
      exact hm (Set.left_mem_Icc.mpr hle) (Set.right_mem_Icc.mpr hle) hle
    · have hm : AntitoneOn (fun z => (legendre N).eval z ^ 2) (Set.Icc r z) := by
        refine antitoneOn_of_deriv_nonpos (convex_Icc _ _) (fun y hy => (hd y (hsub hr hz hy)).continuousAt.continuousWithinAt)
          (fun y hy => (hd y (hsub hr hz (interior_subset hy))).differentiableAt.differentiableWithinAt) fun y hy => ?_
        have hy' := hsub hr hz (interior_subset hy)
        rw [(hd y hy').deriv]
        have hp : 0 < 1 - y ^ 2 := lt_of_lt_of_le (by positivity) (sin_mid h hy')
        rw [interior_Icc] at hy
        have hneg : 0 ≤ hstep N y := by
          by_contra hcon
          push Not at hcon
          have := (hh y hy').2
          nlinarith [hy.1]
        have : 0 ≤ 2 * ((N : ℝ) * (N + 1)) / (1 - y ^ 2) * (legendre N).eval y ^ 2 := by positivity
        nlinarith
      exact hm (Set.left_mem_Icc.mpr hle) (Set.right_mem_Icc.mpr hle) hle
  refine ⟨hmax x hx, ?_⟩
  -- the mean value inequality between `r` and `x`
  have huI : Set.uIcc r x ⊆ Set.Icc (pt N j (π / 20)) (pt N j (3 * π / 8)) := Set.ordConnected_Icc.uIcc_subset hr hx
  have hmv := (convex_uIcc r x).norm_image_sub_le_of_norm_hasDerivWithin_le (f := fun z => (legendre N).eval z ^ 2)
    (f' := fun z => -(2 * ((N : ℝ) * (N + 1)) / (1 - z ^ 2) * hstep N z * (legendre N).eval z ^ 2))
    (C := nu N ^ 4 * |x - r| * (legendre N).eval r ^ 2) (fun z hz => (hd z (huI hz)).hasDerivWithinAt) (fun z hz => ?_) Set.left_mem_uIcc Set.right_mem_uIcc
  · rw [Real.norm_eq_abs, Real.norm_eq_abs] at hmv
    have hx1 : |x| ≤ 1 := by
      have h1 := sin_mid h hx
      have : 0 < 4.41 / nu N ^ 2 := by positivity
      rw [← sq_le_one_iff_abs_le_one]
      linarith
    have h1 : |x - r| ≤ tol9 := hxr.trans (by nlinarith [abs_nonneg x])
    have h2 : |x - r| * |x - r| ≤ tol9 * tol9 := mul_le_mul h1 h1 (abs_nonneg _) htol.le
    have h3 : tol9 * tol9 = 1 / 10 ^ 18 := by unfold tol9; norm_num
    have h4 : nu N ^ 4 * |x - r| * (legendre N).eval r ^ 2 * |x - r| ≤ nu N ^ 4 / 10 ^ 18 * (legendre N).eval r ^ 2 := by
      rw [h3] at h2
      have h5 : 0 ≤ nu N ^ 4 * (legendre N).eval r ^ 2 := by positivity
      have := mul_le_mul_of_nonneg_left h2 h5
      calc nu N ^ 4 * |x - r| * (legendre N).eval r ^ 2 * |x - r| = nu N ^ 4 * (legendre N).eval r ^ 2 * (|x - r| * |x - r|) := by ring
        _ ≤ _ := this
        _ = _ := by ring
    have h5 := neg_abs_le ((legendre N).eval x ^ 2 - (legendre N).eval r ^ 2)
    linarith
  · have hz' := huI hz
    have hs := sin_mid h hz'
    have hp : 0 < 1 - z ^ 2 := lt_of_lt_of_le (by positivity) hs
    have hzr : |z - r| ≤ |x - r| := by
      exact Set.abs_sub_left_of_mem_uIcc hz
    have a1 := (hh z hz').1.trans (mul_le_mul_of_nonneg_left hzr (by norm_num))
    have a2 := hmax z hz'
    rw [norm_neg, norm_mul, norm_mul, norm_of_nonneg (by positivity : 0 ≤ 2 * ((N : ℝ) * (N + 1)) / (1 - z ^ 2)), norm_of_nonneg (sq_nonneg ((legendre N).eval z)),
      Real.norm_eq_abs]
    have e : (N : ℝ) * (N + 1) = nu N ^ 2 - 1 / 4 := by unfold nu; ring
    have a3 : 2 * ((N : ℝ) * (N + 1)) / (1 - z ^ 2) ≤ 25 / 44 * nu N ^ 4 := by
      rw [div_le_iff₀ hp]
      have : 25 / 44 * nu N ^ 4 * (4.41 / nu N ^ 2) ≤ 25 / 44 * nu N ^ 4 * (1 - z ^ 2) := mul_le_mul_of_nonneg_left hs (by positivity)
      refine le_trans ?_ this
      rw [e]
      have : 25 / 44 * nu N ^ 4 * (4.41 / nu N ^ 2) = 25 / 44 * 4.41 * nu N ^ 2 := by field_simp
      rw [this]
      nlinarith [sq_nonneg (nu N)]
    calc 2 * ((N : ℝ) * (N + 1)) / (1 - z ^ 2) * |hstep N z| * (legendre N).eval z ^ 2
        ≤ 25 / 44 * nu N ^ 4 * (44 / 25 * |x - r|) * (legendre N).eval r ^ 2 := by
          refine mul_le_mul (mul_le_mul a3 a1 (abs_nonneg _) (by positivity)) a2 (sq_nonneg _) (by positivity)
      _ = nu N ^ 4 * |x - r| * (legendre N).eval r ^ 2 := by ring

theorem wt_close {N : ℕ} (hN : 1 ≤ N) {x r : ℝ} (hx : (legendre N).eval x ≠ 0) (hr : (legendre N).eval r ≠ 0) {δ : ℝ}
    (h1 : (legendre N).eval x ^ 2 ≤ (legendre N).eval r ^ 2) (h2 : (legendre N).eval r ^ 2 * (1 - δ) ≤ (legendre N).eval x ^ 2) :
    wt N r ≤ wt N x ∧ wt N x * (1 - δ) ≤ wt N r := by
  have hN0 : (0 : ℝ) < N := by exact_mod_cast hN
  have hx2 : 0 < (legendre N).eval x ^ 2 := by positivity
  have hr2 : 0 < (legendre N).eval r ^ 2 := by positivity
  unfold wt
  constructor
  · exact div_le_div_of_nonneg_left (by norm_num) (by positivity) (mul_le_mul_of_nonneg_left h1 (by positivity))
  · rw [div_mul_eq_mul_div, div_le_div_iff₀ (by positivity) (by positivity)]
    have hK : 0 ≤ 2 * ((N : ℝ) * (N + 1)) := by positivity
    nlinarith [mul_le_mul_of_nonneg_left h2 hK]

/-- The weights of points near the exact ones. -/
theorem arr_weights {n : ℕ} {p r : Vec} (hp : Arr n p) (hr : Arr n r) (hq : ∀ i < n, (qPoly (n - 1)).eval (r i) = 0) (ha : ∀ i < n, |p i - r i| ≤ tol9 * |p i|)
    {i : ℕ} (hi : i < n) : wt (n - 1) (r i) ≤ wt (n - 1) (p i) ∧ wt (n - 1) (p i) * (1 - nu (n - 1) ^ 4 / 10 ^ 18) ≤ wt (n - 1) (r i) := by
  have hn := hp.two
  have hN : 1 ≤ n - 1 := by omega
  have hδ : 0 ≤ nu (n - 1) ^ 4 / 10 ^ 18 := by positivity
  -- equal points
  have same : ∀ i < n, p i = r i → wt (n - 1) (r i) ≤ wt (n - 1) (p i) ∧ wt (n - 1) (p i) * (1 - nu (n - 1) ^ 4 / 10 ^ 18) ≤ wt (n - 1) (r i) := by
    intro i hi e
    rw [e]
    refine ⟨le_rfl, ?_⟩
    have : 0 ≤ wt (n - 1) (r i) := by unfold wt; positivity
    nlinarith
  have left : ∀ i < n / 2, wt (n - 1) (r i) ≤ wt (n - 1) (p i) ∧ wt (n - 1) (p i) * (1 - nu (n - 1) ^ 4 / 10 ^ 18) ≤ wt (n - 1) (r i) := by
    intro i hi
    rcases Nat.eq_zero_or_pos i with rfl | h1
    · exact same 0 (by omega) (by rw [hp.first, hr.first])
    · have hw : Win (n - 1) i := ⟨h1, by omega⟩
      have hx := hp.win i h1 hi
      have hrw := hr.win i h1 hi
      obtain ⟨a1, a2⟩ := legendre_close hw hx hrw (hq i (by omega)) (ha i (by omega))
      exact wt_close hN (win_ne hw hx) (win_ne hw hrw) a1 a2
  by_cases c1 : i < n / 2
  · exact left i c1
  · by_cases c2 : n - 1 - i < n / 2
    · have := left _ c2
      have e : ∀ x, wt (n - 1) (-x) = wt (n - 1) x := fun x => by unfold wt; rw [legendre_sq_neg]
      rwa [hp.anti i hi, hr.anti i hi, e, e] at this
    · refine same i hi ?_
      have hpar : n % 2 = 1 := by omega
      rw [show i = n / 2 by omega, hp.mid hpar, hr.mid hpar]

theorem Arr.mem {n : ℕ} {p : Vec} (h : Arr n p) {i : ℕ} (hi : i < n) : -1 ≤ p i ∧ p i ≤ 1 := by
  have hpos : 0 < 2 / nu (n - 1) ^ 2 := by have := nu_pos (n - 1); positivity
  have hl : p (n - 1) = 1 := by
    have := h.anti 0 (by have := h.two; omega)
    rwa [Nat.sub_zero, h.first, neg_neg] at this
  constructor
  · rcases Nat.eq_zero_or_pos i with rfl | h1
    · rw [h.first]
    · have := h.lt h1 hi
      rw [h.first] at this; linarith
  · rcases Nat.lt_or_ge i (n - 1) with h1 | h1
    · have := h.lt h1 (by omega)
      rw [hl] at this; linarith
    · rw [show i = n - 1 by omega, hl]

theorem Arr.injOn {n : ℕ} {p : Vec} (h : Arr n p) : Set.InjOn p (Finset.range n) := by
  have hpos : 0 < 2 / nu (n - 1) ^ 2 := by have := nu_pos (n - 1); positivity
  intro i hi j hj e
  rw [Finset.mem_coe, Finset.mem_range] at hi hj
  rcases Nat.lt_trichotomy i j with h1 | h1 | h1
  · have := h.lt h1 hj; rw [e] at this; linarith
  · exact h1
  · have := h.lt h1 hi; rw [e] at this; linarith

/-- The quadrature sum of a function that is within `ε` of a polynomial is close to its integral. -/
theorem quad_error_arr {n : ℕ} {p w r : Vec} (hp : Arr n p) (hr : Arr n r) (hq : ∀ i < n, (qPoly (n - 1)).eval (r i) = 0) (ha : ∀ i < n, |p i - r i| ≤ tol9 * |p i|)
    (hval : ∀ i < n, w i = wt (n - 1) (p i)) (hδ : nu (n - 1) ^ 4 / 10 ^ 18 ≤ 1 / 2) {F : ℝ[X]} (hF : F.natDegree ≤ 2 * n - 3)
    {ψ : ℝ → ℝ} (hψ : IntervalIntegrable ψ MeasureTheory.volume (-1) 1) {ε : ℝ} (hε : ∀ x ∈ Set.Icc (-1 : ℝ) 1, |ψ x - F.eval x| ≤ ε)
    {L M : ℝ} (hL : ∀ x ∈ Set.Icc (-1 : ℝ) 1, ∀ y ∈ Set.Icc (-1 : ℝ) 1, |ψ x - ψ y| ≤ L * |x - y|) (hM : ∀ x ∈ Set.Icc (-1 : ℝ) 1, |ψ x| ≤ M) :
    |∑ i ∈ Finset.range n, w i * ψ (p i) - ∫ x in (-1 : ℝ)..1, ψ x| ≤ 2 * (1 / 10 ^ 9) * L + 4 * (nu (n - 1) ^ 4 / 10 ^ 18) * M + 4 * ε := by
  have hn := hp.two
  have hw : ∀ i < n, wt (n - 1) (r i) ≤ w i ∧ w i * (1 - nu (n - 1) ^ 4 / 10 ^ 18) ≤ wt (n - 1) (r i) := fun i hi => by
    rw [hval i hi]; exact arr_weights hp hr hq ha hi
  have hN : 1 ≤ n - 1 := by omega
  set δ := nu (n - 1) ^ 4 / 10 ^ 18 with hδe
  have hδ0 : 0 ≤ δ := by positivity
  have hex : ∀ G : ℝ[X], G.natDegree ≤ 2 * n - 3 → ∑ i ∈ Finset.range n, wt (n - 1) (r i) * G.eval (r i) = ∫ x in (-1 : ℝ)..1, G.eval x := by
    intro G hG
    have := exact hN (p := r) (by rw [show n - 1 + 1 = n by omega]; exact hr.injOn) (fun i hi => hq i (by omega)) (fun i hi => legendre_ne_of_zero hN (hq i (by omega)))
      (f := G) (by omega)
    rw [show n - 1 + 1 = n by omega] at this
    exact this
  have hsum : ∑ i ∈ Finset.range n, wt (n - 1) (r i) = 2 := by
    have := hex 1 (by simp)
    simp only [eval_one, mul_one] at this
    rw [this]; simp; norm_num
  have hW0 : ∀ i, 0 ≤ wt (n - 1) (r i) := fun i => by unfold wt; positivity
  have hM0 : 0 ≤ M := (abs_nonneg _).trans (hM 0 (by constructor <;> norm_num))
  have hL0 : 0 ≤ L := by
    have := (abs_nonneg _).trans (hL 1 (by constructor <;> norm_num) 0 (by constructor <;> norm_num))
    norm_num at this; exact this
  have hterm : ∀ i ∈ Finset.range n, |w i * ψ (p i) - wt (n - 1) (r i) * ψ (r i)| ≤ wt (n - 1) (r i) * (1 / 10 ^ 9 * L + 2 * δ * M) := by
    intro i hi
    have hi := Finset.mem_range.mp hi
    have hpm := hp.mem hi
    have hrm := hr.mem hi
    obtain ⟨w1, w2⟩ := hw i hi
    have e : w i * ψ (p i) - wt (n - 1) (r i) * ψ (r i) = wt (n - 1) (r i) * (ψ (p i) - ψ (r i)) + (w i - wt (n - 1) (r i)) * ψ (p i) := by ring
    rw [e]
    refine (abs_add_le _ _).trans ?_
    rw [abs_mul, abs_mul, abs_of_nonneg (hW0 i), abs_of_nonneg (by linarith : 0 ≤ w i - wt (n - 1) (r i))]
    have a1 : |ψ (p i) - ψ (r i)| ≤ 1 / 10 ^ 9 * L := by
      refine (hL _ ⟨hpm.1, hpm.2⟩ _ ⟨hrm.1, hrm.2⟩).trans ?_
      have h1 := ha i hi
      have h2 : |p i| ≤ 1 := abs_le.mpr ⟨hpm.1, hpm.2⟩
      have h3 : |p i - r i| ≤ 1 / 10 ^ 9 := h1.trans (by unfold tol9; nlinarith)
      rw [mul_comm]
      exact mul_le_mul_of_nonneg_right h3 hL0
    have a2 : w i - wt (n - 1) (r i) ≤ 2 * δ * wt (n - 1) (r i) := by
      have h1 : w i ≤ 2 * wt (n - 1) (r i) := by nlinarith [hW0 i]
      nlinarith [mul_le_mul_of_nonneg_left h1 hδ0]
    calc wt (n - 1) (r i) * |ψ (p i) - ψ (r i)| + (w i - wt (n - 1) (r i)) * |ψ (p i)|
        ≤ wt (n - 1) (r i) * (1 / 10 ^ 9 * L) + 2 * δ * wt (n - 1) (r i) * M :=
          add_le_add (mul_le_mul_of_nonneg_left a1 (hW0 i)) (mul_le_mul a2 (hM _ ⟨hpm.1, hpm.2⟩) (abs_nonneg _) (mul_nonneg (by positivity) (hW0 i)))
      _ = _ := by ring
  have h1 : |∑ i ∈ Finset.range n, w i * ψ (p i) - ∑ i ∈ Finset.range n, wt (n - 1) (r i) * ψ (r i)| ≤ 2 * (1 / 10 ^ 9) * L + 4 * δ * M := by
    rw [← Finset.sum_sub_distrib]
    refine (Finset.abs_sum_le_sum_abs _ _).trans ((Finset.sum_le_sum hterm).trans ?_)
    rw [← Finset.sum_mul, hsum]
    exact le_of_eq (by ring)
  have h2 : |∑ i ∈ Finset.range n, wt (n - 1) (r i) * ψ (r i) - ∑ i ∈ Finset.range n, wt (n - 1) (r i) * F.eval (r i)| ≤ 2 * ε := by
    rw [← Finset.sum_sub_distrib, ← hsum, Finset.sum_mul]
    refine (Finset.abs_sum_le_sum_abs _ _).trans (Finset.sum_le_sum fun i hi => ?_)
    have hrm := hr.mem (Finset.mem_range.mp hi)
    rw [← mul_sub, abs_mul, abs_of_nonneg (hW0 i)]
    exact mul_le_mul_of_nonneg_left (hε _ ⟨hrm.1, hrm.2⟩) (hW0 i)
  have h3 : |(∫ x in (-1 : ℝ)..1, F.eval x) - ∫ x in (-1 : ℝ)..1, ψ x| ≤ 2 * ε := by
    rw [← intervalIntegral.integral_sub (F.continuous.intervalIntegrable _ _) hψ]
    have := intervalIntegral.norm_integral_le_of_norm_le_const (a := -1) (b := 1) (f := fun x => F.eval x - ψ x) (C := ε) (fun x hx => by
      rw [Set.uIoc_of_le (by norm_num)] at hx
      rw [Real.norm_eq_abs, abs_sub_comm]
      exact hε x ⟨hx.1.le, hx.2⟩)
    rw [show |(1 : ℝ) - -1| = 2 by norm_num, Real.norm_eq_abs] at this
    linarith
  rw [hex F hF] at h2
  rw [show ∑ i ∈ Finset.range n, w i * ψ (p i) - ∫ x in (-1 : ℝ)..1, ψ x =
    (∑ i ∈ Finset.range n, w i * ψ (p i) - ∑ i ∈ Finset.range n, wt (n - 1) (r i) * ψ (r i)) +
      (∑ i ∈ Finset.range n, wt (n - 1) (r i) * ψ (r i) - ∫ x in (-1 : ℝ)..1, F.eval x) + ((∫ x in (-1 : ℝ)..1, F.eval x) - ∫ x in (-1 : ℝ)..1, ψ x) by ring]
  refine (abs_add_three _ _ _).trans ?_
  linarith

/-- The same with the computed points and weights. -/
theorem quad_error_near {n : ℕ} {jp jw p w : Vec} (h : pointsWeights n jp jw = .ok (p, w)) (hδ : nu (n - 1) ^ 4 / 10 ^ 18 ≤ 1 / 2) {F : ℝ[X]} (hF : F.natDegree ≤ 2 * n - 3)
    {ψ : ℝ → ℝ} (hψ : IntervalIntegrable ψ MeasureTheory.volume (-1) 1) {ε : ℝ} (hε : ∀ x ∈ Set.Icc (-1 : ℝ) 1, |ψ x - F.eval x| ≤ ε)
    {L M : ℝ} (hL : ∀ x ∈ Set.Icc (-1 : ℝ) 1, ∀ y ∈ Set.Icc (-1 : ℝ) 1, |ψ x - ψ y| ≤ L * |x - y|) (hM : ∀ x ∈ Set.Icc (-1 : ℝ) 1, |ψ x| ≤ M) :
    |∑ i ∈ Finset.range n, w i * ψ (p i) - ∫ x in (-1 : ℝ)..1, ψ x| ≤ 2 * (1 / 10 ^ 9) * L + 4 * (nu (n - 1) ^ 4 / 10 ^ 18) * M + 4 * ε := by
  obtain ⟨-, -, hg⟩ := pointsWeights_spec h
  obtain ⟨r, hr, hq, ha⟩ := pw_exact h
  exact quad_error_arr (pw_arr h) hr hq ha (fun i hi => (hg i hi).val) hδ hF hψ hε hL hM

/-- The quadrature sum of a polynomial is close to its integral. -/
theorem quad_error {n : ℕ} {jp jw p w : Vec} (h : pointsWeights n jp jw = .ok (p, w)) (hδ : nu (n - 1) ^ 4 / 10 ^ 18 ≤ 1 / 2) {F : ℝ[X]} (hF : F.natDegree ≤ 2 * n - 3)
    {L M : ℝ} (hL : ∀ x ∈ Set.Icc (-1 : ℝ) 1, ∀ y ∈ Set.Icc (-1 : ℝ) 1, |F.eval x - F.eval y| ≤ L * |x - y|) (hM : ∀ x ∈ Set.Icc (-1 : ℝ) 1, |F.eval x| ≤ M) :
    |∑ i ∈ Finset.range n, w i * F.eval (p i) - ∫ x in (-1 : ℝ)..1, F.eval x| ≤ 2 * (1 / 10 ^ 9) * L + 4 * (nu (n - 1) ^ 4 / 10 ^ 18) * M := by
  have := quad_error_near h hδ hF (F.continuous.intervalIntegrable (-1) 1) (ε := 0) (fun x _ => by simp) hL hM
  linarith

end GSplines.GLL
