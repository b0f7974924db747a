import Verif.Props.Basis

/-!
# C33 for Basis0101

Exactly for which orders and interval lengths the continuity matrix of Basis0101 characterises continuity.
-/

namespace GSplines.Props

open GSplines Finset GSplines.Spec

/-- Coefficients of the function that is constant before the interval `m`, a straight line in it and constant after it. -/
noncomputable def rampCoef (k : ℝ) (codim : ℕ) (tau : ℕ → ℝ) (m : ℕ) : Vec := fun i =>
  if i % 6 = 4 then (if i / (6 * codim) = m then 1 else 0)
  else if i % 6 = 5 then (if i / (6 * codim) < m then -(tau m * k) else if m < i / (6 * codim) then tau m * k else 0)
  else 0

theorem coefIdx_mod {dim codim iv c k : ℕ} (hk : k < dim) : Basis.coefIdx dim codim iv c k % dim = k := by
  unfold Basis.coefIdx
  rw [show iv * dim * codim + dim * c + k = dim * (iv * codim + c) + k by ring, Nat.mul_add_mod, Nat.mod_eq_of_lt hk]

theorem rampCoef_coefIdx (k : ℝ) {codim iv c j : ℕ} (tau : ℕ → ℝ) (m : ℕ) (hc : c < codim) (hj : j < 6) :
    rampCoef k codim tau m (Basis.coefIdx 6 codim iv c j)
      = if j = 4 then (if iv = m then 1 else 0) else if j = 5 then (if iv < m then -(tau m * k) else if m < iv then tau m * k else 0) else 0 := by
  unfold rampCoef
  rw [coefIdx_mod hj, Basis.coefIdx_div hc hj]

/-- Value of the ramp. -/
theorem piece_ramp (alpha : ℝ) {codim iv c : ℕ} (tau : ℕ → ℝ) (m : ℕ) (hc : c < codim) (t : ℝ) :
    piece (.b0101 alpha) codim tau (rampCoef (k0101 alpha) codim tau m) iv c t
      = if iv = m then tau m * k0101 alpha * window (tau m) t else if iv < m then -(tau m * k0101 alpha) else tau m * k0101 alpha := by
  change ∑ j ∈ range 6, rampCoef (k0101 alpha) codim tau m (Basis.coefIdx 6 codim iv c j) * phi0101 alpha (tau iv) j t = _
  rw [sum_congr rfl fun j hj => by rw [rampCoef_coefIdx _ tau m hc (mem_range.mp hj)]]
  rcases lt_trichotomy iv m with h | h | h
  · simp [sum_range_succ, phi0101, f0101, h, h.ne]
  · subst h; simp [sum_range_succ, phi0101, f0101]
  · simp [sum_range_succ, phi0101, f0101, h, h.ne', h.not_gt]

theorem contRow0101 (alpha : ℝ) (h0 : 0 < alpha) (h1 : alpha < 1) (left : Bool) : ∃ row, (Basis.b0101 alpha).contRow left 0 = .ok row ∧
    ∀ j < 6, row j = f0101 j (2 * k0101 alpha * (if left then -1 else 1)) := by
  refine ⟨B0101.evalDerivOnWindow alpha (if left then -1 else 1) 2 0, by rw [Basis.contRow, if_pos rfl]; rfl, fun j hj => ?_⟩
  set s : ℝ := if left then -1 else 1
  have := C29_basis0101_derivatives alpha h0.le h1 2 (by norm_num) (s + 1) 0 j hj
  have hw : window 2 (s + 1) = s := by unfold window; ring
  rw [hw] at this
  rw [this, iteratedDeriv_zero, phi0101, hw]

/-- The rows of order zero are the differences of the values that the pieces would have at the ends of intervals of length two. -/
theorem cont0101_rows (alpha : ℝ) (h0 : 0 < alpha) (h1 : alpha < 1) (n codim order : ℕ) (hn : 1 ≤ n) (tau : List ℝ) (hlen : tau.length = n)
    (hpos : ∀ i < n, 0 < vecOf tau i) :
    ∃ C, (Basis.b0101 alpha).contFresh n codim order tau = .ok C ∧ ∀ y : Vec,
      (∀ iv < n - 1, ∀ c < codim, C.mulVec (n * codim * 6) y (iv * codim + c)
        = (∑ j ∈ range 6, f0101 j (2 * k0101 alpha) * y (Basis.coefIdx 6 codim iv c j))
          - ∑ j ∈ range 6, f0101 j (-(2 * k0101 alpha)) * y (Basis.coefIdx 6 codim (iv + 1) c j)) ∧
      (1 ≤ order → ∀ iv < n - 1, ∀ c < codim, C.mulVec (n * codim * 6) y (codim * (n - 1) + iv * codim + c)
        = (∑ j ∈ range 6, B0101.derivMatrixImpl alpha 1 5 j * y (Basis.coefIdx 6 codim iv c j)) * (2 / vecOf tau iv)
          - (∑ j ∈ range 6, B0101.derivMatrixImpl alpha 1 0 j * y (Basis.coefIdx 6 codim (iv + 1) c j)) * (2 / vecOf tau (iv + 1))) := by
  have hval : ∀ (left : Bool) (der : ℕ), ∃ row, (Basis.b0101 alpha).contRow left der = .ok row ∧
      (der = 0 → ∀ j < 6, row j = f0101 j (2 * k0101 alpha * (if left then -1 else 1))) ∧
      (der = 1 → row = B0101.derivMatrixImpl alpha 1 (if left then 0 else 5)) := by
    intro left der
    by_cases hd : der = 0
    · subst hd
      obtain ⟨row, hr, hv⟩ := contRow0101 alpha h0 h1 left
      exact ⟨row, hr, fun _ => hv, by omega⟩
    · refine ⟨((Basis.b0101 alpha).derivBlock der) (if left then 0 else 5), ?_, by omega, fun h => by rw [h]; rfl⟩
      rw [Basis.contRow, if_neg hd, Basis.rowOf, if_pos]
      · rfl
      · rw [show (Basis.b0101 alpha).dim = 6 from rfl]
        split_ifs <;> omega
  choose rowL hLok hL0 hL1 using hval true
  choose rowR hRok hR0 hR1 using hval false
  obtain ⟨l, hl, hlr⟩ := contBuf_ok (order := order) (fun der _ => hLok der)
  obtain ⟨r, hr, hrr⟩ := contBuf_ok (order := order) (fun der _ => hRok der)
  refine ⟨_, contFresh_eq hn hlen.ge (fun _ => not_mem_take hlen hpos) hl hr, fun y => ⟨?_, ?_⟩⟩
  · intro iv hiv c hc
    have := Basis.cont_mulVec (dim := 6) tau l r y (order := order) (der := 0) (n := n) (by omega) hiv hc
    have e : Basis.contIdx n codim 0 iv c = iv * codim + c := by unfold Basis.contIdx; ring
    rw [e] at this
    rw [show (Basis.b0101 alpha).dim = 6 from rfl, this, hlr 0 (by omega), hrr 0 (by omega), pow_zero, pow_zero, mul_one, mul_one]
    congr 1
    · refine sum_congr rfl fun j hj => ?_
      rw [hR0 0 rfl j (mem_range.mp hj)]; simp
    · refine sum_congr rfl fun j hj => ?_
      rw [hL0 0 rfl j (mem_range.mp hj)]; simp
  · intro ho iv hiv c hc
    have := Basis.cont_mulVec (dim := 6) tau l r y (order := order) (der := 1) (n := n) ho hiv hc
    have e : Basis.contIdx n codim 1 iv c = codim * (n - 1) + iv * codim + c := by unfold Basis.contIdx; ring
    rw [e] at this
    rw [show (Basis.b0101 alpha).dim = 6 from rfl, this, hlr 1 ho, hrr 1 ho, hL1 1 rfl, hR1 1 rfl, pow_one, pow_one]
    simp

/-- Centre of the interval `iv`, measured from the centre of the interval `1`. -/
noncomputable def centre (tau : ℕ → ℝ) (iv : ℕ) : ℝ := (∑ j ∈ range iv, tau j) + tau iv / 2 - (tau 0 + tau 1 / 2)

/-- Coefficients of `e^p cos p`, with `p` measured from the centre of the interval `1`. -/
noncomputable def waveCoef (k : ℝ) (codim : ℕ) (tau : ℕ → ℝ) : Vec := fun i =>
  let d := 2 * k * centre tau (i / (6 * codim))
  if i % 6 = 0 then Real.exp d * Real.cos d else if i % 6 = 1 then -(Real.exp d * Real.sin d) else 0

theorem waveCoef_coefIdx (k : ℝ) {codim iv c j : ℕ} (tau : ℕ → ℝ) (hc : c < codim) (hj : j < 6) :
    waveCoef k codim tau (Basis.coefIdx 6 codim iv c j)
      = if j = 0 then Real.exp (2 * k * centre tau iv) * Real.cos (2 * k * centre tau iv)
        else if j = 1 then -(Real.exp (2 * k * centre tau iv) * Real.sin (2 * k * centre tau iv)) else 0 := by
  simp only [waveCoef, coefIdx_mod hj, Basis.coefIdx_div hc hj]

/-- The function `e^p cos p` of the time, with `p` measured from the centre of the interval `1`. -/
noncomputable def wave (alpha : ℝ) (tau : ℕ → ℝ) (u : ℝ) : ℝ := f0101 0 (2 * k0101 alpha * (u - (tau 0 + tau 1 / 2)))

theorem piece_wave (alpha : ℝ) {codim iv c : ℕ} (tau : ℕ → ℝ) (hc : c < codim) (hz : tau iv ≠ 0) :
    piece (.b0101 alpha) codim tau (waveCoef (k0101 alpha) codim tau) iv c
      = fun t => wave alpha tau ((∑ j ∈ range iv, tau j) + t) := by
  funext t
  change ∑ j ∈ range 6, waveCoef (k0101 alpha) codim tau (Basis.coefIdx 6 codim iv c j) * phi0101 alpha (tau iv) j t = _
  rw [sum_congr rfl fun j hj => by rw [waveCoef_coefIdx _ tau hc (mem_range.mp hj)]]
  have e : 2 * k0101 alpha * ((∑ j ∈ range iv, tau j) + t - (tau 0 + tau 1 / 2))
      = 2 * k0101 alpha * centre tau iv + tau iv * k0101 alpha * window (tau iv) t := by
    unfold centre window; field_simp; ring
  simp only [wave, e]
  simp [sum_range_succ, phi0101, f0101, Real.exp_add, Real.cos_add]
  ring

/-- **C33**, for Basis0101 exactly: for at least two intervals and one component, the matrix characterises continuity of the spline and of its
derivatives up to `order` if and only if the order is zero and every interval has length two. -/
theorem C33_continuity_matrix_basis0101_iff (alpha : ℝ) (h0 : 0 < alpha) (h1 : alpha < 1) (n codim order : ℕ) (hn : 2 ≤ n) (hcod : 1 ≤ codim)
    (tau : List ℝ) (hlen : tau.length = n) (hpos : ∀ i < n, 0 < vecOf tau i) :
    ∃ C, (Basis.b0101 alpha).contFresh n codim order tau = .ok C ∧
      ((∀ y : Vec, (∀ i < (n - 1) * codim * (order + 1), C.mulVec (n * codim * 6) y i = 0) ↔
        ∀ der ≤ order, ∀ iv < n - 1, ∀ c < codim, JoinAt (.b0101 alpha) codim (vecOf tau) y der iv c)
      ↔ order = 0 ∧ ∀ i < n, vecOf tau i = 2) := by
  obtain ⟨C, hC, key⟩ := cont0101_rows alpha h0 h1 n codim order (by omega) tau hlen hpos
  have hk : 0 < k0101 alpha := by rw [k0101_eq h0.le h1]; exact B0101.kOf_pos h0 h1
  refine ⟨C, hC, ?_, ?_⟩
  · intro H
    have ho : order = 0 := by
      by_contra ho
      have hj : ∀ der ≤ order, ∀ iv < n - 1, ∀ c < codim, JoinAt (.b0101 alpha) codim (vecOf tau) (waveCoef (k0101 alpha) codim (vecOf tau)) der iv c := by
        intro der _ iv hiv c hc
        unfold JoinAt
        rw [piece_wave alpha (vecOf tau) hc (hpos iv (by omega)).ne', piece_wave alpha (vecOf tau) hc (hpos (iv + 1) (by omega)).ne']
        have e : ∀ (g : ℝ → ℝ) (a t : ℝ), iteratedDeriv der (fun t : ℝ => g (a + t)) t = iteratedDeriv der g (a + t) := by
          intro g a t
          rw [iteratedDeriv_comp_const_add der g a]
        rw [e, e, sum_range_succ, add_zero]
      have hz := (H _).mpr hj (codim * (n - 1) + 0 * codim + 0) (by
        have h3 : codim * (n - 1) * 2 ≤ codim * (n - 1) * (order + 1) := Nat.mul_le_mul_left _ (by omega)
        have h4 : 0 < codim * (n - 1) := Nat.mul_pos (by omega) (by omega)
        rw [mul_comm (n - 1)]
        omega)
      rw [(key _).2 (by omega) 0 (by omega) 0 (by omega)] at hz
      have ew : ∀ iv, ∀ j ∈ range 6, waveCoef (k0101 alpha) codim (vecOf tau) (Basis.coefIdx 6 codim iv 0 j) = _ := fun iv j hj =>
        waveCoef_coefIdx (k0101 alpha) (vecOf tau) (show 0 < codim by omega) (mem_range.mp hj)
      have hc1 : centre (vecOf tau) (0 + 1) = 0 := by unfold centre; simp [sum_range_succ]
      rw [sum_congr rfl fun j hj => by rw [ew 0 j hj], sum_congr rfl fun j hj => congrArg (B0101.derivMatrixImpl alpha 1 0 j * ·) (ew (0 + 1) j hj),
        hc1] at hz
      have p1 := hpos 1 (by omega)
      have hkk := B0101.kOf_pos h0 h1
      simp [sum_range_succ, B0101.derivMatrixImpl, forLoop_of_le, B0101.d1mat, B0101.d1array, p1.ne', hkk.ne'] at hz
    subst ho
    refine ⟨rfl, fun m hm => ?_⟩
    by_contra hne
    have hj : ∀ der ≤ 0, ∀ iv < n - 1, ∀ c < codim, JoinAt (.b0101 alpha) codim (vecOf tau) (rampCoef (k0101 alpha) codim (vecOf tau) m) der iv c := by
      intro der hd iv hiv c hc
      obtain rfl : der = 0 := by omega
      unfold JoinAt
      rw [iteratedDeriv_zero, iteratedDeriv_zero, piece_ramp alpha (vecOf tau) m hc, piece_ramp alpha (vecOf tau) m hc]
      have hw : window (vecOf tau m) (vecOf tau m) = 1 := by have := (hpos m hm).ne'; unfold window; field_simp; ring
      have hw1 : window (vecOf tau m) 0 = -1 := by unfold window; simp
      rcases lt_trichotomy iv m with h | h | h
      · rw [if_neg h.ne, if_pos h]
        by_cases h' : iv + 1 = m
        · rw [if_pos h', hw1]; ring
        · rw [if_neg h', if_pos (by omega)]
      · subst h
        rw [if_pos rfl, hw, if_neg (by omega), if_neg (by omega), mul_one]
      · rw [if_neg (by omega), if_neg (by omega), if_neg (by omega), if_neg (by omega)]
    have hz := (H _).mpr hj
    have hk2 : ∀ s : ℝ, (∑ j ∈ range 6, f0101 j s * if j = 4 then (1 : ℝ) else 0) = s := by intro s; simp [sum_range_succ, f0101]
    have hlt : ∀ iv < n - 1, iv * codim + 0 < (n - 1) * codim * (0 + 1) := by
      intro iv hiv
      rw [zero_add, mul_one, add_zero]
      exact Nat.mul_lt_mul_of_pos_right hiv (by omega)
    rcases Nat.lt_or_ge m (n - 1) with h | h
    · have := hz (m * codim + 0) (hlt m h)
      rw [(key _).1 m h 0 (by omega), sum_congr rfl fun j hj => by rw [rampCoef_coefIdx _ (vecOf tau) m (by omega) (mem_range.mp hj)],
        sum_congr (s₁ := range 6) (f := fun j => _ * rampCoef _ _ _ _ (Basis.coefIdx 6 codim (m + 1) 0 j)) rfl fun j hj => by
          rw [rampCoef_coefIdx _ (vecOf tau) m (by omega) (mem_range.mp hj)]] at this
      simp [sum_range_succ, f0101] at this
      apply hne
      have h4 : k0101 alpha * (2 - vecOf tau m) = 0 := by linarith
      rcases mul_eq_zero.mp h4 with h5 | h5
      · exact absurd h5 hk.ne'
      · linarith
    · obtain ⟨iv, rfl⟩ : ∃ iv, m = iv + 1 := ⟨m - 1, by omega⟩
      have := hz (iv * codim + 0) (hlt iv (by omega))
      rw [(key _).1 iv (by omega) 0 (by omega), sum_congr rfl fun j hj => by rw [rampCoef_coefIdx _ (vecOf tau) (iv + 1) (by omega) (mem_range.mp hj)],
        sum_congr (s₁ := range 6) (f := fun j => _ * rampCoef _ _ _ _ (Basis.coefIdx 6 codim (iv + 1) 0 j)) rfl fun j hj => by
          rw [rampCoef_coefIdx _ (vecOf tau) (iv + 1) (by omega) (mem_range.mp hj)]] at this
      simp [sum_range_succ, f0101] at this
      apply hne
      have h4 : k0101 alpha * (2 - vecOf tau (iv + 1)) = 0 := by linarith
      rcases mul_eq_zero.mp h4 with h5 | h5
      · exact absurd h5 hk.ne'
      · linarith
  · rintro ⟨rfl, ht⟩ y
    have e : ∀ iv < n - 1, ∀ c < codim, C.mulVec (n * codim * 6) y (codim * (n - 1) * 0 + iv * codim + c)
        = iteratedDeriv 0 (piece (.b0101 alpha) codim (vecOf tau) y iv c) (vecOf tau iv)
          - iteratedDeriv 0 (piece (.b0101 alpha) codim (vecOf tau) y (iv + 1) c) 0 := by
      intro iv hiv c hc
      rw [mul_zero, zero_add, (key y).1 iv hiv c hc, iteratedDeriv_zero, iteratedDeriv_zero]
      have hp : ∀ iv < n, ∀ t, piece (.b0101 alpha) codim (vecOf tau) y iv c t
          = ∑ j ∈ range 6, f0101 j (2 * k0101 alpha * window 2 t) * y (Basis.coefIdx 6 codim iv c j) := by
        intro iv hiv t
        change ∑ j ∈ range 6, y (Basis.coefIdx 6 codim iv c j) * phi0101 alpha (vecOf tau iv) j t = _
        rw [ht iv hiv]
        exact sum_congr rfl fun j _ => mul_comm _ _
      rw [hp iv (by omega), hp (iv + 1) (by omega), ht iv (by omega)]
      have w1 : window 2 2 = 1 := by unfold window; norm_num
      have w2 : window 2 0 = -1 := by unfold window; norm_num
      rw [w1, w2, mul_one, mul_neg, mul_one]
    exact cont_zero (b := .b0101 alpha) fun der hd iv hiv c hc => by
      obtain rfl : der = 0 := by omega
      exact e iv hiv c hc

/-- Two intervals of lengths `2` and `3`, one component and order `0` satisfy the hypotheses, and the right-hand side is false; for the lengths `2, 2`
it is true. -/
example : (∀ i < 2, 0 < vecOf [2, 3] i) ∧ ¬ (∀ i < 2, vecOf [2, 3] i = 2) ∧ (∀ i < 2, vecOf [2, 2] i = 2) := by
  refine ⟨fun i hi => by interval_cases i <;> simp [vecOf], fun h => ?_, fun i hi => by interval_cases i <;> simp [vecOf]⟩
  have := h 1 (by norm_num)
  norm_num [vecOf] at this

end GSplines.Props
