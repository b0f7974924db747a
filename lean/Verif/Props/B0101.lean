import Verif.Proofs.B0101Sobolev
import Verif.Spec.B0101

/-!
# C25 (Basis0101 part), C29 - C31: Basis0101
-/

namespace GSplines.Props

open GSplines GSplines.Spec Real Finset

theorem k0101_eq {alpha : ℝ} (h0 : 0 ≤ alpha) (h1 : alpha < 1) : k0101 alpha = B0101.kOf alpha := by
  unfold k0101 B0101.kOf
  rw [div_rpow h0 (by linarith)]
  ring

theorem f0101_eq (p : ℝ) (i : ℕ) (hi : i < 6) : f0101 i p = B0101.wv p i := by
  rw [B0101.wv2]
  interval_cases i <;> simp only [f0101, B0101.vec6] <;> ring

theorem phi0101_eq {alpha : ℝ} (h0 : 0 ≤ alpha) (h1 : alpha < 1) (tau : ℝ) (i : ℕ) (hi : i < 6) :
    phi0101 alpha tau i = B0101.phi (B0101.kOf alpha) tau i := by
  funext t
  rw [phi0101, k0101_eq h0 h1, f0101_eq _ i hi]; rfl

/-- **C29**, values. -/
theorem C29_basis0101_eval (alpha : ℝ) (h0 : 0 ≤ alpha) (h1 : alpha < 1) (tau t : ℝ) (i : ℕ) (hi : i < 6) :
    B0101.evalOnWindow alpha (window tau t) tau i = phi0101 alpha tau i t := by
  rw [phi0101_eq h0 h1 tau i hi]; rfl

/-- **C29**, time derivatives of every order. -/
theorem C29_basis0101_derivatives (alpha : ℝ) (h0 : 0 ≤ alpha) (h1 : alpha < 1) (tau : ℝ) (ht : tau ≠ 0) (t : ℝ) (d i : ℕ) (hi : i < 6) :
    B0101.evalDerivOnWindow alpha (window tau t) tau d i = iteratedDeriv d (phi0101 alpha tau i) t := by
  rw [phi0101_eq h0 h1 tau i hi, B0101.evalDeriv_eq]
  have := congrFun (B0101.iteratedDeriv_wv (B0101.kOf alpha) ht d i) t
  exact this.symm

/-- **C29**, derivative with respect to the interval length at fixed window coordinate `s`. -/
theorem C29_basis0101_derivative_wrt_tau (alpha s tau : ℝ) (d i : ℕ) :
    HasDerivAt (fun x => B0101.evalDerivOnWindow alpha s x d i) (B0101.evalDerivWrtTauOnWindow alpha s tau d i) tau := by
  unfold B0101.evalDerivWrtTauOnWindow
  simp only [B0101.evalDeriv_eq]
  have h1 : HasDerivAt (fun x : ℝ => x * B0101.kOf alpha * s) (B0101.kOf alpha * s) tau := by
    simpa using ((hasDerivAt_id tau).mul_const (B0101.kOf alpha)).mul_const s
  refine HasDerivAt.congr_deriv (((B0101.iter_hasDerivAt d (tau * B0101.kOf alpha * s) i).comp tau h1).const_mul ((2 * B0101.kOf alpha) ^ d)) ?_
  rw [B0101.dstep_smul, Function.iterate_succ_apply']
  ring

/-- The hypotheses are met, and the value is not trivial. -/
example : B0101.evalDerivOnWindow (1 / 2) (window 2 1) 2 1 4 = 2 * B0101.kOf (1 / 2) ∧ 0 < B0101.kOf (1 / 2) := by
  refine ⟨?_, B0101.kOf_pos (by norm_num) (by norm_num)⟩
  rw [B0101.evalDeriv_eq]
  simp [B0101.dstep, B0101.vec6, B0101.wv]

/-- Linear combination of the basis functions of an interval of length `tau`. -/
noncomputable def comb0101 (alpha tau : ℝ) (y : Vec) (t : ℝ) : ℝ := ∑ i ∈ range 6, y i * phi0101 alpha tau i t

theorem comb_iteratedDeriv {alpha : ℝ} (h0 : 0 ≤ alpha) (h1 : alpha < 1) {tau : ℝ} (ht : tau ≠ 0) (y : Vec) (d : ℕ) :
    iteratedDeriv d (comb0101 alpha tau y) = fun t =>
      ∑ i ∈ range 6, y i * ((2 * B0101.kOf alpha) ^ d * B0101.dstep^[d] (B0101.wv (tau * B0101.kOf alpha * window tau t)) i) := by
  induction d with
  | zero =>
    funext t
    rw [iteratedDeriv_zero]
    refine sum_congr rfl fun i hi => ?_
    rw [phi0101_eq h0 h1 tau i (mem_range.mp hi)]
    simp [B0101.phi]
  | succ d ih =>
    rw [iteratedDeriv_succ, ih]
    funext t
    refine HasDerivAt.deriv ?_
    refine HasDerivAt.fun_sum fun i _ => ?_
    have h1 : HasDerivAt (fun t : ℝ => tau * B0101.kOf alpha * window tau t) (2 * B0101.kOf alpha) t := by
      unfold window
      refine HasDerivAt.congr_deriv (((((hasDerivAt_id t).const_mul 2).div_const tau).sub_const 1).const_mul (tau * B0101.kOf alpha)) ?_
      field_simp
    have h2 := (((B0101.iter_hasDerivAt d (tau * B0101.kOf alpha * window tau t) i).comp t h1).const_mul ((2 * B0101.kOf alpha) ^ d)).const_mul (y i)
    refine h2.congr_deriv ?_
    ring

/-- **C30** (false for higher orders): the derivative matrix maps coefficients of a function to those of its derivative
for orders `0`, `1` and `2`. Missing: orders `≥ 3`, refuted below. -/
theorem C30_basis0101_derivative_matrix_partial (alpha : ℝ) (h0 : 0 ≤ alpha) (h1 : alpha < 1) (tau : ℝ) (ht : tau ≠ 0) (y : Vec)
    (d : ℕ) (hd : d ≤ 2) (t : ℝ) :
    comb0101 alpha tau ((B0101.derivMatrixImpl alpha d).mulVec 6 y) t = iteratedDeriv d (comb0101 alpha tau y) t := by
  rw [comb_iteratedDeriv h0 h1 ht]
  have e : comb0101 alpha tau ((B0101.derivMatrixImpl alpha d).mulVec 6 y) t
      = ∑ i ∈ range 6, (B0101.derivMatrixImpl alpha d).mulVec 6 y i * B0101.wv (tau * B0101.kOf alpha * window tau t) i := by
    refine sum_congr rfl fun i hi => ?_
    rw [phi0101_eq h0 h1 tau i (mem_range.mp hi)]; rfl
  rw [e]
  beta_reduce
  generalize B0101.wv (tau * B0101.kOf alpha * window tau t) = w
  generalize hk : B0101.kOf alpha = k
  interval_cases d
  · simp [B0101.derivMatrixImpl, Mat.mulVec, Mat.id, sum_range_succ]
  · simp only [B0101.derivMatrixImpl, forLoop, hk]
    simp [Mat.mulVec, B0101.d1mat, B0101.d1array, sum_range_succ, B0101.dstep, B0101.vec6]
    ring
  · simp only [B0101.derivMatrixImpl, forLoop, hk]
    simp [Mat.mulVec, Mat.mul, B0101.d1mat, B0101.d1array, sum_range_succ, B0101.dstep, B0101.vec6]
    ring

/-- Column 1 of the matrix built for `deg ≥ 3` has no component along the other functions. -/
theorem derivMatrix_col1 (alpha : ℝ) (deg : ℕ) (hd : 3 ≤ deg) :
    ∀ i < 6, i ≠ 1 → B0101.derivMatrixImpl alpha deg i 1 = 0 := by
  unfold B0101.derivMatrixImpl
  rw [if_neg (by omega)]
  have key := forLoop_ind (P := fun n (q : Mat) =>
      (n = 2 → q = fun i j => B0101.d1mat i j * (B0101.kOf alpha * 2)) ∧
      (n = 3 → ∀ i < 6, (i ≠ 0 → q i 1 = 0) ∧ (i ≠ 1 → q i 0 = 0)) ∧
      (4 ≤ n → ∀ i < 6, i ≠ 1 → q i 1 = 0))
    (a := 2) (b := deg + 1) (by omega) (fun _ (q : Mat) => q.mul 6 q) (fun i j => B0101.d1mat i j * (B0101.kOf alpha * 2))
    ⟨fun _ => rfl, by omega, by omega⟩
    (by
      intro n q hn _ ⟨h2, h3, h4⟩
      refine ⟨by omega, ?_, ?_⟩
      · intro hn3
        rw [h2 (by omega)]
        intro i hi
        simp only [Mat.mul, sum_range_succ, sum_range_zero]
        interval_cases i <;> simp [B0101.d1mat, B0101.d1array]
      · intro hn4 i hi hne
        rcases Nat.lt_or_ge n 4 with hlt | hge
        · have hq := h3 (by omega)
          simp only [Mat.mul]
          refine sum_eq_zero fun k hk => ?_
          by_cases hk0 : k = 0
          · subst hk0; rw [(hq i hi).2 hne]; ring
          · rw [(hq k (mem_range.mp hk)).1 hk0]; ring
        · have hq := h4 hge
          simp only [Mat.mul]
          refine sum_eq_zero fun k hk => ?_
          by_cases hk1 : k = 1
          · subst hk1; rw [hq i hi hne]; ring
          · rw [hq k (mem_range.mp hk) hk1]; ring)
  exact key.2.2 (by omega)

theorem dstep_four (v : Vec) : B0101.dstep^[4] v 1 = -4 * v 1 ∧ B0101.dstep^[4] v 0 = -4 * v 0 := by
  simp only [Function.iterate_succ_apply, Function.iterate_zero, id, B0101.dstep, B0101.vec6]
  constructor <;> ring

theorem dstep_ne (d : ℕ) (hd : ¬ 4 ∣ d) : ∀ v : Vec, v 0 = 1 → v 1 = 0 → B0101.dstep^[d] v 1 ≠ 0 := by
  have gen : ∀ q r : ℕ, 0 < r → r < 4 → ∀ v : Vec, v 0 ≠ 0 → v 1 = 0 → B0101.dstep^[4 * q + r] v 1 ≠ 0 := by
    intro q
    induction q with
    | zero =>
      intro r h1 h2 v hv0 hv1
      interval_cases r <;>
        simp [Function.iterate_succ_apply, B0101.dstep, B0101.vec6, hv1] <;> intro h <;> apply hv0 <;> linarith
    | succ q ih =>
      intro r h1 h2 v hv0 hv1
      rw [show 4 * (q + 1) + r = (4 * q + r) + 4 by ring, Function.iterate_add_apply]
      refine ih r h1 h2 _ ?_ ?_
      · rw [(dstep_four v).2]; simpa using hv0
      · rw [(dstep_four v).1, hv1]; ring
  intro v h0 h1
  have := gen (d / 4) (d % 4) (by omega) (by omega) v (by rw [h0]; norm_num) h1
  rwa [Nat.div_add_mod] at this

/-- **C30 is false** for every order `d ≥ 3` that is not a multiple of four, and every `α`: already for the single function `e^p sin p`, at the middle of the
interval, the coefficients given by the matrix evaluate to zero (the code squares the matrix at every step instead of multiplying it by the first one). -/
theorem C30_basis0101_derivative_matrix_false (alpha : ℝ) (h0 : 0 < alpha) (h1 : alpha < 1) (tau : ℝ) (ht : tau ≠ 0)
    (d : ℕ) (hd : 3 ≤ d) (h4 : ¬ 4 ∣ d) :
    comb0101 alpha tau ((B0101.derivMatrixImpl alpha d).mulVec 6 (fun i => if i = 1 then 1 else 0)) (tau / 2) = 0 ∧
    iteratedDeriv d (comb0101 alpha tau (fun i => if i = 1 then 1 else 0)) (tau / 2) ≠ 0 := by
  have hw : window tau (tau / 2) = 0 := by unfold window; field_simp; ring
  have hc := derivMatrix_col1 alpha d hd
  constructor
  · unfold comb0101 phi0101
    rw [hw]
    refine sum_eq_zero fun i hi => ?_
    have hi := mem_range.mp hi
    have e : (B0101.derivMatrixImpl alpha d).mulVec 6 (fun i => if i = 1 then 1 else 0) i = B0101.derivMatrixImpl alpha d i 1 := by
      simp [Mat.mulVec]
    rw [e]
    by_cases hi1 : i = 1
    · subst hi1; simp [f0101]
    · rw [hc i hi hi1]; ring
  · rw [comb_iteratedDeriv h0.le h1 ht]
    simp only [hw, mul_zero, ite_mul, one_mul, zero_mul, sum_ite_eq']
    rw [if_pos (by simp)]
    have hk := B0101.kOf_pos h0 h1
    exact mul_ne_zero (by positivity) (dstep_ne d h4 _ (by simp [B0101.wv, B0101.vec6]) (by simp [B0101.wv, B0101.vec6]))

/-- The theorem applies: the third derivative (jerk) of a Basis0101 curve. -/
example : iteratedDeriv 3 (comb0101 (1 / 2) 2 (fun i => if i = 1 then 1 else 0)) (2 / 2) ≠
    comb0101 (1 / 2) 2 ((B0101.derivMatrixImpl (1 / 2) 3).mulVec 6 (fun i => if i = 1 then 1 else 0)) (2 / 2) := by
  obtain ⟨h1, h2⟩ := C30_basis0101_derivative_matrix_false (1 / 2) (by norm_num) (by norm_num) 2 (by norm_num) 3 (by norm_num) (by norm_num)
  rw [h1]; exact h2

/-- The entries of the square of the matrix of order one. -/
def square0101 (k : ℝ) (i j : ℕ) : ℝ :=
  match i, j with
  | 0, 1 => 8 * k ^ 2
  | 1, 0 => -(8 * k ^ 2)
  | 2, 3 => -(8 * k ^ 2)
  | 3, 2 => 8 * k ^ 2
  | _, _ => 0

theorem derivMatrix_square (k : ℝ) (i : ℕ) (hi : i < 6) (j : ℕ) (hj : j < 6) :
    Mat.mul 6 (fun i j => B0101.d1mat i j * (k * 2)) (fun i j => B0101.d1mat i j * (k * 2)) i j = square0101 k i j := by
  simp only [Mat.mul, sum_range_succ, sum_range_zero]
  interval_cases i <;> interval_cases j <;> simp [B0101.d1mat, B0101.d1array, square0101] <;> ring

/-- From order three on the code's matrix is a multiple of the projection on the four exponential functions. -/
theorem derivMatrix_diag (alpha : ℝ) (d : ℕ) (hd : 3 ≤ d) :
    ∃ c : ℝ, (d = 3 → c = -(64 * B0101.kOf alpha ^ 4)) ∧ (4 ≤ d → c = (64 * B0101.kOf alpha ^ 4) ^ 2 ^ (d - 3)) ∧
      ∀ i < 6, ∀ j < 6, B0101.derivMatrixImpl alpha d i j = if i = j ∧ i < 4 then c else 0 := by
  unfold B0101.derivMatrixImpl
  rw [if_neg (by omega)]
  induction d, hd using Nat.le_induction with
  | base =>
    refine ⟨-(64 * B0101.kOf alpha ^ 4), fun _ => rfl, by omega, fun i hi j hj => ?_⟩
    rw [forLoop_succ (show 2 ≤ 3 by norm_num), forLoop_succ (show 2 ≤ 2 by norm_num), forLoop_of_le (le_refl 2)]
    have hs := derivMatrix_square (B0101.kOf alpha)
    rw [Mat.mul, sum_congr rfl fun l hl => by rw [hs i hi l (mem_range.mp hl), hs l (mem_range.mp hl) j hj]]
    simp only [sum_range_succ, sum_range_zero]
    interval_cases i <;> interval_cases j <;> simp [square0101] <;> ring
  | succ n hn ih =>
    obtain ⟨c, h3, h4, hc⟩ := ih
    refine ⟨c ^ 2, by omega, fun _ => ?_, fun i hi j hj => ?_⟩
    · rcases Nat.eq_or_lt_of_le hn with h | h
      · rw [h3 h.symm, ← h]; ring
      · rw [h4 h, show n + 1 - 3 = (n - 3) + 1 by omega]; ring
    · rw [forLoop_succ (show 2 ≤ n + 1 by omega)]
      simp only [Mat.mul]
      rw [sum_congr rfl fun k hk => by rw [hc i hi k (mem_range.mp hk), hc k (mem_range.mp hk) j hj]]
      simp only [sum_range_succ, sum_range_zero]
      interval_cases i <;> interval_cases j <;> simp <;> ring

theorem dstep_four_mul (m : ℕ) (hm : 0 < m) (v : Vec) (i : ℕ) (hi : i < 6) :
    B0101.dstep^[4 * m] v i = if i < 4 then (-4) ^ m * v i else 0 := by
  induction m, hm using Nat.le_induction generalizing v with
  | base =>
    simp only [Function.iterate_succ_apply, Function.iterate_zero, id, B0101.dstep, B0101.vec6]
    interval_cases i <;> simp <;> ring
  | succ n hn ih =>
    rw [show 4 * (n + 1) = 4 * n + 4 * 1 by ring, Function.iterate_add_apply, ih]
    by_cases h : i < 4
    · rw [if_pos h, if_pos h]
      simp only [Function.iterate_succ_apply, Function.iterate_zero, id, B0101.dstep, B0101.vec6]
      interval_cases i <;> simp <;> ring
    · rw [if_neg h, if_neg h]

theorem kOf_pow_four {alpha : ℝ} (h0 : 0 < alpha) (h1 : alpha < 1) : 64 * B0101.kOf alpha ^ 4 = alpha / (1 - alpha) := by
  unfold B0101.kOf
  have e (x : ℝ) (hx : 0 ≤ x) : (x ^ (1 / 4 : ℝ)) ^ 4 = x := by
    rw [← rpow_natCast, ← rpow_mul hx]; norm_num
  have s : √2 ^ 4 = 4 := by
    rw [show (4 : ℕ) = 2 * 2 by norm_num, pow_mul, sq_sqrt (by norm_num)]; norm_num
  rw [div_pow, mul_pow, div_pow, e _ h0.le, e _ (by linarith), s]
  ring

/-- If the matrix of order `d` is right at the middle of one interval, then `d ≤ 2`, or `α = 1/2` and `d` is a multiple of eight. -/
theorem derivMatrix_middle (alpha : ℝ) (h0 : 0 < alpha) (h1 : alpha < 1) (tau : ℝ) (ht : tau ≠ 0) (d : ℕ)
    (h : ∀ y : Vec, comb0101 alpha tau ((B0101.derivMatrixImpl alpha d).mulVec 6 y) (tau / 2) = iteratedDeriv d (comb0101 alpha tau y) (tau / 2)) :
    d ≤ 2 ∨ (alpha = 1 / 2 ∧ 8 ∣ d) := by
  have hw : window tau (tau / 2) = 0 := by unfold window; field_simp; ring
  have hu := kOf_pow_four h0 h1
  have hup : 0 < alpha / (1 - alpha) := div_pos h0 (by linarith)
  have hcomb (y : Vec) (t : ℝ) : comb0101 alpha tau y t = ∑ i ∈ range 6, y i * B0101.wv (tau * B0101.kOf alpha * window tau t) i := by
    refine sum_congr rfl fun i hi => ?_
    rw [phi0101_eq h0.le h1 tau i (mem_range.mp hi)]; rfl
  have hpow (m : ℕ) : (2 * B0101.kOf alpha) ^ (4 * m) * (-4) ^ m = (-1) ^ m * (alpha / (1 - alpha)) ^ m := by
    rw [← hu, pow_mul, ← mul_pow, ← mul_pow]; congr 1; ring
  by_contra hcon
  rw [not_or, not_and, not_le] at hcon
  obtain ⟨hd2, hcon⟩ := hcon
  by_cases h4 : 4 ∣ d
  · obtain ⟨m, rfl⟩ := h4
    obtain ⟨c, -, hc, hM⟩ := derivMatrix_diag alpha (4 * m) (by omega)
    replace hc := hc (by omega)
    rw [hu] at hc
    have key := h (fun i => if i = 0 then 1 else 0)
    rw [comb_iteratedDeriv h0.le h1 ht, hcomb, hw] at key
    have e : ∀ i < 6, (B0101.derivMatrixImpl alpha (4 * m)).mulVec 6 (fun i => if i = 0 then 1 else 0) i = if i = 0 then c else 0 := by
      intro i hi
      have : (B0101.derivMatrixImpl alpha (4 * m)).mulVec 6 (fun i => if i = 0 then 1 else 0) i = B0101.derivMatrixImpl alpha (4 * m) i 0 := by
        simp [Mat.mulVec]
      rw [this, hM i hi 0 (by norm_num)]
      interval_cases i <;> simp
    rw [sum_congr rfl fun i hi => by rw [e i (mem_range.mp hi)]] at key
    simp only [ite_mul, zero_mul, one_mul, sum_ite_eq', mul_zero] at key
    rw [if_pos (by simp), if_pos (by simp), dstep_four_mul m (by omega) _ 0 (by norm_num), if_pos (by norm_num), ← mul_assoc, hpow] at key
    simp only [B0101.wv, B0101.vec6, hw, mul_zero, exp_zero, cos_zero, mul_one] at key
    rw [hc] at key
    rcases Nat.even_or_odd m with he | ho
    · rw [he.neg_one_pow, one_mul] at key
      have h8 : 8 ∣ 4 * m := by obtain ⟨r, rfl⟩ := he; exact ⟨r, by ring⟩
      have hlt : m < 2 ^ (4 * m - 3) := lt_of_lt_of_le Nat.lt_two_pow_self (Nat.pow_le_pow_right (by norm_num) (by omega))
      refine hcon ?_ h8
      by_contra hne
      have hu1 : alpha / (1 - alpha) ≠ 1 := by
        intro hh
        rw [div_eq_one_iff_eq (by linarith)] at hh
        exact hne (by linarith)
      exact hlt.ne ((pow_right_injective₀ hup hu1) key.symm)
    · rw [ho.neg_one_pow] at key
      have a : 0 < (alpha / (1 - alpha)) ^ 2 ^ (4 * m - 3) := by positivity
      have b : 0 < (alpha / (1 - alpha)) ^ m := by positivity
      linarith
  · obtain ⟨z, nz⟩ := C30_basis0101_derivative_matrix_false alpha h0 h1 tau ht d (by omega) h4
    exact nz ((h _).symm.trans z)

/-- **C30, the exact extent.** The matrix of order `d` gives the `d`-th derivative of every combination of the basis functions exactly when `d ≤ 2`, or, by
coincidence, when `α = 1/2` and `d` is a multiple of eight (there the repeated squaring ends at the right multiple of the identity). -/
theorem C30_basis0101_derivative_matrix_iff (alpha : ℝ) (h0 : 0 < alpha) (h1 : alpha < 1) (tau : ℝ) (ht : tau ≠ 0) (d : ℕ) :
    (∀ (y : Vec) (t : ℝ), comb0101 alpha tau ((B0101.derivMatrixImpl alpha d).mulVec 6 y) t = iteratedDeriv d (comb0101 alpha tau y) t) ↔
      d ≤ 2 ∨ (alpha = 1 / 2 ∧ 8 ∣ d) := by
  have hu := kOf_pow_four h0 h1
  have hcomb (y : Vec) (t : ℝ) : comb0101 alpha tau y t = ∑ i ∈ range 6, y i * B0101.wv (tau * B0101.kOf alpha * window tau t) i := by
    refine sum_congr rfl fun i hi => ?_
    rw [phi0101_eq h0.le h1 tau i (mem_range.mp hi)]; rfl
  have hpow (m : ℕ) : (2 * B0101.kOf alpha) ^ (4 * m) * (-4) ^ m = (-1) ^ m * (alpha / (1 - alpha)) ^ m := by
    rw [← hu, pow_mul, ← mul_pow, ← mul_pow]; congr 1; ring
  refine ⟨fun h => derivMatrix_middle alpha h0 h1 tau ht d fun y => h y _, ?_⟩
  rintro (hd | ⟨ha, m, rfl⟩) y t
  · exact C30_basis0101_derivative_matrix_partial alpha h0.le h1 tau ht y d hd t
  · rcases Nat.eq_zero_or_pos m with rfl | hm
    · exact C30_basis0101_derivative_matrix_partial alpha h0.le h1 tau ht y 0 (by norm_num) t
    obtain ⟨c, -, hc, hM⟩ := derivMatrix_diag alpha (8 * m) (by omega)
    replace hc := hc (by omega)
    have h1' : alpha / (1 - alpha) = 1 := by rw [ha]; norm_num
    rw [hu, h1', one_pow] at hc
    subst hc
    rw [comb_iteratedDeriv h0.le h1 ht, hcomb]
    beta_reduce
    have hp := hpow (2 * m)
    rw [h1', one_pow, mul_one, pow_mul (-1 : ℝ), neg_one_sq, one_pow] at hp
    refine sum_congr rfl fun i hi => ?_
    have hi := mem_range.mp hi
    rw [show 8 * m = 4 * (2 * m) by ring] at hM ⊢
    rw [dstep_four_mul (2 * m) (by omega) _ i hi]
    have e : (B0101.derivMatrixImpl alpha (4 * (2 * m))).mulVec 6 y i = if i < 4 then y i else 0 := by
      simp only [Mat.mulVec]
      rw [sum_congr rfl fun j hj => by rw [hM i hi j (mem_range.mp hj)]]
      simp only [sum_range_succ, sum_range_zero]
      interval_cases i <;> simp
    rw [e]
    by_cases h : i < 4
    · rw [if_pos h, if_pos h, ← mul_assoc ((2 * B0101.kOf alpha) ^ (4 * (2 * m))), hp, one_mul]
    · rw [if_neg h, if_neg h]; ring

/-- Order four (the snap) is wrong for every `α`; order eight is right for `α = 1/2` and for no other. -/
example (alpha : ℝ) (h0 : 0 < alpha) (h1 : alpha < 1) :
    (¬ ∀ (y : Vec) (t : ℝ), comb0101 alpha 2 ((B0101.derivMatrixImpl alpha 4).mulVec 6 y) t = iteratedDeriv 4 (comb0101 alpha 2 y) t) ∧
    ((∀ (y : Vec) (t : ℝ), comb0101 alpha 2 ((B0101.derivMatrixImpl alpha 8).mulVec 6 y) t = iteratedDeriv 8 (comb0101 alpha 2 y) t) ↔ alpha = 1 / 2) := by
  rw [C30_basis0101_derivative_matrix_iff alpha h0 h1 2 (by norm_num), C30_basis0101_derivative_matrix_iff alpha h0 h1 2 (by norm_num)]
  norm_num

theorem gram0101_eq {alpha : ℝ} (h0 : 0 < alpha) (h1 : alpha < 1) (tau : ℝ) (d i j : ℕ) (hi : i < 6) (hj : j < 6) :
    gram (phi0101 alpha tau) tau d i j = gram (B0101.phi (B0101.kOf alpha) tau) tau d i j := by
  unfold gram
  rw [phi0101_eq h0.le h1 tau i hi, phi0101_eq h0.le h1 tau j hj]

/-- **C31** (false for order 2): for orders `0`, `1`, `3` the integrals are added; the other orders, except `2`, throw. Missing: order 2, refuted below. -/
theorem C31_basis0101_sobolev_partial (alpha : ℝ) (h0 : 0 < alpha) (h1 : alpha < 1) (tau : ℝ) (ht : tau ≠ 0) (M : Mat) (d : ℕ) (hd2 : d ≠ 2) :
    (d ≤ 3 → ∃ R, B0101.addDerivativeMatrix alpha tau d M = .ok R ∧
      ∀ i < 6, ∀ j < 6, R i j = M i j + gram (phi0101 alpha tau) tau d i j) ∧
    (3 < d → B0101.addDerivativeMatrix alpha tau d M = .error .invalidArgument) := by
  have hk := (B0101.kOf_pos h0 h1).ne'
  constructor
  · intro hd
    interval_cases d
    · refine ⟨_, rfl, fun i hi j hj => ?_⟩
      rw [gram0101_eq h0 h1 tau 0 i j hi hj, B0101.gram_phi hk ht 0 hd i j hi hj, Mat.add, B0101.kQ_eq h1, B0101.q0_entries tau _ hk i j hi hj]
    · refine ⟨_, rfl, fun i hi j hj => ?_⟩
      rw [gram0101_eq h0 h1 tau 1 i j hi hj, B0101.gram_phi hk ht 1 hd i j hi hj, Mat.add, B0101.kQ_eq h1, B0101.qd1_entries tau _ hk i j hi hj]
    · exact absurd rfl hd2
    · refine ⟨_, rfl, fun i hi j hj => ?_⟩
      rw [gram0101_eq h0 h1 tau 3 i j hi hj, B0101.gram_phi hk ht 3 hd i j hi hj, Mat.add, B0101.kQ_eq h1, B0101.qd3_entries tau _ hk i j hi hj]
  · intro hd
    obtain ⟨m, rfl⟩ : ∃ m, d = m + 4 := ⟨d - 4, by omega⟩
    rfl

/-- What order 2 adds: `tau²/4` times the integral, hence the right matrix only for `tau = 2`. -/
theorem C31_basis0101_sobolev_order_two (alpha : ℝ) (h0 : 0 < alpha) (h1 : alpha < 1) (tau : ℝ) (ht : tau ≠ 0) (M : Mat) :
    ∃ R, B0101.addDerivativeMatrix alpha tau 2 M = .ok R ∧
      ∀ i < 6, ∀ j < 6, R i j = M i j + tau ^ 2 / 4 * gram (phi0101 alpha tau) tau 2 i j := by
  have hk := (B0101.kOf_pos h0 h1).ne'
  refine ⟨_, rfl, fun i hi j hj => ?_⟩
  rw [gram0101_eq h0 h1 tau 2 i j hi hj, B0101.gram_phi hk ht 2 (by norm_num) i j hi hj, Mat.add, B0101.kQ_eq h1, B0101.qd2_entries tau _ hk i j hi hj]

theorem gram_two_ne_zero {alpha : ℝ} (h0 : 0 < alpha) (h1 : alpha < 1) (tau : ℝ) (ht : 0 < tau) :
    gram (phi0101 alpha tau) tau 2 0 2 ≠ 0 := by
  have hk := B0101.kOf_pos h0 h1
  rw [gram0101_eq h0 h1 tau 2 0 2 (by norm_num) (by norm_num), B0101.gram_phi hk.ne' ht.ne' 2 (by norm_num) 0 2 (by norm_num) (by norm_num)]
  have e := B0101.qd2_entries tau (B0101.kOf alpha) hk.ne' 0 2 (by norm_num) (by norm_num)
  intro h
  rw [h] at e
  simp only [B0101.qd2, B0101.vec6, B0101.pw] at e
  generalize B0101.kOf alpha = k at *
  have hx : 0 < tau * k := by positivity
  have hs : sin (tau * k) * cos (tau * k) < tau * k := by
    have h2 : sin (2 * (tau * k)) < 2 * (tau * k) := sin_lt (by positivity)
    rw [sin_two_mul] at h2; linarith
  have : 8 * tau ^ 2 * k ^ 3 * (sin (tau * k) * cos (tau * k) - tau * k) = 0 := by linarith
  have hne : (8 : ℝ) * tau ^ 2 * k ^ 3 ≠ 0 := by positivity
  rcases mul_eq_zero.mp this with h' | h'
  · exact hne h'
  · linarith

/-- **C31 is false** for order 2 and every `tau ≠ 2`. -/
theorem C31_basis0101_sobolev_false (alpha : ℝ) (h0 : 0 < alpha) (h1 : alpha < 1) (tau : ℝ) (ht : 0 < tau) (ht2 : tau ≠ 2) (M : Mat) :
    ∃ R, B0101.addDerivativeMatrix alpha tau 2 M = .ok R ∧ R 0 2 ≠ M 0 2 + gram (phi0101 alpha tau) tau 2 0 2 := by
  obtain ⟨R, h, hR⟩ := C31_basis0101_sobolev_order_two alpha h0 h1 tau ht.ne' M
  refine ⟨R, h, ?_⟩
  rw [hR 0 (by norm_num) 2 (by norm_num)]
  have hg := gram_two_ne_zero h0 h1 tau ht
  intro he
  have h3 : (tau ^ 2 / 4 - 1) * gram (phi0101 alpha tau) tau 2 0 2 = 0 := by linarith
  rcases mul_eq_zero.mp h3 with h4 | h4
  · have : (tau - 2) * (tau + 2) = 0 := by linarith
    rcases mul_eq_zero.mp this with h5 | h5
    · exact ht2 (by linarith)
    · linarith
  · exact hg h4

example : ∃ R, B0101.addDerivativeMatrix (1 / 2) 1 2 Mat.zero = .ok R ∧ R 0 2 ≠ 0 + gram (phi0101 (1 / 2) 1) 1 2 0 2 :=
  C31_basis0101_sobolev_false (1 / 2) (by norm_num) (by norm_num) 1 (by norm_num) (by norm_num) Mat.zero

/-- **C25** and **C31**, Basis0101: for orders `1` and `3` the derivative of what `add_derivative_matrix` adds is added; the other orders throw. -/
theorem C25_basis0101_sobolev_dtau (alpha : ℝ) (h0 : 0 < alpha) (h1 : alpha < 1) (tau : ℝ) (M N : Mat) (d : ℕ) :
    (d = 1 ∨ d = 3 → ∃ (R : ℝ → Mat) (R' : Mat), (∀ x, B0101.addDerivativeMatrix alpha x d M = .ok (R x)) ∧
      B0101.addDerivativeMatrixDtau alpha tau d N = .ok R' ∧
      ∀ i < 6, ∀ j < 6, HasDerivAt (fun x => R x i j) (R' i j - N i j) tau) ∧
    (d ≠ 1 → d ≠ 3 → B0101.addDerivativeMatrixDtau alpha tau d N = .error .invalidArgument) := by
  have hk := (B0101.kOf_pos h0 h1).ne'
  rw [← B0101.kQ_eq h1] at hk
  constructor
  · rintro (rfl | rfl)
    · refine ⟨_, _, fun x => rfl, rfl, fun i hi j hj => ?_⟩
      refine ((B0101.qd1_dtau tau _ hk i j hi hj).const_add (M i j)).congr_deriv ?_
      simp [Mat.add]
    · refine ⟨_, _, fun x => rfl, rfl, fun i hi j hj => ?_⟩
      refine ((B0101.qd3_dtau tau _ hk i j hi hj).const_add (M i j)).congr_deriv ?_
      simp [Mat.add]
  · intro h1 h3
    unfold B0101.addDerivativeMatrixDtau
    split <;> first | rfl | omega

end GSplines.Props
