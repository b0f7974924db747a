import Verif.Proofs.LegendreOrtho
import Verif.Spec.Gram

/-! # Sobolev matrices of the Legendre basis -/

namespace GSplines.Legendre

open GSplines Polynomial GSplines.Spec GSplines.LegendrePoly Finset

/-- `P_i` as a function of the time elapsed in an interval of length `tau`. -/
noncomputable def phi (tau : ℝ) (i : ℕ) (t : ℝ) : ℝ := (legendre i).eval (window tau t)

theorem iteratedDeriv_phi (tau : ℝ) (i d : ℕ) :
    iteratedDeriv d (phi tau i) = fun t => (2 / tau) ^ d * (derivative^[d] (legendre i)).eval (window tau t) := by
  have := iteratedDeriv_window (legendre i) tau 0 d
  simp only [sub_zero] at this
  exact this

theorem gram_phi {tau : ℝ} (h : tau ≠ 0) (d i j : ℕ) :
    gram (phi tau) tau d i j = (2 / tau) ^ (2 * d) * (tau / 2) *
      I (derivative^[d] (legendre i) * derivative^[d] (legendre j)) := by
  unfold gram
  rw [iteratedDeriv_phi, iteratedDeriv_phi]
  have e : (fun t : ℝ => (2 / tau) ^ d * eval (window tau t) (derivative^[d] (legendre i)) *
      ((2 / tau) ^ d * eval (window tau t) (derivative^[d] (legendre j))))
      = fun t => (C ((2 / tau) ^ (2 * d)) * (derivative^[d] (legendre i) * derivative^[d] (legendre j))).eval (2 * t / tau - 1) := by
    funext t
    simp only [eval_mul, eval_C, window]
    rw [show 2 * d = d + d by ring, pow_add]; ring
  rw [e, integral_window _ h, I_C_mul]
  ring

theorem I_comb_mul (dim : ℕ) (y : Vec) {k : ℕ} (hk : k < dim) :
    I (comb dim y * legendre k) = y k * (2 / (2 * (k : ℝ) + 1)) := by
  unfold comb
  rw [sum_mul, I_sum]
  have : ∀ i ∈ range dim, I (C (y i) * legendre i * legendre k) = if i = k then y k * (2 / (2 * (k : ℝ) + 1)) else 0 := by
    intro i _
    rw [mul_assoc, I_C_mul, I_legendre_mul, l2Mat]
    split_ifs with h
    · subst h; rfl
    · simp
  rw [sum_congr rfl this, sum_ite_eq' (range dim), if_pos (mem_range.mpr hk)]

theorem comb_inj (dim : ℕ) {y z : Vec} (h : comb dim y = comb dim z) : ∀ i < dim, y i = z i := by
  intro i hi
  have h1 := I_comb_mul dim y hi
  rw [h, I_comb_mul dim z hi] at h1
  have : (2 / (2 * (i : ℝ) + 1)) ≠ 0 := by positivity
  exact (mul_right_cancel₀ this h1).symm

/-- `k`-th unit vector. -/
def unit (k : ℕ) : Vec := fun i => if i = k then 1 else 0

theorem comb_unit {dim k : ℕ} (h : k < dim) : comb dim (unit k) = legendre k := by
  unfold comb unit
  have : ∀ i ∈ range dim, C (if i = k then (1 : ℝ) else 0) * legendre i = if i = k then legendre k else 0 := by
    intro i _; split_ifs with h1
    · subst h1; simp
    · simp
  rw [sum_congr rfl this, sum_ite_eq' (range dim), if_pos (mem_range.mpr h)]

theorem mulVec_unit {dim k : ℕ} (h : k < dim) (a : Mat) (i : ℕ) : a.mulVec dim (unit k) i = a i k := by
  unfold Mat.mulVec unit
  simp [h]

/-- The `k`-th power of the derivative matrix, as built in the constructor. -/
noncomputable def dpow (dim k : ℕ) : Mat := forLoop 1 k (fun _ a => a.mul dim (dmat dim).tr) (dmat dim).tr

theorem comb_dpow (dim k : ℕ) (hk : 1 ≤ k) {j : ℕ} (hj : j < dim) :
    comb dim (fun i => dpow dim k i j) = derivative^[k] (legendre j) := by
  have h := power_loop_spec dim 1 k hk (unit j)
  rw [comb_unit hj, Nat.sub_add_cancel hk] at h
  rw [← h]
  refine comb_ext dim fun i _ => ?_
  exact (mulVec_unit hj _ i).symm

theorem comb_zero (dim : ℕ) : comb dim (fun _ => 0) = 0 := by simp [comb]

theorem dpow_top (dim : ℕ) (hd : 1 ≤ dim) {i j : ℕ} (hi : i < dim) (hj : j < dim) : dpow dim dim i j = 0 := by
  have h := comb_dpow dim dim hd hj
  rw [iter_deriv_legendre_lt hj, ← comb_zero dim] at h
  exact comb_inj dim h i hi

theorem sobolevBuffer_entry (dim k : ℕ) (hk : 1 ≤ k) (i j : ℕ) :
    sobolevBuffer dim k i j = ∑ m ∈ range dim, dpow dim k i m * (2 / (2 * (m : ℝ) + 1)) * dpow dim k j m := by
  unfold sobolevBuffer
  rw [if_neg (by omega)]
  simp only [Mat.mul, Mat.tr]
  refine sum_congr rfl fun m hm => ?_
  congr 1
  simp only [l2Mat, mul_ite, mul_zero]
  rw [sum_ite_eq' (range dim), if_pos hm]
  rfl

theorem dpow_zero_self (dim k : ℕ) (hk : 1 ≤ k) (h : k < dim) : dpow dim k 0 k = lead k := by
  have h1 := comb_dpow dim k hk h
  rw [iter_deriv_legendre_self] at h1
  have h2 : (C (lead k) : ℝ[X]) = comb dim (fun i => lead k * unit 0 i) := by
    have h3 := comb_unit (dim := dim) (k := 0) (by omega)
    rw [legendre_zero] at h3
    have h4 : comb dim (fun i => lead k * unit 0 i) = C (lead k) * comb dim (unit 0) := by
      unfold comb
      rw [mul_sum]
      exact sum_congr rfl fun i _ => by rw [C_mul]; ring
    rw [h4, h3, mul_one]
  rw [h2] at h1
  have := comb_inj dim h1 0 (by omega)
  simpa [unit] using this

theorem sobolevBuffer_zero_zero_pos (dim k : ℕ) (hk : 1 ≤ k) (h : k < dim) : 0 < sobolevBuffer dim k 0 0 := by
  rw [sobolevBuffer_entry dim k hk]
  refine sum_pos' (fun m _ => ?_) ⟨k, mem_range.mpr h, ?_⟩
  · have : 0 ≤ (2 / (2 * (m : ℝ) + 1)) := by positivity
    nlinarith [mul_self_nonneg (dpow dim k 0 m), mul_nonneg this (mul_self_nonneg (dpow dim k 0 m))]
  · rw [dpow_zero_self dim k hk h]
    have := lead_pos k
    positivity

theorem sobScale_eq {tau : ℝ} (h : tau ≠ 0) (d : ℕ) : sobScale tau d = (2 / tau) ^ (2 * d) * (tau / 2) := by
  unfold sobScale
  split_ifs with hd
  · obtain ⟨n, hn⟩ : ∃ n, 2 * d = n + 1 := ⟨2 * d - 1, by omega⟩
    rw [hn, Nat.add_sub_cancel, pow_succ]
    field_simp
  · obtain rfl : d = 0 := by omega
    simp

/-- The Gram matrix of the derivatives in terms of the powers of the derivative matrix: the transposed of what the
constructor stores. -/
theorem I_deriv_mul (dim k : ℕ) (hk : 1 ≤ k) {i j : ℕ} (hi : i < dim) (hj : j < dim) :
    I (derivative^[k] (legendre i) * derivative^[k] (legendre j))
      = ∑ m ∈ range dim, dpow dim k m i * (2 / (2 * (m : ℝ) + 1)) * dpow dim k m j := by
  rw [← comb_dpow dim k hk hi, ← comb_dpow dim k hk hj]
  conv_lhs => rw [comb.eq_def dim (fun m => dpow dim k m j)]
  rw [mul_sum, I_sum]
  refine sum_congr rfl fun m hm => ?_
  rw [show comb dim (fun i_1 => dpow dim k i_1 i) * (C (dpow dim k m j) * legendre m)
    = C (dpow dim k m j) * (comb dim (fun i_1 => dpow dim k i_1 i) * legendre m) by ring, I_C_mul, I_comb_mul dim _ (mem_range.mp hm)]
  ring

end GSplines.Legendre
