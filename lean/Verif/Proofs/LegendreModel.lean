import Verif.Model.Legendre
import Verif.Proofs.Loops
import Verif.Proofs.LegendrePoly
import Mathlib.Tactic.IntervalCases

/-! # The loops of BasisLegendre.cpp compute Legendre polynomials -/

namespace GSplines.Legendre

open GSplines Polynomial GSplines.Spec GSplines.LegendrePoly Finset

theorem values_spec (dim : ℕ) (h : 2 ≤ dim) (s : ℝ) :
    ∀ i < dim, values dim s i = (legendre i).eval s := by
  have key := forLoop_ind (fun n (b : Vec) => ∀ i ≤ n, b i = (legendre i).eval s)
    (a := 1) (b := dim - 1) (by omega) (recBody s) (setAt (setAt (fun _ => 0) 0 1) 1 s) ?_ ?_
  · intro i hi; exact key i (by omega)
  · intro i hi
    interval_cases i
    · simp [setAt, legendre_zero]
    · simp [setAt, legendre_one]
  · intro n b h1 h2 ih i hi
    rcases Nat.lt_or_ge i (n + 1) with hlt | hge
    · rw [recBody, setAt_ne _ _ (by omega)]; exact ih i (by omega)
    · obtain rfl : i = n + 1 := by omega
      obtain ⟨m, rfl⟩ : ∃ m, n = m + 1 := ⟨n - 1, by omega⟩
      rw [recBody, setAt_self, ih (m + 1) le_rfl, Nat.add_sub_cancel, ih m (by omega)]
      have := bonnet_eval m s
      have h0 : ((m : ℝ) + 2) ≠ 0 := by positivity
      push_cast
      rw [show ((m : ℝ) + 1 + 1) = (m : ℝ) + 2 by ring]
      field_simp
      linear_combination -this

/-- `d`-th derivative of the `d`-th Legendre polynomial, as built up by `aux`. -/
noncomputable def lead : ℕ → ℝ
  | 0 => 1
  | n + 1 => (2 * (n : ℝ) + 1) * lead n

theorem lead_pos (n : ℕ) : 0 < lead n := by
  induction n with
  | zero => simp [lead]
  | succ n ih => rw [lead]; positivity

theorem iter_deriv_legendre_lt {n d : ℕ} (h : n < d) : derivative^[d] (legendre n) = 0 :=
  iterate_derivative_eq_zero (lt_of_le_of_lt (natDegree_legendre_le n) h)

theorem iter_legendre_A (n d : ℕ) :
    derivative^[d + 1] (legendre (n + 1)) = ((n : ℝ[X]) + (d : ℝ[X]) + 1) * derivative^[d] (legendre n)
      + X * derivative^[d + 1] (legendre n) := by
  induction d with
  | zero => simp [legendre_A]
  | succ d ih =>
    rw [Function.iterate_succ_apply', ih]
    simp only [derivative_add, derivative_mul, derivative_natCast, derivative_one, derivative_X]
    rw [← Function.iterate_succ_apply' derivative, ← Function.iterate_succ_apply' derivative]
    push_cast
    ring

theorem iter_deriv_legendre_self (n : ℕ) : derivative^[n] (legendre n) = C (lead n) := by
  induction n with
  | zero => simp [legendre_zero, lead]
  | succ n ih =>
    rw [iter_legendre_A, ih, iter_deriv_legendre_lt (Nat.lt_succ_self n)]
    simp only [lead, map_mul, map_add, map_natCast, C_two, map_one, mul_zero, add_zero]
    ring

/-- Invariant of the outer derivative loop. -/
theorem dOuter_inv (dim : ℕ) (s tau : ℝ) (deg : ℕ) (hdim : 2 ≤ dim) (hdeg : deg < dim) :
    let st := forLoop 1 (deg + 1) (dOuter dim s tau) ⟨values dim s, fun _ => 0, 1, 1⟩
    (∀ i < dim, st.buff i = (derivative^[deg] (legendre i)).eval s) ∧ st.mult = (2 / tau) ^ deg := by
  have key := forLoop_ind
    (fun d (st : DState) => (∀ i < dim, st.buff i = (derivative^[d - 1] (legendre i)).eval s)
      ∧ (∀ i, i < d - 1 → st.next i = 0) ∧ st.aux = lead d ∧ st.mult = (2 / tau) ^ (d - 1))
    (a := 1) (b := deg + 1) (by omega) (dOuter dim s tau) ⟨values dim s, fun _ => 0, 1, 1⟩ ?_ ?_
  · exact ⟨key.1, key.2.2.2⟩
  · refine ⟨?_, ?_, ?_, ?_⟩
    · intro i hi; simpa using values_spec dim hdim s i hi
    · intro i hi; simp at hi
    · simp [lead]
    · simp
  · rintro d st h1 h2 ⟨hb, hn, ha, hm⟩
    obtain ⟨e, rfl⟩ : ∃ e, d = e + 1 := ⟨d - 1, by omega⟩
    simp only [Nat.add_sub_cancel] at hb hn hm ⊢
    have inner := forLoop_ind
      (fun i (nx : Vec) => ∀ k, k ≤ i → nx k = (derivative^[e + 1] (legendre k)).eval s)
      (a := e + 1) (b := dim - 1) (by omega) (dInner s (e + 1) st.buff)
      (setAt (setAt st.next e 0) (e + 1) st.aux) ?_ ?_
    · refine ⟨?_, ?_, ?_, ?_⟩
      · intro i hi
        simp only [dOuter, Nat.add_sub_cancel]
        exact inner i (by omega)
      · intro i hi
        simp only [dOuter, Nat.add_sub_cancel]
        rw [inner i (by omega), iter_deriv_legendre_lt (by omega)]; simp
      · simp only [dOuter, ha, lead]
        push_cast
        have : ((e : ℝ) + 1 + 1) ≠ 0 := by positivity
        field_simp
      · simp only [dOuter, hm]
        rw [pow_succ]
    · intro k hk
      simp only [setAt_apply]
      rcases Nat.lt_or_ge k e with hlt | hge
      · rw [if_neg (by omega), if_neg (by omega), hn k hlt, iter_deriv_legendre_lt (by omega)]; simp
      · rcases Nat.eq_or_lt_of_le hge with heq | hgt
        · subst heq
          rw [if_neg (by omega), if_pos rfl, iter_deriv_legendre_lt (by omega)]; simp
        · obtain rfl : k = e + 1 := by omega
          rw [if_pos rfl, ha, iter_deriv_legendre_self]; simp
    · intro i nx hi1 hi2 ih k hk
      rcases Nat.lt_or_ge k (i + 1) with hlt | hge
      · rw [dInner, setAt_ne _ _ (by omega)]; exact ih k (by omega)
      · obtain rfl : k = i + 1 := by omega
        obtain ⟨m, rfl⟩ : ∃ m, i = m + 1 := ⟨i - 1, by omega⟩
        rw [dInner, setAt_self, ih (m + 1) le_rfl, Nat.add_sub_cancel, ih m (by omega), hb (m + 1) (by omega)]
        have := congrArg (eval s) (bonnet_deriv m e)
        simp only [eval_mul, eval_add, eval_sub, eval_natCast, eval_ofNat, eval_X, eval_one] at this
        have h0 : ((m : ℝ) + 2) ≠ 0 := by positivity
        push_cast
        rw [show ((m : ℝ) + 1 + 1) = (m : ℝ) + 2 by ring]
        field_simp
        linear_combination -this

/-! ## Derivative matrix -/

/-- Closed form of the Legendre derivative matrix. -/
noncomputable def dmatC (i j : ℕ) : ℝ := if j < i ∧ (i - j) % 2 = 1 then 2 * (j : ℝ) + 1 else 0

theorem dmatEntry_closed (m : Mat) (i j : ℕ) (hi : 1 ≤ i)
    (h1 : ∀ k, k ≤ j + 1 → m (i - 1) k = dmatC (i - 1) k) (h2 : 2 ≤ i → m (i - 2) j = dmatC (i - 2) j) :
    dmatEntry m i j = dmatC i j := by
  unfold dmatEntry
  obtain ⟨p, rfl⟩ : ∃ p, i = p + 1 := ⟨i - 1, by omega⟩
  have hp1 : ((p : ℝ) + 1) ≠ 0 := by positivity
  have hp2 : (2 * (p : ℝ) + 1) ≠ 0 := by positivity
  simp only [Nat.add_sub_cancel] at h1 ⊢
  rw [if_pos (show 1 ≤ p + 1 by omega)]
  split_ifs with c1 c2 c3 c5 c5
  · -- i = j+1
    obtain rfl : p = j := by omega
    unfold dmatC alpha
    rw [if_pos (by omega)]
    push_cast
    field_simp
  · -- i > j+1, 1 ≤ j
    rw [h1 (j - 1) (by omega), h1 (j + 1) (by omega), h2 (by omega)]
    obtain ⟨q, rfl⟩ : ∃ q, j = q + 1 := ⟨j - 1, by omega⟩
    obtain ⟨r, rfl⟩ : ∃ r, p = r + 1 := ⟨p - 1, by omega⟩
    have hq : (2 * (q : ℝ) + 1) ≠ 0 := by positivity
    have hq5 : (2 * (q : ℝ) + 5) ≠ 0 := by positivity
    have hq3 : (2 * (q : ℝ) + 3) ≠ 0 := by positivity
    have hr2 : ((r : ℝ) + 2) ≠ 0 := by positivity
    have hr3 : (2 * (r : ℝ) + 3) ≠ 0 := by positivity
    unfold dmatC alpha gamma
    simp only [Nat.add_sub_cancel, show r + 1 + 1 - 2 = r by omega]
    by_cases par : (r + 1 - q) % 2 = 1
    · rw [if_pos (by omega), if_pos (by omega), if_pos (by omega), if_pos (by omega)]
      push_cast
      field_simp
      ring
    · rw [if_neg (by omega), if_neg (by omega), if_neg (by omega), if_neg (by omega)]
      ring
  · omega
  · -- j = 0, 2 ≤ i
    rw [h1 (j + 1) (by omega), h2 (by omega)]
    obtain rfl : j = 0 := by omega
    obtain ⟨r, rfl⟩ : ∃ r, p = r + 1 := ⟨p - 1, by omega⟩
    have hr2 : ((r : ℝ) + 2) ≠ 0 := by positivity
    have hr3 : (2 * (r : ℝ) + 3) ≠ 0 := by positivity
    unfold dmatC alpha gamma
    simp only [show r + 1 + 1 - 2 = r by omega, Nat.sub_zero, Nat.zero_add]
    by_cases par : r % 2 = 1
    · rw [if_pos (by omega), if_pos (by omega), if_pos (by omega)]
      push_cast
      field_simp
      ring
    · rw [if_neg (by omega), if_neg (by omega), if_neg (by omega)]
      ring
  · omega
  · unfold dmatC; rw [if_neg (by omega)]

theorem dmat_closed (dim : ℕ) : ∀ i j, i < dim → j < dim → dmat dim i j = dmatC i j := by
  rcases Nat.eq_zero_or_pos dim with rfl | hd
  · intro i j hi; omega
  have key := forLoop_ind
    (fun n (m : Mat) => (∀ i j, i < n → j < dim → m i j = dmatC i j) ∧ (∀ i j, n ≤ i → m i j = 0))
    (a := 1) (b := dim) (by omega)
    (fun i m => forLoop 0 (dim - 1) (fun j m => setAt2 m i j (dmatEntry m i j)) m) Mat.zero ?_ ?_
  · exact fun i j hi hj => key.1 i j hi hj
  · refine ⟨?_, fun i j _ => rfl⟩
    intro i j hi hj
    obtain rfl : i = 0 := by omega
    simp [dmatC, Mat.zero]
  · rintro i m hi1 hi2 ⟨hm, hz⟩
    have inner := forLoop_ind
      (fun c (m' : Mat) => (∀ a b, a ≠ i → m' a b = m a b) ∧ (∀ b, b < c → m' i b = dmatC i b)
        ∧ (∀ b, c ≤ b → m' i b = 0))
      (a := 0) (b := dim - 1) (by omega) (fun j m => setAt2 m i j (dmatEntry m i j)) m ?_ ?_
    · refine ⟨?_, ?_⟩
      · intro a b ha hb
        rcases Nat.lt_or_ge a i with hlt | hge
        · rw [inner.1 a b (by omega)]; exact hm a b hlt hb
        · obtain rfl : a = i := by omega
          rcases Nat.lt_or_ge b (dim - 1) with hb1 | hb1
          · exact inner.2.1 b hb1
          · rw [inner.2.2 b hb1]; unfold dmatC; rw [if_neg (by omega)]
      · intro a b ha
        rw [inner.1 a b (by omega)]; exact hz a b (by omega)
    · exact ⟨fun _ _ _ => rfl, fun b hb => by omega, fun b _ => hz i b le_rfl⟩
    · rintro c m' _ hc ⟨k1, k2, k3⟩
      refine ⟨?_, ?_, ?_⟩
      · intro a b ha; rw [setAt2_apply, if_neg (by omega)]; exact k1 a b ha
      · intro b hb
        rw [setAt2_apply]
        split_ifs with hbc
        · obtain rfl := hbc.2
          apply dmatEntry_closed _ _ _ hi1
          · intro k hk; rw [k1 _ _ (by omega)]; exact hm _ _ (by omega) (by omega)
          · intro _; rw [k1 _ _ (by omega)]; exact hm _ _ (by omega) (by omega)
        · exact k2 b (by omega)
      · intro b hb; rw [setAt2_apply, if_neg (by omega)]; exact k3 b (by omega)

theorem dmatC_of_le {i j : ℕ} (h : i ≤ j) : dmatC i j = 0 := by
  unfold dmatC; rw [if_neg (by omega)]

/-- `P_i' = Σ_j dmatC i j P_j`. -/
theorem deriv_legendre_sum (i : ℕ) :
    derivative (legendre i) = ∑ j ∈ range i, C (dmatC i j) * legendre j := by
  induction i using Nat.strong_induction_on with
  | _ i ih =>
    match i with
    | 0 => simp [legendre_zero]
    | 1 => simp [legendre_one, legendre_zero, dmatC]
    | n + 2 =>
      rw [deriv_diff, ih n (by omega), sum_range_succ, sum_range_succ]
      have h1 : dmatC (n + 2) (n + 1) = 2 * (n : ℝ) + 3 := by
        unfold dmatC; rw [if_pos (by omega)]; push_cast; ring
      have h2 : dmatC (n + 2) n = 0 := by
        unfold dmatC; rw [if_neg (by omega)]
      have h3 : ∀ j ∈ range n, C (dmatC (n + 2) j) * legendre j = C (dmatC n j) * legendre j := by
        intro j hj
        have hj := mem_range.mp hj
        congr 2
        unfold dmatC
        by_cases par : (n - j) % 2 = 1
        · rw [if_pos (by omega), if_pos (by omega)]
        · rw [if_neg (by omega), if_neg (by omega)]
      rw [sum_congr rfl h3, h1, h2]
      simp
      ring

theorem deriv_legendre_sum_dim {i dim : ℕ} (h : i < dim) :
    derivative (legendre i) = ∑ j ∈ range dim, C (dmat dim i j) * legendre j := by
  rw [deriv_legendre_sum]
  have : ∀ j ∈ range dim, C (dmat dim i j) * legendre j = C (dmatC i j) * legendre j := by
    intro j hj; rw [dmat_closed dim i j h (mem_range.mp hj)]
  rw [sum_congr rfl this]
  refine sum_subset (by intro a; simp only [mem_range]; omega) ?_
  intro j _ hj
  rw [dmatC_of_le (by simpa using hj)]; simp

/-- The polynomial with Legendre coefficients `y`. -/
noncomputable def comb (dim : ℕ) (y : Vec) : ℝ[X] := ∑ i ∈ range dim, C (y i) * legendre i

theorem deriv_comb (dim : ℕ) (y : Vec) :
    derivative (comb dim y) = comb dim ((dmat dim).tr.mulVec dim y) := by
  unfold comb Mat.mulVec Mat.tr
  rw [derivative_sum]
  have : ∀ i ∈ range dim, derivative (C (y i) * legendre i)
      = ∑ j ∈ range dim, C (dmat dim i j * y i) * legendre j := by
    intro i hi
    rw [derivative_C_mul, deriv_legendre_sum_dim (mem_range.mp hi), mul_sum]
    refine sum_congr rfl fun j _ => ?_
    rw [C_mul]; ring
  rw [sum_congr rfl this, sum_comm]
  refine sum_congr rfl fun j _ => ?_
  rw [map_sum, sum_mul]

theorem comb_ext (dim : ℕ) {y z : Vec} (h : ∀ i < dim, y i = z i) : comb dim y = comb dim z :=
  sum_congr rfl fun i hi => by rw [h i (mem_range.mp hi)]

theorem mulVec_mul (n : ℕ) (a b : Mat) (v : Vec) :
    (a.mul n b).mulVec n v = a.mulVec n (b.mulVec n v) := by
  funext i
  simp only [Mat.mul, Mat.mulVec, sum_mul, mul_sum]
  rw [sum_comm]
  exact sum_congr rfl fun _ _ => sum_congr rfl fun _ _ => by ring

theorem power_loop_spec (dim a k : ℕ) (hk : a ≤ k) (y : Vec) :
    comb dim ((forLoop a k (fun _ r => r.mul dim (dmat dim).tr) (dmat dim).tr).mulVec dim y)
      = derivative^[k - a + 1] (comb dim y) := by
  have key := forLoop_ind
    (fun d (r : Mat) => ∀ y, comb dim (r.mulVec dim y) = derivative^[d - a + 1] (comb dim y))
    (a := a) (b := k) hk (fun _ r => r.mul dim (dmat dim).tr) (dmat dim).tr ?_ ?_
  · exact key y
  · intro y; simp [deriv_comb]
  · intro d r h1 h2 ih y
    rw [mulVec_mul, ih, ← deriv_comb, ← Function.iterate_succ_apply derivative]
    congr 2
    omega

theorem derivMatrixImpl_spec (dim deg : ℕ) (y : Vec) :
    comb dim ((derivMatrixImpl dim deg).mulVec dim y) = derivative^[deg] (comb dim y) := by
  unfold derivMatrixImpl
  split_ifs with h
  · subst h
    simp only [Function.iterate_zero, id]
    refine comb_ext dim fun i hi => ?_
    simp only [Mat.mulVec, Mat.id, ite_mul, one_mul, zero_mul, sum_ite_eq, mem_range, hi, if_true]
  · rw [power_loop_spec dim 2 (deg + 1) (by omega)]
    congr 2
    omega

end GSplines.Legendre
