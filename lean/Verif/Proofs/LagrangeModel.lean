import Verif.Model.Lagrange
import Verif.Proofs.Loops
import Mathlib.LinearAlgebra.Lagrange
import Mathlib.Tactic.FieldSimp
import Mathlib.Tactic.LinearCombination
import Mathlib.Tactic.Positivity

/-! # The loops of BasisLagrange.cpp compute the cardinal polynomials and their derivatives -/

namespace GSplines.Lagrange

open GSplines Polynomial Finset

theorem almostEqual_self (a eps : ℝ) (h : 0 < eps) : almostEqual a a eps = true := by
  unfold almostEqual
  split_ifs with h1
  · simpa using h
  · push Not at h1
    have : 0 < eps * |a| := by nlinarith [h1.1]
    simpa using this

/-- Nodes are pairwise distinct. -/
def Distinct (n : ℕ) (x : Vec) : Prop := Set.InjOn x (range n : Finset ℕ)

theorem Distinct.ne {n : ℕ} {x : Vec} (h : Distinct n x) {i j : ℕ} (hi : i < n) (hj : j < n) (hij : i ≠ j) : x i ≠ x j :=
  fun e => hij (h (by simpa using hi) (by simpa using hj) e)

/-- Abbreviation: the cardinal polynomial of Mathlib. -/
noncomputable abbrev card (n : ℕ) (x : Vec) (j : ℕ) : ℝ[X] := _root_.Lagrange.basis (range n) x j

theorem baryProducts_spec (n : ℕ) (x : Vec) :
    ∀ k < n, baryProducts n x k = ∏ j ∈ (range n).erase k, (x k - x j) := by
  rcases Nat.eq_zero_or_pos n with rfl | hn
  · intro k hk; omega
  have key := forLoop_ind
    (fun J (r : Vec) => (∀ k < J, r k = ∏ j ∈ (range J).erase k, (x k - x j)) ∧ ∀ k, J ≤ k → r k = 1)
    (a := 1) (b := n) (by omega)
    (fun j r => forLoop 0 j (fun k r =>
      let r1 := setAt r k (r k * (x k - x j))
      setAt r1 j (r1 j * (x j - x k))) r) (fun _ => 1) ?_ ?_
  · exact key.1
  · refine ⟨?_, fun _ _ => rfl⟩
    intro k hk
    obtain rfl : k = 0 := by omega
    simp
  · rintro J r h1 h2 ⟨hr, hr1⟩
    have inner := forLoop_ind
      (fun K (r' : Vec) => (∀ k < K, r' k = ∏ j ∈ (range (J + 1)).erase k, (x k - x j))
        ∧ (∀ k, K ≤ k → k < J → r' k = r k) ∧ r' J = ∏ j ∈ range K, (x J - x j) ∧ ∀ k, J < k → r' k = 1)
      (a := 0) (b := J) (by omega)
      (fun k r => let r1 := setAt r k (r k * (x k - x J)); setAt r1 J (r1 J * (x J - x k))) r ?_ ?_
    · refine ⟨?_, ?_⟩
      · intro k hk
        rcases Nat.lt_or_ge k J with hlt | hge
        · exact inner.1 k hlt
        · obtain rfl : k = J := by omega
          rw [inner.2.2.1]
          congr 1
          ext a; simp; omega
      · intro k hk; exact inner.2.2.2 k (by omega)
    · refine ⟨fun k hk => by omega, fun _ _ _ => rfl, by simpa using hr1 J le_rfl, fun k hk => hr1 k (by omega)⟩
    · rintro K r' _ hK ⟨i1, i2, i3, i4⟩
      refine ⟨?_, ?_, ?_, ?_⟩
      · intro k hk
        simp only [setAt_apply]
        rw [if_neg (by omega)]
        split_ifs with hkK
        · subst hkK
          rw [i2 k le_rfl hK, hr k hK]
          have : (range (J + 1)).erase k = insert J ((range J).erase k) := by
            ext a; simp; omega
          rw [this, prod_insert (by simp), mul_comm]
        · exact i1 k (by omega)
      · intro k hk1 hk2
        simp only [setAt_apply]
        rw [if_neg (by omega), if_neg (by omega)]
        exact i2 k (by omega) hk2
      · simp only [setAt_apply, if_true]
        rw [if_neg (by omega), i3, prod_range_succ]
      · intro k hk
        simp only [setAt_apply]
        rw [if_neg (by omega), if_neg (by omega)]
        exact i4 k hk

theorem baryWeights_spec (n : ℕ) (x : Vec) {k : ℕ} (hk : k < n) :
    baryWeights n x k = _root_.Lagrange.nodalWeight (range n) x k := by
  unfold baryWeights _root_.Lagrange.nodalWeight
  rw [baryProducts_spec n x k hk, one_div, prod_inv_distrib]

theorem baryWeights_ne_zero {n : ℕ} {x : Vec} (h : Distinct n x) {k : ℕ} (hk : k < n) : baryWeights n x k ≠ 0 := by
  rw [baryWeights_spec n x hk]
  exact _root_.Lagrange.nodalWeight_ne_zero h (mem_range.mpr hk)

theorem baryLoop_spec (n : ℕ) (x : Vec) (s : ℝ) :
    (∀ j < n, (baryLoop n x s).1 j = baryWeights n x j / (s - x j)) ∧
      (baryLoop n x s).2 = ∑ j ∈ range n, baryWeights n x j / (s - x j) := by
  have key := forLoop_ind
    (fun J (st : Vec × ℝ) => (∀ j < J, st.1 j = baryWeights n x j / (s - x j)) ∧
      st.2 = ∑ j ∈ range J, baryWeights n x j / (s - x j))
    (a := 0) (b := n) (by omega)
    (fun j (st : Vec × ℝ) => let t := baryWeights n x j / (s - x j); (setAt st.1 j t, st.2 + t))
    ((fun _ => 0), 0) ?_ ?_
  · exact key
  · exact ⟨fun j hj => by omega, by simp⟩
  · rintro J st _ _ ⟨h1, h2⟩
    refine ⟨?_, ?_⟩
    · intro j hj
      simp only [setAt_apply]
      split_ifs with h
      · subst h; rfl
      · exact h1 j (by omega)
    · simp only [h2, sum_range_succ]

/-- Barycentric formula. -/
theorem bary_eq_card {n : ℕ} {x : Vec} (h : Distinct n x) {s : ℝ} (hs : ∀ j < n, s ≠ x j) {j : ℕ} (hj : j < n) :
    baryWeights n x j / (s - x j) / (∑ k ∈ range n, baryWeights n x k / (s - x k)) = (card n x j).eval s := by
  have hne : (range n).Nonempty := ⟨j, mem_range.mpr hj⟩
  have e : ∀ k ∈ range n, (card n x k).eval s
      = (_root_.Lagrange.nodal (range n) x).eval s * (baryWeights n x k / (s - x k)) := by
    intro k hk
    rw [card, _root_.Lagrange.eval_basis_not_at_node hk (hs k (mem_range.mp hk)), baryWeights_spec n x (mem_range.mp hk),
      div_eq_mul_inv]
  have hsum : (_root_.Lagrange.nodal (range n) x).eval s * (∑ k ∈ range n, baryWeights n x k / (s - x k)) = 1 := by
    rw [mul_sum, ← sum_congr rfl e, ← eval_finsetSum, _root_.Lagrange.sum_basis h hne, eval_one]
  have h0 : (∑ k ∈ range n, baryWeights n x k / (s - x k)) ≠ 0 := right_ne_zero_of_mul_eq_one hsum
  rw [e j (mem_range.mpr hj)]
  rw [div_eq_iff h0]
  linear_combination -(baryWeights n x j / (s - x j)) * hsum

/-! ## Derivative matrices -/

theorem sum_card_deriv {n : ℕ} {x : Vec} (h : Distinct n x) (hn : 0 < n) {d : ℕ} (hd : 1 ≤ d) (s : ℝ) :
    ∑ j ∈ range n, (derivative^[d] (card n x j)).eval s = 0 := by
  rw [← eval_finsetSum, ← iterate_derivative_sum, _root_.Lagrange.sum_basis h ⟨0, mem_range.mpr hn⟩]
  obtain ⟨m, rfl⟩ : ∃ m, d = m + 1 := ⟨d - 1, by omega⟩
  rw [Function.iterate_succ_apply]
  simp

theorem X_sub_mul_card {n : ℕ} {x : Vec} {j : ℕ} (hj : j < n) :
    (X - C (x j)) * card n x j = C (baryWeights n x j) * _root_.Lagrange.nodal (range n) x := by
  have hj' := mem_range.mpr hj
  rw [_root_.Lagrange.nodal_eq_mul_nodal_erase hj', baryWeights_spec n x hj]
  have : card n x j = C (_root_.Lagrange.nodalWeight (range n) x j) * _root_.Lagrange.nodal ((range n).erase j) x := by
    unfold card _root_.Lagrange.basis _root_.Lagrange.basisDivisor _root_.Lagrange.nodalWeight
    rw [prod_mul_distrib, _root_.Lagrange.nodal_eq, map_prod]
  rw [this]; ring

theorem iter_X_sub_mul (a : ℝ) (p : ℝ[X]) (m : ℕ) :
    derivative^[m + 1] ((X - C a) * p) = (X - C a) * derivative^[m + 1] p + ((m : ℝ[X]) + 1) * derivative^[m] p := by
  induction m with
  | zero => simp [derivative_mul]; ring
  | succ m ih =>
    rw [Function.iterate_succ_apply', ih]
    simp only [derivative_add, derivative_mul, derivative_sub, derivative_X, derivative_C, derivative_natCast, derivative_one]
    rw [← Function.iterate_succ_apply' derivative, ← Function.iterate_succ_apply' derivative]
    push_cast
    ring

/-- Recurrence between derivatives of cardinal polynomials at the nodes. -/
theorem card_deriv_rec {n : ℕ} {x : Vec} (h : Distinct n x) {i j : ℕ} (hi : i < n) (hj : j < n) (hij : i ≠ j) (m : ℕ) :
    (derivative^[m + 1] (card n x j)).eval (x i) = ((m : ℝ) + 1) / (x i - x j) *
      (baryWeights n x j / baryWeights n x i * (derivative^[m] (card n x i)).eval (x i)
        - (derivative^[m] (card n x j)).eval (x i)) := by
  have e : C (baryWeights n x i) * ((X - C (x j)) * card n x j) = C (baryWeights n x j) * ((X - C (x i)) * card n x i) := by
    rw [X_sub_mul_card hj, X_sub_mul_card hi]; ring
  have e2 := congrArg (fun p => (derivative^[m + 1] p).eval (x i)) e
  simp only [iterate_derivative_C_mul, iter_X_sub_mul, eval_mul, eval_add, eval_sub, eval_X, eval_C, eval_natCast, eval_one] at e2
  have hw := baryWeights_ne_zero h hi
  have hx : x i - x j ≠ 0 := sub_ne_zero.mpr (h.ne hi hj hij)
  field_simp
  linear_combination e2

/-- A row of a derivative matrix: off-diagonal entries `f j`, diagonal entry minus their sum. -/
theorem row_loop (n : ℕ) (f : ℕ → ℝ) (i : ℕ) (m : Mat) :
    let r := forLoop 0 n (fun j m =>
      if i ≠ j then
        let m1 := setAt2 m i j (f j)
        setAt2 m1 i i (m1 i i + -(m1 i j))
      else m) (setAt2 m i i 0)
    (∀ a b, a ≠ i → r a b = m a b) ∧ (∀ j < n, j ≠ i → r i j = f j) ∧ r i i = -∑ j ∈ (range n).erase i, f j := by
  have key := forLoop_ind
    (fun J (r : Mat) => (∀ a b, a ≠ i → r a b = m a b) ∧ (∀ j < J, j ≠ i → r i j = f j) ∧
      r i i = -∑ j ∈ (range J).erase i, f j)
    (a := 0) (b := n) (by omega)
    (fun j m => if i ≠ j then
        let m1 := setAt2 m i j (f j)
        setAt2 m1 i i (m1 i i + -(m1 i j))
      else m) (setAt2 m i i 0) ?_ ?_
  · exact key
  · refine ⟨?_, fun j hj => by omega, by simp [setAt2]⟩
    intro a b ha; simp [setAt2, ha]
  · rintro J r _ _ ⟨k1, k2, k3⟩
    by_cases hJ : i = J
    · subst hJ
      simp only [ne_eq, not_true, if_false]
      refine ⟨k1, ?_, ?_⟩
      · intro j hj hji; exact k2 j (by omega) hji
      · rw [k3]; congr 2; ext a; simp; omega
    · simp only [ne_eq, hJ, not_false_eq_true, if_true]
      refine ⟨?_, ?_, ?_⟩
      · intro a b ha; simp only [setAt2_apply]
        rw [if_neg (by omega), if_neg (by omega)]; exact k1 a b ha
      · intro j hj hji
        by_cases hjJ : j = J
        · subst hjJ; simp [setAt2, hji]
        · simp only [setAt2, true_and, hji, hjJ, if_false]
          exact k2 j (by omega) hji
      · simp only [setAt2, true_and, if_true, hJ, if_false, and_self, k3]
        have : (range (J + 1)).erase i = insert J ((range J).erase i) := by
          ext a; simp; omega
        rw [this, sum_insert (by simp)]
        ring

/-- Filling all rows. -/
theorem rows_loop (n : ℕ) (f : ℕ → ℕ → ℝ) (m : Mat) :
    let r := forLoop 0 n (fun i m => forLoop 0 n (fun j m =>
      if i ≠ j then
        let m1 := setAt2 m i j (f i j)
        setAt2 m1 i i (m1 i i + -(m1 i j))
      else m) (setAt2 m i i 0)) m
    (∀ i < n, ∀ j < n, j ≠ i → r i j = f i j) ∧ ∀ i < n, r i i = -∑ j ∈ (range n).erase i, f i j := by
  have key := forLoop_ind
    (fun I (r : Mat) => (∀ i < I, ∀ j < n, j ≠ i → r i j = f i j) ∧ ∀ i < I, r i i = -∑ j ∈ (range n).erase i, f i j)
    (a := 0) (b := n) (by omega)
    (fun i m => forLoop 0 n (fun j m =>
      if i ≠ j then
        let m1 := setAt2 m i j (f i j)
        setAt2 m1 i i (m1 i i + -(m1 i j))
      else m) (setAt2 m i i 0)) m ?_ ?_
  · exact key
  · exact ⟨fun i hi => by omega, fun i hi => by omega⟩
  · rintro I r _ hI ⟨k1, k2⟩
    have hr := row_loop n (f I) I r
    simp only at hr
    obtain ⟨r1, r2, r3⟩ := hr
    refine ⟨?_, ?_⟩
    · intro i hi j hj hji
      rcases Nat.lt_or_ge i I with hlt | hge
      · rw [r1 i j (by omega)]; exact k1 i hlt j hj hji
      · obtain rfl : i = I := by omega
        exact r2 j hj hji
    · intro i hi
      rcases Nat.lt_or_ge i I with hlt | hge
      · rw [r1 i i (by omega)]; exact k2 i hlt
      · obtain rfl : i = I := by omega
        exact r3

/-- Diagonal from off-diagonal, for the true derivatives. -/
theorem diag_eq {n : ℕ} {x : Vec} (h : Distinct n x) {i : ℕ} (hi : i < n) {d : ℕ} (hd : 1 ≤ d) :
    (derivative^[d] (card n x i)).eval (x i)
      = -∑ j ∈ (range n).erase i, (derivative^[d] (card n x j)).eval (x i) := by
  have := sum_card_deriv h (by omega : 0 < n) hd (x i)
  rw [← add_sum_erase _ _ (mem_range.mpr hi)] at this
  linarith

theorem dmat1_spec {n : ℕ} {x : Vec} (h : Distinct n x) :
    ∀ i < n, ∀ j < n, dmat1 n x i j = (derivative (card n x j)).eval (x i) := by
  have key := rows_loop n (fun i j => baryWeights n x j / baryWeights n x i * 1 / (x i - x j)) Mat.zero
  simp only at key
  obtain ⟨k1, k2⟩ := key
  have off : ∀ i < n, ∀ j < n, j ≠ i →
      baryWeights n x j / baryWeights n x i * 1 / (x i - x j) = (derivative (card n x j)).eval (x i) := by
    intro i hi j hj hji
    have := card_deriv_rec h hi hj (Ne.symm hji) 0
    simp only [Function.iterate_zero, id, zero_add, Function.iterate_one, Nat.cast_zero] at this
    rw [this, _root_.Lagrange.eval_basis_self h (mem_range.mpr hi),
      _root_.Lagrange.eval_basis_of_ne hji (mem_range.mpr hi)]
    ring
  intro i hi j hj
  by_cases hji : j = i
  · subst hji
    refine (k2 j hi).trans ?_
    have := diag_eq h hi (d := 1) le_rfl
    simp only [Function.iterate_one] at this
    rw [this]
    congr 1
    refine sum_congr rfl fun k hk => ?_
    have hk := mem_erase.mp hk
    exact off j hi k (mem_range.mp hk.2) hk.1
  · exact (k1 i hi j hj hji).trans (off i hi j hj hji)

theorem dmat_spec {n : ℕ} {x : Vec} (h : Distinct n x) (d : ℕ) :
    ∀ i < n, ∀ j < n, dmat n x d i j = (derivative^[d] (card n x j)).eval (x i) := by
  unfold dmat
  split_ifs with h0 h1
  · subst h0
    intro i hi j hj
    simp only [Mat.id, Function.iterate_zero, id]
    split_ifs with hij
    · subst hij; exact (_root_.Lagrange.eval_basis_self h (mem_range.mpr hi)).symm
    · exact (_root_.Lagrange.eval_basis_of_ne (Ne.symm hij) (mem_range.mpr hi)).symm
  · subst h1; exact dmat1_spec h
  · have key := forLoop_ind
      (fun k (st : Mat × Mat) => st.1 = st.2 ∧ ∀ i < n, ∀ j < n, st.2 i j = (derivative^[k - 1] (card n x j)).eval (x i))
      (a := 2) (b := d + 1) (by omega)
      (fun k (st : Mat × Mat) => let r := forLoop 0 n (dmatRowK n x (baryWeights n x) k st.2) st.1; (r, r))
      (dmat1 n x, dmat1 n x) ⟨rfl, by simpa using dmat1_spec h⟩ ?_
    · rw [key.1]; exact key.2
    · rintro k st hk1 hk2 ⟨_, ih⟩
      refine ⟨rfl, ?_⟩
      obtain ⟨m, rfl⟩ : ∃ m, k = m + 1 := ⟨k - 1, by omega⟩
      simp only [Nat.add_sub_cancel] at ih ⊢
      have rl := rows_loop n (fun i j => (((m + 1 : ℕ) : ℝ)) / (x i - x j) *
        (baryWeights n x j / baryWeights n x i * st.2 i i - st.2 i j)) st.1
      simp only at rl
      obtain ⟨k1, k2⟩ := rl
      have off : ∀ i < n, ∀ j < n, j ≠ i → (((m + 1 : ℕ) : ℝ)) / (x i - x j) *
          (baryWeights n x j / baryWeights n x i * st.2 i i - st.2 i j) = (derivative^[m + 1] (card n x j)).eval (x i) := by
        intro i hi j hj hji
        rw [card_deriv_rec h hi hj (Ne.symm hji) m, ih i hi i hi, ih i hi j hj]
        push_cast; ring
      intro i hi j hj
      by_cases hji : j = i
      · subst hji
        refine (k2 j hi).trans ?_
        rw [diag_eq h hi (d := m + 1) (by omega)]
        congr 1
        refine sum_congr rfl fun k hk => ?_
        have hk := mem_erase.mp hk
        exact off j hi k (mem_range.mp hk.2) hk.1
      · exact (k1 i hi j hj hji).trans (off i hi j hj hji)

theorem derivMatrixImpl_eq (n : ℕ) (x : Vec) (d : ℕ) : derivMatrixImpl n x d = dmat n x d := by
  unfold derivMatrixImpl dmat
  split_ifs <;> rfl

/-- A polynomial of degree `< n` is the combination of cardinal polynomials with its nodal values. -/
theorem interp {n : ℕ} {x : Vec} (h : Distinct n x) {p : ℝ[X]} (hp : p.degree < n) :
    p = ∑ i ∈ range n, C (p.eval (x i)) * card n x i := by
  have := _root_.Lagrange.eq_interpolate h (f := p) (by simpa using hp)
  rw [_root_.Lagrange.interpolate_apply] at this
  exact this

theorem degree_card_lt {n : ℕ} {x : Vec} (h : Distinct n x) {j : ℕ} (hj : j < n) : (card n x j).degree < n := by
  rw [_root_.Lagrange.degree_basis h (mem_range.mpr hj), card_range]
  exact_mod_cast Nat.sub_lt (by omega) (by omega)

theorem degree_iter_deriv_lt {p : ℝ[X]} {n : ℕ} (hp : p.degree < n) (d : ℕ) : (derivative^[d] p).degree < n := by
  induction d with
  | zero => simpa using hp
  | succ d ih =>
    rw [Function.iterate_succ_apply']
    exact lt_of_le_of_lt (degree_derivative_le) ih

/-- `l_j^{(d)}(s) = Σ_i l_j^{(d)}(x_i) l_i(s)`. -/
theorem card_deriv_eval {n : ℕ} {x : Vec} (h : Distinct n x) {j : ℕ} (hj : j < n) (d : ℕ) (s : ℝ) :
    (derivative^[d] (card n x j)).eval s
      = ∑ i ∈ range n, (derivative^[d] (card n x j)).eval (x i) * (card n x i).eval s := by
  conv_lhs => rw [interp h (degree_iter_deriv_lt (degree_card_lt h hj) d)]
  rw [eval_finsetSum]
  simp

end GSplines.Lagrange
