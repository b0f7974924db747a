import Verif.Spec.RoundingFunctionals
import Verif.Spec.Colloc
import Verif.Proofs.RoundingFunctionals
import Verif.Proofs.RateFunctionals
import Verif.Props.RoundingGLL
import Verif.Props.Functionals

/-!
# C106: linear functionals with rounded arithmetic

`Rounded.Functional.apply u L st v o` says that the functional with the matrix of `L`, applied to a spline with coefficients `v`, may end with `o` when each operation on doubles has a relative error of
at most `u.1` plus an absolute error of at most `u.2`. `st` says which entries of the matrix are stored.
-/

namespace GSplines.Props

open GSplines Colloc Spec Finset Rounded Rounded.Functional

/-- **C106.** Every run of a linear functional on a spline with as many coefficients as the matrix has columns returns a number per row: the sum of the products of the entries of the row and the
coefficients, up to the error of a sum of that many products. The matrix may be dense or sparse. -/
theorem C106_value (u : ℝ × ℝ) (h1 : 0 ≤ u.1) (h2 : 0 ≤ u.2) (L : LF) (st : ℕ → ℕ → Bool) (hst : Keeps L st) (v : List ℝ) (hv : v.length = L.cols) (o : Res (List ℝ)) (ho : apply u L st v o) :
    ∃ ys, o = .ok ys ∧ ys.length = L.rows ∧
      ∀ i < L.rows, |vecOf ys i - ∑ j ∈ range L.cols, L.mat i j * vecOf v j| ≤ productError u L.cols (∑ j ∈ range L.cols, |L.mat i j * vecOf v j|) := by
  unfold Rounded.Functional.apply at ho
  rw [if_neg (by simpa using hv)] at ho
  obtain ⟨ys, rfl, h⟩ := Nd.All.mapM (fun i hi => entry_filter h1 h2 L.cols (st i) (L.mat i) (vecOf v) fun j hj hp => by rw [hst i (List.mem_range.mp hi) j hj hp, zero_mul]) o ho
  refine ⟨ys, rfl, by simpa using h.length_eq.symm, fun i hi => ?_⟩
  have l1 : i < ys.length := by rw [← h.length_eq]; simpa using hi
  have r1 := h.get (i := i) (by simpa using hi) l1
  simp only [List.get_eq_getElem, List.getElem_range] at r1
  simpa [vecOf, List.getD, l1, productError] using r1

/-- **C106.** The product of two functionals has the entries of the product of the matrices, up to the error of a sum of products. -/
theorem C106_product (u : ℝ × ℝ) (h1 : 0 ≤ u.1) (h2 : 0 ≤ u.2) (A B : LF) (sa sb : ℕ → ℕ → Bool) (ha : Keeps A sa) (hb : Keeps B sb) (hfit : A.cols = B.rows) (o : Res LF)
    (ho : Functional.comp u A B sa sb o) : ∃ C, o = .ok C ∧ C.rows = A.rows ∧ C.cols = B.cols ∧
      ∀ i < A.rows, ∀ j < B.cols, |C.mat i j - ∑ k ∈ range A.cols, A.mat i k * B.mat k j| ≤ productError u A.cols (∑ k ∈ range A.cols, |A.mat i k * B.mat k j|) := by
  unfold Rounded.Functional.comp at ho
  rw [if_neg (by simpa using hfit)] at ho
  revert o
  refine Nd.All.bind (Q := fun o => ∃ C : LF, o = .ok C ∧ C.rows = A.rows ∧ C.cols = B.cols ∧
      ∀ i < A.rows, ∀ j < B.cols, |C.mat i j - ∑ k ∈ range A.cols, A.mat i k * B.mat k j| ≤ productError u A.cols (∑ k ∈ range A.cols, |A.mat i k * B.mat k j|))
    (fill_all (P := fun i j y => |y - ∑ k ∈ range A.cols, A.mat i k * B.mat k j| ≤ productError u A.cols (∑ k ∈ range A.cols, |A.mat i k * B.mat k j|)) fun i hi j hj => ?_)
    (by rintro e ⟨M, h, -⟩; cases h) fun M hM => ?_
  · refine entry_filter h1 h2 A.cols _ (A.mat i) (fun k => B.mat k j) fun k hk hp => ?_
    rcases (Bool.and_eq_false_iff.mp hp) with hp | hp
    · rw [ha i hi k hk hp, zero_mul]
    · rw [hb k (by rw [← hfit]; exact hk) j hj hp, mul_zero]
  · obtain ⟨M', e1, hM⟩ := hM
    cases e1
    exact Nd.All.pure ⟨_, rfl, rfl, rfl, hM⟩

/-- **C106.** The computed product, applied to a spline, gives what one functional gives on the values of the other, up to the errors of sums of `A.cols + B.cols` products. -/
theorem C106_compose (u : ℝ × ℝ) (h1 : 0 ≤ u.1) (h2 : 0 ≤ u.2) (A B C : LF) (sa sb sc : ℕ → ℕ → Bool) (ha : Keeps A sa) (hb : Keeps B sb) (hc : Keeps C sc) (hfit : A.cols = B.rows)
    (hC : Functional.comp u A B sa sb (.ok C)) (v : List ℝ) (hv : v.length = B.cols) (o : Res (List ℝ)) (ho : apply u C sc v o) :
    ∃ ys, o = .ok ys ∧ ys.length = A.rows ∧ ∀ i < A.rows,
      |vecOf ys i - ∑ k ∈ range A.cols, A.mat i k * ∑ j ∈ range B.cols, B.mat k j * vecOf v j| ≤
        ((1 + u.1) ^ (A.cols + B.cols) - 1) * ∑ k ∈ range A.cols, |A.mat i k| * ∑ j ∈ range B.cols, |B.mat k j| * |vecOf v j| +
          2 * (1 + u.1) ^ (A.cols + B.cols) * (A.cols * ∑ j ∈ range B.cols, |vecOf v j| + B.cols) * u.2 := by
  obtain ⟨C', e, r1, r2, r3⟩ := C106_product u h1 h2 A B sa sb ha hb hfit _ hC
  cases e
  obtain ⟨ys, rfl, l, hy⟩ := C106_value u h1 h2 C sc hc v (by rw [hv, r2]) o ho
  refine ⟨ys, rfl, by rw [l, r1], fun i hi => ?_⟩
  have hy := hy i (by rw [r1]; exact hi)
  rw [r2] at hy
  have hP : ∀ j < B.cols, _ := r3 i hi
  set n := A.cols
  set m := B.cols
  have gn : 1 ≤ (1 + u.1) ^ n := one_le_pow₀ (by linarith)
  have gm : 1 ≤ (1 + u.1) ^ m := one_le_pow₀ (by linarith)
  set S : ℕ → ℝ := fun j => ∑ k ∈ range n, |A.mat i k * B.mat k j| with hS
  have hS0 : ∀ j, 0 ≤ S j := fun j => Finset.sum_nonneg fun k _ => abs_nonneg _
  set F : ℝ := 2 * n * (1 + u.1) ^ n * u.2 with hF
  have hF0 : 0 ≤ F := by positivity
  set X : ℝ := ∑ j ∈ range m, |vecOf v j| with hX
  have hX0 : 0 ≤ X := Finset.sum_nonneg fun k _ => abs_nonneg _
  -- the sums in the other order
  have e1 : ∑ k ∈ range n, A.mat i k * ∑ j ∈ range m, B.mat k j * vecOf v j = ∑ j ∈ range m, (∑ k ∈ range n, A.mat i k * B.mat k j) * vecOf v j := by
    simp only [Finset.mul_sum, Finset.sum_mul]
    rw [Finset.sum_comm]
    exact Finset.sum_congr rfl fun j _ => Finset.sum_congr rfl fun k _ => by ring
  have e2 : ∑ k ∈ range n, |A.mat i k| * ∑ j ∈ range m, |B.mat k j| * |vecOf v j| = ∑ j ∈ range m, S j * |vecOf v j| := by
    simp only [hS, Finset.mul_sum, Finset.sum_mul]
    rw [Finset.sum_comm]
    exact Finset.sum_congr rfl fun j _ => Finset.sum_congr rfl fun k _ => by rw [abs_mul]; ring
  rw [e1, e2]
  set T := ∑ j ∈ range m, S j * |vecOf v j| with hT
  have hT0 : 0 ≤ T := Finset.sum_nonneg fun j _ => mul_nonneg (hS0 j) (abs_nonneg _)
  -- the sizes of the computed entries
  have b1 : ∑ j ∈ range m, |C.mat i j * vecOf v j| ≤ (1 + u.1) ^ n * T + F * X := by
    rw [hT, hX, Finset.mul_sum, Finset.mul_sum, ← Finset.sum_add_distrib]
    refine Finset.sum_le_sum fun j hj => ?_
    have q := hP j (Finset.mem_range.mp hj)
    have q' : |∑ k ∈ range n, A.mat i k * B.mat k j| ≤ S j := Finset.abs_sum_le_sum_abs _ _
    have q'' : |C.mat i j| ≤ |C.mat i j - ∑ k ∈ range n, A.mat i k * B.mat k j| + |∑ k ∈ range n, A.mat i k * B.mat k j| := by
      simpa using abs_add_le (C.mat i j - ∑ k ∈ range n, A.mat i k * B.mat k j) (∑ k ∈ range n, A.mat i k * B.mat k j)
    unfold productError at q
    have q3 : |C.mat i j| ≤ (1 + u.1) ^ n * S j + F := by linarith
    rw [abs_mul]
    calc |C.mat i j| * |vecOf v j| ≤ ((1 + u.1) ^ n * S j + F) * |vecOf v j| := mul_le_mul_of_nonneg_right q3 (abs_nonneg _)
      _ = _ := by ring
  have b2 : |∑ j ∈ range m, C.mat i j * vecOf v j - ∑ j ∈ range m, (∑ k ∈ range n, A.mat i k * B.mat k j) * vecOf v j| ≤ ((1 + u.1) ^ n - 1) * T + F * X := by
    rw [← Finset.sum_sub_distrib, hT, hX, Finset.mul_sum, Finset.mul_sum, ← Finset.sum_add_distrib]
    refine (Finset.abs_sum_le_sum_abs _ _).trans (Finset.sum_le_sum fun j hj => ?_)
    have q := hP j (Finset.mem_range.mp hj)
    unfold productError at q
    rw [← sub_mul, abs_mul]
    calc _ ≤ (((1 + u.1) ^ n - 1) * S j + F) * |vecOf v j| := mul_le_mul_of_nonneg_right q (abs_nonneg _)
      _ = _ := by ring
  have b3 := abs_sub_le (vecOf ys i) (∑ j ∈ range m, C.mat i j * vecOf v j) (∑ j ∈ range m, (∑ k ∈ range n, A.mat i k * B.mat k j) * vecOf v j)
  have b4 : ((1 + u.1) ^ m - 1) * (∑ j ∈ range m, |C.mat i j * vecOf v j|) ≤ ((1 + u.1) ^ m - 1) * ((1 + u.1) ^ n * T + F * X) := mul_le_mul_of_nonneg_left b1 (by linarith)
  unfold productError at hy
  have b5 : 2 * (m : ℝ) * (1 + u.1) ^ m * u.2 ≤ 2 * m * ((1 + u.1) ^ m * (1 + u.1) ^ n) * u.2 := by
    refine mul_le_mul_of_nonneg_right (mul_le_mul_of_nonneg_left ?_ (by positivity)) h2
    nlinarith
  rw [pow_add]
  have b6 : ((1 + u.1) ^ m - 1) * ((1 + u.1) ^ n * T + F * X) + (((1 + u.1) ^ n - 1) * T + F * X) = ((1 + u.1) ^ n * (1 + u.1) ^ m - 1) * T + (1 + u.1) ^ m * F * X := by ring
  have b7 : (1 + u.1) ^ m * F * X + 2 * m * ((1 + u.1) ^ m * (1 + u.1) ^ n) * u.2 = 2 * ((1 + u.1) ^ n * (1 + u.1) ^ m) * (n * X + m) * u.2 := by rw [hF]; ring
  linarith

/-- **C106.** Sums, differences, negatives and multiples have the entries of the exact results, each up to one rounding. -/
theorem C106_arithmetic (u : ℝ × ℝ) (A B : LF) (x : ℝ) :
    (A.rows = B.rows → A.cols = B.cols → ∀ o, Functional.add u A B o → ∃ C, o = .ok C ∧ C.rows = A.rows ∧ C.cols = A.cols ∧
      ∀ i < A.rows, ∀ j < A.cols, |C.mat i j - (A.mat i j + B.mat i j)| ≤ u.1 * |A.mat i j + B.mat i j| + u.2) ∧
    (A.rows = B.rows → A.cols = B.cols → ∀ o, Functional.sub u A B o → ∃ C, o = .ok C ∧ C.rows = A.rows ∧ C.cols = A.cols ∧
      ∀ i < A.rows, ∀ j < A.cols, |C.mat i j - (A.mat i j - B.mat i j)| ≤ u.1 * |A.mat i j - B.mat i j| + u.2) ∧
    (∀ o, Functional.neg u A o → ∃ C, o = .ok C ∧ C.rows = A.rows ∧ C.cols = A.cols ∧ ∀ i < A.rows, ∀ j < A.cols, |C.mat i j - -A.mat i j| ≤ u.1 * |A.mat i j| + u.2) ∧
    (∀ o, Functional.smul u x A o → ∃ C, o = .ok C ∧ C.rows = A.rows ∧ C.cols = A.cols ∧ ∀ i < A.rows, ∀ j < A.cols, |C.mat i j - x * A.mat i j| ≤ u.1 * |x * A.mat i j| + u.2) := by
  have key : ∀ f : ℕ → ℕ → ℝ, Nd.All (do let m ← fill A.rows A.cols fun i j => Nd.near u (f i j); return (⟨A.rows, A.cols, m⟩ : LF)) fun o =>
      ∃ C, o = .ok C ∧ C.rows = A.rows ∧ C.cols = A.cols ∧ ∀ i < A.rows, ∀ j < A.cols, |C.mat i j - f i j| ≤ u.1 * |f i j| + u.2 := fun f =>
    Nd.All.bind (fill_all (P := fun i j y => |y - f i j| ≤ u.1 * |f i j| + u.2) fun i _ j _ r hr => hr) (by rintro e ⟨M, h, -⟩; cases h) fun M hM => by
      obtain ⟨M', e1, hM⟩ := hM
      cases e1
      exact Nd.All.pure ⟨_, rfl, rfl, rfl, hM⟩
  refine ⟨fun r c o ho => ?_, fun r c o ho => ?_, fun o ho => ?_, fun o ho => ?_⟩
  · unfold Functional.add at ho
    rw [if_neg (by simp [r, c])] at ho
    exact key _ o ho
  · unfold Functional.sub at ho
    rw [if_neg (by simp [r, c])] at ho
    exact key _ o ho
  · simpa using key (fun i j => A.mat i j * (-1)) o ho
  · simpa [mul_comm] using key (fun i j => A.mat i j * x) o ho

/-- **C106.** Operands whose sizes do not fit are combined with undefined behaviour, whatever the errors. -/
theorem C106_sizes (u : ℝ × ℝ) (A B : LF) (sa sb : ℕ → ℕ → Bool) (v : List ℝ) :
    (v.length ≠ A.cols → ∀ o, apply u A sa v o → o = .error .ub) ∧ (A.cols ≠ B.rows → ∀ o, Functional.comp u A B sa sb o → o = .error .ub) ∧
    (A.rows ≠ B.rows ∨ A.cols ≠ B.cols → (∀ o, Functional.add u A B o → o = .error .ub) ∧ ∀ o, Functional.sub u A B o → o = .error .ub) := by
  refine ⟨fun h o ho => ?_, fun h o ho => ?_, fun h => ⟨fun o ho => ?_, fun o ho => ?_⟩⟩
  · unfold Rounded.Functional.apply at ho
    rw [if_pos h] at ho
    exact ho
  · unfold Rounded.Functional.comp at ho
    rw [if_pos h] at ho
    exact ho
  · unfold Functional.add at ho
    rw [if_pos h] at ho
    exact ho
  · unfold Functional.sub at ho
    rw [if_pos h] at ho
    exact ho

/-- **C106.** The value of exact arithmetic is among the possible ones. -/
theorem C106_exact (u : ℝ × ℝ) (h1 : 0 ≤ u.1) (h2 : 0 ≤ u.2) (L : LF) (st : ℕ → ℕ → Bool) (hst : Keeps L st) (v ys : List ℝ) (h : L.apply v = .ok ys) : Functional.apply u L st v (.ok ys) := by
  unfold LF.apply at h
  split_ifs at h with hv
  cases h
  unfold Rounded.Functional.apply
  rw [if_neg hv]
  refine Has.mapM fun i hi => ?_
  unfold Functional.entry dot
  refine Has.bind (Has.mapM (g := fun x => x) fun x _ => Has.near h1 h2 x) ?_
  convert Has.sum h1 h2 _ using 1
  rw [List.map_id', List.zipWith_map, List.zipWith_self, filter_sum _ _ _ fun j hj hp => by rw [hst i (List.mem_range.mp hi) j hj hp, zero_mul]]
  rfl

/-- **C106.** Every run of the constructor of `Integral` that ends well, with any rounding of the points and weights (C86 says how accurate these are), gives one row, and applied to a scalar spline with
`n` values on each of `m` intervals it returns one number: the sum over the intervals of half the length times the weighted sum of the values, up to the error of a sum of `n m + 4` products. -/
theorem C106_integral (u : ℝ × ℝ) (h1 : 0 ≤ u.1) (h2 : 0 ≤ u.2) (dom : ℝ × ℝ) (n m : ℕ) (hn : 0 < n) (hm : 0 < m) (jp jw : Vec) (I : LF) (hI : integralMatrix u dom n m jp jw (.ok I)) :
    I.rows = 1 ∧ I.cols = n * m ∧ ∃ p w, Rounded.pointsWeights u n jp jw (.ok (p, w)) ∧
      ∀ (g : GSpline) (st : ℕ → ℕ → Bool), Keeps I st → g.basis.dim = n → g.codim = 1 → g.coeffs.length = n * m → ∀ o, apply u I st g.coeffs o → ∃ v, o = .ok [v] ∧
        |v - ∑ iv ∈ range m, (dom.2 - dom.1) / m / 2 * ∑ k ∈ range n, w k * nodal g iv 0 k| ≤
          ((1 + u.1) ^ (n * m + 4) - 1) * (∑ iv ∈ range m, |(dom.2 - dom.1) / m / 2| * ∑ k ∈ range n, |w k| * |nodal g iv 0 k|) +
            (1 + u.1) ^ (n * m + 4) * (∑ iv ∈ range m, (∑ k ∈ range n, (|w k| + 2) * |nodal g iv 0 k|) + 2 * n * m) * u.2 := by
  unfold integralMatrix at hI
  obtain ⟨e, -, he⟩ | ⟨⟨p, w⟩, hpw, hI⟩ := hI
  · cases he
  rw [if_neg (by omega)] at hI
  obtain ⟨e, -, he⟩ | ⟨d, hd, hI⟩ := hI
  · cases he
  obtain ⟨e, -, he⟩ | ⟨len, hlen, hI⟩ := hI
  · cases he
  obtain ⟨e, -, he⟩ | ⟨r, hr, hI⟩ := hI
  · cases he
  have hI : Except.ok I = (Except.ok ⟨1, n * m, fun _ j => r (j / n) (j % n)⟩ : Res LF) := hI
  cases hI
  obtain ⟨d', e, hd⟩ := hd
  cases e
  have hlen : |len - d / m| ≤ u.1 * |d / m| + u.2 := by
    rcases hlen with ⟨e, -, he⟩ | ⟨q, hq, x, e, hx⟩
    · cases he
    · cases e
      have hq : Except.ok q = fdiv d m := hq
      unfold fdiv at hq
      rw [if_neg (by exact_mod_cast hm.ne')] at hq
      cases hq
      exact hx
  set D := dom.2 - dom.1
  obtain ⟨r', e, hr⟩ := fill_all (P := fun _ k e => |e - w k * (D / m) / 2| ≤ ((1 + u.1) ^ 4 - 1) * |w k * (D / m) / 2| + (1 + u.1) ^ 3 * (|w k| + 2) * u.2) (fun i _ k _ o ho => by
    rcases ho with ⟨e, ⟨a, ha, -⟩, rfl⟩ | ⟨a, ⟨a', ea, ha⟩, b, rfl, hb⟩
    · cases ha
    · cases ea
      exact ⟨b, rfl, weight_bound h1 h2 hm hd hlen ha hb⟩) _ hr
  cases e
  refine ⟨rfl, rfl, p, w, hpw, fun g st hst g1 g2 g3 o ho => ?_⟩
  obtain ⟨ys, rfl, l, hy⟩ := C106_value u h1 h2 _ st hst g.coeffs g3 o ho
  obtain ⟨v, rfl⟩ := List.length_eq_one_iff.mp l
  refine ⟨v, rfl, ?_⟩
  have hy := hy 0 (by norm_num)
  change |v - ∑ j ∈ range (n * m), r (j / n) (j % n) * vecOf g.coeffs j| ≤ productError u (n * m) (∑ j ∈ range (n * m), |r (j / n) (j % n) * vecOf g.coeffs j|) at hy
  have hnod : ∀ iv k, nodal g iv 0 k = vecOf g.coeffs (iv * n + k) := fun iv k => by unfold nodal; rw [g1, g2]; ring_nf
  have hidx : ∀ iv, ∀ k < n, (iv * n + k) / n = iv ∧ (iv * n + k) % n = k := fun iv k hk => by
    constructor
    · rw [Nat.mul_comm, Nat.mul_add_div hn, Nat.div_eq_of_lt hk, add_zero]
    · rw [Nat.mul_comm, Nat.mul_add_mod, Nat.mod_eq_of_lt hk]
  have h := perturbed (u2 := u.2) (α := (1 + u.1) ^ 4) (β := (1 + u.1) ^ (n * m)) (one_le_pow₀ (by linarith)) (n := n * m) (C := fun j => r (j / n) (j % n)) (X := fun j => w (j % n) * (D / m) / 2)
    (F := fun j => (1 + u.1) ^ 3 * (|w (j % n)| + 2)) (x := vecOf g.coeffs) (fun j hj => hr _ (Nat.div_lt_of_lt_mul hj) _ (Nat.mod_lt _ hn)) hy
  have e1 : ∑ j ∈ range (n * m), w (j % n) * (D / m) / 2 * vecOf g.coeffs j = ∑ iv ∈ range m, D / m / 2 * ∑ k ∈ range n, w k * nodal g iv 0 k := by
    rw [sum_blocks]
    refine Finset.sum_congr rfl fun iv _ => ?_
    rw [Finset.mul_sum]
    refine Finset.sum_congr rfl fun k hk => ?_
    rw [hnod, (hidx iv k (Finset.mem_range.mp hk)).2]
    ring
  have e2 : ∑ j ∈ range (n * m), |w (j % n) * (D / m) / 2 * vecOf g.coeffs j| = ∑ iv ∈ range m, |D / m / 2| * ∑ k ∈ range n, |w k| * |nodal g iv 0 k| := by
    rw [sum_blocks]
    refine Finset.sum_congr rfl fun iv _ => ?_
    rw [Finset.mul_sum]
    refine Finset.sum_congr rfl fun k hk => ?_
    rw [hnod, (hidx iv k (Finset.mem_range.mp hk)).2, mul_div_assoc, abs_mul, abs_mul]
    ring
  have e3 : ∑ j ∈ range (n * m), (1 + u.1) ^ 3 * (|w (j % n)| + 2) * |vecOf g.coeffs j| = (1 + u.1) ^ 3 * ∑ iv ∈ range m, ∑ k ∈ range n, (|w k| + 2) * |nodal g iv 0 k| := by
    rw [sum_blocks, Finset.mul_sum]
    refine Finset.sum_congr rfl fun iv _ => ?_
    rw [Finset.mul_sum]
    refine Finset.sum_congr rfl fun k hk => ?_
    rw [hnod, (hidx iv k (Finset.mem_range.mp hk)).2]
    ring
  rw [e1, e2, e3] at h
  set Q := ∑ iv ∈ range m, ∑ k ∈ range n, (|w k| + 2) * |nodal g iv 0 k|
  have hQ : 0 ≤ Q := Finset.sum_nonneg fun iv _ => Finset.sum_nonneg fun k _ => by positivity
  have hu : 1 ≤ 1 + u.1 := by linarith
  rw [show (1 + u.1) ^ 4 * (1 + u.1) ^ (n * m) = (1 + u.1) ^ (n * m + 4) by ring] at h
  refine h.trans ?_
  have g3 : (1 + u.1) ^ (n * m) * (1 + u.1) ^ 3 ≤ (1 + u.1) ^ (n * m + 4) := by rw [← pow_add]; exact pow_le_pow_right₀ hu (by omega)
  have g4 : (1 + u.1) ^ (n * m) ≤ (1 + u.1) ^ (n * m + 4) := pow_le_pow_right₀ hu (by omega)
  have t1 : (1 + u.1) ^ (n * m) * ((1 + u.1) ^ 3 * Q) * u.2 ≤ (1 + u.1) ^ (n * m + 4) * Q * u.2 := by
    rw [← mul_assoc]
    exact mul_le_mul_of_nonneg_right (mul_le_mul_of_nonneg_right g3 hQ) h2
  have t2 : 2 * ((n * m : ℕ) : ℝ) * (1 + u.1) ^ (n * m) * u.2 ≤ (1 + u.1) ^ (n * m + 4) * (2 * n * m) * u.2 := by
    refine mul_le_mul_of_nonneg_right ?_ h2
    push_cast
    nlinarith [mul_le_mul_of_nonneg_left g4 (by positivity : (0 : ℝ) ≤ 2 * n * m)]
  linarith

/-- **C106.** The constructor of `Integral` with exact arithmetic is among the runs. -/
theorem C106_integral_exact (u : ℝ × ℝ) (h1 : 0 ≤ u.1) (h2 : 0 ≤ u.2) (dom : ℝ × ℝ) (n m : ℕ) (hn : 0 < n) (hm : 0 < m) (jp jw junk : Vec) (J : Integ) (hJ : Integ.ofDomain dom n m jp jw junk = .ok J) :
    ∃ I, integralMatrix u dom n m jp jw (.ok I) ∧ I.rows = J.lf.rows ∧ I.cols = J.lf.cols ∧ ∀ j < I.cols, I.mat 0 j = J.lf.mat 0 j := by
  unfold Integ.ofDomain Integ.row at hJ
  cases hpw : GLL.pointsWeights n jp jw with
  | error e => rw [hpw] at hJ; cases hJ
  | ok q =>
    obtain ⟨p, w⟩ := q
    rw [hpw] at hJ
    cases hJ
    obtain ⟨M, hM, e⟩ := fill_has (m := m) (n := n) (f := fun _ k => do
      let a ← Nd.near u (w k * ((dom.2 - dom.1) / m))
      Nd.near u (a / 2)) (g := fun _ k => w k * ((dom.2 - dom.1) / m) / 2) fun i _ j _ => Has.bind (Has.near h1 h2 _) (Has.near h1 h2 _)
    refine ⟨⟨1, n * m, fun _ j => M (j / n) (j % n)⟩, ?_, rfl, rfl, fun j hj => ?_⟩
    · unfold integralMatrix
      refine Has.bind (pointsWeights_has h1 h2 hpw) ?_
      rw [if_neg (by omega)]
      exact Has.bind (Has.near h1 h2 _) (Has.bind (Has.quot h1 h2 _ (by exact_mod_cast hm.ne')) (Has.bind hM (Has.pure _)))
    · have hj : j < n * m := hj
      have e1 := e (j / n) (Nat.div_lt_of_lt_mul hj) (j % n) (Nat.mod_lt _ hn)
      have e2 := GLL.segments_spec n m (fun _ k => w k * ((dom.2 - dom.1) / m) / 2) junk (iv := j / n) (k := j % n) (Nat.div_lt_of_lt_mul hj) (Nat.mod_lt _ hn)
      rw [Nat.div_add_mod'] at e2
      exact e1.trans e2.symm

/-- **C106.** For `n` from 2 to 20000 and small enough errors: if the values of a scalar spline on each interval are those of a polynomial of degree at most `2 n - 3` at the computed points, `Integral`
returns the sum of the integrals of the polynomials over the intervals, up to the error of the points and weights (C86) and the errors of the operations. -/
theorem C106_integral_polynomials (n : ℕ) (h2 : 2 ≤ n) (hn : n ≤ 20000) (η : ℝ) (hη : 0 < η) : ∃ δ > 0, ∀ u, Small u δ → ∀ (dom : ℝ × ℝ) (m : ℕ), 0 < m → ∀ jp jw I,
    integralMatrix u dom n m jp jw (.ok I) → ∃ p w, Rounded.pointsWeights u n jp jw (.ok (p, w)) ∧ (∑ k ∈ range n, |w k|) ≤ 3 + η ∧
      ∀ (F : ℕ → Polynomial ℝ) (L M : ℝ), (∀ iv < m, (F iv).natDegree ≤ 2 * n - 3) →
        (∀ iv < m, ∀ x ∈ Set.Icc (-1 : ℝ) 1, ∀ y ∈ Set.Icc (-1 : ℝ) 1, |(F iv).eval x - (F iv).eval y| ≤ L * |x - y|) → (∀ iv < m, ∀ x ∈ Set.Icc (-1 : ℝ) 1, |(F iv).eval x| ≤ M) →
        ∀ (g : GSpline) (st : ℕ → ℕ → Bool), Keeps I st → g.basis.dim = n → g.codim = 1 → g.coeffs.length = n * m → (∀ iv < m, ∀ k < n, nodal g iv 0 k = (F iv).eval (p k)) →
        ∀ o, apply u I st g.coeffs o → ∃ v, o = .ok [v] ∧
          |v - ∑ iv ∈ range m, (dom.2 - dom.1) / m / 2 * ∫ x in (-1 : ℝ)..1, (F iv).eval x| ≤
            |dom.2 - dom.1| / 2 * (2 * (1 / 10 ^ 9) * L + 4 * (((n : ℝ) - 1 / 2) ^ 4 / 10 ^ 18) * M + η * (L + M)) +
              ((1 + u.1) ^ (n * m + 4) - 1) * (∑ iv ∈ range m, |(dom.2 - dom.1) / m / 2| * ∑ k ∈ range n, |w k| * |nodal g iv 0 k|) +
              (1 + u.1) ^ (n * m + 4) * (∑ iv ∈ range m, (∑ k ∈ range n, (|w k| + 2) * |nodal g iv 0 k|) + 2 * n * m) * u.2 := by
  obtain ⟨d1, hd1, H1⟩ := C86_quadrature n h2 hn η hη
  obtain ⟨r, -, -, d2, hd2, H2⟩ := C86_accuracy n h2 η hη
  refine ⟨min d1 d2, lt_min hd1 hd2, fun u hu dom m hm jp jw I hI => ?_⟩
  have hu1 : Small u d1 := ⟨hu.1, hu.2.1.trans (min_le_left _ _), hu.2.2.1, hu.2.2.2.trans (min_le_left _ _)⟩
  have hu2 : Small u d2 := ⟨hu.1, hu.2.1.trans (min_le_right _ _), hu.2.2.1, hu.2.2.2.trans (min_le_right _ _)⟩
  obtain ⟨-, -, p, w, hpw, H⟩ := C106_integral u hu.1 hu.2.2.1 dom n m (by omega) hm jp jw I hI
  obtain ⟨p1, w1, e, Q⟩ := H1 u hu1 jp jw _ hpw
  cases e
  obtain ⟨p2, w2, e, W⟩ := H2 u hu2 jp jw _ hpw
  cases e
  refine ⟨p, w, hpw, ?_, fun F L M hF hL hM g st hst g1 g2 g3 hv o ho => ?_⟩
  · have q := Q 1 0 1 (by simp) (by simp) (by simp)
    have e : ∑ k ∈ range n, |w k| = ∑ k ∈ range n, w k := Finset.sum_congr rfl fun k hk => abs_of_pos (W k (Finset.mem_range.mp hk)).2.1
    have hn' : ((n : ℝ) - 1 / 2) ^ 4 ≤ 20000 ^ 4 := by
      have a : (n : ℝ) ≤ 20000 := by exact_mod_cast hn
      have b : (2 : ℝ) ≤ n := by exact_mod_cast h2
      exact pow_le_pow_left₀ (by linarith) (by linarith) 4
    simp only [Polynomial.eval_one, mul_one, mul_zero, zero_add] at q
    rw [intervalIntegral.integral_const] at q
    norm_num at q
    rw [e]
    have q' := (abs_le.mp q).2
    norm_num at hn'
    linarith
  · obtain ⟨v, rfl, hb⟩ := H g st hst g1 g2 g3 o ho
    refine ⟨v, rfl, ?_⟩
    set E := 2 * (1 / 10 ^ 9) * L + 4 * (((n : ℝ) - 1 / 2) ^ 4 / 10 ^ 18) * M + η * (L + M)
    have hm' : (0 : ℝ) < m := by exact_mod_cast hm
    have key : |∑ iv ∈ range m, (dom.2 - dom.1) / m / 2 * ∑ k ∈ range n, w k * nodal g iv 0 k - ∑ iv ∈ range m, (dom.2 - dom.1) / m / 2 * ∫ x in (-1 : ℝ)..1, (F iv).eval x| ≤
        |dom.2 - dom.1| / 2 * E := by
      rw [← Finset.sum_sub_distrib]
      calc _ ≤ ∑ iv ∈ range m, |dom.2 - dom.1| / m / 2 * E := by
            refine (Finset.abs_sum_le_sum_abs _ _).trans (Finset.sum_le_sum fun iv hiv => ?_)
            have hiv := Finset.mem_range.mp hiv
            rw [← mul_sub, abs_mul, abs_div, abs_div, abs_of_pos hm', abs_two]
            refine mul_le_mul_of_nonneg_left ?_ (by positivity)
            rw [Finset.sum_congr rfl fun k hk => by rw [hv iv hiv k (Finset.mem_range.mp hk)]]
            exact Q (F iv) L M (hF iv hiv) (hL iv hiv) (hM iv hiv)
        _ = _ := by
            rw [Finset.sum_const, Finset.card_range, nsmul_eq_mul]
            field_simp
    have := abs_sub_le v (∑ iv ∈ range m, (dom.2 - dom.1) / m / 2 * ∑ k ∈ range n, w k * nodal g iv 0 k) (∑ iv ∈ range m, (dom.2 - dom.1) / m / 2 * ∫ x in (-1 : ℝ)..1, (F iv).eval x)
    linarith

/-- The functional with the row `1, 2, 0`, of which two entries are stored. -/
def rowFunctional : LF := ⟨1, 3, fun _ j => if j = 0 then 1 else if j = 1 then 2 else 0⟩

/-- The hypotheses can be met: in double precision the functional with the row `1, 2, 0`, stored as a sparse matrix, returns on the coefficients `3, 4, 5` the number 11 up to `10⁻¹⁴`. -/
example (o : Res (List ℝ)) (ho : Functional.apply (2 ^ (-53 : ℤ), 2 ^ (-1075 : ℤ)) rowFunctional (fun _ j => decide (j < 2)) [3, 4, 5] o) :
    ∃ y, o = .ok [y] ∧ |y - 11| ≤ 1 / 10 ^ 14 := by
  obtain ⟨ys, rfl, l, h⟩ := C106_value _ (by positivity) (by positivity) rowFunctional _ (fun i _ j hj hp => by
    have hj : j < 3 := hj
    have hp : ¬ j < 2 := of_decide_eq_false hp
    obtain rfl : j = 2 := by omega
    simp [rowFunctional]) [3, 4, 5] rfl o ho
  obtain ⟨y, rfl⟩ := List.length_eq_one_iff.mp l
  refine ⟨y, rfl, ?_⟩
  have h := h 0 (by simp [rowFunctional])
  have e1 : ∑ j ∈ range rowFunctional.cols, rowFunctional.mat 0 j * vecOf [3, 4, 5] j = 11 := by simp [rowFunctional, Finset.sum_range_succ, vecOf]; norm_num
  have e2 : ∑ j ∈ range rowFunctional.cols, |rowFunctional.mat 0 j * vecOf [3, 4, 5] j| = 11 := by simp [rowFunctional, Finset.sum_range_succ, vecOf]; norm_num
  rw [e1, e2] at h
  refine h.trans ?_
  have : (2 : ℝ) ^ (-1075 : ℤ) ≤ 2 ^ (-60 : ℤ) := zpow_le_zpow_right₀ (by norm_num) (by norm_num)
  simp only [productError, rowFunctional]
  have h60 : (2 : ℝ) ^ (-60 : ℤ) = 1 / 2 ^ 60 := by rw [zpow_neg, one_div]; norm_cast
  have h53 : (2 : ℝ) ^ (-53 : ℤ) = 1 / 2 ^ 53 := by rw [zpow_neg, one_div]; norm_cast
  rw [h60] at this
  rw [h53]
  calc _ ≤ ((1 + 1 / 2 ^ 53 : ℝ) ^ 3 - 1) * 11 + 2 * (3 : ℕ) * (1 + 1 / 2 ^ 53) ^ 3 * (1 / 2 ^ 60) := by gcongr
    _ ≤ _ := by norm_num

/-- A scalar spline with two values, all one, on each of two intervals. -/
noncomputable def oneSpline : GSpline := ⟨(0, 1), 1, .lagrange [-1, 1], [1, 1, 1, 1], [1 / 2, 1 / 2]⟩

/-- The hypotheses of `C106_integral_polynomials` can be met: for small enough errors every matrix of `Integral` on `[0, 1]` with two points and two intervals gives the number 1 on the spline with the
values 1, up to `10⁻⁷`. There is such a matrix, by `C106_integral_exact`. -/
example : ∃ δ > 0, ∀ u, Small u δ → ∀ jp jw, (∃ I, integralMatrix u (0, 1) 2 2 jp jw (.ok I)) ∧ ∀ I, integralMatrix u (0, 1) 2 2 jp jw (.ok I) →
    ∀ o, Functional.apply u I (fun _ _ => true) oneSpline.coeffs o → ∃ v, o = .ok [v] ∧ |v - 1| ≤ 1 / 10 ^ 7 := by
  obtain ⟨δ, hδ, H⟩ := C106_integral_polynomials 2 le_rfl (by norm_num) (1 / 10 ^ 9) (by norm_num)
  refine ⟨min δ (1 / 10 ^ 9), lt_min hδ (by norm_num), fun u hu jp jw => ⟨?_, fun I hI o ho => ?_⟩⟩
  · obtain ⟨p, w, hpw⟩ := (⟨_, _, rfl⟩ : ∃ p w, GLL.pointsWeights 2 jp jw = .ok (p, w))
    obtain ⟨J, hJ, -⟩ := (C49_integral (0, 1) 2 2 jp jw jp p w hpw).1
    obtain ⟨I, hI, -⟩ := C106_integral_exact u hu.1 hu.2.2.1 (0, 1) 2 2 (by norm_num) (by norm_num) jp jw jp J hJ
    exact ⟨I, hI⟩
  · have hu1 : Small u δ := ⟨hu.1, hu.2.1.trans (min_le_left _ _), hu.2.2.1, hu.2.2.2.trans (min_le_left _ _)⟩
    have a1 : u.1 ≤ 1 / 10 ^ 9 := hu.2.1.trans (min_le_right _ _)
    have a2 : u.2 ≤ 1 / 10 ^ 9 := hu.2.2.2.trans (min_le_right _ _)
    obtain ⟨p, w, -, hw, K⟩ := H u hu1 (0, 1) 2 (by norm_num) jp jw I hI
    have hnod : ∀ iv < 2, ∀ k < 2, nodal oneSpline iv 0 k = 1 := fun iv hiv k hk => by
      interval_cases iv <;> interval_cases k <;> norm_num [nodal, oneSpline, Basis.dim, vecOf]
    obtain ⟨v, rfl, hb⟩ := K (fun _ => 1) 0 1 (by simp) (by simp) (by simp) oneSpline (fun _ _ => true) (fun _ _ _ _ h => by cases h) rfl rfl rfl (fun iv hiv k hk => by rw [hnod iv hiv k hk]; simp) o ho
    refine ⟨v, rfl, ?_⟩
    have q : (1 + u.1) ^ 8 ≤ (1 + 1 / 10 ^ 9 : ℝ) ^ 8 := pow_le_pow_left₀ (by linarith [hu.1]) (by linarith) 8
    have q1 : 1 ≤ (1 + u.1) ^ 8 := one_le_pow₀ (by linarith [hu.1])
    have q2 : (1 + 1 / 10 ^ 9 : ℝ) ^ 8 ≤ 1 + 1 / 10 ^ 8 := by norm_num
    simp only [Finset.sum_range_succ, Finset.sum_range_zero, zero_add] at hw hb
    rw [hnod 0 (by norm_num) 0 (by norm_num), hnod 0 (by norm_num) 1 (by norm_num), hnod 1 (by norm_num) 0 (by norm_num), hnod 1 (by norm_num) 1 (by norm_num)] at hb
    simp only [Polynomial.eval_one, intervalIntegral.integral_const] at hb
    norm_num at hb hw a2 q2 ⊢
    have hu2 := hu.2.2.1
    set W := |w 0| + |w 1|
    have hW : 0 ≤ W := by positivity
    set P := (1 + u.1) ^ 8
    rw [show |w 0| + 2 + (|w 1| + 2) + (|w 0| + 2 + (|w 1| + 2)) + 8 = 2 * W + 16 by simp only [W]; ring] at hb
    have hW4 : W ≤ 4 := by linarith
    have hP2 : P ≤ 2 := by linarith
    have t1 : (P - 1) * (1 / 4 * W + 1 / 4 * W) ≤ 1 / 10 ^ 8 * 2 := mul_le_mul (by linarith) (by linarith) (by positivity) (by norm_num)
    have t2 : P * (2 * W + 16) * u.2 ≤ 2 * 24 * (1 / 10 ^ 9) := mul_le_mul (mul_le_mul hP2 (by linarith) (by positivity) (by norm_num)) (by linarith) hu2 (by norm_num)
    norm_num at t1 t2
    linarith

/-! ## The derivative functional -/

/-- **C106.** There is a matrix `D`, the one the program with exact arithmetic returns, that maps the coefficients of every spline to those of its derivative of order `d`, and every run that rounds
returns its entries up to an error proportional to the rounding errors. -/
theorem C106_derivative (b : Basis) (hb : b.Valid) (hp : Polynomial01 b) (n codim d : ℕ) (tau : List ℝ) (hlen : tau.length = n) (hpos : ∀ i < n, 0 < vecOf tau i) :
    ∃ D : Mat, (b.gsplineDerivativeMatrix n codim d tau (fun _ => none)).2 = .ok D ∧
      (∀ y : Vec, ∀ iv < n, ∀ c < codim, piece b codim (vecOf tau) (D.mulVec (n * codim * b.dim) y) iv c = iteratedDeriv d (piece b codim (vecOf tau) y iv c)) ∧
      ∃ C ≥ (0 : ℝ), ∃ δ > (0 : ℝ), ∀ u, Small u δ → ∀ o, derivativeMatrix u b n codim d tau o →
        ∃ L : LF, o = .ok L ∧ L.rows = n * codim * b.dim ∧ L.cols = n * codim * b.dim ∧
          ∀ i < L.rows, ∀ j < L.cols, |L.mat i j - D i j| ≤ C * (u.1 + u.2) := by
  have hz : ∀ i < n, vecOf tau i ≠ 0 := fun i hi => (hpos i hi).ne'
  obtain ⟨D, e, hD⟩ := C34_derivative_matrix b hb hp [] n codim d tau hlen hpos
  have e : (b.gsplineDerivativeMatrix n codim d tau (fun _ => none)).2 = .ok D := e
  refine ⟨D, e, hD, ?_⟩
  have e' := derivFresh_eq (b := b) (n := n) (codim := codim) (order := d) (tau := tau) hlen.ge (not_mem_take' hlen hz)
  unfold Basis.derivFresh at e'
  rw [e] at e'
  obtain ⟨C, hC, δ, hδ, H⟩ := derivativeMatrix_close hb n codim d hlen hz
  refine ⟨C, hC, δ, hδ, fun u hu o ho => ?_⟩
  obtain ⟨M, rfl, hM⟩ := H u hu o ho
  refine ⟨_, rfl, rfl, rfl, fun i hi j hj => ?_⟩
  rw [Except.ok.inj e']
  exact hM i hi j hj

/-- **C106.** The computed derivative functional, applied to a spline with coefficients `v`, gives the coefficients of a spline whose pieces are the derivatives of order `d` of those of the first,
up to an error proportional to the rounding errors. -/
theorem C106_derivative_value (b : Basis) (hb : b.Valid) (hp : Polynomial01 b) (n codim d : ℕ) (tau : List ℝ) (hlen : tau.length = n) (hpos : ∀ i < n, 0 < vecOf tau i)
    (v : List ℝ) (hv : v.length = n * codim * b.dim) :
    ∃ w : Vec, (∀ iv < n, ∀ c < codim, piece b codim (vecOf tau) w iv c = iteratedDeriv d (piece b codim (vecOf tau) (vecOf v) iv c)) ∧
      ∃ C ≥ (0 : ℝ), ∃ δ > (0 : ℝ), ∀ u, Small u δ → ∀ L st, derivativeMatrix u b n codim d tau (.ok L) → Keeps L st → ∀ o, apply u L st v o →
        ∃ ys, o = .ok ys ∧ ys.length = n * codim * b.dim ∧ ∀ i < n * codim * b.dim, |vecOf ys i - w i| ≤ C * (u.1 + u.2) := by
  obtain ⟨D, -, hD, C, hC, δ, hδ, H⟩ := C106_derivative b hb hp n codim d tau hlen hpos
  refine ⟨D.mulVec (n * codim * b.dim) (vecOf v), hD (vecOf v), ?_⟩
  set N := n * codim * b.dim
  set S := ∑ j ∈ range N, |vecOf v j| with hS
  have hS0 : 0 ≤ S := Finset.sum_nonneg fun _ _ => abs_nonneg _
  set T := ∑ i ∈ range N, ∑ j ∈ range N, |D i j * vecOf v j| with hT
  have hT0 : 0 ≤ T := Finset.sum_nonneg fun _ _ => Finset.sum_nonneg fun _ _ => abs_nonneg _
  refine ⟨2 * ((2 : ℝ) ^ N * N * (T + 2 * C * S + 1)) + C * S, by positivity, min δ 1, by positivity, fun u hu L st hL hst o ho => ?_⟩
  have hu1 : Small u 1 := Nd.small_mono (min_le_right _ _) hu
  obtain ⟨L', e, r1, r2, r3⟩ := H u (Nd.small_mono (min_le_left _ _) hu) _ hL
  cases e
  obtain ⟨ys, rfl, l, hy⟩ := C106_value u hu.1 hu.2.2.1 L st hst v (by rw [hv, r2]) o ho
  refine ⟨ys, rfl, by rw [l, r1], fun i hi => ?_⟩
  have hy := hy i (by rw [r1]; exact hi)
  rw [r2] at hy
  have r3 : ∀ j < N, |L.mat i j - D i j| ≤ C * Nd.sz u := fun j hj => r3 i (by rw [r1]; exact hi) j (by rw [r2]; exact hj)
  have s0 := Nd.sz_nonneg hu
  have s2 : Nd.sz u ≤ 2 := by have := Nd.sz_le hu1; linarith
  have a1 : |∑ j ∈ range N, L.mat i j * vecOf v j - ∑ j ∈ range N, D i j * vecOf v j| ≤ C * Nd.sz u * S := by
    rw [← Finset.sum_sub_distrib, hS, Finset.mul_sum]
    refine (Finset.abs_sum_le_sum_abs _ _).trans (Finset.sum_le_sum fun j hj => ?_)
    rw [← sub_mul, abs_mul]
    exact mul_le_mul_of_nonneg_right (r3 j (Finset.mem_range.mp hj)) (abs_nonneg _)
  have a2 : ∑ j ∈ range N, |L.mat i j * vecOf v j| ≤ T + 2 * C * S := by
    have k1 : ∑ j ∈ range N, |D i j * vecOf v j| ≤ T :=
      Finset.single_le_sum (f := fun i => ∑ j ∈ range N, |D i j * vecOf v j|) (fun _ _ => Finset.sum_nonneg fun _ _ => abs_nonneg _) (Finset.mem_range.mpr hi)
    have k2 : ∑ j ∈ range N, |L.mat i j * vecOf v j| ≤ ∑ j ∈ range N, |D i j * vecOf v j| + 2 * C * S := by
      rw [hS, Finset.mul_sum, ← Finset.sum_add_distrib]
      refine Finset.sum_le_sum fun j hj => ?_
      have q := r3 j (Finset.mem_range.mp hj)
      have q2 : |L.mat i j * vecOf v j| ≤ |D i j * vecOf v j| + |L.mat i j - D i j| * |vecOf v j| := by
        rw [← abs_mul]
        refine le_trans (le_of_eq ?_) (abs_add_le _ _)
        congr 1
        ring
      have q3 : |L.mat i j - D i j| ≤ 2 * C := by nlinarith
      exact q2.trans (add_le_add le_rfl (mul_le_mul_of_nonneg_right q3 (abs_nonneg _)))
    linarith
  have a3 : productError u N (∑ j ∈ range N, |L.mat i j * vecOf v j|) ≤ 2 * ((2 : ℝ) ^ N * N * (T + 2 * C * S + 1)) * Nd.sz u := by
    have k := Nd.sumErr_le hu1 N (M := T + 2 * C * S) (by positivity)
    unfold Nd.sumErr at k
    have g : 1 ≤ (1 + u.1) ^ N := one_le_pow₀ (by linarith [hu.1])
    have g2 : ((1 + u.1) ^ N - 1) * (∑ j ∈ range N, |L.mat i j * vecOf v j|) ≤ ((1 + u.1) ^ N - 1) * (T + 2 * C * S) := mul_le_mul_of_nonneg_left a2 (by linarith)
    have g3 : 0 ≤ ((1 + u.1) ^ N - 1) * (T + 2 * C * S) := mul_nonneg (by linarith) (by positivity)
    unfold productError
    nlinarith
  have a4 := abs_sub_le (vecOf ys i) (∑ j ∈ range N, L.mat i j * vecOf v j) (∑ j ∈ range N, D i j * vecOf v j)
  change |vecOf ys i - ∑ j ∈ range N, D i j * vecOf v j| ≤ (2 * ((2 : ℝ) ^ N * N * (T + 2 * C * S + 1)) + C * S) * Nd.sz u
  nlinarith

/-- **C106.** The matrix the program with exact arithmetic returns is among the outcomes, so the other theorems on derivatives are about runs that exist. -/
theorem C106_derivative_exact (u : ℝ × ℝ) (h1 : 0 ≤ u.1) (h2 : 0 ≤ u.2) (b : Basis) (hb : b.Valid) (n codim d : ℕ) (tau : List ℝ) (hlen : tau.length = n) (hz : ∀ i < n, vecOf tau i ≠ 0) :
    ∃ D : Mat, (b.gsplineDerivativeMatrix n codim d tau (fun _ => none)).2 = .ok D ∧
      ∃ L : LF, derivativeMatrix u b n codim d tau (.ok L) ∧ L.rows = n * codim * b.dim ∧ L.cols = n * codim * b.dim ∧ ∀ i < L.rows, ∀ j < L.cols, L.mat i j = D i j := by
  have e' := derivFresh_eq (b := b) (n := n) (codim := codim) (order := d) (tau := tau) hlen.ge (not_mem_take' hlen hz)
  refine ⟨_, e', ?_⟩
  exact derivativeMatrix_has h1 h2 hb n codim d hlen hz

/-- **C106.** With fewer interval lengths than intervals every run reads out of bounds. -/
theorem C106_derivative_sizes (u : ℝ × ℝ) (b : Basis) (n codim d : ℕ) (tau : List ℝ) (hc : 1 ≤ codim) (hd : 1 ≤ b.dim) (h : tau.length < n) (o : Res LF)
    (ho : derivativeMatrix u b n codim d tau o) : o = .error .ub := by
  unfold derivativeMatrix at ho
  rw [if_pos ⟨hc, hd, h⟩] at ho
  exact ho

/-- The hypotheses can be met: two intervals of different lengths and the Legendre basis of degree two. -/
example : (Basis.legendre 3).Valid ∧ Polynomial01 (.legendre 3) ∧ ([1, 2] : List ℝ).length = 2 ∧ ∀ i < 2, 0 < vecOf [1, 2] i :=
  ⟨by norm_num [Basis.Valid], trivial, rfl, fun i hi => by interval_cases i <;> simp [vecOf]⟩

/-! ## Functionals that act node by node -/

/-- **C106.** Only the stored entries of a row count: with at most `k` of them in each row, the error is that of a sum of `k` products. -/
theorem C106_stored (u : ℝ × ℝ) (h1 : 0 ≤ u.1) (h2 : 0 ≤ u.2) (L : LF) (st : ℕ → ℕ → Bool) (hst : Keeps L st) (k : ℕ) (hk : ∀ i < L.rows, ((List.range L.cols).filter (st i)).length ≤ k) (v : List ℝ)
    (hv : v.length = L.cols) (o : Res (List ℝ)) (ho : apply u L st v o) :
    ∃ ys, o = .ok ys ∧ ys.length = L.rows ∧
      ∀ i < L.rows, |vecOf ys i - ∑ j ∈ range L.cols, L.mat i j * vecOf v j| ≤ productError u k (∑ j ∈ range L.cols, |L.mat i j * vecOf v j|) := by
  unfold Rounded.Functional.apply at ho
  rw [if_neg (by simpa using hv)] at ho
  obtain ⟨ys, rfl, h⟩ := Nd.All.mapM (fun i hi => entry_stored h1 h2 L.cols k (st i) (L.mat i) (vecOf v) (hk i (List.mem_range.mp hi))
    fun j hj hp => by rw [hst i (List.mem_range.mp hi) j hj hp, zero_mul]) o ho
  refine ⟨ys, rfl, by simpa using h.length_eq.symm, fun i hi => ?_⟩
  have l1 : i < ys.length := by rw [← h.length_eq]; simpa using hi
  have r1 := h.get (i := i) (by simpa using hi) l1
  simp only [List.get_eq_getElem, List.getElem_range] at r1
  simpa [vecOf, List.getD, l1, productError] using r1

theorem nodewise_apply (u : ℝ × ℝ) (h1 : 0 ≤ u.1) (h2 : 0 ≤ u.2) {n m R C : ℕ} {L : LF} {B : ℕ → ℕ → Mat} {p : Vec} (hr : L.rows = m * n * R) (hc : L.cols = m * n * C)
    (h : Nodewise n m R C L.mat B) {g : GSpline} (hg : OnGrid g n m C p) (o : Res (List ℝ)) (ho : apply u L (nodePattern n R C) g.coeffs o) :
    ∃ ys, o = .ok ys ∧ ys.length = m * n * R ∧ ∀ iv < m, ∀ row < R, ∀ k < n,
      |vecOf ys (iv * n * R + n * row + k) - ∑ c ∈ range C, B iv k row c * nodal g iv c k| ≤ productError u C (∑ c ∈ range C, |B iv k row c * nodal g iv c k|) := by
  have hdim : g.basis.dim = n := by rw [hg.basis]; simp [Basis.dim]
  obtain ⟨ys, rfl, l, hy⟩ := C106_stored u h1 h2 L _ (nodewise_keeps hr hc h) C (fun i hi => by
    rw [hr] at hi
    obtain ⟨iv, row, k, a1, a2, a3, rfl⟩ := GSplines.GSpline.coefIdx_surj hi
    rw [hc, nodePattern_count a1 a2 a3]) g.coeffs (by rw [hg.cons, hg.len, hdim, hg.codim, hc]) o ho
  refine ⟨ys, rfl, l.trans hr, fun iv hiv row hrow k hk => ?_⟩
  have q := hy (Basis.coefIdx n R iv row k) (by rw [hr]; exact pos_lt hiv hrow hk)
  have e := h.mulVec (vecOf g.coeffs) hiv hrow hk
  unfold Mat.mulVec at e
  rw [hc, e, nodewise_abs h _ hiv hrow hk] at q
  simp only [nodal_coef hg] at q
  exact q

theorem transpose_grid {codim n m : ℕ} {p jp jw junk w : Vec} (hpw : GLL.pointsWeights n jp jw = .ok (p, w)) {T : TLM} {u : GSpline} (h : TLMReach codim n m p jp jw junk T (some u)) :
    OnGrid u n m codim p := by
  cases h with
  | spline _ _ hu _ => exact hu
  | assign _ _ _ _ _ hu _ => exact hu
  | assignFn T0 _ f _ _ hr hd ha e =>
    have := approx_onGrid hpw hd ha
    have ht0 := tinv_reach hpw hr
    unfold TLM.assignFn at e
    by_cases hc : f.codim ≠ T0.codim
    · rw [if_pos hc] at e; cases e
    · push Not at hc
      rw [hc, ht0.codim] at this
      exact this

/-- **C106.** After any sequence of assignments, every run of `TransposeLeftMultiplication` on a spline with the same sizes gives at each node the scalar product with the last assigned spline, up to
the error of a sum of `codim` products. -/
theorem C106_transpose (rd : ℝ × ℝ) (h1 : 0 ≤ rd.1) (h2 : 0 ≤ rd.2) (codim n m : ℕ) (jp jw junk p w : Vec) (hpw : GLL.pointsWeights n jp jw = .ok (p, w)) (T : TLM) (u : GSpline)
    (h : TLMReach codim n m p jp jw junk T (some u)) (g : GSpline) (hg : OnGrid g n m codim p) (o : Res (List ℝ)) (ho : apply rd T.lf (nodePattern n 1 codim) g.coeffs o) :
    ∃ ys, o = .ok ys ∧ ys.length = m * n ∧ ∀ iv < m, ∀ k < n,
      |vecOf ys (iv * n + k) - ∑ c ∈ range codim, nodal u iv c k * nodal g iv c k| ≤ productError rd codim (∑ c ∈ range codim, |nodal u iv c k * nodal g iv c k|) := by
  have ht := tinv_reach hpw h
  obtain ⟨ys, e, l, hy⟩ := nodewise_apply rd h1 h2 ht.rows ht.cols ht.mat hg o ho
  have hu := transpose_grid hpw h
  refine ⟨ys, e, by rw [l, Nat.mul_one], fun iv hiv k hk => ?_⟩
  have q := hy iv hiv 0 one_pos k hk
  simp only [Nat.mul_one, Nat.mul_zero, Nat.add_zero] at q
  simpa only [tBlock, nodal_coef hu] using q

/-- **C106.** After any sequence of updates, every run of `MatrixLeftMultiplication` on a spline with the right sizes gives at each node the product of the matrix the last update gave for this node
and the vector of the spline, up to the error of a sum of as many products as the spline has components. -/
theorem C106_matrix (rd : ℝ × ℝ) (h1 : 0 ≤ rd.1) (h2 : 0 ≤ rd.2) (C n m R : ℕ) (p : Vec) (L : MLM) (Ms : List LF) (h : MLMReach C n m R L (some Ms)) (g : GSpline) (hg : OnGrid g n m C p)
    (o : Res (List ℝ)) (ho : apply rd L.lf (nodePattern n R C) g.coeffs o) :
    ∃ ys, o = .ok ys ∧ ys.length = m * n * R ∧ ∀ iv < m, ∀ row < R, ∀ k < n,
      |vecOf ys (iv * n * R + n * row + k) - ∑ c ∈ range C, (Ms.getD (iv * n + k) ⟨0, 0, Mat.zero⟩).mat row c * nodal g iv c k| ≤
        productError rd C (∑ c ∈ range C, |(Ms.getD (iv * n + k) ⟨0, 0, Mat.zero⟩).mat row c * nodal g iv c k|) := by
  have ht := minv_reach h
  exact nodewise_apply rd h1 h2 ht.rows ht.cols ht.mat hg o ho

/-- The hypotheses can be met: two components, two nodes, one interval. -/
example (jp jw : Vec) : ∃ p w T u g, GLL.pointsWeights 2 jp jw = .ok (p, w) ∧ TLMReach 2 2 1 p jp jw (fun _ => 0) T (some u) ∧ OnGrid g 2 1 2 p ∧ nodal u 0 1 0 * nodal g 0 1 0 = 70 := by
  obtain ⟨p, w, hpw, -⟩ := two_points jp jw
  have hdim : (Basis.lagrange ((List.range 2).map p)).dim = 2 := by simp [Basis.dim]
  have grid : ∀ a b c d : ℝ, OnGrid (⟨(0, 1), 2, .lagrange ((List.range 2).map p), [a, b, c, d], [1]⟩ : GSpline) 2 1 2 p :=
    fun a b c d => ⟨rfl, rfl, rfl, by simp [Consistent, hdim], by norm_num⟩
  obtain ⟨⟨T, e⟩, -⟩ := (C49_transpose_assign 2 2 1 jp jw (fun _ => 0) p w hpw _ _ .sizes _).1 (grid 3 4 7 8)
  exact ⟨p, w, T, _, _, hpw, .spline _ T (grid 3 4 7 8) e, grid 1 1 10 1, by norm_num [nodal, hdim, vecOf]⟩

/-- The hypotheses can be met: two components to one, a different matrix at every node. -/
example (p : Vec) : ∃ L Ms g, MLMReach 2 2 1 1 L (some Ms) ∧ OnGrid g 2 1 2 p ∧ Ms.length = 2 := by
  have hdim : (Basis.lagrange ((List.range 2).map p)).dim = 2 := by simp [Basis.dim]
  obtain ⟨L, e⟩ := (C49_matrix_update 2 2 1 1 _ _ .sizes [⟨1, 2, fun _ j => (j : ℝ) + 1⟩, ⟨1, 2, fun _ _ => 5⟩]).1.mpr ⟨rfl, by simp⟩
  exact ⟨L, _, ⟨(0, 1), 2, .lagrange ((List.range 2).map p), [3, 4, 7, 8], [1]⟩, .each _ L _ _ .sizes e, ⟨rfl, rfl, rfl, by simp [Consistent, hdim], by norm_num⟩, rfl⟩

end GSplines.Props
