import Verif.Model.RoundingFunctionals
import Verif.Proofs.Rounding
import Verif.Proofs.RoundingExact
import Mathlib.Topology.List

/-!
# Bounds of the errors of products of matrices
-/

namespace GSplines.Rounded.Functional

open GSplines Colloc Nd Finset

/-- Rounded numbers: their sum and the sum of their sizes. -/
theorem forall₂_sums {u : ℝ × ℝ} {l p : List ℝ} (h : List.Forall₂ (fun x y => |y - x| ≤ u.1 * |x| + u.2) l p) :
    |p.sum - l.sum| ≤ u.1 * (l.map abs).sum + l.length * u.2 ∧ (p.map abs).sum ≤ (1 + u.1) * (l.map abs).sum + l.length * u.2 := by
  induction h with
  | nil => simp
  | @cons x y l p hx _ ih =>
    simp only [List.sum_cons, List.map_cons, List.length_cons, Nat.cast_add, Nat.cast_one]
    have h3 : |y| ≤ |x| + (u.1 * |x| + u.2) := by
      have : |y| ≤ |y - x| + |x| := by simpa using abs_add_le (y - x) x
      linarith
    constructor
    · have : |y + p.sum - (x + l.sum)| ≤ |y - x| + |p.sum - l.sum| := by
        rw [show y + p.sum - (x + l.sum) = (y - x) + (p.sum - l.sum) by ring]; exact abs_add_le _ _
      linarith [ih.1]
    · linarith [ih.2]

/-- The error of a rounded scalar product, with at most `n` products. -/
theorem entry_bound {u : ℝ × ℝ} (h1 : 0 ≤ u.1) (h2 : 0 ≤ u.2) {js : List ℕ} {n : ℕ} (hn : js.length ≤ n) (a b : Vec) :
    All (entry u js a b) fun r => ∃ y, r = .ok y ∧
      |y - (js.map fun j => a j * b j).sum| ≤ ((1 + u.1) ^ n - 1) * (js.map fun j => |a j * b j|).sum + 2 * n * (1 + u.1) ^ n * u.2 := by
  unfold entry dot
  have e : List.zipWith (· * ·) (js.map a) (js.map b) = js.map fun j => a j * b j := by rw [List.zipWith_map, List.zipWith_self]
  have e' : (js.map fun j => |a j * b j|) = (js.map fun j => a j * b j).map abs := by rw [List.map_map]; rfl
  rw [e, e']
  set l := js.map fun j => a j * b j
  have hl : l.length ≤ n := by simpa [l] using hn
  have hS : 0 ≤ (l.map abs).sum := List.sum_nonneg (by simp)
  refine All.bind (All.mapM (P := fun x y => |y - x| ≤ u.1 * |x| + u.2) (fun x _ r hr => hr)) (by rintro e ⟨bs, h, -⟩; cases h) fun p hp => ?_
  obtain ⟨p', e1, hp⟩ := hp
  cases e1
  rintro r ⟨y, rfl, hy⟩
  refine ⟨y, rfl, ?_⟩
  obtain ⟨q1, q2⟩ := forall₂_sums hp
  have hlen := hp.length_eq
  have hb := hy.bound h1 h2
  set S := (l.map abs).sum
  have hsub : |y - l.sum| ≤ |y - p.sum| + |p.sum - l.sum| := abs_sub_le _ _ _
  rcases Nat.eq_zero_or_pos l.length with h0 | hpos
  · have hl0 : l = [] := List.length_eq_zero_iff.mp h0
    rw [hl0] at hp
    cases hp
    cases hy with
    | nil =>
      have : 1 ≤ (1 + u.1) ^ n := one_le_pow₀ (by linarith)
      rw [hl0, List.sum_nil, sub_zero, abs_zero]
      have : 0 ≤ (1 + u.1) ^ n - 1 := by linarith
      positivity
    | split hp n1 n2 =>
      have := hp.length_eq
      have := List.length_pos_of_ne_nil n1
      simp at *
      omega
  · obtain ⟨m, hm⟩ : ∃ m, l.length = m + 1 := ⟨l.length - 1, by omega⟩
    rw [← hlen, hm, Nat.add_sub_cancel] at hb
    rw [hm] at q1 q2
    have g1 : 1 ≤ (1 + u.1) ^ m := one_le_pow₀ (by linarith)
    have g2 : (1 + u.1) ^ m ≤ (1 + u.1) ^ n := pow_le_pow_right₀ (by linarith) (by omega)
    have g3 : (1 + u.1) ^ (m + 1) ≤ (1 + u.1) ^ n := pow_le_pow_right₀ (by linarith) (by omega)
    have g4 : ((m : ℝ) + 1) ≤ n := by exact_mod_cast (by omega : m + 1 ≤ n)
    have hb' : |y - p.sum| ≤ ((1 + u.1) ^ m - 1) * ((1 + u.1) * S + (m + 1) * u.2) + m * (1 + u.1) ^ m * u.2 := by
      refine hb.trans ?_
      unfold sumErr
      push_cast at q2
      exact add_le_add_left (mul_le_mul_of_nonneg_left q2 (by linarith)) _
    push_cast at q1
    have t1 : ((1 + u.1) ^ m - 1) * ((1 + u.1) * S + (m + 1) * u.2) + m * (1 + u.1) ^ m * u.2 + (u.1 * S + (m + 1) * u.2) =
        ((1 + u.1) ^ (m + 1) - 1) * S + ((m + 1) + m) * ((1 + u.1) ^ m * u.2) := by ring
    have t2 : ((1 + u.1) ^ (m + 1) - 1) * S ≤ ((1 + u.1) ^ n - 1) * S := mul_le_mul_of_nonneg_right (by linarith) hS
    have t3 : (((m : ℝ) + 1) + m) * ((1 + u.1) ^ m * u.2) ≤ (2 * n) * ((1 + u.1) ^ n * u.2) :=
      mul_le_mul (by linarith) (mul_le_mul_of_nonneg_right g2 h2) (by positivity) (by positivity)
    calc |y - l.sum| ≤ _ := hsub
      _ ≤ ((1 + u.1) ^ (m + 1) - 1) * S + ((m + 1) + m) * ((1 + u.1) ^ m * u.2) := by rw [← t1]; exact add_le_add hb' q1
      _ ≤ ((1 + u.1) ^ n - 1) * S + 2 * n * (1 + u.1) ^ n * u.2 := by linarith [t2, t3]

/-- Entries that are zero can be left out of a sum. -/
theorem filter_sum (n : ℕ) (p : ℕ → Bool) (f : ℕ → ℝ) (h : ∀ j < n, p j = false → f j = 0) : (((List.range n).filter p).map f).sum = ∑ j ∈ range n, f j := by
  have : ∀ l : List ℕ, (∀ j ∈ l, p j = false → f j = 0) → ((l.filter p).map f).sum = (l.map f).sum := by
    intro l hl
    induction l with
    | nil => rfl
    | cons a l ih =>
      have ih := ih fun j hj => hl j (by simp [hj])
      cases hp : p a with
      | true => rw [List.filter_cons_of_pos hp, List.map_cons, List.map_cons, List.sum_cons, List.sum_cons, ih]
      | false => rw [List.filter_cons_of_neg (by simp [hp]), List.map_cons, List.sum_cons, ih, hl a (by simp) hp, zero_add]
  rw [this _ fun j hj => h j (List.mem_range.mp hj), Finset.sum_range, ← List.sum_ofFn, List.ofFn_eq_map, ← List.map_coe_finRange_eq_range, List.map_map]
  rfl

theorem entry_filter {u : ℝ × ℝ} (h1 : 0 ≤ u.1) (h2 : 0 ≤ u.2) (n : ℕ) (p : ℕ → Bool) (a b : Vec) (h : ∀ j < n, p j = false → a j * b j = 0) :
    All (entry u ((List.range n).filter p) a b) fun r => ∃ y, r = .ok y ∧
      |y - ∑ j ∈ range n, a j * b j| ≤ ((1 + u.1) ^ n - 1) * ∑ j ∈ range n, |a j * b j| + 2 * n * (1 + u.1) ^ n * u.2 := by
  have := entry_bound h1 h2 (js := (List.range n).filter p) (n := n) ((List.length_filter_le _ _).trans (by simp)) a b
  rwa [filter_sum n p _ h, filter_sum n p _ fun j hj hp => by rw [h j hj hp, abs_zero]] at this

/-- The entries of a matrix that is assigned entry by entry. -/
theorem fill_all {m n : ℕ} {f : ℕ → ℕ → Nd ℝ} {P : ℕ → ℕ → ℝ → Prop} (h : ∀ i < m, ∀ j < n, All (f i j) fun r => ∃ y, r = .ok y ∧ P i j y) :
    All (fill m n f) fun r => ∃ M : Mat, r = .ok M ∧ ∀ i < m, ∀ j < n, P i j (M i j) := by
  unfold fill
  refine All.bind (All.mapM (P := fun i row => List.Forall₂ (P i) (List.range n) row) fun i hi => All.mapM fun j hj => h i (List.mem_range.mp hi) j (List.mem_range.mp hj))
    (by rintro e ⟨bs, h, -⟩; cases h) fun rows hr => ?_
  obtain ⟨rows', e1, hr⟩ := hr
  cases e1
  refine All.pure ⟨_, rfl, fun i hi j hj => ?_⟩
  have l1 : i < rows.length := by rw [← hr.length_eq]; simpa using hi
  have r1 := hr.get (i := i) (by simpa using hi) l1
  simp only [List.get_eq_getElem, List.getElem_range] at r1
  have l2 : j < (rows[i]).length := by rw [← r1.length_eq]; simpa using hj
  have r2 := r1.get (i := j) (by simpa using hj) l2
  simp only [List.get_eq_getElem, List.getElem_range] at r2
  simpa [vecOf, List.getD, l1, l2] using r2

/-- A sum of products with perturbed factors. -/
theorem perturbed {u2 α β G y : ℝ} (hβ : 1 ≤ β) {n : ℕ} {C X F x : ℕ → ℝ} (hC : ∀ j < n, |C j - X j| ≤ (α - 1) * |X j| + F j * u2)
    (hy : |y - ∑ j ∈ range n, C j * x j| ≤ (β - 1) * ∑ j ∈ range n, |C j * x j| + G) :
    |y - ∑ j ∈ range n, X j * x j| ≤ (α * β - 1) * ∑ j ∈ range n, |X j * x j| + β * (∑ j ∈ range n, F j * |x j|) * u2 + G := by
  have b1 : ∑ j ∈ range n, |C j * x j| ≤ α * ∑ j ∈ range n, |X j * x j| + (∑ j ∈ range n, F j * |x j|) * u2 := by
    rw [Finset.mul_sum, Finset.sum_mul, ← Finset.sum_add_distrib]
    refine Finset.sum_le_sum fun j hj => ?_
    have q := hC j (Finset.mem_range.mp hj)
    have q' : |C j| ≤ |C j - X j| + |X j| := by simpa using abs_add_le (C j - X j) (X j)
    rw [abs_mul, abs_mul]
    calc |C j| * |x j| ≤ (α * |X j| + F j * u2) * |x j| := mul_le_mul_of_nonneg_right (by linarith) (abs_nonneg _)
      _ = _ := by ring
  have b2 : |∑ j ∈ range n, C j * x j - ∑ j ∈ range n, X j * x j| ≤ (α - 1) * ∑ j ∈ range n, |X j * x j| + (∑ j ∈ range n, F j * |x j|) * u2 := by
    rw [← Finset.sum_sub_distrib, Finset.mul_sum, Finset.sum_mul, ← Finset.sum_add_distrib]
    refine (Finset.abs_sum_le_sum_abs _ _).trans (Finset.sum_le_sum fun j hj => ?_)
    have q := hC j (Finset.mem_range.mp hj)
    rw [← sub_mul, abs_mul, abs_mul]
    calc _ ≤ ((α - 1) * |X j| + F j * u2) * |x j| := mul_le_mul_of_nonneg_right q (abs_nonneg _)
      _ = _ := by ring
  have b3 := abs_sub_le y (∑ j ∈ range n, C j * x j) (∑ j ∈ range n, X j * x j)
  have b4 := mul_le_mul_of_nonneg_left b1 (by linarith : 0 ≤ β - 1)
  linarith

/-- One more rounding, after a multiplication by `c`. -/
theorem round_mul {u : ℝ × ℝ} (h1 : 0 ≤ u.1) {a : ℕ} {x X A c y : ℝ} (hx : |x - X| ≤ ((1 + u.1) ^ a - 1) * |X| + A) (hy : |y - c * x| ≤ u.1 * |c * x| + u.2) :
    |y - c * X| ≤ ((1 + u.1) ^ (a + 1) - 1) * |c * X| + ((1 + u.1) * |c| * A + u.2) := by
  have q : |c * x - c * X| ≤ |c| * (((1 + u.1) ^ a - 1) * |X| + A) := by rw [← mul_sub, abs_mul]; exact mul_le_mul_of_nonneg_left hx (abs_nonneg _)
  have q' : |c * x| ≤ |c * x - c * X| + |c * X| := by simpa using abs_add_le (c * x - c * X) (c * X)
  have q3 := abs_sub_le y (c * x) (c * X)
  have q4 : u.1 * |c * x| ≤ u.1 * (|c| * (((1 + u.1) ^ a - 1) * |X| + A) + |c * X|) := mul_le_mul_of_nonneg_left (by linarith) h1
  rw [abs_mul c X] at q4 ⊢
  calc |y - c * X| ≤ _ := q3
    _ ≤ (u.1 * (|c| * (((1 + u.1) ^ a - 1) * |X| + A) + |c| * |X|) + u.2) + |c| * (((1 + u.1) ^ a - 1) * |X| + A) := by linarith
    _ = _ := by ring

/-- An entry of the matrix of `Integral`: four roundings. -/
theorem weight_bound {u : ℝ × ℝ} (h1 : 0 ≤ u.1) (h2 : 0 ≤ u.2) {D d len w a e : ℝ} {m : ℕ} (hm : 0 < m) (hd : |d - D| ≤ u.1 * |D| + u.2) (hl : |len - d / m| ≤ u.1 * |d / m| + u.2)
    (ha : |a - w * len| ≤ u.1 * |w * len| + u.2) (he : |e - a / 2| ≤ u.1 * |a / 2| + u.2) :
    |e - w * (D / m) / 2| ≤ ((1 + u.1) ^ 4 - 1) * |w * (D / m) / 2| + (1 + u.1) ^ 3 * (|w| + 2) * u.2 := by
  have hm' : (1 : ℝ) ≤ m := by exact_mod_cast hm
  have hinv : |((m : ℝ)⁻¹)| ≤ 1 := by rw [abs_of_nonneg (by positivity)]; exact inv_le_one_of_one_le₀ hm'
  have s1 : |d - D| ≤ ((1 + u.1) ^ 1 - 1) * |D| + u.2 := by rw [pow_one]; linarith
  have s2 := round_mul h1 s1 (c := (m : ℝ)⁻¹) (y := len) (by rwa [inv_mul_eq_div])
  have s3 := round_mul h1 s2 (c := w) ha
  have s4 := round_mul h1 s3 (c := 1 / 2) (y := e) (by rw [show 1 / 2 * a = a / 2 by ring]; exact he)
  rw [show 1 / 2 * (w * ((m : ℝ)⁻¹ * D)) = w * (D / m) / 2 by field_simp] at s4
  refine s4.trans (add_le_add_right ?_ _)
  have hu : 1 ≤ 1 + u.1 := by linarith
  set q := 1 + u.1
  have A2 : q * |((m : ℝ)⁻¹)| * u.2 + u.2 ≤ 2 * q * u.2 := by
    have : q * |((m : ℝ)⁻¹)| * u.2 ≤ q * 1 * u.2 := by gcongr
    nlinarith
  have A3 : q * |w| * (q * |((m : ℝ)⁻¹)| * u.2 + u.2) + u.2 ≤ q * |w| * (2 * q * u.2) + u.2 := by gcongr
  have hhalf : |(1 / 2 : ℝ)| = 1 / 2 := by norm_num
  rw [hhalf]
  have A4 : q * (1 / 2) * (q * |w| * (q * |((m : ℝ)⁻¹)| * u.2 + u.2) + u.2) + u.2 ≤ q * (1 / 2) * (q * |w| * (2 * q * u.2) + u.2) + u.2 := by gcongr
  have hq : q ≤ q ^ 3 := le_self_pow₀ hu (by norm_num)
  have hq1 : 1 ≤ q ^ 3 := one_le_pow₀ hu
  have t1 : q * u.2 ≤ q ^ 3 * u.2 := mul_le_mul_of_nonneg_right hq h2
  have t2 : 1 * u.2 ≤ q ^ 3 * u.2 := mul_le_mul_of_nonneg_right hq1 h2
  have t3 : 0 ≤ q ^ 3 * u.2 := by positivity
  calc _ ≤ _ := A4
    _ = q ^ 3 * |w| * u.2 + (1 / 2 * (q * u.2) + 1 * u.2) := by ring
    _ ≤ q ^ 3 * |w| * u.2 + (1 / 2 * (q ^ 3 * u.2) + q ^ 3 * u.2) := by gcongr
    _ ≤ _ := by linarith

/-- A sum over blocks. -/
theorem sum_blocks (n m : ℕ) (f : ℕ → ℝ) : ∑ j ∈ range (n * m), f j = ∑ iv ∈ range m, ∑ k ∈ range n, f (iv * n + k) := by
  induction m with
  | zero => simp
  | succ m ih => rw [Nat.mul_succ, Finset.sum_range_add, ih, Finset.sum_range_succ, Nat.mul_comm n m]

/-- Exact entries. -/
theorem fill_has {m n : ℕ} {f : ℕ → ℕ → Nd ℝ} {g : ℕ → ℕ → ℝ} (h : ∀ i < m, ∀ j < n, Has (f i j) (g i j)) : ∃ M : Mat, Has (fill m n f) M ∧ ∀ i < m, ∀ j < n, M i j = g i j := by
  refine ⟨_, Has.bind (Has.mapM (g := fun i => (List.range n).map (g i)) fun i hi => Has.mapM fun j hj => h i (List.mem_range.mp hi) j (List.mem_range.mp hj)) (Has.pure _), fun i hi j hj => ?_⟩
  simp [vecOf, List.getD, hi, hj]

/-- An entry whose stored positions are at most `k`. -/
theorem entry_stored {u : ℝ × ℝ} (h1 : 0 ≤ u.1) (h2 : 0 ≤ u.2) (n k : ℕ) (p : ℕ → Bool) (a b : Vec) (hk : ((List.range n).filter p).length ≤ k) (h : ∀ j < n, p j = false → a j * b j = 0) :
    All (entry u ((List.range n).filter p) a b) fun r => ∃ y, r = .ok y ∧
      |y - ∑ j ∈ range n, a j * b j| ≤ ((1 + u.1) ^ k - 1) * ∑ j ∈ range n, |a j * b j| + 2 * k * (1 + u.1) ^ k * u.2 := by
  have := entry_bound h1 h2 (js := (List.range n).filter p) hk a b
  rwa [filter_sum n p _ h, filter_sum n p _ fun j hj hp => by rw [h j hj hp, abs_zero]] at this

end GSplines.Rounded.Functional
