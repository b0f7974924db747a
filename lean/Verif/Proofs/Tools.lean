import Verif.Model.Tools
import Mathlib.Algebra.Order.Field.Basic
import Mathlib.Tactic.NormNum
import Mathlib.Tactic.Positivity
import Mathlib.Tactic.Linarith

/-! # Lemmas on `maxAbs` and the comparisons -/

namespace GSplines.Tools

theorem foldl_max_lt (l : List ℝ) (a c : ℝ) : l.foldl max a < c ↔ a < c ∧ ∀ x ∈ l, x < c := by
  induction l generalizing a with
  | nil => simp
  | cons x xs ih => simp [ih, and_assoc]

theorem maxCoeff_lt {l : List ℝ} (h : l ≠ []) (c : ℝ) : maxCoeff l < c ↔ ∀ x ∈ l, x < c := by
  cases l with
  | nil => exact absurd rfl h
  | cons x xs => simp [maxCoeff, foldl_max_lt]

theorem maxAbs_lt {l : List ℝ} (h : l ≠ []) (c : ℝ) : maxAbs l < c ↔ ∀ x ∈ l, |x| < c := by
  unfold maxAbs
  rw [maxCoeff_lt (by simpa using h)]
  simp

theorem le_maxAbs {l : List ℝ} {x : ℝ} (h : x ∈ l) : |x| ≤ maxAbs l := by
  by_contra hc
  have hne : l ≠ [] := List.ne_nil_of_mem h
  have := (maxAbs_lt hne |x|).mp (not_le.mp hc) x h
  exact lt_irrefl _ this

theorem maxAbs_nonneg {l : List ℝ} (h : l ≠ []) : 0 ≤ maxAbs l := by
  obtain ⟨x, hx⟩ := List.exists_mem_of_ne_nil l h
  exact (abs_nonneg x).trans (le_maxAbs hx)

theorem foldl_max_mem (l : List ℝ) (a : ℝ) : l.foldl max a = a ∨ l.foldl max a ∈ l := by
  induction l generalizing a with
  | nil => simp
  | cons x xs ih =>
    rcases ih (max a x) with h | h
    · rcases max_choice a x with h2 | h2
      · left; rw [List.foldl_cons, h, h2]
      · right; rw [List.foldl_cons, h, h2]; exact List.mem_cons_self
    · right; exact List.mem_cons_of_mem _ h

theorem exists_maxAbs {l : List ℝ} (h : l ≠ []) : ∃ x ∈ l, maxAbs l = |x| := by
  cases l with
  | nil => exact absurd rfl h
  | cons x xs =>
    have := foldl_max_mem (xs.map fun x => |x|) |x|
    rcases this with h | h
    · exact ⟨x, List.mem_cons_self, h⟩
    · obtain ⟨y, hy, e⟩ := List.mem_map.mp h
      exact ⟨y, List.mem_cons_of_mem _ hy, e.symm⟩

theorem zipWith_sub_self (l : List ℝ) : ∀ x ∈ List.zipWith (· - ·) l l, x = 0 := by
  induction l with
  | nil => simp
  | cons a l ih => simpa using ih

theorem maxAbs_sub_comm (l r : List ℝ) :
    maxAbs (List.zipWith (· - ·) l r) = maxAbs (List.zipWith (· - ·) r l) := by
  unfold maxAbs
  congr 1
  rw [List.map_zipWith, List.map_zipWith]
  induction l generalizing r with
  | nil => cases r <;> rfl
  | cons a l ih =>
    cases r with
    | nil => rfl
    | cons b r => simp [ih, abs_sub_comm]

theorem maxAbs_sub_self {l : List ℝ} (h : l ≠ []) : maxAbs (List.zipWith (· - ·) l l) = 0 := by
  have hne : List.zipWith (· - ·) l l ≠ [] := by
    cases l with
    | nil => exact absurd rfl h
    | cons a l => simp
  obtain ⟨x, hx, e⟩ := exists_maxAbs hne
  rw [e, zipWith_sub_self l x hx, abs_zero]

theorem approxEqualMS_fst (l r : EMat) (tol : ℝ) (g g' : Globals) :
    (approxEqualMS l r tol g).1 = (approxEqualMS l r tol g').1 := by
  unfold approxEqualMS
  simp only
  split_ifs <;> rfl

theorem approxEqualS_fst (l r tol : ℝ) (g g' : Globals) :
    (approxEqualS l r tol g).1 = (approxEqualS l r tol g').1 := by
  unfold approxEqualS
  simp only
  split_ifs <;> rfl

theorem approxEqualM_refl (m : EMat) {tol : ℝ} (h : 0 < tol) : approxEqualM m m tol = true := by
  unfold approxEqualM approxEqualMS
  by_cases h0 : m.data = []
  · simp [h0]
  · have e := maxAbs_sub_self h0
    have : m.data.length ≠ 0 := by simpa using h0
    simp only [ne_eq, not_true_eq_false, or_self, if_false, this, e, zero_div]
    split_ifs <;> simp [h]

theorem approxEqualM_symm (l r : EMat) (tol : ℝ) : approxEqualM l r tol = approxEqualM r l tol := by
  unfold approxEqualM approxEqualMS
  by_cases h1 : l.rows ≠ r.rows ∨ l.cols ≠ r.cols ∨ l.data.length ≠ r.data.length
  · have h2 : r.rows ≠ l.rows ∨ r.cols ≠ l.cols ∨ r.data.length ≠ l.data.length := by
      rcases h1 with h | h | h
      · exact Or.inl h.symm
      · exact Or.inr (Or.inl h.symm)
      · exact Or.inr (Or.inr h.symm)
    rw [if_pos h1, if_pos h2]
  · have h2 : ¬ (r.rows ≠ l.rows ∨ r.cols ≠ l.cols ∨ r.data.length ≠ l.data.length) := by
      simp only [ne_eq, not_or, not_not] at h1 ⊢
      exact ⟨h1.1.symm, h1.2.1.symm, h1.2.2.symm⟩
    have h3 : l.data.length = r.data.length := by
      simp only [ne_eq, not_or, not_not] at h1; exact h1.2.2
    rw [if_neg h1, if_neg h2]
    simp only [h3, maxAbs_sub_comm l.data r.data, or_comm (a := maxAbs l.data < tol),
      and_comm (a := maxAbs (List.zipWith (· - ·) r.data l.data) / maxAbs l.data < tol)]
    split_ifs <;> rfl

/-- What a positive answer on matrices means: same shape, and every entry differs by less than
`tol * max(1, max |l|, max |r|)`. -/
theorem approxEqualM_bound {l r : EMat} {tol : ℝ} (h : approxEqualM l r tol = true) :
    l.rows = r.rows ∧ l.cols = r.cols ∧ l.data.length = r.data.length ∧
      ∀ i (hl : i < l.data.length) (hr : i < r.data.length),
        |l.data[i] - r.data[i]| < tol * max 1 (max (maxAbs l.data) (maxAbs r.data)) := by
  unfold approxEqualM approxEqualMS at h
  by_cases h1 : l.rows ≠ r.rows ∨ l.cols ≠ r.cols ∨ l.data.length ≠ r.data.length
  · simp [if_pos h1] at h
  · have h1' := h1
    simp only [ne_eq, not_or, not_not] at h1'
    refine ⟨h1'.1, h1'.2.1, h1'.2.2, fun i hl hr => ?_⟩
    rw [if_neg h1] at h
    have hne : l.data.length ≠ 0 := by omega
    rw [if_neg hne] at h
    have hlen : i < (List.zipWith (· - ·) l.data r.data).length := by simp; omega
    have hmem : l.data[i] - r.data[i] ∈ List.zipWith (· - ·) l.data r.data := by
      have : (List.zipWith (· - ·) l.data r.data)[i] = l.data[i] - r.data[i] := by simp
      rw [← this]; exact List.getElem_mem hlen
    have hle := le_maxAbs hmem
    set err := maxAbs (List.zipWith (· - ·) l.data r.data)
    have he : 0 ≤ err := (abs_nonneg _).trans hle
    have hm1 : (1 : ℝ) ≤ max 1 (max (maxAbs l.data) (maxAbs r.data)) := le_max_left _ _
    by_cases h2 : maxAbs l.data < tol ∨ maxAbs r.data < tol
    · simp only [if_pos h2, decide_eq_true_eq] at h
      have ht : 0 < tol := lt_of_le_of_lt he h
      calc |l.data[i] - r.data[i]| ≤ err := hle
        _ < tol := h
        _ = tol * 1 := (mul_one _).symm
        _ ≤ _ := mul_le_mul_of_nonneg_left hm1 ht.le
    · simp only [if_neg h2, decide_eq_true_eq] at h
      have hln : 0 ≤ maxAbs l.data := maxAbs_nonneg (by intro h0; simp [h0] at hl)
      have h4 : maxAbs l.data ≤ max 1 (max (maxAbs l.data) (maxAbs r.data)) :=
        (le_max_left _ _).trans (le_max_right _ _)
      have ht : 0 < tol := lt_of_le_of_lt (div_nonneg he hln) h.1
      rcases hln.eq_or_lt with h0 | h0
      · simp only [not_or, not_lt] at h2
        linarith [h2.1]
      · have := (div_lt_iff₀ h0).mp h.1
        calc |l.data[i] - r.data[i]| ≤ err := hle
          _ < tol * maxAbs l.data := this
          _ ≤ _ := mul_le_mul_of_nonneg_left h4 ht.le

end GSplines.Tools
