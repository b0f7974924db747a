import Verif.Proofs.Tools

/-!
# C19: approximate comparison
-/

namespace GSplines.Props

open GSplines GSplines.Tools

/-- **C19**, numbers: reflexive for every positive tolerance. -/
theorem C19_approx_equal_refl (x tol : ℝ) (h : 0 < tol) : approxEqual x x tol = true := by
  unfold approxEqual approxEqualS
  simp only [sub_self, abs_zero]
  split_ifs with h1
  · simpa using h
  · simp only [not_or, not_lt] at h1
    have : 0 < |x| := lt_of_lt_of_le h h1.1
    simp; positivity

/-- **C19**, numbers: symmetric. -/
theorem C19_approx_equal_symm (a b tol : ℝ) : approxEqual a b tol = approxEqual b a tol := by
  unfold approxEqual approxEqualS
  simp only [abs_sub_comm a b, or_comm (a := |a| < tol), and_comm (a := |b - a| < |a| * tol)]
  split_ifs <;> rfl

/-- **C19**, numbers: what a positive answer means. -/
theorem C19_approx_equal_bound (a b tol : ℝ) (h : approxEqual a b tol = true) :
    |a - b| < tol * max 1 (max |a| |b|) := by
  unfold approxEqual approxEqualS at h
  have h1 : (1 : ℝ) ≤ max 1 (max |a| |b|) := le_max_left _ _
  have h2 : |a| ≤ max 1 (max |a| |b|) := (le_max_left _ _).trans (le_max_right _ _)
  have h0 := abs_nonneg (a - b)
  by_cases hc : |a| < tol ∨ |b| < tol
  · simp only [if_pos hc, decide_eq_true_eq] at h
    nlinarith
  · simp only [if_neg hc, decide_eq_true_eq] at h
    have ha := abs_nonneg a
    have ht : 0 < tol := by
      by_contra hn
      nlinarith [h.1]
    nlinarith [h.1]

/-- **C19**, numbers: different numbers can be told apart, whatever their size, by a small tolerance. -/
theorem C19_approx_equal_separates (a b : ℝ) (h : a ≠ b) : ∃ tol > 0, approxEqual a b tol = false := by
  refine ⟨|a - b| / max 1 (max |a| |b|), ?_, ?_⟩
  · have : 0 < |a - b| := abs_pos.mpr (sub_ne_zero.mpr h)
    have h1 : (0 : ℝ) < max 1 (max |a| |b|) := lt_of_lt_of_le one_pos (le_max_left _ _)
    positivity
  · by_contra hc
    have := C19_approx_equal_bound a b _ (by simpa using hc)
    have h1 : (0 : ℝ) < max 1 (max |a| |b|) := lt_of_lt_of_le one_pos (le_max_left _ _)
    rw [div_mul_cancel₀ _ h1.ne'] at this
    exact lt_irrefl _ this

/-- **C19**, matrices: reflexive for every positive tolerance. -/
theorem C19_approx_equal_matrix_refl (m : EMat) (tol : ℝ) (h : 0 < tol) : approxEqualM m m tol = true :=
  approxEqualM_refl m h

/-- **C19**, matrices: symmetric. -/
theorem C19_approx_equal_matrix_symm (l r : EMat) (tol : ℝ) : approxEqualM l r tol = approxEqualM r l tol :=
  approxEqualM_symm l r tol

/-- **C19**, matrices: a positive answer means equal shapes and entries that differ by less than
`tol * max(1, max |l|, max |r|)`. -/
theorem C19_approx_equal_matrix_bound (l r : EMat) (tol : ℝ) (h : approxEqualM l r tol = true) :
    l.rows = r.rows ∧ l.cols = r.cols ∧ l.data.length = r.data.length ∧
      ∀ i (hl : i < l.data.length) (hr : i < r.data.length),
        |l.data[i] - r.data[i]| < tol * max 1 (max (maxAbs l.data) (maxAbs r.data)) :=
  approxEqualM_bound h

/-- **C19**, numbers, the converse: numbers closer than `tol * min(1, |a|, |b|)` are equated. -/
theorem C19_approx_equal_accepts (a b tol : ℝ) (ht : 0 < tol) (h : |a - b| < tol * min 1 (min |a| |b|)) :
    approxEqual a b tol = true := by
  unfold approxEqual approxEqualS
  have h1 : tol * min 1 (min |a| |b|) ≤ tol * 1 := mul_le_mul_of_nonneg_left (min_le_left _ _) ht.le
  have h2 : tol * min 1 (min |a| |b|) ≤ tol * |a| :=
    mul_le_mul_of_nonneg_left ((min_le_right _ _).trans (min_le_left _ _)) ht.le
  have h3 : tol * min 1 (min |a| |b|) ≤ tol * |b| :=
    mul_le_mul_of_nonneg_left ((min_le_right _ _).trans (min_le_right _ _)) ht.le
  simp only
  split_ifs
  · simpa using lt_of_lt_of_le h (by linarith)
  · simp only [decide_eq_true_eq]
    exact ⟨by linarith, by linarith⟩

/-- **C19**, matrices, the converse: objects of the same shape whose entries are closer than
`tol * min(1, max |l|, max |r|)` are equated; two empty objects of the same shape are equal. -/
theorem C19_approx_equal_matrix_accepts (l r : EMat) (tol : ℝ) (ht : 0 < tol) (hr : l.rows = r.rows) (hc : l.cols = r.cols)
    (hlen : l.data.length = r.data.length)
    (h : ∀ i (hl : i < l.data.length) (hr : i < r.data.length),
      |l.data[i] - r.data[i]| < tol * min 1 (min (maxAbs l.data) (maxAbs r.data))) :
    approxEqualM l r tol = true := by
  unfold approxEqualM approxEqualMS
  rw [if_neg (by simp [hr, hc, hlen])]
  by_cases h0 : l.data.length = 0
  · simp [h0]
  rw [if_neg h0]
  have hne : List.zipWith (· - ·) l.data r.data ≠ [] := by
    intro e
    have := congrArg List.length e
    simp at this; rcases this with e | e <;> simp [e] at hlen h0
    exact h0 hlen
  set m := tol * min 1 (min (maxAbs l.data) (maxAbs r.data)) with hm
  have herr : maxAbs (List.zipWith (· - ·) l.data r.data) < m := by
    rw [maxAbs_lt hne]
    intro x hx
    obtain ⟨i, hi, rfl⟩ := List.getElem_of_mem hx
    have hi' : i < l.data.length ∧ i < r.data.length := by simpa using hi
    simpa using h i hi'.1 hi'.2
  have h1 : m ≤ tol * 1 := mul_le_mul_of_nonneg_left (min_le_left _ _) ht.le
  have h2 : m ≤ tol * maxAbs l.data := mul_le_mul_of_nonneg_left ((min_le_right _ _).trans (min_le_left _ _)) ht.le
  have h3 : m ≤ tol * maxAbs r.data := mul_le_mul_of_nonneg_left ((min_le_right _ _).trans (min_le_right _ _)) ht.le
  simp only
  split_ifs with h4
  · simpa using lt_of_lt_of_le herr (by linarith)
  · simp only [not_or, not_lt] at h4
    simp only [decide_eq_true_eq]
    exact ⟨(div_lt_iff₀ (lt_of_lt_of_le ht h4.1)).mpr (by linarith), (div_lt_iff₀ (lt_of_lt_of_le ht h4.2)).mpr (by linarith)⟩

/-- **C19**, `approx_zero`: a number is accepted when it is smaller than the tolerance; a matrix when it has an entry and all
its entries are smaller than the tolerance. In particular an empty matrix is never approximately zero. -/
theorem C19_approx_zero (x : ℝ) (m : EMat) (tol : ℝ) (g : Globals) :
    ((approxZeroS x tol g).1 = true ↔ |x| < tol) ∧
    ((approxZeroMS m tol g).1 = true ↔ m.data ≠ [] ∧ ∀ y ∈ m.data, |y| < tol) := by
  refine ⟨by simp [approxZeroS], ?_⟩
  unfold approxZeroMS
  by_cases h : m.data = []
  · simp [h]
  · rw [if_neg (by simpa using h)]
    simp [h, maxAbs_lt h]

/-- A matrix with a large entry in last position is not approximately zero; a small one is. -/
example (g : Globals) : (approxZeroMS (EMat.ofVec [0, 0, 1]) (1 / 10) g).1 = false ∧
    (approxZeroMS (EMat.ofVec [0, 1 / 20, -1 / 20]) (1 / 10) g).1 = true := by
  constructor
  · by_contra h
    have := ((C19_approx_zero 0 _ _ g).2.mp (by simpa using h)).2 1 (by simp [EMat.ofVec])
    norm_num at this
  · rw [(C19_approx_zero 0 _ _ g).2]
    refine ⟨by simp [EMat.ofVec], fun y hy => ?_⟩
    simp only [EMat.ofVec, List.mem_cons, List.not_mem_nil, or_false] at hy
    rcases hy with rfl | rfl | rfl <;> norm_num [abs_lt]

/-- A call of one of the comparison functions of Tools.cpp. -/
inductive Cmp where
  | numbers (l r tol : ℝ)
  | matrices (l r : EMat) (tol : ℝ)
  | zeroNumber (r tol : ℝ)
  | zeroMatrix (r : EMat) (tol : ℝ)

/-- Running one call in a state of the globals. -/
noncomputable def Cmp.run : Cmp → Globals → Bool × Globals
  | .numbers l r tol => approxEqualS l r tol
  | .matrices l r tol => approxEqualMS l r tol
  | .zeroNumber r tol => approxZeroS r tol
  | .zeroMatrix r tol => approxZeroMS r tol

/-- Running a sequence of calls, collecting the answers. -/
noncomputable def runAll : List Cmp → Globals → List Bool
  | [], _ => []
  | c :: cs, g => (c.run g).1 :: runAll cs (c.run g).2

/-- **C19**, history: in every sequence of comparisons, every answer is the answer that the call gives at program start. -/
theorem C19_history_independent (cs : List Cmp) (g : Globals) : runAll cs g = cs.map fun c => (c.run globals0).1 := by
  have h1 : ∀ (c : Cmp) (g g' : Globals), (c.run g).1 = (c.run g').1 := by
    intro c g g'
    cases c with
    | numbers l r tol => exact approxEqualS_fst l r tol g g'
    | matrices l r tol => exact approxEqualMS_fst l r tol g g'
    | zeroNumber r tol => rfl
    | zeroMatrix r tol =>
      simp only [Cmp.run, approxZeroMS]
      split_ifs <;> rfl
  induction cs generalizing g with
  | nil => rfl
  | cons c cs ih => rw [runAll, ih, List.map_cons, h1 c g globals0]

/-- Both answers occur: `1` and `1 + 1e-7` are equal up to `1e-6`, `1` and `2` are not. -/
example : approxEqual 1 (1 + 1 / 10 ^ 7) (1 / 10 ^ 6) = true ∧ approxEqual 1 2 (1 / 10 ^ 6) = false := by
  constructor <;> simp [approxEqual, approxEqualS] <;> norm_num [abs_lt, abs_of_pos]

/-- Vectors of different size are different, `(1, 2)` and `(1, 3)` as well. -/
example : approxEqualV [1, 2] [1] 1 = false ∧ approxEqualV [1, 2] [1, 3] (1 / 10) = false := by
  constructor
  · simp [approxEqualV, approxEqualM, approxEqualMS, EMat.ofVec]
  · simp [approxEqualV, approxEqualM, approxEqualMS, EMat.ofVec, maxAbs, maxCoeff]
    norm_num

end GSplines.Props
