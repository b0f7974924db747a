import Verif.Model.Basis
import Verif.Proofs.Writes
import Verif.Proofs.Tools
import Mathlib.Algebra.BigOperators.Intervals
import Mathlib.Algebra.BigOperators.Ring.Finset

/-! # Caches of a basis object and the matrices they hold -/

namespace GSplines

open Finset

theorem sum_range_mul {a b : ℕ} (f : ℕ → ℝ) : ∑ x ∈ range (a * b), f x = ∑ i ∈ range a, ∑ j ∈ range b, f (i * b + j) := by
  induction a with
  | zero => simp
  | succ a ih => rw [Nat.succ_mul, sum_range_add, ih, sum_range_succ]

namespace Basis

/-! ## the block cache -/

/-- The cache contains the right matrices. -/
def CacheInv (b : Basis) (c : List Mat) : Prop := ∀ k (h : k < c.length), c[k] = b.derivMatrixImpl k

theorem fillCache_spec (b : Basis) (d : ℕ) {c : List Mat} (hc : b.CacheInv c) :
    b.CacheInv (b.fillCache d c) ∧ d < (b.fillCache d c).length := by
  unfold fillCache
  rcases Nat.le_total c.length (d + 1) with h | h
  · have := forLoop_ind (fun k st => st.length = k ∧ b.CacheInv st) h (fun k c => c ++ [b.derivMatrixImpl k]) c ⟨rfl, hc⟩
      (by
        rintro i st _ _ ⟨h1, h2⟩
        refine ⟨by simp [h1], fun k hk => ?_⟩
        rcases Nat.lt_or_ge k st.length with h3 | h3
        · rw [List.getElem_append_left h3]; exact h2 k h3
        · have h4 : k = st.length := by simp at hk; omega
          subst h4
          simp [h1])
    exact ⟨this.2, by omega⟩
  · rw [forLoop_of_le h]
    exact ⟨hc, by omega⟩

theorem getBlock_spec (b : Basis) (d : ℕ) {c : List Mat} (hc : b.CacheInv c) :
    b.CacheInv (b.getBlock d c).1 ∧ (b.getBlock d c).2 = .ok (b.derivMatrixImpl d) := by
  obtain ⟨h1, h2⟩ := b.fillCache_spec d hc
  refine ⟨h1, ?_⟩
  unfold getBlock
  simp only [List.getElem?_eq_getElem h2, h1 d h2]

theorem derivMatrixImpl_zero (b : Basis) : b.derivMatrixImpl 0 = Mat.id := by
  cases b <;> simp [derivMatrixImpl, Legendre.derivMatrixImpl, Lagrange.derivMatrixImpl, B0101.derivMatrixImpl]

theorem cacheInv_cache0 (b : Basis) : b.CacheInv cache0 := by
  intro k hk
  have : k = 0 := by simp [cache0] at hk; omega
  subst this
  simp [cache0, derivMatrixImpl_zero]

theorem cacheInv_step (b : Basis) {c : List Mat} (hc : b.CacheInv c) (op : CacheOp) : b.CacheInv (b.cacheStep c op) := by
  cases op with
  | request d => exact (b.getBlock_spec d hc).1
  | copied => exact hc
  | movedFrom => intro k hk; simp [cacheStep] at hk

/-! ## the continuity matrix -/

theorem contStatic_writes (dim n codim order : ℕ) (left right : Mat) :
    contStatic dim n codim order left right = applyWrites ((List.range' 0 (order + 1)).flatMap fun der =>
      (List.range' 0 (n - 1)).flatMap fun iv =>
        ((List.range' 0 codim).flatMap fun c => (List.range' 0 dim).map fun k =>
          (codim * (n - 1) * der + iv * codim + c, iv * dim * codim + k + dim * c, right der k)) ++
        ((List.range' 0 codim).flatMap fun c => (List.range' 0 dim).map fun k =>
          (codim * (n - 1) * der + iv * codim + c, (iv + 1) * dim * codim + k + dim * c, -(left der k)))) Mat.zero := by
  unfold contStatic
  rw [← forLoop_writes0]
  congr 1
  funext der m
  conv_rhs => rw [← forLoop_writes0]
  congr 1
  funext iv m
  rw [applyWrites_append]
  simp only
  have inner : ∀ (col : ℕ → ℕ → ℕ) (v : ℕ → ℝ) (m : Mat),
      forLoop 0 codim (fun c m => forLoop 0 dim (fun k m =>
        setAt2 m (codim * (n - 1) * der + iv * codim + c) (col c k) (v k)) m) m
      = applyWrites ((List.range' 0 codim).flatMap fun c => (List.range' 0 dim).map fun k =>
          (codim * (n - 1) * der + iv * codim + c, col c k, v k)) m := by
    intro col v m
    conv_rhs => rw [← forLoop_writes0]
    congr 1
    funext c m
    conv_rhs => rw [← forLoop_setAt2_0]
  rw [inner (fun c k => iv * dim * codim + k + dim * c), inner (fun c k => (iv + 1) * dim * codim + k + dim * c)]

/-- Row of the continuity matrix for derivative `der`, joint `iv`, component `c`. -/
def contIdx (n codim der iv c : ℕ) : ℕ := codim * (n - 1) * der + iv * codim + c

/-- Column of the coefficient `k` of component `c` in interval `iv`. -/
def coefIdx (dim codim iv c k : ℕ) : ℕ := iv * dim * codim + dim * c + k

theorem contIdx_inj {n codim der iv c der' iv' c' : ℕ} (h1 : iv < n - 1) (h1' : iv' < n - 1) (h2 : c < codim) (h2' : c' < codim)
    (h : contIdx n codim der iv c = contIdx n codim der' iv' c') : der = der' ∧ iv = iv' ∧ c = c' := by
  unfold contIdx at h
  have b1 : iv * codim + c < codim * (n - 1) := by
    have : (iv + 1) * codim ≤ (n - 1) * codim := Nat.mul_le_mul_right _ h1
    rw [Nat.succ_mul] at this
    rw [mul_comm codim]; omega
  have b2 : iv' * codim + c' < codim * (n - 1) := by
    have : (iv' + 1) * codim ≤ (n - 1) * codim := Nat.mul_le_mul_right _ h1'
    rw [Nat.succ_mul] at this
    rw [mul_comm codim]; omega
  have h3 : der * (codim * (n - 1)) + (iv * codim + c) = der' * (codim * (n - 1)) + (iv' * codim + c') := by
    rw [mul_comm der, mul_comm der', ← add_assoc, ← add_assoc]; exact h
  obtain ⟨e1, e2⟩ := radix_unique b1 b2 h3
  obtain ⟨e3, e4⟩ := radix_unique h2 h2' e2
  exact ⟨e1, e3, e4⟩

theorem coefIdx_inj {dim codim iv c k iv' c' k' : ℕ} (h1 : c < codim) (h1' : c' < codim) (h2 : k < dim) (h2' : k' < dim)
    (h : coefIdx dim codim iv c k = coefIdx dim codim iv' c' k') : iv = iv' ∧ c = c' ∧ k = k' := by
  unfold coefIdx at h
  have b1 : c * dim + k < codim * dim := by
    have : (c + 1) * dim ≤ codim * dim := Nat.mul_le_mul_right _ h1
    rw [Nat.succ_mul] at this
    omega
  have b2 : c' * dim + k' < codim * dim := by
    have : (c' + 1) * dim ≤ codim * dim := Nat.mul_le_mul_right _ h1'
    rw [Nat.succ_mul] at this
    omega
  have h3 : iv * (codim * dim) + (c * dim + k) = iv' * (codim * dim) + (c' * dim + k') := by
    have e1 : iv * (codim * dim) + (c * dim + k) = iv * dim * codim + dim * c + k := by ring
    have e2 : iv' * (codim * dim) + (c' * dim + k') = iv' * dim * codim + dim * c' + k' := by ring
    omega
  obtain ⟨e1, e2⟩ := radix_unique b1 b2 h3
  obtain ⟨e3, e4⟩ := radix_unique h2 h2' e2
  exact ⟨e1, e3, e4⟩

theorem contStatic_spec {dim n codim order : ℕ} (left right : Mat) {der iv c : ℕ} (hd : der ≤ order) (hiv : iv < n - 1) (hc : c < codim)
    {iv' c' k : ℕ} (hc' : c' < codim) (hk : k < dim) :
    contStatic dim n codim order left right (contIdx n codim der iv c) (coefIdx dim codim iv' c' k)
      = if c' = c then (if iv' = iv then right der k else if iv' = iv + 1 then -(left der k) else 0) else 0 := by
  rw [contStatic_writes]
  have hcol : ∀ iv2 c2 k2, iv2 * dim * codim + k2 + dim * c2 = coefIdx dim codim iv2 c2 k2 := by
    intro a b c; unfold coefIdx; ring
  refine applyWrites_eq ?_ ?_
  · intro w hw hr hcl
    simp only [List.mem_flatMap, List.mem_append, List.mem_map, List.mem_range'_1] at hw
    obtain ⟨der2, hd2, iv2, hi2, h | h⟩ := hw
    · obtain ⟨c2, hc2, k2, hk2, rfl⟩ := h
      simp only [hcol] at hr hcl ⊢
      obtain ⟨e1, e2, e3⟩ := contIdx_inj (by omega) hiv (by omega) hc (show contIdx n codim der2 iv2 c2 = contIdx n codim der iv c from hr)
      obtain ⟨e4, e5, e6⟩ := coefIdx_inj (by omega) hc' (by omega) hk hcl
      subst e1 e2 e3 e4 e5 e6
      simp
    · obtain ⟨c2, hc2, k2, hk2, rfl⟩ := h
      simp only [hcol] at hr hcl ⊢
      obtain ⟨e1, e2, e3⟩ := contIdx_inj (by omega) hiv (by omega) hc (show contIdx n codim der2 iv2 c2 = contIdx n codim der iv c from hr)
      obtain ⟨e4, e5, e6⟩ := coefIdx_inj (by omega) hc' (by omega) hk hcl
      subst e1 e2 e3 e4 e5 e6
      simp
  · by_cases h1 : c' = c
    · subst h1
      by_cases h2 : iv' = iv
      · right
        subst h2
        refine ⟨(contIdx n codim der iv' c', iv' * dim * codim + k + dim * c', right der k), ?_, rfl, hcol _ _ _⟩
        simp only [List.mem_flatMap, List.mem_append, List.mem_map, List.mem_range'_1]
        exact ⟨der, by omega, iv', by omega, Or.inl ⟨c', by omega, k, by omega, rfl⟩⟩
      · by_cases h3 : iv' = iv + 1
        · right
          subst h3
          refine ⟨(contIdx n codim der iv c', (iv + 1) * dim * codim + k + dim * c', -(left der k)), ?_, rfl, hcol _ _ _⟩
          simp only [List.mem_flatMap, List.mem_append, List.mem_map, List.mem_range'_1]
          exact ⟨der, by omega, iv, by omega, Or.inr ⟨c', by omega, k, by omega, rfl⟩⟩
        · left; simp [h2, h3, Mat.zero]
    · left; simp [h1, Mat.zero]

theorem scaleLoop_spec (a b : ℕ) (F : ℕ → ℕ → ℝ) (dest : Mat) (r c : ℕ) :
    forLoop a b (fun k m => fun r c => if r = k then F r c else m r c) dest r c
      = if a ≤ r ∧ r < b then F r c else dest r c := by
  rcases Nat.le_total a b with h | h
  · have := forLoop_ind (fun i (m : Mat) => m r c = if a ≤ r ∧ r < i then F r c else dest r c) h
      (fun k m => fun r c => if r = k then F r c else m r c) dest (by simp) (by
        intro i st h1 h2 ih
        by_cases hr : r = i
        · subst hr; simp [h1]
        · simp only [if_neg hr, ih]
          by_cases h3 : a ≤ r ∧ r < i
          · rw [if_pos h3, if_pos ⟨h3.1, by omega⟩]
          · rw [if_neg h3, if_neg (by omega)])
    exact this
  · rw [forLoop_of_le h, if_neg (by omega)]

/-- Variant in which the exponent depends on the row counter of the loop. -/
theorem contScale_spec (dim n codim order : ℕ) (tau : List ℝ) (src dest : Mat) (r c : ℕ) :
    contScale dim n codim order tau src dest r c
      = if codim * (n - 1) ≤ r ∧ r < codim * (n - 1) * (order + 1)
        then src r c * (2 / vecOf tau (c / (dim * codim))) ^ (r / (codim * (n - 1))) else dest r c := by
  unfold contScale
  have e : (fun (k : ℕ) (m : Mat) => fun (r c : ℕ) =>
      if r = k then src r c * (2 / vecOf tau (c / (dim * codim))) ^ (k / (codim * (n - 1))) else m r c)
    = fun k m => fun r c => if r = k then (fun r c => src r c * (2 / vecOf tau (c / (dim * codim))) ^ (r / (codim * (n - 1)))) r c else m r c := by
    funext k m r c
    by_cases h : r = k
    · subst h; rfl
    · simp [h]
  rw [e]
  exact scaleLoop_spec _ _ (fun r c => src r c * (2 / vecOf tau (c / (dim * codim))) ^ (r / (codim * (n - 1)))) dest r c

theorem coefIdx_div {dim codim iv c k : ℕ} (hc : c < codim) (hk : k < dim) : coefIdx dim codim iv c k / (dim * codim) = iv := by
  have hpos : 0 < dim * codim := Nat.mul_pos (by omega) (by omega)
  have b1 : dim * c + k < dim * codim := by
    have : dim * (c + 1) ≤ dim * codim := Nat.mul_le_mul_left _ hc
    rw [Nat.mul_succ] at this; omega
  unfold coefIdx
  rw [show iv * dim * codim + dim * c + k = (dim * codim) * iv + (dim * c + k) by ring, Nat.mul_add_div hpos, Nat.div_eq_of_lt b1]
  omega

theorem contIdx_lt {n codim iv c : ℕ} (hiv : iv < n - 1) (hc : c < codim) :
    iv * codim + c < codim * (n - 1) := by
  have : (iv + 1) * codim ≤ (n - 1) * codim := Nat.mul_le_mul_right _ hiv
  rw [Nat.succ_mul] at this
  rw [mul_comm codim]; omega

/-- Entries of the matrix returned by `continuity_matrix`. -/
theorem contScale_entry {dim n codim order : ℕ} (tau : List ℝ) (left right : Mat) {der iv c : ℕ} (hd : der ≤ order) (hiv : iv < n - 1) (hc : c < codim)
    {iv' c' k : ℕ} (hc' : c' < codim) (hk : k < dim) :
    contScale dim n codim order tau (contStatic dim n codim order left right) (contStatic dim n codim order left right)
        (contIdx n codim der iv c) (coefIdx dim codim iv' c' k)
      = (if c' = c then (if iv' = iv then right der k else if iv' = iv + 1 then -(left der k) else 0) else 0)
        * (2 / vecOf tau iv') ^ der := by
  have hb := contIdx_lt hiv hc
  have hN : 0 < codim * (n - 1) := by omega
  have hdiv : contIdx n codim der iv c / (codim * (n - 1)) = der := by
    unfold contIdx
    rw [add_assoc, Nat.mul_add_div hN, Nat.div_eq_of_lt hb, add_zero]
  rw [contScale_spec, contStatic_spec left right hd hiv hc hc' hk, coefIdx_div hc' hk, hdiv]
  split_ifs with h
  · rfl
  · rfl
  · rfl
  · rfl
  all_goals
    have hz : der = 0 := by
      by_contra h0
      apply h
      unfold contIdx
      constructor
      · have : codim * (n - 1) * 1 ≤ codim * (n - 1) * der := Nat.mul_le_mul_left _ (by omega)
        omega
      · have : codim * (n - 1) * (der + 1) ≤ codim * (n - 1) * (order + 1) := Nat.mul_le_mul_left _ (by omega)
        rw [Nat.mul_succ] at this
        omega
    subst hz
    simp

/-- Sum over all coefficients as a triple sum. -/
theorem sum_coef (dim n codim : ℕ) (f : ℕ → ℝ) :
    ∑ x ∈ range (n * codim * dim), f x = ∑ iv ∈ range n, ∑ c ∈ range codim, ∑ k ∈ range dim, f (coefIdx dim codim iv c k) := by
  rw [sum_range_mul, sum_range_mul]
  refine sum_congr rfl fun iv _ => sum_congr rfl fun c _ => sum_congr rfl fun k _ => ?_
  congr 1
  unfold coefIdx; ring

/-- The product of the continuity matrix with a coefficient vector. -/
theorem cont_mulVec {dim n codim order : ℕ} (tau : List ℝ) (left right : Mat) (y : Vec) {der iv c : ℕ} (hd : der ≤ order) (hiv : iv < n - 1) (hc : c < codim) :
    (contScale dim n codim order tau (contStatic dim n codim order left right) (contStatic dim n codim order left right)).mulVec
        (n * codim * dim) y (contIdx n codim der iv c)
      = (∑ k ∈ range dim, right der k * y (coefIdx dim codim iv c k)) * (2 / vecOf tau iv) ^ der
        - (∑ k ∈ range dim, left der k * y (coefIdx dim codim (iv + 1) c k)) * (2 / vecOf tau (iv + 1)) ^ der := by
  unfold Mat.mulVec
  rw [sum_coef]
  have e : ∀ iv' ∈ range n, (∑ c' ∈ range codim, ∑ k ∈ range dim,
      contScale dim n codim order tau (contStatic dim n codim order left right) (contStatic dim n codim order left right)
        (contIdx n codim der iv c) (coefIdx dim codim iv' c' k) * y (coefIdx dim codim iv' c' k))
      = (if iv' = iv then (∑ k ∈ range dim, right der k * y (coefIdx dim codim iv c k)) * (2 / vecOf tau iv) ^ der else 0)
        + (if iv' = iv + 1 then -((∑ k ∈ range dim, left der k * y (coefIdx dim codim (iv + 1) c k)) * (2 / vecOf tau (iv + 1)) ^ der) else 0) := by
    intro iv' _
    rw [sum_eq_single c]
    · rw [sum_congr rfl fun k hk => by rw [contScale_entry tau left right hd hiv hc hc (mem_range.mp hk)]]
      by_cases h1 : iv' = iv
      · subst h1
        simp only [if_true, if_neg (show ¬ iv' = iv' + 1 by omega), add_zero, sum_mul]
        exact sum_congr rfl fun k _ => by ring
      · by_cases h2 : iv' = iv + 1
        · subst h2
          simp only [if_true, if_neg (show ¬ iv + 1 = iv by omega), zero_add, sum_mul, ← sum_neg_distrib]
          exact sum_congr rfl fun k _ => by ring
        · simp [h1, h2]
    · intro c' hc' hne
      refine sum_eq_zero fun k hk => ?_
      rw [contScale_entry tau left right hd hiv hc (mem_range.mp hc') (mem_range.mp hk), if_neg hne]
      ring
    · intro h; exact absurd (mem_range.mpr hc) h
  rw [sum_congr rfl e, sum_add_distrib, sum_ite_eq', sum_ite_eq', if_pos (mem_range.mpr (by omega)), if_pos (mem_range.mpr (by omega))]
  ring

/-! ## history independence -/

/-- What a cache entry contains: the static matrix for its key, and a dynamic matrix that differs from it only in rows that the next call
overwrites. -/
def ContInv (b : Basis) (cc : CCache) : Prop := ∀ n codim order st dy, cc (n, codim, order) = some (st, dy) →
  (∃ l r, b.contBuf true order = .ok l ∧ b.contBuf false order = .ok r ∧ st = contStatic b.dim n codim order l r) ∧
  ∀ i j, ¬ (codim * (n - 1) ≤ i ∧ i < codim * (n - 1) * (order + 1)) → dy i j = st i j

theorem contScale_dest {dim n codim order : ℕ} (tau : List ℝ) (st dy : Mat)
    (h : ∀ i j, ¬ (codim * (n - 1) ≤ i ∧ i < codim * (n - 1) * (order + 1)) → dy i j = st i j) :
    contScale dim n codim order tau st dy = contScale dim n codim order tau st st := by
  funext i j
  rw [contScale_spec, contScale_spec]
  split_ifs with hc
  · rfl
  · exact h i j hc

theorem ContInv.set {b : Basis} {cc : CCache} (h : b.ContInv cc) {n codim order : ℕ} {st dy : Mat}
    (h1 : ∃ l r, b.contBuf true order = .ok l ∧ b.contBuf false order = .ok r ∧ st = contStatic b.dim n codim order l r)
    (h2 : ∀ i j, ¬ (codim * (n - 1) ≤ i ∧ i < codim * (n - 1) * (order + 1)) → dy i j = st i j) :
    b.ContInv (cc.set (n, codim, order) (st, dy)) := by
  intro n' c' o' st' dy' he
  unfold CCache.set at he
  split_ifs at he with hk
  · obtain ⟨rfl, rfl, rfl⟩ : n' = n ∧ c' = codim ∧ o' = order := by
      simpa [Prod.ext_iff] using hk
    obtain ⟨rfl, rfl⟩ : st = st' ∧ dy = dy' := by simpa using he
    exact ⟨h1, h2⟩
  · exact h n' c' o' st' dy' he

/-- The answer of a call on a new object. -/
noncomputable def contFresh (b : Basis) (n codim order : ℕ) (tau : List ℝ) : Res Mat :=
  (b.continuityMatrix n codim order tau (fun _ => none)).2

theorem contInv_empty (b : Basis) : b.ContInv (fun _ => none) := by
  intro n c o st dy h; simp at h

theorem continuityMatrix_spec {b : Basis} {cc : CCache} (h : b.ContInv cc) (n codim order : ℕ) (tau : List ℝ) :
    b.ContInv (b.continuityMatrix n codim order tau cc).1 ∧
    (b.continuityMatrix n codim order tau cc).2 = b.contFresh n codim order tau := by
  unfold contFresh continuityMatrix
  by_cases hn : n = 0
  · simp only [hn, if_true]; exact ⟨h, trivial⟩
  · simp only [if_neg hn]
    cases hcc : cc (n, codim, order) with
    | some p =>
      obtain ⟨st, dy⟩ := p
      obtain ⟨⟨l, r, hl, hr, hst⟩, hdy⟩ := h n codim order st dy hcc
      simp only [hl, hr]
      by_cases hu : 1 ≤ codim ∧ 2 ≤ n ∧ 1 ≤ order ∧ tau.length < n
      · simp only [if_pos hu]; exact ⟨h, trivial⟩
      · simp only [if_neg hu]
        by_cases hz : 1 ≤ codim ∧ 2 ≤ n ∧ 1 ≤ order ∧ 0 ∈ tau.take n
        · simp only [if_pos hz]; exact ⟨h, trivial⟩
        simp only [if_neg hz]
        rw [contScale_dest tau st dy hdy, ← hst]
        refine ⟨h.set ⟨l, r, hl, hr, hst⟩ ?_, rfl⟩
        intro i j hij
        rw [contScale_spec, if_neg hij]
    | none =>
      cases hl : b.contBuf true order with
      | error e => exact ⟨h, rfl⟩
      | ok l =>
        cases hr : b.contBuf false order with
        | error e => exact ⟨h, rfl⟩
        | ok r =>
          simp only
          have h2 := h.set (n := n) (codim := codim) (order := order) (st := contStatic b.dim n codim order l r) ⟨l, r, hl, hr, rfl⟩
            (fun _ _ _ => rfl)
          by_cases hu : 1 ≤ codim ∧ 2 ≤ n ∧ 1 ≤ order ∧ tau.length < n
          · simp only [if_pos hu]; exact ⟨h2, trivial⟩
          · simp only [if_neg hu]
            by_cases hz : 1 ≤ codim ∧ 2 ≤ n ∧ 1 ≤ order ∧ 0 ∈ tau.take n
            · simp only [if_pos hz]; exact ⟨h2, trivial⟩
            simp only [if_neg hz]
            refine ⟨h2.set ⟨l, r, hl, hr, rfl⟩ ?_, trivial⟩
            intro i j hij
            rw [contScale_spec, if_neg hij]

/-! ## the derivative matrix of a spline -/

theorem derivStatic_writes (dim n codim : ℕ) (d : Mat) :
    derivStatic dim n codim d = applyWrites ((List.range' 0 (n * codim)).flatMap fun block =>
      (List.range' 0 dim).flatMap fun i => (List.range' 0 dim).map fun j => (block * dim + i, block * dim + j, d i j)) Mat.zero := by
  unfold derivStatic
  conv_rhs => rw [← forLoop_writes0]
  congr 1
  funext block m
  conv_rhs => rw [← forLoop_writes0]
  congr 1
  funext i m
  conv_rhs => rw [← forLoop_setAt2_0]

theorem derivStatic_spec {dim n codim : ℕ} (d : Mat) {b1 i b2 j : ℕ} (h1 : b1 < n * codim) (hi : i < dim) (hj : j < dim) :
    derivStatic dim n codim d (b1 * dim + i) (b2 * dim + j) = if b2 = b1 then d i j else 0 := by
  rw [derivStatic_writes]
  refine applyWrites_eq ?_ ?_
  · intro w hw hr hcl
    simp only [List.mem_flatMap, List.mem_map, List.mem_range'_1] at hw
    obtain ⟨bl, hbl, i2, hi2, j2, hj2, rfl⟩ := hw
    obtain ⟨e1, e2⟩ := radix_unique (by omega) hi hr
    obtain ⟨e3, e4⟩ := radix_unique (by omega) hj hcl
    subst e1 e2 e3 e4
    simp
  · by_cases h : b2 = b1
    · right
      subst h
      refine ⟨(b2 * dim + i, b2 * dim + j, d i j), ?_, rfl, rfl⟩
      simp only [List.mem_flatMap, List.mem_map, List.mem_range'_1]
      exact ⟨b2, by omega, i, by omega, j, by omega, rfl⟩
    · left; simp [h, Mat.zero]

theorem derivScale_spec (dim n codim order : ℕ) (tau : List ℝ) (src dest : Mat) (r c : ℕ) :
    derivScale dim n codim order tau src dest r c
      = if r < n * codim * dim then src r c * (2 / vecOf tau (c / (dim * codim))) ^ order else dest r c := by
  unfold derivScale
  rw [scaleLoop_spec _ _ (fun r c => src r c * (2 / vecOf tau (c / (dim * codim))) ^ order) dest r c]
  simp

/-- The product with a coefficient vector acts blockwise. -/
theorem derivScale_mulVec {dim n codim order : ℕ} (tau : List ℝ) (d : Mat) (dest : Mat) (y : Vec) {iv c k : ℕ} (hiv : iv < n) (hc : c < codim) (hk : k < dim) :
    (derivScale dim n codim order tau (derivStatic dim n codim d) dest).mulVec (n * codim * dim) y (coefIdx dim codim iv c k)
      = d.mulVec dim (fun j => y (coefIdx dim codim iv c j)) k * (2 / vecOf tau iv) ^ order := by
  have hb : iv * codim + c < n * codim := by
    have : (iv + 1) * codim ≤ n * codim := Nat.mul_le_mul_right _ hiv
    rw [Nat.succ_mul] at this; omega
  have hr : ∀ iv c k, coefIdx dim codim iv c k = (iv * codim + c) * dim + k := by
    intro iv c k; unfold coefIdx; ring
  have hlt : coefIdx dim codim iv c k < n * codim * dim := by
    rw [hr]
    have : (iv * codim + c + 1) * dim ≤ n * codim * dim := Nat.mul_le_mul_right _ hb
    rw [Nat.succ_mul] at this; omega
  unfold Mat.mulVec
  rw [sum_coef, sum_eq_single iv]
  · rw [sum_eq_single c]
    · rw [sum_mul]
      refine sum_congr rfl fun j hj => ?_
      rw [derivScale_spec, if_pos hlt, coefIdx_div hc (mem_range.mp hj)]
      rw [hr iv c k, hr iv c j, derivStatic_spec d hb hk (mem_range.mp hj), if_pos rfl]
      beta_reduce; rw [hr iv c j]; ring
    · intro c' hc' hne
      refine sum_eq_zero fun j hj => ?_
      rw [derivScale_spec, if_pos hlt, hr iv c k, hr iv c' j, derivStatic_spec d hb hk (mem_range.mp hj), if_neg (by omega)]
      ring
    · intro h; exact absurd (mem_range.mpr hc) h
  · intro iv' hiv' hne
    refine sum_eq_zero fun c' hc' => sum_eq_zero fun j hj => ?_
    rw [derivScale_spec, if_pos hlt, hr iv c k, hr iv' c' j, derivStatic_spec d hb hk (mem_range.mp hj), if_neg ?_]
    · ring
    · intro h
      exact hne (radix_unique (mem_range.mp hc') hc h).1
  · intro h; exact absurd (mem_range.mpr hiv) h

/-- Invariant of the cache of `gspline_derivative_matrix`. -/
def DerivInv (b : Basis) (cc : CCache) : Prop := ∀ n codim order st dy, cc (n, codim, order) = some (st, dy) →
  st = derivStatic b.dim n codim (b.derivBlock order) ∧ ∀ i j, ¬ i < n * codim * b.dim → dy i j = st i j

theorem DerivInv.set {b : Basis} {cc : CCache} (h : b.DerivInv cc) {n codim order : ℕ} {st dy : Mat}
    (h1 : st = derivStatic b.dim n codim (b.derivBlock order)) (h2 : ∀ i j, ¬ i < n * codim * b.dim → dy i j = st i j) :
    b.DerivInv (cc.set (n, codim, order) (st, dy)) := by
  intro n' c' o' st' dy' he
  unfold CCache.set at he
  split_ifs at he with hk
  · obtain ⟨rfl, rfl, rfl⟩ : n' = n ∧ c' = codim ∧ o' = order := by
      simpa [Prod.ext_iff] using hk
    obtain ⟨rfl, rfl⟩ : st = st' ∧ dy = dy' := by simpa using he
    exact ⟨h1, h2⟩
  · exact h n' c' o' st' dy' he

/-- The answer of a call on a new object. -/
noncomputable def derivFresh (b : Basis) (n codim order : ℕ) (tau : List ℝ) : Res Mat :=
  (b.gsplineDerivativeMatrix n codim order tau (fun _ => none)).2

theorem derivInv_empty (b : Basis) : b.DerivInv (fun _ => none) := by
  intro n c o st dy h; simp at h

theorem gsplineDerivativeMatrix_spec {b : Basis} {cc : CCache} (h : b.DerivInv cc) (n codim order : ℕ) (tau : List ℝ) :
    b.DerivInv (b.gsplineDerivativeMatrix n codim order tau cc).1 ∧
    (b.gsplineDerivativeMatrix n codim order tau cc).2 = b.derivFresh n codim order tau := by
  unfold derivFresh gsplineDerivativeMatrix
  cases hcc : cc (n, codim, order) with
  | some p =>
    obtain ⟨st, dy⟩ := p
    obtain ⟨hst, hdy⟩ := h n codim order st dy hcc
    by_cases hu : 1 ≤ codim ∧ 1 ≤ b.dim ∧ tau.length < n
    · simp only [if_pos hu]; exact ⟨h, trivial⟩
    · simp only [if_neg hu]
      by_cases hz : 1 ≤ codim ∧ 1 ≤ b.dim ∧ 1 ≤ order ∧ 0 ∈ tau.take n
      · simp only [if_pos hz]; exact ⟨h, trivial⟩
      simp only [if_neg hz]
      have e : derivScale b.dim n codim order tau st dy
          = derivScale b.dim n codim order tau (derivStatic b.dim n codim (b.derivBlock order)) (derivStatic b.dim n codim (b.derivBlock order)) := by
        funext i j
        rw [derivScale_spec, derivScale_spec, ← hst]
        split_ifs with hc
        · rfl
        · exact hdy i j hc
      rw [← e]
      refine ⟨h.set hst ?_, rfl⟩
      intro i j hij
      rw [derivScale_spec, if_neg hij, hdy i j hij]
  | none =>
    have h2 := h.set (n := n) (codim := codim) (order := order) (st := derivStatic b.dim n codim (b.derivBlock order)) rfl (fun _ _ _ => rfl)
    simp only
    by_cases hu : 1 ≤ codim ∧ 1 ≤ b.dim ∧ tau.length < n
    · simp only [if_pos hu]; exact ⟨h2, trivial⟩
    · simp only [if_neg hu]
      by_cases hz : 1 ≤ codim ∧ 1 ≤ b.dim ∧ 1 ≤ order ∧ 0 ∈ tau.take n
      · simp only [if_pos hz]; exact ⟨h2, trivial⟩
      simp only [if_neg hz]
      refine ⟨h2.set rfl ?_, trivial⟩
      intro i j hij
      rw [derivScale_spec, if_neg hij]

end Basis

end GSplines
