import Verif.Proofs.InterpBlocks

/-!
# The rows of the interpolation matrix
-/

namespace GSplines.Interp

open GSplines

/-- First row for the values at the start of interval `iv`. -/
def rowStart (c D iv : ℕ) : ℕ := iv * (c * D) + if iv = 0 then 0 else c * (D / 2 - 1)

/-- First row for the values at the end of interval `iv`. -/
def rowStop (c D n iv : ℕ) : ℕ := iv * (c * D) + c + c * (D / 2 - 1) + if iv ≠ 0 ∧ iv + 1 = n then c * (D / 2 - 1) else 0

/-- First row for the derivatives at the end of the last interval. -/
def rowRest (c D n : ℕ) : ℕ := if n = 1 then 2 * c + c * (D / 2 - 1) else (n - 1) * (c * D) + c + c * (D / 2 - 1)

/-- First row for the continuity between intervals `iv` and `iv + 1`. -/
def rowJoin (c D iv : ℕ) : ℕ := iv * (c * D) + 2 * c + c * (D / 2 - 1)

/-- The buffers for all intervals: values and derivatives at the start and at the end. -/
structure Bufs where
  pl : ℕ → Vec
  dl : ℕ → Mat
  pr : ℕ → Vec
  dr : ℕ → Mat

/-- The blocks written for the first of one or several intervals, up to the values at the end. -/
def firstM (D c : ℕ) (B : Bufs) (m : Mat) : Mat :=
  posBlock D c (c + c * (D / 2 - 1)) 0 (B.pr 0) (bndBlock D c c 0 (B.dl 0) (posBlock D c 0 0 (B.pl 0) m))

/-- The blocks written for a middle interval. -/
def midM (D c i0 j0 iv : ℕ) (B : Bufs) (m : Mat) : Mat :=
  contBlock D c (i0 + c * (D - 2) + c + c) j0 false (B.dr iv) (posBlock D c (i0 + c * (D - 2) + c) j0 (B.pr iv)
    (posBlock D c (i0 + c * (D - 2)) j0 (B.pl iv) (contBlock D c i0 j0 true (B.dl iv) m)))

/-- The blocks written for the last of several intervals. -/
def finM (D c i0 j0 iv : ℕ) (B : Bufs) (m : Mat) : Mat :=
  posBlock D c (i0 + c * (D - 2) + c + c * (D / 2 - 1)) j0 (B.pr iv) (bndBlock D c (i0 + c * (D - 2) + c) j0 (B.dr iv)
    (posBlock D c (i0 + c * (D - 2)) j0 (B.pl iv) (contBlock D c i0 j0 true (B.dl iv) m)))

section

variable {D c h : ℕ} {B : Bufs} {m : Mat}

theorem half_eq (hD : D = 2 * h + 2) : D / 2 - 1 = h ∧ D - 2 = 2 * h ∧ c * (D / 2 - 1) = c * h ∧ c * (D - 2) = 2 * (c * h) ∧ c * D = 2 * (c * h) + 2 * c := by
  have e1 : D / 2 - 1 = h := by omega
  have e2 : D - 2 = 2 * h := by omega
  refine ⟨e1, e2, by rw [e1], by rw [e2]; ring, by rw [hD]; ring⟩

theorem comp_lt {comp j : ℕ} (hc : comp < c) (hj : j < h) : comp * h + j < c * h := radix_lt hc hj

theorem comp_lt2 {comp j : ℕ} (hc : comp < c) (hj : j < 2 * h) : comp * (2 * h) + j < 2 * (c * h) := by
  have := radix_lt hc hj
  rw [show c * (2 * h) = 2 * (c * h) by ring] at this
  exact this

/-! First interval. -/

theorem firstM_start (hD : D = 2 * h + 2) {comp : ℕ} (hc : comp < c) :
    firstM D c B m comp = upd (D * comp) D (B.pl 0) (m comp) := by
  obtain ⟨e1, e2, e3, e4, e5⟩ := half_eq (c := c) hD
  unfold firstM
  rw [posBlock_other (by omega), bndBlock_other (by omega)]
  have := posBlock_row (dim := D) (codim := c) (i0 := 0) (j0 := 0) (p := B.pl 0) (m := m) hc
  rwa [Nat.zero_add, Nat.zero_add] at this

theorem firstM_rest (hD : D = 2 * h + 2) {comp j : ℕ} (hc : comp < c) (hj : j < h) :
    firstM D c B m (c + comp * h + j) = upd (D * comp) D (fun k => B.dl 0 k j) (m (c + comp * h + j)) := by
  obtain ⟨e1, e2, e3, e4, e5⟩ := half_eq (c := c) hD
  have := comp_lt hc hj
  unfold firstM
  rw [posBlock_other (by omega)]
  have := bndBlock_row (dim := D) (codim := c) (i0 := c) (j0 := 0) (d := B.dl 0) (m := posBlock D c 0 0 (B.pl 0) m) (c := comp) (j := j) hc (by omega)
  rw [e1, Nat.zero_add] at this
  rw [this, posBlock_other (by omega)]

theorem firstM_stop (hD : D = 2 * h + 2) {comp : ℕ} (hc : comp < c) :
    firstM D c B m (c + c * h + comp) = upd (D * comp) D (B.pr 0) (m (c + c * h + comp)) := by
  obtain ⟨e1, e2, e3, e4, e5⟩ := half_eq (c := c) hD
  unfold firstM
  rw [e3, posBlock_row hc, bndBlock_other (by omega), posBlock_other (by omega), Nat.zero_add]

theorem firstM_high (hD : D = 2 * h + 2) {r : ℕ} (hr : 2 * c + c * h ≤ r) : firstM D c B m r = m r := by
  obtain ⟨e1, e2, e3, e4, e5⟩ := half_eq (c := c) hD
  unfold firstM
  rw [posBlock_other (by omega), bndBlock_other (by omega), posBlock_other (by omega)]

/-! Middle interval. -/

variable {i0 j0 iv : ℕ}

theorem midM_low {r : ℕ} (hr : r < i0) : midM D c i0 j0 iv B m r = m r := by
  unfold midM
  rw [contBlock_other (by omega), posBlock_other (by omega), posBlock_other (by omega), contBlock_other (by omega)]

theorem midM_join (hD : D = 2 * h + 2) {comp j : ℕ} (hc : comp < c) (hj : j < 2 * h) :
    midM D c i0 j0 iv B m (i0 + comp * (2 * h) + j) = upd (j0 + D * comp) D (fun k => -1 * B.dl iv k j) (m (i0 + comp * (2 * h) + j)) := by
  obtain ⟨e1, e2, e3, e4, e5⟩ := half_eq (c := c) hD
  have := comp_lt2 hc hj
  unfold midM
  rw [contBlock_other (by omega), posBlock_other (by omega), posBlock_other (by omega)]
  have := contBlock_row (dim := D) (codim := c) (i0 := i0) (j0 := j0) (minus := true) (d := B.dl iv) (m := m) (c := comp) (j := j) hc (by omega)
  rw [e2] at this
  rw [this]
  simp

theorem midM_start (hD : D = 2 * h + 2) {comp : ℕ} (hc : comp < c) :
    midM D c i0 j0 iv B m (i0 + 2 * (c * h) + comp) = upd (j0 + D * comp) D (B.pl iv) (m (i0 + 2 * (c * h) + comp)) := by
  obtain ⟨e1, e2, e3, e4, e5⟩ := half_eq (c := c) hD
  unfold midM
  rw [contBlock_other (by omega), posBlock_other (by omega), e4, posBlock_row hc, contBlock_other (by omega)]

theorem midM_stop (hD : D = 2 * h + 2) {comp : ℕ} (hc : comp < c) :
    midM D c i0 j0 iv B m (i0 + 2 * (c * h) + c + comp) = upd (j0 + D * comp) D (B.pr iv) (m (i0 + 2 * (c * h) + c + comp)) := by
  obtain ⟨e1, e2, e3, e4, e5⟩ := half_eq (c := c) hD
  unfold midM
  rw [contBlock_other (by omega), e4, posBlock_row hc, posBlock_other (by omega), contBlock_other (by omega)]

theorem midM_half (hD : D = 2 * h + 2) {comp j : ℕ} (hc : comp < c) (hj : j < 2 * h) :
    midM D c i0 j0 iv B m (i0 + 2 * (c * h) + c + c + comp * (2 * h) + j) =
      upd (j0 + D * comp) D (fun k => B.dr iv k j) (m (i0 + 2 * (c * h) + c + c + comp * (2 * h) + j)) := by
  obtain ⟨e1, e2, e3, e4, e5⟩ := half_eq (c := c) hD
  have := comp_lt2 hc hj
  unfold midM
  have := contBlock_row (dim := D) (codim := c) (i0 := i0 + c * (D - 2) + c + c) (j0 := j0) (minus := false) (d := B.dr iv)
    (m := posBlock D c (i0 + c * (D - 2) + c) j0 (B.pr iv) (posBlock D c (i0 + c * (D - 2)) j0 (B.pl iv) (contBlock D c i0 j0 true (B.dl iv) m)))
    (c := comp) (j := j) hc (by omega)
  rw [e2, show c * (2 * h) = 2 * (c * h) by ring] at this
  rw [e2, show c * (2 * h) = 2 * (c * h) by ring, this, posBlock_other (by omega), posBlock_other (by omega), contBlock_other (by rw [e4]; omega)]
  simp

theorem midM_high (hD : D = 2 * h + 2) {r : ℕ} (hr : i0 + 4 * (c * h) + 2 * c ≤ r) : midM D c i0 j0 iv B m r = m r := by
  obtain ⟨e1, e2, e3, e4, e5⟩ := half_eq (c := c) hD
  unfold midM
  rw [contBlock_other (by omega), posBlock_other (by omega), posBlock_other (by omega), contBlock_other (by omega)]

/-! Last interval. -/

theorem finM_low {r : ℕ} (hr : r < i0) : finM D c i0 j0 iv B m r = m r := by
  unfold finM
  rw [posBlock_other (by omega), bndBlock_other (by omega), posBlock_other (by omega), contBlock_other (by omega)]

theorem finM_join (hD : D = 2 * h + 2) {comp j : ℕ} (hc : comp < c) (hj : j < 2 * h) :
    finM D c i0 j0 iv B m (i0 + comp * (2 * h) + j) = upd (j0 + D * comp) D (fun k => -1 * B.dl iv k j) (m (i0 + comp * (2 * h) + j)) := by
  obtain ⟨e1, e2, e3, e4, e5⟩ := half_eq (c := c) hD
  have := comp_lt2 hc hj
  unfold finM
  rw [posBlock_other (by omega), bndBlock_other (by omega), posBlock_other (by omega)]
  have := contBlock_row (dim := D) (codim := c) (i0 := i0) (j0 := j0) (minus := true) (d := B.dl iv) (m := m) (c := comp) (j := j) hc (by omega)
  rw [e2] at this
  rw [this]
  simp

theorem finM_start (hD : D = 2 * h + 2) {comp : ℕ} (hc : comp < c) :
    finM D c i0 j0 iv B m (i0 + 2 * (c * h) + comp) = upd (j0 + D * comp) D (B.pl iv) (m (i0 + 2 * (c * h) + comp)) := by
  obtain ⟨e1, e2, e3, e4, e5⟩ := half_eq (c := c) hD
  unfold finM
  rw [posBlock_other (by omega), bndBlock_other (by omega), e4, posBlock_row hc, contBlock_other (by omega)]

theorem finM_rest (hD : D = 2 * h + 2) {comp j : ℕ} (hc : comp < c) (hj : j < h) :
    finM D c i0 j0 iv B m (i0 + 2 * (c * h) + c + comp * h + j) =
      upd (j0 + D * comp) D (fun k => B.dr iv k j) (m (i0 + 2 * (c * h) + c + comp * h + j)) := by
  obtain ⟨e1, e2, e3, e4, e5⟩ := half_eq (c := c) hD
  have := comp_lt hc hj
  unfold finM
  rw [posBlock_other (by omega)]
  have := bndBlock_row (dim := D) (codim := c) (i0 := i0 + c * (D - 2) + c) (j0 := j0) (d := B.dr iv)
    (m := posBlock D c (i0 + c * (D - 2)) j0 (B.pl iv) (contBlock D c i0 j0 true (B.dl iv) m)) (c := comp) (j := j) hc (by omega)
  rw [e1, e4] at this
  rw [e4, this, posBlock_other (by omega), contBlock_other (by omega)]

theorem finM_stop (hD : D = 2 * h + 2) {comp : ℕ} (hc : comp < c) :
    finM D c i0 j0 iv B m (i0 + 3 * (c * h) + c + comp) = upd (j0 + D * comp) D (B.pr iv) (m (i0 + 3 * (c * h) + c + comp)) := by
  obtain ⟨e1, e2, e3, e4, e5⟩ := half_eq (c := c) hD
  unfold finM
  have e : i0 + 3 * (c * h) + c + comp = i0 + c * (D - 2) + c + c * (D / 2 - 1) + comp := by omega
  rw [e, posBlock_row hc, bndBlock_other (by omega), posBlock_other (by omega), contBlock_other (by omega)]

theorem finM_high (hD : D = 2 * h + 2) {r : ℕ} (hr : i0 + 3 * (c * h) + 2 * c ≤ r) : finM D c i0 j0 iv B m r = m r := by
  obtain ⟨e1, e2, e3, e4, e5⟩ := half_eq (c := c) hD
  unfold finM
  rw [posBlock_other (by omega), bndBlock_other (by omega), posBlock_other (by omega), contBlock_other (by omega)]

end

/-- What the rows of the matrix are after filling: in each row the entries of the blocks were replaced. -/
structure Filled (D c n h : ℕ) (B : Bufs) (m0 m : Mat) : Prop where
  start : ∀ iv < n, ∀ comp < c, m (rowStart c D iv + comp) = upd (iv * (c * D) + D * comp) D (B.pl iv) (m0 (rowStart c D iv + comp))
  stop : ∀ iv < n, ∀ comp < c, m (rowStop c D n iv + comp) = upd (iv * (c * D) + D * comp) D (B.pr iv) (m0 (rowStop c D n iv + comp))
  restL : ∀ comp < c, ∀ j < h, m (c + comp * h + j) = upd (D * comp) D (fun k => B.dl 0 k j) (m0 (c + comp * h + j))
  restR : ∀ comp < c, ∀ j < h, m (rowRest c D n + comp * h + j) =
    upd ((n - 1) * (c * D) + D * comp) D (fun k => B.dr (n - 1) k j) (m0 (rowRest c D n + comp * h + j))
  join : ∀ iv, iv + 1 < n → ∀ comp < c, ∀ j < 2 * h, m (rowJoin c D iv + comp * (2 * h) + j) =
    upd ((iv + 1) * (c * D) + D * comp) D (fun k => -1 * B.dl (iv + 1) k j)
      (upd (iv * (c * D) + D * comp) D (fun k => B.dr iv k j) (m0 (rowJoin c D iv + comp * (2 * h) + j)))

/-- The whole matrix, with buffers that are given. -/
def fillP (D c n : ℕ) (B : Bufs) (m : Mat) : Mat :=
  if n = 1 then bndBlock D c (c + c * (D / 2 - 1) + c) 0 (B.dr 0) (firstM D c B m)
  else
    let st := forLoop 1 (n - 1) (fun iv (st : Mat × ℕ × ℕ) =>
      (midM D c st.2.1 st.2.2 iv B st.1, st.2.1 + c * (D - 2) + c + c, st.2.2 + c * D))
      (contBlock D c (c + c * (D / 2 - 1) + c) 0 false (B.dr 0) (firstM D c B m), c + c * (D / 2 - 1) + c, c * D)
    finM D c st.2.1 st.2.2 (n - 1) B st.1

/-- State before interval `iv + 1` is treated. -/
structure MidInv (D c h : ℕ) (B : Bufs) (m0 : Mat) (iv : ℕ) (st : Mat × ℕ × ℕ) : Prop where
  hi : st.2.1 = iv * (c * D) + 2 * c + c * h
  hj : st.2.2 = (iv + 1) * (c * D)
  start : ∀ i ≤ iv, ∀ comp < c, st.1 (rowStart c D i + comp) = upd (i * (c * D) + D * comp) D (B.pl i) (m0 (rowStart c D i + comp))
  stop : ∀ i ≤ iv, ∀ comp < c, st.1 (i * (c * D) + c + c * h + comp) = upd (i * (c * D) + D * comp) D (B.pr i) (m0 (i * (c * D) + c + c * h + comp))
  restL : ∀ comp < c, ∀ j < h, st.1 (c + comp * h + j) = upd (D * comp) D (fun k => B.dl 0 k j) (m0 (c + comp * h + j))
  join : ∀ i < iv, ∀ comp < c, ∀ j < 2 * h, st.1 (rowJoin c D i + comp * (2 * h) + j) =
    upd ((i + 1) * (c * D) + D * comp) D (fun k => -1 * B.dl (i + 1) k j)
      (upd (i * (c * D) + D * comp) D (fun k => B.dr i k j) (m0 (rowJoin c D i + comp * (2 * h) + j)))
  half : ∀ comp < c, ∀ j < 2 * h, st.1 (rowJoin c D iv + comp * (2 * h) + j) =
    upd (iv * (c * D) + D * comp) D (fun k => B.dr iv k j) (m0 (rowJoin c D iv + comp * (2 * h) + j))
  high : ∀ r, iv * (c * D) + 2 * c + 3 * (c * h) ≤ r → st.1 r = m0 r

theorem succ_mul_le {a b K : ℕ} (h : a < b) : a * K + K ≤ b * K := by
  have : (a + 1) * K ≤ b * K := Nat.mul_le_mul_right _ h
  have e : (a + 1) * K = a * K + K := by ring
  omega

theorem rowStart_lt {c D h : ℕ} (hD : D = 2 * h + 2) {i iv comp : ℕ} (hi : i ≤ iv) (hc : comp < c) :
    rowStart c D i + comp < iv * (c * D) + 2 * c + c * h := by
  obtain ⟨e1, e2, e3, e4, e5⟩ := half_eq (c := c) hD
  have : i * (c * D) ≤ iv * (c * D) := Nat.mul_le_mul_right _ hi
  unfold rowStart
  split_ifs <;> omega

theorem midInv_first {D c h : ℕ} {B : Bufs} {m0 : Mat} (hD : D = 2 * h + 2) :
    MidInv D c h B m0 0 (contBlock D c (c + c * (D / 2 - 1) + c) 0 false (B.dr 0) (firstM D c B m0), c + c * (D / 2 - 1) + c, c * D) := by
  obtain ⟨e1, e2, e3, e4, e5⟩ := half_eq (c := c) hD
  refine ⟨by simp only; omega, by simp only; omega, ?_, ?_, ?_, ?_, ?_, ?_⟩
  · intro i hi comp hc
    have : i = 0 := by omega
    subst this
    simp only [rowStart, Nat.zero_mul, if_true, Nat.zero_add]
    rw [contBlock_other (by omega), firstM_start hD hc]
  · intro i hi comp hc
    have : i = 0 := by omega
    subst this
    simp only [Nat.zero_mul, Nat.zero_add]
    rw [contBlock_other (by omega), firstM_stop hD hc]
  · intro comp hc j hj
    have := comp_lt hc hj
    simp only
    rw [contBlock_other (by omega), firstM_rest hD hc hj]
  · intro i hi; omega
  · intro comp hc j hj
    have := comp_lt2 hc hj
    simp only [rowJoin, Nat.zero_mul, Nat.zero_add, e3]
    have := contBlock_row (dim := D) (codim := c) (i0 := c + c * h + c) (j0 := 0) (minus := false) (d := B.dr 0)
      (m := firstM D c B m0) (c := comp) (j := j) hc (by omega)
    rw [e2] at this
    rw [show 2 * c + c * h + comp * (2 * h) + j = c + c * h + c + comp * (2 * h) + j by omega, this, firstM_high hD (by omega)]
    simp
  · intro r hr
    simp only
    rw [contBlock_other (by omega), firstM_high hD (by omega)]

theorem midInv_step {D c h : ℕ} {B : Bufs} {m0 : Mat} (hD : D = 2 * h + 2) {iv : ℕ} {st : Mat × ℕ × ℕ} (H : MidInv D c h B m0 iv st) :
    MidInv D c h B m0 (iv + 1) (midM D c st.2.1 st.2.2 (iv + 1) B st.1, st.2.1 + c * (D - 2) + c + c, st.2.2 + c * D) := by
  obtain ⟨e1, e2, e3, e4, e5⟩ := half_eq (c := c) hD
  have es : (iv + 1) * (c * D) = iv * (c * D) + c * D := by ring
  have hi := H.hi
  have hj := H.hj
  refine ⟨by simp only; omega, by simp only [hj]; ring, ?_, ?_, ?_, ?_, ?_, ?_⟩
  · intro i hi' comp hc
    simp only
    rcases Nat.lt_or_ge iv i with hlt | hle
    · have : i = iv + 1 := by omega
      subst this
      have er : rowStart c D (iv + 1) + comp = st.2.1 + 2 * (c * h) + comp := by
        unfold rowStart
        rw [if_neg (by omega)]
        omega
      rw [er, midM_start hD hc, H.high _ (by omega), hj]
    · rw [midM_low (by rw [hi]; exact rowStart_lt hD hle hc), H.start i hle comp hc]
  · intro i hi' comp hc
    simp only
    rcases Nat.lt_or_ge iv i with hlt | hle
    · have : i = iv + 1 := by omega
      subst this
      have er : (iv + 1) * (c * D) + c + c * h + comp = st.2.1 + 2 * (c * h) + c + comp := by omega
      rw [er, midM_stop hD hc, H.high _ (by omega), hj]
    · have := Nat.mul_le_mul_right (c * D) hle
      rw [midM_low (by omega), H.stop i hle comp hc]
  · intro comp hc j hj'
    have := comp_lt hc hj'
    simp only
    rw [midM_low (by omega), H.restL comp hc j hj']
  · intro i hi' comp hc j hj'
    have := comp_lt2 hc hj'
    simp only
    rcases Nat.lt_or_ge i iv with hlt | hle
    · have := succ_mul_le (K := c * D) hlt
      rw [midM_low (by unfold rowJoin; omega), H.join i hlt comp hc j hj']
    · have : i = iv := by omega
      subst this
      have er : rowJoin c D i + comp * (2 * h) + j = st.2.1 + comp * (2 * h) + j := by unfold rowJoin; omega
      have := H.half comp hc j hj'
      rw [er] at this ⊢
      rw [midM_join hD hc hj', this, hj]
  · intro comp hc j hj'
    have := comp_lt2 hc hj'
    simp only
    have er : rowJoin c D (iv + 1) + comp * (2 * h) + j = st.2.1 + 2 * (c * h) + c + c + comp * (2 * h) + j := by unfold rowJoin; omega
    rw [er, midM_half hD hc hj', H.high _ (by omega), hj]
  · intro r hr
    simp only
    rw [midM_high hD (by omega), H.high _ (by omega)]

theorem filled_fillP {D c n h : ℕ} (B : Bufs) (m0 : Mat) (hD : D = 2 * h + 2) (hn : 0 < n) : Filled D c n h B m0 (fillP D c n B m0) := by
  obtain ⟨e1, e2, e3, e4, e5⟩ := half_eq (c := c) hD
  unfold fillP
  by_cases h1 : n = 1
  · rw [if_pos h1]
    subst h1
    refine ⟨?_, ?_, ?_, ?_, ?_⟩
    · intro iv hiv comp hc
      have : iv = 0 := by omega
      subst this
      simp only [rowStart, Nat.zero_mul, if_true, Nat.zero_add]
      rw [bndBlock_other (by omega), firstM_start hD hc]
    · intro iv hiv comp hc
      have : iv = 0 := by omega
      subst this
      simp only [rowStop, Nat.zero_mul, Nat.zero_add, ne_eq, not_true_eq_false, false_and, if_false, Nat.add_zero, e3]
      rw [bndBlock_other (by omega), firstM_stop hD hc]
    · intro comp hc j hj
      have := comp_lt hc hj
      rw [bndBlock_other (by omega), firstM_rest hD hc hj]
    · intro comp hc j hj
      have := comp_lt hc hj
      simp only [rowRest, if_true, Nat.sub_self, Nat.zero_mul, Nat.zero_add]
      have := bndBlock_row (dim := D) (codim := c) (i0 := c + c * h + c) (j0 := 0) (d := B.dr 0) (m := firstM D c B m0) (c := comp) (j := j) hc (by omega)
      rw [e1, Nat.zero_add] at this
      rw [e1, show 2 * c + c * h + comp * h + j = c + c * h + c + comp * h + j by omega, this, firstM_high hD (by omega)]
    · intro iv hiv; omega
  · rw [if_neg h1]
    obtain ⟨q, rfl⟩ : ∃ q, n = q + 2 := ⟨n - 2, by omega⟩
    have H := forLoop_ind (fun i st => MidInv D c h B m0 (i - 1) st) (show 1 ≤ q + 2 - 1 by omega)
      (fun iv (st : Mat × ℕ × ℕ) => (midM D c st.2.1 st.2.2 iv B st.1, st.2.1 + c * (D - 2) + c + c, st.2.2 + c * D))
      (contBlock D c (c + c * (D / 2 - 1) + c) 0 false (B.dr 0) (firstM D c B m0), c + c * (D / 2 - 1) + c, c * D)
      (midInv_first hD) (fun i st hi1 hi2 hm => by
        obtain ⟨i, rfl⟩ : ∃ k, i = k + 1 := ⟨i - 1, by omega⟩
        exact midInv_step hD hm)
    dsimp only
    set st := forLoop 1 (q + 2 - 1) (fun iv (st : Mat × ℕ × ℕ) =>
      (midM D c st.2.1 st.2.2 iv B st.1, st.2.1 + c * (D - 2) + c + c, st.2.2 + c * D))
      (contBlock D c (c + c * (D / 2 - 1) + c) 0 false (B.dr 0) (firstM D c B m0), c + c * (D / 2 - 1) + c, c * D) with hst
    rw [show q + 2 - 1 - 1 = q by omega] at H
    have hi := H.hi
    have hj := H.hj
    have es : (q + 1) * (c * D) = q * (c * D) + c * D := by ring
    have en : q + 2 - 1 = q + 1 := by omega
    rw [en]
    refine ⟨?_, ?_, ?_, ?_, ?_⟩
    · intro iv hiv comp hc
      rcases Nat.lt_or_ge q iv with hlt | hle
      · have : iv = q + 1 := by omega
        subst this
        have er : rowStart c D (q + 1) + comp = st.2.1 + 2 * (c * h) + comp := by
          unfold rowStart
          rw [if_neg (by omega)]
          omega
        rw [er, finM_start hD hc, H.high _ (by omega), hj]
      · rw [finM_low (by rw [hi]; exact rowStart_lt hD hle hc), H.start iv hle comp hc]
    · intro iv hiv comp hc
      rcases Nat.lt_or_ge q iv with hlt | hle
      · have : iv = q + 1 := by omega
        subst this
        have er : rowStop c D (q + 2) (q + 1) + comp = st.2.1 + 3 * (c * h) + c + comp := by
          unfold rowStop
          rw [if_pos ⟨by omega, by omega⟩]
          omega
        rw [er, finM_stop hD hc, H.high _ (by omega), hj]
      · have := Nat.mul_le_mul_right (c * D) hle
        have er : rowStop c D (q + 2) iv + comp = iv * (c * D) + c + c * h + comp := by
          unfold rowStop
          rw [if_neg (by omega)]
          omega
        rw [er, finM_low (by omega), H.stop iv hle comp hc]
    · intro comp hc j hj'
      have := comp_lt hc hj'
      rw [finM_low (by omega), H.restL comp hc j hj']
    · intro comp hc j hj'
      have := comp_lt hc hj'
      have er : rowRest c D (q + 2) + comp * h + j = st.2.1 + 2 * (c * h) + c + comp * h + j := by
        unfold rowRest
        rw [if_neg (by omega), en]
        omega
      rw [er, finM_rest hD hc hj', H.high _ (by omega), hj, en]
    · intro iv hiv comp hc j hj'
      have := comp_lt2 hc hj'
      rcases Nat.lt_or_ge iv q with hlt | hle
      · have := succ_mul_le (K := c * D) hlt
        rw [finM_low (by unfold rowJoin; omega), H.join iv hlt comp hc j hj']
      · have : iv = q := by omega
        subst this
        have er : rowJoin c D iv + comp * (2 * h) + j = st.2.1 + comp * (2 * h) + j := by unfold rowJoin; omega
        have := H.half comp hc j hj'
        rw [er] at this ⊢
        rw [finM_join hD hc hj', this, hj]

end GSplines.Interp
