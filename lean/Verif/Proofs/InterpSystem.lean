import Verif.Proofs.InterpRows

/-!
# The interpolation matrix, its derivatives and the right hand side, row by row
-/

namespace GSplines.Interp

open GSplines Spec

theorem upd_upd (a len : ℕ) (F G f : ℕ → ℝ) : upd a len F (upd a len G f) = upd a len F f := by
  funext col
  unfold upd
  split_ifs <;> rfl

theorem upd_comm {a b len : ℕ} (h : a + len ≤ b ∨ b + len ≤ a) (F G f : ℕ → ℝ) : upd a len F (upd b len G f) = upd b len G (upd a len F f) := by
  funext col
  unfold upd
  by_cases h1 : a ≤ col ∧ col < a + len
  · rw [if_pos h1, if_neg (by omega), if_pos h1]
  · rw [if_neg h1]
    by_cases h2 : b ≤ col ∧ col < b + len
    · rw [if_pos h2, if_pos h2]
    · rw [if_neg h2, if_neg h2, if_neg h1]

/-- The entries that filling writes into the row of a condition, over a row `f`. -/
def over {n c h : ℕ} (B : Bufs) (x : Cond n c h) (f : ℕ → ℝ) : ℕ → ℝ :=
  let D := 2 * h + 2
  match x with
  | .start iv comp => upd (iv * (c * D) + D * comp) D (B.pl iv) f
  | .stop iv comp => upd (iv * (c * D) + D * comp) D (B.pr iv) f
  | .restL comp j => upd (D * comp) D (fun k => B.dl 0 k j) f
  | .restR comp j => upd ((n - 1) * (c * D) + D * comp) D (fun k => B.dr (n - 1) k j) f
  | .join iv comp j => upd ((iv + 1) * (c * D) + D * comp) D (fun k => -1 * B.dl (iv + 1) k j)
      (upd (iv * (c * D) + D * comp) D (fun k => B.dr iv k j) f)

/-- Only entries that filling writes are not zero. -/
def Clean (n c h : ℕ) (m : Mat) : Prop := ∀ x : Cond n c h, ∃ B : Bufs, m (row n c h x) = over B x fun _ => 0

theorem seg_apart {c D iv comp : ℕ} (hc : comp < c) : iv * (c * D) + D * comp + D ≤ (iv + 1) * (c * D) + D * comp := by
  have e : (iv + 1) * (c * D) = iv * (c * D) + c * D := by ring
  have : 1 * D ≤ c * D := Nat.mul_le_mul_right _ (by omega)
  omega

theorem over_over {n c h : ℕ} (B B' : Bufs) (x : Cond n c h) (f : ℕ → ℝ) : over B x (over B' x f) = over B x f := by
  cases x with
  | join iv comp j =>
    simp only [over]
    funext col
    unfold upd
    split_ifs <;> rfl
  | _ => simp only [over, upd_upd]

theorem clean_zero (n c h : ℕ) : Clean n c h Mat.zero := by
  intro x
  refine ⟨⟨fun _ _ => 0, fun _ _ _ => 0, fun _ _ => 0, fun _ _ _ => 0⟩, ?_⟩
  funext col
  cases x <;> simp [over, upd, Mat.zero]

theorem fillP_rows {n c h : ℕ} (B : Bufs) {m0 : Mat} (hn : 0 < n) (hm : Clean n c h m0) (x : Cond n c h) :
    fillP (2 * h + 2) c n B m0 (row n c h x) = over B x fun _ => 0 := by
  have F := filled_fillP (D := 2 * h + 2) (c := c) (n := n) (h := h) B m0 rfl hn
  obtain ⟨B', hB'⟩ := hm x
  have key : fillP (2 * h + 2) c n B m0 (row n c h x) = over B x (m0 (row n c h x)) := by
    cases x with
    | start iv comp => exact F.start iv iv.2 comp comp.2
    | stop iv comp => exact F.stop iv iv.2 comp comp.2
    | restL comp j => exact F.restL comp comp.2 j j.2
    | restR comp j => exact F.restR comp comp.2 j j.2
    | join iv comp j => exact F.join iv (by have := iv.2; omega) comp comp.2 j j.2
  rw [key, hB', over_over]

/-! ## The derivative matrices -/

open Classical in
/-- The entries written for interval `idx` alone. -/
noncomputable def overI {n c h : ℕ} (idx : ℕ) (B : Bufs) (x : Cond n c h) (f : ℕ → ℝ) : ℕ → ℝ :=
  let D := 2 * h + 2
  match x with
  | .start iv comp => if iv.1 = idx then upd (iv * (c * D) + D * comp) D (B.pl iv) f else f
  | .stop iv comp => if iv.1 = idx then upd (iv * (c * D) + D * comp) D (B.pr iv) f else f
  | .restL comp j => if 0 = idx then upd (D * comp) D (fun k => B.dl 0 k j) f else f
  | .restR comp j => if n - 1 = idx then upd ((n - 1) * (c * D) + D * comp) D (fun k => B.dr (n - 1) k j) f else f
  | .join iv comp j =>
    if iv.1 + 1 = idx then upd ((iv + 1) * (c * D) + D * comp) D (fun k => -1 * B.dl (iv + 1) k j) f
    else if iv.1 = idx then upd (iv * (c * D) + D * comp) D (fun k => B.dr iv k j) f
    else f

/-- Only entries that filling for interval `idx` writes are not zero. -/
def CleanI (n c h idx : ℕ) (m : Mat) : Prop := ∀ x : Cond n c h, ∃ B : Bufs, m (row n c h x) = overI idx B x fun _ => 0

theorem overI_overI {n c h idx : ℕ} (B B' : Bufs) (x : Cond n c h) (f : ℕ → ℝ) : overI idx B x (overI idx B' x f) = overI idx B x f := by
  cases x <;> simp only [overI] <;> split_ifs <;> simp only [upd_upd]

theorem cleanI_zero (n c h idx : ℕ) : CleanI n c h idx Mat.zero := by
  intro x
  refine ⟨⟨fun _ _ => 0, fun _ _ _ => 0, fun _ _ => 0, fun _ _ _ => 0⟩, ?_⟩
  funext col
  cases x <;> simp only [overI] <;> split_ifs <;> simp [upd, Mat.zero]

/-- The derivative matrix, with buffers that are given. -/
def derP (D c n idx : ℕ) (B : Bufs) (m : Mat) : Mat :=
  if idx = 0 then
    if n = 1 then bndBlock D c (c + c * (D / 2 - 1) + c) 0 (B.dr 0) (firstM D c B m)
    else contBlock D c (c + c * (D / 2 - 1) + c) 0 false (B.dr 0) (firstM D c B m)
  else if 0 < idx ∧ idx < n - 1 then
    midM D c (2 * c + c * (D / 2 - 1) + (c * (D - 2) + 2 * c) * (idx - 1)) (idx * D * c) idx B m
  else finM D c ((D / 2 + 1) * c + D * c * (idx - 1)) (idx * D * c) idx B m

theorem derP_over {n c h idx : ℕ} (B : Bufs) (m0 : Mat) (hi : idx < n) (x : Cond n c h) :
    derP (2 * h + 2) c n idx B m0 (row n c h x) = overI idx B x (m0 (row n c h x)) := by
  have hn : 0 < n := by omega
  obtain ⟨D, hD⟩ : ∃ D, D = 2 * h + 2 := ⟨_, rfl⟩
  obtain ⟨e1, e2, e3, e4, e5⟩ := half_eq (c := c) hD
  unfold derP
  rw [← hD]
  by_cases h0 : idx = 0
  · subst h0
    rw [if_pos rfl]
    by_cases h1 : n = 1
    · rw [if_pos h1]
      subst h1
      have F := filled_fillP (D := D) (c := c) (n := 1) (h := h) B m0 hD Nat.one_pos
      unfold fillP at F
      rw [if_pos rfl] at F
      cases x with
      | start iv comp =>
        have e : iv.1 = 0 := by omega
        simp only [overI, if_pos e, row, ← hD]
        exact F.start iv iv.2 comp comp.2
      | stop iv comp =>
        have e : iv.1 = 0 := by omega
        simp only [overI, if_pos e, row, ← hD]
        exact F.stop iv iv.2 comp comp.2
      | restL comp j => simp only [overI, if_true, row, ← hD]; exact F.restL comp comp.2 j j.2
      | restR comp j => simp only [overI, Nat.sub_self, if_true, row, ← hD]; exact F.restR comp comp.2 j j.2
      | join iv comp j => exact absurd iv.2 (by omega)
    · rw [if_neg h1]
      have I := midInv_first (D := D) (c := c) (h := h) (B := B) (m0 := m0) hD
      cases x with
      | start iv comp =>
        simp only [overI, row, ← hD]
        split_ifs with e
        · have := I.start iv (by omega) comp comp.2
          exact this
        · have h2 := I.high (rowStart c D iv + comp) (by
            have := succ_mul_le (K := c * D) (a := 0) (b := iv) (by omega)
            unfold rowStart; rw [if_neg e]; omega)
          exact h2
      | stop iv comp =>
        simp only [overI, row, ← hD]
        split_ifs with e
        · have := I.stop iv (by omega) comp comp.2
          have er : rowStop c D n iv + comp = iv * (c * D) + c + c * h + comp := by
            unfold rowStop; rw [if_neg (by omega)]; omega
          rw [er]; exact this
        · refine I.high (rowStop c D n iv + comp) ?_
          have := succ_mul_le (K := c * D) (a := 0) (b := iv) (by omega)
          unfold rowStop; omega
      | restL comp j => simp only [overI, if_true, row, ← hD]; exact I.restL comp comp.2 j j.2
      | restR comp j =>
        simp only [overI, row, ← hD]
        rw [if_neg (by omega)]
        refine I.high _ ?_
        have := succ_mul_le (K := c * D) (a := 0) (b := n - 1) (by omega)
        unfold rowRest; rw [if_neg h1]; omega
      | join iv comp j =>
        simp only [overI, row, ← hD]
        rw [if_neg (by omega)]
        split_ifs with e
        · have := I.half comp comp.2 j j.2
          rw [e]; exact this
        · refine I.high _ ?_
          have := succ_mul_le (K := c * D) (a := 0) (b := iv) (by omega)
          unfold rowJoin; omega
  · rw [if_neg h0]
    obtain ⟨q, rfl⟩ : ∃ q, idx = q + 1 := ⟨idx - 1, by omega⟩
    have es : (q + 1) * (c * D) = q * (c * D) + c * D := by ring
    have ej : (q + 1) * D * c = (q + 1) * (c * D) := by ring
    have ei : 2 * c + c * (D / 2 - 1) + (c * (D - 2) + 2 * c) * (q + 1 - 1) = q * (c * D) + 2 * c + c * h := by
      rw [Nat.add_sub_cancel, show c * (D - 2) + 2 * c = c * D by omega, e3]; ring
    have ei' : (D / 2 + 1) * c + D * c * (q + 1 - 1) = q * (c * D) + 2 * c + c * h := by
      rw [Nat.add_sub_cancel, show D / 2 + 1 = h + 2 by omega]; ring
    rw [ei, ei', ej]
    generalize hi0 : q * (c * D) + 2 * c + c * h = i0
    by_cases hm : 0 < q + 1 ∧ q + 1 < n - 1
    · rw [if_pos hm]
      cases x with
      | start iv comp =>
        have hc := comp.2
        simp only [overI, row, ← hD]
        split_ifs with e
        · have er : rowStart c D iv + comp = i0 + 2 * (c * h) + comp := by unfold rowStart; rw [e, if_neg (by omega)]; omega
          rw [er, midM_start hD comp.2, e]
        · rcases Nat.lt_or_gt_of_ne e with hlt | hgt
          · exact midM_low (by rw [← hi0]; exact rowStart_lt hD (by omega) hc)
          · have := succ_mul_le (K := c * D) hgt
            exact midM_high hD (by unfold rowStart; rw [if_neg (by omega)]; omega)
      | stop iv comp =>
        have hc := comp.2
        simp only [overI, row, ← hD]
        split_ifs with e
        · have er : rowStop c D n iv + comp = i0 + 2 * (c * h) + c + comp := by unfold rowStop; rw [e, if_neg (by omega)]; omega
          rw [er, midM_stop hD comp.2, e]
        · rcases Nat.lt_or_gt_of_ne e with hlt | hgt
          · have := succ_mul_le (K := c * D) hlt
            exact midM_low (by unfold rowStop; rw [if_neg (by omega)]; omega)
          · have := succ_mul_le (K := c * D) hgt
            exact midM_high hD (by unfold rowStop; omega)
      | restL comp j =>
        have := comp_lt comp.2 j.2
        simp only [overI, row]
        rw [if_neg (by omega)]
        exact midM_low (by omega)
      | restR comp j =>
        simp only [overI, row, ← hD]
        rw [if_neg (by omega)]
        have := succ_mul_le (K := c * D) (a := q + 1) (b := n - 1) (by omega)
        exact midM_high hD (by unfold rowRest; rw [if_neg (by omega)]; omega)
      | join iv comp j =>
        have := comp_lt2 comp.2 j.2
        simp only [overI, row, ← hD]
        by_cases ea : iv.1 + 1 = q + 1
        · rw [if_pos ea]
          have e : iv.1 = q := by omega
          have er : rowJoin c D iv + comp * (2 * h) + j = i0 + comp * (2 * h) + j := by unfold rowJoin; rw [e]; omega
          rw [er, midM_join hD comp.2 j.2, e]
        · rw [if_neg ea]
          split_ifs with e
          · have er : rowJoin c D iv + comp * (2 * h) + j = i0 + 2 * (c * h) + c + c + comp * (2 * h) + j := by unfold rowJoin; rw [e]; omega
            rw [er, midM_half hD comp.2 j.2, e]
          · rcases Nat.lt_or_gt_of_ne e with hlt | hgt
            · have := succ_mul_le (K := c * D) (a := iv) (b := q) (by omega)
              exact midM_low (by unfold rowJoin; omega)
            · have := succ_mul_le (K := c * D) hgt
              exact midM_high hD (by unfold rowJoin; omega)
    · rw [if_neg hm]
      have hq : n = q + 2 := by omega
      subst hq
      have en : q + 2 - 1 = q + 1 := by omega
      cases x with
      | start iv comp =>
        have hc := comp.2
        simp only [overI, row, ← hD]
        split_ifs with e
        · have er : rowStart c D iv + comp = i0 + 2 * (c * h) + comp := by unfold rowStart; rw [e, if_neg (by omega)]; omega
          rw [er, finM_start hD comp.2, e]
        · exact finM_low (by rw [← hi0]; exact rowStart_lt hD (by omega) hc)
      | stop iv comp =>
        have hc := comp.2
        simp only [overI, row, ← hD]
        split_ifs with e
        · have er : rowStop c D (q + 2) iv + comp = i0 + 3 * (c * h) + c + comp := by
            unfold rowStop; rw [e, if_pos ⟨by omega, by omega⟩]; omega
          rw [er, finM_stop hD comp.2, e]
        · have := succ_mul_le (K := c * D) (a := iv) (b := q + 1) (by omega)
          exact finM_low (by unfold rowStop; rw [if_neg (by omega)]; omega)
      | restL comp j =>
        have := comp_lt comp.2 j.2
        simp only [overI, row]
        rw [if_neg (by omega)]
        exact finM_low (by omega)
      | restR comp j =>
        simp only [overI, row, ← hD, en, if_true]
        have er : rowRest c D (q + 2) + comp * h + j = i0 + 2 * (c * h) + c + comp * h + j := by
          unfold rowRest; rw [if_neg (by omega), en]; omega
        rw [er, finM_rest hD comp.2 j.2]
      | join iv comp j =>
        have := comp_lt2 comp.2 j.2
        simp only [overI, row, ← hD]
        by_cases ea : iv.1 + 1 = q + 1
        · rw [if_pos ea]
          have e : iv.1 = q := by omega
          have er : rowJoin c D iv + comp * (2 * h) + j = i0 + comp * (2 * h) + j := by unfold rowJoin; rw [e]; omega
          rw [er, finM_join hD comp.2 j.2, e]
        · rw [if_neg ea, if_neg (by have := iv.2; omega)]
          have := succ_mul_le (K := c * D) (a := iv) (b := q) (by have := iv.2; omega)
          exact finM_low (by unfold rowJoin; omega)

theorem derP_rows {n c h idx : ℕ} (B : Bufs) {m0 : Mat} (hi : idx < n) (hm : CleanI n c h idx m0) (x : Cond n c h) :
    derP (2 * h + 2) c n idx B m0 (row n c h x) = overI idx B x fun _ => 0 := by
  obtain ⟨B', hB'⟩ := hm x
  rw [derP_over B m0 hi x, hB', overI_overI]

end GSplines.Interp
