import Verif.Spec.Special

/-!
# The arithmetic of doubles and the extended real numbers
-/

namespace GSplines.DblArith

open GSplines Spec Dbl

theorem add_nan_iff (x y : Dbl) : x + y = nan ↔ x = nan ∨ y = nan ∨ ∃ s, x = .inf s ∧ y = .inf (!s) := by
  change Dbl.add x y = nan ↔ _
  cases x with
  | nan => simp [Dbl.add]
  | fin x => cases y <;> simp [Dbl.add]
  | inf a => cases y with
    | nan => simp [Dbl.add]
    | fin y => simp [Dbl.add]
    | inf b => cases a <;> cases b <;> simp [Dbl.add]

theorem add_ext (x y : Dbl) (h : x + y ≠ nan) : ext (x + y) = ext x + ext y := by
  change ext (Dbl.add x y) = _
  change Dbl.add x y ≠ nan at h
  cases x with
  | nan => simp [Dbl.add] at h
  | fin x => cases y with
    | nan => simp [Dbl.add] at h
    | fin y => simp [Dbl.add, ext]
    | inf b => cases b <;> simp [Dbl.add, ext]
  | inf a => cases y with
    | nan => simp [Dbl.add] at h
    | fin y => cases a <;> simp [Dbl.add, ext]
    | inf b => cases a <;> cases b <;> simp [Dbl.add, ext] at h ⊢

theorem neg_ext (y : Dbl) : ext (Dbl.neg y) = - ext y := by
  cases y with
  | nan => simp [Dbl.neg, ext]
  | fin y => simp [Dbl.neg, ext]
  | inf b => cases b <;> simp [Dbl.neg, ext]

theorem sub_nan_iff (x y : Dbl) : x - y = nan ↔ x = nan ∨ y = nan ∨ ∃ s, x = .inf s ∧ y = .inf s := by
  change x + Dbl.neg y = nan ↔ _
  rw [add_nan_iff]
  cases y with
  | nan => simp [Dbl.neg]
  | fin y => simp [Dbl.neg]
  | inf b => simp [Dbl.neg]

theorem mul_nan_iff (x y : Dbl) : x * y = nan ↔ x = nan ∨ y = nan ∨ (x = fin 0 ∧ ∃ s, y = .inf s) ∨ ((∃ s, x = .inf s) ∧ y = fin 0) := by
  change Dbl.mul x y = nan ↔ _
  cases x with
  | nan => simp [Dbl.mul]
  | fin x => cases y <;> simp [Dbl.mul]
  | inf a => cases y <;> simp [Dbl.mul]

theorem mul_ext (x y : Dbl) (h : x * y ≠ nan) : ext (x * y) = ext x * ext y := by
  change ext (Dbl.mul x y) = _
  change Dbl.mul x y ≠ nan at h
  cases x with
  | nan => simp [Dbl.mul] at h
  | fin x => cases y with
    | nan => simp [Dbl.mul] at h
    | fin y => simp [Dbl.mul, ext]
    | inf b =>
      have h0 : x ≠ 0 := by rintro rfl; simp [Dbl.mul] at h
      rcases lt_or_gt_of_ne h0 with hx | hx
      · cases b <;> simp [Dbl.mul, ext, h0, hx, EReal.coe_mul_top_of_neg, EReal.coe_mul_bot_of_neg]
      · cases b <;> simp [Dbl.mul, ext, h0, not_lt.mpr hx.le, EReal.coe_mul_top_of_pos hx, EReal.coe_mul_bot_of_pos hx]
  | inf a => cases y with
    | nan => simp [Dbl.mul] at h
    | fin x =>
      have h0 : x ≠ 0 := by rintro rfl; simp [Dbl.mul] at h
      rcases lt_or_gt_of_ne h0 with hx | hx
      · cases a <;> simp [Dbl.mul, ext, h0, hx, EReal.top_mul_coe_of_neg, EReal.bot_mul_coe_of_neg]
      · cases a <;> simp [Dbl.mul, ext, h0, not_lt.mpr hx.le, EReal.top_mul_coe_of_pos hx, EReal.bot_mul_coe_of_pos hx]
    | inf b => cases a <;> cases b <;> simp [Dbl.mul, ext]

theorem div_nan_iff (x y : Dbl) : x / y = nan ↔ x = nan ∨ y = nan ∨ (x = fin 0 ∧ y = fin 0) ∨ ((∃ s, x = .inf s) ∧ ∃ s, y = .inf s) := by
  change Dbl.div x y = nan ↔ _
  cases x with
  | nan => simp [Dbl.div]
  | fin x => cases y with
    | nan => simp [Dbl.div]
    | fin y => by_cases h : y = 0 <;> by_cases h' : x = 0 <;> simp [Dbl.div, h, h']
    | inf b => simp [Dbl.div]
  | inf a => cases y <;> simp [Dbl.div]

theorem div_ext (x y : Dbl) (h : x / y ≠ nan) (hy : y ≠ fin 0) : ext (x / y) = ext x / ext y := by
  change ext (Dbl.div x y) = _
  change Dbl.div x y ≠ nan at h
  cases x with
  | nan => simp [Dbl.div] at h
  | fin x => cases y with
    | nan => simp [Dbl.div] at h
    | fin y =>
      have h0 : y ≠ 0 := by rintro rfl; exact hy rfl
      simp [Dbl.div, ext, h0, EReal.coe_div]
    | inf b => cases b <;> simp [Dbl.div, ext]
  | inf a => cases y with
    | nan => simp [Dbl.div] at h
    | fin y =>
      have h0 : y ≠ 0 := by rintro rfl; exact hy rfl
      rcases lt_or_gt_of_ne h0 with hx | hx
      · have : ((y : EReal)) < 0 := by exact_mod_cast hx
        cases a <;> simp [Dbl.div, ext, hx, EReal.top_div_of_neg_ne_bot this, EReal.bot_div_of_neg_ne_bot this]
      · have : 0 < ((y : EReal)) := by exact_mod_cast hx
        cases a <;> simp [Dbl.div, ext, not_lt.mpr hx.le, EReal.top_div_of_pos_ne_top this, EReal.bot_div_of_pos_ne_top this]
    | inf b => simp [Dbl.div] at h

theorem div_zero_ext (x : Dbl) (h : x / fin 0 ≠ nan) : ext (x / fin 0) = if ext x < 0 then ⊥ else ⊤ := by
  cases x with
  | nan => exact absurd rfl h
  | inf s => change ext (.inf (s ^^ decide ((0 : ℝ) < 0))) = _; cases s <;> simp [ext]
  | fin r =>
    by_cases hr : r = 0
    · exact absurd (by change Dbl.div _ _ = _; simp [Dbl.div, hr]) h
    · have e : (fin r : Dbl) / fin 0 = .inf (decide (r < 0)) := by change Dbl.div _ _ = _; simp [Dbl.div, hr]
      rw [e]
      by_cases h0 : r < 0 <;> simp [ext, h0]


theorem lt_ext (x y : Dbl) : x < y ↔ x ≠ nan ∧ y ≠ nan ∧ ext x < ext y := by
  change Dbl.lt x y ↔ _
  cases x with
  | nan => simp [Dbl.lt]
  | fin x => cases y with
    | nan => simp [Dbl.lt]
    | fin y => simp [Dbl.lt, ext]
    | inf b => cases b <;> simp [Dbl.lt, ext]
  | inf a => cases y with
    | nan => simp [Dbl.lt]
    | fin y => cases a <;> simp [Dbl.lt, ext]
    | inf b => cases a <;> cases b <;> simp [Dbl.lt, ext]

theorem le_ext (x y : Dbl) : x ≤ y ↔ x ≠ nan ∧ y ≠ nan ∧ ext x ≤ ext y := by
  change Dbl.le x y ↔ _
  cases x with
  | nan => simp [Dbl.le]
  | fin x => cases y with
    | nan => simp [Dbl.le]
    | fin y => simp [Dbl.le, ext]
    | inf b => cases b <;> simp [Dbl.le, ext]
  | inf a => cases y with
    | nan => simp [Dbl.le]
    | fin y => cases a <;> simp [Dbl.le, ext]
    | inf b => cases a <;> cases b <;> simp [Dbl.le, ext]

end GSplines.DblArith
