import Verif.Spec.Interp
import Verif.Proofs.InterpFill
import Mathlib.Data.Fintype.Sum
import Mathlib.Data.Fintype.Prod
import Mathlib.Data.Fintype.Card
import Mathlib.Data.Fintype.EquivFin

/-!
# Every row of the interpolation matrix states one condition
-/

namespace GSplines.Interp

open GSplines Spec

/-- The row of a condition. -/
def row (n c h : ℕ) : Cond n c h → ℕ
  | .start iv comp => rowStart c (2 * h + 2) iv + comp
  | .stop iv comp => rowStop c (2 * h + 2) n iv + comp
  | .restL comp j => c + comp * h + j
  | .restR comp j => rowRest c (2 * h + 2) n + comp * h + j
  | .join iv comp j => rowJoin c (2 * h + 2) iv + comp * (2 * h) + j

theorem last_mul {n K : ℕ} (hn : 0 < n) : n * K = (n - 1) * K + K := by
  obtain ⟨q, rfl⟩ : ∃ q, n = q + 1 := ⟨n - 1, by omega⟩
  rw [Nat.add_sub_cancel]; ring

theorem row_lt {n c h : ℕ} (hn : 0 < n) (x : Cond n c h) : row n c h x < (2 * h + 2) * c * n := by
  obtain ⟨e1, e2, e3, e4, e5⟩ := half_eq (c := c) (D := 2 * h + 2) (h := h) rfl
  have em : (2 * h + 2) * c * n = n * (c * (2 * h + 2)) := by ring
  rw [em]
  cases x with
  | start iv comp =>
    have h1 := succ_mul_le (K := c * (2 * h + 2)) iv.2
    have := comp.2
    simp only [row, rowStart]
    split_ifs <;> omega
  | stop iv comp =>
    have h1 := succ_mul_le (K := c * (2 * h + 2)) iv.2
    have := comp.2
    simp only [row, rowStop]
    split_ifs <;> omega
  | restL comp j =>
    have := comp_lt comp.2 j.2
    have := last_mul (K := c * (2 * h + 2)) hn
    simp only [row]
    omega
  | restR comp j =>
    have := comp_lt comp.2 j.2
    have := last_mul (K := c * (2 * h + 2)) hn
    simp only [row, rowRest]
    split_ifs with h1
    · subst h1; omega
    · omega
  | join iv comp j =>
    have := comp_lt2 comp.2 j.2
    have h1 := succ_mul_le (K := c * (2 * h + 2)) (a := iv) (b := n - 1) iv.2
    have := last_mul (K := c * (2 * h + 2)) hn
    simp only [row, rowJoin]
    omega

/-- Splitting an index. -/
theorem split_index {c h x : ℕ} (hx : x < c * h) : ∃ (comp : Fin c) (j : Fin h), comp * h + j = x := by
  have hh : 0 < h := by
    rcases Nat.eq_zero_or_pos h with rfl | h0
    · simp at hx
    · exact h0
  refine ⟨⟨x / h, (Nat.div_lt_iff_lt_mul hh).mpr hx⟩, ⟨x % h, Nat.mod_lt _ hh⟩, ?_⟩
  simp only
  rw [mul_comm]
  exact Nat.div_add_mod x h

theorem row_surj {n c h : ℕ} (hn : 0 < n) {r : ℕ} (hr : r < (2 * h + 2) * c * n) : ∃ x : Cond n c h, row n c h x = r := by
  obtain ⟨e1, e2, e3, e4, e5⟩ := half_eq (c := c) (D := 2 * h + 2) (h := h) rfl
  have em : (2 * h + 2) * c * n = n * (c * (2 * h + 2)) := by ring
  rw [em] at hr
  by_cases h1 : r < c
  · exact ⟨.start ⟨0, hn⟩ ⟨r, h1⟩, by simp [row, rowStart]⟩
  by_cases h2 : r < c + c * h
  · obtain ⟨comp, j, hx⟩ := split_index (c := c) (h := h) (x := r - c) (by omega)
    exact ⟨.restL comp j, by simp only [row]; omega⟩
  by_cases h3 : r < 2 * c + c * h
  · refine ⟨.stop ⟨0, hn⟩ ⟨r - c - c * h, by omega⟩, ?_⟩
    simp only [row, rowStop, Nat.zero_mul, ne_eq, not_true_eq_false, false_and, if_false, e3]
    omega
  by_cases hn1 : n = 1
  · subst hn1
    obtain ⟨comp, j, hx⟩ := split_index (c := c) (h := h) (x := r - (2 * c + c * h)) (by omega)
    exact ⟨.restR comp j, by simp only [row, rowRest, if_true]; omega⟩
  set K := c * (2 * h + 2) with hK
  have hKpos : 0 < K := by
    rcases Nat.eq_zero_or_pos K with h0 | h0
    · rw [h0] at hr; omega
    · exact h0
  -- the interval
  obtain ⟨q, x, hq, hx, hrq⟩ : ∃ q x, q + 1 < n ∧ (x < K ∨ q + 2 = n) ∧ r = q * K + (2 * c + c * h) + x := by
    set q0 := (r - (2 * c + c * h)) / K with hq0
    have hdm := Nat.div_add_mod (r - (2 * c + c * h)) K
    rw [← hq0] at hdm
    have hml := Nat.mod_lt (r - (2 * c + c * h)) hKpos
    by_cases hqn : q0 + 1 < n
    · exact ⟨q0, (r - (2 * c + c * h)) % K, hqn, .inl hml, by rw [mul_comm q0]; omega⟩
    · refine ⟨n - 2, r - (2 * c + c * h) - (n - 2) * K, by omega, .inr (by omega), ?_⟩
      have : (n - 2) * K ≤ q0 * K := Nat.mul_le_mul_right _ (by omega)
      rw [mul_comm q0] at this
      omega
  have hend : x < K + c * h := by
    rcases hx with hx | hx
    · omega
    · have : n * K = q * K + 2 * K := by rw [← hx]; ring
      omega
  have es : (q + 1) * K = q * K + K := by ring
  by_cases h4 : x < 2 * (c * h)
  · obtain ⟨comp, j, hj⟩ := split_index (c := c) (h := 2 * h) (x := x) (by rw [show c * (2 * h) = 2 * (c * h) by ring]; exact h4)
    exact ⟨.join ⟨q, by omega⟩ comp j, by simp only [row, rowJoin, ← hK, e3]; omega⟩
  by_cases h5 : x < 2 * (c * h) + c
  · refine ⟨.start ⟨q + 1, hq⟩ ⟨x - 2 * (c * h), by omega⟩, ?_⟩
    simp only [row, rowStart, Nat.add_eq_zero_iff, one_ne_zero, and_false, if_false, ← hK, e3]
    omega
  by_cases h6 : q + 2 = n
  · by_cases h7 : x < 2 * (c * h) + c + c * h
    · obtain ⟨comp, j, hj⟩ := split_index (c := c) (h := h) (x := x - (2 * (c * h) + c)) (by omega)
      refine ⟨.restR comp j, ?_⟩
      simp only [row, rowRest, ← hK, e3]
      rw [if_neg hn1, show n - 1 = q + 1 by omega]
      omega
    · refine ⟨.stop ⟨q + 1, hq⟩ ⟨x - (3 * (c * h) + c), by omega⟩, ?_⟩
      simp only [row, rowStop, ← hK, e3]
      rw [if_pos ⟨by omega, by omega⟩]
      omega
  · have hx' : x < K := by omega
    refine ⟨.stop ⟨q + 1, hq⟩ ⟨x - (2 * (c * h) + c), by omega⟩, ?_⟩
    simp only [row, rowStop, ← hK, e3]
    rw [if_neg (by omega)]
    omega

/-- Conditions as a sum of products. -/
def condEquiv (n c h : ℕ) : Cond n c h ≃
    ((Fin n × Fin c) ⊕ (Fin n × Fin c)) ⊕ (((Fin c × Fin h) ⊕ (Fin c × Fin h)) ⊕ (Fin (n - 1) × Fin c × Fin (2 * h))) where
  toFun
    | .start iv comp => .inl (.inl (iv, comp))
    | .stop iv comp => .inl (.inr (iv, comp))
    | .restL comp j => .inr (.inl (.inl (comp, j)))
    | .restR comp j => .inr (.inl (.inr (comp, j)))
    | .join iv comp j => .inr (.inr (iv, comp, j))
  invFun
    | .inl (.inl (iv, comp)) => .start iv comp
    | .inl (.inr (iv, comp)) => .stop iv comp
    | .inr (.inl (.inl (comp, j))) => .restL comp j
    | .inr (.inl (.inr (comp, j))) => .restR comp j
    | .inr (.inr (iv, comp, j)) => .join iv comp j
  left_inv := by rintro (_ | _ | _ | _ | _) <;> rfl
  right_inv := by rintro ((_ | _) | ((_ | _) | _)) <;> rfl

instance (n c h : ℕ) : Fintype (Cond n c h) := Fintype.ofEquiv _ (condEquiv n c h).symm

theorem card_cond {n c h : ℕ} (hn : 0 < n) : Fintype.card (Cond n c h) = (2 * h + 2) * c * n := by
  rw [Fintype.card_congr (condEquiv n c h)]
  simp only [Fintype.card_sum, Fintype.card_prod, Fintype.card_fin]
  obtain ⟨q, rfl⟩ : ∃ q, n = q + 1 := ⟨n - 1, by omega⟩
  rw [Nat.add_sub_cancel]
  ring

theorem row_injective {n c h : ℕ} (hn : 0 < n) : Function.Injective (row n c h) := by
  let f : Cond n c h → Fin ((2 * h + 2) * c * n) := fun x => ⟨row n c h x, row_lt hn x⟩
  have hs : Function.Surjective f := fun r => by
    obtain ⟨x, hx⟩ := row_surj hn r.2
    exact ⟨x, Fin.ext hx⟩
  have hb : Function.Bijective f := (Fintype.bijective_iff_surjective_and_card f).mpr ⟨hs, by rw [card_cond hn, Fintype.card_fin]⟩
  intro x y hxy
  exact hb.1 (Fin.ext hxy)

end GSplines.Interp
