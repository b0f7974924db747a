import Verif.Model.Interp
import Verif.Proofs.Writes
import Verif.Proofs.Loops
import Mathlib.Tactic.Ring
import Mathlib.Tactic.Linarith
import Mathlib.Algebra.BigOperators.Intervals

/-!
# The blocks of the interpolation matrix
-/

namespace GSplines.Interp

open GSplines

/-- A row with the `len` entries from `a` on replaced. -/
def upd (a len : ℕ) (F : ℕ → ℝ) (f : ℕ → ℝ) : ℕ → ℝ := fun col => if a ≤ col ∧ col < a + len then F (col - a) else f col

theorem upd_congr {a len : ℕ} {F G f : ℕ → ℝ} (h : ∀ k < len, F k = G k) : upd a len F f = upd a len G f := by
  funext col
  unfold upd
  split_ifs with hc
  · exact h _ (by omega)
  · rfl

theorem radix_lt {c h comp der : ℕ} (h1 : comp < c) (h2 : der < h) : comp * h + der < c * h := by
  have : (comp + 1) * h ≤ c * h := Nat.mul_le_mul_right _ h1
  have e : (comp + 1) * h = comp * h + h := by ring
  omega

theorem posBlock_writes (dim codim i0 j0 : ℕ) (p : Vec) (m : Mat) : posBlock dim codim i0 j0 p m =
    applyWrites ((List.range' 0 codim).flatMap fun c => (List.range' 0 dim).map fun k => (i0 + c, j0 + dim * c + k, p k)) m := by
  unfold posBlock
  simp only [forLoop_setAt2_0, forLoop_writes0]

theorem posBlock_row {dim codim i0 j0 : ℕ} {p : Vec} {m : Mat} {c : ℕ} (hc : c < codim) :
    posBlock dim codim i0 j0 p m (i0 + c) = upd (j0 + dim * c) dim p (m (i0 + c)) := by
  funext col
  rw [posBlock_writes]
  unfold upd
  split_ifs with h
  · refine applyWrites_eq ?_ (.inr ⟨(i0 + c, j0 + dim * c + (col - (j0 + dim * c)), p (col - (j0 + dim * c))), ?_, rfl, ?_⟩)
    · intro w hw h1 h2
      simp only [List.mem_flatMap, List.mem_range'_1, List.mem_map] at hw
      obtain ⟨c', ⟨_, hc'⟩, k, ⟨_, hk⟩, rfl⟩ := hw
      simp only at h1 h2 ⊢
      have : c' = c := by omega
      subst this
      congr 1
      omega
    · simp only [List.mem_flatMap, List.mem_range'_1, List.mem_map]
      exact ⟨c, by omega, col - (j0 + dim * c), by omega, rfl⟩
    · simp only; omega
  · refine applyWrites_ne ?_
    intro w hw
    simp only [List.mem_flatMap, List.mem_range'_1, List.mem_map] at hw
    obtain ⟨c', ⟨_, hc'⟩, k, ⟨_, hk⟩, rfl⟩ := hw
    simp only
    rintro ⟨h1, h2⟩
    have : c' = c := by omega
    subst this
    omega

theorem posBlock_other {dim codim i0 j0 : ℕ} {p : Vec} {m : Mat} {r : ℕ} (h : r < i0 ∨ i0 + codim ≤ r) :
    posBlock dim codim i0 j0 p m r = m r := by
  funext col
  rw [posBlock_writes]
  refine applyWrites_ne ?_
  intro w hw
  simp only [List.mem_flatMap, List.mem_range'_1, List.mem_map] at hw
  obtain ⟨c', ⟨_, hc'⟩, k, ⟨_, hk⟩, rfl⟩ := hw
  simp only
  omega

theorem contBlock_writes (dim codim i0 j0 : ℕ) (minus : Bool) (d m : Mat) : contBlock dim codim i0 j0 minus d m =
    applyWrites ((List.range' 0 codim).flatMap fun c => (List.range' 0 dim).flatMap fun k => (List.range' 0 (dim - 2)).map fun j =>
      (i0 + c * (dim - 2) + j, j0 + dim * c + k, (if minus then -1 else 1) * d k j)) m := by
  unfold contBlock
  simp only [forLoop_setAt2_0, forLoop_writes0]

theorem contBlock_row {dim codim i0 j0 : ℕ} {minus : Bool} {d m : Mat} {c j : ℕ} (hc : c < codim) (hj : j < dim - 2) :
    contBlock dim codim i0 j0 minus d m (i0 + c * (dim - 2) + j) =
      upd (j0 + dim * c) dim (fun k => (if minus then -1 else 1) * d k j) (m (i0 + c * (dim - 2) + j)) := by
  funext col
  rw [contBlock_writes]
  unfold upd
  generalize (if minus = true then (-1 : ℝ) else 1) = mu
  split_ifs with h
  · refine applyWrites_eq ?_ (.inr ⟨(i0 + c * (dim - 2) + j, j0 + dim * c + (col - (j0 + dim * c)),
      mu * d (col - (j0 + dim * c)) j), ?_, rfl, ?_⟩)
    · intro w hw h1 h2
      simp only [List.mem_flatMap, List.mem_range'_1, List.mem_map] at hw
      obtain ⟨c', ⟨_, hc'⟩, k, ⟨_, hk⟩, j', ⟨_, hj'⟩, rfl⟩ := hw
      simp only at h1 h2 ⊢
      obtain ⟨rfl, rfl⟩ := radix_unique (N := dim - 2) (a := c') (b := c) (x := j') (y := j) (by omega) hj (by omega)
      congr 2
      omega
    · simp only [List.mem_flatMap, List.mem_range'_1, List.mem_map]
      exact ⟨c, by omega, col - (j0 + dim * c), by omega, j, by omega, rfl⟩
    · simp only; omega
  · refine applyWrites_ne ?_
    intro w hw
    simp only [List.mem_flatMap, List.mem_range'_1, List.mem_map] at hw
    obtain ⟨c', ⟨_, hc'⟩, k, ⟨_, hk⟩, j', ⟨_, hj'⟩, rfl⟩ := hw
    simp only
    rintro ⟨h1, h2⟩
    obtain ⟨rfl, rfl⟩ := radix_unique (N := dim - 2) (a := c') (b := c) (x := j') (y := j) (by omega) hj (by omega)
    omega

theorem contBlock_other {dim codim i0 j0 : ℕ} {minus : Bool} {d m : Mat} {r : ℕ} (h : r < i0 ∨ i0 + codim * (dim - 2) ≤ r) :
    contBlock dim codim i0 j0 minus d m r = m r := by
  funext col
  rw [contBlock_writes]
  refine applyWrites_ne ?_
  intro w hw
  simp only [List.mem_flatMap, List.mem_range'_1, List.mem_map] at hw
  obtain ⟨c', ⟨_, hc'⟩, k, ⟨_, hk⟩, j', ⟨_, hj'⟩, rfl⟩ := hw
  have := radix_lt (c := codim) (h := dim - 2) (comp := c') (der := j') (by omega) (by omega)
  simp only
  omega

theorem bndBlock_writes (dim codim i0 j0 : ℕ) (d m : Mat) : bndBlock dim codim i0 j0 d m =
    applyWrites ((List.range' 0 codim).flatMap fun c => (List.range' 0 (dim / 2 - 1)).flatMap fun j => (List.range' 0 dim).map fun k =>
      (i0 + c * (dim / 2 - 1) + j, j0 + dim * c + k, d k j)) m := by
  unfold bndBlock
  simp only [forLoop_setAt2_0, forLoop_writes0]

theorem bndBlock_row {dim codim i0 j0 : ℕ} {d m : Mat} {c j : ℕ} (hc : c < codim) (hj : j < dim / 2 - 1) :
    bndBlock dim codim i0 j0 d m (i0 + c * (dim / 2 - 1) + j) =
      upd (j0 + dim * c) dim (fun k => d k j) (m (i0 + c * (dim / 2 - 1) + j)) := by
  funext col
  rw [bndBlock_writes]
  unfold upd
  split_ifs with h
  · refine applyWrites_eq ?_ (.inr ⟨(i0 + c * (dim / 2 - 1) + j, j0 + dim * c + (col - (j0 + dim * c)), d (col - (j0 + dim * c)) j), ?_, rfl, ?_⟩)
    · intro w hw h1 h2
      simp only [List.mem_flatMap, List.mem_range'_1, List.mem_map] at hw
      obtain ⟨c', ⟨_, hc'⟩, j', ⟨_, hj'⟩, k, ⟨_, hk⟩, rfl⟩ := hw
      simp only at h1 h2 ⊢
      obtain ⟨rfl, rfl⟩ := radix_unique (N := dim / 2 - 1) (a := c') (b := c) (x := j') (y := j) (by omega) hj (by omega)
      congr 1
      omega
    · simp only [List.mem_flatMap, List.mem_range'_1, List.mem_map]
      exact ⟨c, by omega, j, by omega, col - (j0 + dim * c), by omega, rfl⟩
    · simp only; omega
  · refine applyWrites_ne ?_
    intro w hw
    simp only [List.mem_flatMap, List.mem_range'_1, List.mem_map] at hw
    obtain ⟨c', ⟨_, hc'⟩, j', ⟨_, hj'⟩, k, ⟨_, hk⟩, rfl⟩ := hw
    simp only
    rintro ⟨h1, h2⟩
    obtain ⟨rfl, rfl⟩ := radix_unique (N := dim / 2 - 1) (a := c') (b := c) (x := j') (y := j) (by omega) hj (by omega)
    omega

theorem bndBlock_other {dim codim i0 j0 : ℕ} {d m : Mat} {r : ℕ} (h : r < i0 ∨ i0 + codim * (dim / 2 - 1) ≤ r) :
    bndBlock dim codim i0 j0 d m r = m r := by
  funext col
  rw [bndBlock_writes]
  refine applyWrites_ne ?_
  intro w hw
  simp only [List.mem_flatMap, List.mem_range'_1, List.mem_map] at hw
  obtain ⟨c', ⟨_, hc'⟩, j', ⟨_, hj'⟩, k, ⟨_, hk⟩, rfl⟩ := hw
  have := radix_lt (c := codim) (h := dim / 2 - 1) (comp := c') (der := j') (by omega) (by omega)
  simp only
  omega

theorem putRow_apply (codim vc : ℕ) (w v : Vec) (x : ℕ) : putRow codim vc w v x = if vc ≤ x ∧ x < vc + codim then w (x - vc) else v x := by
  unfold putRow
  have := forLoop_ind (fun i (u : Vec) => ∀ x, u x = if vc ≤ x ∧ x < vc + i then w (x - vc) else v x) (Nat.zero_le codim)
    (fun c v => setAt v (vc + c) (w c)) v (fun x => by rw [if_neg (by omega)]) ?_
  · exact this x
  · intro i u _ _ ih x
    rw [setAt_apply, ih]
    by_cases h : x = vc + i
    · subst h
      rw [if_pos rfl, if_pos (by omega)]
      congr 1; omega
    · rw [if_neg h]
      by_cases h2 : vc ≤ x ∧ x < vc + i
      · rw [if_pos h2, if_pos (by omega)]
      · rw [if_neg h2, if_neg (by omega)]

end GSplines.Interp
