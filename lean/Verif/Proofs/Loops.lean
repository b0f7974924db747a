import Verif.Model.Basic

/-! # Invariant rule for `forLoop` and lemmas on writes -/

namespace GSplines

theorem forLoop_of_le {σ : Type} {a b : ℕ} (h : b ≤ a) (body : ℕ → σ → σ) (s : σ) :
    forLoop a b body s = s := by
  simp [forLoop, Nat.sub_eq_zero_of_le h]

theorem forLoop_succ {σ : Type} {a b : ℕ} (h : a ≤ b) (body : ℕ → σ → σ) (s : σ) :
    forLoop a (b + 1) body s = body b (forLoop a b body s) := by
  have : b + 1 - a = (b - a) + 1 := by omega
  simp [forLoop, this, List.range'_concat, Nat.add_sub_cancel' h]

/-- Loop invariant rule. -/
theorem forLoop_ind {σ : Type} (P : ℕ → σ → Prop) {a b : ℕ} (hab : a ≤ b) (body : ℕ → σ → σ) (s : σ)
    (h0 : P a s) (hs : ∀ i st, a ≤ i → i < b → P i st → P (i + 1) (body i st)) :
    P b (forLoop a b body s) := by
  induction b, hab using Nat.le_induction with
  | base => simpa [forLoop_of_le] using h0
  | succ n hn ih =>
    rw [forLoop_succ hn]
    exact hs n _ hn (Nat.lt_succ_self n)
      (ih (fun i st h1 h2 => hs i st h1 (Nat.lt_succ_of_lt h2)))

/-- Induction rule that also covers empty ranges. -/
theorem forLoop_inv {σ : Type} (P : σ → Prop) (a b : ℕ) (body : ℕ → σ → σ) (s : σ)
    (h0 : P s) (hs : ∀ i st, a ≤ i → i < b → P st → P (body i st)) :
    P (forLoop a b body s) := by
  rcases Nat.le_total a b with h | h
  · exact forLoop_ind (fun _ st => P st) h body s h0 hs
  · rw [forLoop_of_le h]; exact h0

@[simp] theorem setAt_self {α : Type} (v : ℕ → α) (i : ℕ) (x : α) : setAt v i x i = x := by simp [setAt]

theorem setAt_ne {α : Type} (v : ℕ → α) {i k : ℕ} (x : α) (h : k ≠ i) : setAt v i x k = v k := by
  simp [setAt, h]

theorem setAt_apply {α : Type} (v : ℕ → α) (i : ℕ) (x : α) (k : ℕ) :
    setAt v i x k = if k = i then x else v k := rfl

theorem setAt2_apply {α : Type} (m : ℕ → ℕ → α) (i j : ℕ) (x : α) (a b : ℕ) :
    setAt2 m i j x a b = if a = i ∧ b = j then x else m a b := rfl

end GSplines
