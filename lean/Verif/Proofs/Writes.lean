import Verif.Proofs.Loops

/-! # Nested loops that write entries of a matrix -/

namespace GSplines

/-- A list of writes `(row, column, value)` in program order. -/
def applyWrites (ws : List (ℕ × ℕ × ℝ)) (m : ℕ → ℕ → ℝ) : ℕ → ℕ → ℝ :=
  ws.foldl (fun m w => setAt2 m w.1 w.2.1 w.2.2) m

theorem applyWrites_append (a b : List (ℕ × ℕ × ℝ)) (m : ℕ → ℕ → ℝ) :
    applyWrites (a ++ b) m = applyWrites b (applyWrites a m) := by
  simp [applyWrites]

/-- All writes to `(r, c)` write `v`, and either there is one or the entry was `v` before. -/
theorem applyWrites_eq {ws : List (ℕ × ℕ × ℝ)} {m : ℕ → ℕ → ℝ} {r c : ℕ} {v : ℝ}
    (h : ∀ w ∈ ws, w.1 = r → w.2.1 = c → w.2.2 = v)
    (h' : m r c = v ∨ ∃ w ∈ ws, w.1 = r ∧ w.2.1 = c) : applyWrites ws m r c = v := by
  induction ws generalizing m with
  | nil => simpa [applyWrites] using h'
  | cons w ws ih =>
    change applyWrites ws (setAt2 m w.1 w.2.1 w.2.2) r c = v
    refine ih (fun w' hw' => h w' (List.mem_cons_of_mem _ hw')) ?_
    by_cases hw : w.1 = r ∧ w.2.1 = c
    · left
      have := h w List.mem_cons_self hw.1 hw.2
      simp [setAt2, hw.1, hw.2, this]
    · have hm : setAt2 m w.1 w.2.1 w.2.2 r c = m r c := by
        have h0 : ¬ (r = w.1 ∧ c = w.2.1) := fun h1 => hw ⟨h1.1.symm, h1.2.symm⟩
        simp [setAt2, h0]
      rw [hm]
      rcases h' with h' | ⟨w', hw', h1⟩
      · exact Or.inl h'
      · rcases List.mem_cons.mp hw' with rfl | hw'
        · exact absurd h1 hw
        · exact Or.inr ⟨w', hw', h1⟩

/-- No write to `(r, c)`. -/
theorem applyWrites_ne {ws : List (ℕ × ℕ × ℝ)} {m : ℕ → ℕ → ℝ} {r c : ℕ}
    (h : ∀ w ∈ ws, ¬ (w.1 = r ∧ w.2.1 = c)) : applyWrites ws m r c = m r c :=
  applyWrites_eq (fun w hw h1 h2 => absurd ⟨h1, h2⟩ (h w hw)) (Or.inl rfl)

/-- A loop whose body performs a list of writes performs the concatenation of the lists. -/
theorem forLoop_writes (a b : ℕ) (w : ℕ → List (ℕ × ℕ × ℝ)) (m : ℕ → ℕ → ℝ) :
    forLoop a b (fun i m => applyWrites (w i) m) m = applyWrites ((List.range' a (b - a)).flatMap w) m := by
  unfold forLoop
  generalize List.range' a (b - a) = l
  induction l generalizing m with
  | nil => rfl
  | cons x xs ih => simp [ih, applyWrites_append]

theorem forLoop_setAt2 (a b : ℕ) (f g : ℕ → ℕ) (v : ℕ → ℝ) (m : ℕ → ℕ → ℝ) :
    forLoop a b (fun i m => setAt2 m (f i) (g i) (v i)) m
      = applyWrites ((List.range' a (b - a)).map fun i => (f i, g i, v i)) m := by
  unfold forLoop applyWrites
  generalize List.range' a (b - a) = l
  induction l generalizing m with
  | nil => rfl
  | cons x xs ih => simp [ih]

theorem forLoop_writes0 (b : ℕ) (w : ℕ → List (ℕ × ℕ × ℝ)) (m : ℕ → ℕ → ℝ) :
    forLoop 0 b (fun i m => applyWrites (w i) m) m = applyWrites ((List.range' 0 b).flatMap w) m := forLoop_writes 0 b w m

theorem forLoop_setAt2_0 (b : ℕ) (f g : ℕ → ℕ) (v : ℕ → ℝ) (m : ℕ → ℕ → ℝ) :
    forLoop 0 b (fun i m => setAt2 m (f i) (g i) (v i)) m
      = applyWrites ((List.range' 0 b).map fun i => (f i, g i, v i)) m := forLoop_setAt2 0 b f g v m

/-- Mixed radix representation is unique. -/
theorem radix_unique {N a b x y : ℕ} (hx : x < N) (hy : y < N) (h : a * N + x = b * N + y) : a = b ∧ x = y := by
  have hN : 0 < N := by omega
  have h1 : (a * N + x) / N = (b * N + y) / N := by rw [h]
  rw [mul_comm a, mul_comm b, Nat.mul_add_div hN, Nat.mul_add_div hN, Nat.div_eq_of_lt hx, Nat.div_eq_of_lt hy] at h1
  have : a = b := by omega
  subst this
  exact ⟨rfl, by omega⟩

end GSplines
