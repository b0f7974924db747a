import Verif.Proofs.LagrangeModel

/-! # change_interpolation_points -/

namespace GSplines.Lagrange

open GSplines Polynomial Finset

/-- Some new point with index at most `k` is taken as equal to some old point. -/
def MatchUpTo (n : ℕ) (old new : Vec) (k : ℕ) : Prop :=
  ∃ k' ≤ k, ∃ j < n, almostEqual (new k') (old j) tol9 = true

theorem changeRow_match (n : ℕ) (old new : Vec) (k : ℕ) (st : Mat × Bool) :
    let r := forLoop 0 n (fun j (st : Mat × Bool) =>
      let m := setAt2 st.1 k j 0
      if almostEqual (new k) (old j) tol9 then (setAt2 m k j 1, true) else (m, st.2)) st
    (∀ a b, a ≠ k → r.1 a b = st.1 a b) ∧
    (∀ j < n, r.1 k j = if almostEqual (new k) (old j) tol9 then 1 else 0) ∧
    (r.2 = true ↔ st.2 = true ∨ ∃ j < n, almostEqual (new k) (old j) tol9 = true) := by
  have key := forLoop_ind
    (fun J (r : Mat × Bool) => (∀ a b, a ≠ k → r.1 a b = st.1 a b) ∧
      (∀ j < J, r.1 k j = if almostEqual (new k) (old j) tol9 then 1 else 0) ∧
      (r.2 = true ↔ st.2 = true ∨ ∃ j < J, almostEqual (new k) (old j) tol9 = true))
    (a := 0) (b := n) (by omega)
    (fun j (st : Mat × Bool) =>
      let m := setAt2 st.1 k j 0
      if almostEqual (new k) (old j) tol9 then (setAt2 m k j 1, true) else (m, st.2)) st ?_ ?_
  · exact key
  · exact ⟨fun _ _ _ => rfl, fun j hj => by omega, by simp⟩
  · rintro J r _ _ ⟨k1, k2, k3⟩
    by_cases hm : almostEqual (new k) (old J) tol9 = true
    · simp only [hm, if_true]
      refine ⟨?_, ?_, ?_⟩
      · intro a b ha; simp only [setAt2, ha, false_and, if_false]; exact k1 a b ha
      · intro j hj
        by_cases hj2 : j = J
        · subst hj2; simp [setAt2, hm]
        · simp only [setAt2, true_and, hj2, if_false]; exact k2 j (by omega)
      · simp only [true_iff]
        exact Or.inr ⟨J, by omega, hm⟩
    · simp only [hm, Bool.false_eq_true, if_false]
      refine ⟨?_, ?_, ?_⟩
      · intro a b ha; simp only [setAt2, ha, false_and, if_false]; exact k1 a b ha
      · intro j hj
        by_cases hj2 : j = J
        · subst hj2; simp [setAt2, hm]
        · simp only [setAt2, true_and, hj2, if_false]; exact k2 j (by omega)
      · refine k3.trans ⟨?_, ?_⟩
        · rintro (h | ⟨j, hj, h⟩)
          · exact Or.inl h
          · exact Or.inr ⟨j, by omega, h⟩
        · rintro (h | ⟨j, hj, h⟩)
          · exact Or.inl h
          · refine Or.inr ⟨j, ?_, h⟩
            rcases Nat.lt_or_ge j J with h1 | h1
            · exact h1
            · obtain rfl : j = J := by omega
              exact absurd h hm

theorem changeRow_bary (n : ℕ) (bw old : Vec) (s : ℝ) (k : ℕ) (m : Mat) :
    let r := forLoop 0 n (fun j (st : Mat × ℝ) =>
      let t := bw j / (s - old j)
      (setAt2 st.1 k j t, st.2 + t)) (m, 0)
    (∀ a b, a ≠ k → r.1 a b = m a b) ∧ (∀ j < n, r.1 k j = bw j / (s - old j)) ∧
      r.2 = ∑ j ∈ range n, bw j / (s - old j) := by
  have key := forLoop_ind
    (fun J (r : Mat × ℝ) => (∀ a b, a ≠ k → r.1 a b = m a b) ∧ (∀ j < J, r.1 k j = bw j / (s - old j)) ∧
      r.2 = ∑ j ∈ range J, bw j / (s - old j))
    (a := 0) (b := n) (by omega)
    (fun j (st : Mat × ℝ) => let t := bw j / (s - old j); (setAt2 st.1 k j t, st.2 + t)) (m, 0) ?_ ?_
  · exact key
  · exact ⟨fun _ _ _ => rfl, fun j hj => by omega, by simp⟩
  · rintro J r _ _ ⟨k1, k2, k3⟩
    refine ⟨?_, ?_, ?_⟩
    · intro a b ha; simp only [setAt2, ha, false_and, if_false]; exact k1 a b ha
    · intro j hj
      by_cases hj2 : j = J
      · subst hj2; simp [setAt2]
      · simp only [setAt2, true_and, hj2, if_false]; exact k2 j (by omega)
    · simp only [k3, sum_range_succ]

theorem changeRow_spec (n : ℕ) (old new : Vec) (k : ℕ) (st : Mat × Bool) :
    (∀ a b, a ≠ k → (changeRow n old new k st).1 a b = st.1 a b) ∧
    ((changeRow n old new k st).2 = true ↔ st.2 = true ∨ ∃ j < n, almostEqual (new k) (old j) tol9 = true) ∧
    ((st.2 = true ∨ ∃ j < n, almostEqual (new k) (old j) tol9 = true) →
      ∀ j < n, (changeRow n old new k st).1 k j = if almostEqual (new k) (old j) tol9 then 1 else 0) ∧
    (¬ (st.2 = true ∨ ∃ j < n, almostEqual (new k) (old j) tol9 = true) →
      ∀ j < n, (changeRow n old new k st).1 k j
        = baryWeights n old j / (new k - old j) / ∑ i ∈ range n, baryWeights n old i / (new k - old i)) := by
  have h1 := changeRow_match n old new k st
  simp only at h1
  obtain ⟨a1, a2, a3⟩ := h1
  unfold changeRow
  simp only
  set r := forLoop 0 n (fun j (st : Mat × Bool) =>
      if almostEqual (new k) (old j) tol9 then (setAt2 (setAt2 st.1 k j 0) k j 1, true) else (setAt2 st.1 k j 0, st.2)) st with hr
  by_cases hf : r.2 = true
  · rw [if_pos hf]
    exact ⟨a1, a3, fun _ => a2, fun hn => absurd (a3.mp hf) hn⟩
  · rw [if_neg hf]
    have h2 := changeRow_bary n (baryWeights n old) old (new k) k r.1
    simp only at h2
    obtain ⟨b1, b2, b3⟩ := h2
    refine ⟨?_, a3, fun h => absurd (a3.mpr h) hf, ?_⟩
    · intro a b ha
      simp only [ha, if_false]
      rw [b1 a b ha, a1 a b ha]
    · intro _ j hj
      simp only [if_true]
      rw [b2 j hj, b3]

theorem changePoints_spec (n m : ℕ) (old new : Vec) (junk : Mat) (k : ℕ) (hk : k < m) :
    (MatchUpTo n old new k →
      ∀ j < n, changePoints n m old new junk k j = if almostEqual (new k) (old j) tol9 then 1 else 0) ∧
    (¬ MatchUpTo n old new k →
      ∀ j < n, changePoints n m old new junk k j
        = baryWeights n old j / (new k - old j) / ∑ i ∈ range n, baryWeights n old i / (new k - old i)) := by
  have key := forLoop_ind
    (fun K (st : Mat × Bool) =>
      (st.2 = true ↔ ∃ k' < K, ∃ j < n, almostEqual (new k') (old j) tol9 = true) ∧
      ∀ k < K, (MatchUpTo n old new k →
          ∀ j < n, st.1 k j = if almostEqual (new k) (old j) tol9 then 1 else 0) ∧
        (¬ MatchUpTo n old new k →
          ∀ j < n, st.1 k j
            = baryWeights n old j / (new k - old j) / ∑ i ∈ range n, baryWeights n old i / (new k - old i)))
    (a := 0) (b := m) (by omega) (changeRow n old new) (junk, false) ?_ ?_
  · exact key.2 k hk
  · exact ⟨by simp, fun k hk => by omega⟩
  · rintro K st _ _ ⟨i1, i2⟩
    obtain ⟨c1, c2, c3, c4⟩ := changeRow_spec n old new K st
    have hiff : (st.2 = true ∨ ∃ j < n, almostEqual (new K) (old j) tol9 = true) ↔ MatchUpTo n old new K := by
      rw [i1]
      constructor
      · rintro (⟨k', h1, h2⟩ | h)
        · exact ⟨k', by omega, h2⟩
        · exact ⟨K, le_rfl, h⟩
      · rintro ⟨k', h1, h2⟩
        rcases Nat.lt_or_ge k' K with h3 | h3
        · exact Or.inl ⟨k', h3, h2⟩
        · obtain rfl : k' = K := by omega
          exact Or.inr h2
    refine ⟨?_, ?_⟩
    · rw [c2, hiff]
      constructor
      · rintro ⟨k', h1, h2⟩; exact ⟨k', by omega, h2⟩
      · rintro ⟨k', h1, h2⟩; exact ⟨k', by omega, h2⟩
    · intro k hk
      rcases Nat.lt_or_ge k K with h3 | h3
      · refine ⟨fun h j hj => ?_, fun h j hj => ?_⟩
        · rw [c1 k j (by omega)]; exact (i2 k h3).1 h j hj
        · rw [c1 k j (by omega)]; exact (i2 k h3).2 h j hj
      · obtain rfl : k = K := by omega
        exact ⟨fun h => c3 (hiff.mpr h), fun h => c4 (fun h' => h (hiff.mp h'))⟩

end GSplines.Lagrange
