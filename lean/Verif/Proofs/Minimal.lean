import Verif.Proofs.InterpUnique
import Mathlib.MeasureTheory.Integral.IntervalIntegral.FundThmCalculus
import Mathlib.MeasureTheory.Integral.IntervalIntegral.IntegrationByParts

/-!
# Curves whose pieces solve the differential equation have least energy
-/

namespace GSplines.Minimal

open GSplines Spec Finset

/-- Integration by parts, all at once. -/
noncomputable def cross (F H : ℕ → ℝ → ℝ) (m : ℕ) (κ t : ℝ) : ℝ :=
  ∑ j ∈ range m, (-1 : ℝ) ^ j * (F (m + j) t * H (m - 1 - j) t) + κ * (F 1 t * H 0 t)

theorem cross_hasDerivAt {F H : ℕ → ℝ → ℝ} (hF : Tower F) {m : ℕ} (hm : 1 ≤ m) (hH : ∀ d < m, ∀ t, HasDerivAt (H d) (H (d + 1) t) t) (κ t : ℝ) :
    HasDerivAt (cross F H m κ) (F m t * H m t + ((-1) ^ (m + 1) * F (2 * m) t + κ * F 2 t) * H 0 t + κ * (F 1 t * H 1 t)) t := by
  have h1 : HasDerivAt (fun t => ∑ j ∈ range m, (-1 : ℝ) ^ j * (F (m + j) t * H (m - 1 - j) t))
      (∑ j ∈ range m, (-1 : ℝ) ^ j * (F (m + j + 1) t * H (m - 1 - j) t + F (m + j) t * H (m - 1 - j + 1) t)) t :=
    HasDerivAt.fun_sum fun j _ => ((hF (m + j) t).mul (hH (m - 1 - j) (by omega) t)).const_mul _
  have h2 : HasDerivAt (fun t => κ * (F 1 t * H 0 t)) (κ * (F 2 t * H 0 t + F 1 t * H 1 t)) t := ((hF 1 t).mul (hH 0 (by omega) t)).const_mul κ
  have e : ∑ j ∈ range m, (-1 : ℝ) ^ j * (F (m + j + 1) t * H (m - 1 - j) t + F (m + j) t * H (m - 1 - j + 1) t) =
      F m t * H m t + (-1) ^ (m + 1) * F (2 * m) t * H 0 t := by
    have := sum_range_sub' (fun j => (-1 : ℝ) ^ j * (F (m + j) t * H (m - j) t)) m
    simp only [Nat.add_zero, Nat.sub_zero, pow_zero, Nat.sub_self] at this
    rw [show m + m = 2 * m by ring] at this
    have e2 : F m t * H m t + (-1) ^ (m + 1) * F (2 * m) t * H 0 t = 1 * (F m t * H m t) - (-1) ^ m * (F (2 * m) t * H 0 t) := by ring
    rw [e2, ← this]
    refine sum_congr rfl fun j hj => ?_
    have hj' := mem_range.mp hj
    rw [show m - 1 - j + 1 = m - j by omega, show m - 1 - j = m - (j + 1) by omega, show m + j + 1 = m + (j + 1) by ring]
    ring
  refine HasDerivAt.congr_deriv (h1.add h2) ?_
  rw [e]
  ring

/-- A function whose derivative of order `m` vanishes on an interval, and whose lower derivatives vanish at its start, vanishes with all these derivatives. -/
theorem zero_of_top {H : ℕ → ℝ → ℝ} {m : ℕ} (hH : ∀ d < m, ∀ t, HasDerivAt (H d) (H (d + 1) t) t) {a b : ℝ}
    (hm : ∀ t ∈ Set.Icc a b, H m t = 0) (h0 : ∀ d < m, H d a = 0) : ∀ d ≤ m, ∀ t ∈ Set.Icc a b, H d t = 0 := by
  have hlow : ∀ e ≤ m, ∀ t ∈ Set.Icc a b, H (m - e) t = 0 := by
    intro e
    induction e with
    | zero => intro _; exact hm
    | succ e ih =>
      intro he t ht
      have hc := constant_of_has_deriv_right_zero (f := H (m - (e + 1))) (a := a) (b := b)
        (fun x _ => (hH (m - (e + 1)) (by omega) x).continuousAt.continuousWithinAt)
        (fun x hx => by
          have := (hH (m - (e + 1)) (by omega) x).hasDerivWithinAt (s := Set.Ici x)
          rw [show m - (e + 1) + 1 = m - e by omega, ih (by omega) x ⟨hx.1, hx.2.le⟩] at this
          exact this) t ht
      rw [hc, h0 _ (by omega)]
  intro d hd t ht
  have := hlow (m - d) (by omega) t ht
  rwa [show m - (m - d) = d by omega] at this

/-- Energies of the pieces of a curve. -/
noncomputable def total (n m : ℕ) (κ : ℝ) (b : ℕ → ℝ) (G : ℕ → ℕ → ℝ → ℝ) : ℝ :=
  ∑ i ∈ range n, ∫ t in (b i)..(b (i + 1)), (G i m t ^ 2 + κ * G i 1 t ^ 2)

theorem minimal {n m : ℕ} (hm : 1 ≤ m) {κ : ℝ} (hκ : 0 ≤ κ) {b : ℕ → ℝ} (hb : ∀ i < n, b i < b (i + 1)) {F G : ℕ → ℕ → ℝ → ℝ} (hF : ∀ i < n, Tower (F i))
    (hode : ∀ i < n, ∀ t, (-1) ^ (m + 1) * F i (2 * m) t + κ * F i 2 t = 0)
    (hG : ∀ i < n, ∀ d < m, ∀ t, HasDerivAt (G i d) (G i (d + 1) t) t) (hGc : ∀ i < n, Continuous (G i m))
    (h0 : ∀ i < n, F i 0 (b i) = G i 0 (b i)) (h1 : ∀ i < n, F i 0 (b (i + 1)) = G i 0 (b (i + 1)))
    (hL : ∀ d, 1 ≤ d → d ≤ m - 1 → F 0 d (b 0) = G 0 d (b 0)) (hR : ∀ d, 1 ≤ d → d ≤ m - 1 → F (n - 1) d (b n) = G (n - 1) d (b n))
    (hJ : ∀ i, i + 1 < n → ∀ d, 1 ≤ d → d ≤ 2 * m - 2 → F i d (b (i + 1)) = F (i + 1) d (b (i + 1)))
    (hK : ∀ i, i + 1 < n → ∀ d, 1 ≤ d → d ≤ m - 1 → G i d (b (i + 1)) = G (i + 1) d (b (i + 1))) :
    total n m κ b F ≤ total n m κ b G ∧
      (total n m κ b G ≤ total n m κ b F → ∀ i < n, ∀ t ∈ Set.Icc (b i) (b (i + 1)), G i 0 t = F i 0 t) ∧
      total n m κ b G = total n m κ b F + total n m κ b (fun i d t => G i d t - F i d t) ∧
      ∑ i ∈ range n, ∫ t in (b i)..(b (i + 1)), (F i m t * (G i m t - F i m t) + κ * (F i 1 t * (G i 1 t - F i 1 t))) = 0 := by
  set H : ℕ → ℕ → ℝ → ℝ := fun i d t => G i d t - F i d t with hHdef
  have hH : ∀ i < n, ∀ d < m, ∀ t, HasDerivAt (H i d) (H i (d + 1) t) t := fun i hi d hd t => (hG i hi d hd t).sub (hF i hi d t)
  have hFc : ∀ i < n, ∀ d, Continuous (F i d) := fun i hi d => continuous_iff_continuousAt.mpr fun t => (hF i hi d t).continuousAt
  have hGc' : ∀ i < n, ∀ d ≤ m, Continuous (G i d) := by
    intro i hi d hd
    rcases Nat.lt_or_ge d m with h | h
    · exact continuous_iff_continuousAt.mpr fun t => (hG i hi d h t).continuousAt
    · rw [show d = m by omega]; exact hGc i hi
  have hHc : ∀ i < n, ∀ d ≤ m, Continuous (H i d) := fun i hi d hd => (hGc' i hi d hd).sub (hFc i hi d)
  have hz0 : ∀ i < n, H i 0 (b i) = 0 := fun i hi => by simp only [hHdef]; rw [h0 i hi, sub_self]
  have hz1 : ∀ i < n, H i 0 (b (i + 1)) = 0 := fun i hi => by simp only [hHdef]; rw [h1 i hi, sub_self]
  set X := fun i => cross (F i) (H i) m κ with hX
  have hXd : ∀ i < n, ∀ t, HasDerivAt (X i) (F i m t * H i m t + κ * (F i 1 t * H i 1 t)) t := by
    intro i hi t
    refine (cross_hasDerivAt (hF i hi) hm (hH i hi) κ t).congr_deriv ?_
    rw [hode i hi t]; ring
  have hXi : ∀ i < n, ∫ t in (b i)..(b (i + 1)), (F i m t * H i m t + κ * (F i 1 t * H i 1 t)) = X i (b (i + 1)) - X i (b i) := by
    intro i hi
    refine intervalIntegral.integral_eq_sub_of_hasDerivAt (fun t _ => hXd i hi t) (Continuous.intervalIntegrable ?_ _ _)
    have := hFc i hi m; have := hFc i hi 1; have := hHc i hi m le_rfl; have := hHc i hi 1 hm
    fun_prop
  have hXz : ∀ (i : ℕ) (t : ℝ), (∀ d ≤ m - 1, H i d t = 0) → X i t = 0 := by
    intro i t h
    simp only [hX, cross]
    rw [h 0 (by omega), sum_eq_zero fun j _ => by rw [h (m - 1 - j) (by omega)]; ring]
    ring
  have hjoin : ∀ i, i + 1 < n → X i (b (i + 1)) = X (i + 1) (b (i + 1)) := by
    intro i hi
    simp only [hX, cross]
    rw [hz1 i (by omega), hz0 (i + 1) hi]
    congr 1
    · refine sum_congr rfl fun j hj => ?_
      have hj' := mem_range.mp hj
      by_cases hz : m - 1 - j = 0
      · rw [hz, hz1 i (by omega), hz0 (i + 1) hi]; ring
      · rw [hJ i hi (m + j) (by omega) (by omega)]
        simp only [hHdef]
        rw [hJ i hi (m - 1 - j) (by omega) (by omega), hK i hi (m - 1 - j) (by omega) (by omega)]
    · ring
  have hsum : ∀ k, k ≤ n → 0 < k → ∑ i ∈ range k, (X i (b (i + 1)) - X i (b i)) = X (k - 1) (b k) - X 0 (b 0) := by
    intro k
    induction k with
    | zero => intro _ h; omega
    | succ k ih =>
      intro hk _
      rcases Nat.eq_zero_or_pos k with rfl | hk0
      · simp
      · rw [sum_range_succ, ih (by omega) hk0, show k + 1 - 1 = k by omega]
        have := hjoin (k - 1) (by omega)
        rw [show k - 1 + 1 = k by omega] at this
        rw [this]; ring
  have hzero : ∑ i ∈ range n, ∫ t in (b i)..(b (i + 1)), (F i m t * H i m t + κ * (F i 1 t * H i 1 t)) = 0 := by
    rw [sum_congr rfl fun i hi => hXi i (mem_range.mp hi)]
    rcases Nat.eq_zero_or_pos n with rfl | hn
    · simp
    · rw [hsum n le_rfl hn, hXz (n - 1) (b n), hXz 0 (b 0)]
      · simp
      · intro d hd
        rcases Nat.eq_zero_or_pos d with rfl | hd0
        · exact hz0 0 hn
        · simp only [hHdef]; rw [hL d hd0 hd, sub_self]
      · intro d hd
        rcases Nat.eq_zero_or_pos d with rfl | hd0
        · have := hz1 (n - 1) (by omega)
          rwa [show n - 1 + 1 = n by omega] at this
        · simp only [hHdef]; rw [hR d hd0 hd, sub_self]
  have hsplit : total n m κ b G = total n m κ b F + total n m κ b H := by
    have : ∀ i ∈ range n, ∫ t in (b i)..(b (i + 1)), (G i m t ^ 2 + κ * G i 1 t ^ 2) =
        (∫ t in (b i)..(b (i + 1)), (F i m t ^ 2 + κ * F i 1 t ^ 2)) + (∫ t in (b i)..(b (i + 1)), (H i m t ^ 2 + κ * H i 1 t ^ 2)) +
          2 * ∫ t in (b i)..(b (i + 1)), (F i m t * H i m t + κ * (F i 1 t * H i 1 t)) := by
      intro i hi
      have hi := mem_range.mp hi
      have c1 := hFc i hi m; have c2 := hFc i hi 1; have c3 := hHc i hi m le_rfl; have c4 := hHc i hi 1 hm
      rw [← intervalIntegral.integral_const_mul, ← intervalIntegral.integral_add, ← intervalIntegral.integral_add]
      · refine intervalIntegral.integral_congr fun t _ => ?_
        simp only [hHdef]; ring
      all_goals exact Continuous.intervalIntegrable (by fun_prop) _ _
    unfold total
    rw [sum_congr rfl this, sum_add_distrib, sum_add_distrib, ← mul_sum, hzero]
    ring
  have hnn : ∀ i < n, 0 ≤ ∫ t in (b i)..(b (i + 1)), (H i m t ^ 2 + κ * H i 1 t ^ 2) := fun i hi =>
    intervalIntegral.integral_nonneg (hb i hi).le fun t _ => by positivity
  have hpos : 0 ≤ total n m κ b H := sum_nonneg fun i hi => hnn i (mem_range.mp hi)
  refine ⟨by linarith, fun hle => ?_, hsplit, hzero⟩
  have hH0 : total n m κ b H = 0 := le_antisymm (by linarith) hpos
  have hHm : ∀ i < n, ∀ t ∈ Set.Icc (b i) (b (i + 1)), H i m t = 0 := by
    intro i hi
    have hint : ∫ t in (b i)..(b (i + 1)), (H i m t ^ 2 + κ * H i 1 t ^ 2) = 0 :=
      (sum_eq_zero_iff_of_nonneg fun i hi => hnn i (mem_range.mp hi)).mp hH0 i (mem_range.mpr hi)
    intro t ht
    by_contra hne
    have hc : Continuous fun t => H i m t ^ 2 + κ * H i 1 t ^ 2 := by
      have c3 := hHc i hi m le_rfl; have c4 := hHc i hi 1 hm
      fun_prop
    have := intervalIntegral.integral_pos (hb i hi) hc.continuousOn (fun t _ => by positivity) ⟨t, ht, by
      have : 0 < H i m t ^ 2 := by positivity
      positivity⟩
    linarith
  have hall : ∀ i < n, ∀ d ≤ m, ∀ t ∈ Set.Icc (b i) (b (i + 1)), H i d t = 0 := by
    intro i
    induction i with
    | zero =>
      intro hi
      refine zero_of_top (hH 0 hi) (hHm 0 hi) fun d hd => ?_
      rcases Nat.eq_zero_or_pos d with rfl | hd0
      · exact hz0 0 hi
      · simp only [hHdef]; rw [hL d hd0 (by omega), sub_self]
    | succ i ih =>
      intro hi
      refine zero_of_top (hH _ hi) (hHm _ hi) fun d hd => ?_
      rcases Nat.eq_zero_or_pos d with rfl | hd0
      · exact hz0 _ hi
      · have := ih (by omega) d (by omega) _ ⟨(hb i (by omega)).le, le_rfl⟩
        simp only [hHdef] at this ⊢
        rw [← hJ i hi d hd0 (by omega), ← hK i hi d hd0 (by omega)]
        exact this
  intro i hi t ht
  exact sub_eq_zero.mp (hall i hi 0 (by omega) t ht)

end GSplines.Minimal
