import Verif.Proofs.GLLNewton

/-!
# The Gauss-Lobatto points and weights, for every number of points
-/

namespace GSplines.GLL

open GSplines Polynomial Spec LegendrePoly Legendre Real

theorem forLoopM_ok {σ : Type} {a b : ℕ} (body : ℕ → σ → Res σ) (s : σ) (hs : ∀ i, a ≤ i → i < b → ∀ st, ∃ st', body i st = .ok st') :
    ∃ r, forLoopM a b body s = .ok r := by
  unfold forLoopM
  rcases Nat.lt_or_ge b a with hba | hab
  · rw [show b - a = 0 by omega]; exact ⟨s, rfl⟩
  obtain ⟨d, rfl⟩ : ∃ d, b = a + d := ⟨b - a, by omega⟩
  rw [show a + d - a = d by omega]
  clear hab
  induction d generalizing a s with
  | zero => exact ⟨s, rfl⟩
  | succ d ih =>
    obtain ⟨s1, h1⟩ := hs a le_rfl (by omega) s
    simp only [List.range'_succ, List.foldlM_cons, h1]
    rw [ok_bind]
    exact ih (a := a + 1) s1 fun i h2 h3 => hs i (by omega) (by omega)

theorem win_ne {N j : ℕ} (h : Win N j) {x : ℝ} (hx : x ∈ Set.Icc (pt N j (π / 20)) (pt N j (3 * π / 8))) : (legendre N).eval x ≠ 0 := by
  obtain ⟨u, hu, rfl⟩ := exists_pt N j (by have := pi_pos; linarith) (mid_sub h hx)
  exact (win_step h hu.1 hu.2).1

theorem legendre_even_ne {N : ℕ} (hN : 1 ≤ N) (he : N % 2 = 0) : (legendre N).eval 0 ≠ 0 := by
  intro h
  have h1 := sin_half N
  have h2 : pf N (π / 2) = 0 := by unfold pf; simp [h]
  have h3 : cos (N * π / 2) ≠ 0 := by
    obtain ⟨m, rfl⟩ : ∃ m, N = 2 * m := ⟨N / 2, by omega⟩
    rw [show ((2 * m : ℕ) : ℝ) * π / 2 = m * π by push_cast; ring, cos_nat_mul_pi]
    exact pow_ne_zero _ (by norm_num)
  rw [h2, zero_mul] at h1
  have h4 := (mul_eq_zero.mp h1.symm).resolve_right h3
  have := pf_vf_ne hN (sin_ne mid_mem)
  rw [h2, h4] at this
  norm_num at this

/-- The function returns for every number of points. -/
theorem pw_total {n : ℕ} (hn : 2 ≤ n) (jp jw : Vec) : ∃ p w, pointsWeights n jp jw = .ok (p, w) := by
  unfold pointsWeights
  rw [if_neg (by omega)]
  by_cases h2 : n = 2
  · rw [if_pos h2]; exact ⟨_, _, rfl⟩
  rw [if_neg h2]
  dsimp only
  have hN : 2 ≤ n - 1 := by omega
  obtain ⟨st, hst⟩ := forLoopM_ok (a := 1) (b := n / 2) (pwStep (n - 1))
    (setAt (setAt jp 0 (-1)) (n - 1) 1, setAt (setAt jw 0 (2 / (((n - 1 : ℕ) : ℝ) * (((n - 1 : ℕ) : ℝ) + 1)))) (n - 1)
      (2 / (((n - 1 : ℕ) : ℝ) * (((n - 1 : ℕ) : ℝ) + 1)))) (by
    intro j h1 h3 st
    have hw : Win (n - 1) j := ⟨h1, by omega⟩
    obtain ⟨x, hx, e, -⟩ := newton_converges hw
    unfold pwStep
    rw [e, ok_bind, weight_ok hN (win_ne hw hx), ok_bind]
    exact ⟨_, rfl⟩)
  rw [hst, ok_bind]
  by_cases hpar : (n - 1) % 2 = 0
  · rw [if_pos hpar, weight_ok hN (legendre_even_ne (by omega) hpar), ok_bind]
    exact ⟨_, _, rfl⟩
  · rw [if_neg hpar]
    exact ⟨_, _, rfl⟩

/-- The points of the left half are those of Newton's method, the middle one is zero. -/
theorem pw_node {n : ℕ} {jp jw p w : Vec} (h : pointsWeights n jp jw = .ok (p, w)) :
    (∀ j, 1 ≤ j → j < n / 2 → newton (n - 1) 100 (guess (n - 1) j) = .ok (p j)) ∧ (n % 2 = 1 → p (n / 2) = 0) := by
  unfold pointsWeights at h
  by_cases h2 : n < 2
  · rw [if_pos h2] at h; cases h
  rw [if_neg h2] at h
  by_cases he : n = 2
  · subst he
    exact ⟨fun j h1 h3 => by omega, fun h3 => by omega⟩
  rw [if_neg he] at h
  dsimp only at h
  cases hl : forLoopM 1 (n / 2) (pwStep (n - 1)) (setAt (setAt jp 0 (-1)) (n - 1) 1, setAt (setAt jw 0 (2 / (((n - 1 : ℕ) : ℝ) * (((n - 1 : ℕ) : ℝ) + 1)))) (n - 1)
      (2 / (((n - 1 : ℕ) : ℝ) * (((n - 1 : ℕ) : ℝ) + 1)))) with
  | error e => rw [hl] at h; cases h
  | ok st =>
    rw [hl, ok_bind] at h
    have H : ∀ j, 1 ≤ j → j < n / 2 → newton (n - 1) 100 (guess (n - 1) j) = .ok (st.1 j) := by
      refine forLoopM_ind (fun k (st : Vec × Vec) => ∀ j, 1 ≤ j → j < k → newton (n - 1) 100 (guess (n - 1) j) = .ok (st.1 j)) (by omega) _
        (fun j h1 h3 => by omega) (fun i h1 h3 s s' hs hb => ?_) hl
      unfold pwStep at hb
      cases hx : newton (n - 1) 100 (guess (n - 1) i) with
      | error e => rw [hx] at hb; cases hb
      | ok x =>
        rw [hx, ok_bind] at hb
        dsimp only at hb
        cases hw : weight (n - 1) x with
        | error e => rw [hw] at hb; cases hb
        | ok w =>
          rw [hw, ok_bind] at hb
          cases hb
          intro j h4 h5
          dsimp only
          rw [setAt_ne _ _ (by omega)]
          rcases Nat.lt_succ_iff_lt_or_eq.mp h5 with hlt | rfl
          · rw [setAt_ne _ _ (by omega)]; exact hs j h4 hlt
          · rw [setAt_self]; exact hx
    by_cases hpar : (n - 1) % 2 = 0
    · rw [if_pos hpar] at h
      cases hw : weight (n - 1) 0 with
      | error e => rw [hw] at h; cases h
      | ok w0 =>
        rw [hw, ok_bind] at h
        cases h
        refine ⟨fun j h1 h3 => ?_, fun h3 => ?_⟩
        · rw [setAt_ne _ _ (by omega)]; exact H j h1 h3
        · rw [show n / 2 = (n - 1) / 2 by omega, setAt_self]
    · rw [if_neg hpar] at h
      cases h
      exact ⟨H, fun h3 => by omega⟩

/-- The points of the left half are in their windows. -/
theorem pw_win {n : ℕ} {jp jw p w : Vec} (h : pointsWeights n jp jw = .ok (p, w)) {j : ℕ} (h1 : 1 ≤ j) (h2 : j < n / 2) :
    p j ∈ Set.Icc (pt (n - 1) j (π / 20)) (pt (n - 1) j (3 * π / 8)) ∧
      ∃ r ∈ Set.Icc (pt (n - 1) j (π / 20)) (pt (n - 1) j (3 * π / 8)), (qPoly (n - 1)).eval r = 0 ∧ |p j - r| ≤ tol9 * |p j| := by
  obtain ⟨x, hx, e, hr⟩ := newton_converges (⟨h1, by omega⟩ : Win (n - 1) j)
  have := (pw_node h).1 j h1 h2
  rw [e] at this
  injection this with this
  subst this
  exact ⟨hx, hr⟩

/-! ## The points are in order and apart from each other -/

/-- Two consecutive windows. -/
theorem win_gap {N j : ℕ} (h : Win N (j + 1)) (h' : Win N j) : 2 / nu N ^ 2 ≤ pt N (j + 1) (π / 20) - pt N j (3 * π / 8) := by
  have hpi1 := pi_gt_d4
  have hpi2 := pi_lt_d4
  have hn := nu_pos N
  have hj : (1 : ℝ) ≤ j := by exact_mod_cast h'.one
  have a1 := ang_mem h' (s := 3 * π / 8) (by linarith) (by linarith)
  have a2 := ang_mem h (s := π / 20) (by linarith) (by linarith)
  set α := ang N j (3 * π / 8) with hα
  set β := ang N (j + 1) (π / 20) with hβ
  have e1 : nu N * α = j * π + 3 * π / 8 := nu_ang N j _
  have e2 : nu N * β = j * π + π + π / 20 := by rw [hβ, nu_ang]; push_cast; ring
  have hlt : α < β := by
    by_contra hcon
    push Not at hcon
    have := mul_le_mul_of_nonneg_left hcon hn.le
    linarith
  have e : pt N (j + 1) (π / 20) - pt N j (3 * π / 8) = 2 * sin ((β + α) / 2) * sin ((β - α) / 2) := by
    unfold pt
    rw [← hα, ← hβ]
    have := cos_sub_cos β α
    linarith
  have s1 := mul_le_sin (x := (β + α) / 2) (by linarith) (by linarith)
  have s2 := mul_le_sin (x := (β - α) / 2) (by linarith) (by linarith)
  have b1 : nu N * (2 / π * ((β + α) / 2)) = 2 * j + 1 + 17 / 40 := by
    have := pi_pos.ne'
    have : nu N * (2 / π * ((β + α) / 2)) = (nu N * β + nu N * α) / π := by field_simp
    rw [this, e1, e2]; field_simp; ring
  have b2 : nu N * (2 / π * ((β - α) / 2)) = 27 / 40 := by
    have := pi_pos.ne'
    have : nu N * (2 / π * ((β - α) / 2)) = (nu N * β - nu N * α) / π := by field_simp
    rw [this, e1, e2]; field_simp; ring
  rw [e, div_le_iff₀ (by positivity)]
  have c1 := mul_le_mul_of_nonneg_left s1 hn.le
  have c2 := mul_le_mul_of_nonneg_left s2 hn.le
  rw [b1] at c1
  rw [b2] at c2
  nlinarith

/-- The first window. -/
theorem win_first {N : ℕ} (h : Win N 1) : 2 / nu N ^ 2 ≤ pt N 1 (π / 20) + 1 := by
  have hpi1 := pi_gt_d4
  have hpi2 := pi_lt_d4
  have hn := nu_pos N
  have a1 := ang_mem h (s := π / 20) (by linarith) (by linarith)
  have e1 : nu N * ang N 1 (π / 20) = π + π / 20 := by rw [nu_ang]; push_cast; ring
  unfold pt
  set α := ang N 1 (π / 20)
  have e : -cos α + 1 = 2 * sin (α / 2) ^ 2 := by
    have h1 := cos_two_mul (α / 2)
    have h2 := sin_sq_add_cos_sq (α / 2)
    rw [show 2 * (α / 2) = α by ring] at h1
    linarith
  have s1 := mul_le_sin (x := α / 2) (by linarith) (by linarith)
  have b1 : nu N * (2 / π * (α / 2)) = 21 / 20 := by
    have := pi_pos.ne'
    have : nu N * (2 / π * (α / 2)) = nu N * α / π := by field_simp
    rw [this, e1]; field_simp; norm_num
  have c1 := mul_le_mul_of_nonneg_left s1 hn.le
  rw [b1] at c1
  rw [e, div_le_iff₀ (by positivity)]
  nlinarith

/-- An antisymmetric arrangement of points, with the points of the left half in their windows. -/
structure Arr (n : ℕ) (p : Vec) : Prop where
  two : 2 ≤ n
  first : p 0 = -1
  anti : ∀ i < n, p (n - 1 - i) = -p i
  win : ∀ j, 1 ≤ j → j < n / 2 → p j ∈ Set.Icc (pt (n - 1) j (π / 20)) (pt (n - 1) j (3 * π / 8))
  mid : n % 2 = 1 → p (n / 2) = 0

/-- The points of the left half are negative. -/
theorem Arr.neg {n : ℕ} {p : Vec} (h : Arr n p) {j : ℕ} (h2 : j < n / 2) : p j ≤ -(2 / nu (n - 1) ^ 2) := by
  have hn := h.two
  have h0 := h.first
  have hnu := nu_pos (n - 1)
  rcases Nat.eq_zero_or_pos j with rfl | h1
  · rw [h0]
    rw [neg_le_neg_iff, div_le_one (by positivity)]
    have : (1 : ℝ) ≤ ((n - 1 : ℕ) : ℝ) := by exact_mod_cast (by omega : 1 ≤ n - 1)
    unfold nu
    nlinarith
  · have hw : Win (n - 1) j := ⟨h1, by omega⟩
    have hx := h.win _ h1 h2
    have ha := pt_abs hw hx
    have hneg : p j ≤ 0 := by
      refine hx.2.trans ?_
      unfold pt
      have := cos_ang_nonneg hw (s := 3 * π / 8) (by have := pi_pos; linarith) (by have := pi_pos; linarith)
      linarith
    rw [abs_of_nonpos hneg] at ha
    have h3 := nu_ge hw
    have : 2 / nu (n - 1) ^ 2 ≤ 3 / 4 * (1 / nu (n - 1)) := by
      rw [mul_one_div, div_le_div_iff₀ (by positivity) hnu]; nlinarith
    linarith

/-- Consecutive points are at least `2 / (n - 1/2)²` apart. -/
theorem Arr.gap {n : ℕ} {p : Vec} (h : Arr n p) {i : ℕ} (hi : i + 1 < n) : 2 / nu (n - 1) ^ 2 ≤ p (i + 1) - p i := by
  have hn := h.two
  have h0 := h.first
  have hg := h.anti
  have hpos : 0 < 2 / nu (n - 1) ^ 2 := by have := nu_pos (n - 1); positivity
  -- the left half
  have left : ∀ i, i + 1 < n / 2 → 2 / nu (n - 1) ^ 2 ≤ p (i + 1) - p i := by
    intro i hi
    have hw : Win (n - 1) (i + 1) := ⟨by omega, by omega⟩
    have hx := h.win _ (by omega : 1 ≤ i + 1) hi
    rcases Nat.eq_zero_or_pos i with rfl | h1
    · rw [h0]
      have := win_first hw
      linarith [hx.1]
    · have hx' := h.win _ h1 (by omega)
      have := win_gap hw ⟨h1, by omega⟩
      linarith [hx.1, hx'.2]
  have half : ∀ i, i < n / 2 → i + 1 = n / 2 ∨ i + 1 < n / 2 := fun i hi => by omega
  -- at the middle
  rcases Nat.lt_or_ge (i + 1) (n / 2) with h1 | h1
  · exact left i h1
  rcases Nat.lt_or_ge i (n / 2) with h2 | h2
  · have a1 := Arr.neg h h2
    by_cases hpar : n % 2 = 1
    · have := h.mid hpar
      rw [show i + 1 = n / 2 by omega, this]; linarith
    · have a2 := hg i (by omega)
      rw [show n - 1 - i = i + 1 by omega] at a2
      rw [a2]; linarith
  · -- the right half
    have a1 := hg i (by omega)
    have a2 := hg (i + 1) hi
    have e : n - 1 - i = n - 1 - (i + 1) + 1 := by omega
    rw [e] at a1
    rcases Nat.lt_or_ge (n - 1 - (i + 1) + 1) (n / 2) with h3 | h3
    · have := left _ h3
      rw [a1, a2] at this
      linarith
    · have hpar : n % 2 = 1 := by omega
      have hm := h.mid hpar
      have hi2 : i = n / 2 := by omega
      have a3 := Arr.neg h (j := n - 1 - (i + 1)) (by omega)
      rw [a2] at a3
      rw [hi2] at a3 ⊢
      rw [hm]; linarith

theorem Arr.lt {n : ℕ} {p : Vec} (h : Arr n p) {i j : ℕ} (hij : i < j) (hj : j < n) : 2 / nu (n - 1) ^ 2 ≤ p j - p i := by
  obtain ⟨d, rfl⟩ : ∃ d, j = i + 1 + d := ⟨j - i - 1, by omega⟩
  have hpos : 0 < 2 / nu (n - 1) ^ 2 := by have := nu_pos (n - 1); positivity
  clear hij
  induction d with
  | zero => exact Arr.gap h hj
  | succ d ih =>
    have h1 := ih (by omega)
    have h2 := Arr.gap h (i := i + 1 + d) (by omega)
    rw [show i + 1 + (d + 1) = i + 1 + d + 1 by omega]
    linarith

/-! ## The computed points and the exact ones -/

theorem pw_arr {n : ℕ} {jp jw p w : Vec} (h : pointsWeights n jp jw = .ok (p, w)) : Arr n p := by
  obtain ⟨hn, h0, hg⟩ := pointsWeights_spec h
  exact ⟨hn, h0, fun i hi => (hg i hi).anti, fun j h1 h2 => (pw_win h h1 h2).1, (pw_node h).2⟩

theorem qPoly_neg {N : ℕ} (hN : 1 ≤ N) {x : ℝ} (h : (qPoly N).eval x = 0) : (qPoly N).eval (-x) = 0 := by
  unfold qPoly at h ⊢
  rw [eval_sub] at h ⊢
  rw [legendre_neg, legendre_neg]
  obtain ⟨M, rfl⟩ : ∃ M, N = M + 1 := ⟨N - 1, by omega⟩
  simp only [show M + 1 - 1 = M by omega] at h ⊢
  rw [show M + 1 + 1 = M + 2 by omega, pow_add] at *
  linear_combination (-1) ^ M * h

theorem qPoly_one (N : ℕ) : (qPoly N).eval 1 = 0 := by
  unfold qPoly
  rw [eval_sub, legendre_eval_one, legendre_eval_one, sub_self]

/-- Every computed point is within a relative `1e-9` of an exact one, and these are in order. -/
theorem pw_exact {n : ℕ} {jp jw p w : Vec} (h : pointsWeights n jp jw = .ok (p, w)) :
    ∃ r : Vec, Arr n r ∧ (∀ i < n, (qPoly (n - 1)).eval (r i) = 0) ∧ ∀ i < n, |p i - r i| ≤ tol9 * |p i| := by
  obtain ⟨hn, h0, hg⟩ := pointsWeights_spec h
  have htol : 0 < tol9 := by unfold tol9; positivity
  have hN : 1 ≤ n - 1 := by omega
  have hch : ∀ j, ∃ r, 1 ≤ j → j < n / 2 → r ∈ Set.Icc (pt (n - 1) j (π / 20)) (pt (n - 1) j (3 * π / 8)) ∧ (qPoly (n - 1)).eval r = 0 ∧ |p j - r| ≤ tol9 * |p j| := by
    intro j
    by_cases hj : 1 ≤ j ∧ j < n / 2
    · obtain ⟨-, r, h1, h2, h3⟩ := pw_win h hj.1 hj.2
      exact ⟨r, fun _ _ => ⟨h1, h2, h3⟩⟩
    · exact ⟨0, fun h1 h2 => absurd ⟨h1, h2⟩ hj⟩
  choose s hs using hch
  -- the left half
  set l : Vec := fun i => if i = 0 then -1 else s i with hl
  have hl0 : l 0 = -1 := by simp [hl]
  have hl1 : ∀ i, 1 ≤ i → l i = s i := fun i hi => by simp [hl, show i ≠ 0 by omega]
  have hlq : ∀ i < n / 2, (qPoly (n - 1)).eval (l i) = 0 ∧ |p i - l i| ≤ tol9 * |p i| := by
    intro i hi
    rcases Nat.eq_zero_or_pos i with rfl | h1
    · rw [hl0, h0]
      exact ⟨qPoly_neg hN (qPoly_one _), by rw [sub_self, abs_zero]; positivity⟩
    · rw [hl1 i h1]
      exact (hs i h1 hi).2
  set r : Vec := fun i => if i < n / 2 then l i else if n - 1 - i < n / 2 then -l (n - 1 - i) else 0 with hr
  have r1 : ∀ i, i < n / 2 → r i = l i := fun i hi => by simp only [hr]; rw [if_pos hi]
  have r2 : ∀ i, ¬ i < n / 2 → n - 1 - i < n / 2 → r i = -l (n - 1 - i) := fun i hi hi' => by simp only [hr]; rw [if_neg hi, if_pos hi']
  have r3 : ∀ i, ¬ i < n / 2 → ¬ n - 1 - i < n / 2 → r i = 0 := fun i hi hi' => by simp only [hr]; rw [if_neg hi, if_neg hi']
  have e : ∀ i < n, n - 1 - (n - 1 - i) = i := fun i hi => by omega
  refine ⟨r, ⟨hn, by rw [r1 0 (by omega), hl0], fun i hi => ?_, fun j h1 h2 => by rw [r1 j h2, hl1 j h1]; exact (hs j h1 h2).1, fun hpar => r3 _ (by omega) (by omega)⟩,
    fun i hi => ?_, fun i hi => ?_⟩
  · by_cases c1 : i < n / 2
    · rw [r2 (n - 1 - i) (by omega) (by rw [e i hi]; exact c1), e i hi, r1 i c1]
    · by_cases c2 : n - 1 - i < n / 2
      · rw [r1 _ c2, r2 i c1 c2, neg_neg]
      · rw [r3 i c1 c2, r3 _ c2 (by rw [e i hi]; exact c1), neg_zero]
  · by_cases c1 : i < n / 2
    · rw [r1 i c1]; exact (hlq i c1).1
    · by_cases c2 : n - 1 - i < n / 2
      · rw [r2 i c1 c2]; exact qPoly_neg hN (hlq _ c2).1
      · rw [r3 i c1 c2]
        have h3 : (n - 1) % 2 = 0 := by omega
        unfold qPoly
        have o : ∀ k, k % 2 = 1 → (legendre k).eval 0 = 0 := by
          intro k hk
          have := legendre_neg k 0
          obtain ⟨m, rfl⟩ : ∃ m, k = 2 * m + 1 := ⟨k / 2, by omega⟩
          rw [neg_zero, pow_succ, pow_mul] at this
          norm_num at this
          linarith
        rw [eval_sub, o _ (by omega), o _ (by omega), sub_self]
  · by_cases c1 : i < n / 2
    · rw [r1 i c1]; exact (hlq i c1).2
    · by_cases c2 : n - 1 - i < n / 2
      · have := (hlq _ c2).2
        rw [r2 i c1 c2]
        have ha := (hg i hi).anti
        rw [ha] at this
        rw [abs_neg] at this
        rw [← abs_neg]
        rwa [show -(p i - -l (n - 1 - i)) = -p i - l (n - 1 - i) by ring]
      · rw [r3 i c1 c2, show i = n / 2 by omega, (pw_node h).2 (by omega)]
        simp

end GSplines.GLL
