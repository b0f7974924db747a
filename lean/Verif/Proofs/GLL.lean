import Verif.Model.GLL
import Verif.Proofs.Loops
import Verif.Proofs.LegendreOrtho
import Mathlib.Tactic.FieldSimp
import Mathlib.Tactic.LinearCombination

/-! # Gauss-Lobatto points and weights: proofs -/

namespace GSplines.GLL

open Polynomial Spec Finset
open LegendrePoly

theorem ok_bind {α β : Type} (a : α) (f : α → Res β) : ((Except.ok a : Res α) >>= f) = f a := rfl

theorem forLoopM_ind {σ : Type} (P : ℕ → σ → Prop) {a b : ℕ} (hab : a ≤ b) (body : ℕ → σ → Res σ) {s r : σ} (h0 : P a s)
    (hs : ∀ i, a ≤ i → i < b → ∀ st st', P i st → body i st = .ok st' → P (i + 1) st') (h : forLoopM a b body s = .ok r) : P b r := by
  unfold forLoopM at h
  obtain ⟨d, rfl⟩ : ∃ d, b = a + d := ⟨b - a, by omega⟩
  rw [show a + d - a = d by omega] at h
  clear hab
  induction d generalizing a s with
  | zero => simp only [List.range'_zero, List.foldlM_nil] at h; cases h; exact h0
  | succ d ih =>
    simp only [List.range'_succ, List.foldlM_cons] at h
    cases hb : body a s with
    | error e => rw [hb] at h; cases h
    | ok s1 =>
      rw [hb, ok_bind] at h
      have := ih (a := a + 1) (s := s1) (hs a le_rfl (by omega) s s1 h0 hb) (fun i h1 h2 => hs i (by omega) (by omega)) h
      rw [show a + (d + 1) = a + 1 + d by omega]; exact this

/-- The state of the loop of `q_and_evaluation`. -/
structure QInv (t : ℝ) (k : ℕ) (st : QSt) : Prop where
  lm2 : st.lm2 = (legendre (k - 2)).eval t
  lm1 : st.lm1 = (legendre (k - 1)).eval t
  pm2 : st.pm2 = (derivative (legendre (k - 2))).eval t
  pm1 : st.pm1 = (derivative (legendre (k - 1))).eval t
  ln : 3 ≤ k → st.ln = (legendre (k - 1)).eval t

theorem deriv_diff_eval (n : ℕ) (t : ℝ) : (derivative (legendre (n + 2))).eval t = (2 * (n : ℝ) + 3) * (legendre (n + 1)).eval t + (derivative (legendre n)).eval t := by
  have := congrArg (eval t) (deriv_diff n)
  simpa using this

theorem qLoop (t : ℝ) (n : ℕ) (hn : 2 ≤ n) : QInv t (n + 1) (forLoop 2 (n + 1) (qStep t) ⟨1, t, 0, 1, 0⟩) := by
  refine forLoop_ind (fun k st => QInv t k st) (by omega) _ _ ?_ ?_
  · constructor <;> simp [legendre_zero, legendre_one]
  · intro k st hk _ hst
    obtain ⟨m, rfl⟩ : ∃ m, k = m + 2 := ⟨k - 2, by omega⟩
    have hb := bonnet_eval m t
    have hd := deriv_diff_eval m t
    have h1 := hst.lm2; have h2 := hst.lm1; have h3 := hst.pm2; have h4 := hst.pm1
    simp only [show m + 2 - 2 = m by omega, show m + 2 - 1 = m + 1 by omega] at h1 h2 h3 h4
    have h0 : ((m : ℝ) + 2) ≠ 0 := by positivity
    have key : (2 * ((m + 2 : ℕ) : ℝ) - 1) / ((m + 2 : ℕ) : ℝ) * t * st.lm1 - (((m + 2 : ℕ) : ℝ) - 1) / ((m + 2 : ℕ) : ℝ) * st.lm2 = (legendre (m + 2)).eval t := by
      rw [h1, h2]; push_cast; field_simp; linear_combination -hb
    constructor
    · simp only [qStep, show m + 2 + 1 - 2 = m + 1 by omega, h2]
    · simp only [qStep, show m + 2 + 1 - 1 = m + 2 by omega]; exact key
    · simp only [qStep, show m + 2 + 1 - 2 = m + 1 by omega, h4]
    · simp only [qStep, show m + 2 + 1 - 1 = m + 2 by omega]; rw [h3, h2, hd]; push_cast; ring
    · intro _
      simp only [qStep, show m + 2 + 1 - 1 = m + 2 by omega]; exact key

theorem qAndEval_spec (t : ℝ) (n : ℕ) (hn : 2 ≤ n) :
    qAndEval t n = .ok ((legendre (n + 1) - legendre (n - 1)).eval t, (2 * (n : ℝ) + 1) * (legendre n).eval t, (legendre n).eval t) := by
  have H := qLoop t n hn
  have h1 := H.lm2; have h3 := H.pm2; have h5 := H.ln (by omega)
  unfold qAndEval
  rw [if_neg (by omega)]
  set st := forLoop 2 (n + 1) (qStep t) ⟨1, t, 0, 1, 0⟩
  obtain ⟨m, rfl⟩ : ∃ m, n = m + 1 := ⟨n - 1, by omega⟩
  have hb := bonnet_eval m t
  have h0 : ((m : ℝ) + 2) ≠ 0 := by positivity
  simp only [show m + 1 + 1 - 2 = m by omega, show m + 1 + 1 - 1 = m + 1 by omega, show m + 1 - 1 = m by omega] at h1 h3 h5 ⊢
  simp only [Except.ok.injEq, Prod.mk.injEq, eval_sub]
  refine ⟨?_, ?_, h5⟩
  · rw [h1, h5]
    congr 1
    push_cast
    have : ((m : ℝ) + 1 + 1) ≠ 0 := by positivity
    field_simp
    linear_combination -hb
  · rw [h3, h5]; push_cast; ring

/-! ## Parity -/

theorem legendre_neg (n : ℕ) (t : ℝ) : (legendre n).eval (-t) = (-1) ^ n * (legendre n).eval t := by
  induction n using Nat.twoStepInduction with
  | zero => simp [legendre_zero]
  | one => simp [legendre_one]
  | more n ih1 ih2 =>
    have h1 := bonnet_eval n t
    have h2 := bonnet_eval n (-t)
    rw [ih1, ih2] at h2
    have h0 : ((n : ℝ) + 2) ≠ 0 := by positivity
    have e : (-1 : ℝ) ^ (n + 2) = (-1) ^ n := by rw [pow_add]; norm_num
    have e1 : (-1 : ℝ) ^ (n + 1) = -(-1) ^ n := by rw [pow_add]; norm_num
    rw [e1] at h2
    rw [e]
    apply mul_left_cancel₀ h0
    rw [h2]
    linear_combination -(-1) ^ n * h1

theorem legendre_sq_neg (n : ℕ) (t : ℝ) : (legendre n).eval (-t) ^ 2 = (legendre n).eval t ^ 2 := by
  rw [legendre_neg, mul_pow, ← pow_mul, mul_comm n 2, pow_mul]; norm_num

/-! ## Weights -/

theorem weight_spec {N : ℕ} (hN : 2 ≤ N) {x w : ℝ} (h : weight N x = .ok w) :
    (legendre N).eval x ≠ 0 ∧ w = 2 / ((N : ℝ) * ((N : ℝ) + 1) * (legendre N).eval x ^ 2) := by
  unfold weight at h
  rw [qAndEval_spec x N hN, ok_bind] at h
  dsimp only at h
  split_ifs at h with h0
  cases h
  exact ⟨h0, rfl⟩

theorem weight_ok {N : ℕ} (hN : 2 ≤ N) {x : ℝ} (h : (legendre N).eval x ≠ 0) :
    weight N x = .ok (2 / ((N : ℝ) * ((N : ℝ) + 1) * (legendre N).eval x ^ 2)) := by
  unfold weight
  rw [qAndEval_spec x N hN, ok_bind]
  dsimp only
  rw [if_neg h]
  rfl

/-- Entry `i` of the vectors is as it should be for `N + 1` points. -/
structure Good (N : ℕ) (p w : Vec) (i : ℕ) : Prop where
  anti : p (N - i) = - p i
  symm : w (N - i) = w i
  ne : (legendre N).eval (p i) ≠ 0
  val : w i = 2 / ((N : ℝ) * ((N : ℝ) + 1) * (legendre N).eval (p i) ^ 2)

theorem Good.mirror {N : ℕ} {p w : Vec} {i : ℕ} (hi : i ≤ N) (h : Good N p w i) : Good N p w (N - i) := by
  have e : N - (N - i) = i := by omega
  refine ⟨?_, ?_, ?_, ?_⟩
  · rw [e, h.anti, neg_neg]
  · rw [e, h.symm]
  · rw [h.anti, legendre_neg]; exact mul_ne_zero (pow_ne_zero _ (by norm_num)) h.ne
  · rw [h.symm, h.anti, legendre_sq_neg]; exact h.val

theorem Good.congr {N : ℕ} {p w p' w' : Vec} {i : ℕ} (h : Good N p w i) (h1 : p' i = p i) (h2 : w' i = w i) (h3 : p' (N - i) = p (N - i))
    (h4 : w' (N - i) = w (N - i)) : Good N p' w' i :=
  ⟨by rw [h3, h1, h.anti], by rw [h4, h2, h.symm], by rw [h1]; exact h.ne, by rw [h1, h2]; exact h.val⟩

/-- What the loop has done before pass `j`. -/
structure PwInv (N j : ℕ) (st : Vec × Vec) : Prop where
  first : st.1 0 = -1
  good : ∀ i < j, Good N st.1 st.2 i

theorem start_inv {N : ℕ} (hN : 2 ≤ N) (jp jw : Vec) :
    PwInv N 1 (setAt (setAt jp 0 (-1)) N 1, setAt (setAt jw 0 (2 / ((N : ℝ) * ((N : ℝ) + 1)))) N (2 / ((N : ℝ) * ((N : ℝ) + 1)))) := by
  have h1 : (setAt (setAt jp 0 (-1)) N 1 : Vec) 0 = -1 := by rw [setAt_ne _ _ (by omega), setAt_self]
  have h2 : (setAt (setAt jw 0 (2 / ((N : ℝ) * ((N : ℝ) + 1)))) N (2 / ((N : ℝ) * ((N : ℝ) + 1))) : Vec) 0 = 2 / ((N : ℝ) * ((N : ℝ) + 1)) := by
    rw [setAt_ne _ _ (by omega), setAt_self]
  refine ⟨h1, fun i hi => ?_⟩
  obtain rfl : i = 0 := by omega
  refine ⟨?_, ?_, ?_, ?_⟩
  · simp only [Nat.sub_zero]; rw [h1, setAt_self]; norm_num
  · simp only [Nat.sub_zero]; rw [h2, setAt_self]
  · simp only; rw [h1, Legendre.legendre_eval_neg_one]; exact pow_ne_zero _ (by norm_num)
  · simp only; rw [h1, h2, Legendre.legendre_eval_neg_one, ← pow_mul, mul_comm N 2, pow_mul]; norm_num

theorem step_inv {N j : ℕ} (hN : 2 ≤ N) (h1 : 1 ≤ j) (hj : 2 * j < N) {st st' : Vec × Vec} (H : PwInv N j st) (h : pwStep N j st = .ok st') : PwInv N (j + 1) st' := by
  unfold pwStep at h
  cases hx : newton N 100 (guess N j) with
  | error e => rw [hx] at h; cases h
  | ok x =>
    rw [hx, ok_bind] at h
    dsimp only at h
    cases hw : weight N x with
    | error e => rw [hw] at h; cases h
    | ok w =>
      rw [hw, ok_bind] at h
      cases h
      obtain ⟨w1, w2⟩ := weight_spec hN hw
      constructor
      · dsimp only
        rw [setAt_ne _ _ (by omega), setAt_ne _ _ (by omega)]; exact H.first
      · intro i hi
        rcases Nat.lt_succ_iff_lt_or_eq.mp hi with hlt | rfl
        · refine (H.good i hlt).congr ?_ ?_ ?_ ?_ <;> dsimp only <;> rw [setAt_ne _ _ (by omega), setAt_ne _ _ (by omega)]
        · have e1 : (setAt (setAt st.1 i x) (N - i) (-x) : Vec) i = x := by rw [setAt_ne _ _ (by omega), setAt_self]
          have e2 : (setAt (setAt st.2 i w) (N - i) w : Vec) i = w := by rw [setAt_ne _ _ (by omega), setAt_self]
          refine ⟨?_, ?_, ?_, ?_⟩
          · dsimp only; rw [setAt_self, e1]
          · dsimp only; rw [setAt_self, e2]
          · dsimp only; rw [e1]; exact w1
          · dsimp only; rw [e1, e2]; exact w2

theorem pointsWeights_spec {n : ℕ} {jp jw p w : Vec} (h : pointsWeights n jp jw = .ok (p, w)) :
    2 ≤ n ∧ p 0 = -1 ∧ ∀ i < n, Good (n - 1) p w i := by
  unfold pointsWeights at h
  by_cases h2 : n < 2
  · rw [if_pos h2] at h; cases h
  rw [if_neg h2] at h
  by_cases he : n = 2
  · subst he
    rw [if_pos rfl] at h
    cases h
    refine ⟨le_rfl, by simp [setAt], fun i hi => ?_⟩
    interval_cases i
    · constructor <;> simp [setAt, legendre_one] <;> norm_num
    · constructor <;> simp [setAt, legendre_one] <;> norm_num
  rw [if_neg he] at h
  dsimp only at h
  have hN : 2 ≤ n - 1 := by omega
  cases hl : forLoopM 1 (n / 2) (pwStep (n - 1)) (setAt (setAt jp 0 (-1)) (n - 1) 1, setAt (setAt jw 0 (2 / (((n - 1 : ℕ) : ℝ) * (((n - 1 : ℕ) : ℝ) + 1)))) (n - 1)
      (2 / (((n - 1 : ℕ) : ℝ) * (((n - 1 : ℕ) : ℝ) + 1)))) with
  | error e => rw [hl] at h; cases h
  | ok st =>
    rw [hl, ok_bind] at h
    have H : PwInv (n - 1) (n / 2) st :=
      forLoopM_ind (fun j st => PwInv (n - 1) j st) (by omega) _ (start_inv hN jp jw) (fun i h1 h3 s s' hs hb => step_inv hN h1 (by omega) hs hb) hl
    by_cases hpar : (n - 1) % 2 = 0
    · rw [if_pos hpar] at h
      cases hw : weight (n - 1) 0 with
      | error e => rw [hw] at h; cases h
      | ok w0 =>
        rw [hw, ok_bind] at h
        cases h
        obtain ⟨w1, w2⟩ := weight_spec hN hw
        refine ⟨by omega, ?_, ?_⟩
        · rw [setAt_ne _ _ (by omega)]; exact H.first
        · have key : ∀ i ≤ (n - 1) / 2, Good (n - 1) (setAt st.1 ((n - 1) / 2) 0) (setAt st.2 ((n - 1) / 2) w0) i := by
            intro i hi
            rcases Nat.lt_or_eq_of_le hi with hlt | rfl
            · exact (H.good i (by omega)).congr (setAt_ne _ _ (by omega)) (setAt_ne _ _ (by omega)) (setAt_ne _ _ (by omega)) (setAt_ne _ _ (by omega))
            · have e : n - 1 - (n - 1) / 2 = (n - 1) / 2 := by omega
              exact ⟨by rw [e, setAt_self, neg_zero], by rw [e], by rw [setAt_self]; exact w1, by rw [setAt_self, setAt_self]; exact w2⟩
          intro i hi
          by_cases hm : i ≤ (n - 1) / 2
          · exact key i hm
          · have := (key (n - 1 - i) (by omega)).mirror (by omega)
            rwa [show n - 1 - (n - 1 - i) = i by omega] at this
    · rw [if_neg hpar] at h
      cases h
      refine ⟨by omega, H.first, fun i hi => ?_⟩
      by_cases hm : i < n / 2
      · exact H.good i hm
      · have := (H.good (n - 1 - i) (by omega)).mirror (by omega)
        rwa [show n - 1 - (n - 1 - i) = i by omega] at this

/-! ## The entries do not depend on the memory they are written to -/

theorem forLoopM_rel {σ : Type} (R : ℕ → σ → σ → Prop) {a b : ℕ} (hab : a ≤ b) (body : ℕ → σ → Res σ) {s t : σ} (h0 : R a s t)
    (hs : ∀ i, a ≤ i → i < b → ∀ x y, R i x y → (∃ e, body i x = .error e ∧ body i y = .error e) ∨ ∃ x' y', body i x = .ok x' ∧ body i y = .ok y' ∧ R (i + 1) x' y') :
    (∃ e, forLoopM a b body s = .error e ∧ forLoopM a b body t = .error e) ∨
      ∃ x y, forLoopM a b body s = .ok x ∧ forLoopM a b body t = .ok y ∧ R b x y := by
  unfold forLoopM
  obtain ⟨d, rfl⟩ : ∃ d, b = a + d := ⟨b - a, by omega⟩
  rw [show a + d - a = d by omega]
  clear hab
  induction d generalizing a s t with
  | zero => exact .inr ⟨s, t, rfl, rfl, h0⟩
  | succ d ih =>
    simp only [List.range'_succ, List.foldlM_cons]
    rcases hs a le_rfl (by omega) s t h0 with ⟨e, h1, h2⟩ | ⟨x', y', h1, h2, h3⟩
    · exact .inl ⟨e, by rw [h1]; rfl, by rw [h2]; rfl⟩
    · rw [h1, h2, ok_bind, ok_bind, show a + (d + 1) = a + 1 + d by omega]
      exact ih h3 (fun i h4 h5 => hs i (by omega) (by omega))

/-- Equal entries at `i < j` and their mirror images. -/
def Same (N j : ℕ) (s t : Vec × Vec) : Prop := ∀ i, (i < j ∨ (N < i + j ∧ i ≤ N)) → s.1 i = t.1 i ∧ s.2 i = t.2 i

theorem same_step {N j : ℕ} {s t : Vec × Vec} (H : Same N j s t) :
    (∃ e, pwStep N j s = .error e ∧ pwStep N j t = .error e) ∨ ∃ x' y', pwStep N j s = .ok x' ∧ pwStep N j t = .ok y' ∧ Same N (j + 1) x' y' := by
  unfold pwStep
  cases newton N 100 (guess N j) with
  | error e => exact .inl ⟨e, rfl, rfl⟩
  | ok x =>
    rw [ok_bind, ok_bind]
    dsimp only
    cases weight N x with
    | error e => exact .inl ⟨e, rfl, rfl⟩
    | ok w =>
      refine .inr ⟨_, _, rfl, rfl, ?_⟩
      intro i hi
      by_cases h1 : i = N - j
      · subst h1; simp
      · by_cases h2 : i = j
        · subst h2
          dsimp only
          rw [setAt_ne _ _ h1, setAt_ne _ _ h1, setAt_ne _ _ h1, setAt_ne _ _ h1, setAt_self, setAt_self, setAt_self, setAt_self]; exact ⟨rfl, rfl⟩
        · dsimp only
          rw [setAt_ne _ _ h1, setAt_ne _ _ h1, setAt_ne _ _ h1, setAt_ne _ _ h1, setAt_ne _ _ h2, setAt_ne _ _ h2, setAt_ne _ _ h2, setAt_ne _ _ h2]
          exact H i (by omega)

theorem pointsWeights_junk (n : ℕ) (jp jw jp' jw' : Vec) :
    (∃ e, pointsWeights n jp jw = .error e ∧ pointsWeights n jp' jw' = .error e) ∨
      ∃ r r', pointsWeights n jp jw = .ok r ∧ pointsWeights n jp' jw' = .ok r' ∧ ∀ i < n, r.1 i = r'.1 i ∧ r.2 i = r'.2 i := by
  unfold pointsWeights
  by_cases h2 : n < 2
  · rw [if_pos h2, if_pos h2]; exact .inl ⟨_, rfl, rfl⟩
  rw [if_neg h2, if_neg h2]
  by_cases he : n = 2
  · subst he
    rw [if_pos rfl, if_pos rfl]
    refine .inr ⟨_, _, rfl, rfl, fun i hi => ?_⟩
    interval_cases i <;> simp [setAt]
  rw [if_neg he, if_neg he]
  dsimp only
  rcases forLoopM_rel (fun j s t => Same (n - 1) j s t) (a := 1) (b := n / 2) (by omega) (pwStep (n - 1))
    (s := (setAt (setAt jp 0 (-1)) (n - 1) 1, setAt (setAt jw 0 (2 / (((n - 1 : ℕ) : ℝ) * (((n - 1 : ℕ) : ℝ) + 1)))) (n - 1)
      (2 / (((n - 1 : ℕ) : ℝ) * (((n - 1 : ℕ) : ℝ) + 1)))))
    (t := (setAt (setAt jp' 0 (-1)) (n - 1) 1, setAt (setAt jw' 0 (2 / (((n - 1 : ℕ) : ℝ) * (((n - 1 : ℕ) : ℝ) + 1)))) (n - 1)
      (2 / (((n - 1 : ℕ) : ℝ) * (((n - 1 : ℕ) : ℝ) + 1)))))
    (by
      intro i hi
      have hi' : i = 0 ∨ i = n - 1 := by omega
      rcases hi' with rfl | rfl
      · have h01 : (0 : ℕ) ≠ n - 1 := by omega
        simp [setAt, h01]
      · simp)
    (fun i _ _ x y hxy => same_step hxy) with ⟨e, h3, h4⟩ | ⟨x, y, h3, h4, hxy⟩
  · exact .inl ⟨e, by rw [h3]; rfl, by rw [h4]; rfl⟩
  · rw [h3, h4, ok_bind, ok_bind]
    by_cases hpar : (n - 1) % 2 = 0
    · rw [if_pos hpar, if_pos hpar]
      cases weight (n - 1) 0 with
      | error e => exact .inl ⟨e, rfl, rfl⟩
      | ok w =>
        refine .inr ⟨_, _, rfl, rfl, fun i hi => ?_⟩
        by_cases hm : i = (n - 1) / 2
        · subst hm; simp
        · dsimp only
          rw [setAt_ne _ _ hm, setAt_ne _ _ hm, setAt_ne _ _ hm, setAt_ne _ _ hm]
          exact hxy i (by omega)
    · rw [if_neg hpar, if_neg hpar]
      exact .inr ⟨_, _, rfl, rfl, fun i hi => hxy i (by omega)⟩

/-! ## Segments -/

theorem segments_spec (m n : ℕ) (f : ℕ → Vec) (r : Vec) {iv k : ℕ} (hiv : iv < n) (hk : k < m) : segments m n f r (iv * m + k) = f iv k := by
  unfold segments
  have inner : ∀ (iv : ℕ) (r : Vec), (∀ k < m, forLoop 0 m (fun k r => setAt r (iv * m + k) (f iv k)) r (iv * m + k) = f iv k) ∧
      ∀ x, (x < iv * m ∨ iv * m + m ≤ x) → forLoop 0 m (fun k r => setAt r (iv * m + k) (f iv k)) r x = r x := by
    intro iv r
    have := forLoop_ind (fun j s => (∀ k < j, s (iv * m + k) = f iv k) ∧ ∀ x, (x < iv * m ∨ iv * m + j ≤ x) → s x = r x) (Nat.zero_le m)
      (fun k r => setAt r (iv * m + k) (f iv k)) r ⟨fun k hk => absurd hk (by omega), fun _ _ => rfl⟩ (by
        intro i s _ _ hs
        constructor
        · intro k hk
          by_cases he : k = i
          · subst he; rw [setAt_self]
          · rw [setAt_ne _ _ (by omega)]; exact hs.1 k (by omega)
        · intro x hx
          rw [setAt_ne _ _ (by omega)]; exact hs.2 x (by omega))
    exact this
  have := forLoop_ind (fun j s => ∀ iv < j, ∀ k < m, s (iv * m + k) = f iv k) (Nat.zero_le n)
    (fun iv r => forLoop 0 m (fun k r => setAt r (iv * m + k) (f iv k)) r) r (fun k hk => absurd hk (by omega)) (by
      intro i s _ _ hs iv hiv k hk
      by_cases he : iv = i
      · subst he; exact (inner iv s).1 k hk
      · rw [(inner i s).2 _ (by
          left
          have : (iv + 1) * m ≤ i * m := Nat.mul_le_mul_right m (by omega)
          rw [Nat.add_mul, one_mul] at this; omega)]
        exact hs iv (by omega) k hk)
  exact this iv hiv k hk

end GSplines.GLL
