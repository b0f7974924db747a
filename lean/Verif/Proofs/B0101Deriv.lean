import Verif.Model.B0101
import Verif.Proofs.Loops
import Mathlib.Analysis.Calculus.IteratedDeriv.Defs
import Mathlib.Analysis.SpecialFunctions.ExpDeriv
import Mathlib.Analysis.SpecialFunctions.Trigonometric.Deriv
import Mathlib.Tactic.FieldSimp
import Mathlib.Tactic.IntervalCases
import Mathlib.Tactic.LinearCombination
import Mathlib.Tactic.Ring

/-! # Basis0101: derivatives -/

namespace GSplines.B0101

open GSplines Real Finset

/-- The basis functions in the variable `p`. -/
noncomputable def wv (p : ℝ) : Vec := vec6 (exp p * cos p) (exp p * sin p) (cos p / exp p) (sin p / exp p) p 1

theorem evalOnWindow_eq (alpha s tau : ℝ) : evalOnWindow alpha s tau = wv (tau * kOf alpha * s) := rfl

theorem vec6_cases {P : ℕ → ℝ → Prop} {a b c d e f : ℝ} (h0 : P 0 a) (h1 : P 1 b) (h2 : P 2 c) (h3 : P 3 d) (h4 : P 4 e) (h5 : P 5 f)
    (h : ∀ i, P (i + 6) 0) : ∀ i, P i (vec6 a b c d e f i)
  | 0 => h0
  | 1 => h1
  | 2 => h2
  | 3 => h3
  | 4 => h4
  | 5 => h5
  | i + 6 => h i

theorem dstep_hasDerivAt {V : ℝ → Vec} {V' : Vec} {u : ℝ} (h : ∀ i, HasDerivAt (fun u => V u i) (V' i) u) :
    ∀ i, HasDerivAt (fun u => dstep (V u) i) (dstep V' i) u
  | 0 => (h 0).sub (h 1)
  | 1 => (h 0).add (h 1)
  | 2 => (h 2).neg.sub (h 3)
  | 3 => (h 2).sub (h 3)
  | 4 => h 5
  | 5 => hasDerivAt_const u 0
  | _ + 6 => hasDerivAt_const u 0

theorem wv_hasDerivAt (u : ℝ) : ∀ i, HasDerivAt (fun u => wv u i) (dstep (wv u) i) u
  | 0 => by
    refine HasDerivAt.congr_deriv ((hasDerivAt_exp u).mul (hasDerivAt_cos u)) ?_
    simp only [dstep, wv, vec6]; ring
  | 1 => by
    refine HasDerivAt.congr_deriv ((hasDerivAt_exp u).mul (hasDerivAt_sin u)) ?_
    simp only [dstep, wv, vec6]; ring
  | 2 => by
    refine HasDerivAt.congr_deriv ((hasDerivAt_cos u).div (hasDerivAt_exp u) (exp_ne_zero u)) ?_
    simp only [dstep, wv, vec6]; field_simp; ring
  | 3 => by
    refine HasDerivAt.congr_deriv ((hasDerivAt_sin u).div (hasDerivAt_exp u) (exp_ne_zero u)) ?_
    simp only [dstep, wv, vec6]; field_simp
  | 4 => hasDerivAt_id u
  | 5 => hasDerivAt_const u 1
  | _ + 6 => hasDerivAt_const u 0

theorem iter_hasDerivAt (n : ℕ) (u : ℝ) : ∀ i, HasDerivAt (fun u => dstep^[n] (wv u) i) (dstep^[n + 1] (wv u) i) u := by
  induction n with
  | zero => exact wv_hasDerivAt u
  | succ n ih =>
    intro i
    have := dstep_hasDerivAt ih i
    simpa only [Function.iterate_succ_apply'] using this

theorem dstep_smul (c : ℝ) (v : Vec) : dstep (fun i => c * v i) = fun i => c * dstep v i := by
  funext i
  match i with
  | 0 => simp only [dstep, vec6]; ring
  | 1 => simp only [dstep, vec6]; ring
  | 2 => simp only [dstep, vec6]; ring
  | 3 => simp only [dstep, vec6]; ring
  | 4 => simp only [dstep, vec6]
  | 5 => simp only [dstep, vec6]; ring
  | i + 6 => simp only [dstep, vec6]; ring

theorem evalDeriv_eq (alpha s tau : ℝ) (d : ℕ) :
    evalDerivOnWindow alpha s tau d = fun i => (2 * kOf alpha) ^ d * dstep^[d] (wv (tau * kOf alpha * s)) i := by
  unfold evalDerivOnWindow
  simp only
  have key := forLoop_ind (P := fun n (v : Vec) => v = fun i => (2 * kOf alpha) ^ (n - 1) * dstep^[n - 1] (wv (tau * kOf alpha * s)) i)
    (a := 1) (b := d + 1) (body := fun _ v i => dstep v i * (kOf alpha * 2)) (s := wv (tau * kOf alpha * s)) (by omega)
    (by funext i; simp)
    (by
      intro n v hn1 hn2 hv
      obtain ⟨m, rfl⟩ : ∃ m, n = m + 1 := ⟨n - 1, by omega⟩
      simp only [Nat.add_sub_cancel] at hv ⊢
      rw [hv]
      funext i
      rw [dstep_smul, Function.iterate_succ_apply']
      ring)
  simp only [Nat.add_sub_cancel] at key
  exact key

/-- Chain rule: along `p = k (2 t - tau)`. -/
theorem iteratedDeriv_wv (k : ℝ) {tau : ℝ} (h : tau ≠ 0) (d i : ℕ) :
    iteratedDeriv d (fun t => wv (tau * k * (2 * t / tau - 1)) i)
      = fun t => (2 * k) ^ d * dstep^[d] (wv (tau * k * (2 * t / tau - 1))) i := by
  induction d with
  | zero => simp
  | succ d ih =>
    rw [iteratedDeriv_succ, ih]
    funext t
    have h1 : HasDerivAt (fun t : ℝ => tau * k * (2 * t / tau - 1)) (2 * k) t := by
      refine HasDerivAt.congr_deriv (((((hasDerivAt_id t).const_mul 2).div_const tau).sub_const 1).const_mul (tau * k)) ?_
      field_simp
    have h2 := ((iter_hasDerivAt d (tau * k * (2 * t / tau - 1)) i).comp t h1).const_mul ((2 * k) ^ d)
    refine (HasDerivAt.deriv (f := fun t => (2 * k) ^ d * dstep^[d] (wv (tau * k * (2 * t / tau - 1))) i) h2).trans ?_
    ring

end GSplines.B0101
