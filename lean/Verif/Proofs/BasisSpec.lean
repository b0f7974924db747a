import Verif.Props.Legendre
import Verif.Props.Lagrange
import Verif.Props.B0101
import Verif.Spec.Basis
import Verif.Proofs.Tower
import Mathlib.Analysis.Calculus.ContDiff.Polynomial

/-! # The basis classes against `Spec.basisFn` -/

namespace GSplines

open Finset Polynomial Spec

/-- Parameters with which a basis can be used: Legendre of dimension at least two, Lagrange nodes that the code can tell apart,
Basis0101 with `0 ≤ α < 1`. -/
def Basis.Valid : Basis → Prop
  | .legendre d => 2 ≤ d
  | .lagrange x => Props.Separated x.length (vecOf x)
  | .b0101 a => 0 ≤ a ∧ a < 1

/-- The window coordinate is not within `1e-9` of a Lagrange node without being that node. -/
def Basis.CleanAt : Basis → ℝ → Prop
  | .lagrange x, s => Props.Clean x.length (vecOf x) s
  | _, _ => True

/-- Highest derivative order that `eval_derivative_on_window` can compute. -/
def Basis.OrderOk : Basis → ℕ → Prop
  | .legendre d, deg => deg < d
  | _, _ => True

namespace Basis

theorem evalOnWindow_spec {b : Basis} (hb : b.Valid) (tau t : ℝ) (hc : b.CleanAt (window tau t)) :
    ∃ v, b.evalOnWindow (window tau t) tau = .ok v ∧ ∀ k < b.dim, v k = basisFn b tau k t := by
  cases b with
  | legendre d => exact Props.C21_legendre_eval d hb (window tau t) tau
  | lagrange x => exact ⟨_, rfl, Props.C26_lagrange_eval x.length (vecOf x) hb _ tau hc⟩
  | b0101 a => exact ⟨_, rfl, fun k hk => Props.C29_basis0101_eval a hb.1 hb.2 tau t k hk⟩

theorem iteratedDeriv_poly_window (p : ℝ[X]) (tau : ℝ) (d : ℕ) :
    iteratedDeriv d (fun t => p.eval (window tau t)) = fun t => (2 / tau) ^ d * (derivative^[d] p).eval (window tau t) := by
  have := Legendre.iteratedDeriv_window p tau 0 d
  simpa [window] using this

theorem evalDeriv_spec {b : Basis} (hb : b.Valid) (tau t : ℝ) (ht : tau ≠ 0) (d : ℕ) (hd : b.OrderOk d) (hc : b.CleanAt (window tau t)) :
    ∃ v, b.evalDerivOnWindow (window tau t) tau d = .ok v ∧ ∀ k < b.dim, v k = iteratedDeriv d (basisFn b tau k) t := by
  cases b with
  | legendre n => exact Props.C22_legendre_time_derivatives n d hb hd t tau ht
  | lagrange x =>
    refine ⟨_, rfl, fun k hk => ?_⟩
    rw [Props.C27_lagrange_eval_derivative x.length (vecOf x) hb _ tau ht hc d k hk]
    exact (congrFun (iteratedDeriv_poly_window _ tau d) t).symm
  | b0101 a => exact ⟨_, rfl, fun k hk => Props.C29_basis0101_derivatives a hb.1 hb.2 tau ht t d k hk⟩

theorem contDiff_basisFn (b : Basis) (tau : ℝ) (k : ℕ) : ContDiff ℝ (⊤ : ℕ∞) (basisFn b tau k) := by
  have hw : ContDiff ℝ (⊤ : ℕ∞) (window tau) := by
    unfold window; fun_prop
  cases b with
  | legendre n => exact (Polynomial.contDiff_aeval (Spec.legendre k) _).comp hw
  | lagrange x => exact (Polynomial.contDiff_aeval (_root_.Lagrange.basis (range x.length) (vecOf x) k) _).comp hw
  | b0101 a =>
    unfold basisFn
    have h1 : ContDiff ℝ (⊤ : ℕ∞) (fun t => tau * k0101 a * window tau t) := by fun_prop
    have h2 : ContDiff ℝ (⊤ : ℕ∞) (f0101 k) := by
      unfold f0101
      match k with
      | 0 => fun_prop
      | 1 => fun_prop
      | 2 => fun_prop
      | 3 => fun_prop
      | 4 => fun_prop
      | (n + 5) => fun_prop
    exact h2.comp h1

theorem tower_basisFn (b : Basis) (tau : ℝ) (k : ℕ) : Tower (fun d => iteratedDeriv d (basisFn b tau k)) :=
  tower_of_contDiff (contDiff_basisFn b tau k)

theorem iteratedDeriv_comb (b : Basis) (tau : ℝ) (y : ℕ → ℝ) (d : ℕ) :
    iteratedDeriv d (comb b tau y) = fun t => ∑ k ∈ range b.dim, y k * iteratedDeriv d (basisFn b tau k) t := by
  have h := Tower.sum (n := b.dim) (F := fun k d => iteratedDeriv d (basisFn b tau k)) y (fun k _ => tower_basisFn b tau k)
  have := h.iteratedDeriv d
  rw [← this]
  congr 1

/-- Scale that relates the derivative matrix to the time derivative. -/
noncomputable def dscale (b : Basis) (tau : ℝ) (d : ℕ) : ℝ :=
  match b with
  | .b0101 _ => 1
  | _ => (2 / tau) ^ d

/-- Orders for which the derivative matrix is right (all, except for Basis0101 where `derivative_matrix_impl` squares). -/
def MatOrderOk : Basis → ℕ → Prop
  | .b0101 _, d => d ≤ 2
  | _, _ => True

theorem comb_poly_legendre (n : ℕ) (tau : ℝ) (y : ℕ → ℝ) :
    comb (.legendre n) tau y = fun t => (∑ i ∈ range n, C (y i) * Spec.legendre i).eval (window tau t) := by
  funext t
  simp [comb, basisFn, dim, eval_finsetSum]

theorem comb_poly_lagrange (x : List ℝ) (tau : ℝ) (y : ℕ → ℝ) :
    comb (.lagrange x) tau y = fun t => (∑ i ∈ range x.length, C (y i) * _root_.Lagrange.basis (range x.length) (vecOf x) i).eval (window tau t) := by
  funext t
  simp [comb, basisFn, dim, eval_finsetSum]

theorem degree_iterDeriv_le (p : ℝ[X]) (d : ℕ) : (derivative^[d] p).degree ≤ p.degree := by
  induction d with
  | zero => simp
  | succ d ih => rw [Function.iterate_succ_apply']; exact degree_derivative_le.trans ih

theorem derivBlock_spec {b : Basis} (hb : b.Valid) (tau : ℝ) (ht : tau ≠ 0) (d : ℕ) (hd : b.MatOrderOk d) (y : ℕ → ℝ) :
    comb b tau (fun k => (b.derivBlock d).mulVec b.dim y k * b.dscale tau d) = iteratedDeriv d (comb b tau y) := by
  have hs : ∀ (z : ℕ → ℝ) (c : ℝ), comb b tau (fun k => z k * c) = fun t => c * comb b tau z t := by
    intro z c; funext t
    unfold comb
    rw [mul_sum]; exact sum_congr rfl fun k _ => by ring
  rw [hs]
  cases b with
  | legendre n =>
    rw [comb_poly_legendre, comb_poly_legendre, iteratedDeriv_poly_window]
    funext t
    rw [show (Basis.legendre n).dim = n from rfl, show (Basis.legendre n).derivBlock d = Legendre.derivMatrixImpl n d from rfl,
      Props.C23_legendre_derivative_matrix]
    rfl
  | lagrange x =>
    rw [comb_poly_lagrange, comb_poly_lagrange, iteratedDeriv_poly_window]
    funext t
    change (2 / tau) ^ d * _ = _
    beta_reduce
    congr 2
    set p := ∑ i ∈ range x.length, C (y i) * _root_.Lagrange.basis (range x.length) (vecOf x) i with hp
    have hinj : Lagrange.Distinct x.length (vecOf x) := Props.Separated.distinct hb
    have hdeg : p.degree < (x.length : ℕ) := by
      have : p = _root_.Lagrange.interpolate (range x.length) (vecOf x) y := by
        rw [hp, _root_.Lagrange.interpolate_apply]
      rw [this]
      simpa using _root_.Lagrange.degree_interpolate_lt y hinj
    have hev : ∀ j < x.length, p.eval (vecOf x j) = y j := by
      intro j hj
      have : p = _root_.Lagrange.interpolate (range x.length) (vecOf x) y := by
        rw [hp, _root_.Lagrange.interpolate_apply]
      rw [this]
      exact _root_.Lagrange.eval_interpolate_at_node y hinj (mem_range.mpr hj)
    have hact := Props.C27_lagrange_derivative_matrix_action x.length (vecOf x) hinj d p hdeg
    have hd' : (derivative^[d] p).degree < (x.length : ℕ) := by
      refine lt_of_le_of_lt ?_ hdeg
      exact degree_iterDeriv_le p d
    rw [Lagrange.interp hinj hd']
    refine sum_congr rfl fun i hi => ?_
    rw [← hact i (mem_range.mp hi)]
    congr 2
    change Mat.mulVec x.length (Lagrange.derivMatrixImpl x.length (vecOf x) d) y i = _
    unfold Mat.mulVec
    exact sum_congr rfl fun j hj => by beta_reduce; rw [hev j (mem_range.mp hj)]
  | b0101 a =>
    funext t
    have := Props.C30_basis0101_derivative_matrix_partial a hb.1 hb.2 tau ht y d hd t
    simp only [dscale, one_mul]
    exact this

end Basis

end GSplines
