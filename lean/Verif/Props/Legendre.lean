import Verif.Proofs.LegendreSobolev
import Mathlib.Analysis.Calculus.Deriv.Inv
import Mathlib.Analysis.Calculus.Deriv.Pow

/-!
# C21 - C25 (Legendre part): the Legendre basis
-/

namespace GSplines.Props

open GSplines Polynomial GSplines.Spec Finset

/-- **C21.** For every dimension `n ≥ 2` and every `s`, `eval_on_window` writes `P_0(s), …, P_{n-1}(s)`
(`Spec.legendre` is Rodrigues' formula). -/
theorem C21_legendre_eval (dim : ℕ) (h : 2 ≤ dim) (s tau : ℝ) :
    ∃ b, Legendre.evalOnWindow dim s tau = .ok b ∧ ∀ i < dim, b i = (legendre i).eval s := by
  refine ⟨Legendre.values dim s, ?_, Legendre.values_spec dim h s⟩
  simp [Legendre.evalOnWindow, Nat.not_lt.mpr h]

/-- **C21**, remaining dimensions: a Legendre basis of dimension less than two cannot be evaluated, the code writes past its buffer. -/
theorem C21_legendre_eval_small (dim : ℕ) (h : dim < 2) (s tau : ℝ) :
    Legendre.evalOnWindow dim s tau = .error .ub := by
  simp [Legendre.evalOnWindow, h]

/-- `P_3(1/2) = -7/16`, computed by the model. -/
example : ∃ b, Legendre.evalOnWindow 4 (1 / 2) 1 = .ok b ∧ b 3 = -7 / 16 := by
  refine ⟨_, rfl, ?_⟩
  simp [Legendre.values, forLoop, List.range', Legendre.recBody, setAt]
  norm_num

/-- Helper of C22, with the totalised quotient `2 / 0 = 0` at `tau = 0`; nothing is claimed about the code there. -/
theorem legendre_derivatives_aux (dim d : ℕ) (h : 2 ≤ dim) (hd : d < dim) (s tau : ℝ) :
    ∃ b, Legendre.evalDerivOnWindow dim s tau d = .ok b ∧
      ∀ i < dim, b i = (2 / tau) ^ d * (derivative^[d] (legendre i)).eval s := by
  have key := Legendre.dOuter_inv dim s tau d h hd
  refine ⟨_, by rw [Legendre.evalDerivOnWindow, if_neg (by omega)], fun i hi => ?_⟩
  simp only [key.1 i hi, key.2]
  ring

/-- **C22.** For every dimension `n ≥ 2`, order `d < n` and interval length `tau ≠ 0`,
`eval_derivative_on_window(s, tau, d)` writes `(2/tau)^d P_i^{(d)}(s)`. -/
theorem C22_legendre_derivatives (dim d : ℕ) (h : 2 ≤ dim) (hd : d < dim) (s tau : ℝ) (_ht : tau ≠ 0) :
    ∃ b, Legendre.evalDerivOnWindow dim s tau d = .ok b ∧
      ∀ i < dim, b i = (2 / tau) ^ d * (derivative^[d] (legendre i)).eval s :=
  legendre_derivatives_aux dim d h hd s tau

/-- **C22**, in terms of time: at time `t` inside an interval of length `tau`, `eval_derivative_on_window` gives the
`d`-th time derivative of `t ↦ P_i(2 t / tau - 1)`. -/
theorem C22_legendre_time_derivatives (dim d : ℕ) (h : 2 ≤ dim) (hd : d < dim) (t tau : ℝ) (ht : tau ≠ 0) :
    ∃ b, Legendre.evalDerivOnWindow dim (window tau t) tau d = .ok b ∧
      ∀ i < dim, b i = iteratedDeriv d (fun t => (legendre i).eval (window tau t)) t := by
  obtain ⟨b, hb, hv⟩ := C22_legendre_derivatives dim d h hd (window tau t) tau ht
  refine ⟨b, hb, fun i hi => ?_⟩
  rw [hv i hi]
  exact (congrFun (Legendre.iteratedDeriv_phi tau i d) t).symm

/-- Helper of C22 (quotients totalised at length `0`). -/
theorem legendre_derivative_wrt_tau_aux (dim d : ℕ) (h : 2 ≤ dim) (hd : d < dim) (s tau : ℝ) (ht : tau ≠ 0) :
    ∃ (f : ℝ → Vec) (b : Vec), (∀ x, Legendre.evalDerivOnWindow dim s x d = .ok (f x)) ∧
      Legendre.evalDerivWrtTauOnWindow dim s tau d = .ok b ∧
      ∀ i < dim, HasDerivAt (fun x => f x i) (b i) tau := by
  choose f hf hv using fun x => legendre_derivatives_aux dim d h hd s x
  refine ⟨f, fun i => f tau i * (-(1 / 2) * (d : ℝ) * (2 / tau)), hf, ?_, fun i hi => ?_⟩
  · simp [Legendre.evalDerivWrtTauOnWindow, hf tau]
  · have h1 : (fun x => f x i) = fun x => (2 / x) ^ d * (derivative^[d] (legendre i)).eval s := by
      funext x; exact hv x i hi
    rw [h1]
    simp only [hv tau i hi]
    have h2 : HasDerivAt (fun x : ℝ => 2 / x) (-2 / tau ^ 2) tau := by
      have := (hasDerivAt_inv ht).const_mul 2
      simpa [div_eq_mul_inv] using this
    have h3 := (h2.pow d).mul_const ((derivative^[d] (legendre i)).eval s)
    refine HasDerivAt.congr_deriv h3 ?_
    rcases d with _ | d
    · simp
    · simp only [Nat.add_sub_cancel, pow_succ]
      push_cast
      field_simp

/-- **C22**, derivative with respect to the interval length: `eval_derivative_wrt_tau_on_window` is the derivative of
`eval_derivative_on_window` with respect to `tau` at fixed `s`. -/
theorem C22_legendre_derivative_wrt_tau (dim d : ℕ) (h : 2 ≤ dim) (hd : d < dim) (s tau : ℝ) (ht : tau ≠ 0) :
    ∃ (f : ℝ → Vec) (b : Vec), (∀ x, x ≠ 0 → Legendre.evalDerivOnWindow dim s x d = .ok (f x)) ∧
      Legendre.evalDerivWrtTauOnWindow dim s tau d = .ok b ∧
      ∀ i < dim, HasDerivAt (fun x => f x i) (b i) tau := by
  obtain ⟨f, b, h1, h2, h3⟩ := legendre_derivative_wrt_tau_aux dim d h hd s tau ht
  exact ⟨f, b, fun x _ => h1 x, h2, h3⟩

/-- **C22**, remaining orders: for `d ≥ n` the code writes past its buffer. -/
theorem C22_legendre_derivatives_out_of_range (dim d : ℕ) (h : dim < 2 ∨ dim ≤ d) (s tau : ℝ) :
    Legendre.evalDerivOnWindow dim s tau d = .error .ub := by
  rw [Legendre.evalDerivOnWindow, if_pos h]

/-- `P_3''(s) = 15 s`, with the factor `(2/tau)^2 = 1/4` for `tau = 4`; computed by the model. -/
example (s : ℝ) : ∃ b, Legendre.evalDerivOnWindow 4 s 4 2 = .ok b ∧ b 3 = 15 * s / 4 := by
  refine ⟨_, rfl, ?_⟩
  simp [Legendre.values, forLoop, List.range', Legendre.recBody, Legendre.dOuter, Legendre.dInner, setAt]
  ring

/-- **C23.** The derivative matrix of order `d` maps Legendre coefficients to the Legendre coefficients of the `d`-th derivative. -/
theorem C23_legendre_derivative_matrix (dim d : ℕ) (y : Vec) :
    ∑ i ∈ range dim, C ((Legendre.derivMatrixImpl dim d).mulVec dim y i) * legendre i
      = derivative^[d] (∑ i ∈ range dim, C (y i) * legendre i) :=
  Legendre.derivMatrixImpl_spec dim d y

/-- **C23** for the static `derivative_matrix`: row `i` contains the coefficients of `P_i'`. -/
theorem C23_legendre_derivative_matrix_rows (dim i : ℕ) (h : i < dim) :
    derivative (legendre i) = ∑ j ∈ range dim, C (Legendre.dmat dim i j) * legendre j :=
  Legendre.deriv_legendre_sum_dim h

/-- The matrix is not trivial: `P_3' = 5 P_2 + P_0`. -/
example : Legendre.derivMatrixImpl 4 1 2 3 = 5 ∧ Legendre.derivMatrixImpl 4 1 0 3 = 1 := by
  have e : ∀ i < 4, ∀ j < 4, Legendre.derivMatrixImpl 4 1 i j = Legendre.dmatC j i := by
    intro i hi j hj
    rw [← Legendre.dmat_closed 4 j i hj hi]
    simp [Legendre.derivMatrixImpl, forLoop_of_le, Mat.tr]
  rw [e 2 (by norm_num) 3 (by norm_num), e 0 (by norm_num) 3 (by norm_num)]
  norm_num [Legendre.dmatC]

/-- **C24** (false for `1 ≤ d < n`): the largest true part. For order `0` and for orders `d ≥ n`,
`add_derivative_matrix(tau, d, M)` adds the integrals of the products of `d`-th time derivatives.
Missing: orders `1 ≤ d < n`, for which the claim is refuted below. -/
theorem C24_legendre_sobolev_partial (dim d : ℕ) (tau : ℝ) (ht : 0 < tau) (hd : d = 0 ∨ dim ≤ d) (M : Mat)
    (i j : ℕ) (hi : i < dim) (hj : j < dim) :
    Legendre.addDerivativeMatrix dim tau d M i j
      = M i j + gram (fun i t => (legendre i).eval (window tau t)) tau d i j := by
  have hg := Legendre.gram_phi ht.ne' d i j
  rw [show gram (fun i t => (legendre i).eval (window tau t)) tau d i j = gram (Legendre.phi tau) tau d i j from rfl, hg]
  unfold Legendre.addDerivativeMatrix
  rcases hd with rfl | hd
  · rw [if_pos (by omega)]
    simp [Legendre.I_legendre_mul, Legendre.sobolevBuffer, Legendre.sobScale]
    ring
  · rw [Legendre.iter_deriv_legendre_lt (by omega : i < d)]
    simp only [zero_mul, Legendre.I_zero, mul_zero, add_zero]
    split_ifs with h1
    · obtain rfl : d = dim := by omega
      have : Legendre.sobolevBuffer d d i j = 0 := by
        rw [Legendre.sobolevBuffer_entry d d (by omega)]
        refine sum_eq_zero fun m hm => ?_
        rw [Legendre.dpow_top d (by omega) hi (mem_range.mp hm)]; ring
      simp [this]
    · rfl

/-- **C24 is false** for every dimension and every order `1 ≤ d < n`: entry `(0, 0)` must be left unchanged, because the first basis
function is constant, but the code adds a positive number to it (`D L Dᵀ` is accumulated instead of `Dᵀ L D`). -/
theorem C24_legendre_sobolev_false (dim d : ℕ) (tau : ℝ) (ht : 0 < tau) (h1 : 1 ≤ d) (h2 : d < dim) (M : Mat) :
    gram (fun i t => (legendre i).eval (window tau t)) tau d 0 0 = 0 ∧
    M 0 0 < Legendre.addDerivativeMatrix dim tau d M 0 0 := by
  refine ⟨?_, ?_⟩
  · rw [show gram (fun i t => (legendre i).eval (window tau t)) tau d 0 0 = gram (Legendre.phi tau) tau d 0 0 from rfl,
      Legendre.gram_phi ht.ne', Legendre.iter_deriv_legendre_lt (by omega : 0 < d)]
    simp [Legendre.I_zero]
  · have hp := Legendre.sobolevBuffer_zero_zero_pos dim d h1 h2
    rw [Legendre.addDerivativeMatrix, if_pos (by omega), Legendre.sobScale_eq ht.ne']
    have : 0 < Legendre.sobolevBuffer dim d 0 0 * ((2 / tau) ^ (2 * d) * (tau / 2)) := by positivity
    linarith

/-- What the code should have added for `d ≥ 1`: the same powers of the derivative matrix, multiplied in the other order. -/
theorem C24_legendre_sobolev_intended (dim d : ℕ) (tau : ℝ) (ht : 0 < tau) (hd : 1 ≤ d) (i j : ℕ) (hi : i < dim) (hj : j < dim) :
    gram (fun i t => (legendre i).eval (window tau t)) tau d i j
      = (2 / tau) ^ (2 * d - 1) * ((Legendre.derivMatrixImpl dim d).tr.mul dim (Legendre.l2Mat.mul dim (Legendre.derivMatrixImpl dim d))) i j := by
  have hg := Legendre.gram_phi ht.ne' d i j
  rw [show gram (fun i t => (legendre i).eval (window tau t)) tau d i j = gram (Legendre.phi tau) tau d i j from rfl, hg,
    ← Legendre.sobScale_eq ht.ne', Legendre.I_deriv_mul dim d hd hi hj]
  have hs : Legendre.sobScale tau d = (2 / tau) ^ (2 * d - 1) := by simp [Legendre.sobScale, show 0 < d by omega]
  have hp : ∀ m < dim, ∀ k < dim, Legendre.dpow dim d m k = Legendre.derivMatrixImpl dim d m k := by
    intro m hm k hk
    have h1 := Legendre.comb_dpow dim d hd hk
    have h2 := Legendre.derivMatrixImpl_spec dim d (Legendre.unit k)
    rw [Legendre.comb_unit hk, ← h1] at h2
    have h3 := Legendre.comb_inj dim h2 m hm
    rw [Legendre.mulVec_unit hk] at h3
    exact h3.symm
  rw [hs]
  congr 1
  simp only [Mat.mul, Mat.tr]
  refine sum_congr rfl fun m hm => ?_
  have hm := mem_range.mp hm
  rw [hp m hm i hi, hp m hm j hj]
  simp only [Legendre.l2Mat, ite_mul, zero_mul]
  rw [sum_ite_eq (range dim), if_pos (mem_range.mpr hm)]
  ring

example : (0 : ℝ) < Legendre.addDerivativeMatrix 6 2 3 Mat.zero 0 0 :=
  (C24_legendre_sobolev_false 6 3 2 (by norm_num) (by norm_num) (by norm_num) Mat.zero).2

/-- **C25**, Legendre: `add_derivative_matrix_deriv_wrt_tau` adds the derivative with respect to `tau` of what
`add_derivative_matrix` adds, for every order. -/
theorem C25_legendre_sobolev_dtau (dim d : ℕ) (tau : ℝ) (ht : 0 < tau) (M N : Mat) (i j : ℕ) :
    HasDerivAt (fun x => Legendre.addDerivativeMatrix dim x d M i j)
      (Legendre.addDerivativeMatrixDtau dim tau d N i j - N i j) tau := by
  unfold Legendre.addDerivativeMatrix Legendre.addDerivativeMatrixDtau
  split_ifs with h
  · have key : HasDerivAt (fun x => Legendre.sobScale x d) (Legendre.sobScaleDtau tau d) tau := by
      unfold Legendre.sobScale Legendre.sobScaleDtau
      split_ifs with hd
      · have h2 : HasDerivAt (fun x : ℝ => 2 / x) (-2 / tau ^ 2) tau := by
          have := (hasDerivAt_inv ht.ne').const_mul 2
          simpa [div_eq_mul_inv] using this
        refine HasDerivAt.congr_deriv (h2.pow (2 * d - 1)) ?_
        obtain ⟨n, rfl⟩ : ∃ n, d = n + 1 := ⟨d - 1, by omega⟩
        simp only [show 2 * (n + 1) - 1 = 2 * n + 1 by omega, Nat.add_sub_cancel, show 2 * (n + 1) = 2 * n + 2 by ring, pow_succ]
        push_cast
        field_simp
        ring
      · simpa using (hasDerivAt_id tau).div_const 2
    have h3 := (key.const_mul (Legendre.sobolevBuffer dim d i j)).const_add (M i j)
    simpa using h3
  · simpa using hasDerivAt_const tau (M i j)

/-- The derivative is not trivially zero. -/
example : Legendre.addDerivativeMatrixDtau 4 2 0 Mat.zero 1 1 = 1 / 3 := by
  simp [Legendre.addDerivativeMatrixDtau, Legendre.sobolevBuffer, Legendre.l2Mat, Legendre.sobScaleDtau, Mat.zero]
  norm_num

end GSplines.Props
