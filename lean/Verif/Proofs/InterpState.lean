import Verif.Proofs.InterpUnique
import Mathlib.Analysis.Calculus.Deriv.Inv
import Mathlib.Analysis.Calculus.FDeriv.Mul
import Mathlib.LinearAlgebra.Matrix.Adjugate

/-!
# The states of an interpolator and the derivative of its solutions
-/

namespace GSplines.Interp

open GSplines Spec Finset

theorem fillMatrix_length {b : Basis} {c n : ℕ} {tau : List ℝ} {m m' : Mat} (h : fillMatrix b c n tau m = .ok m') : tau.length = n := by
  unfold fillMatrix at h
  by_contra hne
  rw [if_pos hne] at h
  cases h

theorem fillVector_size {D c n : ℕ} {w : Pts} {v v' : Vec} (h : fillVector D c n w v = .ok v') (hc : 0 < c) : n + 1 ≤ w.rows ∧ c ≤ w.cols := by
  unfold fillVector at h
  by_cases h1 : 0 < c ∧ (w.rows < n + 1 ∨ w.cols < c)
  · rw [if_pos h1] at h; cases h
  · omega

/-- What a successful call of `solve_interpolation` does. -/
theorem solve_ok {lu : LU} {s s' : Interp} {tau : List ℝ} {w : Pts} {x : List ℝ} (h : s.solveInterpolation lu tau w = .ok (s', x)) :
    (∀ t ∈ tau, (1 : ℝ) / 10 ^ 6 ≤ t) ∧ fillMatrix s.basis s.codim s.n tau s.mat = .ok s'.mat ∧
      fillVector s.basis.dim s.codim s.n w s.vec = .ok s'.vec ∧ s'.basis = s.basis ∧ s'.codim = s.codim ∧ s'.n = s.n ∧ s'.ders = s.ders ∧ s'.sol = x ∧
      x = if lu.succeeds s.size s'.mat = true then (List.range s.size).map (lu.solve s.size s'.mat s'.vec) else s.sol := by
  unfold solveInterpolation at h
  by_cases h1 : ∃ x ∈ tau, x < 1 / 10 ^ 6
  · rw [if_pos h1] at h; cases h
  rw [if_neg h1] at h
  push Not at h1
  cases hm : fillMatrix s.basis s.codim s.n tau s.mat with
  | error e => rw [hm] at h; cases h
  | ok m =>
    cases hv : fillVector s.basis.dim s.codim s.n w s.vec with
    | error e => rw [hm, hv] at h; cases h
    | ok v =>
      rw [hm, hv] at h
      simp only [ok_bind] at h
      by_cases hs : lu.succeeds (Interp.size { s with mat := m, vec := v }) m = true
      · rw [if_pos hs] at h
        cases h
        exact ⟨h1, rfl, rfl, rfl, rfl, rfl, rfl, rfl, (if_pos hs).symm⟩
      · rw [if_neg hs] at h
        cases h
        exact ⟨h1, rfl, rfl, rfl, rfl, rfl, rfl, rfl, (if_neg hs).symm⟩

/-- What a successful call of `get_coeff_derivative_wrt_tau` does. -/
theorem coeff_ok {lu : LU} {s s' : Interp} {y tau : List ℝ} {idx : ℕ} {x : Vec} (h : s.coeffDerivative lu y tau idx = .ok (s', x)) :
    (s' = s ∧ x = s.coef ∧ (tau.length ≠ s.n ∨ s.n ≤ idx)) ∨
    ((∀ t ∈ tau, (1 : ℝ) / 10 ^ 6 ≤ t) ∧ tau.length = s.n ∧ idx < s.n ∧ y.length = s.size ∧ lu.succeeds s.size s'.mat = true ∧
      fillMatrix s.basis s.codim s.n tau s.mat = .ok s'.mat ∧ s'.basis = s.basis ∧ s'.codim = s.codim ∧ s'.n = s.n ∧ s'.vec = s.vec ∧
      ∃ d, fillDer s.basis s.codim s.n tau idx (s.ders idx) = .ok d ∧ s'.ders = setAt s.ders idx d ∧
        x = fun i => - lu.solve s.size s'.mat (d.mulVec s.size (vecOf y)) i) := by
  unfold coeffDerivative at h
  by_cases h1 : ∃ x ∈ tau, x < 1 / 10 ^ 6
  · rw [if_pos h1] at h; cases h
  rw [if_neg h1] at h
  push Not at h1
  by_cases h2 : tau.length ≠ s.n ∨ s.n ≤ idx
  · rw [if_pos h2] at h; cases h; exact .inl ⟨rfl, rfl, h2⟩
  rw [if_neg h2] at h
  push Not at h2
  right
  cases hd : fillDer s.basis s.codim s.n tau idx (s.ders idx) with
  | error e => rw [hd] at h; cases h
  | ok d =>
    rw [hd] at h
    simp only [ok_bind] at h
    by_cases h3 : y.length ≠ s.size
    · rw [if_pos h3] at h; cases h
    rw [if_neg h3] at h
    cases hm : fillMatrix s.basis s.codim s.n tau s.mat with
    | error e => rw [hm] at h; cases h
    | ok m =>
      rw [hm] at h
      simp only [ok_bind] at h
      by_cases hs : lu.succeeds s.size m = true
      · rw [if_pos hs] at h
        cases h
        exact ⟨h1, h2.1, h2.2, not_not.mp h3, hs, rfl, rfl, rfl, rfl, rfl, d, rfl, rfl, rfl⟩
      · rw [if_neg hs] at h; cases h

/-- The invariant holds in every state. -/
theorem reach_inv {lu : LU} {codim n : ℕ} {b : Basis} {h : ℕ} (hb : Usable b h) (hn : 0 < n) {s : Interp} (hr : Reach lu codim n b s) :
    Inv h s ∧ s.basis = b ∧ s.codim = codim ∧ s.n = n := by
  induction hr with
  | make hm =>
    obtain ⟨q, I, rfl, rfl, rfl⟩ := make_inv hm
    have : q = h := by have := I.dim; have := hb.dim; omega
    subst this
    exact ⟨I, rfl, rfl, rfl⟩
  | @solve s s' tau w x _ hs ih =>
    obtain ⟨I, rfl, rfl, rfl⟩ := ih
    obtain ⟨h1, hm, hv, e1, e2, e3, e4, e5, -⟩ := solve_ok hs
    have hl := fillMatrix_length hm
    obtain ⟨m, hm', S⟩ := fillMatrix_system hb hn hl I.mat
    have hmm : m = s'.mat := by rw [hm] at hm'; exact (Except.ok.inj hm').symm
    refine ⟨⟨by rw [e1]; exact I.dim, ?_, ?_, ?_⟩, e1, e2, e3⟩
    · rw [e2, e3, ← hmm]; exact S.clean
    · rw [e2, e3]
      intro x hx
      rcases Nat.eq_zero_or_pos s.codim with hc | hc
      · exfalso
        cases x with
        | start iv comp => exact hx trivial
        | stop iv comp => exact hx trivial
        | restL comp j => have := comp.2; omega
        | restR comp j => have := comp.2; omega
        | join iv comp j => have := comp.2; omega
      · obtain ⟨hw1, hw2⟩ := fillVector_size hv hc
        obtain ⟨v', hv', hrow⟩ := fillVector_ok (h := h) hn hw1 hw2 s.vec
        rw [hb.dim] at hv
        have : v' = s'.vec := by rw [hv] at hv'; exact (Except.ok.inj hv').symm
        rw [← this, hrow x, if_neg hx]
        exact I.vec x hx
    · rw [e2, e3, e4]; exact I.ders
  | @coeff s s' y tau idx x _ hs ih =>
    obtain ⟨I, rfl, rfl, rfl⟩ := ih
    rcases coeff_ok hs with ⟨rfl, -⟩ | ⟨h1, hl, hi, -, -, hm, e1, e2, e3, e4, d, hd, e5, -⟩
    · exact ⟨I, rfl, rfl, rfl⟩
    · obtain ⟨m, hm', S⟩ := fillMatrix_system hb hn hl I.mat
      have hmm : m = s'.mat := by rw [hm] at hm'; exact (Except.ok.inj hm').symm
      refine ⟨⟨by rw [e1]; exact I.dim, ?_, ?_, ?_⟩, e1, e2, e3⟩
      · rw [e2, e3, ← hmm]; exact S.clean
      · rw [e2, e3, e4]; exact I.vec
      · rw [e2, e3, e5]
        intro i hi'
        by_cases hii : i = idx
        · subst hii
          rw [setAt_self]
          have ht : vecOf tau i ≠ 0 := by
            have : 0 < vecOf tau i := vecOf_pos (fun t ht => lt_of_lt_of_le (by norm_num) (h1 t ht)) (by omega)
            exact this.ne'
          rw [fillDer_ok hb hi hl ht] at hd
          have := Except.ok.inj hd
          rw [← this, hb.dim]
          exact fun x => ⟨_, derP_rows _ hi (I.ders i hi) x⟩
        · rw [setAt_ne _ _ hii]
          exact I.ders i hi'

/-! ## The derivative with respect to an interval length -/

theorem upd_hasDerivAt {a D : ℕ} {F : ℝ → ℕ → ℝ} {F' : ℕ → ℝ} {x : ℝ} (h : ∀ k < D, HasDerivAt (fun x => F x k) (F' k) x) {f : ℝ → ℕ → ℝ} {f' : ℕ → ℝ}
    (hf : ∀ col, HasDerivAt (fun x => f x col) (f' col) x) (col : ℕ) : HasDerivAt (fun x => upd a D (F x) (f x) col) (upd a D F' f' col) x := by
  unfold upd
  by_cases hc : a ≤ col ∧ col < a + D
  · simp only [if_pos hc]
    exact h _ (by omega)
  · simp only [if_neg hc]
    exact hf col

/-- The derivative of an entry of the interpolation matrix with respect to the length of interval `idx`. -/
theorem over_hasDerivAt {b : Basis} {h n c idx : ℕ} (hb : Usable b h) {tau : Vec} (ht : tau idx ≠ 0) (x : Cond n c h) (col : ℕ) :
    HasDerivAt (fun z => over (bufs b (Function.update tau idx z)) x (fun _ => 0) col) (overI idx (bufsT b tau) x (fun _ => 0) col) (tau idx) := by
  have hdim := hb.dim
  have hT : ∀ s d, d ≤ b.dim - 2 → ∀ k < 2 * h + 2, HasDerivAt (fun z => b.ev s z d k) (b.evT s (tau idx) d k) (tau idx) :=
    fun s d hd k hk => ((Basis.tau_spec hb.valid s (tau idx) d (hb.order hd)).2 ht).2 k (by omega)
  have hzero : ∀ col : ℕ, HasDerivAt (fun _ : ℝ => (fun _ : ℕ => (0 : ℝ)) col) ((fun _ : ℕ => (0 : ℝ)) col) (tau idx) := fun _ => hasDerivAt_const _ _
  have hsame : ∀ z, Function.update tau idx z idx = z := fun z => Function.update_self ..
  have hother : ∀ z i, i ≠ idx → Function.update tau idx z i = tau i := fun z i hi => Function.update_of_ne hi ..
  have hconst : ∀ (g : ℝ), HasDerivAt (fun _ : ℝ => g) 0 (tau idx) := fun g => hasDerivAt_const _ _
  cases x with
  | start iv comp =>
    simp only [over, overI, bufs, bufsT]
    by_cases e : iv.1 = idx
    · rw [if_pos e, e]
      simp only [hsame]
      exact upd_hasDerivAt (fun k hk => hT _ 0 (by omega) k hk) hzero col
    · rw [if_neg e]
      simp only [hother _ _ e]
      exact hconst _
  | stop iv comp =>
    simp only [over, overI, bufs, bufsT]
    by_cases e : iv.1 = idx
    · rw [if_pos e, e]
      simp only [hsame]
      exact upd_hasDerivAt (fun k hk => hT _ 0 (by omega) k hk) hzero col
    · rw [if_neg e]
      simp only [hother _ _ e]
      exact hconst _
  | restL comp j =>
    have hj := j.2
    have hj' : j.1 < b.dim - 2 := by omega
    simp only [over, overI, bufs, bufsT, if_pos hj']
    by_cases e : 0 = idx
    · rw [if_pos e, e]
      simp only [hsame]
      exact upd_hasDerivAt (fun k hk => hT _ _ (by omega) k hk) hzero col
    · rw [if_neg e]
      simp only [hother _ _ e]
      exact hconst _
  | restR comp j =>
    have hj := j.2
    have hj' : j.1 < b.dim - 2 := by omega
    simp only [over, overI, bufs, bufsT, if_pos hj']
    by_cases e : n - 1 = idx
    · rw [if_pos e, e]
      simp only [hsame]
      exact upd_hasDerivAt (fun k hk => hT _ _ (by omega) k hk) hzero col
    · rw [if_neg e]
      simp only [hother _ _ e]
      exact hconst _
  | join iv comp j =>
    have hj := j.2
    have hj' : j.1 < b.dim - 2 := by omega
    simp only [over, overI, bufs, bufsT, if_pos hj']
    by_cases e : iv.1 + 1 = idx
    · have e2 : iv.1 ≠ idx := by omega
      rw [if_pos e, e]
      simp only [hsame, hother _ _ e2]
      -- the other segment is constant, and it is not read where this one is written
      have h1 := upd_hasDerivAt (a := idx * (c * (2 * h + 2)) + (2 * h + 2) * comp) (D := 2 * h + 2)
        (F := fun z k => -1 * b.ev (-1) z (j + 1) k) (F' := fun k => -1 * b.evT (-1) (tau idx) (j + 1) k) (x := tau idx)
        (fun k hk => (hT (-1) (j + 1) (by omega) k hk).const_mul (-1))
        (f := fun _ => upd (iv * (c * (2 * h + 2)) + (2 * h + 2) * comp) (2 * h + 2) (fun k => b.ev 1 (tau iv) (j + 1) k) fun _ => 0) (f' := fun _ => 0)
        (fun col => hconst _) col
      exact h1
    · rw [if_neg e]
      by_cases e2 : iv.1 = idx
      · rw [if_pos e2, e2]
        have e3 : idx + 1 ≠ idx := by omega
        simp only [hsame, hother _ _ e3]
        have hap := seg_apart (c := c) (D := 2 * h + 2) (iv := idx) comp.2
        simp only [upd_split hap]
        have h1 := upd_hasDerivAt (a := idx * (c * (2 * h + 2)) + (2 * h + 2) * comp) (D := 2 * h + 2)
          (F := fun z k => b.ev 1 z (j + 1) k) (F' := fun k => b.evT 1 (tau idx) (j + 1) k) (x := tau idx)
          (fun k hk => hT 1 (j + 1) (by omega) k hk) hzero col
        exact h1.const_add _
      · rw [if_neg e2]
        simp only [hother _ _ e, hother _ _ e2]
        exact hconst _

/-! ## Differentiability of solutions -/

theorem det_differentiableAt {N : ℕ} {M : ℝ → Matrix (Fin N) (Fin N) ℝ} {x : ℝ} (h : ∀ i j, DifferentiableAt ℝ (fun z => M z i j) x) :
    DifferentiableAt ℝ (fun z => (M z).det) x := by
  simp only [Matrix.det_apply]
  refine DifferentiableAt.fun_sum fun σ _ => ?_
  refine DifferentiableAt.fun_const_smul ?_ _
  exact DifferentiableAt.fun_finsetProd fun i _ => h _ _

theorem solution_differentiableAt {N : ℕ} {A : ℝ → Mat} {A' : Mat} {Y : ℝ → Vec} {v : Vec} {x : ℝ}
    (hA : ∀ i < N, ∀ j < N, HasDerivAt (fun z => A z i j) (A' i j) x) (hinv : Invertible N (A x))
    (hY : ∀ᶠ z in nhds x, Solves N (A z) (Y z) v) : ∀ k < N, DifferentiableAt ℝ (fun z => Y z k) x := by
  classical
  have hent : ∀ i j : Fin N, DifferentiableAt ℝ (fun z => toMat N (A z) i j) x := fun i j => (hA i i.2 j j.2).differentiableAt
  have hdet := det_differentiableAt (M := fun z => toMat N (A z)) hent
  have hd0 : (toMat N (A x)).det ≠ 0 := by
    obtain ⟨inv, hi⟩ := hinv
    have : toMat N inv * toMat N (A x) = 1 := by
      ext i j
      rw [Matrix.mul_apply, Matrix.one_apply]
      have := (hi i i.2 j j.2).1
      rw [Finset.sum_range] at this
      exact this.trans (by simp [Fin.ext_iff])
    have h2 := congrArg Matrix.det this
    rw [Matrix.det_mul, Matrix.det_one] at h2
    intro h0
    rw [h0, mul_zero] at h2
    exact zero_ne_one h2
  intro k hk
  -- Cramer's rule
  have hcr : ∀ᶠ z in nhds x, Y z k = ((toMat N (A z)).det)⁻¹ * ((toMat N (A z)).updateCol ⟨k, hk⟩ fun i : Fin N => v i).det := by
    have hne : ∀ᶠ z in nhds x, (toMat N (A z)).det ≠ 0 := hdet.continuousAt.eventually_ne hd0
    filter_upwards [hY, hne] with z hz hz0
    have hs : (toMat N (A z)).mulVec (fun i : Fin N => Y z i) = fun i : Fin N => v i := by
      funext i
      simp only [Matrix.mulVec, dotProduct, toMat, Matrix.of_apply]
      rw [← hz i i.2, Finset.sum_range]
    have h1 : Matrix.cramer (toMat N (A z)) (fun i : Fin N => v i) = (toMat N (A z)).det • fun i : Fin N => Y z i := by
      rw [Matrix.cramer_eq_adjugate_mulVec, ← hs, Matrix.mulVec_mulVec, Matrix.adjugate_mul, Matrix.smul_mulVec, Matrix.one_mulVec]
    have h2 := congrFun h1 ⟨k, hk⟩
    rw [Matrix.cramer_apply] at h2
    rw [h2]
    simp only [Pi.smul_apply, smul_eq_mul]
    field_simp
  refine DifferentiableAt.congr_of_eventuallyEq ?_ hcr
  refine (hdet.fun_inv hd0).fun_mul (det_differentiableAt fun i j => ?_)
  simp only [Matrix.updateCol_apply]
  by_cases hj : j = ⟨k, hk⟩
  · simp only [if_pos hj]; exact differentiableAt_const _
  · simp only [if_neg hj]; exact hent i j

/-- Implicit differentiation of the linear system. -/
theorem solution_hasDerivAt {N : ℕ} {A : ℝ → Mat} {A' : Mat} {Y : ℝ → Vec} {v d : Vec} {x : ℝ}
    (hA : ∀ i < N, ∀ j < N, HasDerivAt (fun z => A z i j) (A' i j) x) (hinv : Invertible N (A x))
    (hY : ∀ᶠ z in nhds x, Solves N (A z) (Y z) v) (hd : Solves N (A x) d fun r => ∑ k ∈ range N, A' r k * Y x k) :
    ∀ k < N, HasDerivAt (fun z => Y z k) (- d k) x := by
  have hdiff := solution_differentiableAt hA hinv hY
  have hs : Solves N (A x) (fun k => - deriv (fun z => Y z k) x) fun r => ∑ k ∈ range N, A' r k * Y x k := by
    intro r hr
    have h1 : HasDerivAt (fun z => ∑ k ∈ range N, A z r k * Y z k) (∑ k ∈ range N, (A' r k * Y x k + A x r k * deriv (fun z => Y z k) x)) x :=
      HasDerivAt.fun_sum fun k hk => (hA r hr k (mem_range.mp hk)).mul (hdiff k (mem_range.mp hk)).hasDerivAt
    have h2 : HasDerivAt (fun _ : ℝ => v r) (∑ k ∈ range N, (A' r k * Y x k + A x r k * deriv (fun z => Y z k) x)) x :=
      h1.congr_of_eventuallyEq (hY.mono fun z hz => (hz r hr).symm)
    have h3 := h2.unique (hasDerivAt_const x (v r))
    rw [sum_add_distrib] at h3
    simp only [mul_neg, sum_neg_distrib]
    linarith
  intro k hk
  have := Invertible.unique hinv hs hd k hk
  rw [← this, neg_neg]
  exact (hdiff k hk).hasDerivAt

end GSplines.Interp
