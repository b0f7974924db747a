import Verif.Spec.Sobolev
import Verif.Props.Interp
import Verif.Proofs.GLL
import Mathlib.MeasureTheory.Integral.IntervalIntegral.FundThmCalculus

/-! # The Sobolev cost: proofs -/

namespace GSplines.Sobolev

open GSplines Spec Finset Interp

/-! ## Loops -/

theorem forLoopM_add {n : ℕ} {body : ℕ → ℝ → Res ℝ} {f : ℕ → ℝ} (h : ∀ i < n, ∀ r, body i r = .ok (r + f i)) (r : ℝ) :
    forLoopM 0 n body r = .ok (r + ∑ i ∈ range n, f i) := by
  unfold forLoopM
  rw [Nat.sub_zero]
  induction n with
  | zero => simp; rfl
  | succ n ih =>
    rw [List.range'_concat, List.foldlM_append, ih fun i hi => h i (by omega)]
    rw [Interp.ok_bind]
    simp only [zero_add, one_mul, List.foldlM_cons, List.foldlM_nil]
    rw [h n (by omega), Interp.ok_bind, sum_range_succ, add_assoc]; rfl

/-! ## Matrices -/

/-- Orders that `add_derivative_matrix` accepts. -/
def Adds : Basis → ℕ → Prop
  | .b0101 _, k => k ≤ 3
  | _, _ => True

/-- Orders that `add_derivative_matrix_deriv_wrt_tau` accepts. -/
def AddsDtau : Basis → ℕ → Prop
  | .b0101 _, k => k = 1 ∨ k = 3
  | _, _ => True

/-- What is added for order `d`. -/
noncomputable def q (b : Basis) (mem : LagMem) (t : ℝ) (d : ℕ) : Mat :=
  match b.addDerivMatrix mem t d Mat.zero with
  | .ok m => m
  | .error _ => Mat.zero

/-- What is added for the derivative of order `d`. -/
noncomputable def dq (b : Basis) (mem : LagMem) (t : ℝ) (d : ℕ) : Mat :=
  match b.addDerivMatrixDtau mem t d Mat.zero with
  | .ok m => m
  | .error _ => Mat.zero

theorem add_ok {b : Basis} {mem : LagMem} {t : ℝ} {d : ℕ} (h : Adds b d) (M : Mat) :
    b.addDerivMatrix mem t d M = .ok (fun i j => M i j + q b mem t d i j) := by
  unfold q
  cases b with
  | legendre n =>
    simp only [Basis.addDerivMatrix, Legendre.addDerivativeMatrix]
    split_ifs <;> simp [Mat.zero]
  | lagrange x =>
    simp only [Basis.addDerivMatrix, Lagrange.addDerivativeMatrix]
    split_ifs <;> simp [Mat.zero]
  | b0101 a =>
    simp only [Adds] at h
    interval_cases d <;> simp [Basis.addDerivMatrix, B0101.addDerivativeMatrix, Mat.add, Mat.zero] <;> rfl

theorem addDtau_ok {b : Basis} {mem : LagMem} {t : ℝ} {d : ℕ} (h : AddsDtau b d) (M : Mat) :
    b.addDerivMatrixDtau mem t d M = .ok (fun i j => M i j + dq b mem t d i j) := by
  unfold dq
  cases b with
  | legendre n =>
    simp only [Basis.addDerivMatrixDtau, Legendre.addDerivativeMatrixDtau]
    split_ifs <;> simp [Mat.zero]
  | lagrange x =>
    simp only [Basis.addDerivMatrixDtau, Lagrange.addDerivativeMatrixDtau]
    split_ifs <;> simp [Mat.zero]
  | b0101 a =>
    rcases h with rfl | rfl <;> simp [Basis.addDerivMatrixDtau, B0101.addDerivativeMatrixDtau, Mat.add, Mat.zero] <;> rfl

/-- The result of the loop over the weights. -/
def wsum (q : ℕ → Mat) : List (ℕ × ℝ) → Mat → Mat
  | [], M => M
  | p :: ps, M => wsum q ps (fun i j => (M i j + q p.1 i j) * p.2)

theorem fold_ok {f : ℕ → Mat → Res Mat} {q : ℕ → Mat} {ws : List (ℕ × ℝ)} (h : ∀ p ∈ ws, ∀ M, f p.1 M = .ok (fun i j => M i j + q p.1 i j)) (M : Mat) :
    ws.foldlM (fun m w => do
      let m ← f w.1 m
      return fun i j => m i j * w.2) M = (.ok (wsum q ws M) : Res Mat) := by
  induction ws generalizing M with
  | nil => rfl
  | cons p ps ih =>
    rw [List.foldlM_cons, h p (by simp)]
    simp only [Interp.ok_bind]
    exact ih (fun p hp => h p (by simp [hp])) _

theorem matrix_ok {b : Basis} {mem : LagMem} {ws : List (ℕ × ℝ)} (h : ∀ p ∈ ws, Adds b p.1) (t : ℝ) :
    matrix b mem ws t = .ok (wsum (q b mem t) ws Mat.zero) := fold_ok (fun p hp M => add_ok (h p hp) M) _

theorem matrixDtau_ok {b : Basis} {mem : LagMem} {ws : List (ℕ × ℝ)} (h : ∀ p ∈ ws, AddsDtau b p.1) (t : ℝ) :
    matrixDtau b mem ws t = .ok (wsum (dq b mem t) ws Mat.zero) := fold_ok (fun p hp M => addDtau_ok (h p hp) M) _

theorem wsum_effective (q : ℕ → Mat) (ws : List (ℕ × ℝ)) (M : Mat) (i j : ℕ) :
    wsum q ws M i j = M i j * (ws.map Prod.snd).prod + ((effective ws).map fun p => p.2 * q p.1 i j).sum := by
  induction ws generalizing M with
  | nil => simp [wsum, effective]
  | cons p ps ih => rw [wsum, ih]; simp only [effective, List.map_cons, List.prod_cons, List.sum_cons]; ring

theorem wsum_congr {q q' : ℕ → Mat} {ws : List (ℕ × ℝ)} {i j : ℕ} (h : ∀ p ∈ ws, q p.1 i j = q' p.1 i j) (M M' : Mat) (hM : M i j = M' i j) :
    wsum q ws M i j = wsum q' ws M' i j := by
  induction ws generalizing M M' with
  | nil => exact hM
  | cons p ps ih => exact ih (fun p hp => h p (by simp [hp])) _ _ (by rw [hM, h p (by simp)])

theorem wsum_symm {q : ℕ → Mat} {ws : List (ℕ × ℝ)} {i j : ℕ} (h : ∀ p ∈ ws, q p.1 i j = q p.1 j i) (M : Mat) (hM : M i j = M j i) :
    wsum q ws M i j = wsum q ws M j i := by
  induction ws generalizing M with
  | nil => exact hM
  | cons p ps ih => exact ih (fun p hp => h p (by simp [hp])) _ (by rw [hM, h p (by simp)])

theorem wsum_hasDerivAt {q : ℝ → ℕ → Mat} {dq : ℕ → Mat} {t : ℝ} {ws : List (ℕ × ℝ)} {i j : ℕ}
    (h : ∀ p ∈ ws, HasDerivAt (fun t => q t p.1 i j) (dq p.1 i j) t) {M : ℝ → Mat} {M' : Mat} (hM : HasDerivAt (fun t => M t i j) (M' i j) t) :
    HasDerivAt (fun t => wsum (q t) ws (M t) i j) (wsum dq ws M' i j) t := by
  induction ws generalizing M M' with
  | nil => exact hM
  | cons p ps ih =>
    exact ih (fun p hp => h p (by simp [hp])) (M := fun t i j => (M t i j + q t p.1 i j) * p.2) ((hM.add (h p (by simp))).mul_const p.2)

/-! ## The bilinear form -/

theorem form_sum {n : ℕ} {v1 v2 : Vec} (l : List (ℕ × ℝ)) (Q : ℕ → Mat) :
    form n (fun i j => (l.map fun p => p.2 * Q p.1 i j).sum) v1 v2 = (l.map fun p => p.2 * form n (Q p.1) v1 v2).sum := by
  induction l with
  | nil => simp [form]
  | cons p ps ih =>
    simp only [List.map_cons, List.sum_cons]
    rw [← ih]
    unfold form
    rw [mul_sum, ← sum_add_distrib]
    refine sum_congr rfl fun i _ => ?_
    rw [mul_sum, ← sum_add_distrib]
    exact sum_congr rfl fun j _ => by ring

theorem form_congr {n : ℕ} {m m' : Mat} {u u' v v' : Vec} (hm : ∀ i < n, ∀ j < n, m i j = m' i j) (hu : ∀ i < n, u i = u' i) (hv : ∀ i < n, v i = v' i) :
    form n m u v = form n m' u' v' := by
  unfold form
  refine sum_congr rfl fun i hi => sum_congr rfl fun j hj => ?_
  rw [mem_range] at hi hj
  rw [hm i hi j hj, hu i hi, hv j hj]

theorem iterDeriv_continuous (b : Basis) (tau : ℝ) (d k : ℕ) : Continuous (iteratedDeriv d (basisFn b tau k)) :=
  tower_continuous (Basis.tower_basisFn b tau k) d

theorem form_gram (b : Basis) (tau : ℝ) (d : ℕ) (y : Vec) :
    form b.dim (gram (basisFn b tau) tau d) y y = ∫ t in (0 : ℝ)..tau, iteratedDeriv d (comb b tau y) t ^ 2 := by
  have hc : ∀ k, Continuous (iteratedDeriv d (basisFn b tau k)) := iterDeriv_continuous b tau d
  rw [Basis.iteratedDeriv_comb]
  have e : ∀ t : ℝ, (∑ k ∈ range b.dim, y k * iteratedDeriv d (basisFn b tau k) t) ^ 2
      = ∑ i ∈ range b.dim, ∑ j ∈ range b.dim, y i * y j * (iteratedDeriv d (basisFn b tau i) t * iteratedDeriv d (basisFn b tau j) t) := by
    intro t
    rw [sq, sum_mul_sum]
    exact sum_congr rfl fun i _ => sum_congr rfl fun j _ => by ring
  simp only [e]
  rw [intervalIntegral.integral_finsetSum]
  · unfold form
    refine sum_congr rfl fun i _ => ?_
    rw [intervalIntegral.integral_finsetSum]
    · refine sum_congr rfl fun j _ => ?_
      rw [intervalIntegral.integral_const_mul, gram]; ring
    · intro j _
      exact (continuous_const.mul ((hc i).mul (hc j))).intervalIntegrable _ _
  · intro i _
    exact (continuous_finsetSum _ fun j _ => continuous_const.mul ((hc i).mul (hc j))).intervalIntegrable _ _

/-! ## The inner product -/

/-- Coefficients of one component on one interval. -/
def part (b : Basis) (codim : ℕ) (y : Vec) (iv c : ℕ) : Vec := fun k => y (iv * b.dim * codim + b.dim * c + k)

theorem part_bound {D C n iv c k : ℕ} (hiv : iv < n) (hc : c < C) (hk : k < D) : iv * D * C + D * c + k < D * C * n := by
  have h1 : D * c + D ≤ D * C := by rw [← Nat.mul_succ]; exact Nat.mul_le_mul_left D hc
  have h2 : (D * C) * iv + D * C ≤ D * C * n := by rw [← Nat.mul_succ]; exact Nat.mul_le_mul_left _ hiv
  have h3 : iv * D * C = (D * C) * iv := by ring
  omega

theorem seg_ok {b : Basis} {codim n : ℕ} {v : List ℝ} (hv : v.length = b.dim * codim * n) {iv c : ℕ} (hiv : iv < n) (hc : c < codim) :
    ∃ l, seg b codim v iv c = .ok l ∧ ∀ k < b.dim, vecOf l k = part b codim (vecOf v) iv c k := by
  refine ⟨_, if_pos ?_, fun k hk => vecOf_segment hk⟩
  rw [hv]
  have h1 : b.dim * c + b.dim ≤ b.dim * codim := by rw [← Nat.mul_succ]; exact Nat.mul_le_mul_left _ hc
  have h2 : (b.dim * codim) * iv + b.dim * codim ≤ b.dim * codim * n := by rw [← Nat.mul_succ]; exact Nat.mul_le_mul_left _ hiv
  have h3 : iv * b.dim * codim = (b.dim * codim) * iv := by ring
  omega

/-- The sum that `inner_prod` computes. -/
noncomputable def total (b : Basis) (n codim : ℕ) (Q : ℕ → Mat) (y z : Vec) : ℝ :=
  ∑ iv ∈ range n, ∑ c ∈ range codim, form b.dim (Q iv) (part b codim y iv c) (part b codim z iv c)

theorem innerProd_ok {b : Basis} {mem : LagMem} {ws : List (ℕ × ℝ)} (h : ∀ p ∈ ws, Adds b p.1) {n codim : ℕ} {tau v1 v2 : List ℝ} (ht : tau.length = n)
    (h1 : v1.length = b.dim * codim * n) (h2 : v2.length = b.dim * codim * n) :
    innerProd b mem ws n codim tau v1 v2 = .ok (total b n codim (fun iv => wsum (q b mem (vecOf tau iv)) ws Mat.zero) (vecOf v1) (vecOf v2)) := by
  unfold innerProd total
  rw [forLoopM_add (f := fun iv => ∑ c ∈ range codim, form b.dim (wsum (q b mem (vecOf tau iv)) ws Mat.zero) (part b codim (vecOf v1) iv c) (part b codim (vecOf v2) iv c))]
  · rw [zero_add]
  · intro iv hiv r
    rw [rd_ok (by omega), Interp.ok_bind, matrix_ok h, Interp.ok_bind]
    refine forLoopM_add ?_ r
    intro c hc r
    obtain ⟨l1, e1, k1⟩ := seg_ok h1 hiv hc
    obtain ⟨l2, e2, k2⟩ := seg_ok h2 hiv hc
    rw [e1, Interp.ok_bind, e2, Interp.ok_bind]
    rw [form_congr (fun _ _ _ _ => rfl) k1 k2]; rfl

theorem total_congr {b : Basis} {n codim : ℕ} {Q Q' : ℕ → Mat} {y y' z z' : Vec} (hQ : ∀ iv < n, ∀ i < b.dim, ∀ j < b.dim, Q iv i j = Q' iv i j)
    (hy : ∀ k < b.dim * codim * n, y k = y' k) (hz : ∀ k < b.dim * codim * n, z k = z' k) : total b n codim Q y z = total b n codim Q' y' z' := by
  unfold total
  refine sum_congr rfl fun iv hiv => sum_congr rfl fun c hc => ?_
  rw [mem_range] at hiv hc
  exact form_congr (hQ iv hiv) (fun i hi => hy _ (part_bound hiv hc hi)) (fun i hi => hz _ (part_bound hiv hc hi))

theorem form_hasDerivAt {n : ℕ} {m : ℝ → Mat} {m' : Mat} {y : ℝ → Vec} {y' : Vec} {x : ℝ}
    (hm : ∀ i < n, ∀ j < n, HasDerivAt (fun z => m z i j) (m' i j) x) (hy : ∀ i < n, HasDerivAt (fun z => y z i) (y' i) x)
    (hs : ∀ i < n, ∀ j < n, m x i j = m x j i) :
    HasDerivAt (fun z => form n (m z) (y z) (y z)) (form n m' (y x) (y x) + 2 * form n (m x) (y x) y') x := by
  have h1 : HasDerivAt (fun z => form n (m z) (y z) (y z))
      (∑ i ∈ range n, ∑ j ∈ range n, ((y' i * m x i j + y x i * m' i j) * y x j + y x i * m x i j * y' j)) x := by
    unfold form
    refine HasDerivAt.fun_sum fun i hi => HasDerivAt.fun_sum fun j hj => ?_
    rw [mem_range] at hi hj
    exact ((hy i hi).mul (hm i hi j hj)).mul (hy j hj)
  refine h1.congr_deriv ?_
  have e : ∑ i ∈ range n, ∑ j ∈ range n, y' i * m x i j * y x j = form n (m x) (y x) y' := by
    unfold form
    rw [sum_comm]
    refine sum_congr rfl fun i hi => sum_congr rfl fun j hj => ?_
    rw [mem_range] at hi hj
    rw [hs j hj i hi]; ring
  have e2 : form n m' (y x) (y x) + 2 * form n (m x) (y x) y'
      = form n m' (y x) (y x) + (∑ i ∈ range n, ∑ j ∈ range n, y' i * m x i j * y x j) + form n (m x) (y x) y' := by rw [e]; ring
  rw [e2]
  unfold form
  rw [← sum_add_distrib, ← sum_add_distrib]
  refine sum_congr rfl fun i _ => ?_
  rw [← sum_add_distrib, ← sum_add_distrib]
  exact sum_congr rfl fun j _ => by ring

end GSplines.Sobolev
