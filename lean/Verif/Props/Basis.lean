import Verif.Proofs.BasisCache
import Verif.Proofs.BasisSpec

/-!
# C32 - C36: the basis class
-/

namespace GSplines.Props

open GSplines Finset Polynomial GSplines.Spec

/-! ## C32 -/

/-- **C32.** After any history of requests, copies and moves, `get_derivative_matrix_block(d)` returns the matrix that
`derivative_matrix_impl(d)` computes, which is what a new object returns. -/
theorem C32_cache (b : Basis) (ops : List Basis.CacheOp) (d : ℕ) :
    (b.getBlock d (ops.foldl b.cacheStep Basis.cache0)).2 = .ok (b.derivMatrixImpl d) ∧
    (b.getBlock d (ops.foldl b.cacheStep Basis.cache0)).2 = (b.getBlock d Basis.cache0).2 := by
  have h : ∀ c, b.CacheInv c → b.CacheInv (ops.foldl b.cacheStep c) := by
    induction ops with
    | nil => intro c hc; exact hc
    | cons op ops ih => intro c hc; exact ih _ (b.cacheInv_step hc op)
  have h1 := (b.getBlock_spec d (h _ b.cacheInv_cache0)).2
  exact ⟨h1, h1.trans (b.getBlock_spec d b.cacheInv_cache0).2.symm⟩

/-- A history with repeated, increasing and decreasing orders: the block of order 1 of the Lagrange basis with nodes `-1, 1`. -/
example : ∃ m, ((Basis.lagrange [-1, 1]).getBlock 1 ([.request 3, .copied, .request 0, .movedFrom, .request 2].foldl
    (Basis.lagrange [-1, 1]).cacheStep Basis.cache0)).2 = .ok m ∧ m 0 0 = -1 / 2 := by
  refine ⟨_, (C32_cache _ _ 1).1, ?_⟩
  simp [Basis.derivMatrixImpl, Lagrange.derivMatrixImpl, Lagrange.dmat, Lagrange.dmat1, Lagrange.dmatRow, Lagrange.baryWeights,
    Lagrange.baryProducts, forLoop, List.range', setAt2, setAt, vecOf]
  norm_num

/-! ## C33 -/

/-- A request of `continuity_matrix` or `gspline_derivative_matrix`: intervals, codomain dimension, order, lengths. -/
structure MatReq where
  n : ℕ
  codim : ℕ
  order : ℕ
  tau : List ℝ

/-- Cache of the object after a history of requests of `continuity_matrix`. -/
noncomputable def contHistory (b : Basis) (hist : List MatReq) : Basis.CCache :=
  hist.foldl (fun cc r => (b.continuityMatrix r.n r.codim r.order r.tau cc).1) (fun _ => none)

theorem contHistory_inv (b : Basis) (hist : List MatReq) : b.ContInv (contHistory b hist) := by
  unfold contHistory
  have h : ∀ cc, b.ContInv cc → b.ContInv (hist.foldl (fun cc r => (b.continuityMatrix r.n r.codim r.order r.tau cc).1) cc) := by
    induction hist with
    | nil => intro cc hc; exact hc
    | cons r rs ih => intro cc hc; exact ih _ (Basis.continuityMatrix_spec hc _ _ _ _).1
  exact h _ b.contInv_empty

/-- **C33**, history: whatever was requested before, the answer is the one of a new object (for every basis). -/
theorem C33_continuity_matrix_history (b : Basis) (hist : List MatReq) (n codim order : ℕ) (tau : List ℝ) :
    (b.continuityMatrix n codim order tau (contHistory b hist)).2 = (b.continuityMatrix n codim order tau (fun _ => none)).2 :=
  (Basis.continuityMatrix_spec (contHistory_inv b hist) n codim order tau).2

/-- The spline with coefficients `y` has, at interior breakpoint number `iv + 1`, equal one-sided derivatives of order `der` of component `c`. -/
def JoinAt (b : Basis) (codim : ℕ) (tau : ℕ → ℝ) (y : ℕ → ℝ) (der iv c : ℕ) : Prop :=
  iteratedDeriv der (piece b codim tau y iv c) (tau iv) = iteratedDeriv der (piece b codim tau y (iv + 1) c) 0

theorem not_mem_take' {tau : List ℝ} {n : ℕ} (hlen : tau.length = n) (hz : ∀ i < n, vecOf tau i ≠ 0) : 0 ∉ tau.take n := by
  intro h
  obtain ⟨i, hi, e⟩ := List.mem_iff_getElem.mp (List.mem_of_mem_take h)
  have := hz i (by omega)
  unfold vecOf at this
  rw [List.getD_eq_getElem?_getD, List.getElem?_eq_getElem hi, Option.getD_some, e] at this
  exact this rfl

theorem not_mem_take {tau : List ℝ} {n : ℕ} (hlen : tau.length = n) (hpos : ∀ i < n, 0 < vecOf tau i) : 0 ∉ tau.take n :=
  not_mem_take' hlen fun i hi => (hpos i hi).ne'

/-- Answer of a new object when the buffers can be filled. -/
theorem contFresh_eq {b : Basis} {n codim order : ℕ} {tau : List ℝ} (hn : 1 ≤ n) (hlen : n ≤ tau.length) (hz : 1 ≤ order → 0 ∉ tau.take n) {l r : Mat}
    (hl : b.contBuf true order = .ok l) (hr : b.contBuf false order = .ok r) :
    b.contFresh n codim order tau = .ok (Basis.contScale b.dim n codim order tau (Basis.contStatic b.dim n codim order l r)
      (Basis.contStatic b.dim n codim order l r)) := by
  unfold Basis.contFresh Basis.continuityMatrix
  simp only [if_neg (show ¬ n = 0 by omega), hl, hr]
  rw [if_neg (by omega), if_neg (fun h => hz h.2.2.1 h.2.2.2)]

theorem contIdx_surj {n codim order r : ℕ} (h : r < (n - 1) * codim * (order + 1)) :
    ∃ der iv c, der ≤ order ∧ iv < n - 1 ∧ c < codim ∧ r = Basis.contIdx n codim der iv c := by
  have hN : 0 < codim * (n - 1) := by
    rcases Nat.eq_zero_or_pos (codim * (n - 1)) with h0 | h0
    · rw [mul_comm (n - 1), h0] at h; omega
    · exact h0
  have hc : 0 < codim := Nat.pos_of_mul_pos_right hN
  refine ⟨r / (codim * (n - 1)), r % (codim * (n - 1)) / codim, r % (codim * (n - 1)) % codim, ?_, ?_, Nat.mod_lt _ hc, ?_⟩
  · have : r / (codim * (n - 1)) < order + 1 := Nat.div_lt_of_lt_mul (by rw [mul_comm codim]; exact h)
    omega
  · exact Nat.div_lt_of_lt_mul (Nat.mod_lt _ hN)
  · unfold Basis.contIdx
    have h1 := Nat.div_add_mod r (codim * (n - 1))
    have h2 := Nat.div_add_mod (r % (codim * (n - 1))) codim
    rw [mul_comm _ codim]
    omega

/-- The rows of the matrix when the buffers contain the derivatives at the times `pr iv der` and `pl iv der` of the intervals. -/
theorem cont_values_at {b : Basis} {n codim order : ℕ} {tau : List ℝ} (hn : 1 ≤ n) (hlen : tau.length = n) (hz : 1 ≤ order → 0 ∉ tau.take n)
    {l r : Mat} (hl : b.contBuf true order = .ok l) (hr : b.contBuf false order = .ok r) (pr pl : ℕ → ℕ → ℝ)
    (hR : ∀ iv < n, ∀ der ≤ order, ∀ k < b.dim, r der k * (2 / vecOf tau iv) ^ der = iteratedDeriv der (basisFn b (vecOf tau iv) k) (pr iv der))
    (hL : ∀ iv < n, ∀ der ≤ order, ∀ k < b.dim, l der k * (2 / vecOf tau iv) ^ der = iteratedDeriv der (basisFn b (vecOf tau iv) k) (pl iv der)) :
    ∃ C, b.contFresh n codim order tau = .ok C ∧ ∀ y : Vec, ∀ der ≤ order, ∀ iv < n - 1, ∀ c < codim,
      C.mulVec (n * codim * b.dim) y (codim * (n - 1) * der + iv * codim + c)
      = iteratedDeriv der (piece b codim (vecOf tau) y iv c) (pr iv der)
        - iteratedDeriv der (piece b codim (vecOf tau) y (iv + 1) c) (pl (iv + 1) der) := by
  refine ⟨_, contFresh_eq hn hlen.ge hz hl hr, ?_⟩
  intro y der hd iv hiv c hc
  have hp : ∀ iv, piece b codim (vecOf tau) y iv c = comb b (vecOf tau iv) (fun k => y (Basis.coefIdx b.dim codim iv c k)) := fun _ => rfl
  rw [show codim * (n - 1) * der + iv * codim + c = Basis.contIdx n codim der iv c from rfl,
    Basis.cont_mulVec tau l r y hd hiv hc, hp iv, hp (iv + 1), Basis.iteratedDeriv_comb, Basis.iteratedDeriv_comb, sum_mul, sum_mul]
  congr 1
  · refine sum_congr rfl fun k hk => ?_
    rw [← hR iv (by omega) der hd k (mem_range.mp hk)]; ring
  · refine sum_congr rfl fun k hk => ?_
    rw [← hL (iv + 1) (by omega) der hd k (mem_range.mp hk)]; ring

/-- The rows of the matrix when the buffers contain the end values of the derivatives. -/
theorem cont_values {b : Basis} {n codim order : ℕ} {tau : List ℝ} (hn : 1 ≤ n) (hlen : tau.length = n) (hz : 1 ≤ order → 0 ∉ tau.take n)
    {l r : Mat} (hl : b.contBuf true order = .ok l) (hr : b.contBuf false order = .ok r)
    (hR : ∀ iv < n, ∀ der ≤ order, ∀ k < b.dim, r der k * (2 / vecOf tau iv) ^ der = iteratedDeriv der (basisFn b (vecOf tau iv) k) (vecOf tau iv))
    (hL : ∀ iv < n, ∀ der ≤ order, ∀ k < b.dim, l der k * (2 / vecOf tau iv) ^ der = iteratedDeriv der (basisFn b (vecOf tau iv) k) 0) :
    ∃ C, b.contFresh n codim order tau = .ok C ∧ ∀ y : Vec, ∀ der ≤ order, ∀ iv < n - 1, ∀ c < codim,
      C.mulVec (n * codim * b.dim) y (codim * (n - 1) * der + iv * codim + c)
      = iteratedDeriv der (piece b codim (vecOf tau) y iv c) (vecOf tau iv)
        - iteratedDeriv der (piece b codim (vecOf tau) y (iv + 1) c) 0 :=
  cont_values_at hn hlen hz hl hr (fun iv _ => vecOf tau iv) (fun _ _ => 0) hR hL

/-- The criterion of C33 when the rows contain the differences of the one-sided derivatives. -/
theorem cont_zero {b : Basis} {n codim order : ℕ} {tau : List ℝ} {C : Mat} {y : Vec}
    (key : ∀ der ≤ order, ∀ iv < n - 1, ∀ c < codim, C.mulVec (n * codim * b.dim) y (codim * (n - 1) * der + iv * codim + c)
      = iteratedDeriv der (piece b codim (vecOf tau) y iv c) (vecOf tau iv)
        - iteratedDeriv der (piece b codim (vecOf tau) y (iv + 1) c) 0) :
    (∀ i < (n - 1) * codim * (order + 1), C.mulVec (n * codim * b.dim) y i = 0) ↔
        ∀ der ≤ order, ∀ iv < n - 1, ∀ c < codim, JoinAt b codim (vecOf tau) y der iv c := by
  constructor
  · intro h der hd iv hiv c hc
    have hlt : Basis.contIdx n codim der iv c < (n - 1) * codim * (order + 1) := by
      have h1 := Basis.contIdx_lt hiv hc
      have h2 : codim * (n - 1) * (der + 1) ≤ codim * (n - 1) * (order + 1) := Nat.mul_le_mul_left _ (by omega)
      rw [Nat.mul_succ] at h2
      unfold Basis.contIdx
      rw [mul_comm (n - 1)]
      omega
    have h1 := h _ hlt
    unfold Basis.contIdx at h1
    rw [key der hd iv hiv c hc] at h1
    exact sub_eq_zero.mp h1
  · intro h i hi
    obtain ⟨der, iv, c, hd, hiv, hc, rfl⟩ := contIdx_surj hi
    unfold Basis.contIdx
    rw [key der hd iv hiv c hc]
    exact sub_eq_zero.mpr (h der hd iv hiv c hc)

/-- The criterion of C33 when the buffers contain the end values of the derivatives. -/
theorem cont_criterion {b : Basis} {n codim order : ℕ} {tau : List ℝ} (hn : 1 ≤ n) (hlen : tau.length = n) (hz : 1 ≤ order → 0 ∉ tau.take n)
    {l r : Mat} (hl : b.contBuf true order = .ok l) (hr : b.contBuf false order = .ok r)
    (hR : ∀ iv < n, ∀ der ≤ order, ∀ k < b.dim, r der k * (2 / vecOf tau iv) ^ der = iteratedDeriv der (basisFn b (vecOf tau iv) k) (vecOf tau iv))
    (hL : ∀ iv < n, ∀ der ≤ order, ∀ k < b.dim, l der k * (2 / vecOf tau iv) ^ der = iteratedDeriv der (basisFn b (vecOf tau iv) k) 0) :
    ∃ C, b.contFresh n codim order tau = .ok C ∧ ∀ y : Vec,
      (∀ i < (n - 1) * codim * (order + 1), C.mulVec (n * codim * b.dim) y i = 0) ↔
        ∀ der ≤ order, ∀ iv < n - 1, ∀ c < codim, JoinAt b codim (vecOf tau) y der iv c := by
  obtain ⟨C, hC, key⟩ := cont_values (codim := codim) hn hlen hz hl hr hR hL
  exact ⟨C, hC, fun y => cont_zero (key y)⟩

theorem contBuf_ok {b : Basis} {left : Bool} {order : ℕ} {row : ℕ → Vec} (h : ∀ der ≤ order, b.contRow left der = .ok (row der)) :
    ∃ m, b.contBuf left order = .ok m ∧ ∀ der ≤ order, m der = row der := by
  induction order with
  | zero =>
    refine ⟨_, by rw [Basis.contBuf, h 0 le_rfl]; rfl, fun der hd => ?_⟩
    have : der = 0 := by omega
    subst this; simp [setAt]
  | succ k ih =>
    obtain ⟨m, hm, hrow⟩ := ih (fun der hd => h der (by omega))
    refine ⟨setAt m (k + 1) (row (k + 1)), by rw [Basis.contBuf, hm, h (k + 1) le_rfl]; rfl, fun der hd => ?_⟩
    by_cases hk : der = k + 1
    · subst hk; simp [setAt]
    · rw [setAt_ne _ _ hk]; exact hrow der (by omega)

/-- Time, inside an interval of length `tau`, of the point `s` of the window. -/
noncomputable def timeOf (tau s : ℝ) : ℝ := tau * (s + 1) / 2

/-- **C33**, exactly what the rows are for every Lagrange basis for which `-1` and `1` are not confused with a node, after any history. Row
`codim (n-1) der + iv codim + c` times the coefficients of a spline is the jump of the values for order `0`. For orders `≥ 1` it is the
derivative of the piece `iv` at the time of the *last node* minus the derivative of the next piece at the time of the *first node*. -/
theorem C33_continuity_matrix_lagrange_rows_exact (x : List ℝ) (hx : Separated x.length (vecOf x)) (h2 : 2 ≤ x.length)
    (hc0 : Clean x.length (vecOf x) (-1)) (hc1 : Clean x.length (vecOf x) 1) (hist : List MatReq) (n codim order : ℕ) (hn : 1 ≤ n) (tau : List ℝ)
    (hlen : tau.length = n) (hz : ∀ i < n, vecOf tau i ≠ 0) :
    ∃ C, ((Basis.lagrange x).continuityMatrix n codim order tau (contHistory (.lagrange x) hist)).2 = .ok C ∧ ∀ y : Vec,
      ∀ der ≤ order, ∀ iv < n - 1, ∀ c < codim, C.mulVec (n * codim * x.length) y (codim * (n - 1) * der + iv * codim + c)
        = iteratedDeriv der (piece (.lagrange x) codim (vecOf tau) y iv c)
            (if der = 0 then vecOf tau iv else timeOf (vecOf tau iv) (vecOf x (x.length - 1)))
          - iteratedDeriv der (piece (.lagrange x) codim (vecOf tau) y (iv + 1) c)
            (if der = 0 then 0 else timeOf (vecOf tau (iv + 1)) (vecOf x 0)) := by
  rw [C33_continuity_matrix_history]
  set b := Basis.lagrange x with hb
  have hval : ∀ (left : Bool) (der : ℕ), ∃ row, b.contRow left der = .ok row ∧
      ∀ k < x.length, row k = (derivative^[der] (_root_.Lagrange.basis (range x.length) (vecOf x) k)).eval
        (if der = 0 then (if left then -1 else 1) else if left then vecOf x 0 else vecOf x (x.length - 1)) := by
    intro left der
    by_cases hd : der = 0
    · subst hd
      refine ⟨_, by rw [Basis.contRow, if_pos rfl]; rfl, fun k hk => ?_⟩
      have hclean : Clean x.length (vecOf x) (if left then -1 else 1) := by
        cases left
        · simpa using hc1
        · simpa using hc0
      have := C27_lagrange_eval_derivative x.length (vecOf x) hx (if left then -1 else 1) 2 two_ne_zero hclean 0 k hk
      simpa using this
    · refine ⟨(b.derivBlock der) (if left then 0 else b.dim - 1), ?_, fun k hk => ?_⟩
      · rw [Basis.contRow, if_neg hd, Basis.rowOf, if_pos]
        rw [show b.dim = x.length from rfl]
        split_ifs <;> omega
      · have e : b.derivBlock der = Lagrange.dmat x.length (vecOf x) der := by
          change Lagrange.derivMatrixImpl x.length (vecOf x) der = _
          rw [Lagrange.derivMatrixImpl, if_neg hd]
        rw [e, if_neg hd]
        cases left
        · simp only [Bool.false_eq_true, if_false]
          rw [show b.dim = x.length from rfl, C27_lagrange_derivative_matrix x.length (vecOf x) hx.distinct der _ (by omega) k hk]
        · simp only [if_true]
          rw [C27_lagrange_derivative_matrix x.length (vecOf x) hx.distinct der 0 (by omega) k hk]
  choose rowL hLok hLv using hval true
  choose rowR hRok hRv using hval false
  obtain ⟨l, hl, hlr⟩ := contBuf_ok (order := order) (fun der _ => hLok der)
  obtain ⟨r, hr, hrr⟩ := contBuf_ok (order := order) (fun der _ => hRok der)
  have ht : ∀ iv < n, ∀ s, window (vecOf tau iv) (timeOf (vecOf tau iv) s) = s := by
    intro iv hiv s
    have := hz iv hiv
    unfold window timeOf; field_simp; ring
  refine cont_values_at hn hlen (fun _ => not_mem_take' hlen hz) hl hr
    (fun iv der => if der = 0 then vecOf tau iv else timeOf (vecOf tau iv) (vecOf x (x.length - 1)))
    (fun iv der => if der = 0 then 0 else timeOf (vecOf tau iv) (vecOf x 0)) ?_ ?_
  · intro iv hiv der hd k hk
    rw [hrr der hd, hRv der k hk]
    have e : basisFn b (vecOf tau iv) k = fun t => (_root_.Lagrange.basis (range x.length) (vecOf x) k).eval (window (vecOf tau iv) t) := rfl
    rw [e, Basis.iteratedDeriv_poly_window]
    have hw : window (vecOf tau iv) (vecOf tau iv) = 1 := by
      have := (hz iv hiv)
      unfold window; field_simp; ring
    by_cases h : der = 0
    · simp only [if_pos h, hw, Bool.false_eq_true, if_false]; ring
    · simp only [if_neg h, ht iv hiv, Bool.false_eq_true, if_false]; ring
  · intro iv hiv der hd k hk
    rw [hlr der hd, hLv der k hk]
    have e : basisFn b (vecOf tau iv) k = fun t => (_root_.Lagrange.basis (range x.length) (vecOf x) k).eval (window (vecOf tau iv) t) := rfl
    rw [e, Basis.iteratedDeriv_poly_window]
    have hw : window (vecOf tau iv) 0 = -1 := by unfold window; simp
    by_cases h : der = 0
    · simp only [if_pos h, hw, if_true]; ring
    · simp only [if_neg h, ht iv hiv, if_true]; ring

theorem clean_of_node {n : ℕ} {x : Vec} (hx : Separated n x) {i : ℕ} (hi : i < n) {s : ℝ} (h : x i = s) : Clean n x s := by
  subst h
  intro j hj hm
  rw [hx _ hi j hj hm]

/-- **C33**, the rows: for the Lagrange basis whose first node is `-1` and last node is `1` (such as the Gauss-Lobatto bases), after any history, row
`codim (n-1) der + iv codim + c` of the matrix times the coefficients of a spline is the jump of the derivative of order `der` of component `c` between the
intervals `iv` and `iv + 1`. Missing: the other bases, refuted below. -/
theorem C33_continuity_matrix_lagrange_rows_partial (x : List ℝ) (hx : Separated x.length (vecOf x)) (h2 : 2 ≤ x.length) (h0 : vecOf x 0 = -1)
    (h1 : vecOf x (x.length - 1) = 1) (hist : List MatReq) (n codim order : ℕ) (hn : 1 ≤ n) (tau : List ℝ) (hlen : tau.length = n)
    (hz : ∀ i < n, vecOf tau i ≠ 0) :
    ∃ C, ((Basis.lagrange x).continuityMatrix n codim order tau (contHistory (.lagrange x) hist)).2 = .ok C ∧ ∀ y : Vec,
      ∀ der ≤ order, ∀ iv < n - 1, ∀ c < codim, C.mulVec (n * codim * x.length) y (codim * (n - 1) * der + iv * codim + c)
        = iteratedDeriv der (piece (.lagrange x) codim (vecOf tau) y iv c) (vecOf tau iv)
          - iteratedDeriv der (piece (.lagrange x) codim (vecOf tau) y (iv + 1) c) 0 := by
  obtain ⟨C, hC, key⟩ := C33_continuity_matrix_lagrange_rows_exact x hx h2 (clean_of_node hx (by omega) h0) (clean_of_node hx (by omega) h1) hist n
    codim order hn tau hlen hz
  refine ⟨C, hC, fun y der hd iv hiv c hc => ?_⟩
  rw [key y der hd iv hiv c hc, h0, h1]
  have e1 : timeOf (vecOf tau iv) 1 = vecOf tau iv := by unfold timeOf; ring
  have e2 : timeOf (vecOf tau (iv + 1)) (-1) = 0 := by unfold timeOf; ring
  rw [e1, e2, ite_self, ite_self]

/-- **C33** (false for Legendre, Basis0101 and the other Lagrange bases): for the Lagrange basis whose first node is `-1` and last node is `1` (such as the
Gauss-Lobatto bases), every order, any number of intervals and components, and any history, the matrix maps exactly the
coefficients of the splines with matching derivatives to zero. Missing: the other bases, refuted below. -/
theorem C33_continuity_matrix_lagrange_partial (x : List ℝ) (hx : Separated x.length (vecOf x)) (h2 : 2 ≤ x.length) (h0 : vecOf x 0 = -1)
    (h1 : vecOf x (x.length - 1) = 1) (hist : List MatReq) (n codim order : ℕ) (hn : 1 ≤ n) (tau : List ℝ) (hlen : tau.length = n)
    (hpos : ∀ i < n, 0 < vecOf tau i) :
    ∃ C, ((Basis.lagrange x).continuityMatrix n codim order tau (contHistory (.lagrange x) hist)).2 = .ok C ∧ ∀ y : Vec,
      (∀ i < (n - 1) * codim * (order + 1), C.mulVec (n * codim * x.length) y i = 0) ↔
        ∀ der ≤ order, ∀ iv < n - 1, ∀ c < codim, JoinAt (.lagrange x) codim (vecOf tau) y der iv c := by
  obtain ⟨C, hC, key⟩ := C33_continuity_matrix_lagrange_rows_partial x hx h2 h0 h1 hist n codim order hn tau hlen fun i hi => (hpos i hi).ne'
  exact ⟨C, hC, fun y => cont_zero (b := .lagrange x) (key y)⟩

/-- The nodes `-1, 0, 1` and two intervals satisfy the hypotheses. -/
example : Separated [(-1 : ℝ), 0, 1].length (vecOf [-1, 0, 1]) ∧ vecOf [-1, 0, 1] 0 = -1 ∧ vecOf [-1, 0, 1] ([(-1 : ℝ), 0, 1].length - 1) = 1
    ∧ ∀ i < 2, 0 < vecOf [2, 3] i := by
  refine ⟨?_, by simp [vecOf], by simp [vecOf], ?_⟩
  · have := threeNodes_separated
    intro i hi j hj hm
    refine this i hi j hj ?_
    have e : ∀ i < 3, vecOf [-1, 0, 1] i = threeNodes i := by
      intro i hi
      interval_cases i <;> simp [vecOf, threeNodes]; norm_num
    rwa [e i hi, e j hj] at hm
  · intro i hi; interval_cases i <;> simp [vecOf]

/-- **C33** for the other Lagrange bases, the part that holds: continuity of the function itself (order 0), for all nodes that the code does not confuse
with `-1` or `1`. Missing: orders `≥ 1`, refuted below. -/
theorem C33_continuity_matrix_lagrange_order_zero_partial (x : List ℝ) (hx : Separated x.length (vecOf x)) (h2 : 2 ≤ x.length)
    (hc0 : Clean x.length (vecOf x) (-1)) (hc1 : Clean x.length (vecOf x) 1) (hist : List MatReq) (n codim : ℕ) (hn : 1 ≤ n) (tau : List ℝ)
    (hlen : tau.length = n) (hpos : ∀ i < n, 0 < vecOf tau i) :
    ∃ C, ((Basis.lagrange x).continuityMatrix n codim 0 tau (contHistory (.lagrange x) hist)).2 = .ok C ∧ ∀ y : Vec,
      (∀ i < (n - 1) * codim, C.mulVec (n * codim * x.length) y i = 0) ↔
        ∀ iv < n - 1, ∀ c < codim, JoinAt (.lagrange x) codim (vecOf tau) y 0 iv c := by
  obtain ⟨C, hC, key⟩ := C33_continuity_matrix_lagrange_rows_exact x hx h2 hc0 hc1 hist n codim 0 hn tau hlen fun i hi => (hpos i hi).ne'
  refine ⟨C, hC, fun y => ?_⟩
  have := cont_zero (b := .lagrange x) (order := 0) (n := n) (codim := codim) (tau := tau) (C := C) (y := y) fun der hd iv hiv c hc => by
    have h0 : der = 0 := by omega
    have h := key y der hd iv hiv c hc
    rw [if_pos h0, if_pos h0] at h
    exact h
  rw [show (Basis.lagrange x).dim = x.length from rfl] at this
  simp only [zero_add, mul_one] at this
  rw [this]
  constructor
  · intro h iv hiv c hc; exact h 0 le_rfl iv hiv c hc
  · intro h der hd iv hiv c hc
    have : der = 0 := by omega
    subst this; exact h iv hiv c hc

/-- With two nodes the derivatives of order `≥ 1` of a piece do not depend on the time. -/
theorem piece_two_nodes (x : List ℝ) (h2 : x.length = 2) (codim : ℕ) (tau : ℕ → ℝ) (y : Vec) (iv c der : ℕ) (hd : der ≠ 0) (s t : ℝ) :
    iteratedDeriv der (piece (.lagrange x) codim tau y iv c) s = iteratedDeriv der (piece (.lagrange x) codim tau y iv c) t := by
  have hp : piece (.lagrange x) codim tau y iv c
      = comb (.lagrange x) (tau iv) (fun k => y (Basis.coefIdx (Basis.lagrange x).dim codim iv c k)) := rfl
  rw [hp, Basis.iteratedDeriv_comb]
  refine sum_congr rfl fun k hk => ?_
  have e : basisFn (.lagrange x) (tau iv) k = fun t => (_root_.Lagrange.basis (range x.length) (vecOf x) k).eval (window (tau iv) t) := rfl
  rw [e, Basis.iteratedDeriv_poly_window]
  have hdeg : (derivative^[der] (_root_.Lagrange.basis (range x.length) (vecOf x) k)).natDegree = 0 := by
    have h1 := natDegree_iterate_derivative (_root_.Lagrange.basis (range x.length) (vecOf x) k) der
    have h3 : (_root_.Lagrange.basis (range x.length) (vecOf x) k).natDegree ≤ 1 := by
      unfold _root_.Lagrange.basis
      refine (natDegree_prod_le _ _).trans ?_
      refine (sum_le_sum (g := fun _ => 1) fun j _ => ?_).trans ?_
      · unfold _root_.Lagrange.basisDivisor
        compute_degree
      · rw [sum_const, smul_eq_mul, mul_one, card_erase_of_mem (show k ∈ range x.length from hk), card_range]; omega
    omega
  rw [eq_C_of_natDegree_eq_zero hdeg]
  simp

/-- **C33** for the Lagrange bases with two nodes: every order, wherever the nodes are. Missing: the other bases, refuted below. -/
theorem C33_continuity_matrix_two_nodes_partial (x : List ℝ) (hx : Separated x.length (vecOf x)) (h2 : x.length = 2)
    (hc0 : Clean x.length (vecOf x) (-1)) (hc1 : Clean x.length (vecOf x) 1) (hist : List MatReq) (n codim order : ℕ) (hn : 1 ≤ n) (tau : List ℝ)
    (hlen : tau.length = n) (hpos : ∀ i < n, 0 < vecOf tau i) :
    ∃ C, ((Basis.lagrange x).continuityMatrix n codim order tau (contHistory (.lagrange x) hist)).2 = .ok C ∧ ∀ y : Vec,
      (∀ i < (n - 1) * codim * (order + 1), C.mulVec (n * codim * x.length) y i = 0) ↔
        ∀ der ≤ order, ∀ iv < n - 1, ∀ c < codim, JoinAt (.lagrange x) codim (vecOf tau) y der iv c := by
  obtain ⟨C, hC, key⟩ := C33_continuity_matrix_lagrange_rows_exact x hx h2.ge hc0 hc1 hist n codim order hn tau hlen fun i hi => (hpos i hi).ne'
  refine ⟨C, hC, fun y => cont_zero (b := .lagrange x) fun der hd iv hiv c hc => ?_⟩
  have h := key y der hd iv hiv c hc
  by_cases h0 : der = 0
  · rwa [if_pos h0, if_pos h0] at h
  · rw [if_neg h0, if_neg h0, piece_two_nodes x h2 codim (vecOf tau) y iv c der h0 _ (vecOf tau iv),
      piece_two_nodes x h2 codim (vecOf tau) y (iv + 1) c der h0 _ 0] at h
    exact h

theorem far_not_equal {a b : ℝ} (h : 1 / 2 ≤ |a - b|) (ha : |a| ≤ 1) : Lagrange.almostEqual a b tol9 ≠ true := by
  have ht : tol9 < 1 / 2 := by unfold tol9; norm_num
  have h0 := tol9_pos
  unfold Lagrange.almostEqual
  split_ifs with hc
  · simp only [ne_eq, decide_eq_true_eq, not_lt]; linarith
  · simp only [ne_eq, decide_eq_true_eq, not_and]
    intro h1
    nlinarith [abs_nonneg a]

/-- The nodes `-1/2, 1/2` satisfy the hypotheses of the two theorems above. -/
example : Separated [(-1/2 : ℝ), 1/2].length (vecOf [-1/2, 1/2]) ∧ Clean [(-1/2 : ℝ), 1/2].length (vecOf [-1/2, 1/2]) (-1)
    ∧ Clean [(-1/2 : ℝ), 1/2].length (vecOf [-1/2, 1/2]) 1 := by
  refine ⟨?_, ?_, ?_⟩
  · intro i hi j hj
    simp only [List.length_cons, List.length_nil] at hi hj
    interval_cases i <;> interval_cases j <;> intro h <;> first | rfl | (exfalso; revert h; exact far_not_equal (by norm_num [vecOf]) (by norm_num [vecOf]))
  · intro j hj
    simp only [List.length_cons, List.length_nil] at hj
    interval_cases j <;> intro h <;> exact absurd h (far_not_equal (by norm_num [vecOf]) (by norm_num))
  · intro j hj
    simp only [List.length_cons, List.length_nil] at hj
    interval_cases j <;> intro h <;> exact absurd h (far_not_equal (by norm_num [vecOf]) (by norm_num))

/-- Values at the nodes of the parabola `t ↦ t²`, in every component. -/
noncomputable def parabolaCoef (x : List ℝ) (codim : ℕ) (tau : ℕ → ℝ) : Vec := fun i =>
  ((∑ j ∈ range (i / (x.length * codim)), tau j) + timeOf (tau (i / (x.length * codim))) (vecOf x (i % x.length))) ^ 2

theorem parabolaCoef_coefIdx {x : List ℝ} {codim iv c k : ℕ} (tau : ℕ → ℝ) (hc : c < codim) (hk : k < x.length) :
    parabolaCoef x codim tau (Basis.coefIdx x.length codim iv c k) = ((∑ j ∈ range iv, tau j) + timeOf (tau iv) (vecOf x k)) ^ 2 := by
  have hmod : Basis.coefIdx x.length codim iv c k % x.length = k := by
    unfold Basis.coefIdx
    rw [show iv * x.length * codim + x.length * c + k = x.length * (iv * codim + c) + k by ring, Nat.mul_add_mod, Nat.mod_eq_of_lt hk]
  simp only [parabolaCoef, hmod, Basis.coefIdx_div hc hk]

theorem piece_parabola {x : List ℝ} {codim iv c : ℕ} (hx : Separated x.length (vecOf x)) (h3 : 3 ≤ x.length) (tau : ℕ → ℝ) (hc : c < codim)
    (hz : tau iv ≠ 0) :
    piece (.lagrange x) codim tau (parabolaCoef x codim tau) iv c = fun t => ((∑ i ∈ range iv, tau i) + t) ^ 2 := by
  funext t
  set A := ∑ i ∈ range iv, tau i with hA
  set p : ℝ[X] := (C (A + tau iv / 2) + C (tau iv / 2) * X) ^ 2 with hp
  have hv : ∀ s, p.eval s = (A + timeOf (tau iv) s) ^ 2 := by
    intro s; simp only [hp, eval_pow, eval_add, eval_mul, eval_C, eval_X, timeOf]; ring
  have hdeg : p.degree < x.length := by
    have : p.degree ≤ 2 := by rw [hp]; compute_degree
    refine this.trans_lt ?_
    exact_mod_cast (show 2 < x.length by omega)
  have hi := congrArg (eval (window (tau iv) t)) (Lagrange.interp hx.distinct hdeg)
  rw [eval_finsetSum] at hi
  change ∑ k ∈ range x.length, parabolaCoef x codim tau (Basis.coefIdx x.length codim iv c k)
    * (_root_.Lagrange.basis (range x.length) (vecOf x) k).eval (window (tau iv) t) = _
  rw [sum_congr rfl fun k hk => by rw [parabolaCoef_coefIdx tau hc (mem_range.mp hk), ← hv]]
  simp only [eval_mul, eval_C] at hi
  have ht : timeOf (tau iv) (window (tau iv) t) = t := by unfold timeOf window; field_simp; ring
  rw [hv, ht] at hi
  exact hi.symm

/-- **C33 is false for the other Lagrange bases:** with at least three nodes, the first and last of them in the window but not both at its ends, for every
number of intervals `≥ 2`, every order `≥ 1` and all lengths, the parabola `t²` (smooth) is not mapped to zero. -/
theorem C33_continuity_matrix_lagrange_false (x : List ℝ) (hx : Separated x.length (vecOf x)) (h3 : 3 ≤ x.length)
    (hc0 : Clean x.length (vecOf x) (-1)) (hc1 : Clean x.length (vecOf x) 1) (h0 : -1 ≤ vecOf x 0) (h1 : vecOf x (x.length - 1) ≤ 1)
    (hne : vecOf x 0 ≠ -1 ∨ vecOf x (x.length - 1) ≠ 1) (n codim order : ℕ) (hn : 2 ≤ n) (hcod : 1 ≤ codim) (ho : 1 ≤ order)
    (tau : List ℝ) (hlen : tau.length = n) (hpos : ∀ i < n, 0 < vecOf tau i) :
    ∃ y : Vec, (∀ der iv c, iv < n - 1 → c < codim → JoinAt (.lagrange x) codim (vecOf tau) y der iv c) ∧
      ∃ C, (Basis.lagrange x).contFresh n codim order tau = .ok C ∧
        ∃ i < (n - 1) * codim * (order + 1), C.mulVec (n * codim * x.length) y i ≠ 0 := by
  refine ⟨parabolaCoef x codim (vecOf tau), ?_, ?_⟩
  · intro der iv c hiv hc
    unfold JoinAt
    rw [piece_parabola hx h3 (vecOf tau) hc (hpos iv (by omega)).ne', piece_parabola hx h3 (vecOf tau) hc (hpos (iv + 1) (by omega)).ne']
    have e : ∀ a t : ℝ, iteratedDeriv der (fun t : ℝ => (a + t) ^ 2) t = iteratedDeriv der (fun t : ℝ => t ^ 2) (a + t) := by
      intro a t
      rw [iteratedDeriv_comp_const_add der (fun t : ℝ => t ^ 2) a]
    rw [e, e, sum_range_succ, add_zero]
  · obtain ⟨C, hC, key⟩ := C33_continuity_matrix_lagrange_rows_exact x hx (by omega) hc0 hc1 [] n codim order (by omega) tau hlen
      fun i hi => (hpos i hi).ne'
    refine ⟨C, hC, codim * (n - 1) * 1 + 0 * codim + 0, ?_, ?_⟩
    · have h3 : codim * (n - 1) * 2 ≤ codim * (n - 1) * (order + 1) := Nat.mul_le_mul_left _ (by omega)
      have h4 : 0 < codim * (n - 1) := Nat.mul_pos (by omega) (by omega)
      rw [mul_comm (n - 1)]
      omega
    · have h := key (parabolaCoef x codim (vecOf tau)) 1 ho 0 (by omega) 0 (by omega)
      rw [h, piece_parabola hx h3 (vecOf tau) (by omega) (hpos 0 (by omega)).ne', piece_parabola hx h3 (vecOf tau) (by omega) (hpos 1 (by omega)).ne']
      have e : ∀ a t : ℝ, iteratedDeriv 1 (fun t : ℝ => (a + t) ^ 2) t = 2 * (a + t) := by
        intro a t
        rw [iteratedDeriv_one]
        have h := ((hasDerivAt_id t).const_add a).pow 2
        simp only [id] at h
        have h' : deriv (fun t : ℝ => (a + t) ^ 2) t = _ := h.deriv
        rw [h']; push_cast; ring
      rw [e, e, if_neg one_ne_zero, if_neg one_ne_zero]
      have p0 := hpos 0 (by omega)
      have p1 := hpos 1 (by omega)
      simp only [sum_range_succ, sum_range_zero, timeOf, zero_add]
      intro hh
      have q0 : 0 ≤ vecOf tau 0 * (1 - vecOf x (x.length - 1)) := mul_nonneg p0.le (by linarith)
      have q1 : 0 ≤ vecOf tau 1 * (vecOf x 0 + 1) := mul_nonneg p1.le (by linarith)
      rcases hne with hne | hne
      · have : 0 < vecOf tau 1 * (vecOf x 0 + 1) := mul_pos p1 (lt_of_le_of_ne (by linarith) fun h => hne (by linarith))
        nlinarith
      · have : 0 < vecOf tau 0 * (1 - vecOf x (x.length - 1)) := mul_pos p0 (lt_of_le_of_ne (by linarith) fun h => hne (by linarith))
        nlinarith

/-- The nodes `-1/2, 0, 1/2` satisfy the hypotheses. -/
example : Separated [(-1/2 : ℝ), 0, 1/2].length (vecOf [-1/2, 0, 1/2]) ∧ Clean [(-1/2 : ℝ), 0, 1/2].length (vecOf [-1/2, 0, 1/2]) (-1)
    ∧ Clean [(-1/2 : ℝ), 0, 1/2].length (vecOf [-1/2, 0, 1/2]) 1 ∧ -1 ≤ vecOf [(-1/2 : ℝ), 0, 1/2] 0 ∧ vecOf [(-1/2 : ℝ), 0, 1/2] 2 ≤ 1
    ∧ vecOf [(-1/2 : ℝ), 0, 1/2] 0 ≠ -1 := by
  refine ⟨?_, ?_, ?_, by norm_num [vecOf], by norm_num [vecOf], by norm_num [vecOf]⟩
  · intro i hi j hj
    simp only [List.length_cons, List.length_nil] at hi hj
    interval_cases i <;> interval_cases j <;> intro h <;> first | rfl | (exfalso; revert h; exact far_not_equal (by norm_num [vecOf]) (by norm_num [vecOf]))
  · intro j hj
    simp only [List.length_cons, List.length_nil] at hj
    interval_cases j <;> intro h <;> exact absurd h (far_not_equal (by norm_num [vecOf]) (by norm_num))
  · intro j hj
    simp only [List.length_cons, List.length_nil] at hj
    interval_cases j <;> intro h <;> exact absurd h (far_not_equal (by norm_num [vecOf]) (by norm_num))

/-- **C33** for Legendre, the part that holds: continuity of the function itself (order 0). Missing: orders `≥ 1`, refuted below. -/
theorem C33_continuity_matrix_legendre_partial (dim : ℕ) (h2 : 2 ≤ dim) (hist : List MatReq) (n codim : ℕ) (hn : 1 ≤ n) (tau : List ℝ)
    (hlen : tau.length = n) (hpos : ∀ i < n, 0 < vecOf tau i) :
    ∃ C, ((Basis.legendre dim).continuityMatrix n codim 0 tau (contHistory (.legendre dim) hist)).2 = .ok C ∧ ∀ y : Vec,
      (∀ i < (n - 1) * codim, C.mulVec (n * codim * dim) y i = 0) ↔
        ∀ iv < n - 1, ∀ c < codim, JoinAt (.legendre dim) codim (vecOf tau) y 0 iv c := by
  rw [C33_continuity_matrix_history]
  have hval : ∀ (left : Bool), ∃ row, (Basis.legendre dim).contRow left 0 = .ok row ∧
      ∀ k < dim, row k = (Spec.legendre k).eval (if left then -1 else 1) := by
    intro left
    obtain ⟨v, hv, hk⟩ := C22_legendre_derivatives dim 0 h2 (by omega) (if left then -1 else 1) 2 two_ne_zero
    refine ⟨v, by rw [Basis.contRow, if_pos rfl]; exact hv, fun k hk2 => by simpa using hk k hk2⟩
  obtain ⟨rowL, hLok, hLv⟩ := hval true
  obtain ⟨rowR, hRok, hRv⟩ := hval false
  obtain ⟨l, hl, hlr⟩ := contBuf_ok (b := .legendre dim) (left := true) (order := 0) (row := fun _ => rowL) (fun der hd => by
    have : der = 0 := by omega
    subst this; exact hLok)
  obtain ⟨r, hr, hrr⟩ := contBuf_ok (b := .legendre dim) (left := false) (order := 0) (row := fun _ => rowR) (fun der hd => by
    have : der = 0 := by omega
    subst this; exact hRok)
  obtain ⟨C, hC, hy⟩ := cont_criterion (b := .legendre dim) (codim := codim) hn hlen (fun _ => not_mem_take hlen hpos) hl hr (by
    intro iv hiv der hd k hk
    have : der = 0 := by omega
    subst this
    rw [hrr 0 le_rfl, hRv k hk]
    have hw : window (vecOf tau iv) (vecOf tau iv) = 1 := by
      have := (hpos iv hiv).ne'
      unfold window; field_simp; ring
    simp [basisFn, hw]) (by
    intro iv hiv der hd k hk
    have : der = 0 := by omega
    subst this
    rw [hlr 0 le_rfl, hLv k hk]
    have hw : window (vecOf tau iv) 0 = -1 := by unfold window; simp
    simp [basisFn, hw])
  refine ⟨C, hC, fun y => ?_⟩
  have := hy y
  simp only [zero_add, mul_one] at this
  rw [show (Basis.legendre dim).dim = dim from rfl] at this
  rw [this]
  constructor
  · intro h iv hiv c hc; exact h 0 le_rfl iv hiv c hc
  · intro h der hd iv hiv c hc
    have : der = 0 := by omega
    subst this; exact h iv hiv c hc

/-- Coefficients, in the Legendre basis, of the straight line of slope one through the origin, in every component. -/
noncomputable def lineCoef (dim codim : ℕ) (tau : ℕ → ℝ) : Vec := fun x =>
  let iv := x / (dim * codim)
  if x % dim = 0 then (∑ i ∈ range iv, tau i) + tau iv / 2 else if x % dim = 1 then tau iv / 2 else 0

theorem lineCoef_coefIdx {dim codim iv c k : ℕ} (tau : ℕ → ℝ) (hc : c < codim) (hk : k < dim) :
    lineCoef dim codim tau (Basis.coefIdx dim codim iv c k)
      = if k = 0 then (∑ i ∈ range iv, tau i) + tau iv / 2 else if k = 1 then tau iv / 2 else 0 := by
  unfold lineCoef
  have hmod : Basis.coefIdx dim codim iv c k % dim = k := by
    unfold Basis.coefIdx
    rw [show iv * dim * codim + dim * c + k = dim * (iv * codim + c) + k by ring, Nat.mul_add_mod, Nat.mod_eq_of_lt hk]
  simp only [hmod, Basis.coefIdx_div hc hk]

theorem legendre_zero_eq : Spec.legendre 0 = 1 := by simp [Spec.legendre]

theorem legendre_one_eq : Spec.legendre 1 = X := by
  simp [Spec.legendre]
  rw [← mul_assoc, show (C (2 : ℝ)⁻¹ * (1 + 1) : ℝ[X]) = 1 by
    rw [show (1 + 1 : ℝ[X]) = C (2 : ℝ) by rw [C_ofNat]; norm_num, ← C_mul]; norm_num]
  rw [one_mul]

theorem piece_line {dim codim iv c : ℕ} (h2 : 2 ≤ dim) (tau : ℕ → ℝ) (hc : c < codim) (hpos : tau iv ≠ 0) :
    piece (.legendre dim) codim tau (lineCoef dim codim tau) iv c = fun t => (∑ i ∈ range iv, tau i) + t := by
  funext t
  change ∑ k ∈ range dim, lineCoef dim codim tau (Basis.coefIdx dim codim iv c k) * (Spec.legendre k).eval (window (tau iv) t) = _
  rw [sum_congr rfl fun k hk => by rw [lineCoef_coefIdx tau hc (mem_range.mp hk)]]
  obtain ⟨d, rfl⟩ : ∃ d, dim = d + 2 := ⟨dim - 2, by omega⟩
  rw [sum_range_succ', sum_range_succ', sum_eq_zero]
  · simp only [legendre_zero_eq, zero_add, legendre_one_eq, window]
    simp
    field_simp
    ring
  · intro k _; simp

theorem legendre_block_last (dim : ℕ) (h2 : 2 ≤ dim) : ∀ k < dim, Legendre.derivMatrixImpl dim 1 (dim - 1) k = 0 := by
  intro k hk
  have e : Legendre.derivMatrixImpl dim 1 = (Legendre.dmat dim).tr := by
    simp [Legendre.derivMatrixImpl, forLoop]
  rw [e]
  change Legendre.dmat dim k (dim - 1) = 0
  rw [Legendre.dmat_closed dim k (dim - 1) hk (by omega)]
  unfold Legendre.dmatC
  split_ifs with h
  · omega
  · rfl

theorem legendre_block_first (dim : ℕ) (h2 : 2 ≤ dim) : Legendre.derivMatrixImpl dim 1 0 1 = 1 ∧ Legendre.derivMatrixImpl dim 1 0 0 = 0 := by
  have e : Legendre.derivMatrixImpl dim 1 = (Legendre.dmat dim).tr := by
    simp [Legendre.derivMatrixImpl, forLoop]
  rw [e]
  constructor
  · change Legendre.dmat dim 1 0 = 1
    rw [Legendre.dmat_closed dim 1 0 (by omega) (by omega)]
    simp [Legendre.dmatC]
  · change Legendre.dmat dim 0 0 = 0
    rw [Legendre.dmat_closed dim 0 0 (by omega) (by omega)]
    simp [Legendre.dmatC]

/-- **C33 is false for Legendre:** for every dimension, at least two intervals, every order `≥ 1` and all lengths, a straight
line (smooth) is not mapped to zero. -/
theorem C33_continuity_matrix_legendre_false (dim : ℕ) (h2 : 2 ≤ dim) (n codim order : ℕ) (hn : 2 ≤ n) (hcod : 1 ≤ codim) (ho : 1 ≤ order)
    (tau : List ℝ) (hlen : tau.length = n) (hpos : ∀ i < n, 0 < vecOf tau i) :
    ∃ y : Vec, (∀ der iv c, iv < n - 1 → c < codim → JoinAt (.legendre dim) codim (vecOf tau) y der iv c) ∧
      ∃ C, (Basis.legendre dim).contFresh n codim order tau = .ok C ∧
        ∃ i < (n - 1) * codim * (order + 1), C.mulVec (n * codim * dim) y i ≠ 0 := by
  refine ⟨lineCoef dim codim (vecOf tau), ?_, ?_⟩
  · intro der iv c hiv hc
    unfold JoinAt
    rw [piece_line h2 (vecOf tau) hc (hpos iv (by omega)).ne', piece_line h2 (vecOf tau) hc (hpos (iv + 1) (by omega)).ne']
    cases der with
    | zero => simp [sum_range_succ]
    | succ d =>
      have e : ∀ a : ℝ, deriv (fun t : ℝ => a + t) = fun _ => 1 := by
        intro a; funext t; simp
      rw [iteratedDeriv_succ', iteratedDeriv_succ', e, e]
      rw [iteratedDeriv_const, iteratedDeriv_const]
  · have hval : ∀ (left : Bool) (der : ℕ), ∃ row, (Basis.legendre dim).contRow left der = .ok row ∧
        (der = 1 → row = Legendre.derivMatrixImpl dim 1 (if left then 0 else dim - 1)) := by
      intro left der
      by_cases hd : der = 0
      · subst hd
        obtain ⟨v, hv, _⟩ := C22_legendre_derivatives dim 0 h2 (by omega) (if left then -1 else 1) 2 two_ne_zero
        exact ⟨v, by rw [Basis.contRow, if_pos rfl]; exact hv, by omega⟩
      · refine ⟨((Basis.legendre dim).derivBlock der) (if left then 0 else dim - 1), ?_, fun h1 => by rw [h1]; rfl⟩
        rw [Basis.contRow, if_neg hd, Basis.rowOf, if_pos]
        · rfl
        · rw [show (Basis.legendre dim).dim = dim from rfl]
          split_ifs <;> omega
    choose rowL hLok hLv using hval true
    choose rowR hRok hRv using hval false
    obtain ⟨l, hl, hlr⟩ := contBuf_ok (order := order) (fun der _ => hLok der)
    obtain ⟨r, hr, hrr⟩ := contBuf_ok (order := order) (fun der _ => hRok der)
    refine ⟨_, contFresh_eq (by omega) hlen.ge (fun _ => not_mem_take hlen hpos) hl hr, Basis.contIdx n codim 1 0 0, ?_, ?_⟩
    · have h1 : 0 * codim + 0 < codim * (n - 1) := Basis.contIdx_lt (by omega) (by omega)
      have h3 : codim * (n - 1) * 2 ≤ codim * (n - 1) * (order + 1) := Nat.mul_le_mul_left _ (by omega)
      unfold Basis.contIdx
      rw [mul_comm (n - 1)]
      omega
    · have := Basis.cont_mulVec (dim := dim) tau l r (lineCoef dim codim (vecOf tau)) (der := 1) (n := n) (iv := 0) (c := 0) ho (by omega) (show 0 < codim by omega)
      rw [show (Basis.legendre dim).dim = dim from rfl, this, hlr 1 ho, hrr 1 ho, hLv 1 rfl, hRv 1 rfl]
      simp only [Bool.false_eq_true, if_false, if_true]
      rw [sum_eq_zero (fun k hk => by rw [legendre_block_last dim h2 k (mem_range.mp hk), zero_mul])]
      rw [sum_congr rfl fun k hk => by rw [lineCoef_coefIdx (vecOf tau) (show 0 < codim by omega) (mem_range.mp hk)]]
      obtain ⟨d, rfl⟩ : ∃ d, dim = d + 2 := ⟨dim - 2, by omega⟩
      rw [sum_range_succ', sum_range_succ', sum_eq_zero]
      · obtain ⟨e1, e2⟩ := legendre_block_first (d + 2) h2
        have hp := (hpos 1 (by omega)).ne'
        simp [e1, e2]
        exact hp
      · intro k _; simp

/-- Coefficients in Basis0101 that use only the functions `p` and `1`. -/
def lineCoef0101 (k tau0 tau1 : ℝ) : Vec := fun x =>
  if x = 4 then 1 else if x = 10 then 1 else if x = 11 then tau0 * k + tau1 * k else 0

/-- **C33 is false for Basis0101** already for order 0: with two intervals whose lengths do not add up to `4` there is a continuous function
that is not mapped to zero (the code evaluates the basis for intervals of length two). -/
theorem C33_continuity_matrix_basis0101_false (alpha : ℝ) (h0 : 0 < alpha) (h1 : alpha < 1) (t0 t1 : ℝ) (hp0 : 0 < t0) (hne : t0 + t1 ≠ 4) :
    ∃ y : Vec, JoinAt (.b0101 alpha) 1 (vecOf [t0, t1]) y 0 0 0 ∧
      ∃ C, (Basis.b0101 alpha).contFresh 2 1 0 [t0, t1] = .ok C ∧ C.mulVec (2 * 1 * 6) y 0 ≠ 0 := by
  set k := k0101 alpha with hk
  have hkpos : 0 < k := by
    rw [hk, k0101_eq h0.le h1]; exact B0101.kOf_pos h0 h1
  have hrow : ∀ left, (Basis.b0101 alpha).contRow left 0 = .ok (B0101.evalDerivOnWindow alpha (if left then -1 else 1) 2 0) := by
    intro left; rw [Basis.contRow, if_pos rfl]; rfl
  have hv : ∀ s i, i < 6 → B0101.evalDerivOnWindow alpha s 2 0 i = f0101 i (2 * k * s) := by
    intro s i hi
    have := C29_basis0101_derivatives alpha h0.le h1 2 (by norm_num) (s + 1) 0 i hi
    have hw : window 2 (s + 1) = s := by unfold window; ring
    rw [hw] at this
    rw [this, iteratedDeriv_zero, phi0101, hw]
  refine ⟨lineCoef0101 k t0 t1, ?_, ?_⟩
  · unfold JoinAt
    have hw : window t0 t0 = 1 := by have := hp0.ne'; unfold window; field_simp; ring
    have hw1 : window t1 0 = -1 := by unfold window; simp
    simp only [iteratedDeriv_zero, piece, comb, Basis.dim, basisFn, phi0101, vecOf, ← hk]
    simp [sum_range_succ, lineCoef0101, f0101, hw, hw1]
  · obtain ⟨l, hl, hlr⟩ := contBuf_ok (b := .b0101 alpha) (left := true) (order := 0) (row := fun _ => B0101.evalDerivOnWindow alpha (-1) 2 0) (fun der hd => by
      have : der = 0 := by omega
      subst this; exact hrow true)
    obtain ⟨r, hr, hrr⟩ := contBuf_ok (b := .b0101 alpha) (left := false) (order := 0) (row := fun _ => B0101.evalDerivOnWindow alpha 1 2 0) (fun der hd => by
      have : der = 0 := by omega
      subst this; exact hrow false)
    refine ⟨_, contFresh_eq (by omega) (by simp) (by simp) hl hr, ?_⟩
    have := Basis.cont_mulVec (dim := 6) (n := 2) (codim := 1) (order := 0) [t0, t1] l r (lineCoef0101 k t0 t1) (der := 0) (iv := 0) (c := 0) le_rfl (by omega) (by omega)
    rw [show Basis.contIdx 2 1 0 0 0 = 0 from rfl] at this
    rw [show (Basis.b0101 alpha).dim = 6 from rfl, this, hlr 0 le_rfl, hrr 0 le_rfl]
    simp only [sum_range_succ, sum_range_zero, hv _ _ (show 0 < 6 by norm_num), hv _ _ (show 1 < 6 by norm_num), hv _ _ (show 2 < 6 by norm_num),
      hv _ _ (show 3 < 6 by norm_num), hv _ _ (show 4 < 6 by norm_num), hv _ _ (show 5 < 6 by norm_num)]
    simp [Basis.coefIdx, lineCoef0101, f0101]
    intro h
    apply hne
    have : k * (4 - (t0 + t1)) = 0 := by linarith
    rcases mul_eq_zero.mp this with h2 | h2
    · exact absurd h2 hkpos.ne'
    · linarith

/-! ## C34 -/

/-- Cache of the object after a history of requests of `gspline_derivative_matrix`. -/
noncomputable def derivHistory (b : Basis) (hist : List MatReq) : Basis.CCache :=
  hist.foldl (fun cc r => (b.gsplineDerivativeMatrix r.n r.codim r.order r.tau cc).1) (fun _ => none)

theorem derivHistory_inv (b : Basis) (hist : List MatReq) : b.DerivInv (derivHistory b hist) := by
  unfold derivHistory
  have h : ∀ cc, b.DerivInv cc → b.DerivInv (hist.foldl (fun cc r => (b.gsplineDerivativeMatrix r.n r.codim r.order r.tau cc).1) cc) := by
    induction hist with
    | nil => intro cc hc; exact hc
    | cons r rs ih => intro cc hc; exact ih _ (Basis.gsplineDerivativeMatrix_spec hc _ _ _ _).1
  exact h _ b.derivInv_empty

/-- **C34**, history (every basis). -/
theorem C34_derivative_matrix_history (b : Basis) (hist : List MatReq) (n codim order : ℕ) (tau : List ℝ) :
    (b.gsplineDerivativeMatrix n codim order tau (derivHistory b hist)).2 = (b.gsplineDerivativeMatrix n codim order tau (fun _ => none)).2 :=
  (Basis.gsplineDerivativeMatrix_spec (derivHistory_inv b hist) n codim order tau).2

theorem derivFresh_eq {b : Basis} {n codim order : ℕ} {tau : List ℝ} (hlen : n ≤ tau.length) (hz : 0 ∉ tau.take n) :
    b.derivFresh n codim order tau = .ok (Basis.derivScale b.dim n codim order tau (Basis.derivStatic b.dim n codim (b.derivBlock order))
      (Basis.derivStatic b.dim n codim (b.derivBlock order))) := by
  unfold Basis.derivFresh Basis.gsplineDerivativeMatrix
  simp only
  rw [if_neg (by omega), if_neg (fun h => hz h.2.2.2)]

/-- Is the basis one of the polynomial ones? -/
def Polynomial01 : Basis → Prop
  | .b0101 _ => False
  | _ => True

/-- **C34.** For the polynomial bases, every number of intervals, components, order and any history, the matrix times a coefficient vector gives the
coefficients of the derivative: on every interval, component by component, the new piece is the `d`-th derivative of the old one. -/
theorem C34_derivative_matrix (b : Basis) (hb : b.Valid) (hp : Polynomial01 b) (hist : List MatReq) (n codim d : ℕ) (tau : List ℝ)
    (hlen : tau.length = n) (hpos : ∀ i < n, 0 < vecOf tau i) :
    ∃ D, (b.gsplineDerivativeMatrix n codim d tau (derivHistory b hist)).2 = .ok D ∧ ∀ y : Vec, ∀ iv < n, ∀ c < codim,
      piece b codim (vecOf tau) (D.mulVec (n * codim * b.dim) y) iv c = iteratedDeriv d (piece b codim (vecOf tau) y iv c) := by
  rw [C34_derivative_matrix_history]
  refine ⟨_, derivFresh_eq hlen.ge (not_mem_take hlen hpos), fun y iv hiv c hc => ?_⟩
  have hmo : b.MatOrderOk d := by cases b <;> trivial
  have hds : b.dscale (vecOf tau iv) d = (2 / vecOf tau iv) ^ d := by cases b <;> first | rfl | exact hp.elim
  have := Basis.derivBlock_spec hb (vecOf tau iv) (hpos iv hiv).ne' d hmo (fun k => y (Basis.coefIdx b.dim codim iv c k))
  have hpc : ∀ z, piece b codim (vecOf tau) z iv c = comb b (vecOf tau iv) (fun k => z (Basis.coefIdx b.dim codim iv c k)) := fun _ => rfl
  rw [hpc, hpc, ← this]
  funext t
  unfold comb
  refine sum_congr rfl fun k hk => ?_
  beta_reduce
  rw [Basis.derivScale_mulVec tau (b.derivBlock d) _ y hiv hc (mem_range.mp hk), hds]

/-- **C34**, scope: for Basis0101 the matrix has the factor `(2/tau)^d` too, although its derivative matrix already is the one in time; with order 1
the result is `2/tau` times the derivative. -/
theorem C34_basis0101_extra_factor (alpha : ℝ) (h0 : 0 ≤ alpha) (h1 : alpha < 1) (n codim : ℕ) (tau : List ℝ)
    (hlen : tau.length = n) (hpos : ∀ i < n, 0 < vecOf tau i) :
    ∃ D, (Basis.b0101 alpha).derivFresh n codim 1 tau = .ok D ∧ ∀ y : Vec, ∀ iv < n, ∀ c < codim, ∀ t,
      piece (.b0101 alpha) codim (vecOf tau) (D.mulVec (n * codim * 6) y) iv c t
        = 2 / vecOf tau iv * deriv (piece (.b0101 alpha) codim (vecOf tau) y iv c) t := by
  refine ⟨_, derivFresh_eq hlen.ge (not_mem_take hlen hpos), fun y iv hiv c hc t => ?_⟩
  have := Basis.derivBlock_spec (b := .b0101 alpha) ⟨h0, h1⟩ (vecOf tau iv) (hpos iv hiv).ne' 1 (show (1 : ℕ) ≤ 2 by norm_num)
    (fun k => y (Basis.coefIdx 6 codim iv c k))
  have hpc : ∀ z, piece (.b0101 alpha) codim (vecOf tau) z iv c = comb (.b0101 alpha) (vecOf tau iv) (fun k => z (Basis.coefIdx 6 codim iv c k)) := fun _ => rfl
  rw [hpc, hpc, ← iteratedDeriv_one, ← this]
  unfold comb
  rw [mul_sum]
  refine sum_congr rfl fun k hk => ?_
  have e := Basis.derivScale_mulVec (dim := 6) (n := n) (codim := codim) (order := 1) tau ((Basis.b0101 alpha).derivBlock 1)
    (Basis.derivStatic 6 n codim ((Basis.b0101 alpha).derivBlock 1)) y hiv hc (mem_range.mp hk)
  beta_reduce
  rw [show (Basis.b0101 alpha).dim = 6 from rfl, e]
  simp only [Basis.dscale, pow_one]
  ring

example : (Basis.legendre 6).Valid ∧ Polynomial01 (.legendre 6) ∧ ∀ i < 2, 0 < vecOf [2, 3] i := by
  refine ⟨(by norm_num : 2 ≤ 6), trivial, ?_⟩
  intro i hi; interval_cases i <;> simp [vecOf]

/-! ## C35 -/

/-- **C35.** Complete decision table of `get_basis`. A Lagrange basis with fewer than two nodes is undefined behaviour. -/
theorem C35_get_basis (name : String) (dim : ℕ) (params : List ℝ) :
    Basis.getBasis "legendre" dim params = .ok (.legendre dim) ∧
    (2 ≤ params.length → Basis.getBasis "lagrange" dim params = .ok (.lagrange params)) ∧
    (params.length < 2 → Basis.getBasis "lagrange" dim params = .error .ub) ∧
    (∀ a, params = [a] → Basis.getBasis "basis0101" dim params = .ok (.b0101 a)) ∧
    (params.length ≠ 1 → Basis.getBasis "basis0101" dim params = .error .invalidArgument) ∧
    (name ≠ "legendre" → name ≠ "lagrange" → name ≠ "basis0101" → Basis.getBasis name dim params = .error .invalidArgument) := by
  refine ⟨by simp [Basis.getBasis], fun h => by simp [Basis.getBasis, not_lt.mpr h], fun h => by simp [Basis.getBasis, h], ?_, ?_, ?_⟩
  · rintro a rfl; simp [Basis.getBasis, rd]
  · intro h; simp [Basis.getBasis, h]
  · intro h1 h2 h3; simp [Basis.getBasis, h1, h2, h3]

/-- **C35**, round trip: `get_basis` applied to the name, dimension and parameters of a basis gives that basis. -/
theorem C35_get_basis_round_trip (b : Basis) (hb : ∀ x, b = .lagrange x → 2 ≤ x.length) : Basis.getBasis b.name b.dim b.params = .ok b := by
  cases b with
  | lagrange x => exact (C35_get_basis "" x.length x).2.1 (hb x rfl)
  | _ => simp [Basis.getBasis, Basis.name, Basis.dim, Basis.params, rd]

/-- Two nodes are enough for a Lagrange basis. -/
example : Basis.getBasis (Basis.lagrange [-1, 1]).name (Basis.lagrange [-1, 1]).dim (Basis.lagrange [-1, 1]).params = .ok (.lagrange [-1, 1]) :=
  C35_get_basis_round_trip _ (by rintro x ⟨⟩; rfl)

/-! ## C36 -/

/-- **C36**, reflexive. -/
theorem C36_basis_eq_refl (b : Basis) : b.beq b = true := by
  simp [Basis.beq, Tools.approxEqualV, Tools.approxEqualM_refl]

/-- **C36**, symmetric. -/
theorem C36_basis_eq_symm (a b : Basis) : a.beq b = b.beq a := by
  unfold Basis.beq Tools.approxEqualV
  rw [Tools.approxEqualM_symm]
  simp only [ne_comm (a := a.name), ne_comm (a := a.dim), ne_comm (a := a.params.length)]

/-- **C36**, separation: bases that compare equal have the same kind, the same dimension and parameters that differ by less than
`1e-6` relative to the largest one (and `1`). -/
theorem C36_basis_eq_sound (a b : Basis) (h : a.beq b = true) :
    a.name = b.name ∧ a.dim = b.dim ∧ a.params.length = b.params.length ∧
      ∀ i (ha : i < a.params.length) (hb : i < b.params.length),
        |a.params[i] - b.params[i]| < 1 / 10 ^ 6 * max 1 (max (Tools.maxAbs a.params) (Tools.maxAbs b.params)) := by
  unfold Basis.beq at h
  split_ifs at h with h1 h2 h3
  obtain ⟨_, _, h6, h7⟩ := Tools.approxEqualM_bound h
  exact ⟨not_not.mp h1, not_not.mp h2, h6, h7⟩

/-- **C36**: bases of different kind are different, Legendre bases are equal exactly when their dimensions are. -/
theorem C36_basis_eq_kinds (n m : ℕ) (x : List ℝ) (a : ℝ) :
    (Basis.legendre n).beq (.lagrange x) = false ∧ (Basis.legendre n).beq (.b0101 a) = false ∧
    (Basis.lagrange x).beq (.b0101 a) = false ∧ ((Basis.legendre n).beq (.legendre m) = true ↔ n = m) := by
  refine ⟨by simp [Basis.beq, Basis.name], by simp [Basis.beq, Basis.name], by simp [Basis.beq, Basis.name], ?_⟩
  constructor
  · intro h; exact (C36_basis_eq_sound _ _ h).2.1
  · rintro rfl; exact C36_basis_eq_refl _

/-- Basis0101 with parameters `1/4` and `3/4` are different. -/
example : (Basis.b0101 (1 / 4)).beq (.b0101 (3 / 4)) = false := by
  by_contra h
  have := (C36_basis_eq_sound _ _ (by simpa using h)).2.2.2 0 (by simp [Basis.params]) (by simp [Basis.params])
  simp [Basis.params, Tools.maxAbs, Tools.maxCoeff] at this
  rw [abs_of_pos (by norm_num : (0 : ℝ) < 3 / 4), abs_of_neg (by norm_num)] at this
  norm_num at this

end GSplines.Props
