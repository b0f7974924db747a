import Verif.Proofs.LagrangeChange
import Verif.Proofs.LegendreSobolev
import Mathlib.Analysis.Calculus.Deriv.Inv
import Mathlib.Analysis.Calculus.Deriv.Pow
import Mathlib.Tactic.NormNum
import Mathlib.Tactic.IntervalCases

/-!
# C25 (Lagrange part), C26 - C28, C56: the Lagrange basis

`Lagrange.basis s v j` of Mathlib is the cardinal polynomial `∏_{k ≠ j} (X - x_k)/(x_j - x_k)`.
-/

namespace GSplines.Props

open GSplines GSplines.Spec Polynomial Finset

/-- No two nodes are taken as equal by the `1e-9` comparison of the code. -/
def Separated (n : ℕ) (x : Vec) : Prop :=
  ∀ i < n, ∀ j < n, Lagrange.almostEqual (x i) (x j) tol9 = true → i = j

/-- `s` is either a node or not taken as equal to any node by the `1e-9` comparison of the code. -/
def Clean (n : ℕ) (x : Vec) (s : ℝ) : Prop :=
  ∀ j < n, Lagrange.almostEqual s (x j) tol9 = true → s = x j

theorem tol9_pos : 0 < tol9 := by unfold tol9; positivity

theorem Separated.distinct {n : ℕ} {x : Vec} (h : Separated n x) : Lagrange.Distinct n x := by
  intro i hi j hj e
  refine h i (by simpa using hi) j (by simpa using hj) ?_
  have e' : x i = x j := e
  rw [e']; exact Lagrange.almostEqual_self _ _ tol9_pos

/-- **C26.** For separated nodes and a point that is a node or away from the `1e-9` neighbourhoods of the nodes,
`eval_on_window` writes the cardinal polynomials. -/
theorem C26_lagrange_eval (n : ℕ) (x : Vec) (h : Separated n x) (s tau : ℝ) (hs : Clean n x s) :
    ∀ j < n, Lagrange.evalOnWindow n x s tau j = (_root_.Lagrange.basis (range n) x j).eval s := by
  intro j hj
  unfold Lagrange.evalOnWindow
  cases hfind : (List.range n).find? (fun j => Lagrange.almostEqual s (x j) tol9) with
  | some j0 =>
    have hm := List.find?_some hfind
    have hj0 : j0 < n := by simpa using List.mem_of_find?_eq_some hfind
    have hsx : s = x j0 := hs j0 hj0 hm
    simp only [setAt]
    rw [hsx]
    split_ifs with hjj
    · subst hjj
      exact (_root_.Lagrange.eval_basis_self h.distinct (mem_range.mpr hj0)).symm
    · exact (_root_.Lagrange.eval_basis_of_ne hjj (mem_range.mpr hj0)).symm
  | none =>
    have hne : ∀ k < n, s ≠ x k := by
      intro k hk e
      have := List.find?_eq_none.mp hfind k (by simpa using hk)
      rw [e] at this
      exact this (Lagrange.almostEqual_self _ _ tol9_pos)
    obtain ⟨b1, b2⟩ := Lagrange.baryLoop_spec n x s
    simp only
    rw [b1 j hj, b2]
    exact Lagrange.bary_eq_card h.distinct hne hj

/-- **C26**, at a node: the unit vector of that node. -/
theorem C26_lagrange_eval_node (n : ℕ) (x : Vec) (h : Separated n x) (tau : ℝ) (i : ℕ) (hi : i < n) :
    ∀ j < n, Lagrange.evalOnWindow n x (x i) tau j = if j = i then 1 else 0 := by
  intro j hj
  rw [C26_lagrange_eval n x h (x i) tau (fun k hk hm => by rw [h i hi k hk hm]) j hj]
  split_ifs with hji
  · subst hji; exact _root_.Lagrange.eval_basis_self h.distinct (mem_range.mpr hi)
  · exact _root_.Lagrange.eval_basis_of_ne hji (mem_range.mpr hi)

/-- **C26**, inside the `1e-9` neighbourhood of a node: the values are those at a node (the first one that is close). -/
theorem C26_lagrange_eval_near_node (n : ℕ) (x : Vec) (s tau : ℝ)
    (hs : ∃ j < n, Lagrange.almostEqual s (x j) tol9 = true) :
    ∃ i < n, Lagrange.almostEqual s (x i) tol9 = true ∧
      ∀ j, Lagrange.evalOnWindow n x s tau j = if j = i then 1 else 0 := by
  unfold Lagrange.evalOnWindow
  cases hfind : (List.range n).find? (fun j => Lagrange.almostEqual s (x j) tol9) with
  | some j0 =>
    exact ⟨j0, by simpa using List.mem_of_find?_eq_some hfind, by simpa using List.find?_some hfind, fun j => rfl⟩
  | none =>
    obtain ⟨j, hj, hm⟩ := hs
    exact absurd hm (List.find?_eq_none.mp hfind j (by simpa using hj))

/-- **C26**, partition of unity, for every `s` and every vector of distinct nodes. -/
theorem C26_lagrange_sum_one (n : ℕ) (hn : 0 < n) (x : Vec) (h : Lagrange.Distinct n x) (s tau : ℝ) :
    ∑ j ∈ range n, Lagrange.evalOnWindow n x s tau j = 1 := by
  by_cases hs : ∃ j < n, Lagrange.almostEqual s (x j) tol9 = true
  · obtain ⟨i, hi, _, he⟩ := C26_lagrange_eval_near_node n x s tau hs
    simp [he, hi]
  · have hne : ∀ k < n, s ≠ x k := by
      intro k hk e
      exact hs ⟨k, hk, by rw [e]; exact Lagrange.almostEqual_self _ _ tol9_pos⟩
    have he : ∀ j ∈ range n, Lagrange.evalOnWindow n x s tau j = (_root_.Lagrange.basis (range n) x j).eval s := by
      intro j hj
      have hj := mem_range.mp hj
      unfold Lagrange.evalOnWindow
      cases hfind : (List.range n).find? (fun j => Lagrange.almostEqual s (x j) tol9) with
      | some j0 =>
        exact absurd ⟨j0, by simpa using List.mem_of_find?_eq_some hfind, by simpa using List.find?_some hfind⟩ hs
      | none =>
        obtain ⟨b1, b2⟩ := Lagrange.baryLoop_spec n x s
        simp only
        rw [b1 j hj, b2]
        exact Lagrange.bary_eq_card h hne hj
    rw [sum_congr rfl he, ← eval_finsetSum, _root_.Lagrange.sum_basis h ⟨0, mem_range.mpr hn⟩, eval_one]

/-- **C26**, reproduction: the combination of the basis with the nodal values of a polynomial of degree `< n` is that polynomial. -/
theorem C26_lagrange_reproduces (n : ℕ) (x : Vec) (h : Separated n x) (s tau : ℝ) (hs : Clean n x s)
    (p : ℝ[X]) (hp : p.degree < n) :
    ∑ j ∈ range n, p.eval (x j) * Lagrange.evalOnWindow n x s tau j = p.eval s := by
  conv_rhs => rw [Lagrange.interp h.distinct hp]
  rw [eval_finsetSum]
  refine sum_congr rfl fun j hj => ?_
  rw [C26_lagrange_eval n x h s tau hs j (mem_range.mp hj)]
  simp

/-- The nodes `-1, 0, 1`. -/
def threeNodes : Vec := fun i => (i : ℝ) - 1

theorem threeNodes_separated : Separated 3 threeNodes := by
  intro i hi j hj hm
  by_contra hij
  have h1 : 1 ≤ |threeNodes i - threeNodes j| := by
    have h2 : threeNodes i - threeNodes j = (((i : ℤ) - (j : ℤ) : ℤ) : ℝ) := by unfold threeNodes; push_cast; ring
    rw [h2, ← Int.cast_abs]
    have h4 : (1 : ℤ) ≤ |(i : ℤ) - (j : ℤ)| := Int.one_le_abs (fun h0 => hij (by omega))
    exact_mod_cast h4
  have h3 : |threeNodes i| ≤ 1 := by
    unfold threeNodes
    have : (i : ℝ) ≤ 2 := by exact_mod_cast (by omega : i ≤ 2)
    rw [abs_le]; constructor <;> linarith [Nat.cast_nonneg (α := ℝ) i]
  have ht : tol9 < 1 := by unfold tol9; norm_num
  unfold Lagrange.almostEqual at hm
  split_ifs at hm with hc
  · simp only [decide_eq_true_eq] at hm; linarith
  · simp only [decide_eq_true_eq] at hm
    nlinarith [hm.1, tol9_pos, abs_nonneg (threeNodes i)]

/-- The hypotheses are met, with a point that is not a node. -/
example : Lagrange.evalOnWindow 3 threeNodes (1 / 2) 1 2 = 3 / 8 := by
  have hc : Clean 3 threeNodes (1 / 2) := by
    intro j hj hm
    exfalso
    have ht : tol9 < 1 / 4 := by unfold tol9; norm_num
    have ha : |(1 / 2 : ℝ)| = 1 / 2 := abs_of_pos (by norm_num)
    have hx : 1 / 2 ≤ |1 / 2 - threeNodes j| := by
      unfold threeNodes
      interval_cases j
      · rw [abs_of_pos] <;> norm_num
      · rw [abs_of_pos] <;> norm_num
      · rw [abs_of_neg] <;> norm_num
    unfold Lagrange.almostEqual at hm
    split_ifs at hm with hcc
    · simp only [decide_eq_true_eq] at hm; linarith
    · simp only [decide_eq_true_eq] at hm
      rw [ha] at hm
      nlinarith [hm.1]
  rw [C26_lagrange_eval 3 threeNodes threeNodes_separated _ 1 hc 2 (by norm_num)]
  have : (range 3).erase 2 = {0, 1} := by decide
  rw [_root_.Lagrange.basis, this, prod_pair (by norm_num)]
  simp [_root_.Lagrange.basisDivisor, threeNodes]
  norm_num

/-- **C27.** For distinct nodes and every order `d`, the derivative matrix has entries `l_j^{(d)}(x_i)`. -/
theorem C27_lagrange_derivative_matrix (n : ℕ) (x : Vec) (h : Lagrange.Distinct n x) (d : ℕ) :
    ∀ i < n, ∀ j < n, Lagrange.dmat n x d i j = (derivative^[d] (_root_.Lagrange.basis (range n) x j)).eval (x i) :=
  Lagrange.dmat_spec h d

/-- **C27**, action on nodal values: maps the nodal values of a polynomial of degree `< n` to those of its `d`-th derivative. -/
theorem C27_lagrange_derivative_matrix_action (n : ℕ) (x : Vec) (h : Lagrange.Distinct n x) (d : ℕ) (p : ℝ[X]) (hp : p.degree < n) :
    ∀ i < n, (Lagrange.derivMatrixImpl n x d).mulVec n (fun j => p.eval (x j)) i = (derivative^[d] p).eval (x i) := by
  intro i hi
  rw [Lagrange.derivMatrixImpl_eq]
  conv_rhs => rw [Lagrange.interp h hp, iterate_derivative_sum, eval_finsetSum]
  refine sum_congr rfl fun j hj => ?_
  rw [Lagrange.dmat_spec h d i hi j (mem_range.mp hj), iterate_derivative_C_mul, eval_mul, eval_C, mul_comm]

/-- **C27**, `eval_derivative_on_window`. -/
theorem C27_lagrange_eval_derivative (n : ℕ) (x : Vec) (h : Separated n x) (s tau : ℝ) (_ht : tau ≠ 0) (hs : Clean n x s) (d : ℕ) :
    ∀ j < n, Lagrange.evalDerivOnWindow n x s tau d j
      = (2 / tau) ^ d * (derivative^[d] (_root_.Lagrange.basis (range n) x j)).eval s := by
  intro j hj
  unfold Lagrange.evalDerivOnWindow
  split_ifs with hd
  · subst hd; simpa using C26_lagrange_eval n x h s tau hs j hj
  · have e := Lagrange.card_deriv_eval h.distinct hj d s
    unfold Lagrange.card at e
    rw [e, Lagrange.derivMatrixImpl_eq, mul_comm]
    beta_reduce
    congr 1
    unfold Mat.mulVec
    refine sum_congr rfl fun i hi => ?_
    have hi := mem_range.mp hi
    rw [C26_lagrange_eval n x h s tau hs i hi, Mat.tr, Lagrange.dmat_spec h.distinct d i hi j hj, Lagrange.card]

/-- **C27**, derivative with respect to the interval length. -/
theorem C27_lagrange_eval_derivative_wrt_tau (n : ℕ) (x : Vec) (s tau : ℝ) (ht : tau ≠ 0) (d : ℕ) (j : ℕ) :
    HasDerivAt (fun t => Lagrange.evalDerivOnWindow n x s t d j) (Lagrange.evalDerivWrtTauOnWindow n x s tau d j) tau := by
  unfold Lagrange.evalDerivWrtTauOnWindow
  rcases d with _ | d
  · have : (fun t => Lagrange.evalDerivOnWindow n x s t 0 j) = fun _ => Lagrange.evalOnWindow n x s 0 j := by
      funext t; simp [Lagrange.evalDerivOnWindow, Lagrange.evalOnWindow]
    rw [this]; simpa using hasDerivAt_const tau _
  · set c := (Lagrange.derivMatrixImpl n x (d + 1)).tr.mulVec n (Lagrange.evalOnWindow n x s 0) j with hc
    have e : ∀ t, Lagrange.evalDerivOnWindow n x s t (d + 1) j = c * (2 / t) ^ (d + 1) := by
      intro t; simp only [Lagrange.evalDerivOnWindow, Nat.add_eq_zero_iff, one_ne_zero, and_false, if_false]; rfl
    rw [show (fun t => Lagrange.evalDerivOnWindow n x s t (d + 1) j) = fun t => c * (2 / t) ^ (d + 1) from funext e, e tau]
    have h2 : HasDerivAt (fun x : ℝ => 2 / x) (-2 / tau ^ 2) tau := by
      have := (hasDerivAt_inv ht).const_mul 2
      simpa [div_eq_mul_inv] using this
    refine HasDerivAt.congr_deriv ((h2.pow (d + 1)).const_mul c) ?_
    simp only [Nat.add_sub_cancel, pow_succ]
    push_cast
    field_simp

/-- The second derivative of the parabola through `-1, 0, 1` at the nodes: `(1, -2, 1)`. -/
example : Lagrange.dmat 3 threeNodes 2 0 1 = -2 := by
  rw [C27_lagrange_derivative_matrix 3 threeNodes threeNodes_separated.distinct 2 0 (by norm_num) 1 (by norm_num)]
  have : (range 3).erase 1 = {0, 2} := by decide
  rw [_root_.Lagrange.basis, this, prod_pair (by norm_num)]
  simp [_root_.Lagrange.basisDivisor, threeNodes, derivative_mul]
  norm_num

/-- **C28** (false in general): the largest true part. Row `k` of `change_interpolation_points(old, new)` interpolates correctly when the
new point `k` is an old point, or when no new point up to `k` is close to an old point.
Missing: rows after a new point that coincides with an old one, refuted below. -/
theorem C28_change_points_partial (n m : ℕ) (old new : Vec) (junk : Mat) (h : Separated n old) (k : ℕ) (hk : k < m)
    (hc : (∃ i < n, new k = old i) ∨ (∀ k' ≤ k, ∀ j < n, Lagrange.almostEqual (new k') (old j) tol9 = false))
    (p : ℝ[X]) (hp : p.degree < n) :
    ∑ j ∈ range n, Lagrange.changePoints n m old new junk k j * p.eval (old j) = p.eval (new k) := by
  obtain ⟨c1, c2⟩ := Lagrange.changePoints_spec n m old new junk k hk
  rcases hc with ⟨i, hi, he⟩ | hc
  · have hm : Lagrange.MatchUpTo n old new k :=
      ⟨k, le_rfl, i, hi, by rw [he]; exact Lagrange.almostEqual_self _ _ tol9_pos⟩
    have e : ∀ j ∈ range n, Lagrange.changePoints n m old new junk k j * p.eval (old j) = if j = i then p.eval (old i) else 0 := by
      intro j hj
      have hj := mem_range.mp hj
      rw [c1 hm j hj, he]
      by_cases hji : j = i
      · subst hji
        rw [if_pos (Lagrange.almostEqual_self _ _ tol9_pos)]; simp
      · have : ¬ Lagrange.almostEqual (old i) (old j) tol9 = true := fun h' => hji (h i hi j hj h').symm
        simp [this, hji]
    rw [sum_congr rfl e, he]
    simp [hi]
  · have hm : ¬ Lagrange.MatchUpTo n old new k := by
      rintro ⟨k', hk', j, hj, ht⟩
      rw [hc k' hk' j hj] at ht; exact Bool.false_ne_true ht
    have hne : ∀ j < n, new k ≠ old j := by
      intro j hj e
      have := hc k le_rfl j hj
      rw [e, Lagrange.almostEqual_self _ _ tol9_pos] at this
      exact Bool.false_ne_true this.symm
    conv_rhs => rw [Lagrange.interp h.distinct hp, eval_finsetSum]
    refine sum_congr rfl fun j hj => ?_
    have hj := mem_range.mp hj
    rw [c2 hm j hj, Lagrange.bary_eq_card h.distinct hne hj]
    simp [mul_comm]

/-- **C28 is false**: whenever a new point is close to an old one, every later row whose point is not close to an old one is zero, so that not even
constants are reproduced. -/
theorem C28_change_points_false (n m : ℕ) (old new : Vec) (junk : Mat) (k' k : ℕ) (hk : k < m) (hk' : k' < k)
    (h1 : ∃ j < n, Lagrange.almostEqual (new k') (old j) tol9 = true)
    (h2 : ∀ j < n, Lagrange.almostEqual (new k) (old j) tol9 = false) :
    ∑ j ∈ range n, Lagrange.changePoints n m old new junk k j * (1 : ℝ[X]).eval (old j) = 0
      ∧ (1 : ℝ[X]).eval (new k) = 1 := by
  refine ⟨?_, eval_one⟩
  obtain ⟨c1, _⟩ := Lagrange.changePoints_spec n m old new junk k hk
  refine sum_eq_zero fun j hj => ?_
  rw [c1 ⟨k', hk'.le, h1⟩ j (mem_range.mp hj), h2 j (mem_range.mp hj)]
  simp

/-- A concrete case: old points `-1, 0, 1`, new points `-1, 1/2`; the second row should be `(-1/8, 3/4, 3/8)` and is zero. -/
example (junk : Mat) : Lagrange.changePoints 3 2 threeNodes (fun i => if i = 0 then -1 else 1 / 2) junk 1 2 = 0 := by
  obtain ⟨c1, _⟩ := Lagrange.changePoints_spec 3 2 threeNodes (fun i => if i = 0 then -1 else 1 / 2) junk 1 (by norm_num)
  have hm : Lagrange.MatchUpTo 3 threeNodes (fun i => if i = 0 then -1 else 1 / 2) 1 := by
    refine ⟨0, by norm_num, 0, by norm_num, ?_⟩
    have : threeNodes 0 = -1 := by simp [threeNodes]
    rw [this]; exact Lagrange.almostEqual_self _ _ tol9_pos
  rw [c1 hm 2 (by norm_num)]
  have : ¬ Lagrange.almostEqual (1 / 2) (threeNodes 2) tol9 = true := by
    have ht : tol9 < 1 / 4 := by unfold tol9; norm_num
    have hx : threeNodes 2 = 1 := by simp [threeNodes]; norm_num
    have ha : |(1 / 2 : ℝ)| = 1 / 2 := abs_of_pos (by norm_num)
    have hb : |(1 / 2 : ℝ) - 1| = 1 / 2 := by rw [abs_of_neg] <;> norm_num
    rw [hx]
    unfold Lagrange.almostEqual
    rw [ha, hb]
    split_ifs with hc
    · simp only [decide_eq_true_eq]; linarith
    · simp only [decide_eq_true_eq]; intro h; linarith [h.1]
  simp only [one_ne_zero, if_false]
  rw [if_neg this]

/-- **C25**, Lagrange: `add_derivative_matrix_deriv_wrt_tau` adds the derivative with respect to `tau` of what
`add_derivative_matrix` adds, for every order (and whatever the uninitialised entries of the stored matrices are). -/
theorem C25_lagrange_sobolev_dtau (n : ℕ) (x w : Vec) (junk : Mat) (d : ℕ) (tau : ℝ) (ht : 0 < tau) (M N : Mat) (i j : ℕ) :
    HasDerivAt (fun t => Lagrange.addDerivativeMatrix n x w junk t d M i j)
      (Lagrange.addDerivativeMatrixDtau n x w junk tau d N i j - N i j) tau := by
  unfold Lagrange.addDerivativeMatrix Lagrange.addDerivativeMatrixDtau
  split_ifs with h
  · have key : HasDerivAt (fun x => Lagrange.sobScale x d) (Lagrange.sobScaleDtau tau d) tau := by
      unfold Lagrange.sobScale Lagrange.sobScaleDtau
      split_ifs with hd
      · have h2 : HasDerivAt (fun x : ℝ => 2 / x) (-2 / tau ^ 2) tau := by
          have := (hasDerivAt_inv ht.ne').const_mul 2
          simpa [div_eq_mul_inv] using this
        refine HasDerivAt.congr_deriv (h2.pow (2 * d - 1)) ?_
        obtain ⟨n, rfl⟩ : ∃ q, d = q + 1 := ⟨d - 1, by omega⟩
        simp only [show 2 * (n + 1) = 2 * n + 2 by ring, pow_succ]
        push_cast
        field_simp
        ring
      · simpa using (hasDerivAt_id tau).div_const 2
    refine HasDerivAt.congr_deriv ((key.const_mul (Lagrange.sobolevBuffer n x w junk d i j)).const_add (M i j)) ?_
    simp
  · simpa using hasDerivAt_const tau (M i j)

/-- **C56** (false in general): the largest true part, orders `d ≥ n`, where the derivatives of all basis functions vanish and so does
what the code adds. Missing: orders `d < n`, refuted below. -/
theorem C56_lagrange_sobolev_partial (n : ℕ) (x w : Vec) (junk : Mat) (h : Lagrange.Distinct n x) (d : ℕ) (hd : n ≤ d) (tau : ℝ) (_ht : tau ≠ 0) (M : Mat)
    (i j : ℕ) (hi : i < n) (hj : j < n) :
    Lagrange.addDerivativeMatrix n x w junk tau d M i j
      = M i j + gram (fun i t => (_root_.Lagrange.basis (range n) x i).eval (window tau t)) tau d i j := by
  have hz : ∀ k < n, derivative^[d] (_root_.Lagrange.basis (range n) x k) = 0 := by
    intro k hk
    refine iterate_derivative_eq_zero ?_
    by_cases h0 : _root_.Lagrange.basis (range n) x k = 0
    · rw [h0]; simp; omega
    · exact lt_of_lt_of_le ((natDegree_lt_iff_degree_lt h0).mpr (Lagrange.degree_card_lt h hk)) hd
  have hg : gram (fun i t => (_root_.Lagrange.basis (range n) x i).eval (window tau t)) tau d i j = 0 := by
    have e : iteratedDeriv d (fun t => (_root_.Lagrange.basis (range n) x i).eval (window tau t)) = fun _ => 0 := by
      have := Legendre.iteratedDeriv_window (_root_.Lagrange.basis (range n) x i) tau 0 d
      simp only [sub_zero] at this
      unfold window
      rw [this, hz i hi]; simp
    unfold gram
    simp [e]
  rw [hg]
  unfold Lagrange.addDerivativeMatrix
  split_ifs with h1
  · obtain rfl : d = n := by omega
    have hD : ∀ k < d, (if d = 1 then Lagrange.dmat1 d x else Lagrange.dmat d x d) i k = 0 := by
      intro k hk
      have e : (if d = 1 then Lagrange.dmat1 d x else Lagrange.dmat d x d) = Lagrange.dmat d x d := by
        split_ifs with h2
        · subst h2; simp [Lagrange.dmat]
        · rfl
      have hs := Lagrange.dmat_spec h d i hi k hk
      rw [Lagrange.card, hz k hk] at hs
      rw [e, hs, eval_zero]
    have : Lagrange.sobolevBuffer d x w junk d i j = 0 := by
      unfold Lagrange.sobolevBuffer
      rw [if_neg (by omega)]
      simp only [Mat.mul]
      refine sum_eq_zero fun a ha => ?_
      rw [sum_eq_zero, zero_mul]
      intro b hb
      rw [hD b (mem_range.mp hb), zero_mul]
    simp [this]
  · simp

/-- **C56 is false**: with the two nodes `-1, 1` (Gauss-Lobatto weights `1, 1`) and order `0` the code adds `tau/2` to entry `(0, 0)`; the
integral is `tau/3`. Off the diagonal the code adds whatever the allocation contained. -/
theorem C56_lagrange_sobolev_false (junk M : Mat) (tau : ℝ) (ht : 0 < tau) :
    Lagrange.addDerivativeMatrix 2 (fun i => 2 * (i : ℝ) - 1) (fun _ => 1) junk tau 0 M 0 0 = M 0 0 + tau / 2 ∧
    Lagrange.addDerivativeMatrix 2 (fun i => 2 * (i : ℝ) - 1) (fun _ => 1) junk tau 0 M 0 1 = M 0 1 + junk 0 1 * (tau / 2) ∧
    gram (fun i t => (_root_.Lagrange.basis (range 2) (fun i : ℕ => 2 * (i : ℝ) - 1) i).eval (window tau t)) tau 0 0 0 = tau / 3 := by
  refine ⟨by simp [Lagrange.addDerivativeMatrix, Lagrange.sobolevBuffer, Lagrange.l2Mat, Lagrange.sobScale],
    by simp [Lagrange.addDerivativeMatrix, Lagrange.sobolevBuffer, Lagrange.l2Mat, Lagrange.sobScale], ?_⟩
  have e : ∀ t, (_root_.Lagrange.basis (range 2) (fun i : ℕ => 2 * (i : ℝ) - 1) 0).eval (window tau t) = 1 - t / tau := by
    intro t
    have : (range 2).erase 0 = {1} := by decide
    rw [_root_.Lagrange.basis, this, prod_singleton]
    simp [_root_.Lagrange.basisDivisor, window]
    field_simp
    ring
  unfold gram
  simp only [iteratedDeriv_zero, e]
  have hd : ∀ t ∈ Set.uIcc 0 tau, HasDerivAt (fun t : ℝ => -(tau / 3) * (1 - t / tau) ^ 3) ((1 - t / tau) * (1 - t / tau)) t := by
    intro t _
    have h1 : HasDerivAt (fun t : ℝ => 1 - t / tau) (-(1 / tau)) t := by
      simpa using ((hasDerivAt_id t).div_const tau).const_sub 1
    refine HasDerivAt.congr_deriv ((h1.pow 3).const_mul (-(tau / 3))) ?_
    push_cast
    field_simp
  rw [intervalIntegral.integral_eq_sub_of_hasDerivAt hd (Continuous.intervalIntegrable (by fun_prop) _ _)]
  field_simp
  ring

/-- The entries of the code's matrix of order `d ≥ 1` add up to a positive number, if the memory happens to contain zeros. -/
theorem sobolevBuffer_total_pos {n : ℕ} {x w : Vec} {junk : Mat} (h : Lagrange.Distinct n x) (hw : ∀ i < n, 0 < w i) (hj : ∀ i < n, ∀ j < n, i ≠ j → junk i j = 0)
    {d : ℕ} (h1 : 1 ≤ d) (hd : d < n) : 0 < ∑ i ∈ range n, ∑ j ∈ range n, Lagrange.sobolevBuffer n x w junk d i j := by
  have eD : (if d = 1 then Lagrange.dmat1 n x else Lagrange.dmat n x d) = Lagrange.dmat n x d := by
    split_ifs with h2
    · subst h2; simp [Lagrange.dmat]
    · rfl
  have e : ∀ i < n, ∀ j < n, Lagrange.sobolevBuffer n x w junk d i j = ∑ k ∈ range n, w k * Lagrange.dmat n x d i k * Lagrange.dmat n x d j k := by
    intro i _ j _
    unfold Lagrange.sobolevBuffer
    rw [if_neg (by omega)]
    simp only [eD, Mat.mul, Mat.tr]
    refine sum_congr rfl fun k hk => ?_
    rw [sum_eq_single k]
    · simp only [Lagrange.l2Mat, if_true]; ring
    · intro l hl hlk
      rw [Lagrange.l2Mat, if_neg hlk, hj l (mem_range.mp hl) k (mem_range.mp hk) hlk, mul_zero]
    · intro hk'; exact absurd hk hk'
  have e2 : ∑ i ∈ range n, ∑ j ∈ range n, Lagrange.sobolevBuffer n x w junk d i j = ∑ k ∈ range n, w k * (∑ i ∈ range n, Lagrange.dmat n x d i k) ^ 2 := by
    rw [sum_congr rfl fun i hi => sum_congr rfl fun j hj' => e i (mem_range.mp hi) j (mem_range.mp hj')]
    simp only [sum_comm (s := range n) (t := range n) (f := fun j k => w k * Lagrange.dmat n x d _ k * Lagrange.dmat n x d j k)]
    rw [sum_comm]
    refine sum_congr rfl fun k _ => ?_
    rw [sq, sum_mul_sum, mul_sum]
    refine sum_congr rfl fun i _ => ?_
    rw [mul_sum]
    exact sum_congr rfl fun j _ => by ring
  rw [e2]
  by_contra hneg
  have hnn : ∀ k ∈ range n, 0 ≤ w k * (∑ i ∈ range n, Lagrange.dmat n x d i k) ^ 2 := fun k hk =>
    mul_nonneg (hw k (mem_range.mp hk)).le (sq_nonneg _)
  have hz : ∀ k ∈ range n, w k * (∑ i ∈ range n, Lagrange.dmat n x d i k) ^ 2 = 0 :=
    (sum_eq_zero_iff_of_nonneg hnn).mp (le_antisymm (not_lt.mp hneg) (sum_nonneg hnn))
  have hz' : ∀ k < n, ∑ i ∈ range n, (derivative^[d] (Lagrange.card n x k)).eval (x i) = 0 := by
    intro k hk
    have h3 := (mul_eq_zero.mp (hz k (mem_range.mpr hk))).resolve_left (hw k hk).ne'
    rw [← pow_eq_zero_iff (n := 2) (by norm_num), ← h3]
    congr 1
    exact sum_congr rfl fun i hi => (Lagrange.dmat_spec h d i (mem_range.mp hi) k hk).symm
  have hX := Lagrange.interp h (p := X ^ d) (by rw [degree_X_pow]; exact_mod_cast hd)
  have hsum : ∑ i ∈ range n, (derivative^[d] (X ^ d : ℝ[X])).eval (x i) = (n : ℝ) * d.factorial := by
    simp [iterate_derivative_X_pow_eq_smul, Nat.descFactorial_self]
  rw [hX] at hsum
  simp only [iterate_derivative_sum, iterate_derivative_C_mul, eval_finset_sum, eval_mul, eval_C] at hsum
  rw [sum_comm] at hsum
  simp only [← mul_sum] at hsum
  rw [sum_eq_zero fun k hk => by rw [hz' k (mem_range.mp hk), mul_zero]] at hsum
  have : (0 : ℝ) < (n : ℝ) * d.factorial := by
    have : 0 < n := by omega
    positivity
  linarith

/-- The integrals of order `d ≥ 1` add up to 0, because the cardinal functions add up to 1. -/
theorem gram_total {n : ℕ} {x : Vec} (h : Lagrange.Distinct n x) (hn : 0 < n) {d : ℕ} (h1 : 1 ≤ d) (tau : ℝ) :
    ∑ i ∈ range n, ∑ j ∈ range n, gram (fun i t => (_root_.Lagrange.basis (range n) x i).eval (window tau t)) tau d i j = 0 := by
  refine sum_eq_zero fun i _ => ?_
  have e : ∀ k, iteratedDeriv d (fun t => (_root_.Lagrange.basis (range n) x k).eval (window tau t))
      = fun t => (2 / tau) ^ d * (derivative^[d] (Lagrange.card n x k)).eval (window tau t) := by
    intro k
    have := Legendre.iteratedDeriv_window (_root_.Lagrange.basis (range n) x k) tau 0 d
    simp only [sub_zero] at this
    exact this
  unfold gram
  simp only [e]
  rw [← intervalIntegral.integral_finsetSum fun j _ => Continuous.intervalIntegrable (by unfold window; fun_prop) _ _]
  simp only [← mul_sum, Lagrange.sum_card_deriv h hn h1, mul_zero, intervalIntegral.integral_zero]

/-- **C56 is false** for every basis with at least two nodes and every order `1 ≤ d < n`, even if the memory of the constructor contains zeros where it is
not assigned: some entry is wrong, whatever the length of the interval. (`w` are the weights, which are positive.) -/
theorem C56_zero_memory_false (n : ℕ) (x w : Vec) (h : Lagrange.Distinct n x) (hw : ∀ i < n, 0 < w i) (junk : Mat)
    (hj : ∀ i < n, ∀ j < n, i ≠ j → junk i j = 0) (d : ℕ) (h1 : 1 ≤ d) (hd : d < n) (tau : ℝ) (ht : 0 < tau) (M : Mat) :
    ∃ i < n, ∃ j < n, Lagrange.addDerivativeMatrix n x w junk tau d M i j
      ≠ M i j + gram (fun i t => (_root_.Lagrange.basis (range n) x i).eval (window tau t)) tau d i j := by
  by_contra hcon
  push Not at hcon
  have hpos := sobolevBuffer_total_pos h hw hj h1 hd
  have hs : 0 < Lagrange.sobScale tau d := by
    rw [Lagrange.sobScale, if_pos (show 0 < d from h1)]; positivity
  have e : ∀ i < n, ∀ j < n, Lagrange.sobolevBuffer n x w junk d i j * Lagrange.sobScale tau d
      = gram (fun i t => (_root_.Lagrange.basis (range n) x i).eval (window tau t)) tau d i j := by
    intro i hi j hj'
    have := hcon i hi j hj'
    rw [Lagrange.addDerivativeMatrix, if_pos (by omega)] at this
    linarith
  have t := gram_total h (by omega : 0 < n) h1 tau
  rw [← sum_congr rfl fun i hi => sum_congr rfl fun j hj' => e i (mem_range.mp hi) j (mem_range.mp hj')] at t
  simp only [← sum_mul] at t
  have := mul_pos hpos hs
  linarith

/-- **C56**, the exact extent: for a basis with at least two nodes the matrix added is right, whatever the memory contained before the construction, if and
only if the order is at least the number of nodes (where nothing is to be added). -/
theorem C56_lagrange_sobolev_iff (n : ℕ) (hn : 2 ≤ n) (x w : Vec) (h : Lagrange.Distinct n x) (hw : ∀ i < n, 0 < w i) (d : ℕ) (tau : ℝ) (ht : 0 < tau) :
    (∀ (junk M : Mat), ∀ i < n, ∀ j < n, Lagrange.addDerivativeMatrix n x w junk tau d M i j
      = M i j + gram (fun i t => (_root_.Lagrange.basis (range n) x i).eval (window tau t)) tau d i j) ↔ n ≤ d := by
  constructor
  · intro H
    by_contra hd
    rcases Nat.eq_zero_or_pos d with h0 | h0
    · subst h0
      have a := H (fun _ _ => 0) (fun _ _ => 0) 0 (by omega) 1 (by omega)
      have b := H (fun _ _ => 1) (fun _ _ => 0) 0 (by omega) 1 (by omega)
      rw [← a] at b
      simp [Lagrange.addDerivativeMatrix, Lagrange.sobolevBuffer, Lagrange.l2Mat, Lagrange.sobScale] at b
      exact ht.ne' b
    · obtain ⟨i, hi, j, hj, hne⟩ := C56_zero_memory_false n x w h hw (fun _ _ => 0) (fun _ _ _ _ _ => rfl) d h0 (by omega) tau ht (fun _ _ => 0)
      exact hne (H _ _ i hi j hj)
  · intro hd junk M i hi j hj
    exact C56_lagrange_sobolev_partial n x w junk h d hd tau ht.ne' M i j hi hj

/-- The hypotheses are met: three equidistant nodes and the weights of the Gauss-Lobatto rule with three points, order 2. -/
example : Lagrange.Distinct 3 (fun i => (i : ℝ) - 1) ∧ (∀ i < 3, 0 < (fun i : ℕ => if i = 1 then (4 / 3 : ℝ) else 1 / 3) i) ∧ 1 ≤ 2 ∧ 2 < 3 := by
  refine ⟨fun i _ j _ hij => by simpa using hij, fun i _ => ?_, by norm_num, by norm_num⟩
  dsimp only
  split_ifs <;> norm_num

end GSplines.Props
