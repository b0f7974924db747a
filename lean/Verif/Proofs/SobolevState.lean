import Verif.Proofs.Sobolev

/-! # The Sobolev cost in every state of the object -/

namespace GSplines

open Spec Finset Interp

/-- A basis with which the interpolation problem can be solved: usable parameters, an even number of functions, end points that the code does not confuse
with a Lagrange node, and `α > 0` for Basis0101 (see C57). -/
structure Interpolable (b : Basis) : Prop where
  valid : b.Valid
  even : b.dim % 2 = 0
  ne : b.dim ≠ 0
  left : b.CleanAt (-1)
  right : b.CleanAt 1
  pos : ∀ a, b = .b0101 a → 0 < a

namespace Sobolev

/-- The interpolator inside a reachable object is reachable. -/
theorem sreach_inv {lu : LU} {w : Pts} {b : Basis} {weights : List (ℕ × ℝ)} {mem : LagMem} {s : Sobolev} (h : SReach lu w b weights mem s) :
    Reach lu w.cols (w.rows - 1) b s.interp ∧ s.weights = weights ∧ s.points = w ∧ s.mem = mem := by
  induction h with
  | @make junk s h =>
    unfold make at h
    split_ifs at h
    cases hm : Interp.make w.cols (w.rows - 1) b junk with
    | error e => rw [hm] at h; cases h
    | ok i =>
      rw [hm, Interp.ok_bind] at h
      cases h
      exact ⟨.make hm, rfl, rfl, rfl⟩
  | @cost s s' tau v _ h ih =>
    unfold cost at h
    cases hs : s.interp.solveInterpolation lu tau s.points with
    | error e => rw [hs] at h; cases h
    | ok p =>
      obtain ⟨i, y⟩ := p
      rw [hs, Interp.ok_bind] at h
      dsimp only at h
      cases hr : innerProd i.basis s.mem s.weights i.n i.codim tau y y with
      | error e => rw [hr] at h; cases h
      | ok r =>
        rw [hr, Interp.ok_bind] at h
        cases h
        exact ⟨.solve ih.1 hs, ih.2⟩
  | @grad s s' tau buff out _ h ih =>
    unfold grad at h
    cases hs : s.interp.solveInterpolation lu tau s.points with
    | error e => rw [hs] at h; cases h
    | ok p =>
      obtain ⟨i, y⟩ := p
      rw [hs, Interp.ok_bind] at h
      dsimp only at h
      cases hr : forLoopM 0 i.n (gradStep lu s tau y) (i, buff) with
      | error e => rw [hr] at h; cases h
      | ok st =>
        rw [hr, Interp.ok_bind] at h
        cases h
        refine ⟨?_, ih.2⟩
        refine GLL.forLoopM_ind (fun _ (st : Interp × List ℝ) => Reach lu w.cols (w.rows - 1) b st.1) (Nat.zero_le _) _ (.solve ih.1 hs) ?_ hr
        intro idx _ _ st st' hst hb
        unfold gradStep at hb
        cases h1 : st.1.coeffDerivative lu y tau idx with
        | error e => rw [h1] at hb; cases hb
        | ok p =>
          obtain ⟨j, dy⟩ := p
          rw [h1, Interp.ok_bind] at hb
          dsimp only at hb
          cases h2 : rd tau idx with
          | error e => rw [h2] at hb; cases hb
          | ok t =>
            rw [h2, Interp.ok_bind] at hb
            cases h3 : matrixDtau j.basis s.mem s.weights t with
            | error e => rw [h3] at hb; cases hb
            | ok m =>
              rw [h3, Interp.ok_bind] at hb
              cases h4 : forLoopM 0 j.codim (fun c r => do
                  let a ← seg j.basis j.codim y idx c
                  return r + form j.basis.dim m (vecOf a) (vecOf a)) 0 with
              | error e => rw [h4] at hb; cases hb
              | ok r =>
                rw [h4, Interp.ok_bind] at hb
                cases h5 : innerProd j.basis s.mem s.weights j.n j.codim tau y ((List.range j.size).map dy) with
                | error e => rw [h5] at hb; cases hb
                | ok v =>
                  rw [h5, Interp.ok_bind] at hb
                  split_ifs at hb
                  cases hb
                  exact .coeff hst h1

/-- `solve_interpolation` returns the solution. -/
theorem solve_total {lu : LU} (hlu : LUContract lu) {codim n : ℕ} (hn : 0 < n) {b : Basis} (hb : Interpolable b) {s : Interp} (hs : Reach lu codim n b s)
    {tau : List ℝ} (hlen : tau.length = n) (ht : ∀ t ∈ tau, 1 / 10 ^ 6 ≤ t) {w : Pts} (hw : w.rows = n + 1) (hc : w.cols = codim) :
    ∃ s' x, s.solveInterpolation lu tau w = .ok (s', x) ∧ s'.basis = b ∧ s'.codim = codim ∧ s'.n = n ∧ x.length = b.dim * codim * n ∧
      Reach lu codim n b s' ∧ Interpolates b n codim (vecOf tau) w.at' (vecOf x) := by
  have U := Props.usable_of hb.valid hb.even hb.ne hb.left hb.right
  obtain ⟨s', g, h1, -⟩ := Props.C57_always_interpolates lu hlu codim n hn b hb.valid hb.even hb.ne hb.left hb.right hb.pos s hs tau hlen ht w hw hc
  unfold Interp.interpolate at h1
  cases hsol : s.solveInterpolation lu tau w with
  | error e => rw [hsol] at h1; cases h1
  | ok p =>
    obtain ⟨s1, x⟩ := p
    have hR := Reach.solve hs hsol
    obtain ⟨-, e1, e2, e3⟩ := reach_inv U hn hR
    obtain ⟨-, f1, f2, f3⟩ := reach_inv U hn hs
    obtain ⟨h2, h3⟩ := Props.C40_never_stale_partial lu hlu codim n hn b hb.valid hb.even hb.ne hb.left hb.right hb.pos s s1 hs tau w x hsol
    obtain ⟨-, -, -, -, -, -, -, -, hx⟩ := solve_ok hsol
    refine ⟨s1, x, rfl, e1, e2, e3, ?_, hR, h3⟩
    rw [if_pos h2] at hx
    rw [hx, List.length_map, List.length_range, Interp.size, f1, f2, f3]

/-- The value of the cost. -/
theorem cost_value {lu : LU} (hlu : LUContract lu) {w : Pts} (hw : 2 ≤ w.rows) {b : Basis} (hb : Interpolable b) {weights : List (ℕ × ℝ)}
    (ho : ∀ p ∈ weights, Adds b p.1) {mem : LagMem} {s : Sobolev} (hs : SReach lu w b weights mem s) {tau : List ℝ} (hlen : tau.length + 1 = w.rows)
    (ht : ∀ t ∈ tau, 1 / 10 ^ 6 ≤ t) :
    ∃ s' x, s.cost lu tau = .ok (s', total b tau.length w.cols (fun iv => wsum (q b mem (vecOf tau iv)) weights Mat.zero) (vecOf x) (vecOf x)) ∧
      x.length = b.dim * w.cols * tau.length ∧ Interpolates b tau.length w.cols (vecOf tau) w.at' (vecOf x) := by
  obtain ⟨hR, rfl, rfl, rfl⟩ := sreach_inv hs
  have hn : tau.length = s.points.rows - 1 := by omega
  obtain ⟨i, x, h1, e1, e2, e3, e4, -, h2⟩ := solve_total hlu (by omega) hb hR hn ht (by omega) rfl
  refine ⟨{ s with interp := i }, x, ?_, by rw [e4, hn], by rw [hn]; exact h2⟩
  unfold cost
  rw [h1, Interp.ok_bind]
  dsimp only
  rw [e1, e2, e3, innerProd_ok ho hn e4 e4, Interp.ok_bind, hn]
  rfl

/-! ## The derivatives of the matrices -/

/-- The Gram matrix that a Lagrange basis uses is symmetric in the entries that its constructor does not assign. -/
def SymmMem (b : Basis) (mem : LagMem) : Prop :=
  match b with
  | .lagrange x => ∀ i < x.length, ∀ j < x.length, mem.junk i j = mem.junk j i
  | _ => True

theorem sandwich_symm {n : ℕ} {d l : Mat} (hl : ∀ i < n, ∀ j < n, l i j = l j i) (i j : ℕ) : ((d.mul n l).mul n d.tr) i j = ((d.mul n l).mul n d.tr) j i := by
  unfold Mat.mul Mat.tr
  simp only [sum_mul]
  rw [sum_comm]
  refine sum_congr rfl fun a ha => sum_congr rfl fun c hc => ?_
  rw [mem_range] at ha hc
  rw [hl a ha c hc]; ring

theorem q_symm {b : Basis} {mem : LagMem} (hm : SymmMem b mem) (hv : ∀ a, b = .b0101 a → 0 < a ∧ a < 1) {t : ℝ} (ht : t ≠ 0) (d : ℕ) {i j : ℕ} (hi : i < b.dim) (hj : j < b.dim) :
    q b mem t d i j = q b mem t d j i := by
  cases b with
  | legendre n =>
    simp only [q, Basis.addDerivMatrix, Legendre.addDerivativeMatrix]
    split_ifs with h
    · simp only [Mat.zero, zero_add]
      congr 1
      unfold Legendre.sobolevBuffer
      split_ifs with h0
      · unfold Legendre.l2Mat
        by_cases hij : i = j
        · rw [hij]
        · rw [if_neg hij, if_neg (Ne.symm hij)]
      · refine sandwich_symm (fun a _ c _ => ?_) i j
        unfold Legendre.l2Mat
        by_cases hij : a = c
        · rw [hij]
        · rw [if_neg hij, if_neg (Ne.symm hij)]
    · rfl
  | lagrange x =>
    have hl : ∀ a < x.length, ∀ c < x.length, Lagrange.l2Mat mem.w mem.junk a c = Lagrange.l2Mat mem.w mem.junk c a := by
      intro a ha c hc
      unfold Lagrange.l2Mat
      by_cases hij : a = c
      · rw [hij]
      · rw [if_neg hij, if_neg (Ne.symm hij)]; exact hm a ha c hc
    simp only [q, Basis.addDerivMatrix, Lagrange.addDerivativeMatrix]
    split_ifs with h
    · simp only [Mat.zero, zero_add]
      congr 1
      unfold Lagrange.sobolevBuffer
      split_ifs with h0 h1
      · exact hl i hi j hj
      · exact sandwich_symm hl i j
      · exact sandwich_symm hl i j
    · rfl
  | b0101 a =>
    obtain ⟨h0, h1⟩ := hv a rfl
    by_cases h3 : d ≤ 3
    · by_cases h2 : d = 2
      · subst h2
        obtain ⟨R, hR, hR'⟩ := Props.C31_basis0101_sobolev_order_two a h0 h1 t ht Mat.zero
        simp only [q, Basis.addDerivMatrix, hR]
        rw [hR' i hi j hj, hR' j hj i hi]
        simp only [gram, Mat.zero]
        congr 2
        exact intervalIntegral.integral_congr fun s _ => mul_comm _ _
      · obtain ⟨R, hR, hR'⟩ := (Props.C31_basis0101_sobolev_partial a h0 h1 t ht Mat.zero d h2).1 h3
        simp only [q, Basis.addDerivMatrix, hR]
        rw [hR' i hi j hj, hR' j hj i hi]
        simp only [gram, Mat.zero]
        congr 1
        exact intervalIntegral.integral_congr fun s _ => mul_comm _ _
    · have := (Props.C31_basis0101_sobolev_partial a h0 h1 t ht Mat.zero d (by omega)).2 (by omega)
      simp only [q, Basis.addDerivMatrix, this]
      rfl

theorem q_hasDerivAt {b : Basis} {mem : LagMem} (hv : ∀ a, b = .b0101 a → 0 < a ∧ a < 1) {t : ℝ} (ht : 0 < t) {d : ℕ} (hd : AddsDtau b d) {i j : ℕ} (hi : i < b.dim) (hj : j < b.dim) :
    HasDerivAt (fun t => q b mem t d i j) (dq b mem t d i j) t := by
  cases b with
  | legendre n =>
    have := Props.C25_legendre_sobolev_dtau n d t ht Mat.zero Mat.zero i j
    simp only [q, dq, Basis.addDerivMatrix, Basis.addDerivMatrixDtau]
    rw [show (Mat.zero i j : ℝ) = 0 from rfl, sub_zero] at this
    exact this
  | lagrange x =>
    have := Props.C25_lagrange_sobolev_dtau x.length (vecOf x) mem.w mem.junk d t ht Mat.zero Mat.zero i j
    simp only [q, dq, Basis.addDerivMatrix, Basis.addDerivMatrixDtau]
    rw [show (Mat.zero i j : ℝ) = 0 from rfl, sub_zero] at this
    exact this
  | b0101 a =>
    obtain ⟨h0, h1⟩ := hv a rfl
    obtain ⟨R, R', h2, h3, h4⟩ := (Props.C25_basis0101_sobolev_dtau a h0 h1 t Mat.zero Mat.zero d).1 hd
    simp only [q, dq, Basis.addDerivMatrix, Basis.addDerivMatrixDtau, h2, h3]
    have := h4 i hi j hj
    rw [show (Mat.zero i j : ℝ) = 0 from rfl, sub_zero] at this
    exact this

end Sobolev

end GSplines
