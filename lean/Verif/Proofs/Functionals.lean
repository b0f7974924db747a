import Verif.Spec.Functionals
import Verif.Proofs.Colloc
import Verif.Proofs.BasisCache
import Verif.Proofs.GSplineOps
import Mathlib.Tactic.Ring
import Mathlib.Tactic.Linarith

/-!
# Lemmas on functionals
-/

namespace GSplines.Colloc

open GSplines Spec GLL Finset

/-! ## Loops that write a function of the position -/

theorem loop_hit {N : ℕ} {body : ℕ → Mat → Mat} {H : ℕ → ℕ → ℕ → Prop} [∀ i a b, Decidable (H i a b)] [∀ a b, Decidable (∃ i < N, H i a b)] {W : Mat}
    (h : ∀ i < N, ∀ m a b, body i m a b = if H i a b then W a b else m a b) (m : Mat) (a b : ℕ) :
    forLoop 0 N body m a b = if ∃ i < N, H i a b then W a b else m a b := by
  classical
  have := forLoop_ind (fun j s => ∀ a b, s a b = if ∃ i < j, H i a b then W a b else m a b) (Nat.zero_le N) body m (by simp) ?_ a b
  · rw [this]; congr 1
  · rintro j s - hj ih a b
    rw [h j hj, ih]
    by_cases h1 : H j a b
    · rw [if_pos h1, if_pos ⟨j, by omega, h1⟩]
    · rw [if_neg h1]
      by_cases h2 : ∃ i < j, H i a b
      · rw [if_pos h2, if_pos]
        obtain ⟨i, hi, h3⟩ := h2
        exact ⟨i, by omega, h3⟩
      · rw [if_neg h2, if_neg]
        rintro ⟨i, hi, h3⟩
        rcases Nat.lt_succ_iff_lt_or_eq.mp hi with h4 | rfl
        · exact h2 ⟨i, h4, h3⟩
        · exact h1 h3

theorem forLoopM_pure {σ : Type} {N : ℕ} {body : ℕ → σ → Res σ} {body' : ℕ → σ → σ} (h : ∀ i < N, ∀ m, body i m = .ok (body' i m)) (m : σ) :
    forLoopM 0 N body m = .ok (forLoop 0 N body' m) := by
  induction N with
  | zero => rfl
  | succ N ih =>
    rw [forLoopM_succ, ih (fun i hi => h i (by omega)), ok_bind, h N (by omega)]
    unfold forLoop
    rw [Nat.sub_zero, Nat.sub_zero, List.range'_concat, List.foldl_append]
    simp

/-! ## Positions -/

theorem pos_eq (n R iv row k : ℕ) : Basis.coefIdx n R iv row k = (iv * R + row) * n + k := by unfold Basis.coefIdx; ring

theorem pos_lt {n R m iv row k : ℕ} (hiv : iv < m) (hr : row < R) (hk : k < n) : Basis.coefIdx n R iv row k < m * n * R := by
  have := idx_lt hiv (col_lt hr hk)
  unfold Basis.coefIdx
  rw [Nat.add_assoc]; exact this

theorem pos_node {n R iv row k : ℕ} (hk : k < n) : Basis.coefIdx n R iv row k / n = iv * R + row ∧ Basis.coefIdx n R iv row k % n = k := by
  rw [pos_eq]; exact node_div hk

theorem pos_decode {n R iv row k : ℕ} (hr : row < R) (hk : k < n) :
    Basis.coefIdx n R iv row k / n / R = iv ∧ Basis.coefIdx n R iv row k / n % R = row ∧ Basis.coefIdx n R iv row k % n = k := by
  obtain ⟨h1, h2⟩ := pos_node (R := R) (iv := iv) (row := row) hk
  rw [h1, h2]
  obtain ⟨h3, h4⟩ := node_div (iv := iv) hr
  exact ⟨h3, h4, rfl⟩

theorem pos_inj {n R iv row k iv' row' k' : ℕ} (hr : row < R) (hk : k < n) (hr' : row' < R) (hk' : k' < n)
    (h : Basis.coefIdx n R iv row k = Basis.coefIdx n R iv' row' k') : iv = iv' ∧ row = row' ∧ k = k' := by
  obtain ⟨a1, a2, a3⟩ := pos_decode (iv := iv) hr hk
  obtain ⟨b1, b2, b3⟩ := pos_decode (iv := iv') hr' hk'
  rw [h] at a1 a2 a3
  exact ⟨by omega, by omega, by omega⟩

theorem sum_range_mul (a b : ℕ) (F : ℕ → ℝ) : ∑ x ∈ range (a * b), F x = ∑ i ∈ range a, ∑ j ∈ range b, F (i * b + j) := by
  induction a with
  | zero => simp
  | succ a ih => rw [Nat.succ_mul, sum_range_add, ih, sum_range_succ]

theorem sum_positions (n m C : ℕ) (F : ℕ → ℝ) :
    ∑ x ∈ range (m * n * C), F x = ∑ iv ∈ range m, ∑ c ∈ range C, ∑ k ∈ range n, F (Basis.coefIdx n C iv c k) := by
  rw [show m * n * C = m * (C * n) by ring, sum_range_mul]
  refine sum_congr rfl fun iv _ => ?_
  rw [sum_range_mul]
  refine sum_congr rfl fun c _ => sum_congr rfl fun k _ => ?_
  rw [pos_eq]; congr 1; ring

/-! ## Matrices that act node by node -/

/-- `mat` maps the vector of every node to `B` times it. -/
def Nodewise (n m R C : ℕ) (mat : Mat) (B : ℕ → ℕ → Mat) : Prop :=
  ∀ iv < m, ∀ row < R, ∀ k < n, ∀ iv' < m, ∀ col < C, ∀ k' < n,
    mat (Basis.coefIdx n R iv row k) (Basis.coefIdx n C iv' col k') = if iv' = iv ∧ k' = k then B iv k row col else 0

theorem Nodewise.mulVec {n m R C : ℕ} {mat : Mat} {B : ℕ → ℕ → Mat} (h : Nodewise n m R C mat B) (v : Vec) {iv row k : ℕ} (hiv : iv < m) (hr : row < R) (hk : k < n) :
    mat.mulVec (m * n * C) v (Basis.coefIdx n R iv row k) = ∑ col ∈ range C, B iv k row col * v (Basis.coefIdx n C iv col k) := by
  unfold Mat.mulVec
  rw [sum_positions, sum_eq_single iv]
  · refine sum_congr rfl fun col hcol => ?_
    rw [sum_eq_single k]
    · rw [h iv hiv row hr k hk iv hiv col (mem_range.mp hcol) k hk, if_pos ⟨rfl, rfl⟩]
    · intro k' hk' hne
      rw [h iv hiv row hr k hk iv hiv col (mem_range.mp hcol) k' (mem_range.mp hk'), if_neg (by tauto), zero_mul]
    · intro hn; exact absurd (mem_range.mpr hk) hn
  · intro iv' hiv' hne
    refine sum_eq_zero fun col hcol => sum_eq_zero fun k' hk' => ?_
    rw [h iv hiv row hr k hk iv' (mem_range.mp hiv') col (mem_range.mp hcol) k' (mem_range.mp hk'), if_neg (by tauto), zero_mul]
  · intro hn; exact absurd (mem_range.mpr hiv) hn

theorem apply_ok {L : LF} {v : List ℝ} (h : v.length = L.cols) : L.apply v = .ok ((List.range L.rows).map (L.mat.mulVec L.cols (vecOf v))) := by
  unfold LF.apply
  rw [if_neg (not_not.mpr h)]

/-- The action of a functional with `R` rows per node. -/
theorem actOn_ok {L : LF} {g : GSpline} {n m R C : ℕ} {jp jw p w : Vec} (hpw : pointsWeights n jp jw = .ok (p, w)) (hn : 0 < n) (hm : 0 < m) (hr : L.rows = m * n * R)
    (hc : L.cols = m * n * C) (hg : OnGrid g n m C p) :
    ∃ r, L.actOn g jp jw = .ok r ∧ OnGrid r n m R p ∧ r.dom = g.dom ∧ r.tau = g.tau ∧
      ∀ iv < m, ∀ row < R, ∀ k < n, nodal r iv row k = L.mat.mulVec (m * n * C) (vecOf g.coeffs) (Basis.coefIdx n R iv row k) := by
  have hdim : g.basis.dim = n := by rw [hg.basis]; simp [Basis.dim]
  have hlen : g.coeffs.length = L.cols := by rw [hg.cons, hg.len, hdim, hg.codim, hc]
  have hdim' : (Basis.lagrange ((List.range n).map p)).dim = n := by simp [Basis.dim]
  have hdiv : L.rows / g.nIntervals / g.basis.dim = R := by
    unfold GSpline.nIntervals
    rw [hr, hg.len, hdim, Nat.mul_assoc, Nat.mul_div_cancel_left _ hm, Nat.mul_div_cancel_left _ hn]
  have hcon : ((List.range L.rows).map (L.mat.mulVec L.cols (vecOf g.coeffs))).length = g.nIntervals * (Basis.lagrange ((List.range n).map p)).dim * R := by
    unfold GSpline.nIntervals
    rw [hdim', hg.len]; simp [hr]
  refine ⟨⟨g.dom, R, .lagrange ((List.range n).map p), (List.range L.rows).map (L.mat.mulVec L.cols (vecOf g.coeffs)), g.tau⟩, ?_, ⟨rfl, rfl, hg.len, ?_, hg.dom⟩, rfl, rfl,
    fun iv hiv row hrow k hk => ?_⟩
  · unfold LF.actOn
    rw [apply_ok hlen, ok_bind, if_neg (by rw [hdim]; show ¬ (g.tau.length = 0 ∨ _); rw [hg.len]; omega), hdiv, hdim]
    unfold Colloc.mk Colloc.glBasis
    rw [hpw]
    exact GSpline.make_ok hg.dom hcon
  · unfold Consistent; exact hcon
  · unfold nodal
    dsimp only
    rw [hdim', vecOf_map_range, hc]
    · rfl
    · rw [hr]; exact pos_lt hiv hrow hk

theorem nodal_coef {g : GSpline} {n m C : ℕ} {p : Vec} (hg : OnGrid g n m C p) (iv c k : ℕ) : vecOf g.coeffs (Basis.coefIdx n C iv c k) = nodal g iv c k := by
  have hdim : g.basis.dim = n := by rw [hg.basis]; simp [Basis.dim]
  unfold nodal
  rw [hdim, hg.codim]; rfl

theorem actOn_nodewise {L : LF} {g : GSpline} {n m R C : ℕ} {B : ℕ → ℕ → Mat} {jp jw p w : Vec} (hpw : pointsWeights n jp jw = .ok (p, w)) (hn : 0 < n) (hm : 0 < m)
    (hr : L.rows = m * n * R) (hc : L.cols = m * n * C) (hB : Nodewise n m R C L.mat B) (hg : OnGrid g n m C p) :
    ∃ r, L.actOn g jp jw = .ok r ∧ OnGrid r n m R p ∧ r.dom = g.dom ∧ r.tau = g.tau ∧
      ∀ iv < m, ∀ row < R, ∀ k < n, nodal r iv row k = ∑ col ∈ range C, B iv k row col * nodal g iv col k := by
  obtain ⟨r, h1, h2, h3, h4, h5⟩ := actOn_ok hpw hn hm hr hc hg
  refine ⟨r, h1, h2, h3, h4, fun iv hiv row hrow k hk => ?_⟩
  rw [h5 iv hiv row hrow k hk, hB.mulVec _ hiv hrow hk]
  exact sum_congr rfl fun c _ => by rw [nodal_coef hg]

/-! ## TransposeLeftMultiplication -/

theorem fill_spec {n m C : ℕ} {v : List ℝ} (hv : m * n * C ≤ v.length) {m0 : Mat} {B0 : ℕ → ℕ → Mat} (h0 : Nodewise n m 1 C m0 B0) :
    ∃ m1, TLM.fill n m C v m0 = .ok m1 ∧ Nodewise n m 1 C m1 (fun iv k _ c => vecOf v (Basis.coefIdx n C iv c k)) := by
  classical
  unfold TLM.fill
  rw [if_neg (by omega)]
  refine ⟨_, rfl, ?_⟩
  intro iv hiv row hrow k hk iv' hiv' c hc k' hk'
  have hrow0 : row = 0 := by omega
  subst hrow0
  have hi : ∀ iv c i a b (mm : Mat), setAt2 mm (iv * n + i) (c * n + iv * n * C + i) (vecOf v (iv * n * C + c * n + i)) a b
      = if a = iv * n + i ∧ b = c * n + iv * n * C + i then vecOf v b else mm a b := by
    intro iv c i a b mm
    rw [setAt2_apply]
    split_ifs with h
    · rw [h.2]; congr 1; ring
    · rfl
  rw [loop_hit (H := fun iv a b => ∃ c < C, ∃ i < n, a = iv * n + i ∧ b = c * n + iv * n * C + i) (W := fun _ b => vecOf v b) (fun iv _ mm a b => by
    rw [loop_hit (H := fun c a b => ∃ i < n, a = iv * n + i ∧ b = c * n + iv * n * C + i) (W := fun _ b => vecOf v b) (fun c _ mm a b => by
      rw [loop_hit (H := fun i a b => a = iv * n + i ∧ b = c * n + iv * n * C + i) (W := fun _ b => vecOf v b) (fun i _ mm a b => hi iv c i a b mm)])])]
  have hrowpos : ∀ iv k, Basis.coefIdx n 1 iv 0 k = iv * n + k := by intro iv k; unfold Basis.coefIdx; ring
  have hcolpos : ∀ iv c k, c * n + iv * n * C + k = Basis.coefIdx n C iv c k := by intro iv c k; unfold Basis.coefIdx; ring
  by_cases hs : iv' = iv ∧ k' = k
  · obtain ⟨rfl, rfl⟩ := hs
    rw [if_pos, if_pos ⟨rfl, rfl⟩]
    exact ⟨iv', hiv', c, hc, k', hk', hrowpos _ _, (hcolpos _ _ _).symm⟩
  · rw [if_neg hs, if_neg, h0 iv hiv 0 hrow k hk iv' hiv' c hc k' hk', if_neg hs]
    rintro ⟨iv1, -, c1, hc1, k1, hk1, e1, e2⟩
    rw [← hrowpos] at e1
    rw [hcolpos] at e2
    obtain ⟨f1, -, f2⟩ := pos_inj (by omega) hk (by omega) hk1 e1
    obtain ⟨f3, -, f4⟩ := pos_inj hc hk' hc1 hk1 e2
    exact hs ⟨by omega, by omega⟩

theorem nodewise_zero (n m R C : ℕ) : Nodewise n m R C Mat.zero (fun _ _ => Mat.zero) := by
  intro iv _ row _ k _ iv' _ c _ k' _
  simp [Mat.zero]

/-! ## MatrixLeftMultiplication -/

theorem writeNode_spec (n R C iv k : ℕ) (hk : k < n) (M : Mat) (m0 : Mat) (a b : ℕ) :
    (open Classical in MLM.writeNode n R C (iv * n + k) M m0 a b
      = if ∃ col < C, ∃ row < R, a = Basis.coefIdx n R iv row k ∧ b = Basis.coefIdx n C iv col k then M (a / n % R) (b / n % C) else m0 a b) := by
  classical
  obtain ⟨e1, e2⟩ := node_div (iv := iv) hk
  unfold MLM.writeNode
  rw [e1, e2]
  rw [loop_hit (H := fun col a b => ∃ row < R, a = Basis.coefIdx n R iv row k ∧ b = Basis.coefIdx n C iv col k) (W := fun a b => M (a / n % R) (b / n % C)) (fun col hcol mm a b => by
    rw [loop_hit (H := fun row a b => a = Basis.coefIdx n R iv row k ∧ b = Basis.coefIdx n C iv col k) (W := fun a b => M (a / n % R) (b / n % C)) (fun row hrow mm a b => by
      rw [setAt2_apply, show row * n + iv * n * R + k = Basis.coefIdx n R iv row k by unfold Basis.coefIdx; ring,
        show col * n + iv * n * C + k = Basis.coefIdx n C iv col k by unfold Basis.coefIdx; ring]
      split_ifs with h
      · rw [h.1, h.2, (pos_decode hrow hk).2.1, (pos_decode hcol hk).2.1]
      · rfl)])]

theorem updateEach_spec {L : MLM} {Ms : List LF} (hlen : Ms.length = L.nglp * L.nInt) (hs : ∀ M ∈ Ms, M.cols = L.cols ∧ M.rows = L.rows) {B0 : ℕ → ℕ → Mat}
    (h0 : Nodewise L.nglp L.nInt L.rows L.cols L.lf.mat B0) :
    ∃ m1, L.updateEach Ms = .ok { L with lf := { L.lf with mat := m1 } } ∧
      Nodewise L.nglp L.nInt L.rows L.cols m1 (fun iv k => (Ms.getD (iv * L.nglp + k) ⟨0, 0, Mat.zero⟩).mat) := by
  classical
  obtain ⟨⟨r0, c0, m0⟩, n, m, C, R⟩ := L
  dsimp only at *
  have hget : ∀ i < Ms.length, (Ms.getD i ⟨0, 0, Mat.zero⟩).cols = C ∧ (Ms.getD i ⟨0, 0, Mat.zero⟩).rows = R := by
    intro i hi
    rw [List.getD_eq_getElem?_getD, List.getElem?_eq_getElem hi]
    exact hs _ (List.getElem_mem _)
  refine ⟨forLoop 0 Ms.length (fun i mm => MLM.writeNode n R C i (Ms.getD i ⟨0, 0, Mat.zero⟩).mat mm) m0, ?_, ?_⟩
  · unfold MLM.updateEach
    dsimp only
    rw [if_neg (not_not.mpr hlen), forLoopM_pure (body' := fun i mm => MLM.writeNode n R C i (Ms.getD i ⟨0, 0, Mat.zero⟩).mat mm)]
    · rfl
    · intro i hi mm
      obtain ⟨g1, g2⟩ := hget i hi
      rw [if_neg]
      rintro (h | h)
      · exact h g1
      · exact h g2
  · intro iv hiv row hrow k hk iv' hiv' c hc k' hk'
    rw [loop_hit (H := fun i a b => ∃ col < C, ∃ row < R, a = Basis.coefIdx n R (i / n) row (i % n) ∧ b = Basis.coefIdx n C (i / n) col (i % n))
      (W := fun a b => (Ms.getD (a / n / R * n + a % n) ⟨0, 0, Mat.zero⟩).mat (a / n % R) (b / n % C)) (fun i hi mm a b => by
        obtain ⟨iv1, -, k1, hk1, rfl⟩ : ∃ iv < m, ∃ k < n, i = iv * n + k := by
          have hn : 0 < n := by
            rcases Nat.eq_zero_or_pos n with h | h
            · subst h; simp at hlen; omega
            · exact h
          refine ⟨i / n, ?_, i % n, Nat.mod_lt _ hn, ?_⟩
          · rw [Nat.div_lt_iff_lt_mul hn, Nat.mul_comm]; omega
          · rw [Nat.mul_comm]; exact (Nat.div_add_mod i n).symm
        obtain ⟨e1, e2⟩ := node_div (iv := iv1) hk1
        rw [writeNode_spec n R C iv1 k1 hk1]
        simp only [e1, e2]
        by_cases h : ∃ col < C, ∃ row < R, a = Basis.coefIdx n R iv1 row k1 ∧ b = Basis.coefIdx n C iv1 col k1
        · rw [if_pos h, if_pos h]
          obtain ⟨col, hcol, row1, hrow1, ha, hb⟩ := h
          obtain ⟨d1, d2, d3⟩ := pos_decode (iv := iv1) hrow1 hk1
          rw [← ha] at d1 d2 d3
          rw [d1, d3]
        · rw [if_neg h, if_neg h])]
    obtain ⟨d1, d2, d3⟩ := pos_decode (iv := iv) hrow hk
    obtain ⟨d4, d5, d6⟩ := pos_decode (iv := iv') hc hk'
    by_cases hsame : iv' = iv ∧ k' = k
    · obtain ⟨rfl, rfl⟩ := hsame
      rw [if_pos, if_pos ⟨rfl, rfl⟩, d1, d2, d3, d5]
      obtain ⟨e1, e2⟩ := node_div (iv := iv') hk'
      refine ⟨iv' * n + k', ?_, c, hc, row, hrow, by rw [e1, e2], by rw [e1, e2]⟩
      rw [hlen, Nat.mul_comm iv']; exact col_lt hiv' hk'
    · rw [if_neg hsame, if_neg, h0 iv hiv row hrow k hk iv' hiv' c hc k' hk', if_neg hsame]
      rintro ⟨i, hi, c1, hc1, r1, hr1, e1, e2⟩
      have hn : 0 < n := by omega
      have hm := Nat.mod_lt i hn
      obtain ⟨f1, -, f2⟩ := pos_inj hrow hk hr1 hm e1
      obtain ⟨f3, -, f4⟩ := pos_inj hc hk' hc1 hm e2
      exact hsame ⟨by omega, by omega⟩

theorem writeAll_spec (n R C iv k : ℕ) (hCR : C ≤ R) (hk : k < n) (M : Mat) (m0 : Mat) (a b : ℕ) :
    (open Classical in forLoop 0 C (fun col m => forLoop 0 C (fun row m => setAt2 m (row * n + iv * n * R + k) (col * n + iv * n * C + k) (M col row)) m) m0 a b
      = if ∃ col < C, ∃ row < C, a = Basis.coefIdx n R iv row k ∧ b = Basis.coefIdx n C iv col k then M (b / n % C) (a / n % R) else m0 a b) := by
  classical
  rw [loop_hit (H := fun col a b => ∃ row < C, a = Basis.coefIdx n R iv row k ∧ b = Basis.coefIdx n C iv col k) (W := fun a b => M (b / n % C) (a / n % R)) (fun col hcol mm a b => by
    rw [loop_hit (H := fun row a b => a = Basis.coefIdx n R iv row k ∧ b = Basis.coefIdx n C iv col k) (W := fun a b => M (b / n % C) (a / n % R)) (fun row hrow mm a b => by
      rw [setAt2_apply, show row * n + iv * n * R + k = Basis.coefIdx n R iv row k by unfold Basis.coefIdx; ring,
        show col * n + iv * n * C + k = Basis.coefIdx n C iv col k by unfold Basis.coefIdx; ring]
      split_ifs with h
      · rw [h.1, h.2, (pos_decode (show row < R by omega) hk).2.1, (pos_decode hcol hk).2.1]
      · rfl)])]

/-- `update(matrix)` with at least as many rows as columns: the first rows of every block become those of the transposed matrix, the others keep their content. -/
theorem updateAll_spec {L : MLM} {M : LF} {n m C R : ℕ} (hn : L.nglp = n) (hi : L.nInt = m) (hC : L.cols = C) (hR : L.rows = R) (h1 : L.lf.rows = m * n * R)
    (h2 : L.lf.cols = m * n * C) (hCR : C ≤ R) (hr : M.rows = R) (hc : M.cols = C) {B0 : ℕ → ℕ → Mat} (h0 : Nodewise n m R C L.lf.mat B0) :
    ∃ m1, L.updateAll M = .ok { L with lf := { L.lf with mat := m1 } } ∧
      Nodewise n m R C m1 (fun iv k row col => if row < C then M.mat col row else B0 iv k row col) := by
  classical
  obtain ⟨⟨r0, c0, m0⟩, n', m', C', R'⟩ := L
  dsimp only at *
  subst hn hi hC hR h1 h2
  rename' n' => n, m' => m, C' => C, R' => R
  have index : ∀ i < m * n, ∃ iv < m, ∃ k < n, i = iv * n + k := by
    intro i hi
    have hn : 0 < n := by
      rcases Nat.eq_zero_or_pos n with h | h
      · subst h; simp at hi
      · exact h
    refine ⟨i / n, ?_, i % n, Nat.mod_lt _ hn, ?_⟩
    · rw [Nat.div_lt_iff_lt_mul hn]; exact hi
    · rw [Nat.mul_comm]; exact (Nat.div_add_mod i n).symm
  refine ⟨forLoop 0 (m * n) (fun index mm => forLoop 0 C (fun col mm => forLoop 0 C (fun row mm =>
    setAt2 mm (row * n + index / n * n * R + index % n) (col * n + index / n * n * C + index % n) (M.mat col row)) mm) mm) m0, ?_, ?_⟩
  · unfold MLM.updateAll
    dsimp only
    rw [if_neg (by omega), forLoopM_pure (body' := fun index mm => forLoop 0 C (fun col mm => forLoop 0 C (fun row mm =>
      setAt2 mm (row * n + index / n * n * R + index % n) (col * n + index / n * n * C + index % n) (M.mat col row)) mm) mm)]
    · rfl
    · intro i hi mm
      obtain ⟨iv, hiv, k, hk, rfl⟩ := index i hi
      obtain ⟨e1, e2⟩ := node_div (iv := iv) hk
      rw [e1, e2]
      refine forLoopM_pure (fun col hcol mm => forLoopM_pure (fun row hrow mm => ?_) mm) mm
      have b1 := pos_lt (R := R) hiv (show row < R by omega) hk
      have b2 := pos_lt (R := C) hiv hcol hk
      rw [show Basis.coefIdx n R iv row k = row * n + iv * n * R + k by unfold Basis.coefIdx; ring] at b1
      rw [show Basis.coefIdx n C iv col k = col * n + iv * n * C + k by unfold Basis.coefIdx; ring] at b2
      rw [if_neg]
      omega
  · intro iv hiv row hrow k hk iv' hiv' c hc' k' hk'
    rw [loop_hit (H := fun i a b => ∃ col < C, ∃ row < C, a = Basis.coefIdx n R (i / n) row (i % n) ∧ b = Basis.coefIdx n C (i / n) col (i % n))
      (W := fun a b => M.mat (b / n % C) (a / n % R)) (fun i hi mm a b => by
        obtain ⟨iv1, -, k1, hk1, rfl⟩ := index i hi
        obtain ⟨e1, e2⟩ := node_div (iv := iv1) hk1
        simp only [e1, e2]
        rw [writeAll_spec n R C iv1 k1 hCR hk1])]
    obtain ⟨d1, d2, d3⟩ := pos_decode (iv := iv) hrow hk
    obtain ⟨d4, d5, d6⟩ := pos_decode (iv := iv') hc' hk'
    by_cases hsame : iv' = iv ∧ k' = k
    · obtain ⟨rfl, rfl⟩ := hsame
      rw [if_pos (show iv' = iv' ∧ k' = k' from ⟨rfl, rfl⟩)]
      dsimp only
      by_cases hrc : row < C
      · rw [if_pos hrc, if_pos, d2, d5]
        obtain ⟨e1, e2⟩ := node_div (iv := iv') hk'
        refine ⟨iv' * n + k', ?_, c, hc', row, hrc, by rw [e1, e2], by rw [e1, e2]⟩
        rw [Nat.mul_comm iv', Nat.mul_comm m]; exact col_lt hiv' hk'
      · rw [if_neg hrc, if_neg, h0 iv' hiv row hrow k' hk iv' hiv' c hc' k' hk', if_pos ⟨rfl, rfl⟩]
        rintro ⟨i, hi, c1, hc1, r1, hr1, e1, e2⟩
        have hn : 0 < n := by omega
        have hm := Nat.mod_lt i hn
        obtain ⟨-, f1, -⟩ := pos_inj hrow hk (show r1 < R by omega) hm e1
        omega
    · rw [if_neg hsame, if_neg, h0 iv hiv row hrow k hk iv' hiv' c hc' k' hk', if_neg hsame]
      rintro ⟨i, hi, c1, hc1, r1, hr1, e1, e2⟩
      have hn : 0 < n := by omega
      have hm := Nat.mod_lt i hn
      obtain ⟨f1, -, f2⟩ := pos_inj hrow hk (show r1 < R by omega) hm e1
      obtain ⟨f3, -, f4⟩ := pos_inj hc' hk' hc1 hm e2
      exact hsame ⟨by omega, by omega⟩

end GSplines.Colloc
