import Verif.Proofs.RoundingFunctionals
import Verif.Spec.RoundingFunctionals
import Verif.Proofs.GSplineOps
import Verif.Proofs.RateSplineOps
import Verif.Proofs.BasisCache
import Verif.Proofs.Functionals

/-!
# The rounded matrix of derivatives
-/

namespace GSplines.Rounded.Functional

open GSplines Colloc Nd Spec

/-- Constants for finitely many indices. -/
theorem common (n : ℕ) (P : ℕ → ℝ → ℝ → Prop) (mono : ∀ i C C' δ δ', C ≤ C' → δ' ≤ δ → P i C δ → P i C' δ') (h : ∀ i < n, ∃ C ≥ (0 : ℝ), ∃ δ > (0 : ℝ), P i C δ) :
    ∃ C ≥ (0 : ℝ), ∃ δ > (0 : ℝ), ∀ i < n, P i C δ := by
  induction n with
  | zero => exact ⟨0, le_rfl, 1, one_pos, fun i hi => absurd hi (by omega)⟩
  | succ n ih =>
    obtain ⟨C1, hC1, δ1, hδ1, h1⟩ := ih fun i hi => h i (by omega)
    obtain ⟨C2, hC2, δ2, hδ2, h2⟩ := h n (by omega)
    refine ⟨max C1 C2, le_max_of_le_left hC1, min δ1 δ2, lt_min hδ1 hδ2, fun i hi => ?_⟩
    rcases Nat.lt_succ_iff_lt_or_eq.mp hi with hi | rfl
    · exact mono _ _ _ _ _ (le_max_left _ _) (min_le_left _ _) (h1 i hi)
    · exact mono _ _ _ _ _ (le_max_right _ _) (min_le_right _ _) h2

/-- A program without inputs that differ. -/
theorem rate_unit {β : Type} [Gauge β] {F : ℝ × ℝ → Nd β} {y : β} (h : RateAt (fun u (_ : Unit) => F u) () y) :
    ∃ C ≥ (0 : ℝ), ∃ δ > (0 : ℝ), ∀ u, Small u δ → All (F u) fun o => ∃ b, o = .ok b ∧ Gauge.close (C * sz u) b y := by
  obtain ⟨C, hC, δ, hδ, h⟩ := h
  refine ⟨C, hC, δ, hδ, fun u hu o ho => ?_⟩
  obtain ⟨b, e, hb⟩ := (h u hu () o ho).1 0 le_rfl hδ.le trivial
  exact ⟨b, e, by rwa [add_zero] at hb⟩

theorem derivFactor_rate (order : ℕ) {tau : ℝ} (ht : tau ≠ 0) : RateAt (fun u (_ : Unit) => derivFactor u order tau) () ((2 / tau) ^ order) := by
  unfold derivFactor
  split_ifs with h
  · subst h
    rw [pow_zero]
    exact RateAt.pure (f := fun _ : Unit => (1 : ℝ)) (LLip.const _ _)
  · exact RateAt.bind (RateAt.quot (f := fun _ : Unit => (2 : ℝ)) (g := fun _ => tau) (by fun_prop) (by fun_prop) ht) (RateAt.near (f := fun q : Unit × ℝ => q.2 ^ order) (pow_llip (by fun_prop) order))

/-- The product of two rounded numbers. -/
theorem mul_close {u : ℝ × ℝ} (h1 : 0 ≤ u.1) (h2 : 0 ≤ u.2) {C1 C2 B d z f F e : ℝ} (hC1 : 0 ≤ C1) (hC2 : 0 ≤ C2) (hs : sz u ≤ 1) (hz : |z| ≤ B) (hF : |F| ≤ B)
    (hd : |d - z| ≤ C1 * sz u) (hf : |f - F| ≤ C2 * sz u) (he : |e - d * f| ≤ u.1 * |d * f| + u.2) :
    |e - z * F| ≤ ((B + C1) * (B + C2) + 1 + (B + C1) * C2 + B * C1) * sz u := by
  have s0 : 0 ≤ sz u := add_nonneg h1 h2
  have hB : 0 ≤ B := (abs_nonneg _).trans hz
  have d1 : |d| ≤ B + C1 := by
    have : |d| ≤ |d - z| + |z| := by simpa using abs_add_le (d - z) z
    nlinarith
  have f1 : |f| ≤ B + C2 := by
    have : |f| ≤ |f - F| + |F| := by simpa using abs_add_le (f - F) F
    nlinarith
  have p1 : |d * f| ≤ (B + C1) * (B + C2) := by rw [abs_mul]; exact mul_le_mul d1 f1 (abs_nonneg _) (by linarith)
  have p2 : |d * f - z * F| ≤ (B + C1) * (C2 * sz u) + B * (C1 * sz u) := by
    rw [show d * f - z * F = d * (f - F) + F * (d - z) by ring]
    refine (abs_add_le _ _).trans ?_
    rw [abs_mul, abs_mul]
    exact add_le_add (mul_le_mul d1 hf (abs_nonneg _) (by linarith)) (mul_le_mul hF hd (abs_nonneg _) hB)
  have p3 := abs_sub_le e (d * f) (z * F)
  have u1 : u.1 ≤ sz u := by unfold sz; linarith
  have u2 : u.2 ≤ sz u := by unfold sz; linarith
  have p4 : u.1 * |d * f| ≤ sz u * ((B + C1) * (B + C2)) := mul_le_mul u1 p1 (abs_nonneg _) s0
  linarith

theorem exists_bound (n : ℕ) (g : ℕ → ℝ) : ∃ B ≥ (0 : ℝ), ∀ i < n, |g i| ≤ B :=
  ⟨∑ i ∈ Finset.range n, |g i|, Finset.sum_nonneg fun _ _ => abs_nonneg _, fun i hi => Finset.single_le_sum (f := fun i => |g i|) (fun _ _ => abs_nonneg _) (Finset.mem_range.mpr hi)⟩

/-- The matrix of derivatives. -/
theorem derivativeMatrix_close {b : Basis} (hb : b.Valid) (n codim order : ℕ) {tau : List ℝ} (hlen : tau.length = n) (hz : ∀ i < n, vecOf tau i ≠ 0) :
    ∃ C ≥ (0 : ℝ), ∃ δ > (0 : ℝ), ∀ u, Small u δ → All (derivativeMatrix u b n codim order tau) fun o => ∃ M : Mat, o = .ok ⟨n * codim * b.dim, n * codim * b.dim, M⟩ ∧
      ∀ i < n * codim * b.dim, ∀ j < n * codim * b.dim,
        |M i j - Basis.derivScale b.dim n codim order tau (Basis.derivStatic b.dim n codim (b.derivBlock order)) (Basis.derivStatic b.dim n codim (b.derivBlock order)) i j| ≤ C * sz u := by
  obtain ⟨z, hr, ag⟩ := derivBlock_rate hb order ()
  obtain ⟨C1, hC1, δ1, hδ1, H1⟩ := rate_unit hr
  obtain ⟨C2, hC2, δ2, hδ2, H2⟩ := common n (fun i C δ => ∀ u, Small u δ → All (derivFactor u order (vecOf tau i)) fun o => ∃ y, o = .ok y ∧ |y - (2 / vecOf tau i) ^ order| ≤ C * sz u)
    (fun i C C' δ δ' hC hδ h u hu o ho => by
      obtain ⟨y, e, hy⟩ := h u (small_mono hδ hu) o ho
      exact ⟨y, e, hy.trans (mul_le_mul_of_nonneg_right hC (sz_nonneg hu))⟩) fun i hi => rate_unit (derivFactor_rate order (hz i hi))
  obtain ⟨B1, hB1, K1⟩ := exists_bound n fun i => (2 / vecOf tau i) ^ order
  obtain ⟨B2, hB2, K2⟩ := exists_bound (b.dim * b.dim) fun q => b.derivBlock order (q / b.dim) (q % b.dim)
  set B := max B1 B2
  have hBp : 0 ≤ B := le_max_of_le_left hB1
  refine ⟨(B + C1) * (B + C2) + 1 + (B + C1) * C2 + B * C1, by positivity, min (min δ1 δ2) (1 / 2), by positivity, fun u hu => ?_⟩
  have hu1 := small_mono ((min_le_left _ _).trans (min_le_left _ _)) hu
  have hu2 := small_mono ((min_le_left _ _).trans (min_le_right _ _)) hu
  have hs : sz u ≤ 1 := by
    have := sz_le (small_mono (min_le_right _ _) hu)
    linarith
  unfold derivativeMatrix
  rw [if_neg (by omega)]
  refine All.bind (H1 u hu1) (by rintro e ⟨b, h, -⟩; cases h) fun d hd => ?_
  obtain ⟨d', e, hd⟩ := hd
  cases e
  refine All.bind (All.mapM fun i hi => H2 i (List.mem_range.mp hi) u hu2) (by rintro e ⟨b, h, -⟩; cases h) fun f hf => ?_
  obtain ⟨f', e, hf⟩ := hf
  cases e
  have hfi : ∀ i < n, |vecOf f i - (2 / vecOf tau i) ^ order| ≤ C2 * sz u := fun i hi => by
    have l1 : i < f.length := by rw [← hf.length_eq]; simpa using hi
    have r1 := hf.get (i := i) (by simpa using hi) l1
    simp only [List.get_eq_getElem, List.getElem_range] at r1
    simpa [vecOf, List.getD, l1] using r1
  refine All.bind (fill_all (P := fun i j y => |y - Basis.derivScale b.dim n codim order tau (Basis.derivStatic b.dim n codim (b.derivBlock order)) (Basis.derivStatic b.dim n codim (b.derivBlock order)) i j| ≤
    ((B + C1) * (B + C2) + 1 + (B + C1) * C2 + B * C1) * sz u) fun i hi j hj => ?_) (by rintro e ⟨b, h, -⟩; cases h) fun M hM => ?_
  · have hdim : 0 < b.dim := Nat.pos_of_ne_zero fun h => by rw [h, Nat.mul_zero] at hi; omega
    have hi1 : i / b.dim < n * codim := Nat.div_lt_of_lt_mul (by rwa [Nat.mul_comm])
    have hi2 := Nat.mod_lt i hdim
    have hj2 := Nat.mod_lt j hdim
    have e := Basis.derivStatic_spec (n := n) (codim := codim) (b.derivBlock order) (b2 := j / b.dim) hi1 hi2 hj2
    rw [Nat.div_add_mod', Nat.div_add_mod'] at e
    rw [Basis.derivScale_spec, if_pos hi, e]
    by_cases hq : i / b.dim = j / b.dim
    · rw [if_pos hq, if_pos hq.symm]
      rintro o ⟨y, rfl, hy⟩
      have hcod : 0 < codim := Nat.pos_of_ne_zero fun h => by rw [h] at hi; simp at hi
      have hjn : j / (b.dim * codim) < n := Nat.div_lt_of_lt_mul (by rw [Nat.mul_comm b.dim, Nat.mul_assoc, Nat.mul_comm, Nat.mul_assoc] at *; rw [Nat.mul_comm b.dim]; convert hj using 1; ring)
      refine ⟨y, rfl, ?_⟩
      have hzb : z (i % b.dim) (j % b.dim) = b.derivBlock order (i % b.dim) (j % b.dim) := ag _ hi2 _ hj2
      have k2 := K2 (i % b.dim * b.dim + j % b.dim) (by nlinarith)
      have q1 : (i % b.dim * b.dim + j % b.dim) / b.dim = i % b.dim := by rw [Nat.mul_comm, Nat.mul_add_div hdim, Nat.div_eq_of_lt hj2, add_zero]
      have q2 : (i % b.dim * b.dim + j % b.dim) % b.dim = j % b.dim := by rw [Nat.mul_comm, Nat.mul_add_mod, Nat.mod_eq_of_lt hj2]
      simp only [q1, q2] at k2
      rw [← hzb]
      exact mul_close hu.1 hu.2.2.1 hC1 hC2 hs (by rw [hzb]; exact k2.trans (le_max_right _ _)) ((K1 _ hjn).trans (le_max_left _ _)) (hd _ _) (hfi _ hjn) hy
    · rw [if_neg hq, if_neg (fun h => hq h.symm)]
      refine All.pure ⟨0, rfl, ?_⟩
      have := sz_nonneg hu
      rw [zero_mul, sub_zero, abs_zero]
      positivity
  · obtain ⟨M', e, hM⟩ := hM
    cases e
    exact All.pure ⟨M, rfl, hM⟩

theorem derivFactor_has {u : ℝ × ℝ} (h1 : 0 ≤ u.1) (h2 : 0 ≤ u.2) (order : ℕ) {tau : ℝ} (ht : tau ≠ 0) : Has (derivFactor u order tau) ((2 / tau) ^ order) := by
  unfold derivFactor
  split_ifs with h
  · subst h
    rw [pow_zero]
    exact Has.pure _
  · exact Has.bind (Has.quot h1 h2 2 ht) (Has.near h1 h2 _)

theorem derivativeMatrix_has {u : ℝ × ℝ} (h1 : 0 ≤ u.1) (h2 : 0 ≤ u.2) {b : Basis} (hb : b.Valid) (n codim order : ℕ) {tau : List ℝ} (hlen : tau.length = n) (hz : ∀ i < n, vecOf tau i ≠ 0) :
    ∃ L : LF, derivativeMatrix u b n codim order tau (.ok L) ∧ L.rows = n * codim * b.dim ∧ L.cols = n * codim * b.dim ∧ ∀ i < L.rows, ∀ j < L.cols,
      L.mat i j = Basis.derivScale b.dim n codim order tau (Basis.derivStatic b.dim n codim (b.derivBlock order)) (Basis.derivStatic b.dim n codim (b.derivBlock order)) i j := by
  obtain ⟨z, hr, ag⟩ := derivBlock_has h1 h2 hb order
  obtain ⟨M, hM, eM⟩ := fill_has (m := n * codim * b.dim) (n := n * codim * b.dim)
    (f := fun i j => if i / b.dim = j / b.dim then near u (z (i % b.dim) (j % b.dim) * vecOf ((List.range n).map fun i => (2 / vecOf tau i) ^ order) (j / (b.dim * codim))) else return 0)
    (g := fun i j => Basis.derivScale b.dim n codim order tau (Basis.derivStatic b.dim n codim (b.derivBlock order)) (Basis.derivStatic b.dim n codim (b.derivBlock order)) i j) (fun i hi j hj => by
      have hdim : 0 < b.dim := Nat.pos_of_ne_zero fun h => by rw [h, Nat.mul_zero] at hi; omega
      have hi1 : i / b.dim < n * codim := Nat.div_lt_of_lt_mul (by rwa [Nat.mul_comm])
      have hi2 := Nat.mod_lt i hdim
      have hj2 := Nat.mod_lt j hdim
      have e := Basis.derivStatic_spec (n := n) (codim := codim) (b.derivBlock order) (b2 := j / b.dim) hi1 hi2 hj2
      rw [Nat.div_add_mod', Nat.div_add_mod'] at e
      rw [Basis.derivScale_spec, if_pos hi, e]
      by_cases hq : i / b.dim = j / b.dim
      · rw [if_pos hq, if_pos hq.symm]
        have hjn : j / (b.dim * codim) < n := Nat.div_lt_of_lt_mul (by convert hj using 1; ring)
        have hzb : z (i % b.dim) (j % b.dim) = b.derivBlock order (i % b.dim) (j % b.dim) := ag _ hi2 _ hj2
        have hfe : vecOf ((List.range n).map fun i => (2 / vecOf tau i) ^ order) (j / (b.dim * codim)) = (2 / vecOf tau (j / (b.dim * codim))) ^ order := by
          simp [vecOf, List.getD, hjn]
        rw [hzb, hfe]
        exact Has.near h1 h2 _
      · rw [if_neg hq, if_neg (fun h => hq h.symm), zero_mul]
        exact Has.pure _)
  refine ⟨⟨n * codim * b.dim, n * codim * b.dim, M⟩, ?_, rfl, rfl, eM⟩
  unfold derivativeMatrix
  rw [if_neg (by omega)]
  exact Has.bind hr (Has.bind (Has.mapM fun i hi => derivFactor_has h1 h2 order (hz i (List.mem_range.mp hi))) (Has.bind hM (Has.pure _)))

/-! ## Matrices that act node by node -/

theorem nodePattern_pos {n R C iv row k iv' col k' : ℕ} (hr : row < R) (hk : k < n) (hc : col < C) (hk' : k' < n) :
    nodePattern n R C (Basis.coefIdx n R iv row k) (Basis.coefIdx n C iv' col k') = decide (iv' = iv ∧ k' = k) := by
  unfold nodePattern
  obtain ⟨a1, -, a3⟩ := pos_decode (iv := iv) hr hk
  obtain ⟨b1, -, b3⟩ := pos_decode (iv := iv') hc hk'
  rw [a1, a3, b1, b3]
  exact decide_eq_decide.mpr ⟨fun h => ⟨h.1.symm, h.2.symm⟩, fun h => ⟨h.1.symm, h.2.symm⟩⟩

theorem nodePattern_count {n m R C iv row k : ℕ} (hiv : iv < m) (hr : row < R) (hk : k < n) :
    ((List.range (m * n * C)).filter (nodePattern n R C (Basis.coefIdx n R iv row k))).length = C := by
  have h : Nodewise n m R C (fun i j => if nodePattern n R C i j then 1 else 0) (fun _ _ _ _ => 1) := fun iv _ row hrow k hk iv' _ col hcol k' hk' => by
    simp only [nodePattern_pos hrow hk hcol hk', decide_eq_true_eq]
  have e := h.mulVec (fun _ => 1) hiv hr hk
  unfold Mat.mulVec at e
  simp only [mul_one, Finset.sum_const, Finset.card_range, nsmul_eq_mul] at e
  have f := filter_sum (m * n * C) (nodePattern n R C (Basis.coefIdx n R iv row k)) (fun j => if nodePattern n R C (Basis.coefIdx n R iv row k) j then 1 else 0) fun j _ hp => by simp [hp]
  rw [e] at f
  have g : ∀ l : List ℕ, ((l.filter (nodePattern n R C (Basis.coefIdx n R iv row k))).map fun j => if nodePattern n R C (Basis.coefIdx n R iv row k) j then (1 : ℝ) else 0).sum =
      ((l.filter (nodePattern n R C (Basis.coefIdx n R iv row k))).length : ℝ) := by
    intro l
    induction l with
    | nil => simp
    | cons a l ih =>
      cases hp : nodePattern n R C (Basis.coefIdx n R iv row k) a with
      | true => rw [List.filter_cons_of_pos hp, List.map_cons, List.sum_cons, ih, if_pos hp, List.length_cons]; push_cast; ring
      | false => rw [List.filter_cons_of_neg (by simp [hp]), ih]
  rw [g] at f
  exact_mod_cast f

theorem nodewise_abs {n m R C : ℕ} {mat : Mat} {B : ℕ → ℕ → Mat} (h : Nodewise n m R C mat B) (v : Vec) {iv row k : ℕ} (hiv : iv < m) (hr : row < R) (hk : k < n) :
    ∑ j ∈ Finset.range (m * n * C), |mat (Basis.coefIdx n R iv row k) j * v j| = ∑ col ∈ Finset.range C, |B iv k row col * v (Basis.coefIdx n C iv col k)| := by
  have h' : Nodewise n m R C (fun i j => |mat i j|) (fun iv k r c => |B iv k r c|) := fun iv hiv row hrow k hk iv' hiv' col hcol k' hk' => by
    simp only [h iv hiv row hrow k hk iv' hiv' col hcol k' hk']
    split_ifs <;> simp
  have e := h'.mulVec (fun j => |v j|) hiv hr hk
  unfold Mat.mulVec at e
  simpa only [abs_mul] using e

theorem nodewise_keeps {n m R C : ℕ} {L : LF} {B : ℕ → ℕ → Mat} (hr : L.rows = m * n * R) (hc : L.cols = m * n * C) (h : Nodewise n m R C L.mat B) : Keeps L (nodePattern n R C) := by
  intro i hi j hj hp
  rw [hr] at hi
  rw [hc] at hj
  obtain ⟨iv, row, k, a1, a2, a3, rfl⟩ := GSplines.GSpline.coefIdx_surj hi
  obtain ⟨iv', col, k', b1, b2, b3, rfl⟩ := GSplines.GSpline.coefIdx_surj hj
  rw [nodePattern_pos a2 a3 b2 b3] at hp
  rw [h iv a1 row a2 k a3 iv' b1 col b2 k' b3, if_neg (of_decide_eq_false hp)]

end GSplines.Rounded.Functional
