import Verif.Spec.Residual
import Verif.Proofs.Symmetry

/-!
# Approximate solutions of the interpolation problem: auxiliary facts
-/

namespace GSplines.Residual

open GSplines Spec Interp Symmetry Finset

/-- The system that a call sets up, whatever the object was used for before. -/
theorem call_system {lu : LU} {codim n : ℕ} (hn : 0 < n) {b : Basis} (hb : Interpolable b) {s s' : Interp} (hs : Reach lu codim n b s) {tau : List ℝ} {w : Pts}
    {x : List ℝ} (h : s.solveInterpolation lu tau w = .ok (s', x)) :
    s'.size = b.dim * codim * n ∧ System b (b.dim / 2 - 1) n codim (vecOf tau) s'.mat ∧
      ∀ q : Cond n codim (b.dim / 2 - 1), s'.vec (row n codim (b.dim / 2 - 1) q) = q.target w.at' := by
  have U := Props.usable_of hb.valid hb.even hb.ne hb.left hb.right
  set m := b.dim / 2 - 1 with hm
  obtain ⟨I, rfl, rfl, rfl⟩ := reach_inv U hn hs
  obtain ⟨h1, hmat, hvec, e1, e2, e3, -, -, -⟩ := solve_ok h
  have hlen := fillMatrix_length hmat
  refine ⟨by unfold Interp.size; rw [e1, e2, e3], ?_, fun q => ?_⟩
  · obtain ⟨m', hm', S⟩ := fillMatrix_system U hn hlen I.mat
    have hmm : m' = s'.mat := by rw [hmat] at hm'; exact (Except.ok.inj hm').symm
    rwa [hmm] at S
  · have hc : 0 < s.codim := by
      cases q with
      | start iv comp => have := comp.2; omega
      | stop iv comp => have := comp.2; omega
      | restL comp j => have := comp.2; omega
      | restR comp j => have := comp.2; omega
      | join iv comp j => have := comp.2; omega
    obtain ⟨hw1, hw2⟩ := fillVector_size hvec hc
    obtain ⟨v', hv', hrow⟩ := fillVector_ok (h := m) hn hw1 hw2 s.vec
    rw [U.dim] at hvec
    have hvv : v' = s'.vec := by rw [hvec] at hv'; exact (Except.ok.inj hv').symm
    rw [← hvv, hrow q]
    by_cases hq : IsValue q
    · rw [if_pos hq]
    · rw [if_neg hq, I.vec q hq]
      cases q with
      | start iv comp => exact absurd trivial hq
      | stop iv comp => exact absurd trivial hq
      | restL comp j => rfl
      | restR comp j => rfl
      | join iv comp j => rfl

/-- What a successful call of `interpolate` returns. -/
theorem call_spline {lu : LU} {codim n : ℕ} (hn : 0 < n) {b : Basis} (hb : Interpolable b) {s s' : Interp} (hs : Reach lu codim n b s) {tau : List ℝ} {w : Pts}
    {g : GSpline} (h : s.interpolate lu tau w = .ok (s', g)) :
    ∃ x, s.solveInterpolation lu tau w = .ok (s', x) ∧ x.length = s'.size ∧ g = ⟨(0, tau.sum), codim, b, x, tau⟩ ∧ tau.length = n ∧
      (∀ t ∈ tau, (1 : ℝ) / 10 ^ 6 ≤ t) ∧ Consistent g ∧ Positive g := by
  have U := Props.usable_of hb.valid hb.even hb.ne hb.left hb.right
  unfold Interp.interpolate at h
  cases hsol : s.solveInterpolation lu tau w with
  | error e => rw [hsol] at h; cases h
  | ok p =>
    obtain ⟨s1, x⟩ := p
    rw [hsol] at h
    simp only [ok_bind] at h
    obtain ⟨-, eb1, ec1, en1⟩ := reach_inv U hn (Reach.solve hs hsol)
    obtain ⟨-, eb, ec, en⟩ := reach_inv U hn hs
    obtain ⟨h1, hmat, -, -, -, -, -, -, -⟩ := solve_ok hsol
    have hlen : tau.length = n := (fillMatrix_length hmat).trans en
    cases hmk : GSpline.make (0, tau.sum) s1.codim s1.n s1.basis x tau with
    | error e => rw [hmk] at h; cases h
    | ok g' =>
      rw [hmk] at h
      simp only [ok_bind] at h
      cases h
      have hpos : ∀ t ∈ tau, 0 < t := fun t ht => lt_of_lt_of_le (by norm_num) (h1 t ht)
      have hx : x.length = s'.n * s'.basis.dim * s'.codim := by
        by_contra hne
        unfold GSpline.make at hmk
        split_ifs at hmk
        all_goals first | exact hne (by assumption) | simp_all
      rw [GSpline.make_ok (List.sum_nonneg fun t ht => (hpos t ht).le) hx] at hmk
      cases hmk
      have hne : tau ≠ [] := by intro h0; rw [h0] at hlen; simp at hlen; omega
      refine ⟨x, rfl, by rw [hx]; unfold Interp.size; ring, by rw [eb1, ec1], hlen, h1, ?_, hne, hpos⟩
      unfold Consistent
      simp only
      rw [hx, hlen, en1]

/-- All matrices of the system for given lengths have the same entries. -/
theorem System.entries {b : Basis} {h n c : ℕ} (hb : Usable b h) (hn : 0 < n) {tau : Vec} {m m' : Mat} (H : System b h n c tau m) (H' : System b h n c tau m') :
    ∀ r < b.dim * c * n, m r = m' r := by
  intro r hr
  rw [hb.dim] at hr
  obtain ⟨q, rfl⟩ := row_surj (n := n) (c := c) (h := h) hn hr
  rw [H.rows q, H'.rows q]

/-- The error of an approximate solution of a linear system with inverse `inv`. -/
theorem solution_error {N : ℕ} {m inv : Mat} (hinv : ∀ i < N, ∀ j < N, ∑ k ∈ range N, inv i k * m k j = if i = j then 1 else 0) {y y0 v : ℕ → ℝ} {ε : ℝ}
    (h0 : Solves N m y0 v) (h : SolvesWithin ε N m y v) {k : ℕ} (hk : k < N) : |y k - y0 k| ≤ (∑ i ∈ range N, ∑ r ∈ range N, |inv i r|) * ε := by
  have e : y k - y0 k = ∑ r ∈ range N, inv k r * (∑ j ∈ range N, m r j * y j - v r) := by
    have e1 : ∀ r ∈ range N, inv k r * (∑ j ∈ range N, m r j * y j - v r) = ∑ j ∈ range N, inv k r * m r j * (y j - y0 j) := by
      intro r hr
      rw [← h0 r (mem_range.mp hr), ← sum_sub_distrib, mul_sum]
      exact sum_congr rfl fun j _ => by ring
    rw [sum_congr rfl e1, sum_comm, sum_congr rfl fun j hj => by rw [← sum_mul, hinv k hk j (mem_range.mp hj)]]
    simp only [ite_mul, one_mul, zero_mul, sum_ite_eq, mem_range, if_pos hk]
  have hε : 0 ≤ ε := (abs_nonneg _).trans (h k hk)
  rw [e]
  refine (abs_sum_le_sum_abs _ _).trans ?_
  calc ∑ r ∈ range N, |inv k r * (∑ j ∈ range N, m r j * y j - v r)| ≤ ∑ r ∈ range N, |inv k r| * ε := by
        refine sum_le_sum fun r hr => ?_
        rw [abs_mul]
        exact mul_le_mul_of_nonneg_left (h r (mem_range.mp hr)) (abs_nonneg _)
    _ = (∑ r ∈ range N, |inv k r|) * ε := by rw [sum_mul]
    _ ≤ _ := mul_le_mul_of_nonneg_right (single_le_sum (f := fun i => ∑ r ∈ range N, |inv i r|) (fun i _ => sum_nonneg fun r _ => abs_nonneg _) (mem_range.mpr hk)) hε

/-- The functions of a basis and their derivatives up to a given order are bounded on intervals. -/
theorem basis_bound (b : Basis) (n : ℕ) (tau : ℕ → ℝ) (D : ℕ) :
    ∃ B : ℝ, 0 ≤ B ∧ ∀ i < n, ∀ d ≤ D, ∀ k < b.dim, ∀ t ∈ Set.Icc 0 (tau i), |iteratedDeriv d (basisFn b (tau i) k) t| ≤ B := by
  have h : ∀ i d k, ∃ B : ℝ, 0 ≤ B ∧ ∀ t ∈ Set.Icc 0 (tau i), |iteratedDeriv d (basisFn b (tau i) k) t| ≤ B := by
    intro i d k
    have hc : Continuous (iteratedDeriv d (basisFn b (tau i) k)) :=
      (contDiff_of (analytic_basisFn b (tau i) k)).continuous_iteratedDeriv d (by exact_mod_cast le_top)
    obtain ⟨C, hC⟩ := isCompact_Icc.exists_bound_of_continuousOn (s := Set.Icc 0 (tau i)) hc.continuousOn
    exact ⟨|C|, abs_nonneg _, fun t ht => (hC t ht).trans (le_abs_self C)⟩
  choose B hB0 hB using h
  refine ⟨∑ i ∈ range n, ∑ d ∈ range (D + 1), ∑ k ∈ range b.dim, B i d k,
    sum_nonneg fun i _ => sum_nonneg fun d _ => sum_nonneg fun k _ => hB0 i d k, fun i hi d hd k hk t ht => (hB i d k t ht).trans ?_⟩
  refine (single_le_sum (f := fun k => B i d k) (fun k _ => hB0 i d k) (mem_range.mpr hk)).trans ?_
  refine (single_le_sum (f := fun d => ∑ k ∈ range b.dim, B i d k) (fun d _ => sum_nonneg fun k _ => hB0 i d k) (mem_range.mpr (Nat.lt_succ_of_le hd))).trans ?_
  exact single_le_sum (f := fun i => ∑ d ∈ range (D + 1), ∑ k ∈ range b.dim, B i d k)
    (fun i _ => sum_nonneg fun d _ => sum_nonneg fun k _ => hB0 i d k) (mem_range.mpr hi)

/-- Pieces with coefficients that are close are close. -/
theorem piece_close {b : Basis} {codim n : ℕ} {tau : ℕ → ℝ} {D : ℕ} {B : ℝ}
    (hB : ∀ i < n, ∀ d ≤ D, ∀ k < b.dim, ∀ t ∈ Set.Icc 0 (tau i), |iteratedDeriv d (basisFn b (tau i) k) t| ≤ B) {y y0 : ℕ → ℝ} {δ : ℝ}
    (h : ∀ k < b.dim * codim * n, |y k - y0 k| ≤ δ) {i c d : ℕ} (hi : i < n) (hc : c < codim) (hd : d ≤ D) {t : ℝ} (ht : t ∈ Set.Icc 0 (tau i)) :
    |iteratedDeriv d (piece b codim tau y i c) t - iteratedDeriv d (piece b codim tau y0 i c) t| ≤ b.dim * B * δ := by
  have e : ∀ z : ℕ → ℝ, iteratedDeriv d (piece b codim tau z i c) = _ := fun z =>
    Basis.iteratedDeriv_comb b (tau i) (fun k => z (i * b.dim * codim + b.dim * c + k)) d
  rw [e, e, ← sum_sub_distrib]
  refine (abs_sum_le_sum_abs _ _).trans ?_
  have hle : ∀ k ∈ range b.dim, |y (i * b.dim * codim + b.dim * c + k) * iteratedDeriv d (basisFn b (tau i) k) t -
      y0 (i * b.dim * codim + b.dim * c + k) * iteratedDeriv d (basisFn b (tau i) k) t| ≤ B * δ := by
    intro k hk
    have hk' := mem_range.mp hk
    have hidx : i * b.dim * codim + b.dim * c + k < b.dim * codim * n := by
      have h1 : b.dim * c + k < b.dim * codim := by
        calc b.dim * c + k < b.dim * c + b.dim := by omega
          _ = b.dim * (c + 1) := by ring
          _ ≤ b.dim * codim := Nat.mul_le_mul_left _ hc
      calc i * b.dim * codim + b.dim * c + k < i * b.dim * codim + b.dim * codim := by omega
        _ = b.dim * codim * (i + 1) := by ring
        _ ≤ b.dim * codim * n := Nat.mul_le_mul_left _ hi
    rw [← sub_mul, abs_mul, mul_comm]
    have hb1 := hB i hi d hd k hk' t ht
    exact mul_le_mul hb1 (h _ hidx) (abs_nonneg _) ((abs_nonneg _).trans hb1)
  refine (sum_le_sum hle).trans ?_
  rw [sum_const, card_range, nsmul_eq_mul]
  exact le_of_eq (by ring)

/-- A spline is evaluated in the piece where the instant is located. -/
theorem gives_located {g : GSpline} (hb : g.basis.Valid) (hcon : Consistent g) (hp : Positive g) {t : ℝ} (ha : Away g t) {i : ℕ} (hi : Located g t i) :
    Gives g t (fun c => curve g i c t) := by
  obtain ⟨v, h1, h2, h3⟩ := GSpline.value_spec hb hcon (GSpline.getInterval_of_located hp hi) hi.1 (vecOf_pos hp.2 hi.1).ne' (ha i hi)
  exact ⟨v, h1, h2, h3⟩

/-- Within the domain the elapsed time lies between zero and the length of the interval. -/
theorem elapsed_mem {g : GSpline} (hp : Positive g) (he : g.dom.2 = g.dom.1 + g.tau.sum) {t : ℝ} (h1 : g.dom.1 ≤ t) (h2 : t ≤ g.dom.2) {i : ℕ}
    (hi : Located g t i) : t - brk g i ∈ Set.Icc 0 (vecOf g.tau i) := by
  have hs := GSpline.brk_succ g hi.1
  have h0 := vecOf_pos hp.2 hi.1
  have hend : brk g g.tau.length = g.dom.2 := by rw [he, brk, List.take_length]
  rcases hi.2 with y | y | y
  · have : t = brk g 0 := le_antisymm y.1 (by rw [GSpline.brk_zero]; exact h1)
    rw [y.2, this, sub_self]
    rw [y.2] at h0
    exact ⟨le_rfl, h0.le⟩
  · exact ⟨by linarith [y.1], by linarith [y.2]⟩
  · linarith [y.1]

/-- Splines with close coefficients are close. -/
theorem close_of {g g' : GSpline} (hb : g.basis.Valid) (hb' : g'.basis = g.basis) (hcon : Consistent g) (hcon' : Consistent g') (hp : Positive g)
    (he : g.dom.2 = g.dom.1 + g.tau.sum) (h1 : g'.tau = g.tau) (h2 : g'.dom = g.dom) (h3 : g'.codim = g.codim) {D : ℕ} {B δ : ℝ}
    (hB : ∀ i < g.tau.length, ∀ d ≤ D, ∀ k < g.basis.dim, ∀ t ∈ Set.Icc 0 (vecOf g.tau i), |iteratedDeriv d (basisFn g.basis (vecOf g.tau i) k) t| ≤ B)
    (h : ∀ k < g.basis.dim * g.codim * g.tau.length, |vecOf g.coeffs k - vecOf g'.coeffs k| ≤ δ) : CloseUpTo D (g.basis.dim * B * δ) g g' := by
  have hbrk : brk g' = brk g := by funext i; simp [brk, h1, h2]
  have hder : ∀ t, g.dom.1 ≤ t → t ≤ g.dom.2 → ∀ i, Located g t i → ∀ c < g.codim, ∀ d ≤ D,
      |iteratedDeriv d (curve g i c) t - iteratedDeriv d (curve g' i c) t| ≤ g.basis.dim * B * δ := by
    intro t t1 t2 i hi c hc d hd
    rw [Props.iteratedDeriv_curve, Props.iteratedDeriv_curve, hb', h1, h3, hbrk]
    exact piece_close hB h hi.1 hc hd (elapsed_mem hp he t1 t2 hi)
  refine ⟨h1, h2, h3, fun t t1 t2 ha => ?_, hder⟩
  obtain ⟨i, hi⟩ := GSpline.located_exists hp t
  have hl' : ∀ j, Located g' t j ↔ Located g t j := fun j => by unfold Located; rw [hbrk, h1]
  have ha' : Away g' t := fun j hj => by rw [hb', h1, hbrk]; exact ha j ((hl' j).mp hj)
  have hp' : Positive g' := by unfold Positive; rw [h1]; exact hp
  refine ⟨_, _, gives_located hb hcon hp ha hi, gives_located (by rw [hb']; exact hb) hcon' hp' ha' ((hl' i).mpr hi), fun c hc => ?_⟩
  have := hder t t1 t2 i hi c hc 0 (Nat.zero_le _)
  rwa [iteratedDeriv_zero, iteratedDeriv_zero] at this

/-! ## Solvers with a small backward error -/

theorem backward_error {N : ℕ} {m inv : Mat} (hinv : ∀ i < N, ∀ j < N, ∑ k ∈ range N, inv i k * m k j = if i = j then 1 else 0) {y y0 v : ℕ → ℝ} {η V K M : ℝ}
    (hK : K = ∑ i ∈ range N, ∑ r ∈ range N, |inv i r|) (hM : M = ∑ i ∈ range N, ∑ r ∈ range N, |m i r|) (h0 : Solves N m y0 v) (h : BackwardError η N m y v)
    (hη : 0 ≤ η) (hη0 : η ≤ 1 / (2 * (N * K * M) + 1)) (hV : ∀ r < N, |v r| ≤ V) {k : ℕ} (hk : k < N) :
    |y0 k| ≤ K * V ∧ |y k - y0 k| ≤ 2 * (N * K * (M * (N * K) + N)) * (η * V) := by
  have hK0 : 0 ≤ K := by rw [hK]; exact sum_nonneg fun i _ => sum_nonneg fun r _ => abs_nonneg _
  have hM0 : 0 ≤ M := by rw [hM]; exact sum_nonneg fun i _ => sum_nonneg fun r _ => abs_nonneg _
  have hV0 : 0 ≤ V := (abs_nonneg _).trans (hV k hk)
  unfold BackwardError at h
  rw [← hM] at h
  have hy0 : ∀ j < N, |y0 j| ≤ K * V := by
    intro j hj
    have := solution_error (y := fun _ => 0) (ε := V) hinv h0 (fun r hr => by simpa using hV r hr) hj
    rw [hK]
    simpa using this
  refine ⟨hy0 k hk, ?_⟩
  have hVs : ∑ r ∈ range N, |v r| ≤ N * V := by
    refine (sum_le_sum fun r hr => hV r (mem_range.mp hr)).trans (le_of_eq ?_)
    rw [sum_const, card_range, nsmul_eq_mul]
  have hY0 : ∑ j ∈ range N, |y0 j| ≤ N * (K * V) := by
    refine (sum_le_sum fun r hr => hy0 r (mem_range.mp hr)).trans (le_of_eq ?_)
    rw [sum_const, card_range, nsmul_eq_mul]
  set E := ∑ j ∈ range N, |y j - y0 j| with hE
  have hE0 : 0 ≤ E := sum_nonneg fun _ _ => abs_nonneg _
  have hY : ∑ j ∈ range N, |y j| ≤ E + N * (K * V) := by
    refine le_trans (sum_le_sum fun j _ => ?_) (le_trans (le_of_eq sum_add_distrib) (add_le_add le_rfl hY0))
    have := abs_add_le (y j - y0 j) (y0 j)
    rwa [sub_add_cancel] at this
  have hres : ∀ j < N, |y j - y0 j| ≤ K * (η * (M * (E + N * (K * V)) + N * V)) := by
    intro j hj
    have := solution_error hinv h0 h hj
    rw [← hK] at this
    refine this.trans (mul_le_mul_of_nonneg_left (mul_le_mul_of_nonneg_left ?_ hη) hK0)
    exact add_le_add (mul_le_mul_of_nonneg_left hY hM0) hVs
  have hEle : E ≤ N * (K * (η * (M * (E + N * (K * V)) + N * V))) := by
    refine (sum_le_sum fun r hr => hres r (mem_range.mp hr)).trans (le_of_eq ?_)
    rw [sum_const, card_range, nsmul_eq_mul]
  have hhalf : N * K * M * η ≤ 1 / 2 := by
    have h2 : (0 : ℝ) < 2 * (N * K * M) + 1 := by positivity
    have h3 : η * (2 * (N * K * M) + 1) ≤ 1 := by rwa [le_div_iff₀ h2] at hη0
    nlinarith
  have hfin : E ≤ 2 * (N * K * (M * (N * K) + N)) * (η * V) := by
    have e1 : N * (K * (η * (M * (E + N * (K * V)) + N * V))) = N * K * M * η * E + (N * K * (M * (N * K) + N)) * (η * V) := by ring
    rw [e1] at hEle
    have := mul_le_mul_of_nonneg_right hhalf hE0
    linarith
  exact (single_le_sum (f := fun j => |y j - y0 j|) (fun _ _ => abs_nonneg _) (mem_range.mpr hk)).trans hfin

/-- The error in the equations. -/
theorem backward_residual {N : ℕ} {m inv : Mat} (hinv : ∀ i < N, ∀ j < N, ∑ k ∈ range N, inv i k * m k j = if i = j then 1 else 0) {y y0 v : ℕ → ℝ} {η V K M : ℝ}
    (hK : K = ∑ i ∈ range N, ∑ r ∈ range N, |inv i r|) (hM : M = ∑ i ∈ range N, ∑ r ∈ range N, |m i r|) (h0 : Solves N m y0 v) (h : BackwardError η N m y v)
    (hη : 0 ≤ η) (hη0 : η ≤ 1 / (2 * (N * K * M) + 1)) (hη1 : η ≤ 1) (hV : ∀ r < N, |v r| ≤ V) :
    SolvesWithin ((M * (N * (K + 2 * (N * K * (M * (N * K) + N)))) + N) * (η * V)) N m y v := by
  intro r hr
  have hK0 : 0 ≤ K := by rw [hK]; exact sum_nonneg fun i _ => sum_nonneg fun r _ => abs_nonneg _
  have hM0 : 0 ≤ M := by rw [hM]; exact sum_nonneg fun i _ => sum_nonneg fun r _ => abs_nonneg _
  have hV0 : 0 ≤ V := (abs_nonneg _).trans (hV r hr)
  refine (h r hr).trans ?_
  rw [← hM]
  set c := 2 * (N * K * (M * (N * K) + N)) with hc
  have hc0 : 0 ≤ c := by positivity
  have hy : ∀ k < N, |y k| ≤ (K + c) * V := by
    intro k hk
    obtain ⟨h1, h2⟩ := backward_error hinv hK hM h0 h hη hη0 hV hk
    have := (abs_add_le (y k - y0 k) (y0 k)).trans (add_le_add h2 h1)
    rw [sub_add_cancel] at this
    have h3 : c * (η * V) ≤ c * V := mul_le_mul_of_nonneg_left (mul_le_of_le_one_left hV0 hη1) hc0
    linarith
  have hY : ∑ k ∈ range N, |y k| ≤ N * ((K + c) * V) := by
    refine (sum_le_sum fun r hr => hy r (mem_range.mp hr)).trans (le_of_eq ?_)
    rw [sum_const, card_range, nsmul_eq_mul]
  have hVs : ∑ r ∈ range N, |v r| ≤ N * V := by
    refine (sum_le_sum fun r hr => hV r (mem_range.mp hr)).trans (le_of_eq ?_)
    rw [sum_const, card_range, nsmul_eq_mul]
  calc η * (M * ∑ k ∈ range N, |y k| + ∑ r ∈ range N, |v r|) ≤ η * (M * (N * ((K + c) * V)) + N * V) :=
        mul_le_mul_of_nonneg_left (add_le_add (mul_le_mul_of_nonneg_left hY hM0) hVs) hη
    _ = _ := by ring

/-- A matrix with a left inverse is well conditioned for small errors. -/
theorem wellConditioned {N : ℕ} {m inv : Mat} (hinv : ∀ i < N, ∀ j < N, ∑ k ∈ range N, inv i k * m k j = if i = j then 1 else 0) {η K M : ℝ}
    (hK : K = ∑ i ∈ range N, ∑ r ∈ range N, |inv i r|) (hM : M = ∑ i ∈ range N, ∑ r ∈ range N, |m i r|) (hη : η ≤ 1 / (2 * (N * K * M) + 1)) :
    WellConditioned η N m := by
  have hK0 : 0 ≤ K := by rw [hK]; exact sum_nonneg fun i _ => sum_nonneg fun r _ => abs_nonneg _
  have hM0 : 0 ≤ M := by rw [hM]; exact sum_nonneg fun i _ => sum_nonneg fun r _ => abs_nonneg _
  obtain ⟨inv', h'⟩ : Invertible N m := invertible_of_injective fun y hy k hk => by
    have := solution_error (y := y) (y0 := fun _ => 0) (v := fun _ => 0) (ε := 0) hinv (fun r _ => by simp) (fun r hr => by rw [hy r hr]; simp) hk
    simpa using this
  have he : ∀ i < N, ∀ j < N, inv' i j = inv i j := by
    intro i hi j hj
    have e1 : ∑ l ∈ range N, (∑ k ∈ range N, inv i k * m k l) * inv' l j = inv' i j := by
      rw [sum_congr rfl fun l hl => by rw [hinv i hi l (mem_range.mp hl)]]
      simp [hi]
    have e2 : ∑ k ∈ range N, inv i k * (∑ l ∈ range N, m k l * inv' l j) = inv i j := by
      rw [sum_congr rfl fun k hk => by rw [(h' k (mem_range.mp hk) j hj).2]]
      simp [hj]
    rw [← e1, ← e2]
    simp only [sum_mul, mul_sum]
    rw [sum_comm]
    exact sum_congr rfl fun k _ => sum_congr rfl fun l _ => by ring
  refine ⟨inv', h', ?_⟩
  rw [← hM, show ∑ r ∈ range N, ∑ k ∈ range N, |inv' r k| = K by
    rw [hK]; exact sum_congr rfl fun i hi => sum_congr rfl fun j hj => by rw [he i (mem_range.mp hi) j (mem_range.mp hj)]]
  rcases Nat.eq_zero_or_pos N with rfl | hN
  · rw [hM]; simp
  have hN1 : (1 : ℝ) ≤ N := by exact_mod_cast hN
  have hKM : 0 ≤ K * M := by positivity
  rw [le_div_iff₀ (by positivity)] at hη
  by_cases hη0 : η ≤ 0
  · nlinarith [mul_nonneg hM0 hK0]
  push Not at hη0
  have : η * (K * M) ≤ η * (N * K * M) := mul_le_mul_of_nonneg_left (by nlinarith) hη0.le
  nlinarith [mul_nonneg hη0.le hKM]

/-- A call of `solve_interpolation` with a solver that factorises regular matrices. -/
theorem solve_any {lu : LU} {codim n : ℕ} (hn : 0 < n) {b : Basis} (hb : Interpolable b) {tau : List ℝ}
    (hlu : ∀ m, System b (b.dim / 2 - 1) n codim (vecOf tau) m → lu.succeeds (b.dim * codim * n) m = true) {s : Interp} (hs : Reach lu codim n b s) (hlen : tau.length = n) (ht : ∀ t ∈ tau, 1 / 10 ^ 6 ≤ t) {w : Pts} (hw : w.rows = n + 1) (hc : w.cols = codim) :
    ∃ s' x, s.solveInterpolation lu tau w = .ok (s', x) ∧ s'.basis = b ∧ s'.codim = codim ∧ s'.n = n ∧ lu.succeeds s'.size s'.mat = true ∧ x.length = b.dim * codim * n ∧
      (∀ k < b.dim * codim * n, vecOf x k = lu.solve (b.dim * codim * n) s'.mat s'.vec k) ∧ Reach lu codim n b s' := by
  have U := Props.usable_of hb.valid hb.even hb.ne hb.left hb.right
  have hind : Independent b := by
    cases b with
    | b0101 a => exact hb.pos a rfl
    | _ => trivial
  obtain ⟨I, e1, e2, e3⟩ := reach_inv U hn hs
  have hpos : ∀ i < n, 0 < vecOf tau i := fun i hi' => vecOf_pos (fun t h => lt_of_lt_of_le (by norm_num) (ht t h)) (by omega)
  have hcl := I.mat
  rw [e2, e3] at hcl
  obtain ⟨m', hm', S⟩ := fillMatrix_system (c := codim) U hn hlen hcl
  obtain ⟨v', hv', -⟩ := fillVector_ok (h := b.dim / 2 - 1) hn (show n + 1 ≤ w.rows by omega) (show codim ≤ w.cols by omega) s.vec
  rw [← U.dim] at hv'
  have hsucc := hlu m' S
  have hcall : s.solveInterpolation lu tau w = .ok ({ s with mat := m', vec := v', sol := (List.range (b.dim * codim * n)).map (lu.solve (b.dim * codim * n) m' v') },
      (List.range (b.dim * codim * n)).map (lu.solve (b.dim * codim * n) m' v')) := by
    unfold solveInterpolation
    rw [if_neg (by push Not; exact ht), e1, e2, e3, hm', ok_bind, hv', ok_bind]
    dsimp only
    rw [if_pos (show lu.succeeds (Interp.size ⟨b, codim, n, m', v', s.coef, s.ders, s.sol⟩) m' = true from hsucc)]
    rfl
  refine ⟨_, _, hcall, e1, e2, e3, ?_, by simp, fun k hk => vecOf_map_range hk, Reach.solve hs hcall⟩
  have hz : Interp.size { s with mat := m', vec := v', sol := (List.range (b.dim * codim * n)).map (lu.solve (b.dim * codim * n) m' v') } = b.dim * codim * n := by
    unfold Interp.size; simp only [e1, e2, e3]
  rw [hz]
  exact hsucc

/-- A call of `get_coeff_derivative_wrt_tau` with a solver that factorises regular matrices. -/
theorem coeff_any {lu : LU} {codim n : ℕ} {b : Basis} (hb : Interpolable b) {tau : List ℝ}
    (hlu : ∀ m, System b (b.dim / 2 - 1) n codim (vecOf tau) m → lu.succeeds (b.dim * codim * n) m = true) {s : Interp} (hs : Reach lu codim n b s) (hlen : tau.length = n) (ht : ∀ t ∈ tau, 1 / 10 ^ 6 ≤ t) {idx : ℕ} (hidx : idx < n) {y : List ℝ}
    (hy : y.length = b.dim * codim * n) : ∃ s' d, s.coeffDerivative lu y tau idx = .ok (s', d) ∧ Reach lu codim n b s' := by
  have U := Props.usable_of hb.valid hb.even hb.ne hb.left hb.right
  have hn : 0 < n := by omega
  have hind : Independent b := by
    cases b with
    | b0101 a => exact hb.pos a rfl
    | _ => trivial
  obtain ⟨I, rfl, rfl, rfl⟩ := reach_inv U hn hs
  have hpos : ∀ i < s.n, 0 < vecOf tau i := fun i hi' => vecOf_pos (fun t h => lt_of_lt_of_le (by norm_num) (ht t h)) (by omega)
  obtain ⟨m', hm', S⟩ := fillMatrix_system (c := s.codim) U hn hlen I.mat
  have hsucc := hlu m' S
  have hd := fillDer_ok (c := s.codim) U hidx hlen (hpos idx hidx).ne' (s.ders idx)
  have hcall : ∃ s' d, s.coeffDerivative lu y tau idx = .ok (s', d) := by
    unfold Interp.coeffDerivative
    rw [if_neg (by push Not; exact ht), if_neg (by omega), hd]
    simp only [ok_bind]
    rw [if_neg (by rw [not_not]; exact hy), hm']
    simp only [ok_bind]
    exact ⟨_, _, if_pos hsucc⟩
  obtain ⟨s', d, h⟩ := hcall
  exact ⟨s', d, h, Reach.coeff hs h⟩

end GSplines.Residual
