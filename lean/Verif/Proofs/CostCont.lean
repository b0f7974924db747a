import Verif.Proofs.SobolevGrad
import Mathlib.Topology.Algebra.Order.Field
import Mathlib.Topology.Order.Compact

/-! # The Sobolev cost is a continuous function of the interval lengths, and has a minimum -/

namespace GSplines.Sobolev

open GSplines Spec Finset Interp

/-- Positive lengths. -/
def lengths (n : ℕ) : Set Vec := {tau | ∀ i < n, 0 < tau i}

theorem det_continuousOn {N : ℕ} {S : Set Vec} {M : Vec → Matrix (Fin N) (Fin N) ℝ} (h : ∀ i j, ContinuousOn (fun z => M z i j) S) :
    ContinuousOn (fun z => (M z).det) S := by
  simp only [Matrix.det_apply]
  refine continuousOn_finset_sum _ fun σ _ => ?_
  refine ContinuousOn.const_smul ?_ _
  exact continuousOn_finset_prod _ fun i _ => h _ _

theorem solution_continuousOn {N : ℕ} {S : Set Vec} {A : Vec → Mat} {Y : Vec → Vec} {v : Vec} (hA : ∀ i < N, ∀ j < N, ContinuousOn (fun z => A z i j) S)
    (hinv : ∀ z ∈ S, Invertible N (A z)) (hY : ∀ z ∈ S, Solves N (A z) (Y z) v) : ∀ k < N, ContinuousOn (fun z => Y z k) S := by
  classical
  have hent : ∀ i j : Fin N, ContinuousOn (fun z => toMat N (A z) i j) S := fun i j => hA i i.2 j j.2
  have hdet := det_continuousOn (M := fun z => toMat N (A z)) hent
  have hd0 : ∀ z ∈ S, (toMat N (A z)).det ≠ 0 := by
    intro z hz
    obtain ⟨inv, hi⟩ := hinv z hz
    have : toMat N inv * toMat N (A z) = 1 := by
      ext i j
      rw [Matrix.mul_apply, Matrix.one_apply]
      have := (hi i i.2 j j.2).1
      rw [Finset.sum_range] at this
      exact this.trans (by simp [Fin.ext_iff])
    have h2 := congrArg Matrix.det this
    rw [Matrix.det_mul, Matrix.det_one] at h2
    intro h0
    rw [h0, mul_zero] at h2
    exact zero_ne_one h2
  intro k hk
  have hcr : ∀ z ∈ S, Y z k = ((toMat N (A z)).det)⁻¹ * ((toMat N (A z)).updateCol ⟨k, hk⟩ fun i : Fin N => v i).det := by
    intro z hz
    have hz0 := hd0 z hz
    have hs : (toMat N (A z)).mulVec (fun i : Fin N => Y z i) = fun i : Fin N => v i := by
      funext i
      simp only [Matrix.mulVec, dotProduct, toMat, Matrix.of_apply]
      rw [← hY z hz i i.2, Finset.sum_range]
    have h1 : Matrix.cramer (toMat N (A z)) (fun i : Fin N => v i) = (toMat N (A z)).det • fun i : Fin N => Y z i := by
      rw [Matrix.cramer_eq_adjugate_mulVec, ← hs, Matrix.mulVec_mulVec, Matrix.adjugate_mul, Matrix.smul_mulVec, Matrix.one_mulVec]
    have h2 := congrFun h1 ⟨k, hk⟩
    rw [Matrix.cramer_apply] at h2
    rw [h2]
    simp only [Pi.smul_apply, smul_eq_mul]
    field_simp
  refine ContinuousOn.congr ?_ hcr
  refine (hdet.inv₀ hd0).mul (det_continuousOn fun i j => ?_)
  simp only [Matrix.updateCol_apply]
  by_cases hj : j = ⟨k, hk⟩
  · simp only [if_pos hj]; exact continuousOn_const
  · simp only [if_neg hj]; exact hent i j

theorem upd_continuousOn {a D : ℕ} {S : Set Vec} {F : Vec → ℕ → ℝ} (h : ∀ k < D, ContinuousOn (fun x => F x k) S) {f : Vec → ℕ → ℝ}
    (hf : ∀ col, ContinuousOn (fun x => f x col) S) (col : ℕ) : ContinuousOn (fun x => upd a D (F x) (f x) col) S := by
  unfold upd
  by_cases hc : a ≤ col ∧ col < a + D
  · simp only [if_pos hc]
    exact h _ (by omega)
  · simp only [if_neg hc]
    exact hf col

theorem ev_continuousOn {b : Basis} {h n : ℕ} (hb : Usable b h) (s : ℝ) {d : ℕ} (hd : d ≤ b.dim - 2) {iv : ℕ} (hiv : iv < n) {k : ℕ} (hk : k < 2 * h + 2) :
    ContinuousOn (fun tau : Vec => b.ev s (tau iv) d k) (lengths n) := by
  intro tau ht
  have := (((Basis.tau_spec hb.valid s (tau iv) d (hb.order hd)).2 (ht iv hiv).ne').2 k (by rw [hb.dim]; exact hk)).continuousAt
  exact (ContinuousAt.comp (f := fun tau : Vec => tau iv) this (continuous_apply iv).continuousAt).continuousWithinAt

theorem over_continuousOn {b : Basis} {h n c : ℕ} (hb : Usable b h) (hn : 0 < n) (x : Cond n c h) (col : ℕ) :
    ContinuousOn (fun tau : Vec => over (bufs b tau) x (fun _ => 0) col) (lengths n) := by
  have hdim := hb.dim
  have hz : ∀ col : ℕ, ContinuousOn (fun _ : Vec => (fun _ : ℕ => (0 : ℝ)) col) (lengths n) := fun _ => continuousOn_const
  cases x with
  | start iv comp =>
    simp only [over, bufs]
    exact upd_continuousOn (fun k hk => ev_continuousOn hb _ (by omega) iv.2 hk) hz col
  | stop iv comp =>
    simp only [over, bufs]
    exact upd_continuousOn (fun k hk => ev_continuousOn hb _ (by omega) iv.2 hk) hz col
  | restL comp j =>
    have hj := j.2
    have hj' : j.1 < b.dim - 2 := by omega
    simp only [over, bufs, if_pos hj']
    exact upd_continuousOn (fun k hk => ev_continuousOn hb _ (by omega) hn hk) hz col
  | restR comp j =>
    have hj := j.2
    have hj' : j.1 < b.dim - 2 := by omega
    simp only [over, bufs, if_pos hj']
    exact upd_continuousOn (fun k hk => ev_continuousOn hb _ (by omega) (by omega) hk) hz col
  | join iv comp j =>
    have hj := j.2
    have hi := iv.2
    have hj' : j.1 < b.dim - 2 := by omega
    simp only [over, bufs, if_pos hj']
    exact upd_continuousOn (fun k hk => continuousOn_const.mul (ev_continuousOn hb _ (by omega) (by omega) hk))
      (fun col => upd_continuousOn (fun k hk => ev_continuousOn hb _ (by omega) (by omega) hk) hz col) col

theorem sol_continuousOn {b : Basis} (hb : Interpolable b) {n codim : ℕ} (hn : 0 < n) (w : ℕ → ℕ → ℝ) :
    ∀ k < b.dim * codim * n, ContinuousOn (fun tau => sol b n codim w tau k) (lengths n) := by
  have U := Props.usable_of hb.valid hb.even hb.ne hb.left hb.right
  have hind : Independent b := by
    cases b with
    | b0101 a => exact hb.pos a rfl
    | _ => trivial
  set m := b.dim / 2 - 1
  have S : ∀ tau, System b m n codim tau (fillP (2 * m + 2) codim n (bufs b tau) Mat.zero) := fun tau => ⟨fun x => fillP_rows _ hn (clean_zero _ _ _) x⟩
  obtain ⟨v, hv⟩ : ∃ v : Vec, ∀ x : Cond n codim m, v (row n codim m x) = x.target w := by
    classical
    refine ⟨fun r => if h : ∃ x : Cond n codim m, row n codim m x = r then h.choose.target w else 0, fun x => ?_⟩
    have hex : ∃ x' : Cond n codim m, row n codim m x' = row n codim m x := ⟨x, rfl⟩
    beta_reduce
    rw [dif_pos hex, row_injective hn hex.choose_spec]
  refine solution_continuousOn (A := fun tau => fillP (2 * m + 2) codim n (bufs b tau) Mat.zero) (v := v) (fun i hi j hj => ?_)
    (fun tau ht => system_invertible U hind hn ht (S tau)) (fun tau ht => ?_)
  · rw [U.dim] at hi
    obtain ⟨x, rfl⟩ := row_surj (n := n) (c := codim) (h := m) hn hi
    simp only [(S _).rows x]
    exact over_continuousOn U hn x j
  · exact (solves_iff U hn (fun i hi' => (ht i hi').ne') (S tau) hv _).mpr (sol_spec hb hn ht).1

theorem wsum_continuousOn {S : Set Vec} {q : Vec → ℕ → Mat} {ws : List (ℕ × ℝ)} {i j : ℕ} (h : ∀ p ∈ ws, ContinuousOn (fun t => q t p.1 i j) S) {M : Vec → Mat}
    (hM : ContinuousOn (fun t => M t i j) S) : ContinuousOn (fun t => wsum (q t) ws (M t) i j) S := by
  induction ws generalizing M with
  | nil => exact hM
  | cons p ps ih =>
    simp only [wsum]
    exact ih (fun r hr => h r (by simp [hr])) (M := fun t i j => (M t i j + q t p.1 i j) * p.2) ((hM.add (h p (by simp))).mul continuousOn_const)

theorem costFn_continuousOn {b : Basis} (hb : Interpolable b) {mem : LagMem} {ws : List (ℕ × ℝ)} (ho : ∀ p ∈ ws, AddsDtau b p.1) {n codim : ℕ} (hn : 0 < n)
    (w : ℕ → ℕ → ℝ) : ContinuousOn (costFn b mem ws n codim w) (lengths n) := by
  have hv : ∀ a, b = .b0101 a → 0 < a ∧ a < 1 := fun a ha => ⟨hb.pos a ha, by have := hb.valid; rw [ha] at this; exact this.2⟩
  have hs := sol_continuousOn hb (codim := codim) hn w
  unfold costFn total form
  refine continuousOn_finset_sum _ fun iv hiv => continuousOn_finset_sum _ fun c hc => continuousOn_finset_sum _ fun i hi => continuousOn_finset_sum _ fun j hj => ?_
  rw [mem_range] at hiv hc hi hj
  refine ((hs _ (part_bound hiv hc hi)).mul (wsum_continuousOn (fun p hp => ?_) continuousOn_const)).mul (hs _ (part_bound hiv hc hj))
  intro tau ht
  exact (ContinuousAt.comp (f := fun tau : Vec => tau iv) (q_hasDerivAt hv (ht iv hiv) (ho p hp) hi hj).continuousAt (continuous_apply iv).continuousAt).continuousWithinAt

/-- The lengths that can be interpolated and have a given sum. -/
def simplex (n : ℕ) (T : ℝ) : Set Vec := {tau | (∀ i < n, 1 / 10 ^ 6 ≤ tau i) ∧ (∀ i, n ≤ i → tau i = 0) ∧ ∑ i ∈ range n, tau i = T}

theorem simplex_compact (n : ℕ) (T : ℝ) : IsCompact (simplex n T) := by
  have hsub : simplex n T ⊆ Set.pi Set.univ fun _ : ℕ => Set.Icc (0 : ℝ) |T| := by
    rintro tau ⟨h1, h2, h3⟩ i -
    rcases Nat.lt_or_ge i n with h | h
    · have hp : ∀ j ∈ range n, 0 ≤ tau j := fun j hj => le_trans (by norm_num) (h1 j (mem_range.mp hj))
      refine ⟨hp i (mem_range.mpr h), le_trans ?_ (le_abs_self T)⟩
      rw [← h3]
      exact single_le_sum hp (mem_range.mpr h)
    · rw [h2 i h]; exact ⟨le_rfl, abs_nonneg _⟩
  refine IsCompact.of_isClosed_subset (isCompact_univ_pi fun _ => isCompact_Icc) ?_ hsub
  have e : simplex n T = (⋂ i, {tau : Vec | i < n → 1 / 10 ^ 6 ≤ tau i}) ∩ ((⋂ i, {tau : Vec | n ≤ i → tau i = 0}) ∩ {tau : Vec | ∑ i ∈ range n, tau i = T}) := by
    ext tau
    simp [simplex]
  rw [e]
  refine IsClosed.inter (isClosed_iInter fun i => ?_) (IsClosed.inter (isClosed_iInter fun i => ?_) ?_)
  · by_cases h : i < n
    · simp only [h, true_implies]; exact isClosed_le continuous_const (continuous_apply i)
    · simp [h]
  · by_cases h : n ≤ i
    · simp only [h, true_implies]; exact isClosed_eq (continuous_apply i) continuous_const
    · simp only [h, false_implies]; exact isClosed_univ
  · exact isClosed_eq (continuous_finset_sum _ fun i _ => continuous_apply i) continuous_const

/-- The cost has a minimum. -/
theorem exists_min {b : Basis} (hb : Interpolable b) {mem : LagMem} {ws : List (ℕ × ℝ)} (ho : ∀ p ∈ ws, AddsDtau b p.1) {n codim : ℕ} (hn : 0 < n)
    (w : ℕ → ℕ → ℝ) {T : ℝ} (hT : (n : ℝ) / 10 ^ 6 ≤ T) : ∃ tau ∈ simplex n T, ∀ sigma ∈ simplex n T, costFn b mem ws n codim w tau ≤ costFn b mem ws n codim w sigma := by
  refine (simplex_compact n T).exists_isMinOn ⟨fun i => if i < n then T / n else 0, fun i hi => ?_, fun i hi => ?_, ?_⟩
    ((costFn_continuousOn hb ho hn w).mono fun tau h i hi => lt_of_lt_of_le (by norm_num) (h.1 i hi))
  · have : (0 : ℝ) < n := by exact_mod_cast hn
    beta_reduce
    rw [if_pos hi, le_div_iff₀ this]
    calc 1 / 10 ^ 6 * (n : ℝ) = n / 10 ^ 6 := by ring
      _ ≤ T := hT
  · exact if_neg (by omega)
  · have : (n : ℝ) ≠ 0 := by exact_mod_cast hn.ne'
    rw [sum_congr rfl fun i hi => if_pos (mem_range.mp hi)]
    simp
    field_simp

end GSplines.Sobolev
