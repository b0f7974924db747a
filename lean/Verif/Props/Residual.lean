import Verif.Proofs.Residual
import Verif.Props.CostLaws

/-!
# Interpolation with a linear solver that is not exact (C84)
-/

namespace GSplines.Props

open GSplines Spec Interp Symmetry Residual Finset

/-! ## Auxiliary facts -/

/-- The quantities that the conditions are about, for an approximate solution. -/
theorem quantity_close {lu : LU} {codim n : ℕ} (hn : 0 < n) {b : Basis} (hb : Interpolable b) {s s' : Interp} (hs : Reach lu codim n b s) {tau : List ℝ} {w : Pts}
    {x : List ℝ} (h : s.solveInterpolation lu tau w = .ok (s', x)) {ε : ℝ} {y : ℕ → ℝ} (hε : SolvesWithin ε s'.size s'.mat y s'.vec)
    (q : Cond n codim (b.dim / 2 - 1)) : |q.quantity b (vecOf tau) y - q.target w.at'| ≤ ε := by
  have U := usable_of hb.valid hb.even hb.ne hb.left hb.right
  obtain ⟨h1, S, hv⟩ := call_system hn hb hs h
  have hl : tau.length = n := by
    obtain ⟨-, hmat, -⟩ := solve_ok h
    exact (fillMatrix_length hmat).trans (reach_inv U hn hs).2.2.2
  have ht : ∀ i < n, vecOf tau i ≠ 0 := fun i hi =>
    (vecOf_pos (fun t ht => lt_of_lt_of_le (by norm_num) ((solve_ok h).1 t ht)) (by omega)).ne'
  have hr : row n codim (b.dim / 2 - 1) q < s'.size := by
    have := row_lt hn q
    rwa [← U.dim, ← h1] at this
  have := hε _ hr
  rw [h1, S.sum U hn ht y q, hv q] at this
  exact this

/-- The coefficients that an exact solver finds. -/
theorem exact_coefficients {lu : LU} (hlu : LUContract lu) {junk : Vec} {b : Basis} (hb : Interpolable b) {tau : List ℝ} (hne : tau ≠ []) {w : Pts}
    (hw : w.rows = tau.length + 1) {g : GSpline} (h : interpolateFn lu junk tau w b = .ok g) :
    ∃ x, g = ⟨(0, tau.sum), w.cols, b, x, tau⟩ ∧ Interpolates b tau.length w.cols (vecOf tau) w.at' (vecOf x) ∧ Consistent g := by
  have hn : 0 < tau.length := List.length_pos_of_ne_nil hne
  have U := usable_of hb.valid hb.even hb.ne hb.left hb.right
  have hmk : Interp.make w.cols (w.rows - 1) b junk = .ok ⟨b, w.cols, w.rows - 1, Mat.zero, fun _ => 0, junk, fun _ => Mat.zero, []⟩ := by
    unfold Interp.make
    rw [if_neg (by have := hb.even; omega), if_neg hb.ne]
  have hR : Reach lu w.cols tau.length b ⟨b, w.cols, w.rows - 1, Mat.zero, fun _ => 0, junk, fun _ => Mat.zero, []⟩ := by
    have := Reach.make (lu := lu) hmk
    rwa [hw, Nat.add_sub_cancel, ← show w.rows - 1 = tau.length by omega] at this ⊢
  unfold interpolateFn at h
  rw [if_neg (by omega), hmk] at h
  simp only [ok_bind] at h
  cases hi : Interp.interpolate lu ⟨b, w.cols, w.rows - 1, Mat.zero, fun _ => 0, junk, fun _ => Mat.zero, []⟩ tau w with
  | error e => rw [hi] at h; cases h
  | ok p =>
    obtain ⟨s', g'⟩ := p
    rw [hi] at h
    cases h
    obtain ⟨x, hx, hxl, hg, -, ht, hcon, -⟩ := call_spline hn hb hR hi
    refine ⟨x, hg, ?_, hcon⟩
    obtain ⟨h1, S, hv⟩ := call_system hn hb hR hx
    have hpos : ∀ i < tau.length, 0 < vecOf tau i := fun i hi' => vecOf_pos (fun t h => lt_of_lt_of_le (by norm_num) (ht t h)) hi'
    have hind : Independent b := by
      cases b with
      | b0101 a => exact hb.pos a rfl
      | _ => trivial
    have hsucc := hlu.succeeds _ _ (system_invertible U hind hn hpos S)
    rw [← solves_iff U hn (fun i hi' => (hpos i hi').ne') S hv]
    have hsz : Interp.size ⟨b, w.cols, w.rows - 1, Mat.zero, fun _ => 0, junk, fun _ => Mat.zero, []⟩ = b.dim * w.cols * tau.length := by
      unfold Interp.size; simp only; rw [hw]; rfl
    have hx' := (solve_ok hx).2.2.2.2.2.2.2.2
    rw [hsz, if_pos hsucc] at hx'
    intro r hr
    rw [← hlu.solves _ _ s'.vec hsucc r hr]
    refine sum_congr rfl fun k hk => ?_
    rw [hx', vecOf_map_range (mem_range.mp hk)]

/-- The inverse of the system, for given lengths. -/
theorem system_inverse {b : Basis} (hb : Interpolable b) (codim : ℕ) {tau : List ℝ} (hne : tau ≠ []) (ht : ∀ t ∈ tau, 1 / 10 ^ 6 ≤ t) :
    ∃ A inv : Mat, System b (b.dim / 2 - 1) tau.length codim (vecOf tau) A ∧
      ∀ i < b.dim * codim * tau.length, ∀ j < b.dim * codim * tau.length,
        ∑ k ∈ range (b.dim * codim * tau.length), inv i k * A k j = if i = j then 1 else 0 := by
  have U := usable_of hb.valid hb.even hb.ne hb.left hb.right
  have hn : 0 < tau.length := List.length_pos_of_ne_nil hne
  have hpos : ∀ i < tau.length, 0 < vecOf tau i := fun i hi' => vecOf_pos (fun t h => lt_of_lt_of_le (by norm_num) (ht t h)) hi'
  have hind : Independent b := by
    cases b with
    | b0101 a => exact hb.pos a rfl
    | _ => trivial
  have S : System b (b.dim / 2 - 1) tau.length codim (vecOf tau) (fillP (2 * (b.dim / 2 - 1) + 2) codim tau.length (bufs b (vecOf tau)) Mat.zero) :=
    ⟨fun x => fillP_rows _ hn (clean_zero _ _ _) x⟩
  obtain ⟨inv, hinv⟩ := system_invertible U hind hn hpos S
  exact ⟨_, inv, S, fun i hi j hj => (hinv i hi j hj).1⟩

/-- The entries of the right hand side are entries of the way points, or zero. -/
theorem target_le {n codim h : ℕ} (q : Cond n codim h) {w : ℕ → ℕ → ℝ} {W : ℝ} (hW0 : 0 ≤ W) (hW : ∀ i ≤ n, ∀ c < codim, |w i c| ≤ W) : |q.target w| ≤ W := by
  cases q with
  | start iv comp => exact hW _ (by have := iv.2; omega) _ comp.2
  | stop iv comp => exact hW _ (by have := iv.2; omega) _ comp.2
  | restL comp j => simpa [Cond.target] using hW0
  | restR comp j => simpa [Cond.target] using hW0
  | join iv comp j => simpa [Cond.target] using hW0

/-! ## The conditions -/

/-- A spline whose coefficients meet the conditions up to an error. -/
theorem meets_of_quantities {b : Basis} (hb : Interpolable b) {n codim : ℕ} (hn : 0 < n) {tau x : List ℝ} (hlen : tau.length = n)
    (hcon : Consistent ⟨(0, tau.sum), codim, b, x, tau⟩) (hp : Positive ⟨(0, tau.sum), codim, b, x, tau⟩) {w : Pts} {ε : ℝ}
    (Q : ∀ q : Cond n codim (b.dim / 2 - 1), |q.quantity b (vecOf tau) (vecOf x) - q.target w.at'| ≤ ε) :
    MeetsWithin ε ⟨(0, tau.sum), codim, b, x, tau⟩ w.at' := by
  have hev := hb.even
  have hne := hb.ne
  set g : GSpline := ⟨(0, tau.sum), codim, b, x, tau⟩ with hg
  have hst : ∀ i < n, ∀ c < codim, |curve g i c (brk g i) - w.at' i c| ≤ ε := by
    intro i hi c hc
    unfold curve
    rw [sub_self]
    exact Q (.start ⟨i, hi⟩ ⟨c, hc⟩)
  have hsp : ∀ i < n, ∀ c < codim, |curve g i c (brk g (i + 1)) - w.at' (i + 1) c| ≤ ε := by
    intro i hi c hc
    unfold curve
    rw [GSpline.brk_succ g (show i < g.tau.length by change i < tau.length; omega), add_sub_cancel_left]
    exact Q (.stop ⟨i, hi⟩ ⟨c, hc⟩)
  have hend : brk g g.tau.length = g.dom.2 := by simp [brk, hg]
  refine ⟨fun i hi => ?_, fun i hi c hc => ?_, fun i hi c hc d h1 h2 => ?_, fun c hc d h1 h2 => ?_, fun c hc d h1 h2 => ?_⟩
  · have hi' : i ≤ n := by rw [← hlen]; exact hi
    rcases Nat.eq_zero_or_pos i with rfl | hi0
    · have hloc : Located g (brk g 0) 0 := ⟨by rw [show g.tau.length = n from hlen]; exact hn, .inl ⟨le_rfl, rfl⟩⟩
      obtain ⟨v, h1, h2, h3⟩ := GSpline.value_spec hb.valid hcon (GSpline.getInterval_of_located hp hloc) hloc.1 (vecOf_pos hp.2 hloc.1).ne'
        (by rw [sub_self, show window (vecOf g.tau 0) 0 = -1 by simp [window]]; exact hb.left)
      exact ⟨_, ⟨v, h1, h2, h3⟩, fun c hc => hst 0 hn c hc⟩
    · obtain ⟨j, rfl⟩ : ∃ j, i = j + 1 := ⟨i - 1, by omega⟩
      have hj : j < g.tau.length := by rw [show g.tau.length = n from hlen]; omega
      have ht := vecOf_pos hp.2 hj
      have hloc : Located g (brk g (j + 1)) j := ⟨hj, .inr (.inl ⟨GSpline.brk_lt_succ hp hj, le_rfl⟩)⟩
      obtain ⟨v, h1, h2, h3⟩ := GSpline.value_spec hb.valid hcon (GSpline.getInterval_of_located hp hloc) hj ht.ne'
        (by rw [GSpline.brk_succ g hj, add_sub_cancel_left, show window (vecOf g.tau j) (vecOf g.tau j) = 1 by unfold window; field_simp; norm_num]
            exact hb.right)
      exact ⟨_, ⟨v, h1, h2, h3⟩, fun c hc => hsp j (by omega) c hc⟩
  · have hi' : i + 1 < n := by rw [← hlen]; exact hi
    have e1 := abs_le.mp (hsp i (by omega) c hc)
    have e2 := abs_le.mp (hst (i + 1) hi' c hc)
    rw [abs_le]
    constructor <;> linarith [e1.1, e1.2, e2.1, e2.2]
  · have hi' : i + 1 < n := by rw [← hlen]; exact hi
    have hd : d - 1 < 2 * (b.dim / 2 - 1) := by change d ≤ b.dim - 2 at h2; omega
    have := Q (.join ⟨i, by omega⟩ ⟨c, hc⟩ ⟨d - 1, hd⟩)
    simp only [Cond.quantity, Cond.target, sub_zero] at this
    rw [show d - 1 + 1 = d by omega] at this
    rw [iteratedDeriv_curve, iteratedDeriv_curve, sub_self, GSpline.brk_succ g (show i < g.tau.length by change i < tau.length; omega), add_sub_cancel_left]
    exact this
  · have hd : d - 1 < b.dim / 2 - 1 := by change d ≤ b.dim / 2 - 1 at h2; omega
    have := Q (.restL ⟨c, hc⟩ ⟨d - 1, hd⟩)
    simp only [Cond.quantity, Cond.target, sub_zero] at this
    rw [show d - 1 + 1 = d by omega] at this
    rw [iteratedDeriv_curve, GSpline.brk_zero, sub_self]
    exact this
  · have hd : d - 1 < b.dim / 2 - 1 := by change d ≤ b.dim / 2 - 1 at h2; omega
    have := Q (.restR ⟨c, hc⟩ ⟨d - 1, hd⟩)
    simp only [Cond.quantity, Cond.target, sub_zero] at this
    rw [show d - 1 + 1 = d by omega, ← hlen] at this
    have e : g.dom.2 - brk g (g.tau.length - 1) = vecOf g.tau (g.tau.length - 1) := by
      have hl : g.tau.length = n := hlen
      have := GSpline.brk_succ g (i := g.tau.length - 1) (by omega)
      rw [show g.tau.length - 1 + 1 = g.tau.length by omega, hend] at this
      rw [this]; ring
    rw [iteratedDeriv_curve, e]
    exact this

/-- **C84** (the conditions). Whatever linear solver is used and whatever the interpolator was used for before: if the coefficients that a call found satisfy
every equation of its system up to `ε`, then the spline that the call returns passes within `ε` of every way point, jumps by at most `2 ε`, its derivatives up
to order `dim - 2` jump by at most `ε`, and its derivatives at both ends up to order `dim/2 - 1` are at most `ε`. -/
theorem C84_conditions (lu : LU) (codim n : ℕ) (hn : 0 < n) (b : Basis) (hb : Interpolable b) (s s' : Interp) (hs : Reach lu codim n b s) (tau : List ℝ) (w : Pts)
    (g : GSpline) (h : s.interpolate lu tau w = .ok (s', g)) (ε : ℝ) (hε : SolvesWithin ε s'.size s'.mat (vecOf g.coeffs) s'.vec) :
    g.dom = (0, tau.sum) ∧ g.tau = tau ∧ g.codim = codim ∧ g.basis = b ∧ MeetsWithin ε g w.at' := by
  obtain ⟨x, hx, hxl, rfl, hlen, ht, hcon, hp⟩ := call_spline hn hb hs h
  refine ⟨rfl, rfl, rfl, rfl, ?_⟩
  exact meets_of_quantities hb hn hlen hcon hp (quantity_close hn hb hs hx hε)

/-! ## The distance to the exact curve -/

/-- **C84** (the curve). For a basis, a number of components, interval lengths and an order there is a constant such that, for all way points, all linear
solvers and all previous uses of the object: if the coefficients that a call found satisfy every equation up to `ε`, then the curve and its derivatives up to that
order differ from those of the exact interpolating curve by at most the constant times `ε`. -/
theorem C84_close (b : Basis) (hb : Interpolable b) (codim : ℕ) (tau : List ℝ) (hne : tau ≠ []) (ht : ∀ t ∈ tau, 1 / 10 ^ 6 ≤ t) (D : ℕ) :
    ∃ C : ℝ, 0 ≤ C ∧ ∀ (lu : LU) (s s' : Interp) (w : Pts) (g : GSpline), Reach lu codim tau.length b s → w.rows = tau.length + 1 → w.cols = codim →
      s.interpolate lu tau w = .ok (s', g) → ∀ ε : ℝ, SolvesWithin ε s'.size s'.mat (vecOf g.coeffs) s'.vec →
        ∀ lu0, LUContract lu0 → ∀ (junk : Vec) (g0 : GSpline), interpolateFn lu0 junk tau w b = .ok g0 → CloseUpTo D (C * ε) g g0 := by
  have U := usable_of hb.valid hb.even hb.ne hb.left hb.right
  have hn : 0 < tau.length := List.length_pos_of_ne_nil hne
  have hpos : ∀ i < tau.length, 0 < vecOf tau i := fun i hi' => vecOf_pos (fun t h => lt_of_lt_of_le (by norm_num) (ht t h)) hi'
  obtain ⟨A, inv, S0, hinv⟩ := system_inverse hb codim hne ht
  obtain ⟨B, hB0, hB⟩ := basis_bound b tau.length (vecOf tau) D
  set N := b.dim * codim * tau.length with hN
  set K := ∑ i ∈ range N, ∑ r ∈ range N, |inv i r| with hK
  have hK0 : 0 ≤ K := sum_nonneg fun i _ => sum_nonneg fun r _ => abs_nonneg _
  refine ⟨b.dim * B * K, by positivity, fun lu s s' w g hs hw hc h ε hε lu0 hlu0 junk g0 hg0 => ?_⟩
  obtain ⟨x, hx, hxl, rfl, -, -, hcon, hp⟩ := call_spline hn hb hs h
  obtain ⟨x0, rfl, hI, hcon0⟩ := exact_coefficients hlu0 hb hne hw hg0
  subst hc
  obtain ⟨h1, S, hv⟩ := call_system hn hb hs hx
  have hsol := (solves_iff U hn (fun i hi' => (hpos i hi').ne') S hv _).mpr hI
  rw [h1] at hε
  have hAm := System.entries U hn S0 S
  have hinv' : ∀ i < N, ∀ j < N, ∑ k ∈ range N, inv i k * s'.mat k j = if i = j then 1 else 0 := fun i hi j hj => by
    rw [← hinv i hi j hj]
    exact sum_congr rfl fun k hk => by rw [hAm k (mem_range.mp hk)]
  have := close_of (g := ⟨(0, tau.sum), w.cols, b, x, tau⟩) (g' := ⟨(0, tau.sum), w.cols, b, x0, tau⟩) hb.valid rfl hcon hcon0 hp (by simp) rfl rfl rfl hB
    (δ := K * ε) (fun k hk => solution_error hinv' hsol hε hk)
  rw [show b.dim * B * K * ε = b.dim * B * (K * ε) by ring]
  exact this

/-- **C84** (solvers with a small backward error). For a basis, a number of components, interval lengths and an order there are constants such that, for every linear solver
whose backward error `η` on the systems of the calls is small enough: if the entries of the way points are at most `W`, then the curve and its derivatives differ from
those of the exact interpolating curve by at most a constant times `η W`. -/
theorem C84_backward (b : Basis) (hb : Interpolable b) (codim : ℕ) (tau : List ℝ) (hne : tau ≠ []) (ht : ∀ t ∈ tau, 1 / 10 ^ 6 ≤ t) (D : ℕ) :
    ∃ C η0 : ℝ, 0 ≤ C ∧ 0 < η0 ∧ ∀ (lu : LU) (s s' : Interp) (w : Pts) (g : GSpline), Reach lu codim tau.length b s → w.rows = tau.length + 1 → w.cols = codim →
      s.interpolate lu tau w = .ok (s', g) → ∀ η : ℝ, 0 ≤ η → η ≤ η0 → BackwardError η s'.size s'.mat (vecOf g.coeffs) s'.vec →
        ∀ W : ℝ, (∀ i < w.rows, ∀ c < w.cols, |w.at' i c| ≤ W) →
          ∀ lu0, LUContract lu0 → ∀ (junk : Vec) (g0 : GSpline), interpolateFn lu0 junk tau w b = .ok g0 → CloseUpTo D (C * (η * W)) g g0 := by
  have U := usable_of hb.valid hb.even hb.ne hb.left hb.right
  have hn : 0 < tau.length := List.length_pos_of_ne_nil hne
  have hpos : ∀ i < tau.length, 0 < vecOf tau i := fun i hi' => vecOf_pos (fun t h => lt_of_lt_of_le (by norm_num) (ht t h)) hi'
  obtain ⟨A, inv, S0, hinv⟩ := system_inverse hb codim hne ht
  obtain ⟨B, hB0, hB⟩ := basis_bound b tau.length (vecOf tau) D
  set N := b.dim * codim * tau.length with hN
  set K := ∑ i ∈ range N, ∑ r ∈ range N, |inv i r| with hK
  set M := ∑ i ∈ range N, ∑ r ∈ range N, |A i r| with hM
  have hK0 : 0 ≤ K := sum_nonneg fun i _ => sum_nonneg fun r _ => abs_nonneg _
  have hM0 : 0 ≤ M := sum_nonneg fun i _ => sum_nonneg fun r _ => abs_nonneg _
  refine ⟨b.dim * B * (2 * (N * K * (M * (N * K) + N))), 1 / (2 * (N * K * M) + 1), by positivity, by positivity,
    fun lu s s' w g hs hw hc h η hη hη0 hε W hW lu0 hlu0 junk g0 hg0 => ?_⟩
  obtain ⟨x, hx, hxl, rfl, -, -, hcon, hp⟩ := call_spline hn hb hs h
  obtain ⟨x0, rfl, hI, hcon0⟩ := exact_coefficients hlu0 hb hne hw hg0
  subst hc
  obtain ⟨h1, S, hv⟩ := call_system hn hb hs hx
  have hsol := (solves_iff U hn (fun i hi' => (hpos i hi').ne') S hv _).mpr hI
  rw [h1] at hε
  have hAm := System.entries U hn S0 S
  have hinv' : ∀ i < N, ∀ j < N, ∑ k ∈ range N, inv i k * s'.mat k j = if i = j then 1 else 0 := fun i hi j hj => by
    rw [← hinv i hi j hj]
    exact sum_congr rfl fun k hk => by rw [hAm k (mem_range.mp hk)]
  have hM' : ∑ r ∈ range N, ∑ k ∈ range N, |s'.mat r k| = M := sum_congr rfl fun r hr => by rw [hAm r (mem_range.mp hr)]
  have hkey : ∀ k < N, |vecOf x k - vecOf x0 k| ≤ 2 * (N * K * (M * (N * K) + N)) * (η * W) := by
    intro k hk
    have hc0 : 0 < w.cols := by
      rcases Nat.eq_zero_or_pos w.cols with e | e
      · rw [hN, e] at hk; simp at hk
      · exact e
    have hW0 : 0 ≤ W := (abs_nonneg _).trans (hW 0 (by omega) 0 hc0)
    refine (backward_error hinv' hK hM'.symm hsol hε hη hη0 (fun r hr => ?_) hk).2
    rw [hN, U.dim] at hr
    obtain ⟨q, rfl⟩ := row_surj (n := tau.length) (c := w.cols) (h := b.dim / 2 - 1) hn hr
    rw [hv q]
    exact target_le q hW0 fun i hi c hc => hW i (by omega) c hc
  have := close_of (g := ⟨(0, tau.sum), w.cols, b, x, tau⟩) (g' := ⟨(0, tau.sum), w.cols, b, x0, tau⟩) hb.valid rfl hcon hcon0 hp (by simp) rfl rfl rfl hB
    (δ := 2 * (N * K * (M * (N * K) + N)) * (η * W)) hkey
  rw [show b.dim * B * (2 * (N * K * (M * (N * K) + N))) * (η * W) = b.dim * B * (2 * (N * K * (M * (N * K) + N)) * (η * W)) by ring]
  exact this

/-! ## The derivative of the coefficients with respect to an interval length -/

/-- The matrix of derivatives that `get_coeff_derivative_wrt_tau` sets up: its rows do not depend on the previous uses of the object. -/
theorem call_derivative {lu : LU} {codim n : ℕ} {b : Basis} (hb : Interpolable b) {s s' : Interp} (hs : Reach lu codim n b s) {tau y : List ℝ} {idx : ℕ}
    (hlen : tau.length = n) (hidx : idx < n) {d : Vec} (h : s.coeffDerivative lu y tau idx = .ok (s', d)) :
    s'.size = b.dim * codim * n ∧ System b (b.dim / 2 - 1) n codim (vecOf tau) s'.mat ∧ y.length = s'.size ∧ lu.succeeds s'.size s'.mat = true ∧
      (d = fun k => - lu.solve s'.size s'.mat ((s'.ders idx).mulVec s'.size (vecOf y)) k) ∧
      ∀ q : Cond n codim (b.dim / 2 - 1), s'.ders idx (row n codim (b.dim / 2 - 1) q) = overI idx (bufsT b (vecOf tau)) q fun _ => 0 := by
  have U := usable_of hb.valid hb.even hb.ne hb.left hb.right
  have hn : 0 < n := by omega
  set m := b.dim / 2 - 1 with hm
  obtain ⟨I, rfl, rfl, rfl⟩ := reach_inv U hn hs
  rcases coeff_ok h with ⟨-, -, hbad⟩ | ⟨ht, -, -, hy, hsucc, hmat, e1, e2, e3, -, D, hD, hders, hx⟩
  · omega
  have hsz : s'.size = s.size := by unfold Interp.size; rw [e1, e2, e3]
  have hd : s'.ders idx = D := by rw [hders]; simp [setAt]
  refine ⟨by rw [hsz]; rfl, ?_, by rw [hsz]; exact hy, by rw [hsz]; exact hsucc, by rw [hd, hsz]; exact hx, fun q => ?_⟩
  · obtain ⟨m', hm', S⟩ := fillMatrix_system U hn hlen I.mat
    have hmm : m' = s'.mat := by rw [hmat] at hm'; exact (Except.ok.inj hm').symm
    rwa [hmm] at S
  · have ht0 : vecOf tau idx ≠ 0 := (vecOf_pos (fun t h => lt_of_lt_of_le (by norm_num) (ht t h)) (by omega)).ne'
    have := fillDer_ok (c := s.codim) U hidx hlen ht0 (s.ders idx)
    rw [hD] at this
    rw [hd, Except.ok.inj this, U.dim]
    exact derP_rows _ hidx (I.ders idx hidx) q

/-- **C84** (derivatives with respect to an interval length). For a basis, a number of components, interval lengths and an interval there is a constant such that, for
all way points, all linear solvers and all previous uses of the object: if `y` is within `δ` of the exact interpolating coefficients and the answer of
`get_coeff_derivative_wrt_tau(y, tau, idx)` satisfies its system up to `ε`, then it differs from the true derivative of the interpolating coefficients by at most the
constant times `ε + δ`. -/
theorem C84_coefficient_derivative (b : Basis) (hb : Interpolable b) (codim : ℕ) (tau : List ℝ) (ht : ∀ t ∈ tau, 1 / 10 ^ 6 ≤ t) (idx : ℕ) (hidx : idx < tau.length) :
    ∃ C : ℝ, 0 ≤ C ∧ ∀ (lu : LU) (s s' : Interp) (y : List ℝ) (d : Vec), Reach lu codim tau.length b s → s.coeffDerivative lu y tau idx = .ok (s', d) →
      ∀ (w : ℕ → ℕ → ℝ) (Y : ℝ → ℕ → ℝ),
        (∀ᶠ z in nhds (vecOf tau idx), Interpolates b tau.length codim (Function.update (vecOf tau) idx z) w (Y z)) →
        ∀ ε δ : ℝ, (∀ k < s'.size, |vecOf y k - Y (vecOf tau idx) k| ≤ δ) →
          SolvesWithin ε s'.size s'.mat (fun k => - d k) ((s'.ders idx).mulVec s'.size (vecOf y)) →
          ∀ k < s'.size, ∃ e, HasDerivAt (fun z => Y z k) e (vecOf tau idx) ∧ |d k - e| ≤ C * (ε + δ) := by
  have U := usable_of hb.valid hb.even hb.ne hb.left hb.right
  have hne : tau ≠ [] := by rintro rfl; simp at hidx
  have hn : 0 < tau.length := by omega
  obtain ⟨A, inv, S0, hinv⟩ := system_inverse hb codim hne ht
  set N := b.dim * codim * tau.length with hN
  set K := ∑ i ∈ range N, ∑ r ∈ range N, |inv i r| with hK
  have hK0 : 0 ≤ K := sum_nonneg fun i _ => sum_nonneg fun r _ => abs_nonneg _
  -- an object with an exact solver
  have hmk : Interp.make codim tau.length b (fun _ => 0) = .ok ⟨b, codim, tau.length, Mat.zero, fun _ => 0, fun _ => 0, fun _ => Mat.zero, []⟩ := by
    unfold Interp.make
    rw [if_neg (by have := hb.even; omega), if_neg hb.ne]
  set s0 : Interp := ⟨b, codim, tau.length, Mat.zero, fun _ => 0, fun _ => 0, fun _ => Mat.zero, []⟩ with hs0
  have R0 : Reach exactLU codim tau.length b s0 := Reach.make hmk
  obtain ⟨I0, -⟩ := reach_inv U hn R0
  have ht0 : vecOf tau idx ≠ 0 := (vecOf_pos (fun t h => lt_of_lt_of_le (by norm_num) (ht t h)) hidx).ne'
  set D0 := derP (2 * (b.dim / 2 - 1) + 2) codim tau.length idx (bufsT b (vecOf tau)) Mat.zero with hD0
  have hD0r : ∀ q : Cond tau.length codim (b.dim / 2 - 1), D0 (row tau.length codim (b.dim / 2 - 1) q) = overI idx (bufsT b (vecOf tau)) q fun _ => 0 :=
    fun q => derP_rows _ hidx (I0.ders idx hidx) q
  set M := ∑ i ∈ range N, ∑ r ∈ range N, |D0 i r| with hM
  have hM0 : 0 ≤ M := sum_nonneg fun i _ => sum_nonneg fun r _ => abs_nonneg _
  refine ⟨K * (1 + M), by positivity, fun lu s s' y d hs h w Y hY ε δ hδ hε k hk => ?_⟩
  obtain ⟨h1, S, hyl, -, -, hder⟩ := call_derivative hb hs rfl hidx h
  rw [h1] at hδ hε hk
  obtain ⟨s1, e, hcall, hderiv⟩ := C39_coefficient_derivative exactLU exactLU_contract codim tau.length b hb.valid hb.even hb.ne hb.left hb.right hb.pos s0 R0 tau rfl ht
    idx hidx w Y hY
  obtain ⟨g1, T, -, gsucc, ge, gder⟩ := call_derivative hb R0 rfl hidx hcall
  rw [g1] at gsucc ge
  have hsz0 : s0.size = N := rfl
  refine ⟨e k, hderiv k (by rw [hsz0]; exact hk), ?_⟩
  have hAm := System.entries U hn S0 S
  have hAm1 := System.entries U hn S0 T
  have hDs : ∀ r < N, s'.ders idx r = D0 r ∧ s1.ders idx r = D0 r := by
    intro r hr
    rw [hN, U.dim] at hr
    obtain ⟨q, rfl⟩ := row_surj (n := tau.length) (c := codim) (h := b.dim / 2 - 1) hn hr
    rw [hder q, gder q, hD0r q]
    exact ⟨rfl, rfl⟩
  have hsol : Solves N A (fun k => - e k) (D0.mulVec N (Y (vecOf tau idx))) := by
    intro r hr
    have := exactLU_contract.solves N s1.mat ((s1.ders idx).mulVec N (vecOf ((List.range s0.size).map (Y (vecOf tau idx))))) gsucc r hr
    rw [ge]
    simp only [neg_neg]
    rw [hAm1 r hr, this]
    unfold Mat.mulVec
    refine sum_congr rfl fun j hj => ?_
    rw [(hDs r hr).2, hsz0, vecOf_map_range (mem_range.mp hj)]
  have hwithin : SolvesWithin (ε + M * δ) N A (fun k => - d k) (D0.mulVec N (Y (vecOf tau idx))) := by
    intro r hr
    have h2 := hε r hr
    rw [← hAm r hr] at h2
    unfold Mat.mulVec at h2 ⊢
    rw [(hDs r hr).1] at h2
    have h3 : |∑ j ∈ range N, D0 r j * vecOf y j - ∑ j ∈ range N, D0 r j * Y (vecOf tau idx) j| ≤ M * δ := by
      rw [← sum_sub_distrib]
      refine (abs_sum_le_sum_abs _ _).trans ?_
      have hδ0 : 0 ≤ δ := (abs_nonneg _).trans (hδ k hk)
      calc ∑ j ∈ range N, |D0 r j * vecOf y j - D0 r j * Y (vecOf tau idx) j| ≤ ∑ j ∈ range N, |D0 r j| * δ := by
            refine sum_le_sum fun j hj => ?_
            rw [← mul_sub, abs_mul]
            exact mul_le_mul_of_nonneg_left (hδ j (mem_range.mp hj)) (abs_nonneg _)
        _ = (∑ j ∈ range N, |D0 r j|) * δ := by rw [sum_mul]
        _ ≤ M * δ := mul_le_mul_of_nonneg_right
            (single_le_sum (f := fun i => ∑ j ∈ range N, |D0 i j|) (fun i _ => sum_nonneg fun r _ => abs_nonneg _) (mem_range.mpr hr)) hδ0
    have := abs_add_le _ _ |>.trans (add_le_add h2 h3)
    rwa [show ∀ a b c : ℝ, a - b + (b - c) = a - c from fun a b c => by ring] at this
  have := solution_error hinv hsol hwithin hk
  rw [show -d k - -e k = -(d k - e k) by ring, abs_neg] at this
  refine this.trans ?_
  have hε0 : 0 ≤ ε := (abs_nonneg _).trans (hε k hk)
  have hδ0 : 0 ≤ δ := (abs_nonneg _).trans (hδ k hk)
  have : ε + M * δ ≤ (1 + M) * (ε + δ) := by nlinarith
  calc K * (ε + M * δ) ≤ K * ((1 + M) * (ε + δ)) := mul_le_mul_of_nonneg_left this hK0
    _ = _ := by ring

/-! ## The Sobolev cost -/

theorem total_bound (b : Basis) (n codim : ℕ) (Q : ℕ → Mat) {y z : Vec} {p r : ℝ} (hp : 0 ≤ p) (hy : ∀ k < b.dim * codim * n, |y k| ≤ p)
    (hz : ∀ k < b.dim * codim * n, |z k| ≤ r) :
    |Sobolev.total b n codim Q y z| ≤ (codim * ∑ iv ∈ range n, ∑ i ∈ range b.dim, ∑ j ∈ range b.dim, |Q iv i j|) * (p * r) := by
  unfold Sobolev.total Sobolev.form
  refine (abs_sum_le_sum_abs _ _).trans ?_
  rw [mul_sum, sum_mul]
  refine sum_le_sum fun iv hiv => (abs_sum_le_sum_abs _ _).trans ?_
  have hle : ∀ c ∈ range codim, |∑ i ∈ range b.dim, ∑ j ∈ range b.dim, Sobolev.part b codim y iv c i * Q iv i j * Sobolev.part b codim z iv c j| ≤
      (∑ i ∈ range b.dim, ∑ j ∈ range b.dim, |Q iv i j|) * (p * r) := by
    intro c hc
    refine (abs_sum_le_sum_abs _ _).trans ?_
    rw [sum_mul]
    refine sum_le_sum fun i hi => (abs_sum_le_sum_abs _ _).trans ?_
    rw [sum_mul]
    refine sum_le_sum fun j hj => ?_
    have hidx : ∀ k < b.dim, iv * b.dim * codim + b.dim * c + k < b.dim * codim * n := by
      intro k hk
      have h1 : b.dim * c + k < b.dim * codim := by
        calc b.dim * c + k < b.dim * c + b.dim := by omega
          _ = b.dim * (c + 1) := by ring
          _ ≤ b.dim * codim := Nat.mul_le_mul_left _ (mem_range.mp hc)
      calc iv * b.dim * codim + b.dim * c + k < iv * b.dim * codim + b.dim * codim := by omega
        _ = b.dim * codim * (iv + 1) := by ring
        _ ≤ b.dim * codim * n := Nat.mul_le_mul_left _ (mem_range.mp hiv)
    have e1 := hy _ (hidx i (mem_range.mp hi))
    have e2 := hz _ (hidx j (mem_range.mp hj))
    rw [abs_mul, abs_mul, mul_comm |_| |Q iv i j|, mul_assoc]
    exact mul_le_mul_of_nonneg_left (mul_le_mul e1 e2 (abs_nonneg _) hp) (abs_nonneg _)
  refine (sum_le_sum hle).trans (le_of_eq ?_)
  rw [sum_const, card_range, nsmul_eq_mul]
  ring

theorem total_sub (b : Basis) (n codim : ℕ) (Q : ℕ → Mat) (y z : Vec) :
    Sobolev.total b n codim Q y y - Sobolev.total b n codim Q z z =
      Sobolev.total b n codim Q y (fun k => y k - z k) + Sobolev.total b n codim Q (fun k => y k - z k) z := by
  unfold Sobolev.total Sobolev.form Sobolev.part
  simp only [← sum_sub_distrib, ← sum_add_distrib]
  refine sum_congr rfl fun _ _ => sum_congr rfl fun _ _ => sum_congr rfl fun _ _ => sum_congr rfl fun _ _ => ?_
  ring

/-- **C84** (the Sobolev cost). For a basis, weights, a number of components and interval lengths there is a constant such that, for all way points with entries of at most
`W`, all linear solvers and all previous uses of the object: if the coefficients that the evaluation of the cost found satisfy every equation up to `ε`, then the
value differs from the value computed with an exact solver by at most the constant times `(W + ε) ε`. -/
theorem C84_cost (b : Basis) (hb : Interpolable b) (weights : List (ℕ × ℝ)) (ho : ∀ p ∈ weights, Sobolev.Adds b p.1) (mem : LagMem) (codim : ℕ) (tau : List ℝ) (hne : tau ≠ [])
    (ht : ∀ t ∈ tau, 1 / 10 ^ 6 ≤ t) :
    ∃ C : ℝ, 0 ≤ C ∧ ∀ (lu : LU) (w : Pts) (s s' : Sobolev) (v : ℝ), w.rows = tau.length + 1 → w.cols = codim → SReach lu w b weights mem s → s.cost lu tau = .ok (s', v) →
      lu.succeeds s'.interp.size s'.interp.mat = true → ∀ ε W : ℝ, SolvesWithin ε s'.interp.size s'.interp.mat (vecOf s'.interp.sol) s'.interp.vec →
        (∀ i < w.rows, ∀ c < w.cols, |w.at' i c| ≤ W) →
          ∀ lu0, LUContract lu0 → ∀ (s0 s0' : Sobolev) (v0 : ℝ), SReach lu0 w b weights mem s0 → s0.cost lu0 tau = .ok (s0', v0) → |v - v0| ≤ C * ((W + ε) * ε) := by
  have U := usable_of hb.valid hb.even hb.ne hb.left hb.right
  have hn : 0 < tau.length := List.length_pos_of_ne_nil hne
  have hpos : ∀ i < tau.length, 0 < vecOf tau i := fun i hi' => vecOf_pos (fun t h => lt_of_lt_of_le (by norm_num) (ht t h)) hi'
  obtain ⟨A, inv, S0, hinv⟩ := system_inverse hb codim hne ht
  set N := b.dim * codim * tau.length with hN
  set K := ∑ i ∈ range N, ∑ r ∈ range N, |inv i r| with hK
  have hK0 : 0 ≤ K := sum_nonneg fun i _ => sum_nonneg fun r _ => abs_nonneg _
  set Q : ℕ → Mat := fun iv => Sobolev.wsum (Sobolev.q b mem (vecOf tau iv)) weights Mat.zero with hQ
  set T : ℝ := codim * ∑ iv ∈ range tau.length, ∑ i ∈ range b.dim, ∑ j ∈ range b.dim, |Q iv i j| with hT
  have hT0 : 0 ≤ T := mul_nonneg (Nat.cast_nonneg _) (sum_nonneg fun _ _ => sum_nonneg fun _ _ => sum_nonneg fun _ _ => abs_nonneg _)
  refine ⟨2 * T * K ^ 2, by positivity, fun lu w s s' v hw hc hs h hsucc ε W hε hW lu0 hlu0 s0 s0' v0 hs0 h0 => ?_⟩
  subst hc
  obtain ⟨hR, rfl, rfl, rfl⟩ := Sobolev.sreach_inv hs
  obtain ⟨s1, x0, hx0, -, hI⟩ := Sobolev.cost_value hlu0 (by omega) hb ho hs0 hw.symm ht
  rw [hx0] at h0
  cases h0
  have hrows : s.points.rows - 1 = tau.length := by omega
  rw [hrows] at hR
  unfold Sobolev.cost at h
  cases hsolve : s.interp.solveInterpolation lu tau s.points with
  | error e => rw [hsolve] at h; cases h
  | ok p =>
    obtain ⟨i, x⟩ := p
    rw [hsolve, Interp.ok_bind] at h
    dsimp only at h
    obtain ⟨I, e1, e2, e3⟩ := reach_inv U hn hR
    obtain ⟨-, hmat, -, k1, k2, k3, -, ksol, kx⟩ := solve_ok hsolve
    obtain ⟨h1, S, hv⟩ := call_system hn hb hR hsolve
    have hsz : s.interp.size = i.size := by unfold Interp.size; rw [k1, k2, k3]
    have hi : s'.interp = i := by
      cases hp : Sobolev.innerProd i.basis s.mem s.weights i.n i.codim tau x x with
      | error e => rw [hp] at h; cases h
      | ok r => rw [hp] at h; cases h; rfl
    rw [hi] at hε hsucc
    rw [← hsz] at hsucc
    rw [if_pos hsucc] at kx
    have hxl : x.length = b.dim * s.points.cols * tau.length := by rw [kx]; simp [hsz, h1]
    rw [show i.basis = b by rw [k1, e1], show i.n = tau.length by rw [k3, e3], show i.codim = s.points.cols by rw [k2, e2],
      Sobolev.innerProd_ok ho rfl hxl hxl, Interp.ok_bind] at h
    have hv' : v = Sobolev.total b tau.length s.points.cols Q (vecOf x) (vecOf x) := by cases h; rfl
    rw [h1, ksol] at hε
    rw [hv', total_sub]
    have hsol := (solves_iff U hn (fun i hi' => (hpos i hi').ne') S hv _).mpr hI
    have hAm := System.entries U hn S0 S
    have hinv' : ∀ a < N, ∀ j < N, ∑ k ∈ range N, inv a k * i.mat k j = if a = j then 1 else 0 := fun a ha j hj => by
      rw [← hinv a ha j hj]
      exact sum_congr rfl fun k hk => by rw [hAm k (mem_range.mp hk)]
    have hd : ∀ k < N, |vecOf x k - vecOf x0 k| ≤ K * ε := fun k hk => solution_error hinv' hsol hε hk
    rcases Nat.eq_zero_or_pos N with hN0 | hNp
    · have hz : ∀ y z : Vec, Sobolev.total b tau.length s.points.cols Q y z = 0 := fun y z => by
        have := total_bound b tau.length s.points.cols Q (y := y) (z := z) (p := 0) (r := 0) le_rfl (fun k hk => by omega) (fun k hk => by omega)
        simpa using this
      have hc0 : s.points.cols = 0 := by
        rcases Nat.eq_zero_or_pos s.points.cols with e | e
        · exact e
        · have : 0 < N := by rw [hN]; have := hb.ne; have := hb.even; exact Nat.mul_pos (Nat.mul_pos (by omega) e) hn
          omega
      have hT' : T = 0 := by rw [hT, hc0]; simp
      rw [hz, hz, hT']; simp
    · have hε0 : 0 ≤ ε := (abs_nonneg _).trans (hε 0 hNp)
      have hc0 : 0 < s.points.cols := by
        rcases Nat.eq_zero_or_pos s.points.cols with e | e
        · rw [hN, e] at hNp; simp at hNp
        · exact e
      have hW0 : 0 ≤ W := (abs_nonneg _).trans (hW 0 (by omega) 0 hc0)
      have hy0 : ∀ j < N, |vecOf x0 j| ≤ K * W := by
        intro j hj
        have := solution_error (y := fun _ => 0) (ε := W) hinv' hsol (fun r hr => by
          have hr' : r < N := hr
          rw [hN, U.dim] at hr'
          obtain ⟨q, rfl⟩ := row_surj (n := tau.length) (c := s.points.cols) (h := b.dim / 2 - 1) hn hr'
          simpa [hv q] using target_le q hW0 fun i hi c hc => hW i (by omega) c hc) hj
        simpa using this
      have hy : ∀ j < N, |vecOf x j| ≤ K * (W + ε) := by
        intro j hj
        have := (abs_add_le (vecOf x j - vecOf x0 j) (vecOf x0 j)).trans (add_le_add (hd j hj) (hy0 j hj))
        rw [sub_add_cancel] at this
        linarith
      have hy0' : ∀ j < N, |vecOf x0 j| ≤ K * (W + ε) := fun j hj => (hy0 j hj).trans (mul_le_mul_of_nonneg_left (by linarith) hK0)
      have b1 := total_bound b tau.length s.points.cols Q (y := vecOf x) (z := fun k => vecOf x k - vecOf x0 k) (by positivity) hy hd
      have b2 := total_bound b tau.length s.points.cols Q (y := fun k => vecOf x k - vecOf x0 k) (z := vecOf x0) (by positivity) hd hy0'
      refine (abs_add_le _ _).trans ((add_le_add b1 b2).trans (le_of_eq ?_))
      rw [← hT]
      ring

theorem form_total (b : Basis) {n codim idx : ℕ} (hidx : idx < n) (Q : Mat) (y : Vec) :
    ∑ c ∈ range codim, Sobolev.form b.dim Q (Sobolev.part b codim y idx c) (Sobolev.part b codim y idx c) =
      Sobolev.total b n codim (fun iv => if iv = idx then Q else Mat.zero) y y := by
  unfold Sobolev.total
  symm
  rw [sum_eq_single idx]
  · simp
  · intro iv _ hne
    simp only [if_neg hne, Sobolev.form_zero, sum_const_zero]
  · intro h
    exact absurd (mem_range.mpr hidx) h

theorem total_sub_right (b : Basis) (n codim : ℕ) (Q : ℕ → Mat) (y z y' z' : Vec) :
    Sobolev.total b n codim Q y z - Sobolev.total b n codim Q y' z' =
      Sobolev.total b n codim Q y (fun k => z k - z' k) + Sobolev.total b n codim Q (fun k => y k - y' k) z' := by
  unfold Sobolev.total Sobolev.form Sobolev.part
  simp only [← sum_sub_distrib, ← sum_add_distrib]
  refine sum_congr rfl fun _ _ => sum_congr rfl fun _ _ => sum_congr rfl fun _ _ => sum_congr rfl fun _ _ => ?_
  ring

/-- The difference of two quadratic expressions whose arguments have size `p` and differ by `r`. -/
theorem total_close (b : Basis) (n codim : ℕ) (Q : ℕ → Mat) {y z y' z' : Vec} {p r : ℝ} (hp : 0 ≤ p) (hr : 0 ≤ r) (hy : ∀ k < b.dim * codim * n, |y k| ≤ p)
    (hz' : ∀ k < b.dim * codim * n, |z' k| ≤ p) (hyy : ∀ k < b.dim * codim * n, |y k - y' k| ≤ r) (hzz : ∀ k < b.dim * codim * n, |z k - z' k| ≤ r) :
    |Sobolev.total b n codim Q y z - Sobolev.total b n codim Q y' z'| ≤
      2 * (codim * ∑ iv ∈ range n, ∑ i ∈ range b.dim, ∑ j ∈ range b.dim, |Q iv i j|) * (p * r) := by
  rw [total_sub_right]
  have b1 := total_bound b n codim Q (y := y) (z := fun k => z k - z' k) hp hy hzz
  have b2 := total_bound b n codim Q (y := fun k => y k - y' k) (z := z') hr hyy hz'
  refine (abs_add_le _ _).trans ((add_le_add b1 b2).trans (le_of_eq ?_))
  ring

/-- The coefficients that a stable solver finds. -/
theorem stable_coefficients {b : Basis} (hb : Interpolable b) (codim : ℕ) {tau : List ℝ} (hne : tau ≠ []) (ht : ∀ t ∈ tau, 1 / 10 ^ 6 ≤ t) :
    ∃ c p η0 : ℝ, 0 ≤ c ∧ 0 ≤ p ∧ 0 < η0 ∧ ∀ (lu : LU) (η : ℝ), 0 ≤ η → η ≤ η0 → StableLU η (b.dim * codim * tau.length) lu →
      ∀ (w : Pts) (s : Interp) (W : ℝ), w.rows = tau.length + 1 → w.cols = codim → Reach lu codim tau.length b s → (∀ i < w.rows, ∀ c < w.cols, |w.at' i c| ≤ W) →
        ∃ s' y, s.solveInterpolation lu tau w = .ok (s', y) ∧ s'.basis = b ∧ s'.codim = codim ∧ s'.n = tau.length ∧ y.length = b.dim * codim * tau.length ∧
          Reach lu codim tau.length b s' ∧
          ∀ k < b.dim * codim * tau.length, |Sobolev.sol b tau.length codim w.at' (vecOf tau) k| ≤ p * W ∧ |vecOf y k| ≤ p * W ∧
            |vecOf y k - Sobolev.sol b tau.length codim w.at' (vecOf tau) k| ≤ c * (η * W) := by
  have U := usable_of hb.valid hb.even hb.ne hb.left hb.right
  have hn : 0 < tau.length := List.length_pos_of_ne_nil hne
  have hpos : ∀ i < tau.length, 0 < vecOf tau i := fun i hi' => vecOf_pos (fun t h => lt_of_lt_of_le (by norm_num) (ht t h)) hi'
  obtain ⟨A, inv, S0, hinv⟩ := system_inverse hb codim hne ht
  obtain ⟨N, hN⟩ : ∃ N, N = b.dim * codim * tau.length := ⟨_, rfl⟩
  obtain ⟨K, hK⟩ : ∃ K, K = ∑ i ∈ range N, ∑ r ∈ range N, |inv i r| := ⟨_, rfl⟩
  obtain ⟨M, hM⟩ : ∃ M, M = ∑ i ∈ range N, ∑ r ∈ range N, |A i r| := ⟨_, rfl⟩
  rw [← hN] at hinv ⊢
  have hK0 : 0 ≤ K := by rw [hK]; exact sum_nonneg fun i _ => sum_nonneg fun r _ => abs_nonneg _
  have hM0 : 0 ≤ M := by rw [hM]; exact sum_nonneg fun i _ => sum_nonneg fun r _ => abs_nonneg _
  obtain ⟨c, hc⟩ : ∃ c, c = 2 * (N * K * (M * (N * K) + N)) := ⟨_, rfl⟩
  have hc0 : 0 ≤ c := by rw [hc]; positivity
  refine ⟨c, K + c, min 1 (1 / (2 * (N * K * M) + 1)), hc0, by positivity, by positivity, fun lu η hη hη0 hlu w s W hw hcols hs hW => ?_⟩
  have hη1 : η ≤ 1 := hη0.trans (min_le_left _ _)
  have hη2 : η ≤ 1 / (2 * (N * K * M) + 1) := hη0.trans (min_le_right _ _)
  subst hcols
  obtain ⟨s', y, hcall, e1, e2, e3, hsucc, hyl, hy, hR⟩ := solve_any hn hb (fun m S => by
    have hAm := System.entries U hn S0 S
    rw [← hN] at hAm ⊢
    refine hlu.succeeds _ (wellConditioned (fun i hi j hj => ?_) hK ?_ hη2)
    · rw [← hinv i hi j hj]
      exact sum_congr rfl fun k hk => by rw [hAm k (mem_range.mp hk)]
    · rw [hM]
      exact sum_congr rfl fun r hr => by rw [hAm r (mem_range.mp hr)]) hs rfl ht hw rfl
  obtain ⟨h1, S, hv⟩ := call_system hn hb hs hcall
  have hI := (Sobolev.sol_spec (w := w.at') hb (codim := w.cols) hn hpos).1
  have hsol := (solves_iff U hn (fun i hi' => (hpos i hi').ne') S hv _).mpr hI
  refine ⟨s', y, hcall, e1, e2, e3, hyl.trans hN.symm, hR, fun k hk => ?_⟩
  rw [← hN] at hy hsol h1
  have hAm := System.entries U hn S0 S
  rw [← hN] at hAm
  have hinv' : ∀ i < N, ∀ j < N, ∑ k ∈ range N, inv i k * s'.mat k j = if i = j then 1 else 0 := fun i hi j hj => by
    rw [← hinv i hi j hj]
    exact sum_congr rfl fun k hk => by rw [hAm k (mem_range.mp hk)]
  have hM' : M = ∑ r ∈ range N, ∑ k ∈ range N, |s'.mat r k| := by rw [hM]; exact sum_congr rfl fun r hr => by rw [hAm r (mem_range.mp hr)]
  have hc0' : 0 < w.cols := by
    rcases Nat.eq_zero_or_pos w.cols with e | e
    · rw [hN, e] at hk; simp at hk
    · exact e
  have hW0 : 0 ≤ W := (abs_nonneg _).trans (hW 0 (by omega) 0 hc0')
  rw [h1] at hsucc
  obtain ⟨h3, h4⟩ := backward_error hinv' hK hM' hsol (hlu.stable _ s'.vec hsucc) hη hη2 (V := W) (fun r hr => by
    have hr' : r < N := hr
    rw [hN, U.dim] at hr'
    obtain ⟨q, rfl⟩ := row_surj (n := tau.length) (c := w.cols) (h := b.dim / 2 - 1) hn hr'
    rw [hv q]
    exact target_le q hW0 fun i hi c hc => hW i (by omega) c hc) hk
  rw [← hc, ← hy k hk] at h4
  have h5 : c * (η * W) ≤ c * W := mul_le_mul_of_nonneg_left (mul_le_of_le_one_left hW0 hη1) hc0
  have h6 : 0 ≤ c * W := by positivity
  refine ⟨by linarith, ?_, h4⟩
  have := (abs_add_le (vecOf y k - Sobolev.sol b tau.length w.cols w.at' (vecOf tau) k) (Sobolev.sol b tau.length w.cols w.at' (vecOf tau) k)).trans (add_le_add h4 h3)
  rw [sub_add_cancel] at this
  linarith

/-- The derivatives of the coefficients that a stable solver finds. -/
theorem stable_derivatives {b : Basis} (hb : Interpolable b) (codim : ℕ) {tau : List ℝ} (ht : ∀ t ∈ tau, 1 / 10 ^ 6 ≤ t) {idx : ℕ} (hidx : idx < tau.length) {c p : ℝ} (hc0 : 0 ≤ c)
    (hp0 : 0 ≤ p) :
    ∃ cd pd η0 : ℝ, 0 ≤ cd ∧ 0 ≤ pd ∧ 0 < η0 ∧ ∀ (lu : LU) (η : ℝ), 0 ≤ η → η ≤ η0 → StableLU η (b.dim * codim * tau.length) lu →
      ∀ (w : ℕ → ℕ → ℝ) (s : Interp) (W : ℝ), 0 ≤ W → Reach lu codim tau.length b s → ∀ y : List ℝ, y.length = b.dim * codim * tau.length →
        (∀ k < b.dim * codim * tau.length, |vecOf y k| ≤ p * W ∧ |vecOf y k - Sobolev.sol b tau.length codim w (vecOf tau) k| ≤ c * (η * W)) →
        ∃ s' d, s.coeffDerivative lu y tau idx = .ok (s', d) ∧ Reach lu codim tau.length b s' ∧
          ∀ k < b.dim * codim * tau.length, ∃ e, HasDerivAt (fun z => Sobolev.sol b tau.length codim w (Function.update (vecOf tau) idx z) k) e (vecOf tau idx) ∧
            |e| ≤ pd * W ∧ |d k - e| ≤ cd * (η * W) := by
  have U := usable_of hb.valid hb.even hb.ne hb.left hb.right
  have hn : 0 < tau.length := by omega
  have hne : tau ≠ [] := by rintro rfl; simp at hidx
  have hpos : ∀ i < tau.length, 0 < vecOf tau i := fun i hi' => vecOf_pos (fun t h => lt_of_lt_of_le (by norm_num) (ht t h)) hi'
  have hind : Independent b := by
    cases b with
    | b0101 a => exact hb.pos a rfl
    | _ => trivial
  obtain ⟨A, inv, S0, hinv⟩ := system_inverse hb codim hne ht
  obtain ⟨Cd, hCd0, hCd⟩ := C84_coefficient_derivative b hb codim tau ht idx hidx
  obtain ⟨N, hN⟩ : ∃ N, N = b.dim * codim * tau.length := ⟨_, rfl⟩
  obtain ⟨K, hK⟩ : ∃ K, K = ∑ i ∈ range N, ∑ r ∈ range N, |inv i r| := ⟨_, rfl⟩
  obtain ⟨M, hM⟩ : ∃ M, M = ∑ i ∈ range N, ∑ r ∈ range N, |A i r| := ⟨_, rfl⟩
  obtain ⟨D0, hD0⟩ : ∃ D0, D0 = derP (2 * (b.dim / 2 - 1) + 2) codim tau.length idx (bufsT b (vecOf tau)) Mat.zero := ⟨_, rfl⟩
  obtain ⟨MD, hMD⟩ : ∃ MD, MD = ∑ i ∈ range N, ∑ r ∈ range N, |D0 i r| := ⟨_, rfl⟩
  rw [← hN] at hinv ⊢
  have hK0 : 0 ≤ K := by rw [hK]; exact sum_nonneg fun i _ => sum_nonneg fun r _ => abs_nonneg _
  have hM0 : 0 ≤ M := by rw [hM]; exact sum_nonneg fun i _ => sum_nonneg fun r _ => abs_nonneg _
  have hMD0 : 0 ≤ MD := by rw [hMD]; exact sum_nonneg fun i _ => sum_nonneg fun r _ => abs_nonneg _
  obtain ⟨c1, hc1⟩ : ∃ c1, c1 = 2 * (N * K * (M * (N * K) + N)) := ⟨_, rfl⟩
  have hc10 : 0 ≤ c1 := by rw [hc1]; positivity
  obtain ⟨cε, hcε⟩ : ∃ cε, cε = (M * (N * (K + c1)) + N) * (MD * p) := ⟨_, rfl⟩
  have hcε0 : 0 ≤ cε := by rw [hcε]; positivity
  refine ⟨Cd * (cε + c), (K + c1) * (MD * p) + Cd * (cε + c), min 1 (1 / (2 * (N * K * M) + 1)), by positivity, by positivity, by positivity,
    fun lu η hη hη0 hlu w s W hW0 hs y hyl hy => ?_⟩
  have hη1 : η ≤ 1 := hη0.trans (min_le_left _ _)
  have hη2 : η ≤ 1 / (2 * (N * K * M) + 1) := hη0.trans (min_le_right _ _)
  obtain ⟨s', d, hcall, hR⟩ := coeff_any hb (fun m S => by
    have hAm := System.entries U hn S0 S
    rw [← hN] at hAm ⊢
    refine hlu.succeeds _ (wellConditioned (fun i hi j hj => ?_) hK ?_ hη2)
    · rw [← hinv i hi j hj]
      exact sum_congr rfl fun k hk => by rw [hAm k (mem_range.mp hk)]
    · rw [hM]
      exact sum_congr rfl fun r hr => by rw [hAm r (mem_range.mp hr)]) hs rfl ht hidx (hyl.trans hN)
  obtain ⟨h1, S, -, hsucc, hd, hder⟩ := call_derivative hb hs rfl hidx hcall
  rw [← hN] at h1
  refine ⟨s', d, hcall, hR, ?_⟩
  have hAm := System.entries U hn S0 S
  rw [← hN] at hAm
  have hinv' : ∀ i < N, ∀ j < N, ∑ k ∈ range N, inv i k * s'.mat k j = if i = j then 1 else 0 := fun i hi j hj => by
    rw [← hinv i hi j hj]
    exact sum_congr rfl fun k hk => by rw [hAm k (mem_range.mp hk)]
  have hM' : M = ∑ r ∈ range N, ∑ k ∈ range N, |s'.mat r k| := by rw [hM]; exact sum_congr rfl fun r hr => by rw [hAm r (mem_range.mp hr)]
  rw [h1] at hsucc hd
  obtain ⟨v, hv⟩ : ∃ v, v = (s'.ders idx).mulVec N (vecOf y) := ⟨_, rfl⟩
  rw [← hv] at hd
  -- an exact solution of the same system
  have hex := exactLU_contract.solves N s'.mat v (exactLU_contract.succeeds _ _ (by rw [hN]; exact system_invertible U hind hn hpos S))
  -- the size of the right hand side
  have hV : ∀ r < N, |v r| ≤ MD * (p * W) := by
    intro r hr
    have hrow : s'.ders idx r = D0 r := by
      have hr' := hr
      rw [hN, U.dim] at hr'
      obtain ⟨q, rfl⟩ := row_surj (n := tau.length) (c := codim) (h := b.dim / 2 - 1) hn hr'
      rw [hder q, hD0]
      exact (derP_rows _ hidx (cleanI_zero _ _ _ _) q).symm
    rw [hv]
    unfold Mat.mulVec
    rw [hrow]
    refine (abs_sum_le_sum_abs _ _).trans ?_
    calc ∑ j ∈ range N, |D0 r j * vecOf y j| ≤ ∑ j ∈ range N, |D0 r j| * (p * W) := by
          refine sum_le_sum fun j hj => ?_
          rw [abs_mul]
          exact mul_le_mul_of_nonneg_left (hy j (mem_range.mp hj)).1 (abs_nonneg _)
      _ = (∑ j ∈ range N, |D0 r j|) * (p * W) := by rw [sum_mul]
      _ ≤ MD * (p * W) := by
          rw [hMD]
          exact mul_le_mul_of_nonneg_right
            (single_le_sum (f := fun i => ∑ j ∈ range N, |D0 i j|) (fun i _ => sum_nonneg fun r _ => abs_nonneg _) (mem_range.mpr hr)) (by positivity)
  have hst := hlu.stable s'.mat v hsucc
  have hnegd : (fun k => - d k) = lu.solve N s'.mat v := by rw [hd]; funext k; simp
  have hres := backward_residual hinv' hK hM' hex hst hη hη2 hη1 hV
  rw [← hc1, ← hnegd] at hres
  have hev : ∀ᶠ z in nhds (vecOf tau idx), Interpolates b tau.length codim (Function.update (vecOf tau) idx z) w
      (Sobolev.sol b tau.length codim w (Function.update (vecOf tau) idx z)) := by
    filter_upwards [lt_mem_nhds (hpos idx hidx)] with z hz
    refine (Sobolev.sol_spec hb hn fun k hk => ?_).1
    by_cases hk' : k = idx
    · rw [hk', Function.update_self]; exact hz
    · rw [Function.update_of_ne hk']; exact hpos k hk
  intro k hk
  have hself : Function.update (vecOf tau) idx (vecOf tau idx) = vecOf tau := Function.update_eq_self _ _
  obtain ⟨e, he1, he2⟩ := hCd lu s s' y d hs hcall w (fun z => Sobolev.sol b tau.length codim w (Function.update (vecOf tau) idx z)) hev
    ((M * (N * (K + c1)) + N) * (η * (MD * (p * W)))) (c * (η * W))
    (by rw [h1]; intro k hk; rw [hself]; exact (hy k hk).2) (by rw [h1, ← hv]; exact hres) k (by rw [h1]; exact hk)
  have he3 : |d k - e| ≤ Cd * (cε + c) * (η * W) := by
    refine he2.trans (le_of_eq ?_)
    rw [hcε]; ring
  refine ⟨e, he1, ?_, he3⟩
  obtain ⟨g1, g2⟩ := backward_error hinv' hK hM' hex hst hη hη2 hV hk
  have g3 := (abs_add_le (lu.solve N s'.mat v k - exactLU.solve N s'.mat v k) (exactLU.solve N s'.mat v k)).trans (add_le_add g2 g1)
  rw [sub_add_cancel, ← hnegd, abs_neg, ← hc1] at g3
  have g4 : |e| ≤ |d k| + |d k - e| := by
    have := abs_sub_abs_le_abs_sub e (d k)
    rw [abs_sub_comm e] at this
    linarith
  have g5 : c1 * (η * (MD * (p * W))) ≤ c1 * (MD * (p * W)) := mul_le_mul_of_nonneg_left (mul_le_of_le_one_left (by positivity) hη1) hc10
  have g6 : Cd * (cε + c) * (η * W) ≤ Cd * (cε + c) * W := mul_le_mul_of_nonneg_left (mul_le_of_le_one_left hW0 hη1) (by positivity)
  calc |e| ≤ c1 * (MD * (p * W)) + K * (MD * (p * W)) + Cd * (cε + c) * W := by linarith
    _ = _ := by ring

/-- **C84** (value and gradient of the cost with a stable solver). For a basis, weights, a number of components and interval lengths there are constants such that, for every linear
solver whose backward error `η` is small enough, all way points with entries of at most `W` and all previous uses of the object: the evaluation of the cost and of its gradient
succeed, and the value and the entries of the gradient differ from those computed with an exact solver by at most a constant times `η W²`. -/
theorem C84_gradient (b : Basis) (hb : Interpolable b) (weights : List (ℕ × ℝ)) (ho : ∀ p ∈ weights, Sobolev.Adds b p.1) (ho' : ∀ p ∈ weights, Sobolev.AddsDtau b p.1) (mem : LagMem)
    (codim : ℕ) (tau : List ℝ) (hne : tau ≠ []) (ht : ∀ t ∈ tau, 1 / 10 ^ 6 ≤ t) :
    ∃ C η0 : ℝ, 0 ≤ C ∧ 0 < η0 ∧ ∀ (lu : LU) (η : ℝ), 0 ≤ η → η ≤ η0 → StableLU η (b.dim * codim * tau.length) lu →
      ∀ (w : Pts) (s : Sobolev) (buff : List ℝ) (W : ℝ), w.rows = tau.length + 1 → w.cols = codim → SReach lu w b weights mem s → tau.length ≤ buff.length →
        0 ≤ W → (∀ i < w.rows, ∀ c < w.cols, |w.at' i c| ≤ W) → ∀ lu0, LUContract lu0 → ∀ s0, SReach lu0 w b weights mem s0 →
          ∃ s1 v s2 out t1 v0 t2 out0, s.cost lu tau = .ok (s1, v) ∧ s.grad lu tau buff = .ok (s2, out) ∧
            s0.cost lu0 tau = .ok (t1, v0) ∧ s0.grad lu0 tau buff = .ok (t2, out0) ∧ |v - v0| ≤ C * (η * W ^ 2) ∧
            out.length = buff.length ∧ ∀ idx < tau.length, |vecOf out idx - vecOf out0 idx| ≤ C * (η * W ^ 2) := by
  have U := usable_of hb.valid hb.even hb.ne hb.left hb.right
  have hn : 0 < tau.length := List.length_pos_of_ne_nil hne
  obtain ⟨c, p, ηa, hc0, hp0, hηa, hcoef⟩ := stable_coefficients hb codim hne ht
  have hder : ∀ idx : Fin tau.length, _ := fun idx => stable_derivatives hb codim ht idx.2 hc0 hp0
  choose cd pd ηd hcd0 hpd0 hηd hder using hder
  obtain ⟨CD, hCD⟩ : ∃ CD, CD = ∑ i, cd i := ⟨_, rfl⟩
  obtain ⟨PD, hPD⟩ : ∃ PD, PD = ∑ i, pd i := ⟨_, rfl⟩
  have hCD0 : 0 ≤ CD := by rw [hCD]; exact sum_nonneg fun i _ => hcd0 i
  have hPD0 : 0 ≤ PD := by rw [hPD]; exact sum_nonneg fun i _ => hpd0 i
  have hCDi : ∀ i, cd i ≤ CD := fun i => by rw [hCD]; exact single_le_sum (fun i _ => hcd0 i) (mem_univ i)
  have hPDi : ∀ i, pd i ≤ PD := fun i => by rw [hPD]; exact single_le_sum (fun i _ => hpd0 i) (mem_univ i)
  obtain ⟨ηm, hηm, hηmi⟩ : ∃ ηm : ℝ, 0 < ηm ∧ ∀ i, ηm ≤ ηd i := by
    haveI : Nonempty (Fin tau.length) := ⟨⟨0, hn⟩⟩
    obtain ⟨i0, hi0⟩ := Finite.exists_min ηd
    exact ⟨ηd i0, hηd i0, hi0⟩
  obtain ⟨T, hT⟩ : ∃ T : ℝ, T = codim * ∑ iv ∈ range tau.length, ∑ i ∈ range b.dim, ∑ j ∈ range b.dim,
      |Sobolev.wsum (Sobolev.q b mem (vecOf tau iv)) weights Mat.zero i j| := ⟨_, rfl⟩
  obtain ⟨Td, hTd⟩ : ∃ Td : ℕ → ℝ, Td = fun idx => codim * ∑ iv ∈ range tau.length, ∑ i ∈ range b.dim, ∑ j ∈ range b.dim,
      |(if iv = idx then Sobolev.wsum (Sobolev.dq b mem (vecOf tau idx)) weights Mat.zero else Mat.zero) i j| := ⟨_, rfl⟩
  have hT0 : 0 ≤ T := by
    rw [hT]; exact mul_nonneg (Nat.cast_nonneg _) (sum_nonneg fun _ _ => sum_nonneg fun _ _ => sum_nonneg fun _ _ => abs_nonneg _)
  have hTd0 : ∀ idx, 0 ≤ Td idx := fun idx => by
    rw [hTd]; exact mul_nonneg (Nat.cast_nonneg _) (sum_nonneg fun _ _ => sum_nonneg fun _ _ => sum_nonneg fun _ _ => abs_nonneg _)
  obtain ⟨TD, hTD⟩ : ∃ TD, TD = ∑ idx ∈ range tau.length, Td idx := ⟨_, rfl⟩
  have hTD0 : 0 ≤ TD := by rw [hTD]; exact sum_nonneg fun _ _ => hTd0 _
  refine ⟨2 * T * (p * c) + (2 * TD * (p * c) + 2 * (2 * T * ((p + PD) * (c + CD)))), min ηa ηm, by positivity, by positivity,
    fun lu η hη hη0 hlu w s buff W hw hcols hs hbuff hW0 hW lu0 hlu0 s0 hs0 => ?_⟩
  subst hcols
  obtain ⟨hR, rfl, rfl, rfl⟩ := Sobolev.sreach_inv hs
  have hrows : s.points.rows - 1 = tau.length := by omega
  rw [hrows] at hR
  obtain ⟨t1, ht1⟩ := Sobolev.cost_eq hlu0 (by omega) hb ho hs0 hw.symm ht
  obtain ⟨t2, out0, ht2, -, hout0⟩ := Sobolev.grad_value hlu0 (by omega) hb ho ho' hs0 hw.symm ht hbuff
  obtain ⟨i, y, hcall, e1, e2, e3, hyl, hRi, hy⟩ := hcoef lu η hη (hη0.trans (min_le_left _ _)) hlu s.points s.interp W hw rfl hR hW
  -- the value
  have hcost : s.cost lu tau = .ok ({ s with interp := i },
      Sobolev.total b tau.length s.points.cols (fun iv => Sobolev.wsum (Sobolev.q b s.mem (vecOf tau iv)) s.weights Mat.zero) (vecOf y) (vecOf y)) := by
    unfold Sobolev.cost
    rw [hcall, ok_bind]
    dsimp only
    rw [e1, e2, e3, Sobolev.innerProd_ok ho rfl hyl hyl, ok_bind]
    rfl
  -- the gradient
  have hgrad : ∃ s2 out, s.grad lu tau buff = .ok (s2, out) ∧ out.length = buff.length ∧ ∀ idx < tau.length, ∃ d e : Vec,
      (∀ k < b.dim * s.points.cols * tau.length,
        HasDerivAt (fun z => Sobolev.sol b tau.length s.points.cols s.points.at' (Function.update (vecOf tau) idx z) k) (e k) (vecOf tau idx) ∧
          |e k| ≤ PD * W ∧ |d k - e k| ≤ CD * (η * W)) ∧
      vecOf out idx = Sobolev.gradFn b s.mem s.weights tau.length s.points.cols (vecOf tau) (vecOf y) d idx := by
    obtain ⟨st, hst, -, h4, h5⟩ := Sobolev.forLoopM_total (fun k (st : Interp × List ℝ) => Reach lu s.points.cols tau.length b st.1 ∧ st.2.length = buff.length ∧
        ∀ idx < k, ∃ d e : Vec,
          (∀ k < b.dim * s.points.cols * tau.length,
            HasDerivAt (fun z => Sobolev.sol b tau.length s.points.cols s.points.at' (Function.update (vecOf tau) idx z) k) (e k) (vecOf tau idx) ∧
              |e k| ≤ PD * W ∧ |d k - e k| ≤ CD * (η * W)) ∧
          vecOf st.2 idx = Sobolev.gradFn b s.mem s.weights tau.length s.points.cols (vecOf tau) (vecOf y) d idx)
        (Nat.zero_le tau.length) (Sobolev.gradStep lu s tau y) (s := (i, buff)) ⟨hRi, rfl, fun idx h => absurd h (by omega)⟩ (by
      rintro idx - hidx st ⟨hr, hl, hprev⟩
      obtain ⟨i', d, hc, hr', hd⟩ := hder ⟨idx, hidx⟩ lu η hη (hη0.trans ((min_le_right _ _).trans (hηmi _))) hlu s.points.at' st.1 W hW0 hr y hyl
        (fun k hk => ⟨(hy k hk).2.1, (hy k hk).2.2⟩)
      obtain ⟨-, g1, g2, g3⟩ := reach_inv U hn hr'
      have hsz' : i'.size = b.dim * s.points.cols * tau.length := by rw [Interp.size, g1, g2, g3]
      refine ⟨(i', st.2.set idx (Sobolev.gradFn b s.mem s.weights tau.length s.points.cols (vecOf tau) (vecOf y) d idx)), ?_, hr', by simpa using hl, ?_⟩
      · unfold Sobolev.gradStep
        rw [hc, Interp.ok_bind]
        dsimp only
        rw [rd_ok hidx, Interp.ok_bind, g1, g2, g3, Sobolev.matrixDtau_ok ho', Interp.ok_bind]
        rw [Sobolev.forLoopM_add (f := fun c => Sobolev.form b.dim (Sobolev.wsum (Sobolev.dq b s.mem (vecOf tau idx)) s.weights Mat.zero)
          (Sobolev.part b s.points.cols (vecOf y) idx c) (Sobolev.part b s.points.cols (vecOf y) idx c))]
        · rw [Interp.ok_bind, Sobolev.innerProd_ok ho rfl hyl (by rw [List.length_map, List.length_range, hsz']), Interp.ok_bind, if_pos (by omega), zero_add]
          rw [Sobolev.total_congr (fun _ _ _ _ _ _ => rfl) (fun _ _ => rfl) (z' := d) (fun k hk => vecOf_map_range (by rw [hsz']; exact hk))]
          rfl
        · intro c hc' r
          obtain ⟨l, hl1, hl2⟩ := Sobolev.seg_ok hyl hidx hc'
          rw [hl1, Interp.ok_bind]
          rw [Sobolev.form_congr (fun _ _ _ _ => rfl) hl2 hl2]; rfl
      · intro k hk
        rw [Sobolev.vecOf_set (by omega)]
        by_cases hk' : k = idx
        · subst hk'
          rw [Function.update_self]
          have hex : ∀ k' : ℕ, ∃ e : ℝ, k' < b.dim * s.points.cols * tau.length →
              HasDerivAt (fun z => Sobolev.sol b tau.length s.points.cols s.points.at' (Function.update (vecOf tau) k z) k') e (vecOf tau k) ∧
                |e| ≤ PD * W ∧ |d k' - e| ≤ CD * (η * W) := by
            intro k'
            by_cases h' : k' < b.dim * s.points.cols * tau.length
            · obtain ⟨e, q1, q2, q3⟩ := hd k' h'
              exact ⟨e, fun _ => ⟨q1, q2.trans (mul_le_mul_of_nonneg_right (hPDi _) hW0), q3.trans (mul_le_mul_of_nonneg_right (hCDi _) (by positivity))⟩⟩
            · exact ⟨0, fun h => absurd h h'⟩
          choose e he using hex
          exact ⟨d, e, he, rfl⟩
        · rw [Function.update_of_ne hk']; exact hprev k (by omega))
    refine ⟨{ s with interp := st.1 }, st.2, ?_, h4, h5⟩
    unfold Sobolev.grad
    rw [hcall, Interp.ok_bind]
    dsimp only
    rw [e3, hst, Interp.ok_bind]
    rfl
  obtain ⟨s2, out, hgrad, hol, hout⟩ := hgrad
  refine ⟨_, _, s2, out, t1, _, t2, out0, hcost, hgrad, ht1, ht2, ?_, hol, fun idx hidx => ?_⟩
  · have := total_close b tau.length s.points.cols (fun iv => Sobolev.wsum (Sobolev.q b s.mem (vecOf tau iv)) s.weights Mat.zero) (p := p * W) (r := c * (η * W))
      (by positivity) (by positivity) (fun k hk => (hy k hk).2.1) (fun k hk => (hy k hk).1) (fun k hk => (hy k hk).2.2) (fun k hk => (hy k hk).2.2)
    refine this.trans ?_
    rw [← hT, show 2 * T * (p * W * (c * (η * W))) = 2 * T * (p * c) * (η * W ^ 2) by ring]
    refine mul_le_mul_of_nonneg_right ?_ (by positivity)
    have : 0 ≤ 2 * TD * (p * c) + 2 * (2 * T * ((p + PD) * (c + CD))) := by positivity
    linarith
  · obtain ⟨d, e, hde, ho1⟩ := hout idx hidx
    obtain ⟨d0, hd0, ho2⟩ := hout0 idx hidx
    have hed : ∀ k < b.dim * s.points.cols * tau.length, e k = d0 k := fun k hk => (hde k hk).1.unique (hd0 k hk)
    rw [ho1, ho2]
    unfold Sobolev.gradFn
    rw [form_total b hidx, form_total b hidx]
    have b1 := total_close b tau.length s.points.cols (fun iv => if iv = idx then Sobolev.wsum (Sobolev.dq b s.mem (vecOf tau idx)) s.weights Mat.zero else Mat.zero)
      (p := p * W) (r := c * (η * W))
      (by positivity) (by positivity) (fun k hk => (hy k hk).2.1) (fun k hk => (hy k hk).1) (fun k hk => (hy k hk).2.2) (fun k hk => (hy k hk).2.2)
    have b2 := total_close b tau.length s.points.cols (fun iv => Sobolev.wsum (Sobolev.q b s.mem (vecOf tau iv)) s.weights Mat.zero) (y := vecOf y) (z := d)
      (y' := Sobolev.sol b tau.length s.points.cols s.points.at' (vecOf tau)) (z' := d0) (p := (p + PD) * W) (r := (c + CD) * (η * W)) (by positivity) (by positivity)
      (fun k hk => (hy k hk).2.1.trans (mul_le_mul_of_nonneg_right (by linarith) hW0))
      (fun k hk => by rw [← hed k hk]; exact (hde k hk).2.1.trans (mul_le_mul_of_nonneg_right (by linarith) hW0))
      (fun k hk => (hy k hk).2.2.trans (mul_le_mul_of_nonneg_right (by linarith) (by positivity)))
      (fun k hk => by rw [← hed k hk]; exact (hde k hk).2.2.trans (mul_le_mul_of_nonneg_right (by linarith) (by positivity)))
    rw [← hT] at b2
    have hTi : Td idx ≤ TD := by rw [hTD]; exact single_le_sum (fun i _ => hTd0 i) (mem_range.mpr hidx)
    have b3 := b1.trans (show _ ≤ 2 * TD * (p * W * (c * (η * W))) from by
      have : Td idx * (p * W * (c * (η * W))) ≤ TD * (p * W * (c * (η * W))) := mul_le_mul_of_nonneg_right hTi (by positivity)
      rw [hTd] at this
      dsimp only at this
      linarith)
    rw [show ∀ x1 x2 x3 x4 : ℝ, x1 + 2 * x2 - (x3 + 2 * x4) = (x1 - x3) + 2 * (x2 - x4) from fun _ _ _ _ => by ring]
    refine (abs_add_le _ _).trans ?_
    rw [abs_mul, abs_two]
    have : 0 ≤ 2 * T * (p * c) * (η * W ^ 2) := by positivity
    calc _ ≤ 2 * TD * (p * W * (c * (η * W))) + 2 * (2 * T * ((p + PD) * W * ((c + CD) * (η * W)))) := by linarith
      _ ≤ 2 * T * (p * c) * (η * W ^ 2) + (2 * TD * (p * W * (c * (η * W))) + 2 * (2 * T * ((p + PD) * W * ((c + CD) * (η * W))))) := by linarith
      _ = _ := by ring

/-! ## Concrete cases -/

/-- A linear solver that is not exact: every equation is missed by `e`. -/
noncomputable def offLU (e : ℝ) : LU := ⟨exactLU.succeeds, fun size m v => exactLU.solve size m fun r => v r + e⟩

theorem offLU_residual (e : ℝ) {size : ℕ} {m : Mat} {v : Vec} (h : (offLU e).succeeds size m = true) : SolvesWithin |e| size m ((offLU e).solve size m v) v := by
  intro r hr
  have := exactLU_contract.solves size m (fun r => v r + e) h r hr
  unfold offLU
  simp only
  rw [this, add_sub_cancel_left]

/-- A new interpolator for three way points in the plane and the Legendre basis of dimension four. -/
def newInterp : Interp := ⟨.legendre 4, 2, 2, Mat.zero, fun _ => 0, fun _ => 0, fun _ => Mat.zero, []⟩

theorem newInterp_reach (lu : LU) : Reach lu 2 2 (.legendre 4) newInterp := Reach.make (junk := fun _ => 0) rfl

theorem off_solve (e : ℝ) : ∃ s x, newInterp.solveInterpolation (offLU e) [1, 2] corner = .ok (s, x) ∧ (offLU e).succeeds s.size s.mat = true ∧ x.length = s.size ∧
    s.basis = .legendre 4 ∧ s.n = 2 ∧ s.codim = 2 ∧ s.sol = x ∧ SolvesWithin |e| s.size s.mat (vecOf x) s.vec := by
  obtain ⟨s1, x1, h1, e1, e2, e3, -, -, -⟩ := Sobolev.solve_total exactLU_contract (by norm_num) interpolable4 (newInterp_reach exactLU) (tau := [1, 2]) rfl (by simp; norm_num)
    (w := corner) rfl rfl
  obtain ⟨g1, hm, hv, -, -, -, -, -, -⟩ := solve_ok h1
  have hsucc := (C40_never_stale_partial exactLU exactLU_contract 2 2 (by norm_num) _ interpolable4.valid interpolable4.even interpolable4.ne interpolable4.left
    interpolable4.right interpolable4.pos _ _ (newInterp_reach exactLU) _ _ _ h1).1
  have hoff : (offLU e).succeeds newInterp.size s1.mat = true := hsucc
  have hsz : ∀ l, Interp.size { newInterp with mat := s1.mat, vec := s1.vec, sol := l } = newInterp.size := fun _ => rfl
  refine ⟨{ newInterp with mat := s1.mat, vec := s1.vec, sol := (List.range newInterp.size).map ((offLU e).solve newInterp.size s1.mat s1.vec) }, _, ?_, hoff, ?_, rfl, rfl, rfl,
    rfl, ?_⟩
  · unfold solveInterpolation
    rw [if_neg (by push Not; exact g1), hm, ok_bind, hv, ok_bind]
    dsimp only
    rw [if_pos (show (offLU e).succeeds (Interp.size { newInterp with mat := s1.mat, vec := s1.vec }) s1.mat = true from hoff)]
    rfl
  · simp [hsz]
  · intro r hr
    have := offLU_residual e (v := s1.vec) hoff r hr
    refine le_of_eq_of_le ?_ this
    simp only [hsz]
    congr 2

theorem off_interpolate (e : ℝ) : ∃ s g, newInterp.interpolate (offLU e) [1, 2] corner = .ok (s, g) ∧ SolvesWithin |e| s.size s.mat (vecOf g.coeffs) s.vec := by
  obtain ⟨s, x, h, -, hl, hb, hn, hc, -, hr⟩ := off_solve e
  refine ⟨s, ⟨(0, ([1, 2] : List ℝ).sum), s.codim, s.basis, x, [1, 2]⟩, ?_, hr⟩
  unfold Interp.interpolate
  rw [h, ok_bind]
  dsimp only
  rw [GSpline.make_ok (by norm_num) (by rw [hl]; unfold Interp.size; ring), ok_bind]
  rfl

/-- The hypotheses of `C84_conditions` are met: with this solver the spline through `corner` is within `|e|` of the way points. -/
example (e : ℝ) : ∃ s g, newInterp.interpolate (offLU e) [1, 2] corner = .ok (s, g) ∧ MeetsWithin |e| g corner.at' := by
  obtain ⟨s, g, h, hr⟩ := off_interpolate e
  exact ⟨s, g, h, (C84_conditions (offLU e) 2 2 (by norm_num) _ interpolable4 _ _ (newInterp_reach _) _ _ _ h _ hr).2.2.2.2⟩

/-- The hypotheses of `C84_close` are met: the splines of these solvers converge to the exact spline, with their derivatives up to order three. -/
example : ∃ C g0, interpolateFn exactLU (fun _ => 0) [1, 2] corner (.legendre 4) = .ok g0 ∧
    ∀ e : ℝ, ∃ s g, newInterp.interpolate (offLU e) [1, 2] corner = .ok (s, g) ∧ CloseUpTo 3 (C * |e|) g g0 := by
  obtain ⟨C, -, hC⟩ := C84_close (.legendre 4) interpolable4 2 [1, 2] (by simp) (by simp; norm_num) 3
  obtain ⟨g0, hg0⟩ := corner_ok (fun _ => 0) interpolable4
  refine ⟨C, g0, hg0, fun e => ?_⟩
  obtain ⟨s, g, h, hr⟩ := off_interpolate e
  exact ⟨s, g, h, hC _ _ _ _ _ (newInterp_reach _) rfl rfl h _ hr exactLU exactLU_contract _ _ hg0⟩

/-- The hypotheses of `C84_backward` are met: the backward error of these solvers is at most `|e|`, because one of the entries of the way points is one. -/
example : ∃ C η0 g0, 0 < η0 ∧ interpolateFn exactLU (fun _ => 0) [1, 2] corner (.legendre 4) = .ok g0 ∧
    ∀ e : ℝ, |e| ≤ η0 → ∃ s g, newInterp.interpolate (offLU e) [1, 2] corner = .ok (s, g) ∧ CloseUpTo 3 (C * (|e| * 4)) g g0 := by
  obtain ⟨C, η0, -, hη0, hC⟩ := C84_backward (.legendre 4) interpolable4 2 [1, 2] (by simp) (by simp; norm_num) 3
  obtain ⟨g0, hg0⟩ := corner_ok (fun _ => 0) interpolable4
  refine ⟨C, η0, g0, hη0, hg0, fun e he => ?_⟩
  obtain ⟨s, g, h, hr⟩ := off_interpolate e
  refine ⟨s, g, h, hC _ _ _ _ _ (newInterp_reach _) rfl rfl h |e| (abs_nonneg _) he ?_ 4 ?_ exactLU exactLU_contract _ _ hg0⟩
  · obtain ⟨x, hx, -⟩ := call_spline (by norm_num) interpolable4 (newInterp_reach _) h
    obtain ⟨hsz, -, hv⟩ := call_system (by norm_num) interpolable4 (newInterp_reach _) hx
    intro r hr'
    refine (hr r hr').trans (le_mul_of_one_le_right (abs_nonneg _) ?_)
    have hq := row_lt (n := 2) (c := 2) (h := 1) (by norm_num) (.start 1 0)
    have h1 : |s.vec (row 2 2 1 (.start 1 0))| = 1 := by
      have := hv (.start 1 0)
      simp only [Basis.dim] at this
      rw [this]
      simp [Cond.target, corner]
    have h2 := single_le_sum (f := fun r => |s.vec r|) (s := range s.size) (fun _ _ => abs_nonneg _) (mem_range.mpr (lt_of_lt_of_eq hq (by rw [hsz]; rfl)))
    have h3 : 0 ≤ (∑ r ∈ range s.size, ∑ k ∈ range s.size, |s.mat r k|) * ∑ k ∈ range s.size, |vecOf g.coeffs k| :=
      mul_nonneg (sum_nonneg fun _ _ => sum_nonneg fun _ _ => abs_nonneg _) (sum_nonneg fun _ _ => abs_nonneg _)
    simp only [h1] at h2
    linarith
  · intro i hi c hc
    have hc' : c < 2 := hc
    have hi' : i < 3 := hi
    interval_cases i <;> interval_cases c <;> norm_num [corner]

/-- The hypotheses of `C84_cost` are met. -/
example (mem : LagMem) : ∃ C v0 s0, Sobolev.cost exactLU ⟨newInterp, [(1, 1)], corner, mem⟩ [1, 2] = .ok (s0, v0) ∧
    ∀ e : ℝ, ∃ s v, Sobolev.cost (offLU e) ⟨newInterp, [(1, 1)], corner, mem⟩ [1, 2] = .ok (s, v) ∧ |v - v0| ≤ C * ((4 + |e|) * |e|) := by
  obtain ⟨C, -, hC⟩ := C84_cost (.legendre 4) interpolable4 [(1, 1)] (by simp [Sobolev.Adds]) mem 2 [1, 2] (by simp) (by simp; norm_num)
  have hS : ∀ lu, SReach lu corner (.legendre 4) [(1, 1)] mem ⟨newInterp, [(1, 1)], corner, mem⟩ := fun lu => SReach.make (junk := fun _ => 0) rfl
  obtain ⟨s0, x0, h0, -⟩ := Sobolev.cost_value exactLU_contract (w := corner) (by decide) interpolable4 (by simp [Sobolev.Adds]) (hS exactLU) (tau := [1, 2]) rfl (by simp; norm_num)
  refine ⟨C, _, s0, h0, fun e => ?_⟩
  obtain ⟨s, x, h, hsucc, hl, hb, hn, hc, hsol, hr⟩ := off_solve e
  have hcost : Sobolev.cost (offLU e) ⟨newInterp, [(1, 1)], corner, mem⟩ [1, 2] =
      .ok (⟨s, [(1, 1)], corner, mem⟩, Sobolev.total (.legendre 4) 2 2 (fun iv => Sobolev.wsum (Sobolev.q (.legendre 4) mem (vecOf [1, 2] iv)) [(1, 1)] Mat.zero) (vecOf x) (vecOf x)) := by
    have hl' : x.length = (Basis.legendre 4).dim * 2 * 2 := by rw [hl]; unfold Interp.size; rw [hb, hn, hc]
    unfold Sobolev.cost
    rw [h, ok_bind]
    dsimp only
    rw [hb, hn, hc, Sobolev.innerProd_ok (mem := mem) (ws := [(1, 1)]) (tau := [1, 2]) (by simp [Sobolev.Adds]) (show ([1, 2] : List ℝ).length = 2 from rfl) hl' hl', ok_bind]
    rfl
  refine ⟨_, _, hcost, hC _ _ _ _ _ rfl rfl (hS _) hcost hsucc |e| 4 (by rw [← hsol] at hr; exact hr) ?_ _ exactLU_contract _ _ _ (hS exactLU) h0⟩
  intro i hi c hc
  have hc' : c < 2 := hc
  have hi' : i < 3 := hi
  interval_cases i <;> interval_cases c <;> norm_num [corner]

/-- The hypotheses of `C84_coefficient_derivative` are met. -/
example : ∃ (C : ℝ) (Y : ℝ → ℕ → ℝ), ∀ e : ℝ, ∃ s d,
    newInterp.coeffDerivative (offLU e) ((List.range 16).map fun k => Y 2 k + e) [1, 2] 1 = .ok (s, d) ∧
      ∀ k < 16, ∃ v, HasDerivAt (fun z => Y z k) v 2 ∧ |d k - v| ≤ C * (|e| + |e|) := by
  obtain ⟨C, -, hC⟩ := C84_coefficient_derivative (.legendre 4) interpolable4 2 [1, 2] (by simp; norm_num) 1 (by simp)
  have hex : ∀ z : ℝ, ∃ y : ℕ → ℝ, 0 < z → Interpolates (.legendre 4) 2 2 (Function.update (vecOf [1, 2]) 1 z) corner.at' y := by
    intro z
    by_cases hz : 0 < z
    · obtain ⟨y, hy, -⟩ := C57_unique_solution 2 2 (by norm_num) (.legendre 4) interpolable4.valid rfl (by decide) trivial trivial (by simp) (Function.update (vecOf [1, 2]) 1 z)
        (by intro i hi; interval_cases i <;> simp [vecOf, hz]) corner.at'
      exact ⟨y, fun _ => hy⟩
    · exact ⟨fun _ => 0, fun h => absurd h hz⟩
  choose Y hY using hex
  have hev : ∀ᶠ z in nhds (vecOf [1, 2] 1), Interpolates (.legendre 4) 2 2 (Function.update (vecOf [1, 2]) 1 z) corner.at' (Y z) := by
    filter_upwards [lt_mem_nhds (show (0 : ℝ) < vecOf [1, 2] 1 by simp [vecOf])] with z hz using hY z hz
  refine ⟨C, Y, fun e => ?_⟩
  have hsz : newInterp.size = 16 := rfl
  have h12 : vecOf [1, 2] 1 = 2 := by simp [vecOf]
  -- the exact call shows that the matrices can be filled
  obtain ⟨s1, d1, hcall, -⟩ := C39_coefficient_derivative exactLU exactLU_contract 2 2 (.legendre 4) interpolable4.valid rfl (by decide) trivial trivial (by simp) _
    (newInterp_reach exactLU) [1, 2] rfl (by simp; norm_num) 1 (by norm_num) corner.at' Y hev
  rcases coeff_ok hcall with ⟨-, -, hbad⟩ | ⟨ht, -, -, -, hsucc, hmat, e1, e2, e3, -, D, hD, hders, -⟩
  · rcases hbad with h | h
    · exact absurd rfl h
    · exact absurd (show (2 : ℕ) ≤ 1 from h) (by norm_num)
  have hoff : (offLU e).succeeds newInterp.size s1.mat = true := hsucc
  set y : List ℝ := (List.range 16).map fun k => Y 2 k + e with hy
  have hnew : newInterp.coeffDerivative (offLU e) y [1, 2] 1 =
      .ok ({ newInterp with mat := s1.mat, ders := setAt newInterp.ders 1 D,
                            coef := fun i => - (offLU e).solve newInterp.size s1.mat (D.mulVec newInterp.size (vecOf y)) i },
        fun i => - (offLU e).solve newInterp.size s1.mat (D.mulVec newInterp.size (vecOf y)) i) := by
    unfold coeffDerivative
    rw [if_neg (by push Not; exact ht), if_neg (by push Not; exact ⟨rfl, show (1 : ℕ) < 2 by norm_num⟩), hD, ok_bind, if_neg (by rw [hsz, hy]; simp), hmat, ok_bind, if_pos hoff]
    rfl
  refine ⟨_, _, hnew, ?_⟩
  have := hC (offLU e) _ _ _ _ (newInterp_reach _) hnew corner.at' Y hev |e| |e| ?_ ?_
  · intro k hk
    have h' := this k hk
    rw [h12] at h'
    exact h'
  · intro k hk
    have hk' : k < 16 := hk
    rw [hy, vecOf_map_range hk', h12, add_sub_cancel_left]
  · have := offLU_residual e (v := D.mulVec newInterp.size (vecOf y)) hoff
    simp only [neg_neg]
    have hd : setAt newInterp.ders 1 D 1 = D := by simp [setAt]
    simp only [hd]
    exact this

/-- A linear solver with backward error `η`: its answers are too small by the factor `1 - η`. -/
noncomputable def shrunkLU (η : ℝ) : LU := ⟨exactLU.succeeds, fun size m v k => (1 - η) * exactLU.solve size m v k⟩

theorem shrunkLU_stable {η : ℝ} (hη : 0 ≤ η) (size : ℕ) : StableLU η size (shrunkLU η) := by
  refine ⟨fun m ⟨inv, h, _⟩ => exactLU_contract.succeeds size m ⟨inv, h⟩, fun m v h r hr => ?_⟩
  have := exactLU_contract.solves size m v h r hr
  unfold shrunkLU
  simp only
  rw [show ∑ k ∈ range size, m r k * ((1 - η) * exactLU.solve size m v k) = (1 - η) * ∑ k ∈ range size, m r k * exactLU.solve size m v k by
    rw [mul_sum]; exact sum_congr rfl fun k _ => by ring, this, show (1 - η) * v r - v r = -(η * v r) by ring, abs_neg, abs_mul, abs_of_nonneg hη]
  refine mul_le_mul_of_nonneg_left ?_ hη
  have h1 := single_le_sum (f := fun r => |v r|) (s := range size) (fun _ _ => abs_nonneg _) (mem_range.mpr hr)
  have h2 : 0 ≤ (∑ r ∈ range size, ∑ k ∈ range size, |m r k|) * ∑ k ∈ range size, |(1 - η) * exactLU.solve size m v k| :=
    mul_nonneg (sum_nonneg fun _ _ => sum_nonneg fun _ _ => abs_nonneg _) (sum_nonneg fun _ _ => abs_nonneg _)
  linarith

/-- The hypotheses of `C84_gradient` are met by these solvers: the gradient converges to the gradient that an exact solver gives. -/
example (mem : LagMem) : ∃ C η0 : ℝ, 0 < η0 ∧ ∀ η, 0 ≤ η → η ≤ η0 → ∃ s1 out t1 out0,
    Sobolev.grad (shrunkLU η) ⟨newInterp, [(1, 1)], corner, mem⟩ [1, 2] [0, 0] = .ok (s1, out) ∧
      Sobolev.grad exactLU ⟨newInterp, [(1, 1)], corner, mem⟩ [1, 2] [0, 0] = .ok (t1, out0) ∧ ∀ idx < 2, |vecOf out idx - vecOf out0 idx| ≤ C * (η * 4 ^ 2) := by
  obtain ⟨C, η0, -, hη0, hC⟩ := C84_gradient (.legendre 4) interpolable4 [(1, 1)] (by simp [Sobolev.Adds]) (by simp [Sobolev.AddsDtau]) mem 2 [1, 2] (by simp) (by simp; norm_num)
  have hS : ∀ lu, SReach lu corner (.legendre 4) [(1, 1)] mem ⟨newInterp, [(1, 1)], corner, mem⟩ := fun lu => SReach.make (junk := fun _ => 0) rfl
  refine ⟨C, η0, hη0, fun η h1 h2 => ?_⟩
  obtain ⟨-, -, s2, out, -, -, t2, out0, -, g1, -, g2, -, -, g3⟩ := hC (shrunkLU η) η h1 h2 (shrunkLU_stable h1 _) corner _ [0, 0] 4 rfl rfl (hS _) (by simp) (by norm_num)
    (by
      intro i hi c hc
      have hc' : c < 2 := hc
      have hi' : i < 3 := hi
      interval_cases i <;> interval_cases c <;> norm_num [corner]) exactLU exactLU_contract _ (hS _)
  exact ⟨s2, out, t2, out0, g1, g2, g3⟩

end GSplines.Props
