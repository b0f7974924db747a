import Verif.Proofs.SobolevMemory

/-!
# C41, C42: the Sobolev cost and its gradient
-/

namespace GSplines.Props

open GSplines Spec Finset Sobolev

/-! ## C41 -/

theorem right_adds {b : Basis} {k : ℕ} (h : RightOrder b k) : Adds b k := by
  cases b with
  | b0101 a => rcases h with h | h | h <;> simp [Adds, h]
  | _ => trivial

/-- For the right orders the matrix that is added is the matrix of the integrals. -/
theorem q_gram {b : Basis} (hb : Interpolable b) {k : ℕ} (h : RightOrder b k) (mem : LagMem) {t : ℝ} (ht : 0 < t) {i j : ℕ} (hi : i < b.dim) (hj : j < b.dim) :
    q b mem t k i j = gram (basisFn b t) t k i j := by
  cases b with
  | legendre d =>
    have := C24_legendre_sobolev_partial d k t ht h Mat.zero i j hi hj
    rw [show (Mat.zero i j : ℝ) = 0 from rfl, zero_add] at this
    exact this
  | lagrange x =>
    have hd : Lagrange.Distinct x.length (vecOf x) := by
      intro a ha c hc hac
      exact hb.valid a (by simpa using ha) c (by simpa using hc) (by rw [hac]; exact Lagrange.almostEqual_self _ _ (by norm_num [tol9]))
    have := C56_lagrange_sobolev_partial x.length (vecOf x) mem.w mem.junk hd k h t ht.ne' Mat.zero i j hi hj
    rw [show (Mat.zero i j : ℝ) = 0 from rfl, zero_add] at this
    exact this
  | b0101 a =>
    have hk : k ≤ 3 ∧ k ≠ 2 := by rcases h with h | h | h <;> simp [h]
    obtain ⟨R, hR, hR'⟩ := (C31_basis0101_sobolev_partial a (hb.pos a rfl) hb.valid.2 t ht.ne' Mat.zero k hk.2).1 hk.1
    have := hR' i hi j hj
    rw [show (Mat.zero i j : ℝ) = 0 from rfl, zero_add] at this
    simp only [q, Basis.addDerivMatrix, hR]
    exact this

/-- The integral over one interval of the spline. -/
theorem integral_curve (g : GSpline) {i : ℕ} (hi : i < g.tau.length) (c k : ℕ) :
    ∫ t in (brk g i)..(brk g (i + 1)), iteratedDeriv k (curve g i c) t ^ 2
      = ∫ t in (0 : ℝ)..(vecOf g.tau i), iteratedDeriv k (comb g.basis (vecOf g.tau i) (part g.basis g.codim (vecOf g.coeffs) i c)) t ^ 2 := by
  simp only [iteratedDeriv_curve]
  rw [intervalIntegral.integral_comp_sub_right (fun t => iteratedDeriv k (piece g.basis g.codim (vecOf g.tau) (vecOf g.coeffs) i c) t ^ 2) (brk g i),
    GSpline.brk_succ g hi, sub_self, add_sub_cancel_left]
  rfl

theorem total_energy {b : Basis} (hb : Interpolable b) {mem : LagMem} {ws : List (ℕ × ℝ)} (hr : ∀ p ∈ ws, RightOrder b p.1) {g : GSpline} (hgb : g.basis = b)
    (hp : ∀ t ∈ g.tau, 0 < t) :
    total b g.tau.length g.codim (fun iv => wsum (q b mem (vecOf g.tau iv)) ws Mat.zero) (vecOf g.coeffs) (vecOf g.coeffs) = sobolevCost g (effective ws) := by
  subst hgb
  have h1 : total g.basis g.tau.length g.codim (fun iv => wsum (q g.basis mem (vecOf g.tau iv)) ws Mat.zero) (vecOf g.coeffs) (vecOf g.coeffs)
      = ∑ iv ∈ range g.tau.length, ∑ c ∈ range g.codim, ((effective ws).map fun p => p.2 * ∫ t in (brk g iv)..(brk g (iv + 1)), iteratedDeriv p.1 (curve g iv c) t ^ 2).sum := by
    unfold total
    refine sum_congr rfl fun iv hiv => sum_congr rfl fun c _ => ?_
    rw [mem_range] at hiv
    have hpos : 0 < vecOf g.tau iv := vecOf_pos hp hiv
    simp only [integral_curve g hiv, ← form_gram]
    rw [← form_sum]
    refine form_congr (fun i hi j hj => ?_) (fun _ _ => rfl) (fun _ _ => rfl)
    rw [wsum_congr (fun p hp => q_gram hb (hr p hp) mem hpos hi hj) Mat.zero Mat.zero rfl, wsum_effective]
    simp [Mat.zero]
  rw [h1]
  unfold sobolevCost energy
  induction effective ws with
  | nil => simp
  | cons p ps ih => simp only [List.map_cons, List.sum_cons, sum_add_distrib, ih, mul_sum]

/-- The spline of `interpolate` and the value of the cost are computed from the same coefficients. -/
theorem cost_spline {lu : LU} (hlu : LUContract lu) {w : Pts} (hw : 2 ≤ w.rows) {b : Basis} (hb : Interpolable b) {ws : List (ℕ × ℝ)}
    (ho : ∀ p ∈ ws, Adds b p.1) {mem : LagMem} {s : Sobolev} (hs : SReach lu w b ws mem s) {tau : List ℝ} (hlen : tau.length + 1 = w.rows)
    (ht : ∀ t ∈ tau, 1 / 10 ^ 6 ≤ t) (junk : Vec) :
    ∃ s' g, interpolateFn lu junk tau w b = .ok g ∧ g.tau = tau ∧ g.codim = w.cols ∧ g.basis = b ∧
      s.cost lu tau = .ok (s', total b tau.length w.cols (fun iv => wsum (q b mem (vecOf tau iv)) ws Mat.zero) (vecOf g.coeffs) (vecOf g.coeffs)) ∧
      Interpolates b tau.length w.cols (vecOf tau) w.at' (vecOf g.coeffs) := by
  have hmk : Interp.make w.cols (w.rows - 1) b junk = .ok ⟨b, w.cols, w.rows - 1, Mat.zero, fun _ => 0, junk, fun _ => Mat.zero, []⟩ := by
    unfold Interp.make
    rw [if_neg (by have := hb.even; omega), if_neg hb.ne]
  have hn : tau.length = w.rows - 1 := by omega
  have hpos : ∀ t ∈ tau, 0 < t := fun t h => lt_of_lt_of_le (by norm_num) (ht t h)
  obtain ⟨i, y, h1, e1, e2, e3, e4, -, h2⟩ := solve_total hlu (by omega) hb (Reach.make hmk) hn ht (by omega) rfl
  obtain ⟨g, hg, -, g2, g3, g4, -⟩ := C57_interpolate_function lu hlu junk b hb.valid hb.even hb.ne hb.left hb.right hb.pos tau (by rintro rfl; simp at hlen; omega) ht w (by omega)
  have hgc : g.coeffs = y := by
    unfold interpolateFn at hg
    rw [if_neg (by omega), hmk, Interp.ok_bind] at hg
    unfold Interp.interpolate at hg
    rw [h1, Interp.ok_bind] at hg
    dsimp only at hg
    cases hm : GSpline.make (0, tau.sum) i.codim i.n i.basis y tau with
    | error e => rw [hm] at hg; cases hg
    | ok g' =>
      rw [hm] at hg
      simp only [Interp.ok_bind] at hg
      cases hg
      unfold GSpline.make at hm
      split_ifs at hm
      cases hm; rfl
  obtain ⟨s', x, hc, hx, hI⟩ := cost_value hlu hw hb ho hs hlen ht
  obtain ⟨-, hu⟩ := sol_spec hb (n := tau.length) (codim := w.cols) (w := w.at') (tau := vecOf tau) (by omega) (fun k hk => vecOf_pos hpos hk)
  rw [← hn] at h2
  have hxy : ∀ k < b.dim * w.cols * tau.length, vecOf x k = vecOf g.coeffs k := by
    intro k hk
    rw [hgc, hu _ hI k hk, hu _ h2 k hk]
  refine ⟨s', g, hg, g2, g3, g4, ?_, by rw [hgc]; exact h2⟩
  rw [hc, total_congr (fun _ _ _ _ _ _ => rfl) hxy hxy]

/-- **C41** (what the code computes): in every state of a `SobolevNorm` object, for every list of weights whose orders have a right Sobolev matrix, and all
interval lengths of at least `1e-6`, the call succeeds and returns the sum of weight times energy of the spline that `interpolate` returns for the same data,
where every weight has been multiplied by the weights that follow it in the list. -/
theorem C41_effective_weights (lu : LU) (hlu : LUContract lu) (w : Pts) (hw : 2 ≤ w.rows) (b : Basis) (hb : Interpolable b) (weights : List (ℕ × ℝ))
    (hr : ∀ p ∈ weights, RightOrder b p.1) (mem : LagMem) (s : Sobolev) (hs : SReach lu w b weights mem s) (tau : List ℝ) (hlen : tau.length + 1 = w.rows)
    (ht : ∀ t ∈ tau, 1 / 10 ^ 6 ≤ t) (junk : Vec) :
    ∃ s' g v, interpolateFn lu junk tau w b = .ok g ∧ Meets g w.at' ∧ g.tau = tau ∧ s.cost lu tau = .ok (s', v) ∧ v = sobolevCost g (effective weights) := by
  obtain ⟨s', g, h1, h2, h3, h4, h5, -⟩ := cost_spline hlu hw hb (fun p hp => right_adds (hr p hp)) hs hlen ht junk
  obtain ⟨g', hg', -, -, -, -, hm⟩ := C57_interpolate_function lu hlu junk b hb.valid hb.even hb.ne hb.left hb.right hb.pos tau (by rintro rfl; simp at hlen; omega) ht w (by omega)
  obtain rfl : g = g' := by rw [h1] at hg'; cases hg'; rfl
  refine ⟨s', g, _, h1, hm, h2, h5, ?_⟩
  rw [← total_energy (mem := mem) hb hr h4 (by rw [h2]; exact fun t h => lt_of_lt_of_le (by norm_num) (ht t h)), h2, h3]

/-- **C41**, partial: the value is `Σ_k w_k ∫ ‖q⁽ᵏ⁾‖²` when every weight but the first is one (in particular for a single weight), for the orders whose
Sobolev matrix is right. Missing: other lists of weights (`C41_two_weights_false`) and the orders `1 … dim - 1` of Legendre bases (`C41_legendre_false`),
order 2 of Basis0101 and the orders below `dim` of Lagrange bases, whose matrices are not the integrals. -/
theorem C41_sobolev_norm_partial (lu : LU) (hlu : LUContract lu) (w : Pts) (hw : 2 ≤ w.rows) (b : Basis) (hb : Interpolable b) (weights : List (ℕ × ℝ))
    (hr : ∀ p ∈ weights, RightOrder b p.1) (h1 : ∀ p ∈ weights.tail, p.2 = 1) (mem : LagMem) (s : Sobolev) (hs : SReach lu w b weights mem s) (tau : List ℝ)
    (hlen : tau.length + 1 = w.rows) (ht : ∀ t ∈ tau, 1 / 10 ^ 6 ≤ t) (junk : Vec) :
    ∃ s' g v, interpolateFn lu junk tau w b = .ok g ∧ Meets g w.at' ∧ g.tau = tau ∧ s.cost lu tau = .ok (s', v) ∧ v = sobolevCost g weights := by
  have he : effective weights = weights := by
    have h2 : ∀ l : List (ℕ × ℝ), (∀ p ∈ l, p.2 = 1) → effective l = l ∧ (l.map Prod.snd).prod = 1 := by
      intro l
      induction l with
      | nil => simp [effective]
      | cons p ps ih =>
        intro h
        obtain ⟨e1, e2⟩ := ih fun p hp => h p (by simp [hp])
        have := h p (by simp)
        refine ⟨by rw [effective, e1, e2, mul_one], by simp [e2, this]⟩
    cases weights with
    | nil => rfl
    | cons p ps => simp [effective, h2 ps h1]
  have := C41_effective_weights lu hlu w hw b hb weights hr mem s hs tau hlen ht junk
  rwa [he] at this

/-! ### Where the code disagrees with C41 -/

theorem interpolable4 : Interpolable (.legendre 4) := ⟨valid_legendre4, rfl, by simp [Basis.dim], trivial, trivial, by simp⟩

/-- Two equal way points. -/
def standing : Pts := ⟨2, 1, fun _ _ => 1⟩

/-- A new `SobolevNorm` object for `standing` and the Legendre basis of dimension four. -/
noncomputable def newNorm (weights : List (ℕ × ℝ)) : Sobolev :=
  ⟨⟨.legendre 4, 1, 1, Mat.zero, fun _ => 0, fun _ => 0, fun _ => Mat.zero, []⟩, weights, standing, ⟨fun _ => 0, Mat.zero⟩⟩

theorem newNorm_make (weights : List (ℕ × ℝ)) : Sobolev.make standing (.legendre 4) weights ⟨fun _ => 0, Mat.zero⟩ (fun _ => 0) = .ok (newNorm weights) := rfl

/-- The coefficients of a spline that stands still are those of the constant function. -/
theorem standing_coeffs {y : Vec} (h : Interpolates (.legendre 4) 1 1 (vecOf [1]) (fun _ _ => 1) y) : y 0 = 1 ∧ y 1 = 0 ∧ y 2 = 0 ∧ y 3 = 0 := by
  have hp : ∀ i < 1, 0 < vecOf [1] i := by intro i hi; interval_cases i; norm_num [vecOf]
  have hc : ∀ iv c, piece (.legendre 4) 1 (vecOf [1]) (fun k => if k = 0 then 1 else 0) iv c = fun _ => if iv = 0 ∧ c = 0 then 1 else 0 := by
    intro iv c
    funext x
    unfold piece comb
    rw [sum_eq_single 0]
    · by_cases h0 : iv = 0 ∧ c = 0
      · obtain ⟨rfl, rfl⟩ := h0
        simp [basisFn, LegendrePoly.legendre_zero]
      · rw [if_neg h0]
        beta_reduce
        rw [if_neg, zero_mul]
        simp only [Basis.dim]
        omega
    · intro k _ hk
      beta_reduce
      rw [if_neg (by omega), zero_mul]
    · intro h; simp [Basis.dim] at h
  have H : Interpolates (.legendre 4) 1 1 (vecOf [1]) (fun _ _ => 1) (fun k => if k = 0 then 1 else 0) := by
    refine ⟨?_, ?_, ?_, ?_, fun iv h => absurd h (by omega)⟩
    · intro iv hiv c hc'; rw [hc, if_pos (by omega)]
    · intro iv hiv c hc'; rw [hc, if_pos (by omega)]
    · intro c _ d hd _; rw [hc, iteratedDeriv_const, if_neg (by omega)]
    · intro c _ d hd _; rw [hc, iteratedDeriv_const, if_neg (by omega)]
  obtain ⟨z, -, hu⟩ := C57_unique_solution 1 1 (by norm_num) (.legendre 4) valid_legendre4 rfl (by simp [Basis.dim]) trivial trivial (by simp) (vecOf [1]) hp (fun _ _ => 1)
  have key : ∀ k < 4, y k = if k = 0 then 1 else 0 := fun k hk => (hu _ h k hk).trans (hu _ H k hk).symm
  exact ⟨key 0 (by norm_num), key 1 (by norm_num), key 2 (by norm_num), key 3 (by norm_num)⟩

theorem standing_form {y : Vec} (h : y 0 = 1 ∧ y 1 = 0 ∧ y 2 = 0 ∧ y 3 = 0) (m : ℕ → Mat) : total (.legendre 4) 1 1 m y y = m 0 0 0 := by
  obtain ⟨h0, h1, h2, h3⟩ := h
  simp [total, form, part, Basis.dim, sum_range_succ, h0, h1, h2, h3]

/-- The curve of a spline that stands still at 1. -/
theorem standing_curve {g : GSpline} (ht : g.tau = [1]) (hc : g.codim = 1) (hb : g.basis = .legendre 4)
    (h : vecOf g.coeffs 0 = 1 ∧ vecOf g.coeffs 1 = 0 ∧ vecOf g.coeffs 2 = 0 ∧ vecOf g.coeffs 3 = 0) : curve g 0 0 = fun _ => 1 := by
  obtain ⟨h0, h1, h2, h3⟩ := h
  funext t
  simp [curve, piece, comb, hb, hc, Basis.dim, sum_range_succ, h0, h1, h2, h3, basisFn, LegendrePoly.legendre_zero]

theorem standing_energy {g : GSpline} (ht : g.tau = [1]) (hc : g.codim = 1) (hb : g.basis = .legendre 4)
    (h : vecOf g.coeffs 0 = 1 ∧ vecOf g.coeffs 1 = 0 ∧ vecOf g.coeffs 2 = 0 ∧ vecOf g.coeffs 3 = 0) : energy g 0 = 1 ∧ ∀ k, 1 ≤ k → energy g k = 0 := by
  have e := standing_curve ht hc hb h
  have hlen : g.tau.length = 1 := by rw [ht]; rfl
  constructor
  · unfold energy
    rw [hlen, hc, sum_range_one, sum_range_one, e]
    simp only [iteratedDeriv_zero]
    simp [brk, ht]
  · intro k hk
    unfold energy
    rw [hlen, hc, sum_range_one, sum_range_one, e]
    simp only [iteratedDeriv_const]
    rw [if_neg (by omega)]; simp

/-- **C41 is false for lists with several weights**: for the weights 1 and 2 of order zero and two way points equal to 1, one second apart, the curve is
constantly 1, so the weighted sum of integrals is 3. The object returns 4, because the first matrix is multiplied by the second weight too. -/
theorem C41_two_weights_false : ∃ s' g, interpolateFn exactLU (fun _ => 0) [1] standing (.legendre 4) = .ok g ∧
    sobolevCost g [(0, 1), (0, 2)] = 3 ∧ (newNorm [(0, 1), (0, 2)]).cost exactLU [1] = .ok (s', 4) := by
  obtain ⟨s', g, h1, h2, h3, h4, h5, h6⟩ := cost_spline exactLU_contract (show 2 ≤ standing.rows by decide) interpolable4 (ws := [(0, 1), (0, 2)]) (fun _ _ => trivial)
    (SReach.make (newNorm_make _)) (tau := [1]) rfl (by simp; norm_num) (fun _ => 0)
  have hc := standing_coeffs h6
  obtain ⟨he, -⟩ := standing_energy h2 h3 h4 hc
  refine ⟨s', g, h1, ?_, ?_⟩
  · simp [sobolevCost, he]; norm_num
  · rw [h5]
    congr 2
    have := standing_form hc (fun iv => wsum (q (.legendre 4) ⟨fun _ => 0, Mat.zero⟩ (vecOf [1] iv)) [(0, 1), (0, 2)] Mat.zero)
    refine this.trans ?_
    simp [wsum, q, Basis.addDerivMatrix, Legendre.addDerivativeMatrix, Legendre.sobolevBuffer, Legendre.l2Mat, Legendre.sobScale, Mat.zero, vecOf]
    norm_num

/-- **C41 is false for Legendre bases** even with a single weight: for two way points equal to 1 the curve stands still and all integrals of squared
derivatives vanish, but the object returns a positive number for every order `1 … dim - 1`. -/
theorem C41_legendre_false (k : ℕ) (h1 : 1 ≤ k) (h2 : k < 4) : ∃ s' g v, interpolateFn exactLU (fun _ => 0) [1] standing (.legendre 4) = .ok g ∧
    sobolevCost g [(k, 1)] = 0 ∧ (newNorm [(k, 1)]).cost exactLU [1] = .ok (s', v) ∧ 0 < v := by
  obtain ⟨s', g, f1, f2, f3, f4, f5, f6⟩ := cost_spline exactLU_contract (show 2 ≤ standing.rows by decide) interpolable4 (ws := [(k, 1)]) (fun _ _ => trivial)
    (SReach.make (newNorm_make _)) (tau := [1]) rfl (by simp; norm_num) (fun _ => 0)
  have hc := standing_coeffs f6
  obtain ⟨-, he⟩ := standing_energy f2 f3 f4 hc
  refine ⟨s', g, _, f1, by simp [sobolevCost, he k h1], f5, ?_⟩
  have := standing_form hc (fun iv => wsum (q (.legendre 4) ⟨fun _ => 0, Mat.zero⟩ (vecOf [1] iv)) [(k, 1)] Mat.zero)
  refine lt_of_lt_of_eq ?_ this.symm
  have hp := (C24_legendre_sobolev_false 4 k 1 one_pos h1 h2 Mat.zero).2
  rw [show (Mat.zero 0 0 : ℝ) = 0 from rfl] at hp
  simp only [wsum, q, Basis.addDerivMatrix, mul_one]
  rw [show (Mat.zero 0 0 : ℝ) = 0 from rfl, zero_add]
  simpa [vecOf] using hp

/-! ### Orders that are refused -/

theorem fold_throws {f : ℕ → Mat → Res Mat} {e : Err} {ws : List (ℕ × ℝ)} (h : ∃ p ∈ ws, ∀ M, f p.1 M = .error e)
    (h' : ∀ p ∈ ws, (∀ M, f p.1 M = .error e) ∨ ∀ M, ∃ M', f p.1 M = .ok M') (M : Mat) :
    ws.foldlM (fun m w => do
      let m ← f w.1 m
      return fun i j => m i j * w.2) M = (.error e : Res Mat) := by
  induction ws generalizing M with
  | nil => simp at h
  | cons p ps ih =>
    rw [List.foldlM_cons]
    rcases h' p (by simp) with hp | hp
    · rw [hp]; rfl
    · obtain ⟨M', hM⟩ := hp M
      rw [hM]
      simp only [Interp.ok_bind]
      refine ih ?_ (fun p hp => h' p (by simp [hp])) _
      obtain ⟨p', hp', h2⟩ := h
      rcases List.mem_cons.mp hp' with rfl | hp'
      · rw [h2 M] at hM; cases hM
      · exact ⟨p', hp', h2⟩

theorem loop_throws {σ : Type} {n : ℕ} (hn : 0 < n) {body : ℕ → σ → Res σ} {s : σ} {e : Err} (h : body 0 s = .error e) : forLoopM 0 n body s = .error e := by
  obtain ⟨m, rfl⟩ : ∃ m, n = m + 1 := ⟨n - 1, by omega⟩
  simp only [forLoopM, Nat.sub_zero, List.range'_succ, List.foldlM_cons, h]
  rfl

theorem interpolable0101 {a : ℝ} (h0 : 0 < a) (h1 : a < 1) : Interpolable (.b0101 a) :=
  ⟨⟨h0.le, h1⟩, by simp [Basis.dim], by simp [Basis.dim], trivial, trivial, by rintro a h; cases h; exact h0⟩

/-- **C41.** With Basis0101 and an order above 3 in the list the call throws `std::invalid_argument`, in every state. -/
theorem C41_basis0101_refuses (lu : LU) (hlu : LUContract lu) (w : Pts) (hw : 2 ≤ w.rows) (a : ℝ) (h0 : 0 < a) (h1 : a < 1) (weights : List (ℕ × ℝ))
    (hk : ∃ p ∈ weights, 3 < p.1) (mem : LagMem) (s : Sobolev) (hs : SReach lu w (.b0101 a) weights mem s) (tau : List ℝ) (hlen : tau.length + 1 = w.rows)
    (ht : ∀ t ∈ tau, 1 / 10 ^ 6 ≤ t) : s.cost lu tau = .error .invalidArgument := by
  obtain ⟨hR, rfl, rfl, rfl⟩ := sreach_inv hs
  have hn : tau.length = s.points.rows - 1 := by omega
  obtain ⟨i, x, f1, e1, e2, e3, -, -, -⟩ := solve_total hlu (by omega) (interpolable0101 h0 h1) hR hn ht (by omega) rfl
  unfold cost
  rw [f1, Interp.ok_bind]
  dsimp only
  have hth : ∀ k, 3 < k → ∀ t M, (Basis.b0101 a).addDerivMatrix s.mem t k M = .error .invalidArgument := by
    intro k hk t M
    obtain ⟨m, rfl⟩ : ∃ m, k = m + 4 := ⟨k - 4, by omega⟩
    rfl
  have hm : ∀ t, matrix (.b0101 a) s.mem s.weights t = .error .invalidArgument := by
    intro t
    refine fold_throws ?_ ?_ _
    · obtain ⟨p, hp, hp'⟩ := hk
      exact ⟨p, hp, fun M => hth p.1 hp' t M⟩
    · intro p hp
      by_cases h : 3 < p.1
      · exact .inl fun M => hth p.1 h t M
      · exact .inr fun M => ⟨_, add_ok (by simp only [Adds]; omega) M⟩
  unfold innerProd
  rw [loop_throws (e := .invalidArgument)]
  · rfl
  · omega
  · rw [rd_ok (by omega), Interp.ok_bind, e1, hm]; rfl

/-! ## C42 -/

/-- **C42**, partial: in every state of a `SobolevNorm` object, for all interval lengths of at least `1e-6` and a buffer that is long enough,
`deriv_wrt_interval_len` succeeds and leaves in entry `i` of the buffer the derivative of the value of the object with respect to interval length `i`
(if that length is more than `1e-6`, so that the object can be evaluated on both sides). Missing: the orders 0 and 2 of Basis0101, for which the call
throws (`C42_basis0101_refuses`), and Lagrange bases whose constructor leaves unassigned memory that is not symmetric. -/
theorem C42_gradient_partial (lu : LU) (hlu : LUContract lu) (w : Pts) (hw : 2 ≤ w.rows) (b : Basis) (hb : Interpolable b) (weights : List (ℕ × ℝ))
    (ho : ∀ a, b = .b0101 a → ∀ p ∈ weights, p.1 = 1 ∨ p.1 = 3) (mem : LagMem)
    (hm : ∀ x, b = .lagrange x → ∀ i < x.length, ∀ j < x.length, mem.junk i j = mem.junk j i) (s : Sobolev) (hs : SReach lu w b weights mem s)
    (tau : List ℝ) (hlen : tau.length + 1 = w.rows) (ht : ∀ t ∈ tau, 1 / 10 ^ 6 ≤ t) (buff : List ℝ) (hbuff : tau.length ≤ buff.length) :
    ∃ s' out, s.grad lu tau buff = .ok (s', out) ∧ out.length = buff.length ∧ ∀ i < tau.length, 1 / 10 ^ 6 < vecOf tau i →
      ∃ F : ℝ → ℝ, (∀ᶠ z in nhds (vecOf tau i), ∃ s'', s.cost lu (tau.set i z) = .ok (s'', F z)) ∧ HasDerivAt F (vecOf out i) (vecOf tau i) := by
  have ho1 : ∀ p ∈ weights, AddsDtau b p.1 := by
    intro p hp
    cases b with
    | b0101 a => exact ho a rfl p hp
    | _ => trivial
  have ho2 : ∀ p ∈ weights, Adds b p.1 := by
    intro p hp
    cases b with
    | b0101 a => rcases ho a rfl p hp with h | h <;> simp [Adds, h]
    | _ => trivial
  have hm' : SymmMem b mem := by
    cases b with
    | lagrange x => exact hm x rfl
    | _ => trivial
  obtain ⟨s', out, h1, h2, h3⟩ := grad_ok hlu hw hb ho2 ho1 hm' hs hlen ht hbuff
  refine ⟨s', out, h1, h2, fun i hi hti => ⟨_, ?_, h3 i hi⟩⟩
  filter_upwards [lt_mem_nhds hti] with z hz
  obtain ⟨s'', hc⟩ := cost_eq hlu hw hb ho2 hs (tau := tau.set i z) (by simpa using hlen) (by
    intro t h
    rcases List.mem_or_eq_of_mem_set h with h | rfl
    · exact ht t h
    · exact hz.le)
  exact ⟨s'', by rw [hc, List.length_set, vecOf_set hi]⟩

/-- **C42** (where it fails): way points 0, 0, 1, four equidistant Lagrange nodes and order 0. If the memory that the constructor of the basis leaves unassigned
contains a 1 in row 1 and column 3 and zeros elsewhere, then in every state of the object, at interval lengths 1 and 1, the derivative of the value with respect to
the first length is the entry of the buffer plus 1/36, whatever the diagonal of the matrix is. -/
theorem C42_memory_false (lu : LU) (hlu : LUContract lu) (w : Vec) (s : Sobolev)
    (hs : SReach lu ⟨3, 1, fun i _ => if i = 2 then 1 else 0⟩ (.lagrange [-1, -1 / 3, 1 / 3, 1]) [(0, 1)] ⟨w, fun i j => if i = 1 ∧ j = 3 then 1 else 0⟩ s)
    (buff : List ℝ) (hbuff : 2 ≤ buff.length) :
    ∃ s' out, s.grad lu [1, 1] buff = .ok (s', out) ∧ ∃ F : ℝ → ℝ, (∀ᶠ z in nhds (1 : ℝ), ∃ s'', s.cost lu [z, 1] = .ok (s'', F z)) ∧
      HasDerivAt F (vecOf out 0 + 1 / 36) 1 ∧ ¬ HasDerivAt F (vecOf out 0) 1 := by
  obtain ⟨s', out, h1, -, F, h2, h3⟩ := memory_wrong hlu w hs hbuff
  refine ⟨s', out, h1, F, h2, h3, fun h => ?_⟩
  have := h.unique h3
  norm_num at this

/-- Such an object exists. -/
example (w : Vec) : ∃ s, SReach exactLU ⟨3, 1, fun i _ => if i = 2 then 1 else 0⟩ (.lagrange [-1, -1 / 3, 1 / 3, 1]) [(0, 1)]
    ⟨w, fun i j => if i = 1 ∧ j = 3 then 1 else 0⟩ s := ⟨_, .make (junk := fun _ => 0) rfl⟩

/-- **C42** (where it fails): with Basis0101 and an order other than 1 and 3 in the list, `deriv_wrt_interval_len` throws `std::invalid_argument`, in
every state, although the object has a value for the orders 0 and 2. -/
theorem C42_basis0101_refuses (lu : LU) (hlu : LUContract lu) (w : Pts) (hw : 2 ≤ w.rows) (a : ℝ) (h0 : 0 < a) (h1 : a < 1) (weights : List (ℕ × ℝ))
    (hk : ∃ p ∈ weights, p.1 ≠ 1 ∧ p.1 ≠ 3) (mem : LagMem) (s : Sobolev) (hs : SReach lu w (.b0101 a) weights mem s) (tau : List ℝ) (hlen : tau.length + 1 = w.rows)
    (ht : ∀ t ∈ tau, 1 / 10 ^ 6 ≤ t) (buff : List ℝ) : s.grad lu tau buff = .error .invalidArgument := by
  have hb := interpolable0101 h0 h1
  obtain ⟨hR, rfl, rfl, rfl⟩ := sreach_inv hs
  have hn : tau.length = s.points.rows - 1 := by omega
  obtain ⟨i, x, f1, e1, e2, e3, e4, hRi, hx⟩ := solve_total hlu (by omega) hb hR hn ht (by omega) rfl
  unfold grad
  rw [f1, Interp.ok_bind]
  dsimp only
  rw [loop_throws (e := .invalidArgument)]
  · rfl
  · omega
  unfold gradStep
  have hsz : i.size = (Basis.b0101 a).dim * s.points.cols * (s.points.rows - 1) := by rw [Interp.size, e1, e2, e3]
  have hpos : ∀ k < s.points.rows - 1, 0 < vecOf tau k := fun k hk => vecOf_pos (fun t h => lt_of_lt_of_le (by norm_num) (ht t h)) (by omega)
  have hself : Function.update (vecOf tau) 0 (vecOf tau 0) = vecOf tau := Function.update_eq_self _ _
  have hyl : x = (List.range i.size).map (sol (.b0101 a) (s.points.rows - 1) s.points.cols s.points.at' (Function.update (vecOf tau) 0 (vecOf tau 0))) := by
    refine GSpline.ext_vecOf (by rw [e4, List.length_map, List.length_range, hsz]) fun k hk => ?_
    rw [e4] at hk
    rw [vecOf_map_range (by rw [hsz]; exact hk), hself]
    exact (sol_spec hb (by omega) hpos).2 _ hx k hk
  obtain ⟨i', d, hc, -⟩ := C39_coefficient_derivative lu hlu s.points.cols (s.points.rows - 1) (.b0101 a) hb.valid hb.even hb.ne hb.left hb.right hb.pos i hRi tau hn ht 0 (by omega)
    s.points.at' (fun z => sol (.b0101 a) (s.points.rows - 1) s.points.cols s.points.at' (Function.update (vecOf tau) 0 z)) (by
      filter_upwards [lt_mem_nhds (hpos 0 (by omega))] with z hz
      refine (sol_spec hb (by omega) fun k hk => ?_).1
      by_cases hk' : k = 0
      · rw [hk', Function.update_self]; exact hz
      · rw [Function.update_of_ne hk']; exact hpos k hk)
  rw [← hyl] at hc
  dsimp only
  rw [hc, Interp.ok_bind]
  dsimp only
  obtain ⟨-, g1, -, -⟩ := Interp.reach_inv (usable_of hb.valid hb.even hb.ne hb.left hb.right) (by omega) (Reach.coeff hRi hc)
  rw [rd_ok (by omega), Interp.ok_bind, g1]
  have hth : ∀ k, k ≠ 1 → k ≠ 3 → ∀ t M, (Basis.b0101 a).addDerivMatrixDtau s.mem t k M = .error .invalidArgument := by
    intro k h1 h3 t M
    exact (C25_basis0101_sobolev_dtau a h0 ‹a < 1› t M M k).2 h1 h3
  have hm : ∀ t, matrixDtau (.b0101 a) s.mem s.weights t = .error .invalidArgument := by
    intro t
    refine fold_throws ?_ ?_ _
    · obtain ⟨p, hp, hp'⟩ := hk
      exact ⟨p, hp, fun M => hth p.1 hp'.1 hp'.2 t M⟩
    · intro p hp
      by_cases h : p.1 ≠ 1 ∧ p.1 ≠ 3
      · exact .inl fun M => hth p.1 h.1 h.2 t M
      · exact .inr fun M => ⟨_, addDtau_ok (by simp only [AddsDtau]; omega) M⟩
  rw [hm]; rfl

/-! ## Examples -/

/-- C41, C42: a new object for four way points in the plane with Basis0101 and the jerk as cost: the value is the integral of the squared jerk of the
interpolating spline, for all interval lengths, and the gradient is computed. -/
example (p : ℕ → ℕ → ℝ) : ∃ s, Sobolev.make ⟨4, 2, p⟩ (.b0101 (1 / 4)) [(3, 1)] ⟨fun _ => 0, Mat.zero⟩ (fun _ => 0) = .ok s ∧
    (∃ s' g v, interpolateFn exactLU (fun _ => 0) [1, 2, 1 / 2] ⟨4, 2, p⟩ (.b0101 (1 / 4)) = .ok g ∧ Meets g p ∧ g.tau = [1, 2, 1 / 2] ∧
      s.cost exactLU [1, 2, 1 / 2] = .ok (s', v) ∧ v = sobolevCost g [(3, 1)]) ∧
    ∃ s' out, s.grad exactLU [1, 2, 1 / 2] [0, 0, 0] = .ok (s', out) ∧ out.length = 3 := by
  have hb := interpolable0101 (a := 1 / 4) (by norm_num) (by norm_num)
  have hmk : ∃ s, Sobolev.make ⟨4, 2, p⟩ (.b0101 (1 / 4)) [(3, 1)] ⟨fun _ => 0, Mat.zero⟩ (fun _ => 0) = .ok s := ⟨_, by
    unfold Sobolev.make Interp.make
    rw [if_neg (by norm_num), if_neg (by simp [Basis.dim]), if_neg (by simp [Basis.dim])]
    rfl⟩
  obtain ⟨s, hs⟩ := hmk
  refine ⟨s, hs, ?_, ?_⟩
  · exact C41_sobolev_norm_partial exactLU exactLU_contract ⟨4, 2, p⟩ (by norm_num) _ hb [(3, 1)] (by simp [RightOrder]) (by simp) _ s (.make hs) [1, 2, 1 / 2] rfl
      (by simp; norm_num) _
  · obtain ⟨s', out, h1, h2, -⟩ := C42_gradient_partial exactLU exactLU_contract ⟨4, 2, p⟩ (by norm_num) _ hb [(3, 1)] (by simp) _ (by simp) s (.make hs) [1, 2, 1 / 2] rfl
      (by simp; norm_num) [0, 0, 0] (by simp)
    exact ⟨s', out, h1, h2⟩

/-- C41: three weights with Legendre polynomials, in a state that is not new. -/
example : ∃ s s1 s2 v1 g v, Sobolev.make ⟨3, 1, fun i _ => i⟩ (.legendre 4) [(0, 3), (0, 1), (7, 1)] ⟨fun _ => 0, Mat.zero⟩ (fun _ => 0) = .ok s ∧
    s.cost exactLU [1, 2] = .ok (s1, v1) ∧
    interpolateFn exactLU (fun _ => 0) [3, 4] ⟨3, 1, fun i _ => i⟩ (.legendre 4) = .ok g ∧ s1.cost exactLU [3, 4] = .ok (s2, v) ∧
    v = sobolevCost g [(0, 3), (0, 1), (7, 1)] := by
  have hr : ∀ p ∈ [((0 : ℕ), (3 : ℝ)), (0, 1), (7, 1)], RightOrder (.legendre 4) p.1 := by simp [RightOrder]
  have R0 : SReach exactLU ⟨3, 1, fun i _ => i⟩ (.legendre 4) [(0, 3), (0, 1), (7, 1)] ⟨fun _ => 0, Mat.zero⟩
      ⟨⟨.legendre 4, 1, 2, Mat.zero, fun _ => 0, fun _ => 0, fun _ => Mat.zero, []⟩, [(0, 3), (0, 1), (7, 1)], ⟨3, 1, fun i _ => i⟩, ⟨fun _ => 0, Mat.zero⟩⟩ :=
    SReach.make (junk := fun _ => 0) rfl
  obtain ⟨s1, g1, v1, -, -, -, h1, -⟩ := C41_effective_weights exactLU exactLU_contract _ (by norm_num) _ interpolable4 _ hr _ _ R0 [1, 2] rfl (by simp; norm_num) (fun _ => 0)
  obtain ⟨s2, g, v, h2, -, -, h3, h4⟩ := C41_sobolev_norm_partial exactLU exactLU_contract _ (by norm_num) _ interpolable4 _ hr (by simp) _ _ (R0.cost h1) [3, 4] rfl
    (by simp; norm_num) (fun _ => 0)
  exact ⟨_, s1, s2, v1, g, v, rfl, h1, h2, h3, h4⟩

/-- C42: the derivative of the cost with Legendre polynomials. -/
example : ∃ s' out, (newNorm [(1, 1)]).grad exactLU [1] [0] = .ok (s', out) ∧
    ∃ F : ℝ → ℝ, (∀ᶠ z in nhds (1 : ℝ), ∃ s'', (newNorm [(1, 1)]).cost exactLU [z] = .ok (s'', F z)) ∧ HasDerivAt F (vecOf out 0) 1 := by
  obtain ⟨s', out, h1, -, h2⟩ := C42_gradient_partial exactLU exactLU_contract _ (show 2 ≤ standing.rows by decide) _ interpolable4 [(1, 1)] (by simp) _ (by simp) _
    (.make (newNorm_make _)) [1] rfl (by simp; norm_num) [0] (by simp)
  obtain ⟨F, hF, hD⟩ := h2 0 (by simp) (by simp [vecOf]; norm_num)
  exact ⟨s', out, h1, F, hF, hD⟩

/-- C42: Basis0101 and an order without derivative matrix. -/
example : ∃ s, Sobolev.make ⟨2, 1, fun i _ => i⟩ (.b0101 (1 / 4)) [(3, 1), (2, 1)] ⟨fun _ => 0, Mat.zero⟩ (fun _ => 0) = .ok s ∧
    s.grad exactLU [1] [0] = .error .invalidArgument := by
  have hmk : ∃ s, Sobolev.make ⟨2, 1, fun i _ => i⟩ (.b0101 (1 / 4)) [(3, 1), (2, 1)] ⟨fun _ => 0, Mat.zero⟩ (fun _ => 0) = .ok s := ⟨_, by
    unfold Sobolev.make Interp.make
    rw [if_neg (by norm_num), if_neg (by simp [Basis.dim]), if_neg (by simp [Basis.dim])]
    rfl⟩
  obtain ⟨s, hs⟩ := hmk
  exact ⟨s, hs, C42_basis0101_refuses exactLU exactLU_contract _ (by norm_num) (1 / 4) (by norm_num) (by norm_num) _ (by simp) _ s (.make hs) [1] rfl (by simp; norm_num) _⟩

end GSplines.Props
