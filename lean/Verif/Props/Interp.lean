import Verif.Proofs.InterpState

/-!
# Properties of the interpolator (C37 - C40, C57)
-/

namespace GSplines.Props

open GSplines Spec Interp Finset

/-! ## Auxiliary facts -/

theorem usable_of {b : Basis} (hb : b.Valid) (he : b.dim % 2 = 0) (h0 : b.dim ≠ 0) (hl : b.CleanAt (-1)) (hr : b.CleanAt 1) : Usable b (b.dim / 2 - 1) :=
  ⟨hb, by omega, hl, hr⟩

theorem iteratedDeriv_curve (g : GSpline) (i c d : ℕ) (t : ℝ) :
    iteratedDeriv d (curve g i c) t = iteratedDeriv d (piece g.basis g.codim (vecOf g.tau) (vecOf g.coeffs) i c) (t - brk g i) :=
  congrFun (iteratedDeriv_comp_sub_const d (piece g.basis g.codim (vecOf g.tau) (vecOf g.coeffs) i c) (brk g i)) t

/-- Coefficients that solve the interpolation problem make a spline that meets the expectations. -/
theorem meets_of_interpolates {g : GSpline} {w : ℕ → ℕ → ℝ} (hb : g.basis.Valid) (hl : g.basis.CleanAt (-1)) (hr : g.basis.CleanAt 1) (hp : Positive g)
    (hcon : Consistent g) (hdom : g.dom.2 = g.dom.1 + g.tau.sum)
    (H : Interpolates g.basis g.tau.length g.codim (vecOf g.tau) w (vecOf g.coeffs)) : Meets g w := by
  have hn : 0 < g.tau.length := List.length_pos_of_ne_nil hp.1
  have hend : brk g g.tau.length = g.dom.2 := by rw [hdom, brk, List.take_length]
  have hstart : ∀ {i c : ℕ}, curve g i c (brk g i) = piece g.basis g.codim (vecOf g.tau) (vecOf g.coeffs) i c 0 := by
    intro i c; unfold curve; rw [sub_self]
  have hstop : ∀ {i c : ℕ}, i < g.tau.length → curve g i c (brk g (i + 1)) = piece g.basis g.codim (vecOf g.tau) (vecOf g.coeffs) i c (vecOf g.tau i) := by
    intro i c hi; unfold curve; rw [GSpline.brk_succ g hi, add_sub_cancel_left]
  refine ⟨?_, ?_, ?_, ?_⟩
  · intro i hi
    rcases Nat.eq_zero_or_pos i with rfl | hi0
    · have hloc : Located g (brk g 0) 0 := ⟨hn, .inl ⟨le_rfl, rfl⟩⟩
      obtain ⟨v, h1, h2, h3⟩ := GSpline.value_spec hb hcon (GSpline.getInterval_of_located hp hloc) hn (vecOf_pos hp.2 hn).ne'
        (by rw [sub_self, show window (vecOf g.tau 0) 0 = -1 by simp [window]]; exact hl)
      refine ⟨v, h1, h2, fun c hc => ?_⟩
      rw [h3 c hc, hstart, H.start 0 hn c hc]
    · obtain ⟨j, rfl⟩ : ∃ j, i = j + 1 := ⟨i - 1, by omega⟩
      have hj : j < g.tau.length := by omega
      have ht := vecOf_pos hp.2 hj
      have hloc : Located g (brk g (j + 1)) j := ⟨hj, .inr (.inl ⟨GSpline.brk_lt_succ hp hj, le_rfl⟩)⟩
      obtain ⟨v, h1, h2, h3⟩ := GSpline.value_spec hb hcon (GSpline.getInterval_of_located hp hloc) hj ht.ne'
        (by rw [GSpline.brk_succ g hj, add_sub_cancel_left, show window (vecOf g.tau j) (vecOf g.tau j) = 1 by unfold window; field_simp; norm_num]; exact hr)
      refine ⟨v, h1, h2, fun c hc => ?_⟩
      rw [h3 c hc, hstop hj, H.stop j hj c hc]
  · intro i hi c hc d hd
    rcases Nat.eq_zero_or_pos d with rfl | hd0
    · rw [iteratedDeriv_zero, iteratedDeriv_zero, hstop (by omega), hstart, H.stop i (by omega) c hc, H.start (i + 1) hi c hc]
    · rw [iteratedDeriv_curve, iteratedDeriv_curve, sub_self, GSpline.brk_succ g (by omega), add_sub_cancel_left]
      exact H.join i hi c hc d hd0 hd
  · intro c hc d h1 h2
    rw [iteratedDeriv_curve, GSpline.brk_zero, sub_self]
    exact H.restL c hc d h1 h2
  · intro c hc d h1 h2
    have e : g.dom.2 - brk g (g.tau.length - 1) = vecOf g.tau (g.tau.length - 1) := by
      have := GSpline.brk_succ g (i := g.tau.length - 1) (by omega)
      rw [show g.tau.length - 1 + 1 = g.tau.length by omega, hend] at this
      rw [this]; ring
    rw [iteratedDeriv_curve, e]
    exact H.restR c hc d h1 h2

/-! ## C38 -/

/-- **C38.** In every state of the object, after `solve_interpolation(tau, waypoints)`: the rows of the matrix and of the right hand side correspond one
to one to the conditions of the interpolation problem; the row of a condition applied to coefficients is the quantity that the condition is about,
and the right hand side holds the prescribed number. -/
theorem C38_rows (lu : LU) (codim n : ℕ) (hn : 0 < n) (b : Basis) (hb : b.Valid) (he : b.dim % 2 = 0) (h0 : b.dim ≠ 0) (hl : b.CleanAt (-1)) (hr : b.CleanAt 1)
    (s s' : Interp) (hs : Reach lu codim n b s) (tau : List ℝ) (w : Pts) (x : List ℝ) (h : s.solveInterpolation lu tau w = .ok (s', x)) :
    ∃ e : Cond n codim (b.dim / 2 - 1) ≃ Fin s'.size, ∀ q : Cond n codim (b.dim / 2 - 1),
      s'.vec (e q) = q.target w.at' ∧ ∀ y : Vec, ∑ k ∈ range s'.size, s'.mat (e q) k * y k = q.quantity b (vecOf tau) y := by
  have U := usable_of hb he h0 hl hr
  set m := b.dim / 2 - 1 with hm
  obtain ⟨I, rfl, rfl, rfl⟩ := reach_inv U hn hs
  obtain ⟨h1, hmat, hvec, e1, e2, e3, -, -, -⟩ := solve_ok h
  have hlen := fillMatrix_length hmat
  have hsize : s'.size = s.basis.dim * s.codim * s.n := by unfold Interp.size; rw [e1, e2, e3]
  have hsz : (2 * m + 2) * s.codim * s.n = s'.size := by rw [hsize, U.dim]
  have ht : ∀ i < s.n, vecOf tau i ≠ 0 := fun i hi =>
    (vecOf_pos (fun t ht => lt_of_lt_of_le (by norm_num) (h1 t ht)) (by omega)).ne'
  obtain ⟨m', hm', S⟩ := fillMatrix_system U hn hlen I.mat
  have hmm : m' = s'.mat := by rw [hmat] at hm'; exact (Except.ok.inj hm').symm
  rw [hmm] at S
  let f : Cond s.n s.codim m → Fin s'.size := fun q => ⟨row s.n s.codim m q, by rw [← hsz]; exact row_lt hn q⟩
  have hf : Function.Bijective f := by
    constructor
    · intro q1 q2 hq
      exact row_injective hn (by simpa [f] using hq)
    · intro r
      obtain ⟨q, hq⟩ := row_surj (n := s.n) (c := s.codim) (h := m) hn (r := r) (by rw [hsz]; exact r.2)
      exact ⟨q, Fin.ext hq⟩
  refine ⟨Equiv.ofBijective f hf, fun q => ⟨?_, fun y => ?_⟩⟩
  · change s'.vec (row s.n s.codim m q) = _
    have hc : 0 < s.codim := by
      cases q with
      | start iv comp => have := comp.2; omega
      | stop iv comp => have := comp.2; omega
      | restL comp j => have := comp.2; omega
      | restR comp j => have := comp.2; omega
      | join iv comp j => have := comp.2; omega
    obtain ⟨hw1, hw2⟩ := fillVector_size hvec hc
    obtain ⟨v', hv', hrow⟩ := fillVector_ok (h := m) hn hw1 hw2 s.vec
    rw [U.dim] at hvec
    have hvv : v' = s'.vec := by rw [hvec] at hv'; exact (Except.ok.inj hv').symm
    rw [← hvv, hrow q]
    by_cases hq : IsValue q
    · rw [if_pos hq]
    · rw [if_neg hq, I.vec q hq]
      cases q with
      | start iv comp => exact absurd trivial hq
      | stop iv comp => exact absurd trivial hq
      | restL comp j => rfl
      | restR comp j => rfl
      | join iv comp j => rfl
  · have := S.sum U hn ht y q
    rw [← hsize] at this
    exact this

/-- **C38.** The solutions of the system that `solve_interpolation` sets up are exactly the coefficients of the splines that satisfy all conditions. -/
theorem C38_system (lu : LU) (codim n : ℕ) (hn : 0 < n) (b : Basis) (hb : b.Valid) (he : b.dim % 2 = 0) (h0 : b.dim ≠ 0) (hl : b.CleanAt (-1)) (hr : b.CleanAt 1)
    (s s' : Interp) (hs : Reach lu codim n b s) (tau : List ℝ) (w : Pts) (x : List ℝ) (h : s.solveInterpolation lu tau w = .ok (s', x)) (y : Vec) :
    Solves s'.size s'.mat y s'.vec ↔ Interpolates b n codim (vecOf tau) w.at' y := by
  obtain ⟨e, H⟩ := C38_rows lu codim n hn b hb he h0 hl hr s s' hs tau w x h
  rw [interpolates_iff (usable_of hb he h0 hl hr) hn]
  constructor
  · intro hsol q
    rw [← (H q).2 y, ← (H q).1]
    exact hsol _ (e q).2
  · intro hq r hr'
    have h1 := (H (e.symm ⟨r, hr'⟩)).2 y
    have h2 := (H (e.symm ⟨r, hr'⟩)).1
    rw [Equiv.apply_symm_apply] at h1 h2
    change ∑ k ∈ range s'.size, s'.mat r k * y k = _ at h1
    change s'.vec r = _ at h2
    rw [h1, h2]
    exact hq _

/-! ## C37 -/

/-- **C37.** Whatever the object was used for before: if the factorisation succeeds and the solver returns solutions, the spline returned by
`interpolate(tau, waypoints)` has the given intervals from time `0` on, passes through the way points at the breakpoints, has continuous derivatives
up to order `dim - 2` and vanishing derivatives at both ends. -/
theorem C37_interpolate (lu : LU) (hlu : LUContract lu) (codim n : ℕ) (hn : 0 < n) (b : Basis) (hb : b.Valid) (he : b.dim % 2 = 0) (h0 : b.dim ≠ 0)
    (hl : b.CleanAt (-1)) (hr : b.CleanAt 1) (s s' : Interp) (hs : Reach lu codim n b s) (tau : List ℝ) (w : Pts) (g : GSpline)
    (h : s.interpolate lu tau w = .ok (s', g)) (hok : lu.succeeds s.size s'.mat = true) :
    g.dom = (0, tau.sum) ∧ g.tau = tau ∧ g.codim = codim ∧ g.basis = b ∧ tau.length = n ∧ Meets g w.at' := by
  unfold Interp.interpolate at h
  cases hsol : s.solveInterpolation lu tau w with
  | error e => rw [hsol] at h; cases h
  | ok p =>
    obtain ⟨s1, x⟩ := p
    rw [hsol] at h
    simp only [ok_bind] at h
    have R1 := Reach.solve hs hsol
    obtain ⟨-, eb1, ec1, en1⟩ := reach_inv (usable_of hb he h0 hl hr) hn R1
    obtain ⟨-, eb, ec, en⟩ := reach_inv (usable_of hb he h0 hl hr) hn hs
    obtain ⟨h1, hmat, hvec, -, -, -, -, -, hx⟩ := solve_ok hsol
    have hlen : tau.length = n := (fillMatrix_length hmat).trans en
    cases hmk : GSpline.make (0, tau.sum) s1.codim s1.n s1.basis x tau with
    | error e => rw [hmk] at h; cases h
    | ok g' =>
      rw [hmk] at h
      simp only [ok_bind] at h
      cases h
      have hsz : s.size = s'.size := by unfold Interp.size; rw [eb, ec, en, eb1, ec1, en1]
      rw [if_pos hok, hsz] at hx
      rw [hsz] at hok
      have hxl : x.length = s'.size := by rw [hx]; simp
      have hpos : ∀ t ∈ tau, 0 < t := fun t ht => lt_of_lt_of_le (by norm_num) (h1 t ht)
      have hsum : 0 ≤ tau.sum := List.sum_nonneg fun t ht => (hpos t ht).le
      rw [GSpline.make_ok hsum (by rw [hxl]; unfold Interp.size; ring)] at hmk
      cases hmk
      refine ⟨rfl, rfl, ec1, eb1, hlen, ?_⟩
      have hI : Interpolates b n codim (vecOf tau) w.at' (vecOf x) := by
        rw [← C38_system lu codim n hn b hb he h0 hl hr s s' hs tau w x hsol]
        intro r hr'
        rw [← hlu.solves s'.size s'.mat s'.vec hok r hr']
        refine sum_congr rfl fun k hk => ?_
        rw [hx, vecOf_map_range (mem_range.mp hk)]
      have hne : tau ≠ [] := by intro h0; rw [h0] at hlen; simp at hlen; omega
      refine meets_of_interpolates (g := ⟨(0, tau.sum), s'.codim, s'.basis, x, tau⟩) (by rw [eb1]; exact hb) (by rw [eb1]; exact hl) (by rw [eb1]; exact hr)
        ⟨hne, hpos⟩ ?_ (by simp) ?_
      · unfold Consistent
        simp only
        rw [hxl, hlen, ← en1]
        unfold Interp.size; ring
      · simp only [eb1, ec1, hlen]
        exact hI

/-! ## C57 -/

/-- **C57.** The interpolation problem has exactly one solution, for every number of intervals, all positive interval lengths and all way points: for every
Legendre and Lagrange basis with an even number of functions, and for Basis0101 with `0 < α < 1`. -/
theorem C57_unique_solution (codim n : ℕ) (hn : 0 < n) (b : Basis) (hb : b.Valid) (he : b.dim % 2 = 0) (h0 : b.dim ≠ 0) (hl : b.CleanAt (-1)) (hr : b.CleanAt 1)
    (hi : ∀ a, b = .b0101 a → 0 < a) (tau : ℕ → ℝ) (ht : ∀ i < n, 0 < tau i) (w : ℕ → ℕ → ℝ) :
    ∃ y : ℕ → ℝ, Interpolates b n codim tau w y ∧ ∀ z, Interpolates b n codim tau w z → ∀ k < b.dim * codim * n, z k = y k := by
  have U := usable_of hb he h0 hl hr
  have hind : Independent b := by
    cases b with
    | b0101 a => exact hi a rfl
    | _ => trivial
  set m := b.dim / 2 - 1
  have S : System b m n codim tau (fillP (2 * m + 2) codim n (bufs b tau) Mat.zero) := ⟨fun x => fillP_rows _ hn (clean_zero _ _ _) x⟩
  have hinv := system_invertible U hind hn ht S
  obtain ⟨e⟩ : Nonempty (Cond n codim m ≃ Fin (b.dim * codim * n)) := by
    rw [U.dim]
    exact ⟨Equiv.ofBijective (fun q => (⟨row n codim m q, row_lt hn q⟩ : Fin ((2 * m + 2) * codim * n)))
      ⟨fun q1 q2 hq => row_injective hn (by simpa using hq), fun r => by
        obtain ⟨q, hq⟩ := row_surj (n := n) (c := codim) (h := m) hn r.2
        exact ⟨q, Fin.ext hq⟩⟩⟩
  -- a right hand side
  obtain ⟨v, hv⟩ : ∃ v : Vec, ∀ x : Cond n codim m, v (row n codim m x) = x.target w := by
    classical
    refine ⟨fun r => if h : ∃ x : Cond n codim m, row n codim m x = r then h.choose.target w else 0, fun x => ?_⟩
    have hex : ∃ x' : Cond n codim m, row n codim m x' = row n codim m x := ⟨x, rfl⟩
    beta_reduce
    rw [dif_pos hex, row_injective hn hex.choose_spec]
  have hiff := solves_iff U hn (fun i hi' => (ht i hi').ne') S hv
  obtain ⟨inv, hinv'⟩ := hinv
  refine ⟨fun k => ∑ r ∈ range (b.dim * codim * n), inv k r * v r, ?_, ?_⟩
  · rw [← hiff]
    intro r hr'
    rw [sum_congr rfl fun k _ => mul_sum _ _ _, sum_comm]
    rw [sum_congr rfl fun j hj => show ∑ k ∈ range (b.dim * codim * n), fillP (2 * m + 2) codim n (bufs b tau) Mat.zero r k * (inv k j * v j) =
      (if r = j then 1 else 0) * v j by
        rw [← (hinv' r hr' j (mem_range.mp hj)).2, sum_mul]
        exact sum_congr rfl fun k _ => by ring]
    simp only [ite_mul, one_mul, zero_mul, sum_ite_eq, mem_range]
    rw [if_pos hr']
  · intro z hz
    rw [← hiff] at hz
    refine Invertible.unique ⟨inv, hinv'⟩ hz ?_
    intro r hr'
    rw [sum_congr rfl fun k _ => mul_sum _ _ _, sum_comm]
    rw [sum_congr rfl fun j hj => show ∑ k ∈ range (b.dim * codim * n), fillP (2 * m + 2) codim n (bufs b tau) Mat.zero r k * (inv k j * v j) =
      (if r = j then 1 else 0) * v j by
        rw [← (hinv' r hr' j (mem_range.mp hj)).2, sum_mul]
        exact sum_congr rfl fun k _ => by ring]
    simp only [ite_mul, one_mul, zero_mul, sum_ite_eq, mem_range]
    rw [if_pos hr']

/-- **C57.** So `interpolate` always succeeds if the linear solver succeeds on every matrix that can be inverted and its solutions are right: for way
points of the right sizes and interval lengths of at least `1e-6` it returns a spline, and this spline meets all conditions. -/
theorem C57_always_interpolates (lu : LU) (hlu : LUContract lu) (codim n : ℕ) (hn : 0 < n) (b : Basis) (hb : b.Valid) (he : b.dim % 2 = 0) (h0 : b.dim ≠ 0)
    (hl : b.CleanAt (-1)) (hr : b.CleanAt 1) (hi : ∀ a, b = .b0101 a → 0 < a) (s : Interp) (hs : Reach lu codim n b s) (tau : List ℝ)
    (hlen : tau.length = n) (ht : ∀ t ∈ tau, 1 / 10 ^ 6 ≤ t) (w : Pts) (hw : w.rows = n + 1) (hc : w.cols = codim) :
    ∃ s' g, s.interpolate lu tau w = .ok (s', g) ∧ g.dom = (0, tau.sum) ∧ g.tau = tau ∧ g.codim = codim ∧ g.basis = b ∧ Meets g w.at' := by
  have U := usable_of hb he h0 hl hr
  have hind : Independent b := by
    cases b with
    | b0101 a => exact hi a rfl
    | _ => trivial
  obtain ⟨I, rfl, rfl, rfl⟩ := reach_inv U hn hs
  obtain ⟨m', hm', S⟩ := fillMatrix_system U hn hlen I.mat
  have hpos : ∀ t ∈ tau, 0 < t := fun t h1 => lt_of_lt_of_le (by norm_num) (ht t h1)
  have hinv := system_invertible U hind hn (fun i hi' => vecOf_pos hpos (by omega)) S
  have hsucc := hlu.succeeds _ _ hinv
  obtain ⟨v', hv', -⟩ := fillVector_ok (h := s.basis.dim / 2 - 1) hn (show s.n + 1 ≤ w.rows by omega) (show s.codim ≤ w.cols by omega) s.vec
  rw [← U.dim] at hv'
  have hsol : s.solveInterpolation lu tau w = .ok ({ s with mat := m', vec := v', sol := (List.range s.size).map (lu.solve s.size m' v') },
      (List.range s.size).map (lu.solve s.size m' v')) := by
    unfold Interp.solveInterpolation
    rw [if_neg (by push Not; exact ht), hm', hv']
    simp only [ok_bind]
    exact if_pos hsucc
  have hmk := GSpline.make_ok (dom := (0, tau.sum)) (codim := s.codim) (nInt := s.n) (b := s.basis)
    (coeffs := (List.range s.size).map (lu.solve s.size m' v')) (tau := tau) (List.sum_nonneg fun t h1 => (hpos t h1).le)
    (by rw [List.length_map, List.length_range]; unfold Interp.size; ring)
  have hint : s.interpolate lu tau w = .ok ({ s with mat := m', vec := v', sol := (List.range s.size).map (lu.solve s.size m' v') },
      ⟨(0, tau.sum), s.codim, s.basis, (List.range s.size).map (lu.solve s.size m' v'), tau⟩) := by
    unfold Interp.interpolate
    rw [hsol]
    simp only [ok_bind]
    rw [hmk]
    rfl
  refine ⟨_, _, hint, ?_⟩
  obtain ⟨r1, r2, r3, r4, -, r5⟩ := C37_interpolate lu hlu s.codim s.n hn s.basis hb he h0 hl hr s _ hs tau w _ hint hsucc
  exact ⟨r1, r2, r3, r4, r5⟩

/-- **C57.** The same for the function `interpolate(tau, waypoints, basis)`. -/
theorem C57_interpolate_function (lu : LU) (hlu : LUContract lu) (junk : Vec) (b : Basis) (hb : b.Valid) (he : b.dim % 2 = 0) (h0 : b.dim ≠ 0)
    (hl : b.CleanAt (-1)) (hr : b.CleanAt 1) (hi : ∀ a, b = .b0101 a → 0 < a) (tau : List ℝ) (hne : tau ≠ []) (ht : ∀ t ∈ tau, 1 / 10 ^ 6 ≤ t) (w : Pts)
    (hw : w.rows = tau.length + 1) :
    ∃ g, interpolateFn lu junk tau w b = .ok g ∧ g.dom = (0, tau.sum) ∧ g.tau = tau ∧ g.codim = w.cols ∧ g.basis = b ∧ Meets g w.at' := by
  have hn : 0 < tau.length := List.length_pos_of_ne_nil hne
  have hmk : Interp.make w.cols (w.rows - 1) b junk = .ok ⟨b, w.cols, w.rows - 1, Mat.zero, fun _ => 0, junk, fun _ => Mat.zero, []⟩ := by
    unfold Interp.make
    rw [if_neg (by omega), if_neg h0]
  obtain ⟨s', g, h1, h2⟩ := C57_always_interpolates lu hlu w.cols (w.rows - 1) (by omega) b hb he h0 hl hr hi _ (Reach.make hmk) tau (by omega) ht w
    (by omega) rfl
  refine ⟨g, ?_, h2⟩
  unfold interpolateFn
  rw [if_neg (by omega), hmk]
  simp only [ok_bind]
  rw [h1]
  rfl

/-- **C57.** The same for `pw_polynomial_interpolation(tau, waypoints, nc)` with an even number of coefficients: the result is a spline in the Legendre basis with `nc`
coefficients in each interval and component. -/
theorem C57_pw_polynomial (lu : LU) (hlu : LUContract lu) (junk : Vec) (nc : ℕ) (h2 : 2 ≤ nc) (he : nc % 2 = 0) (tau : List ℝ) (hne : tau ≠ [])
    (ht : ∀ t ∈ tau, 1 / 10 ^ 6 ≤ t) (w : Pts) (hw : w.rows = tau.length + 1) :
    ∃ g, pwPolynomialInterpolation lu junk tau w nc = .ok g ∧ g.dom = (0, tau.sum) ∧ g.tau = tau ∧ g.codim = w.cols ∧ g.basis = .legendre nc ∧
      Meets g w.at' :=
  C57_interpolate_function lu hlu junk (.legendre nc) h2 he (by simp only [Basis.dim]; omega) trivial trivial (by simp) tau hne ht w hw

/-! ## C39 -/

/-- **C39.** Let `Y z` be the interpolating coefficients for the way points when the length of interval `idx` is `z` and the other lengths are those in `tau`.
Whatever the object was used for before, `get_coeff_derivative_wrt_tau(Y(tau), tau, idx)` returns the derivative of `Y`. -/
theorem C39_coefficient_derivative (lu : LU) (hlu : LUContract lu) (codim n : ℕ) (b : Basis) (hb : b.Valid) (he : b.dim % 2 = 0) (h0 : b.dim ≠ 0)
    (hl : b.CleanAt (-1)) (hr : b.CleanAt 1) (hi : ∀ a, b = .b0101 a → 0 < a) (s : Interp) (hs : Reach lu codim n b s) (tau : List ℝ)
    (hlen : tau.length = n) (ht : ∀ t ∈ tau, 1 / 10 ^ 6 ≤ t) (idx : ℕ) (hidx : idx < n) (w : ℕ → ℕ → ℝ) (Y : ℝ → ℕ → ℝ)
    (hY : ∀ᶠ z in nhds (vecOf tau idx), Interpolates b n codim (Function.update (vecOf tau) idx z) w (Y z)) :
    ∃ s' d, s.coeffDerivative lu ((List.range s.size).map (Y (vecOf tau idx))) tau idx = .ok (s', d) ∧
      ∀ k < s.size, HasDerivAt (fun z => Y z k) (d k) (vecOf tau idx) := by
  have hn : 0 < n := by omega
  have U := usable_of hb he h0 hl hr
  have hind : Independent b := by
    cases b with
    | b0101 a => exact hi a rfl
    | _ => trivial
  obtain ⟨I, rfl, rfl, rfl⟩ := reach_inv U hn hs
  set m := s.basis.dim / 2 - 1
  have hpos : ∀ t ∈ tau, 0 < t := fun t h1 => lt_of_lt_of_le (by norm_num) (ht t h1)
  have hposv : ∀ i < s.n, 0 < vecOf tau i := fun i hi' => vecOf_pos hpos (by omega)
  obtain ⟨m', hm', S⟩ := fillMatrix_system U hn hlen I.mat
  have hinv := system_invertible U hind hn hposv S
  have hsucc := hlu.succeeds _ _ hinv
  have hd := fillDer_ok (c := s.codim) U hidx hlen (hposv idx hidx).ne' (s.ders idx)
  set D := derP s.basis.dim s.codim s.n idx (bufsT s.basis (vecOf tau)) (s.ders idx) with hD
  have hDrow : ∀ x : Cond s.n s.codim m, D (row s.n s.codim m x) = overI idx (bufsT s.basis (vecOf tau)) x fun _ => 0 := by
    intro x
    rw [hD, U.dim]
    exact derP_rows _ hidx (I.ders idx hidx) x
  have hcall : ∃ s', s.coeffDerivative lu ((List.range s.size).map (Y (vecOf tau idx))) tau idx =
      .ok (s', fun k => - lu.solve s.size m' (D.mulVec s.size (vecOf ((List.range s.size).map (Y (vecOf tau idx))))) k) := by
    unfold Interp.coeffDerivative
    rw [if_neg (by push Not; exact ht), if_neg (by omega), hd]
    simp only [ok_bind]
    rw [if_neg (by simp), hm']
    simp only [ok_bind]
    exact ⟨_, if_pos hsucc⟩
  obtain ⟨s', hs'⟩ := hcall
  refine ⟨s', _, hs', ?_⟩
  · -- the matrices as functions of the length
    set N := s.basis.dim * s.codim * s.n with hN
    let A : ℝ → Mat := fun z => fillP (2 * m + 2) s.codim s.n (bufs s.basis (Function.update (vecOf tau) idx z)) Mat.zero
    have hArow : ∀ z (x : Cond s.n s.codim m), A z (row s.n s.codim m x) = over (bufs s.basis (Function.update (vecOf tau) idx z)) x fun _ => 0 :=
      fun z x => fillP_rows _ hn (clean_zero _ _ _) x
    have hAS : ∀ z, System s.basis m s.n s.codim (Function.update (vecOf tau) idx z) (A z) := fun z => ⟨hArow z⟩
    have hself : Function.update (vecOf tau) idx (vecOf tau idx) = vecOf tau := Function.update_eq_self _ _
    have hA : ∀ i < N, ∀ j < N, HasDerivAt (fun z => A z i j) (D i j) (vecOf tau idx) := by
      intro i hi' j hj'
      obtain ⟨x, rfl⟩ := row_surj (n := s.n) (c := s.codim) (h := m) hn (r := i) (by rw [hN, U.dim] at hi'; exact hi')
      rw [hDrow x, show (fun z => A z (row s.n s.codim m x) j) = fun z => over (bufs s.basis (Function.update (vecOf tau) idx z)) x (fun _ => 0) j from
        funext fun z => congrFun (hArow z x) j]
      exact over_hasDerivAt U (hposv idx hidx).ne' x j
    have hm'A : ∀ i < N, ∀ j, m' i j = A (vecOf tau idx) i j := by
      intro i hi' j
      obtain ⟨x, rfl⟩ := row_surj (n := s.n) (c := s.codim) (h := m) hn (r := i) (by rw [hN, U.dim] at hi'; exact hi')
      rw [S.rows x, hArow, hself]
    have hinvA : Invertible N (A (vecOf tau idx)) := by
      have := hAS (vecOf tau idx)
      rw [hself] at this
      exact system_invertible U hind hn hposv this
    obtain ⟨v, hv⟩ : ∃ v : Vec, ∀ x : Cond s.n s.codim m, v (row s.n s.codim m x) = x.target w := by
      classical
      refine ⟨fun r => if h : ∃ x : Cond s.n s.codim m, row s.n s.codim m x = r then h.choose.target w else 0, fun x => ?_⟩
      have hex : ∃ x' : Cond s.n s.codim m, row s.n s.codim m x' = row s.n s.codim m x := ⟨x, rfl⟩
      beta_reduce
      rw [dif_pos hex, row_injective hn hex.choose_spec]
    have hsolA : ∀ᶠ z in nhds (vecOf tau idx), Solves N (A z) (Y z) v := by
      have hz0 : ∀ᶠ z in nhds (vecOf tau idx), 0 < z := lt_mem_nhds (hposv idx hidx)
      filter_upwards [hY, hz0] with z hz hz'
      refine (solves_iff U hn (fun i hi' => ?_) (hAS z) hv (Y z)).mpr hz
      by_cases hii : i = idx
      · rw [hii, Function.update_self]; exact hz'.ne'
      · rw [Function.update_of_ne hii]; exact (hposv i hi').ne'
    refine solution_hasDerivAt hA hinvA hsolA ?_
    intro r hr'
    have hlus := hlu.solves s.size m' (D.mulVec s.size (vecOf ((List.range s.size).map (Y (vecOf tau idx))))) hsucc r hr'
    have e1 : ∑ k ∈ range N, A (vecOf tau idx) r k * lu.solve s.size m' (D.mulVec s.size (vecOf ((List.range s.size).map (Y (vecOf tau idx))))) k =
        ∑ k ∈ range s.size, m' r k * lu.solve s.size m' (D.mulVec s.size (vecOf ((List.range s.size).map (Y (vecOf tau idx))))) k :=
      sum_congr rfl fun k _ => by rw [hm'A r hr' k]
    refine e1.trans (hlus.trans ?_)
    unfold Mat.mulVec
    exact sum_congr rfl fun k hk => by rw [vecOf_map_range (mem_range.mp hk)]

/-- **C39.** With a wrong number of lengths or an index out of range the call does not fail: it returns whatever the previous call left (for a new object, memory
that was never written). -/
theorem C39_bad_index (lu : LU) (s : Interp) (y tau : List ℝ) (idx : ℕ) (ht : ∀ t ∈ tau, 1 / 10 ^ 6 ≤ t) (h : tau.length ≠ s.n ∨ s.n ≤ idx) :
    s.coeffDerivative lu y tau idx = .ok (s, s.coef) := by
  unfold Interp.coeffDerivative
  rw [if_neg (by push Not; exact ht), if_pos h]

/-! ## C40 -/

/-- **C40.** The constructor throws `std::invalid_argument` exactly for an odd dimension of the basis. -/
theorem C40_odd_dimension (codim n : ℕ) (b : Basis) (junk : Vec) : Interp.make codim n b junk = .error .invalidArgument ↔ b.dim % 2 = 1 := by
  unfold Interp.make
  split_ifs with h1 h2
  · simp; omega
  · simp; omega
  · simp; omega

/-- **C40.** In every state: an interval shorter than `1e-6` makes `solve_interpolation` and `interpolate` throw `std::invalid_argument`, and a wrong number
of intervals makes them throw `std::logic_error`. -/
theorem C40_guards (lu : LU) (s : Interp) (tau : List ℝ) (w : Pts) :
    ((∃ t ∈ tau, t < 1 / 10 ^ 6) → s.solveInterpolation lu tau w = .error .invalidArgument ∧ s.interpolate lu tau w = .error .invalidArgument) ∧
    ((∀ t ∈ tau, 1 / 10 ^ 6 ≤ t) → tau.length ≠ s.n →
      s.solveInterpolation lu tau w = .error .logicError ∧ s.interpolate lu tau w = .error .logicError) := by
  constructor
  · intro h
    have h1 : s.solveInterpolation lu tau w = .error .invalidArgument := by
      unfold Interp.solveInterpolation; rw [if_pos h]
    exact ⟨h1, by unfold Interp.interpolate; rw [h1]; rfl⟩
  · intro h hl
    have h1 : s.solveInterpolation lu tau w = .error .logicError := by
      unfold Interp.solveInterpolation
      rw [if_neg (by push Not; exact h), show fillMatrix s.basis s.codim s.n tau s.mat = .error .logicError by unfold fillMatrix; rw [if_pos hl]]
      rfl
    exact ⟨h1, by unfold Interp.interpolate; rw [h1]; rfl⟩

/-- **C40.** The same guard in `get_coeff_derivative_wrt_tau`. -/
theorem C40_guard_derivative (lu : LU) (s : Interp) (y tau : List ℝ) (idx : ℕ) (h : ∃ t ∈ tau, t < 1 / 10 ^ 6) :
    s.coeffDerivative lu y tau idx = .error .invalidArgument := by
  unfold Interp.coeffDerivative; rw [if_pos h]

/-- **C40** (a failed factorisation): when the factorisation fails, `solve_interpolation` returns the solution of the last call that succeeded. -/
theorem C40_failure_returns_previous (lu : LU) (s s' : Interp) (tau : List ℝ) (w : Pts) (x : List ℝ) (h : s.solveInterpolation lu tau w = .ok (s', x))
    (hf : lu.succeeds s.size s'.mat = false) : x = s.sol := by
  obtain ⟨-, -, -, -, -, -, -, -, hx⟩ := solve_ok h
  rw [hx, hf]; rfl

/-- **C40.** For a new object a failed factorisation makes `interpolate` throw `std::invalid_argument` (there is no solution to return). -/
theorem C40_first_failure (lu : LU) (codim n : ℕ) (hn : 0 < n) (hc : 0 < codim) (b : Basis) (junk : Vec) (s s' : Interp) (hs : Interp.make codim n b junk = .ok s)
    (tau : List ℝ) (w : Pts) (x : List ℝ) (h : s.solveInterpolation lu tau w = .ok (s', x)) (hf : lu.succeeds s.size s'.mat = false) :
    s.interpolate lu tau w = .error .invalidArgument := by
  have hx := C40_failure_returns_previous lu s s' tau w x h hf
  unfold Interp.make at hs
  split_ifs at hs with h1 h2
  cases hs
  obtain ⟨h3, -, -, e1, e2, e3, -, -, -⟩ := solve_ok h
  unfold Interp.interpolate
  rw [h]
  simp only [ok_bind]
  have hsum : 0 ≤ tau.sum := List.sum_nonneg fun t ht => le_trans (by norm_num) (h3 t ht)
  rw [show GSpline.make (0, tau.sum) s'.codim s'.n s'.basis x tau = .error .invalidArgument by
    unfold GSpline.make
    rw [if_pos hsum, if_pos]
    rw [hx, e1, e2, e3]
    simp only [List.length_nil]
    have : 0 < b.dim := Nat.pos_of_ne_zero h2
    positivity]
  rfl

/-- **C40** (partial: the linear solver is assumed to succeed on every matrix that can be inverted; for Basis0101 `α` must be positive): in every history of
calls the factorisation never fails, and the vector that `solve_interpolation` returns is the solution of the new problem. -/
theorem C40_never_stale_partial (lu : LU) (hlu : LUContract lu) (codim n : ℕ) (hn : 0 < n) (b : Basis) (hb : b.Valid) (he : b.dim % 2 = 0) (h0 : b.dim ≠ 0)
    (hl : b.CleanAt (-1)) (hr : b.CleanAt 1) (hi : ∀ a, b = .b0101 a → 0 < a) (s s' : Interp) (hs : Reach lu codim n b s) (tau : List ℝ) (w : Pts) (x : List ℝ)
    (h : s.solveInterpolation lu tau w = .ok (s', x)) :
    lu.succeeds s.size s'.mat = true ∧ Interpolates b n codim (vecOf tau) w.at' (vecOf x) := by
  have U := usable_of hb he h0 hl hr
  have hind : Independent b := by
    cases b with
    | b0101 a => exact hi a rfl
    | _ => trivial
  have hiff := C38_system lu codim n hn b hb he h0 hl hr s s' hs tau w x h
  obtain ⟨I, rfl, rfl, rfl⟩ := reach_inv U hn hs
  obtain ⟨h1, hmat, hvec, e1, e2, e3, -, -, hx⟩ := solve_ok h
  have hlen := fillMatrix_length hmat
  obtain ⟨m', hm', S⟩ := fillMatrix_system U hn hlen I.mat
  have hmm : m' = s'.mat := by rw [hmat] at hm'; exact (Except.ok.inj hm').symm
  rw [hmm] at S
  have hpos : ∀ t ∈ tau, 0 < t := fun t h2 => lt_of_lt_of_le (by norm_num) (h1 t h2)
  have hsucc : lu.succeeds s.size s'.mat = true := hlu.succeeds _ _ (system_invertible U hind hn (fun i hi' => vecOf_pos hpos (by omega)) S)
  refine ⟨hsucc, ?_⟩
  have hsz : s'.size = s.size := by unfold Interp.size; rw [e1, e2, e3]
  rw [← hiff, hsz]
  intro r hr'
  rw [← hlu.solves s.size s'.mat s'.vec hsucc r hr']
  rw [if_pos hsucc] at hx
  exact sum_congr rfl fun k hk => by rw [hx, vecOf_map_range (mem_range.mp hk)]

/-! ## Solvers for the examples -/

open Classical in
/-- A solution of the system, if the matrix can be inverted. -/
noncomputable def solveBy (size : ℕ) (m : Mat) (v : Vec) : Vec := fun k =>
  if h : Spec.Invertible size m then ∑ r ∈ range size, h.choose k r * v r else 0

theorem solveBy_solves (size : ℕ) (m : Mat) (v : Vec) (h : Spec.Invertible size m) : Solves size m (solveBy size m v) v := by
  intro r hr'
  unfold solveBy
  simp only [dif_pos h]
  rw [sum_congr rfl fun k _ => mul_sum _ _ _, sum_comm]
  rw [sum_congr rfl fun j hj => show ∑ k ∈ range size, m r k * (h.choose k j * v j) = (if r = j then 1 else 0) * v j by
      rw [← (h.choose_spec r hr' j (mem_range.mp hj)).2, sum_mul]
      exact sum_congr rfl fun k _ => by ring]
  simp only [ite_mul, one_mul, zero_mul, sum_ite_eq, mem_range]
  rw [if_pos hr']

open Classical in
/-- A solver that satisfies the contract. -/
noncomputable def exactLU : LU := ⟨fun size m => decide (Spec.Invertible size m), solveBy⟩

open Classical in
theorem exactLU_contract : LUContract exactLU :=
  ⟨fun _ _ h => decide_eq_true h, fun size m v h => solveBy_solves size m v (of_decide_eq_true h)⟩

open Classical in
/-- A solver that fails on some matrices although they can be inverted (as every solver in floating point arithmetic does); when it succeeds, the solution is right. -/
noncomputable def pickyLU : LU := ⟨fun size m => decide (Spec.Invertible size m ∧ m 1 1 = 2), solveBy⟩

open Classical in
theorem pickyLU_solves (size : ℕ) (m : Mat) (v : Vec) (h : pickyLU.succeeds size m = true) : Solves size m (pickyLU.solve size m v) v :=
  solveBy_solves size m v (of_decide_eq_true h).1

/-! ## Examples -/

theorem valid_legendre4 : (Basis.legendre 4).Valid := by norm_num [Basis.Valid]

theorem usable4 : Usable (.legendre 4) 1 := ⟨valid_legendre4, rfl, trivial, trivial⟩

/-- The matrix of one cubic: the entry `(1, 1)` is the derivative of the second Legendre polynomial at the beginning. -/
theorem matrix_entry {m : Mat} {t : ℝ} (ht : t ≠ 0) (S : System (.legendre 4) 1 1 1 (vecOf [t]) m) : m 1 1 = 2 / t := by
  have h := S.sum usable4 (by norm_num) (by intro i hi; interval_cases i; exact ht) (fun k => if k = 1 then 1 else 0) (Cond.restL 0 0)
  have e : row 1 1 1 (Cond.restL 0 0) = 1 := rfl
  rw [e] at h
  simp only [mul_ite, mul_one, mul_zero, sum_ite_eq', mem_range, Basis.dim, Cond.quantity] at h
  rw [if_pos (by norm_num)] at h
  rw [h]
  have e2 : piece (.legendre 4) 1 (vecOf [t]) (fun k => if k = 1 then 1 else 0) 0 0 = fun x => 2 * x / t - 1 := by
    funext x
    simp [piece, comb, basisFn, vecOf, window, Basis.dim, LegendrePoly.legendre_one]
  have e3 : HasDerivAt (fun x : ℝ => 2 * x / t - 1) (2 / t) 0 := by
    have := (((hasDerivAt_id (0:ℝ)).const_mul 2).div_const t).sub_const 1
    simpa using this
  simp only [Fin.val_zero, zero_add, iteratedDeriv_one, Fin.isValue]
  rw [e2]
  exact e3.deriv

/-- **C40 is violated** when a factorisation can fail: an object that solved one problem and then fails to factorise the matrix of a second problem returns a
spline as if it had succeeded; the spline does not pass through the new way points. -/
theorem C40_stale_false : ∃ (lu : LU), (∀ size m v, lu.succeeds size m = true → Solves size m (lu.solve size m v) v) ∧
    ∃ (s0 s1 s2 : Interp) (g1 g2 : GSpline) (w1 w2 : Pts), Interp.make 1 1 (.legendre 4) (fun _ => 0) = .ok s0 ∧
      s0.interpolate lu [1] w1 = .ok (s1, g1) ∧ s1.interpolate lu [2] w2 = .ok (s2, g2) ∧ Meets g1 w1.at' ∧ ¬ Meets g2 w2.at' := by
  classical
  refine ⟨pickyLU, pickyLU_solves, ?_⟩
  have hmk : Interp.make 1 1 (.legendre 4) (fun _ => 0) = .ok ⟨.legendre 4, 1, 1, Mat.zero, fun _ => 0, fun _ => 0, fun _ => Mat.zero, []⟩ := rfl
  set s0 : Interp := ⟨.legendre 4, 1, 1, Mat.zero, fun _ => 0, fun _ => 0, fun _ => Mat.zero, []⟩ with hs0
  have R0 : Reach pickyLU 1 1 (.legendre 4) s0 := Reach.make hmk
  -- the first problem
  obtain ⟨I0, -, -, -⟩ := reach_inv usable4 (by norm_num) R0
  obtain ⟨m1, hm1, S1⟩ := fillMatrix_system usable4 (n := 1) (c := 1) (tau := [1]) (by norm_num) rfl I0.mat
  have hinv1 : Spec.Invertible 4 m1 := system_invertible usable4 trivial (by norm_num) (by intro i hi; interval_cases i; norm_num [vecOf]) S1
  have hs1 : pickyLU.succeeds 4 m1 = true := by
    refine decide_eq_true ⟨hinv1, ?_⟩
    rw [matrix_entry one_ne_zero S1]; norm_num
  obtain ⟨v1, hv1, -⟩ := fillVector_ok (h := 1) (n := 1) (c := 1) (w := ⟨2, 1, fun _ _ => 0⟩) (by norm_num) (by norm_num) (by norm_num) s0.vec
  let s1 : Interp := { s0 with mat := m1, vec := v1, sol := (List.range 4).map (pickyLU.solve 4 m1 v1) }
  have hsol1 : s0.solveInterpolation pickyLU [1] ⟨2, 1, fun _ _ => 0⟩ = .ok (s1, (List.range 4).map (pickyLU.solve 4 m1 v1)) := by
    unfold Interp.solveInterpolation
    rw [if_neg (by push Not; intro t ht; simp at ht; rw [ht]; norm_num)]
    have a1 : fillMatrix s0.basis s0.codim s0.n [1] s0.mat = .ok m1 := hm1
    have a2 : fillVector s0.basis.dim s0.codim s0.n ⟨2, 1, fun _ _ => 0⟩ s0.vec = .ok v1 := hv1
    rw [a1, a2]
    simp only [ok_bind]
    exact if_pos hs1
  have hint1 : s0.interpolate pickyLU [1] ⟨2, 1, fun _ _ => 0⟩ = .ok (s1, ⟨(0, [1].sum), 1, .legendre 4, (List.range 4).map (pickyLU.solve 4 m1 v1), [1]⟩) := by
    unfold Interp.interpolate
    rw [hsol1]
    simp only [ok_bind]
    rw [show GSpline.make (0, [1].sum) s1.codim s1.n s1.basis ((List.range 4).map (pickyLU.solve 4 m1 v1)) [1] =
      .ok ⟨(0, [1].sum), 1, .legendre 4, (List.range 4).map (pickyLU.solve 4 m1 v1), [1]⟩ from
        GSpline.make_ok (by norm_num) (by simp [Basis.dim]; rfl)]
    rfl
  have R1 : Reach pickyLU 1 1 (.legendre 4) s1 := Reach.solve R0 hsol1
  obtain ⟨I1, -, -, -⟩ := reach_inv usable4 (by norm_num) R1
  -- the second problem
  obtain ⟨m2, hm2, S2⟩ := fillMatrix_system usable4 (n := 1) (c := 1) (tau := [2]) (by norm_num) rfl I1.mat
  have hs2 : ¬ pickyLU.succeeds 4 m2 = true := by
    intro h
    have := (of_decide_eq_true h).2
    rw [matrix_entry two_ne_zero S2] at this
    norm_num at this
  obtain ⟨v2, hv2, -⟩ := fillVector_ok (h := 1) (n := 1) (c := 1) (w := ⟨2, 1, fun _ _ => 1⟩) (by norm_num) (by norm_num) (by norm_num) s1.vec
  let s2 : Interp := { s1 with mat := m2, vec := v2 }
  have hsol2 : s1.solveInterpolation pickyLU [2] ⟨2, 1, fun _ _ => 1⟩ = .ok (s2, s1.sol) := by
    unfold Interp.solveInterpolation
    rw [if_neg (by push Not; intro t ht; simp at ht; rw [ht]; norm_num)]
    have a1 : fillMatrix s1.basis s1.codim s1.n [2] s1.mat = .ok m2 := hm2
    have a2 : fillVector s1.basis.dim s1.codim s1.n ⟨2, 1, fun _ _ => 1⟩ s1.vec = .ok v2 := hv2
    rw [a1, a2]
    simp only [ok_bind]
    exact if_neg hs2
  have hint2 : s1.interpolate pickyLU [2] ⟨2, 1, fun _ _ => 1⟩ = .ok (s2, ⟨(0, [2].sum), 1, .legendre 4, s1.sol, [2]⟩) := by
    unfold Interp.interpolate
    rw [hsol2]
    simp only [ok_bind]
    rw [show GSpline.make (0, [2].sum) s2.codim s2.n s2.basis s1.sol [2] = .ok ⟨(0, [2].sum), 1, .legendre 4, s1.sol, [2]⟩ from
        GSpline.make_ok (by norm_num) (by simp [s1, Basis.dim]; rfl)]
    rfl
  refine ⟨s0, s1, s2, _, _, _, _, hmk, hint1, hint2, ?_, ?_⟩
  · -- the first spline is right
    have hiff := C38_system pickyLU 1 1 (by norm_num) (.legendre 4) valid_legendre4 rfl (by decide) trivial trivial s0 s1 R0 [1] _ _ hsol1
    refine meets_of_interpolates valid_legendre4 trivial trivial ⟨by simp, by simp⟩ (by simp [Consistent, Basis.dim]) (by simp) ?_
    refine (hiff _).mp ?_
    intro r hr'
    refine Eq.trans ?_ (pickyLU_solves 4 m1 v1 hs1 r hr')
    refine sum_congr rfl fun k hk => ?_
    have := vecOf_map_range (v := pickyLU.solve 4 m1 v1) (n := 4) (mem_range.mp hk)
    exact congrArg (m1 r k * ·) this
  · -- the second is not: its coefficients vanish
    intro hM
    have hiff := C38_system pickyLU 1 1 (by norm_num) (.legendre 4) valid_legendre4 rfl (by decide) trivial trivial s0 s1 R0 [1] _ _ hsol1
    have hz : ∀ k < 4, pickyLU.solve 4 m1 v1 k = 0 := by
      refine Invertible.unique hinv1 (pickyLU_solves 4 m1 v1 hs1) (z := fun _ => 0) ((hiff _).mpr ?_)
      have hp : ∀ iv comp, piece (.legendre 4) 1 (vecOf [1]) (fun _ => 0) iv comp = fun _ => 0 := by
        intro iv comp; funext x; simp [piece, comb]
      constructor
      · intros; rw [hp]
      · intros; rw [hp]
      · intros; rw [hp, iteratedDeriv_const]; split_ifs <;> rfl
      · intros; rw [hp, iteratedDeriv_const]; split_ifs <;> rfl
      · intro iv _ comp _ d _ _; rw [hp, hp, iteratedDeriv_const, iteratedDeriv_const]
    obtain ⟨v, hv, -, hvc⟩ := hM.points 0 (by simp)
    have hv0 := hvc 0 (by simp)
    set g2 : GSpline := ⟨(0, [2].sum), 1, .legendre 4, s1.sol, [2]⟩ with hg2
    have hpos2 : Positive g2 := ⟨by simp [g2], by simp [g2]⟩
    obtain ⟨v', hv', -, hvc'⟩ := GSpline.value_spec (g := g2) (t := brk g2 0) (i := 0) valid_legendre4 (by simp [g2, s1, Consistent, Basis.dim])
      (GSpline.getInterval_of_located hpos2 ⟨by simp [g2], .inl ⟨le_rfl, rfl⟩⟩) (by simp [g2]) (by simp [g2, vecOf]) trivial
    have hvv : v = v' := by rw [hv] at hv'; exact Except.ok.inj hv'
    rw [hvv, hvc' 0 (by simp [g2])] at hv0
    have hcz : curve g2 0 0 (brk g2 0) = 0 := by
      simp only [curve, piece, comb]
      refine sum_eq_zero fun k hk => ?_
      rw [show vecOf g2.coeffs (0 * g2.basis.dim * g2.codim + g2.basis.dim * 0 + k) = 0 by
        have hk' : k < 4 := mem_range.mp hk
        simp only [zero_mul, mul_zero, zero_add]
        exact (vecOf_map_range hk').trans (hz k hk')]
      simp
    rw [hcz] at hv0
    simp at hv0

/-- C57, C37: cubics in Legendre form through arbitrary planar way points, seven intervals. -/
example (w : ℕ → ℕ → ℝ) : ∃ g, interpolateFn exactLU (fun _ => 0) [1, 2, 1/2, 3, 1, 1, 4] ⟨8, 2, w⟩ (.legendre 4) = .ok g ∧
    g.dom = (0, [1, 2, 1/2, 3, 1, 1, 4].sum) ∧ g.tau = [1, 2, 1/2, 3, 1, 1, 4] ∧ g.codim = 2 ∧ g.basis = .legendre 4 ∧ Meets g w :=
  C57_interpolate_function exactLU exactLU_contract _ (.legendre 4) valid_legendre4 rfl (by decide) trivial trivial (by simp) _ (by simp)
    (by simp; norm_num) ⟨8, 2, w⟩ rfl

/-- C57: quintics through arbitrary way points in space. -/
example (w : ℕ → ℕ → ℝ) : ∃ g, pwPolynomialInterpolation exactLU (fun _ => 0) [1, 2, 1/2] ⟨4, 3, w⟩ 6 = .ok g ∧ g.dom = (0, [1, 2, 1/2].sum) ∧ g.tau = [1, 2, 1/2] ∧
    g.codim = 3 ∧ g.basis = .legendre 6 ∧ Meets g w :=
  C57_pw_polynomial exactLU exactLU_contract _ 6 (by norm_num) (by norm_num) _ (by simp) (by simp; norm_num) ⟨4, 3, w⟩ rfl

/-- C57: the minimum jerk-like basis. -/
example (w : ℕ → ℕ → ℝ) : ∃ g, interpolateFn exactLU (fun _ => 0) [1, 1/1000, 3] ⟨4, 7, w⟩ (.b0101 (1 / 4)) = .ok g ∧
    g.dom = (0, [1, 1/1000, 3].sum) ∧ g.tau = [1, 1/1000, 3] ∧ g.codim = 7 ∧ g.basis = .b0101 (1 / 4) ∧ Meets g w :=
  C57_interpolate_function exactLU exactLU_contract _ (.b0101 (1 / 4)) (by norm_num [Basis.Valid]) rfl (by simp [Basis.dim]) trivial trivial
    (by rintro a h; cases h; norm_num) _ (by simp) (by simp; norm_num) ⟨4, 7, w⟩ rfl

theorem twoNodes_valid : (Basis.lagrange [-1, 1]).Valid := by
  intro i hi j hj h
  have hi' : i < 2 := hi
  have hj' : j < 2 := hj
  interval_cases i <;> interval_cases j <;> first | rfl | (exfalso; revert h; simp [Lagrange.almostEqual, vecOf, tol9]; norm_num)

/-- C57: polygons, with the Lagrange basis on two nodes. -/
example (w : ℕ → ℕ → ℝ) : ∃ g, interpolateFn exactLU (fun _ => 0) [1, 5] ⟨3, 2, w⟩ (.lagrange [-1, 1]) = .ok g ∧
    g.dom = (0, [1, 5].sum) ∧ g.tau = [1, 5] ∧ g.codim = 2 ∧ g.basis = .lagrange [-1, 1] ∧ Meets g w := by
  refine C57_interpolate_function exactLU exactLU_contract _ (.lagrange [-1, 1]) twoNodes_valid rfl (by simp [Basis.dim]) ?_ ?_
    (by simp) _ (by simp) (by simp; norm_num) ⟨3, 2, w⟩ rfl
  · intro j hj h
    have hj' : j < 2 := hj
    interval_cases j
    · simp [vecOf]
    · exfalso; revert h; simp [Lagrange.almostEqual, vecOf, tol9]; norm_num
  · intro j hj h
    have hj' : j < 2 := hj
    interval_cases j
    · exfalso; revert h; simp [Lagrange.almostEqual, vecOf, tol9]; norm_num
    · simp [vecOf]

/-- C38, C40: calls that meet the hypotheses; the object has been used for another problem before. -/
example : ∃ s s1 s2 x1 x2, Interp.make 2 3 (.legendre 4) (fun _ => 0) = .ok s ∧ s.solveInterpolation exactLU [1, 2, 3] ⟨4, 2, fun i j => i + j⟩ = .ok (s1, x1) ∧
    Reach exactLU 2 3 (.legendre 4) s1 ∧ s1.solveInterpolation exactLU [3, 2, 1] ⟨4, 2, fun i j => i * j⟩ = .ok (s2, x2) ∧
    Interpolates (.legendre 4) 3 2 (vecOf [3, 2, 1]) (fun i j => i * j) (vecOf x2) := by
  have R0 : Reach exactLU 2 3 (.legendre 4) ⟨.legendre 4, 2, 3, Mat.zero, fun _ => 0, fun _ => 0, fun _ => Mat.zero, []⟩ := Reach.make (junk := fun _ => 0) rfl
  obtain ⟨s1, g1, h1, -⟩ := C57_always_interpolates exactLU exactLU_contract 2 3 (by norm_num) (.legendre 4) valid_legendre4 rfl (by decide) trivial trivial (by simp)
    _ R0 [1, 2, 3] rfl (by simp; norm_num) ⟨4, 2, fun i j => i + j⟩ rfl rfl
  have split : ∀ {s s' : Interp} {tau w g}, s.interpolate exactLU tau w = .ok (s', g) → ∃ x, s.solveInterpolation exactLU tau w = .ok (s', x) := by
    intro s s' tau w g h
    unfold Interp.interpolate at h
    cases hsol : s.solveInterpolation exactLU tau w with
    | error e => rw [hsol] at h; cases h
    | ok p =>
      rw [hsol] at h
      simp only [ok_bind] at h
      cases hmk : GSpline.make (0, tau.sum) p.1.codim p.1.n p.1.basis p.2 tau with
      | error e => rw [hmk] at h; cases h
      | ok g' => rw [hmk] at h; simp only [ok_bind] at h; cases h; exact ⟨_, rfl⟩
  obtain ⟨x1, hx1⟩ := split h1
  have R1 := Reach.solve R0 hx1
  obtain ⟨s2, g2, h2, -⟩ := C57_always_interpolates exactLU exactLU_contract 2 3 (by norm_num) (.legendre 4) valid_legendre4 rfl (by decide) trivial trivial (by simp)
    _ R1 [3, 2, 1] rfl (by simp; norm_num) ⟨4, 2, fun i j => i * j⟩ rfl rfl
  obtain ⟨x2, hx2⟩ := split h2
  exact ⟨_, s1, s2, x1, x2, rfl, hx1, R1, hx2, (C40_never_stale_partial exactLU exactLU_contract 2 3 (by norm_num) (.legendre 4) valid_legendre4 rfl (by decide)
    trivial trivial (by simp) s1 s2 R1 _ _ _ hx2).2⟩

/-- C39: there are such coefficients `Y`. -/
example (w : ℕ → ℕ → ℝ) : ∃ Y : ℝ → ℕ → ℝ, (∀ᶠ z in nhds (vecOf [1, 2, 3] 1), Interpolates (.legendre 6) 3 2 (Function.update (vecOf [1, 2, 3]) 1 z) w (Y z)) ∧
    ∃ s s' d, Interp.make 2 3 (.legendre 6) (fun _ => 0) = .ok s ∧
      s.coeffDerivative exactLU ((List.range s.size).map (Y (vecOf [1, 2, 3] 1))) [1, 2, 3] 1 = .ok (s', d) ∧
      ∀ k < s.size, HasDerivAt (fun z => Y z k) (d k) (vecOf [1, 2, 3] 1) := by
  have hv : (Basis.legendre 6).Valid := by norm_num [Basis.Valid]
  have hex : ∀ z : ℝ, ∃ y : ℕ → ℝ, 0 < z → Interpolates (.legendre 6) 3 2 (Function.update (vecOf [1, 2, 3]) 1 z) w y := by
    intro z
    by_cases hz : 0 < z
    · obtain ⟨y, hy, -⟩ := C57_unique_solution 2 3 (by norm_num) (.legendre 6) hv rfl (by decide) trivial trivial (by simp) (Function.update (vecOf [1, 2, 3]) 1 z)
        (by intro i hi; interval_cases i <;> simp [vecOf, hz]) w
      exact ⟨y, fun _ => hy⟩
    · exact ⟨fun _ => 0, fun h => absurd h hz⟩
  choose Y hY using hex
  have hev : ∀ᶠ z in nhds (vecOf [1, 2, 3] 1), Interpolates (.legendre 6) 3 2 (Function.update (vecOf [1, 2, 3]) 1 z) w (Y z) := by
    filter_upwards [lt_mem_nhds (show (0 : ℝ) < vecOf [1, 2, 3] 1 by simp [vecOf])] with z hz using hY z hz
  have R0 : Reach exactLU 2 3 (.legendre 6) ⟨.legendre 6, 2, 3, Mat.zero, fun _ => 0, fun _ => 0, fun _ => Mat.zero, []⟩ := Reach.make (junk := fun _ => 0) rfl
  obtain ⟨s', d, h1, h2⟩ := C39_coefficient_derivative exactLU exactLU_contract 2 3 (.legendre 6) hv rfl (by decide) trivial trivial (by simp) _ R0 [1, 2, 3] rfl
    (by simp; norm_num) 1 (by norm_num) w Y hev
  exact ⟨Y, hev, _, s', d, rfl, h1, h2⟩

end GSplines.Props
