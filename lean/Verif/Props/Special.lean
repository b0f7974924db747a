import Verif.Proofs.SpecialEval
import Verif.Proofs.SpecialArith
import Verif.Proofs.Tools

/-!
# C75: numbers that are not finite

A double is a finite number, an infinity or not a number; any of them can be given to the library.
-/

namespace GSplines.Props

open GSplines Spec Special Dbl DblArith

/-- **C75** (the arithmetic that the rest is about): the rules of IEEE 754, stated with the extended real numbers. The result is not a number exactly if an operand is
not, or for `∞ - ∞`, `0 * ∞`, `0 / 0` and `∞ / ∞`; otherwise sum, product and quotient (by a number that is not zero) are those of the extended real
numbers; a quotient by zero is infinite with the sign of the numerator (a zero has no sign here). Comparisons are
those of the extended real numbers, and false if an operand is not a number. -/
theorem C75_arithmetic (x y : Dbl) :
    (x + y = nan ↔ x = nan ∨ y = nan ∨ ∃ s, x = .inf s ∧ y = .inf (!s)) ∧ (x + y ≠ nan → ext (x + y) = ext x + ext y) ∧
    (x - y = nan ↔ x = nan ∨ y = nan ∨ ∃ s, x = .inf s ∧ y = .inf s) ∧ (x - y ≠ nan → ext (x - y) = ext x - ext y) ∧
    (x * y = nan ↔ x = nan ∨ y = nan ∨ (x = fin 0 ∧ ∃ s, y = .inf s) ∨ ((∃ s, x = .inf s) ∧ y = fin 0)) ∧ (x * y ≠ nan → ext (x * y) = ext x * ext y) ∧
    (x / y = nan ↔ x = nan ∨ y = nan ∨ (x = fin 0 ∧ y = fin 0) ∨ ((∃ s, x = .inf s) ∧ ∃ s, y = .inf s)) ∧
    (x / y ≠ nan → y ≠ fin 0 → ext (x / y) = ext x / ext y) ∧ (x / fin 0 ≠ nan → ext (x / fin 0) = if ext x < 0 then ⊥ else ⊤) ∧
    (x < y ↔ x ≠ nan ∧ y ≠ nan ∧ ext x < ext y) ∧ (x ≤ y ↔ x ≠ nan ∧ y ≠ nan ∧ ext x ≤ ext y) :=
  ⟨add_nan_iff x y, add_ext x y, sub_nan_iff x y, fun h => by rw [sub_eq_add_neg, ← neg_ext]; exact add_ext x _ h, mul_nan_iff x y, mul_ext x y, div_nan_iff x y, div_ext x y, div_zero_ext x, lt_ext x y,
    le_ext x y⟩

/-- Both sides of the rules occur. -/
example : (Dbl.inf true) + fin 3 ≠ nan ∧ (Dbl.inf true) + .inf false = nan ∧ fin 2 / .inf true ≠ nan ∧ fin 0 / fin 0 = nan :=
  ⟨fun h => by simpa using ((C75_arithmetic _ _).1.1 h), (C75_arithmetic _ _).1.2 (.inr (.inr ⟨true, rfl, rfl⟩)), by rw [Ne, (C75_arithmetic _ _).2.2.2.2.2.2.1]; simp,
    (C75_arithmetic (fin 0) (fin 0)).2.2.2.2.2.2.1.2 (.inr (.inr (.inl ⟨rfl, rfl⟩)))⟩

/-- Evaluating a spline at any double, whatever its numbers are, stays inside its vectors and gives one number per component. -/
theorem C75_evaluate_total (g : DSpline) (hs : Sized g) (t : Dbl) : ∃ v, g.value t = .ok v ∧ v.length = g.codim := by
  obtain ⟨buf, _, h⟩ := value_eq hs t
  exact ⟨_, h, by simp [rowD]⟩

/-- With finite numbers the result is the one of the model with real numbers. -/
theorem C75_evaluate_finite (g : GSpline) (hb : g.basis.Valid) (hc : Consistent g) (hp : Positive g) (t : ℝ) :
    ∃ v, g.value t = .ok v ∧ (exact g).value (fin t) = .ok (v.map fin) := value_exact hb hc hp.1 hp.not_mem t

/-- At "not a number" all components are not a number, whatever the numbers of the spline are. -/
theorem C75_evaluate_nan (g : DSpline) (hs : Sized g) : g.value nan = .ok (List.replicate g.codim nan) := by
  obtain ⟨buf, h1, h2⟩ := value_eq hs nan
  have e : winD g nan (g.getInterval nan) = nan := by simp [winD]
  rw [e] at h1
  obtain ⟨k, hk, hn⟩ := eval_nan hs h1
  rw [h2, row_nan hs (getInterval_lt g hs.1 nan) hk hn]

/-- At an infinite instant no component is a finite number. -/
theorem C75_evaluate_infinite (g : GSpline) (hb : g.basis.Valid) (hd : 0 < g.basis.dim) (hc : Consistent g) (hp : Positive g) (s : Bool) :
    ∃ v, (exact g).value (.inf s) = .ok v ∧ v.length = g.codim ∧ ∀ x ∈ v, ¬ IsFinite x := by
  have hs := sized_exact hb hd hc hp.1
  obtain ⟨buf, h1, h2⟩ := value_eq hs (.inf s)
  have hi := getInterval_lt (exact g) hs.1 (.inf s)
  generalize (exact g).getInterval (.inf s) = i at h1 h2 hi
  have hi' : i < g.tau.length := by simpa [exact] using hi
  have e : winD (exact g) (.inf s) i = .inf s := by
    unfold winD
    have e1 : (exact g).dom.1 = fin g.dom.1 := rfl
    have e2 : Dbl.sum ((exact g).tau.take i) = fin (g.tau.take i).sum := take_sum_fin g.tau i
    have e3 : vecD (exact g).tau i = fin (vecOf g.tau i) := vecD_map g.tau i
    rw [e1, e2, e3, fin_add, inf_sub_fin, fin_mul_inf_pos (by norm_num), inf_div_fin_pos (vecOf_pos hp.2 hi'), inf_sub_fin]
  rw [e] at h1
  obtain ⟨k, hk, hn⟩ := eval_inf hb hd h1
  refine ⟨_, h2, by simp [rowD, exact], row_not_finite hs hi (k := k) ?_ hn⟩
  rw [show (exact g).basis.dim = g.basis.dim from exactBasis_dim _]
  exact hk

/-- A length that is not a number, of interval `j`: before interval `j` the spline is as before, from there on all components are not a number. -/
theorem C75_length_nan (g : GSpline) (hb : g.basis.Valid) (hd : 0 < g.basis.dim) (hc : Consistent g) (hp : Positive g) (j : ℕ) (hj : j < g.tau.length) (t : ℝ) (i : ℕ)
    (hi : Located g t i) :
    (i < j → (withLength (exact g) j nan).value (fin t) = (exact g).value (fin t)) ∧
      (j ≤ i → (withLength (exact g) j nan).value (fin t) = .ok (List.replicate g.codim nan)) := by
  have hs := sized_exact hb hd hc hp.1
  have hs' := withLength_sized hs j nan
  have hlen : (exact g).tau.length = g.tau.length := List.length_map ..
  have hlen' : (withLength (exact g) j nan).tau.length = g.tau.length := by simp [withLength, exact]
  refine ⟨fun hij => ?_, fun hij => ?_⟩
  · obtain ⟨buf, h1, h2⟩ := value_eq hs (fin t)
    rw [getInterval_fin, GSpline.getInterval_of_located hp hi] at h1 h2
    have e1 : winD (withLength (exact g) j nan) (fin t) i = winD (exact g) (fin t) i := by
      unfold winD withLength
      simp only [List.take_set_of_le hij.le, vecD_set_ne _ hij.ne']
    have e2 : vecD (withLength (exact g) j nan).tau i = vecD (exact g).tau i := vecD_set_ne _ hij.ne' _
    rw [h2]
    exact value_ok hs'.2.1 (getInterval_before hp hi hij hj nan) (by rw [hlen']; exact hi.1) (by rw [e1, e2]; exact h1)
  · obtain ⟨buf, h1, h2⟩ := value_eq hs' (fin t)
    have hk := getInterval_lt (withLength (exact g) j nan) hs'.1 (fin t)
    have hge : j ≤ (withLength (exact g) j nan).getInterval (fin t) := by
      by_cases hb : brk g j < t
      · rw [getInterval_nan hp hj hb]
        omega
      · have : j = 0 := by
          obtain ⟨hi1, h | h | h⟩ := hi
          · omega
          · exact absurd (lt_of_le_of_lt (GSpline.brk_mono hp hij hi1.le) h.1) hb
          · exact absurd (lt_of_le_of_lt (GSpline.brk_mono hp hj.le le_rfl) h.1) hb
        omega
    generalize (withLength (exact g) j nan).getInterval (fin t) = k at h1 h2 hk hge
    have e : winD (withLength (exact g) j nan) (fin t) k = nan := by
      unfold winD
      rcases hge.eq_or_lt with rfl | hlt
      · rw [show vecD (withLength (exact g) j nan).tau j = nan from vecD_set_self (by rw [hlen]; exact hj) nan]
        simp
      · have : nan ∈ (withLength (exact g) j nan).tau.take k := by
          rw [List.mem_iff_getElem?]
          exact ⟨j, by simp [withLength, List.getElem?_take, hlt, hlen, hj]⟩
        rw [sum_nan this]
        simp
    rw [e] at h1
    obtain ⟨m, hm, hn⟩ := eval_nan hs' h1
    rw [h2, row_nan hs' hk hm hn]
    rfl

/-- An infinite length of interval `j`: from there on the spline is constant and finite, for the polynomial bases. Before interval `j` it is as before. -/
theorem C75_length_infinite (g : GSpline) (hb : g.basis.Valid) (hd : 0 < g.basis.dim) (hc : Consistent g) (hp : Positive g) (j : ℕ) (hj : j < g.tau.length)
    (hpoly : ∀ a, g.basis ≠ .b0101 a) :
    (∀ t i, Located g t i → i < j → (withLength (exact g) j (.inf false)).value (fin t) = (exact g).value (fin t)) ∧
      ∃ v : List ℝ, v.length = g.codim ∧ ∀ t, brk g j < t → (withLength (exact g) j (.inf false)).value (fin t) = .ok (v.map fin) := by
  have hs := sized_exact hb hd hc hp.1
  have hs' := withLength_sized hs j (.inf false)
  have hlen : (exact g).tau.length = g.tau.length := List.length_map ..
  have hlen' : (withLength (exact g) j (.inf false)).tau.length = g.tau.length := by simp [withLength, exact]
  refine ⟨fun t i hi hij => ?_, ?_⟩
  · obtain ⟨buf, h1, h2⟩ := value_eq hs (fin t)
    rw [getInterval_fin, GSpline.getInterval_of_located hp hi] at h1 h2
    have e1 : winD (withLength (exact g) j (.inf false)) (fin t) i = winD (exact g) (fin t) i := by
      unfold winD withLength
      simp only [List.take_set_of_le hij.le, vecD_set_ne _ hij.ne']
    have e2 : vecD (withLength (exact g) j (.inf false)).tau i = vecD (exact g).tau i := vecD_set_ne _ hij.ne' _
    rw [h2]
    exact value_ok hs'.2.1 (getInterval_before hp hi hij hj _) (by rw [hlen']; exact hi.1) (by rw [e1, e2]; exact h1)
  · obtain ⟨v, w, _, h2, h3⟩ := evalOnWindow_fin hb (-1) 1
    refine ⟨g.rowOf j v, GSpline.rowOf_length _ _ _, fun t ht => ?_⟩
    have e : winD (withLength (exact g) j (.inf false)) (fin t) j = fin (-1) := by
      unfold winD
      rw [show vecD (withLength (exact g) j (.inf false)).tau j = .inf false from vecD_set_self (by rw [hlen]; exact hj) _]
      rw [show (withLength (exact g) j (.inf false)).tau.take j = (exact g).tau.take j from List.take_set_of_le le_rfl,
        show (withLength (exact g) j (.inf false)).dom.1 = fin g.dom.1 from rfl, show Dbl.sum ((exact g).tau.take j) = _ from take_sum_fin g.tau j]
      simp
    rw [← row_exact hc hj h3]
    refine value_ok (g := withLength (exact g) j (.inf false)) hs'.2.1 (getInterval_inf hp hj ht) (by rw [hlen']; exact hj) (buf := w) ?_
    rw [e]
    show (exactBasis g.basis).evalOnWindow _ _ = _
    cases hbs : g.basis with
    | legendre d => rw [hbs] at h2; exact h2
    | lagrange x => rw [hbs] at h2; exact h2
    | b0101 a => exact absurd hbs (hpoly a)

theorem segment_cases {d n i c i0 c0 k0 : ℕ} (hc : c < n) (hc0 : c0 < n) (hk : k0 < d) (h : i ≠ i0 ∨ c ≠ c0) :
    i0 * d * n + d * c0 + k0 < i * d * n + d * c ∨ i * d * n + d * c + d ≤ i0 * d * n + d * c0 + k0 := by
  have e : ∀ a b : ℕ, a * d * n + d * b = d * (a * n + b) := fun a b => by ring
  rw [e, e]
  have hne : i * n + c ≠ i0 * n + c0 := by
    intro he
    have h1 := congrArg (· / n) he
    have h2 := congrArg (· % n) he
    simp only [Nat.mul_add_mod_of_lt hc, Nat.mul_add_mod_of_lt hc0] at h2
    have h3 : ∀ a b : ℕ, b < n → (a * n + b) / n = a := fun a b hb => by
      rw [Nat.add_comm, Nat.add_mul_div_right _ _ (by omega), Nat.div_eq_of_lt hb]; omega
    simp only [h3 _ _ hc, h3 _ _ hc0] at h1
    rcases h with h | h
    · exact h h1
    · exact h h2
  rcases Nat.lt_or_gt_of_ne hne with hlt | hgt
  · right
    have := Nat.mul_le_mul_left d (show i * n + c + 1 ≤ i0 * n + c0 from hlt)
    rw [Nat.mul_add, Nat.mul_one] at this
    omega
  · left
    have := Nat.mul_le_mul_left d (show i0 * n + c0 + 1 ≤ i * n + c from hgt)
    rw [Nat.mul_add, Nat.mul_one] at this
    omega

/-- A coefficient `k` of component `c` in interval `i` that is not finite: other components and other intervals are as before, and in interval `i` component `c` is not
finite, and not a number if the coefficient is not a number. -/
theorem C75_coefficient (g : GSpline) (hb : g.basis.Valid) (hc : Consistent g) (hp : Positive g) (i₀ c₀ k₀ : ℕ) (hi₀ : i₀ < g.tau.length) (hc₀ : c₀ < g.codim)
    (hk₀ : k₀ < g.basis.dim) (x : Dbl) (t : ℝ) (i : ℕ) (hi : Located g t i) :
    ∃ v v', g.value t = .ok v ∧ (withCoeff (exact g) (place g i₀ c₀ k₀) x).value (fin t) = .ok v' ∧ v'.length = g.codim ∧
      (∀ c, i ≠ i₀ ∨ c ≠ c₀ → v'[c]? = (v[c]?).map fin) ∧
      (i = i₀ → ∀ y, v'[c₀]? = some y → (¬ IsFinite x → ¬ IsFinite y) ∧ (x = nan → y = nan)) := by
  have hs := sized_exact hb (by omega) hc hp.1
  have hdim : (exact g).basis.dim = g.basis.dim := exactBasis_dim _
  have hlen : (exact g).tau.length = g.tau.length := List.length_map ..
  obtain ⟨v, hv1, hv2⟩ := value_exact hb hc hp.1 hp.not_mem t
  obtain ⟨buf, h1, h2⟩ := value_eq hs (fin t)
  rw [getInterval_fin, GSpline.getInterval_of_located hp hi] at h1 h2
  have hsz : Sized (withCoeff (exact g) (place g i₀ c₀ k₀) x) := ⟨hs.1, by simpa [withCoeff] using hs.2.1, hs.2.2⟩
  have h3 : (withCoeff (exact g) (place g i₀ c₀ k₀) x).value (fin t) = .ok (rowD (withCoeff (exact g) (place g i₀ c₀ k₀) x) i buf) :=
    value_ok hsz.2.1 ((getInterval_fin g t).trans (GSpline.getInterval_of_located hp hi)) (by show i < (exact g).tau.length; rw [hlen]; exact hi.1) h1
  rw [hv2] at h2
  injection h2 with h2
  refine ⟨v, _, hv1, h3, by simp [rowD, withCoeff, exact], ?_, ?_⟩
  · intro c hcc
    rw [← List.getElem?_map, h2]
    rcases Nat.lt_or_ge c g.codim with hcl | hcl
    · unfold rowD
      simp only [List.getElem?_map]
      rw [show (withCoeff (exact g) (place g i₀ c₀ k₀) x).codim = g.codim from rfl, show (exact g).codim = g.codim from rfl, List.getElem?_range hcl]
      simp only [Option.map_some]
      congr 2
      have key := segment_cases (d := g.basis.dim) hcl hc₀ hk₀ hcc
      show List.take (exactBasis g.basis).dim (List.drop (i * (exactBasis g.basis).dim * g.codim + (exactBasis g.basis).dim * c) ((exact g).coeffs.set _ x)) = _
      rw [exactBasis_dim]
      show _ = List.take (exactBasis g.basis).dim (List.drop (i * (exactBasis g.basis).dim * g.codim + (exactBasis g.basis).dim * c) (exact g).coeffs)
      rw [exactBasis_dim]
      refine List.ext_getElem? fun m => ?_
      simp only [List.getElem?_take, List.getElem?_drop]
      split_ifs with hm
      · refine List.getElem?_set_ne ?_
        unfold place
        omega
      · rfl
    · rw [List.getElem?_eq_none (by simpa [rowD, withCoeff, exact] using hcl), List.getElem?_eq_none (by simpa [rowD, exact] using hcl)]
  · rintro rfl y hy
    unfold rowD at hy
    rw [List.getElem?_map, show (withCoeff (exact g) (place g i c₀ k₀) x).codim = g.codim from rfl, List.getElem?_range hc₀] at hy
    simp only [Option.map_some, Option.some.injEq] at hy
    have hl := seg_length hsz (i := i) (c := c₀) (by show i < (exact g).tau.length; omega) hc₀
    have hx : vecD ((((withCoeff (exact g) (place g i c₀ k₀) x).coeffs.drop (i * (withCoeff (exact g) (place g i c₀ k₀) x).basis.dim * (withCoeff (exact g) (place g i c₀ k₀) x).codim +
        (withCoeff (exact g) (place g i c₀ k₀) x).basis.dim * c₀)).take (withCoeff (exact g) (place g i c₀ k₀) x).basis.dim)) k₀ = x := by
      show vecD (List.take (exactBasis g.basis).dim (List.drop (i * (exactBasis g.basis).dim * g.codim + (exactBasis g.basis).dim * c₀) ((exact g).coeffs.set _ x))) k₀ = x
      rw [exactBasis_dim]
      have hbd := GSpline.coef_bound hc hi.1 hc₀
      have hcl : (exact g).coeffs.length = g.coeffs.length := List.length_map ..
      unfold vecD place
      rw [List.getD_eq_getElem?_getD, List.getElem?_take, if_pos hk₀, List.getElem?_drop, List.getElem?_set_self (by omega)]
      rfl
    have hkl : k₀ < (exact g).basis.dim := by rw [hdim]; exact hk₀
    refine ⟨fun hf => ?_, fun hn => ?_⟩
    · have := dot_not_finite (buf := buf) (k := k₀) (by rw [hl]; exact hkl) (by rw [hx, finite_mul]; exact fun h => hf h.1)
      rw [hl] at this
      rw [← hy]
      exact this
    · have := dot_nan (buf := buf) (k := k₀) (by rw [hl]; exact hkl) (by rw [hx, hn, nan_mul])
      rw [hl] at this
      rw [← hy]
      exact this

/-! ## arguments that are refused -/

/-- Lengths below `1e-6`, the negative infinity among them, are refused. So are lengths that are not a number, by an assertion, if the build has assertions. -/
theorem C75_interpolate_partial (codim n : ℕ) (b : DBasis) (tau sol : List Dbl) :
    (∀ asserts, (∃ x ∈ tau, x < fin (1 / 10 ^ 6)) → DSpline.interpolate asserts codim n b tau sol = .error .invalidArgument) ∧
      (nan ∈ tau → ∀ g, DSpline.interpolate true codim n b tau sol ≠ .ok g) := by
  refine ⟨fun asserts h => if_pos h, fun h g => ?_⟩
  unfold DSpline.interpolate DSpline.make
  split_ifs with h1 h2
  · simp
  · simp
  · refine absurd ⟨rfl, ?_⟩ h2
    rw [show (fin 0, Dbl.sum tau).2 = nan from sum_nan h]
    simp
  · refine absurd ⟨rfl, ?_⟩ h2
    rw [show (fin 0, Dbl.sum tau).2 = nan from sum_nan h]
    simp

/-- Not every length that is not a finite number is refused: an infinite one never is, and one that is not a number is accepted by a build without assertions. -/
theorem C75_interpolate_false (codim n : ℕ) (b : DBasis) (sol : List Dbl) (hn : 0 < n) (hsol : sol.length = n * b.dim * codim) :
    (∀ asserts, ∃ g, DSpline.interpolate asserts codim n b (List.replicate n (.inf false)) sol = .ok g ∧ g.dom.2 = .inf false ∧ ∀ x ∈ g.tau, ¬ IsFinite x) ∧
      ∃ g, DSpline.interpolate false codim n b (List.replicate n nan) sol = .ok g ∧ g.dom.2 = nan ∧ ∀ x ∈ g.tau, ¬ IsFinite x := by
  have hsum : ∀ m, 0 < m → Dbl.sum (List.replicate m (.inf false)) = .inf false := by
    intro m hm
    induction m with
    | zero => omega
    | succ m ih =>
      rw [List.replicate_succ]
      show Dbl.inf false + Dbl.sum (List.replicate m (.inf false)) = _
      rcases Nat.eq_zero_or_pos m with rfl | hm'
      · rfl
      · rw [ih hm']
        rfl
  refine ⟨fun asserts => ?_, ?_⟩
  · unfold DSpline.interpolate DSpline.make
    rw [if_neg (by
        rintro ⟨x, hx, hlt⟩
        rw [List.eq_of_mem_replicate hx] at hlt
        simp at hlt), if_neg (by
        rw [show (fin 0, Dbl.sum (List.replicate n (.inf false))).2 = .inf false from hsum n hn]
        simp), if_neg (by simpa using hsol)]
    refine ⟨_, rfl, hsum n hn, fun x hx => ?_⟩
    rw [List.eq_of_mem_replicate hx]
    simp
  · unfold DSpline.interpolate DSpline.make
    rw [if_neg (by
        rintro ⟨x, hx, hlt⟩
        rw [List.eq_of_mem_replicate hx] at hlt
        simp at hlt), if_neg (by simp), if_neg (by simpa using hsol)]
    refine ⟨_, rfl, sum_nan (List.mem_replicate.2 ⟨by omega, rfl⟩), fun x hx => ?_⟩
    rw [List.eq_of_mem_replicate hx]
    simp

/-- With finite numbers: the lengths are refused if one is less than `1e-6`, the solution if its size does not fit; otherwise the spline has the domain from zero to
the sum of the lengths. -/
theorem C75_interpolate_finite (codim n : ℕ) (b : Basis) (tau sol : List ℝ) (asserts : Bool) :
    DSpline.interpolate asserts codim n (exactBasis b) (tau.map fin) (sol.map fin) =
      if ∃ x ∈ tau, x < 1 / 10 ^ 6 then .error .invalidArgument
      else if sol.length ≠ n * b.dim * codim then .error .invalidArgument
      else .ok (exact ⟨(0, tau.sum), codim, b, sol, tau⟩) := by
  unfold DSpline.interpolate DSpline.make
  by_cases h : ∃ x ∈ tau, x < 1 / 10 ^ 6
  · rw [if_pos h, if_pos]
    obtain ⟨x, hx, hlt⟩ := h
    exact ⟨fin x, List.mem_map_of_mem hx, hlt⟩
  · rw [if_neg h, if_neg, sum_fin, if_neg, List.length_map, exactBasis_dim]
    · rfl
    · rintro ⟨-, h'⟩
      apply h'
      push Not at h
      exact List.sum_nonneg fun x hx => le_trans (by norm_num) (h x hx)
    · rintro ⟨x, hx, hlt⟩
      obtain ⟨y, hy, rfl⟩ := List.mem_map.1 hx
      exact h ⟨y, hy, hlt⟩

/-- An execution time below `1e-8`, the negative infinity among them, is refused; one that is not a number is refused by an assertion, if the build has assertions. -/
theorem C75_scaling_partial (g : DSpline) :
    (∀ asserts (T : Dbl), T < fin (1 / 10 ^ 8) → g.linearScaling asserts T = .error .invalidArgument) ∧ g.linearScaling true nan = .error .assertFail := by
  refine ⟨fun asserts T h => if_pos h, ?_⟩
  unfold DSpline.linearScaling DSpline.make
  rw [if_neg (by simp), if_pos ⟨rfl, by simp⟩]

/-- With finite numbers scaling is the one of the model with real numbers, errors included. -/
theorem C75_scaling_finite (g : GSpline) (hb : g.basis.Valid) (hdom : g.dom.1 < g.dom.2) (asserts : Bool) (T : ℝ) :
    (exact g).linearScaling asserts (fin T) = (g.linearScaling T).map exact := by
  unfold DSpline.linearScaling GSpline.linearScaling
  by_cases hT : T < 1 / 10 ^ 8
  · rw [if_pos (by rw [fin_lt]; exact hT), if_pos hT]
    rfl
  · have hT0 : 0 < T := lt_of_lt_of_le (by norm_num) (not_lt.1 hT)
    have hL : g.domainLength ≠ 0 := by unfold GSpline.domainLength; linarith
    have hL' : (exact g).dom.2 - (exact g).dom.1 = fin g.domainLength := by
      show fin _ - fin _ = _
      rw [fin_sub]; rfl
    have hf : T / g.domainLength ≠ 0 := div_ne_zero hT0.ne' hL
    have hfin : GSpline.ScalingFinite g.basis (T / g.domainLength) := by
      cases hbs : g.basis with
      | b0101 a => rw [hbs] at hb; exact ⟨hb.1, hb.2, hf⟩
      | _ => trivial
    have hbas : DSpline.scaledBasis (exact g).basis (fin (T / g.domainLength)) = exactBasis (GSpline.scaledBasis g.basis (T / g.domainLength)) := by
      show DSpline.scaledBasis (exactBasis g.basis) _ = _
      cases hbs : g.basis with
      | b0101 a =>
        rw [hbs] at hb
        have hk : (0 : ℝ) ≤ (B0101.kOf a / (T / g.domainLength)) ^ 4 * 64 := by positivity
        simp only [exactBasis, DSpline.scaledBasis, GSpline.scaledBasis, kOf_fin hb.1 hb.2, fin_div hf, pow4, fin_mul, fin_add]
        rw [fin_div (by linarith)]
        rfl
      | _ => rfl
    have hdim : (exactBasis (GSpline.scaledBasis g.basis (T / g.domainLength))).dim = (GSpline.scaledBasis g.basis (T / g.domainLength)).dim := exactBasis_dim _
    rw [if_neg (by rw [fin_lt]; exact hT), if_neg hT, if_neg (by push Not; exact ⟨hL, hfin⟩), hL', fin_div hL]
    simp only [hbas]
    unfold DSpline.make GSpline.make
    have hle : g.dom.1 ≤ g.dom.1 + T := by linarith
    rw [if_neg (fun h => h.2 hle)]
    rw [show (if (g.dom.1, g.dom.1 + T).1 ≤ (g.dom.1, g.dom.1 + T).2 then _ else _) = _ from if_pos hle, hdim]
    have e1 : (exact g).coeffs.length = g.coeffs.length := by simp [exact]
    have e2 : (exact g).tau.length = g.nIntervals := by simp [exact, GSpline.nIntervals]
    rw [e1, e2, show (exact g).codim = g.codim from rfl]
    by_cases hcc : g.coeffs.length = g.nIntervals * (GSpline.scaledBasis g.basis (T / g.domainLength)).dim * g.codim
    · rw [if_neg (by simpa using hcc), if_neg (by simpa using hcc)]
      simp [exact, Except.map, Function.comp_def]
    · rw [if_pos (by simpa using hcc), if_pos (by simpa using hcc)]
      rfl

/-- An infinite execution time is accepted: all intervals become infinite, and the (polynomial) spline constant after its start. -/
theorem C75_scaling_false (g : GSpline) (hb : g.basis.Valid) (hd : 0 < g.basis.dim) (hc : Consistent g) (hp : Positive g) (hdom : g.dom.1 < g.dom.2)
    (hpoly : ∀ a, g.basis ≠ .b0101 a) (asserts : Bool) :
    ∃ (g' : DSpline) (v : List ℝ), (exact g).linearScaling asserts (.inf false) = .ok g' ∧ (∀ x ∈ g'.tau, ¬ IsFinite x) ∧ v.length = g.codim ∧
      ∀ t, g.dom.1 < t → g'.value (fin t) = .ok (v.map fin) := by
  have hs := sized_exact hb hd hc hp.1
  have hlen : (exact g).tau.length = g.tau.length := List.length_map ..
  have h0 : 0 < g.tau.length := List.length_pos_iff.2 hp.1
  have hfac : (Dbl.inf false) / ((exact g).dom.2 - (exact g).dom.1) = .inf false := by
    show Dbl.inf false / (fin g.dom.2 - fin g.dom.1) = _
    rw [fin_sub, inf_div_fin_pos (by linarith)]
  have hbas : DSpline.scaledBasis (exact g).basis (.inf false) = (exact g).basis := by
    show DSpline.scaledBasis (exactBasis g.basis) _ = exactBasis g.basis
    cases hbs : g.basis with
    | legendre d => rfl
    | lagrange x => rfl
    | b0101 a => exact absurd hbs (hpoly a)
  have htau : (exact g).tau.map (· * Dbl.inf false) = List.replicate g.tau.length (.inf false) := by
    refine List.eq_replicate_iff.2 ⟨by simp [exact], fun x hx => ?_⟩
    obtain ⟨y, hy, rfl⟩ := List.mem_map.1 hx
    obtain ⟨z, hz, rfl⟩ := List.mem_map.1 hy
    exact fin_mul_inf_pos (hp.2 z hz) false
  obtain ⟨v, w, _, h2, h3⟩ := evalOnWindow_fin hb (-1) 1
  have hcl : (exact g).coeffs.length = (exact g).tau.length * (exact g).basis.dim * (exact g).codim := hs.2.1
  refine ⟨⟨(fin g.dom.1, fin g.dom.1 + .inf false), g.codim, exactBasis g.basis, g.coeffs.map fin, List.replicate g.tau.length (.inf false)⟩, g.rowOf 0 v, ?_, ?_,
    GSpline.rowOf_length _ _ _, fun t ht => ?_⟩
  · unfold DSpline.linearScaling DSpline.make
    rw [if_neg (by simp)]
    simp only [hfac, hbas, htau]
    rw [if_neg (by
      rw [show (exact g).dom.1 = fin g.dom.1 from rfl]
      simp), if_neg (by simpa using hcl)]
    rfl
  · intro x hx
    rw [List.eq_of_mem_replicate hx]
    simp
  · rw [← row_exact hc h0 h3]
    have hcl' : g.coeffs.length = g.tau.length * (exactBasis g.basis).dim * g.codim := by rw [exactBasis_dim]; exact hc
    refine value_ok (g := ⟨(fin g.dom.1, fin g.dom.1 + .inf false), g.codim, exactBasis g.basis, g.coeffs.map fin, List.replicate g.tau.length (.inf false)⟩) (i := 0)
      (by simpa using hcl') ?_ (by simpa using h0) (buf := w) ?_
    · unfold DSpline.getInterval
      obtain ⟨n, hn⟩ := Nat.exists_eq_succ_of_ne_zero h0.ne'
      simp only [hn, List.replicate_succ]
      rw [if_neg (by rw [fin_le]; linarith)]
      simp [DSpline.scan, ht]
    · obtain ⟨n, hn⟩ := Nat.exists_eq_succ_of_ne_zero h0.ne'
      have e : winD ⟨(fin g.dom.1, fin g.dom.1 + .inf false), g.codim, exactBasis g.basis, g.coeffs.map fin, List.replicate g.tau.length (.inf false)⟩ (fin t) 0 = fin (-1) := by
        simp [winD, vecD, hn, List.replicate_succ, Dbl.sum]
      rw [e]
      show (exactBasis g.basis).evalOnWindow _ _ = _
      cases hbs : g.basis with
      | legendre d => rw [hbs] at h2; exact h2
      | lagrange x => rw [hbs] at h2; exact h2
      | b0101 a => exact absurd hbs (hpoly a)

/-- A sampling period that is a number of at least `1e-8`, small enough for the number of segments to fit: the number of segments is the quotient rounded down. -/
theorem C75_segments_partial (g : GSpline) (hdom : g.dom.1 ≤ g.dom.2) (dt : ℝ) (h : 1 / 10 ^ 8 ≤ dt) (hfit : (g.dom.2 - g.dom.1) / dt < 2 ^ 64) :
    ∃ n : ℕ, (exact g).numberOfSegments (fin dt) = .ok n ∧ (n : ℝ) * dt ≤ g.dom.2 - g.dom.1 ∧ g.dom.2 - g.dom.1 < ((n : ℝ) + 1) * dt := by
  have hpos : 0 < dt := lt_of_lt_of_le (by norm_num) h
  have h0 : 0 ≤ (g.dom.2 - g.dom.1) / dt := div_nonneg (by linarith) hpos.le
  refine ⟨⌊(g.dom.2 - g.dom.1) / dt⌋₊, ?_, ?_, ?_⟩
  · unfold DSpline.numberOfSegments
    rw [if_neg (by rw [fin_lt]; linarith), show (exact g).dom.2 - (exact g).dom.1 = fin (g.dom.2 - g.dom.1) from fin_sub _ _, fin_div hpos.ne']
    exact if_pos ⟨by linarith, hfit⟩
  · exact (le_div_iff₀ hpos).1 (Nat.floor_le h0)
  · exact (div_lt_iff₀ hpos).1 (Nat.lt_floor_add_one _)

/-- A sampling period that is not a number passes the check, and its conversion to a number of segments is undefined behaviour; so is that of a long domain with a small
period. -/
theorem C75_segments_false : (∀ g : DSpline, g.numberOfSegments nan = .error .ub) ∧
    ∀ g : GSpline, 10 ^ 12 ≤ g.dom.2 - g.dom.1 → (exact g).numberOfSegments (fin (1 / 10 ^ 8)) = .error .ub := by
  refine ⟨fun g => ?_, fun g h => ?_⟩
  · unfold DSpline.numberOfSegments
    rw [if_neg (by simp), div_nan]
    rfl
  · unfold DSpline.numberOfSegments
    rw [if_neg (by simp), show (exact g).dom.2 - (exact g).dom.1 = fin (g.dom.2 - g.dom.1) from fin_sub _ _, fin_div (by norm_num)]
    refine if_neg fun hc => ?_
    have := hc.2
    rw [div_lt_iff₀ (by norm_num)] at this
    norm_num at this
    linarith

/-! ## comparisons -/

/-- Two doubles that compare equal are finite. -/
theorem C75_approx_equal (l r tol : Dbl) (h : approxEqual l r tol = true) : IsFinite l ∧ IsFinite r := by
  have key : IsFinite (l - r) := by
    by_contra hn
    unfold approxEqual at h
    simp only at h
    split_ifs at h
    · exact abs_not_lt hn _ (by simpa using h)
    · exact abs_not_lt hn _ (by simpa using h : _ ∧ _).1
  exact finite_sub.1 key

/-- Two finite numbers are compared as in the model with real numbers. -/
theorem C75_approx_equal_finite (l r tol : ℝ) : approxEqual (fin l) (fin r) (fin tol) = Tools.approxEqual l r tol := by
  unfold approxEqual Tools.approxEqual Tools.approxEqualS
  simp only [fin_sub, abs_fin, fin_lt, fin_mul]
  split_ifs <;> congr

theorem maxCoeff_fin (l : List ℝ) (m : Dbl) : MaxCoeff ((l.map fin).map Dbl.abs) m ↔ l ≠ [] ∧ m = fin (Tools.maxAbs l) := by
  unfold MaxCoeff
  constructor
  · rintro ⟨h1, h2⟩
    have hne : l ≠ [] := by rintro rfl; simp at h1
    refine ⟨hne, ?_⟩
    obtain ⟨y, hy, rfl⟩ := List.mem_map.1 h1
    obtain ⟨x, hx, rfl⟩ := List.mem_map.1 hy
    obtain ⟨z, hz, hz'⟩ := Tools.exists_maxAbs hne
    rcases h2 with h2 | h2
    · simp at h2
    · have := h2 _ (List.mem_map_of_mem (List.mem_map_of_mem hz))
      rw [abs_fin, abs_fin, fin_le] at this
      rw [abs_fin, le_antisymm (Tools.le_maxAbs hx) (hz' ▸ this)]
  · rintro ⟨hne, rfl⟩
    obtain ⟨z, hz, hz'⟩ := Tools.exists_maxAbs hne
    refine ⟨?_, .inr fun x hx => ?_⟩
    · rw [hz', ← abs_fin]
      exact List.mem_map_of_mem (List.mem_map_of_mem hz)
    · obtain ⟨y, hy, rfl⟩ := List.mem_map.1 hx
      obtain ⟨u, hu, rfl⟩ := List.mem_map.1 hy
      exact Tools.le_maxAbs hu

open Classical in
/-- On vectors of finite numbers there is one answer, the one of the model with real numbers. -/
theorem C75_vectors_finite (l r : List ℝ) (tol : ℝ) (ht : 0 < tol) (ans : Bool) :
    ApproxEqual (l.map fin) (r.map fin) (fin tol) ans ↔ ans = Tools.approxEqualV l r tol := by
  unfold ApproxEqual Tools.approxEqualV Tools.approxEqualM Tools.approxEqualMS Tools.EMat.ofVec
  simp only [List.length_map]
  by_cases h1 : l.length = r.length
  · by_cases h2 : l.length = 0
    · simp [h1, h1 ▸ h2]
    · have hl : l ≠ [] := by rintro rfl; simp at h2
      have hr : r ≠ [] := by rintro rfl; exact h2 h1
      have hz : List.zipWith (· - ·) l r ≠ [] := by simp [hl, hr]
      rw [if_neg (by simpa using h1), if_neg h2, if_neg (by simpa using h1), if_neg h2, zipWith_fin (· - ·) _ (fun a b => fin_sub a b)]
      simp only [maxCoeff_fin]
      have key : (if fin (Tools.maxAbs l) < fin tol ∨ fin (Tools.maxAbs r) < fin tol then decide (fin (Tools.maxAbs (List.zipWith (· - ·) l r)) < fin tol)
          else decide (fin (Tools.maxAbs (List.zipWith (· - ·) l r)) / fin (Tools.maxAbs l) < fin tol ∧ fin (Tools.maxAbs (List.zipWith (· - ·) l r)) / fin (Tools.maxAbs r) < fin tol)) =
          (if Tools.maxAbs l < tol ∨ Tools.maxAbs r < tol then decide (Tools.maxAbs (List.zipWith (· - ·) l r) < tol)
          else decide (Tools.maxAbs (List.zipWith (· - ·) l r) / Tools.maxAbs l < tol ∧ Tools.maxAbs (List.zipWith (· - ·) l r) / Tools.maxAbs r < tol)) := by
        simp only [fin_lt]
        by_cases hc : Tools.maxAbs l < tol ∨ Tools.maxAbs r < tol
        · simp [hc]
        · push Not at hc
          rw [fin_div (by linarith [hc.1]), fin_div (by linarith [hc.2])]
          simp [not_lt.2 hc.1, not_lt.2 hc.2]
      constructor
      · rintro ⟨_, _, _, ⟨_, rfl⟩, ⟨_, rfl⟩, ⟨_, rfl⟩, rfl⟩
        rw [key]
        split_ifs <;> rfl
      · rintro rfl
        refine ⟨_, _, _, ⟨hz, rfl⟩, ⟨hl, rfl⟩, ⟨hr, rfl⟩, ?_⟩
        rw [key]
        split_ifs <;> rfl
  · simp [h1]

/-- A vector of finite numbers and one with an infinity (and no "not a number") are never equal. -/
theorem C75_vectors_partial (l r : List Dbl) (tol : ℝ) (hl : ∀ x ∈ l, IsFinite x) (hr : ∀ x ∈ r, x ≠ nan) (hbad : ∃ x ∈ r, ¬ IsFinite x) (ans : Bool)
    (h : ApproxEqual l r (fin tol) ans) : ans = false := by
  unfold ApproxEqual at h
  split_ifs at h with h1 h2
  · exact h
  · obtain ⟨x, hx, _⟩ := hbad
    have : r.length = 0 := by omega
    rw [List.length_eq_zero_iff] at this
    rw [this] at hx
    simp at hx
  · push Not at h1
    obtain ⟨err, lm, rm, ⟨hm, he⟩, _, _, rfl⟩ := h
    obtain ⟨x, hx, hxf⟩ := hbad
    obtain ⟨k, hk, rfl⟩ := List.mem_iff_getElem.1 hx
    have hkl : k < l.length := by omega
    have hinf : ∃ b, r[k] = .inf b := by
      rcases hh : r[k] with _ | b | y
      · exact absurd hh (hr _ hx)
      · exact ⟨b, rfl⟩
      · rw [hh] at hxf
        exact absurd trivial hxf
    obtain ⟨b, hb⟩ := hinf
    have hd : ∀ y ∈ (List.zipWith (· - ·) l r).map Dbl.abs, y ≠ nan := by
      intro y hy
      obtain ⟨z, hz, rfl⟩ := List.mem_map.1 hy
      obtain ⟨m, hm, rfl⟩ := List.mem_iff_getElem.1 hz
      simp only [List.length_zipWith] at hm
      rw [List.getElem_zipWith]
      obtain ⟨u, hu⟩ := finite_iff.1 (hl _ (List.getElem_mem (show m < l.length by omega)))
      rw [hu]
      rcases hh : r[m] with _ | c | y
      · exact absurd hh (hr _ (List.getElem_mem _))
      · simp
      · simp
    have hin : Dbl.inf false ∈ (List.zipWith (· - ·) l r).map Dbl.abs := by
      refine List.mem_map.2 ⟨l[k] - r[k], ?_, ?_⟩
      · rw [List.mem_iff_getElem]
        exact ⟨k, by simp; omega, List.getElem_zipWith⟩
      · obtain ⟨u, hu⟩ := finite_iff.1 (hl _ (List.getElem_mem hkl))
        rw [hu, hb]
        simp
    have herr : err = .inf false := by
      rcases he with he | he
      · exact absurd rfl (hd _ he)
      · have := he _ hin
        rcases err with _ | c | y
        · simp at this
        · simpa using this
        · simp at this
    subst herr
    have hq : ∀ m : Dbl, ¬ Dbl.inf false / Dbl.abs m < fin tol := by
      intro m
      rcases m with _ | c | y
      · simp
      · show ¬ Dbl.div _ _ < _
        simp [Dbl.div, Dbl.abs]
      · show ¬ Dbl.div _ _ < _
        simp [Dbl.div, Dbl.abs, not_lt.2 (abs_nonneg y)]
    rename_i hlm _
    obtain ⟨z, _, rfl⟩ := List.mem_map.1 hlm.1
    split_ifs
    · simp
    · simp [hq]

/-- With "not a number" the answer of the vector comparison is open: a vector may be equal to a different one and different from itself. -/
theorem C75_vectors_false : ApproxEqual [fin 1, nan] [fin 1, fin 5] (fin (1 / 10 ^ 7)) true ∧ ApproxEqual [nan] [nan] (fin (1 / 10 ^ 7)) false := by
  refine ⟨?_, ?_⟩
  · unfold ApproxEqual
    rw [if_neg (by simp), if_neg (by simp)]
    refine ⟨fin 0, fin 1, fin 5, ⟨by simp, Or.inl (by simp)⟩, ⟨by simp, Or.inl (by simp)⟩, ⟨by simp, Or.inr ?_⟩, ?_⟩
    · intro x hx
      simp at hx
      rcases hx with rfl | rfl <;> simp <;> norm_num
    · rw [if_neg (by simp; norm_num), fin_div (by norm_num), fin_div (by norm_num)]
      simp
  · unfold ApproxEqual
    rw [if_neg (by simp), if_neg (by simp)]
    exact ⟨nan, nan, nan, ⟨by simp, Or.inl (by simp)⟩, ⟨by simp, Or.inl (by simp)⟩, ⟨by simp, Or.inl (by simp)⟩, by simp⟩

/-! ## the hypotheses can be met -/

/-- A spline with two intervals. -/
def specialExample : GSpline := ⟨(0, 2), 1, .legendre 2, [0, 1, 3, 1], [1, 1]⟩

theorem specialExample_ok : specialExample.basis.Valid ∧ 0 < specialExample.basis.dim ∧ Consistent specialExample ∧ Positive specialExample ∧
    specialExample.dom.1 < specialExample.dom.2 ∧ ∀ a, specialExample.basis ≠ .b0101 a :=
  ⟨le_refl 2, Nat.succ_pos 1, rfl, ⟨by simp [specialExample], by simp [specialExample]⟩, by simp [specialExample], fun a => by simp [specialExample]⟩

theorem specialExample_located : Located specialExample (1 / 2) 0 ∧ Located specialExample (3 / 2) 1 := by
  refine ⟨⟨by simp [specialExample], Or.inr (Or.inl ?_)⟩, ⟨by simp [specialExample], Or.inr (Or.inl ?_)⟩⟩
  · simp [specialExample, brk]; norm_num
  · simp [specialExample, brk]; norm_num

-- a spline whose numbers are not finite can be evaluated anywhere
example : Sized (withLength (withCoeff (exact specialExample) 0 (.inf true)) 1 nan) := by
  refine ⟨?_, ?_, le_refl 2⟩
  · simp [withLength, withCoeff, exact, specialExample]
  · simp [withLength, withCoeff, exact, specialExample, exactBasis, DBasis.dim]

-- the two halves of `C75_length_nan`
example : (withLength (exact specialExample) 1 nan).value (fin (1 / 2)) = (exact specialExample).value (fin (1 / 2)) ∧
    (withLength (exact specialExample) 1 nan).value (fin (3 / 2)) = .ok [nan] := by
  obtain ⟨h1, h2, h3, h4, _, _⟩ := specialExample_ok
  exact ⟨(C75_length_nan _ h1 h2 h3 h4 1 (by simp [specialExample]) _ _ specialExample_located.1).1 (by norm_num),
    (C75_length_nan _ h1 h2 h3 h4 1 (by simp [specialExample]) _ _ specialExample_located.2).2 le_rfl⟩

-- a coefficient of the first interval does not reach the second
example : ∃ v', (withCoeff (exact specialExample) (place specialExample 0 0 1) nan).value (fin (3 / 2)) = .ok v' ∧
    ∃ v, specialExample.value (3 / 2) = .ok v ∧ v'[0]? = (v[0]?).map fin := by
  obtain ⟨h1, h2, h3, h4, _, _⟩ := specialExample_ok
  obtain ⟨v, v', a, b, _, c, _⟩ := C75_coefficient _ h1 h3 h4 0 0 1 (by simp [specialExample]) (by simp [specialExample]) (by simp [specialExample, Basis.dim]) nan _ _
    specialExample_located.2
  exact ⟨v', b, v, a, c 0 (Or.inl (by norm_num))⟩

-- infinite lengths freeze the spline
example : ∃ v : List ℝ, v.length = 1 ∧ ∀ t, 1 < t → (withLength (exact specialExample) 1 (.inf false)).value (fin t) = .ok (v.map fin) := by
  obtain ⟨h1, h2, h3, h4, _, h6⟩ := specialExample_ok
  obtain ⟨v, hv, h⟩ := (C75_length_infinite _ h1 h2 h3 h4 1 (by simp [specialExample]) h6).2
  exact ⟨v, hv, fun t ht => h t (by simpa [brk, specialExample] using ht)⟩

example : ∃ (g' : DSpline) (v : List ℝ), (exact specialExample).linearScaling true (.inf false) = .ok g' ∧ (∀ x ∈ g'.tau, ¬ IsFinite x) ∧ v.length = 1 ∧
    ∀ t, 0 < t → g'.value (fin t) = .ok (v.map fin) := by
  obtain ⟨h1, h2, h3, h4, h5, h6⟩ := specialExample_ok
  exact C75_scaling_false _ h1 h2 h3 h4 h5 h6 true

-- lengths that the check refuses, and the lengths it does not see
example : (∃ x ∈ [fin 1, .inf true], x < fin (1 / 10 ^ 6)) ∧ ¬ (∃ x ∈ [fin 1, nan, .inf false], x < fin (1 / 10 ^ 6)) := by
  refine ⟨⟨.inf true, by simp, by simp⟩, ?_⟩
  rintro ⟨x, hx, h⟩
  simp only [List.mem_cons, List.not_mem_nil, or_false] at hx
  rcases hx with rfl | rfl | rfl
  · rw [fin_lt] at h
    norm_num at h
  · simp at h
  · simp at h

example : (specialExample.dom.1 ≤ specialExample.dom.2) ∧ (1 / 10 ^ 8 : ℝ) ≤ 1 / 100 ∧ (specialExample.dom.2 - specialExample.dom.1) / (1 / 100) < 2 ^ 64 := by
  refine ⟨by simp [specialExample], by norm_num, by simp [specialExample]; norm_num⟩

-- a comparison of vectors, a scaling and an interpolation with finite numbers
example : ApproxEqual [fin 1, fin 2] [fin 1, fin 2] (fin 1) true := by
  refine (C75_vectors_finite [1, 2] [1, 2] 1 one_pos true).2 ?_
  simp [Tools.approxEqualV, Tools.approxEqualM, Tools.approxEqualMS, Tools.EMat.ofVec, Tools.maxAbs, Tools.maxCoeff]

example (asserts : Bool) : ∃ g', (exact ⟨(0, 1), 1, .b0101 (1 / 2), [1, 2, 3, 4, 5, 6], [1]⟩).linearScaling asserts (fin 3) = .ok (exact g') ∧ g'.tau = [3] := by
  rw [C75_scaling_finite ⟨(0, 1), 1, .b0101 (1 / 2), [1, 2, 3, 4, 5, 6], [1]⟩ (show (0 : ℝ) ≤ 1 / 2 ∧ (1 / 2 : ℝ) < 1 by norm_num) (by simp)]
  unfold GSpline.linearScaling GSpline.make GSpline.scaledBasis GSpline.ScalingFinite GSpline.domainLength GSpline.nIntervals
  rw [if_neg (by norm_num), if_neg (by norm_num)]
  simp only []
  rw [if_pos (by norm_num), if_neg (by simp [Basis.dim])]
  exact ⟨_, rfl, by simp⟩

example : approxEqual (fin 1) (fin 1) (fin (1 / 10 ^ 7)) = true := by
  rw [C75_approx_equal_finite]
  unfold Tools.approxEqual Tools.approxEqualS
  rw [if_neg (by norm_num)]
  simp

example : (∀ x ∈ [fin 1, fin 2], IsFinite x) ∧ (∀ x ∈ [fin 1, .inf true], x ≠ nan) ∧ (∃ x ∈ [fin 1, .inf true], ¬ IsFinite x) ∧
    ∃ ans, ApproxEqual [fin 1, fin 2] [fin 1, .inf true] (fin (1 / 10 ^ 7)) ans := by
  refine ⟨by simp, by simp, by simp, false, ?_⟩
  unfold ApproxEqual
  rw [if_neg (by simp), if_neg (by simp)]
  refine ⟨.inf false, fin 2, .inf false, ⟨by simp, Or.inr ?_⟩, ⟨by simp, Or.inr ?_⟩, ⟨by simp, Or.inr ?_⟩, ?_⟩
  · intro x hx
    simp at hx
    rcases hx with rfl | rfl <;> simp
  · intro x hx
    simp at hx
    rcases hx with rfl | rfl <;> simp
  · intro x hx
    simp at hx
    rcases hx with rfl | rfl <;> simp
  · rw [if_neg (by simp; norm_num), show (Dbl.inf false : Dbl) / fin 2 = .inf false from inf_div_fin_pos (by norm_num) false]
    simp

end GSplines.Props
