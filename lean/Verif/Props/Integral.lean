import Verif.Spec.Integral
import Verif.Props.FnDeriv
import Verif.Props.FnOps
import Verif.Props.GLL
import Verif.Proofs.Sobolev
import Verif.Proofs.FnJet

/-!
# C43: the integral by quadrature, and the inner products computed from it
-/

namespace GSplines.Props

open GSplines Spec Finset Fn

/-! ## The integral -/

theorem val_one {f : Fn} (hc : f.codim = 1) {t : ℝ} {z : Rows} (h : f.call [t] = .ok z) : z = [[val f 0 t]] := by
  obtain ⟨h1, h2⟩ := run_dims f _ _ _ h
  match z, h1 with
  | [r], _ =>
    have hr := h2 r (by simp)
    rw [hc] at hr
    match r, hr with
    | [x], _ => rw [val_of_call h]; rfl

theorem evaluable_iff {f : Fn} (hc : f.codim = 1) (d : ℝ × ℝ) (n k : ℕ) (p : Vec) :
    Evaluable f d n k p ↔ ∀ iv < k, ∀ j < n, f.call [gridPoint d k iv (p j)] = .ok [[val f 0 (gridPoint d k iv (p j))]] := by
  constructor
  · intro h iv hiv j hj
    obtain ⟨x, hx⟩ := h iv hiv j hj
    rw [hx, val_one hc hx]
  · intro h iv hiv j hj
    exact ⟨_, h iv hiv j hj⟩

theorem points_two {n : ℕ} {jp jw : Vec} {r : Vec × Vec} (h : GLL.pointsWeights n jp jw = .ok r) : 2 ≤ n := by
  by_contra hn
  unfold GLL.pointsWeights at h
  rw [if_pos (by omega)] at h
  cases h

theorem zip_range_sum {n : ℕ} {v : Rows} (hv : v.length = n) (w : Vec) :
    (List.zipWith (fun row k => row.headD 0 * w k) v (List.range n)).sum = ∑ j ∈ range n, (v.getD j []).headD 0 * w j := by
  induction n generalizing v w with
  | zero => simp
  | succ n ih =>
    match v, hv with
    | a :: v, hv =>
      rw [List.range_succ_eq_map, List.zipWith_cons_cons, List.sum_cons, List.zipWith_map_right, sum_range_succ']
      have := ih (v := v) (by simpa using hv) (fun k => w (k + 1))
      rw [add_comm]
      congr 1

theorem step_ok {f : Fn} (hc : f.codim = 1) {n : ℕ} (hn : 2 ≤ n) (k : ℕ) (p w : Vec) (iv : ℕ) (r v : ℝ) :
    integralStep f n ((f.dom.2 - f.dom.1) / k) p w iv r = .ok v ↔
      (∀ j < n, ∃ x, f.call [gridPoint f.dom k iv (p j)] = .ok [[x]]) ∧
        v = r + (f.dom.2 - f.dom.1) / k / 2 * ∑ j ∈ range n, w j * val f 0 (gridPoint f.dom k iv (p j)) := by
  have hpts : ((List.range n).map fun j => (p j + 1) * ((f.dom.2 - f.dom.1) / k) / 2 + (f.dom.1 + iv * ((f.dom.2 - f.dom.1) / k)))
      = (List.range n).map fun j => gridPoint f.dom k iv (p j) := by
    refine List.map_congr_left fun j _ => ?_
    unfold gridPoint; ring
  have hne : ((List.range n).map fun j => gridPoint f.dom k iv (p j)) ≠ [] := by
    simp; omega
  have hrun : ∀ ts, f.run 1 ts = f.call ts := by intro ts; rw [call, hc]
  unfold integralStep
  simp only [hpts, hrun]
  rw [bind_ok]
  constructor
  · rintro ⟨z, hz, hv⟩
    have hf := (C10_row_wise f _ _ hne).mp hz
    have hlen : z.length = n := by rw [(C10_shape f _ _ hz).1]; simp
    have hrow : ∀ j < n, f.call [gridPoint f.dom k iv (p j)] = .ok [z.getD j []] := by
      intro j hj
      have := (List.forall₂_iff_get.mp hf).2 j (by simpa using hj) (by omega)
      simp only [List.get_eq_getElem, List.getElem_map, List.getElem_range] at this
      rw [this]
      simp [List.getD_eq_getElem?_getD, List.getElem?_eq_getElem (show j < z.length by omega)]
    refine ⟨fun j hj => ?_, ?_⟩
    · have h1 := hrow j hj
      have h2 := val_one hc h1
      rw [h2] at h1
      exact ⟨_, h1⟩
    · rw [pure_ok] at hv
      rw [← hv, zip_range_sum hlen]
      rw [mul_sum, sum_mul, sum_div]
      congr 1
      refine sum_congr rfl fun j hj => ?_
      have h1 := val_one hc (hrow j (mem_range.mp hj))
      rw [List.cons.injEq] at h1
      rw [h1.1]
      simp only [List.headD_cons]; ring
  · rintro ⟨h, rfl⟩
    have h' : ∀ j < n, f.call [gridPoint f.dom k iv (p j)] = .ok [[val f 0 (gridPoint f.dom k iv (p j))]] := by
      intro j hj
      obtain ⟨x, hx⟩ := h j hj
      rw [hx, val_one hc hx]
    refine ⟨(List.range n).map fun j => [val f 0 (gridPoint f.dom k iv (p j))], ?_, ?_⟩
    · refine (C10_row_wise f _ _ hne).mpr (List.forall₂_iff_get.mpr ⟨by simp, fun j h1 h2 => ?_⟩)
      simp only [List.get_eq_getElem, List.getElem_map, List.getElem_range]
      exact h' j (by simpa using h1)
    · rw [zip_range_sum (by simp)]
      rw [mul_sum, sum_mul, sum_div]
      rw [pure_ok]
      congr 1
      refine sum_congr rfl fun j hj => ?_
      rw [List.getD_eq_getElem?_getD, List.getElem?_map, List.getElem?_range (mem_range.mp hj)]
      simp only [Option.map_some, Option.getD_some, List.headD_cons]; ring

theorem loop_iff {body : ℕ → ℝ → Res ℝ} {E : ℕ → Prop} {T : ℕ → ℝ} (h : ∀ i r v, body i r = .ok v ↔ E i ∧ v = r + T i) (n : ℕ) (r v : ℝ) :
    forLoopM 0 n body r = .ok v ↔ (∀ i < n, E i) ∧ v = r + ∑ i ∈ range n, T i := by
  unfold forLoopM
  rw [Nat.sub_zero]
  induction n generalizing v with
  | zero => simp [pure, Except.pure, eq_comm]
  | succ n ih =>
    rw [List.range'_concat, List.foldlM_append]
    simp only [zero_add, one_mul, List.foldlM_cons, List.foldlM_nil]
    rw [bind_ok]
    constructor
    · rintro ⟨a, ha, hb⟩
      rw [bind_ok] at hb
      obtain ⟨b, hb1, hb2⟩ := hb
      rw [pure_ok] at hb2
      obtain ⟨h1, rfl⟩ := (ih a).mp ha
      obtain ⟨h2, h3⟩ := (h n _ _).mp hb1
      refine ⟨fun i hi => ?_, ?_⟩
      · rcases Nat.lt_succ_iff_lt_or_eq.mp hi with hi | rfl
        · exact h1 i hi
        · exact h2
      · rw [← hb2, h3, sum_range_succ, add_assoc]
    · rintro ⟨h1, rfl⟩
      refine ⟨_, (ih _).mpr ⟨fun i hi => h1 i (by omega), rfl⟩, ?_⟩
      rw [bind_ok]
      exact ⟨_, (h n _ _).mpr ⟨h1 n (by omega), rfl⟩, by rw [pure_ok, sum_range_succ, add_assoc]⟩

/-- **C43.** For every function object: with several components the assertion of `integral` fails; otherwise the call succeeds exactly if the points and
weights can be computed and the function can be evaluated at all points of the grid, and then it returns the composite Gauss-Lobatto sum over the domain of
the function. -/
theorem C43_integral (f : Fn) (n k : ℕ) (jp jw : Vec) :
    (f.codim ≠ 1 → f.integral n k jp jw = .error .assertFail) ∧
    (f.codim = 1 → ∀ v, f.integral n k jp jw = .ok v ↔
      ∃ p w, GLL.pointsWeights n jp jw = .ok (p, w) ∧ Evaluable f f.dom n k p ∧ v = quadrature (val f 0) f.dom n k p w) := by
  refine ⟨fun h => by unfold integral; rw [if_pos h], fun hc v => ?_⟩
  unfold integral
  rw [if_neg (not_not.mpr hc), bind_ok]
  constructor
  · rintro ⟨⟨p, w⟩, hp, h⟩
    refine ⟨p, w, hp, ?_⟩
    obtain ⟨h1, h2⟩ := (loop_iff (step_ok hc (points_two hp) k p w) k 0 v).mp h
    exact ⟨h1, by rw [h2, zero_add]; rfl⟩
  · rintro ⟨p, w, hp, h1, h2⟩
    exact ⟨(p, w), hp, (loop_iff (step_ok hc (points_two hp) k p w) k 0 v).mpr ⟨h1, by rw [h2, zero_add]; rfl⟩⟩

theorem quadrature_congr {φ ψ : ℝ → ℝ} {d : ℝ × ℝ} {n k : ℕ} {p w : Vec} (h : ∀ iv < k, ∀ j < n, φ (gridPoint d k iv (p j)) = ψ (gridPoint d k iv (p j))) :
    quadrature φ d n k p w = quadrature ψ d n k p w := by
  unfold quadrature
  refine sum_congr rfl fun iv hiv => ?_
  congr 1
  refine sum_congr rfl fun j hj => ?_
  rw [h iv (mem_range.mp hiv) j (mem_range.mp hj)]

theorem quadrature_add (φ ψ : ℝ → ℝ) (d : ℝ × ℝ) (n k : ℕ) (p w : Vec) :
    quadrature (fun t => φ t + ψ t) d n k p w = quadrature φ d n k p w + quadrature ψ d n k p w := by
  unfold quadrature
  rw [← sum_add_distrib]
  refine sum_congr rfl fun iv _ => ?_
  rw [← mul_add, ← sum_add_distrib]
  congr 1
  exact sum_congr rfl fun j _ => by ring

theorem quadrature_smul (c : ℝ) (φ : ℝ → ℝ) (d : ℝ × ℝ) (n k : ℕ) (p w : Vec) :
    quadrature (fun t => c * φ t) d n k p w = c * quadrature φ d n k p w := by
  unfold quadrature
  rw [mul_sum]
  refine sum_congr rfl fun iv _ => ?_
  rw [mul_left_comm, mul_sum (a := c)]
  congr 1
  exact sum_congr rfl fun j _ => by ring

theorem quadrature_zero (d : ℝ × ℝ) (n k : ℕ) (p w : Vec) : quadrature (fun _ => 0) d n k p w = 0 := by
  simp [quadrature]

/-- **C43**, linearity: the integral of the sum of two functions with the same domain is the sum of the integrals (and exists exactly if both do). -/
theorem C43_sum (f g r : Fn) (hf : Built f) (hg : Built g) (hd : f.dom = g.dom) (h1 : f.codim = 1) (h2 : g.codim = 1) (h : add f g = .ok r) (n k : ℕ)
    (jp jw : Vec) (z : ℝ) :
    r.integral n k jp jw = .ok z ↔ ∃ x y, f.integral n k jp jw = .ok x ∧ g.integral n k jp jw = .ok y ∧ z = x + y := by
  obtain ⟨r', hr', -, hrd, hrc, hrv⟩ := (C01_sum f g hf hg).2 (by rw [hd]; simp) (by rw [hd]; simp) (by rw [h1, h2])
  obtain rfl : r = r' := by rw [h] at hr'; cases hr'; rfl
  rw [h1] at hrc
  have key : ∀ t, (∃ x, r.call [t] = .ok [[x]]) ↔ (∃ x, f.call [t] = .ok [[x]]) ∧ ∃ x, g.call [t] = .ok [[x]] := by
    intro t
    constructor
    · rintro ⟨x, hx⟩
      obtain ⟨a, b, ha, hb, -⟩ := (hrv _ _).mp hx
      exact ⟨⟨_, by rw [ha, val_one h1 ha]⟩, ⟨_, by rw [hb, val_one h2 hb]⟩⟩
    · rintro ⟨⟨x, hx⟩, ⟨y, hy⟩⟩
      exact ⟨x + y, (hrv _ _).mpr ⟨_, _, hx, hy, rfl⟩⟩
  have kval : ∀ t, (∃ x, r.call [t] = .ok [[x]]) → val r 0 t = val f 0 t + val g 0 t := by
    intro t ht
    obtain ⟨⟨x, hx⟩, ⟨y, hy⟩⟩ := (key t).mp ht
    have := (hrv [t] [[x + y]]).mpr ⟨_, _, hx, hy, rfl⟩
    rw [val_of_call this, val_of_call hx, val_of_call hy]; rfl
  rw [(C43_integral r n k jp jw).2 hrc, hrd]
  constructor
  · rintro ⟨p, w, hp, he, rfl⟩
    refine ⟨_, _, ((C43_integral f n k jp jw).2 h1 _).mpr ⟨p, w, hp, fun iv hiv j hj => ((key _).mp (he iv hiv j hj)).1, rfl⟩,
      ((C43_integral g n k jp jw).2 h2 _).mpr ⟨p, w, hp, by rw [← hd]; exact fun iv hiv j hj => ((key _).mp (he iv hiv j hj)).2, rfl⟩, ?_⟩
    rw [← hd, ← quadrature_add]
    exact quadrature_congr fun iv hiv j hj => kval _ (he iv hiv j hj)
  · rintro ⟨x, y, hx, hy, rfl⟩
    obtain ⟨p, w, hp, he, rfl⟩ := ((C43_integral f n k jp jw).2 h1 _).mp hx
    obtain ⟨p', w', hp', he', rfl⟩ := ((C43_integral g n k jp jw).2 h2 _).mp hy
    rw [hp] at hp'
    cases hp'
    rw [← hd] at he' ⊢
    have he2 : Evaluable r f.dom n k p := fun iv hiv j hj => (key _).mpr ⟨he iv hiv j hj, he' iv hiv j hj⟩
    refine ⟨p, w, hp, he2, ?_⟩
    rw [← quadrature_add]
    exact (quadrature_congr fun iv hiv j hj => kval _ (he2 iv hiv j hj)).symm

/-- **C43**, linearity: the integral of a number times a function is the number times the integral. -/
theorem C43_scalar (c : ℝ) (f r : Fn) (hf : Built f) (h1 : f.codim = 1) (h : smul c f = .ok r) (n k : ℕ) (jp jw : Vec) (z : ℝ) :
    r.integral n k jp jw = .ok z ↔ ∃ x, f.integral n k jp jw = .ok x ∧ z = c * x := by
  obtain ⟨r', hr', -, hrd, hrc, hrv⟩ := C03_scalar c f hf
  obtain rfl : r = r' := by rw [h] at hr'; cases hr'; rfl
  rw [h1] at hrc
  have key : ∀ t, (∃ x, r.call [t] = .ok [[x]]) ↔ (∃ x, f.call [t] = .ok [[x]]) := by
    intro t
    constructor
    · rintro ⟨x, hx⟩
      obtain ⟨a, ha, -⟩ := (hrv _ _).mp hx
      exact ⟨_, by rw [ha, val_one h1 ha]⟩
    · rintro ⟨x, hx⟩
      exact ⟨c * x, (hrv _ _).mpr ⟨_, hx, rfl⟩⟩
  have kval : ∀ t, (∃ x, r.call [t] = .ok [[x]]) → val r 0 t = c * val f 0 t := by
    intro t ht
    obtain ⟨x, hx⟩ := (key t).mp ht
    have := (hrv [t] [[c * x]]).mpr ⟨_, hx, rfl⟩
    rw [val_of_call this, val_of_call hx]; rfl
  rw [(C43_integral r n k jp jw).2 hrc, hrd]
  constructor
  · rintro ⟨p, w, hp, he, rfl⟩
    refine ⟨_, ((C43_integral f n k jp jw).2 h1 _).mpr ⟨p, w, hp, fun iv hiv j hj => (key _).mp (he iv hiv j hj), rfl⟩, ?_⟩
    rw [← quadrature_smul]
    exact quadrature_congr fun iv hiv j hj => kval _ (he iv hiv j hj)
  · rintro ⟨x, hx, rfl⟩
    obtain ⟨p, w, hp, he, rfl⟩ := ((C43_integral f n k jp jw).2 h1 _).mp hx
    have he2 : Evaluable r f.dom n k p := fun iv hiv j hj => (key _).mpr (he iv hiv j hj)
    refine ⟨p, w, hp, he2, ?_⟩
    rw [← quadrature_smul]
    exact (quadrature_congr fun iv hiv j hj => kval _ (he2 iv hiv j hj)).symm

/-- **C43**, additivity over pieces of the domain: let the domain of `f` be cut at `m` in the proportion `k₁ : k₂`, and let `f₁` and `f₂` return the same
values as `f` on the two parts. Then the integral of `f` with `k₁ + k₂` intervals is the sum of the integrals of the parts with `k₁` and `k₂` intervals. -/
theorem C43_pieces (f f₁ f₂ : Fn) (h : f.codim = 1) (h1 : f₁.codim = 1) (h2 : f₂.codim = 1) (a m b : ℝ) (hd : f.dom = (a, b)) (hd1 : f₁.dom = (a, m))
    (hd2 : f₂.dom = (m, b)) (k₁ k₂ : ℕ) (hk1 : 0 < k₁) (hk2 : 0 < k₂) (hm : (m - a) * k₂ = (b - m) * k₁)
    (hv : ∀ t, f.call [t] = f₁.call [t] ∧ f.call [t] = f₂.call [t]) (n : ℕ) (jp jw : Vec) (z : ℝ) :
    f.integral n (k₁ + k₂) jp jw = .ok z ↔ ∃ x y, f₁.integral n k₁ jp jw = .ok x ∧ f₂.integral n k₂ jp jw = .ok y ∧ z = x + y := by
  have c1 : (k₁ : ℝ) ≠ 0 := by exact_mod_cast hk1.ne'
  have c2 : (k₂ : ℝ) ≠ 0 := by exact_mod_cast hk2.ne'
  have c3 : ((k₁ + k₂ : ℕ) : ℝ) ≠ 0 := by exact_mod_cast (by omega : k₁ + k₂ ≠ 0)
  have l1 : (m - a) / k₁ = (b - a) / ((k₁ + k₂ : ℕ) : ℝ) := by
    rw [div_eq_div_iff c1 c3]; push_cast; linarith
  have l2 : (b - m) / k₂ = (b - a) / ((k₁ + k₂ : ℕ) : ℝ) := by
    rw [div_eq_div_iff c2 c3]; push_cast; linarith
  have g1 : ∀ iv x, gridPoint (a, b) (k₁ + k₂) iv x = gridPoint (a, m) k₁ iv x := by
    intro iv x; unfold gridPoint; rw [l1]
  have hm' : m = a + k₁ * ((b - a) / ((k₁ + k₂ : ℕ) : ℝ)) := by rw [← l1]; field_simp; ring
  have g2 : ∀ iv x, gridPoint (a, b) (k₁ + k₂) (k₁ + iv) x = gridPoint (m, b) k₂ iv x := by
    intro iv x; unfold gridPoint
    simp only
    rw [l2]
    conv_rhs => rw [hm']
    push_cast; ring
  have hsum : ∀ p w, quadrature (val f 0) (a, b) n (k₁ + k₂) p w = quadrature (val f₁ 0) (a, m) n k₁ p w + quadrature (val f₂ 0) (m, b) n k₂ p w := by
    intro p w
    have v1 : val f 0 = val f₁ 0 := by funext t; unfold Spec.val; rw [(hv t).1]
    have v2 : val f 0 = val f₂ 0 := by funext t; unfold Spec.val; rw [(hv t).2]
    rw [← v1, ← v2]
    unfold quadrature
    rw [sum_range_add]
    simp only [l1, l2]
    congr 1
    · simp only [g1]
    · simp only [g2]
  have hev : ∀ p, Evaluable f (a, b) n (k₁ + k₂) p ↔ Evaluable f₁ (a, m) n k₁ p ∧ Evaluable f₂ (m, b) n k₂ p := by
    intro p
    constructor
    · intro he
      refine ⟨fun iv hiv j hj => ?_, fun iv hiv j hj => ?_⟩
      · rw [← g1, ← (hv _).1]; exact he iv (by omega) j hj
      · rw [← g2, ← (hv _).2]; exact he (k₁ + iv) (by omega) j hj
    · rintro ⟨e1, e2⟩ iv hiv j hj
      by_cases hlt : iv < k₁
      · have := e1 iv hlt j hj
        rw [← g1, ← (hv _).1] at this; exact this
      · obtain ⟨i, rfl⟩ : ∃ i, iv = k₁ + i := ⟨iv - k₁, by omega⟩
        have := e2 i (by omega) j hj
        rw [← g2, ← (hv _).2] at this; exact this
  rw [(C43_integral f n (k₁ + k₂) jp jw).2 h, hd]
  constructor
  · rintro ⟨p, w, hp, he, rfl⟩
    obtain ⟨e1, e2⟩ := (hev p).mp he
    exact ⟨_, _, ((C43_integral f₁ n k₁ jp jw).2 h1 _).mpr ⟨p, w, hp, by rw [hd1]; exact e1, rfl⟩,
      ((C43_integral f₂ n k₂ jp jw).2 h2 _).mpr ⟨p, w, hp, by rw [hd2]; exact e2, rfl⟩, by rw [hd1, hd2, hsum]⟩
  · rintro ⟨x, y, hx, hy, rfl⟩
    obtain ⟨p, w, hp, e1, rfl⟩ := ((C43_integral f₁ n k₁ jp jw).2 h1 _).mp hx
    obtain ⟨p', w', hp', e2, rfl⟩ := ((C43_integral f₂ n k₂ jp jw).2 h2 _).mp hy
    rw [hp] at hp'
    cases hp'
    rw [hd1] at e1 ⊢
    rw [hd2] at e2 ⊢
    exact ⟨p, w, hp, (hev p).mpr ⟨e1, e2⟩, (hsum p w).symm⟩

/-- `C43_integral` is not about errors: the integral of a sine over `[0, π]` with five points and four intervals exists, whatever the contents of the buffers
of the points and weights, if these can be computed. -/
example (jp jw p w : Vec) (h : GLL.pointsWeights 5 jp jw = .ok (p, w)) :
    (Fn.sin (0, Real.pi)).integral 5 4 jp jw = .ok (quadrature Real.sin (0, Real.pi) 5 4 p w) := by
  have hv := (val_sin (0, Real.pi))
  rw [(C43_integral _ 5 4 jp jw).2 rfl]
  refine ⟨p, w, h, (evaluable_iff rfl _ _ _ _).mpr fun iv _ j _ => ?_, by rw [hv.2]; rfl⟩
  rw [hv.1]; rfl

/-! ## Inner products -/

theorem built_of_regular {f : Fn} (h : Regular f) : Built f := by
  induction h with
  | const d v h => exact .const d v h
  | dil d c => exact .dil d c
  | ident d => exact .ident d
  | exp d => exact .exp d
  | cos d => exact .cos d
  | sin d => exact .sin d
  | poly d a _ => exact .poly d a
  | user d c F h => exact .user d c F h
  | gspl g h _ _ _ _ => exact .gspl g h
  | toExpr _ ih => exact .toExpr ih
  | wrap _ ih => exact .wrap ih
  | add _ _ h i1 i2 => exact .add i1 i2 h
  | neg _ h ih => exact .neg ih h
  | sub _ _ h h' i1 i2 => exact .sub i1 i2 h h'
  | mul ov _ _ _ h i1 i2 => exact .mul ov i1 i2 h
  | smul k _ h ih => exact .smul k ih h
  | compose ov _ _ h _ i1 i2 => exact .compose ov i1 i2 h
  | concat ov _ _ _ _ _ h _ i1 i2 => exact .concat ov i1 i2 h
  | dot ov _ _ _ h i1 i2 => exact .dot ov i1 i2 h
  | addInPlace _ _ h i1 i2 => exact .addInPlace i1 i2 h
  | mulInPlace _ _ h i1 i2 => exact .mulInPlace i1 i2 h
  | derivate n _ _ h ih => exact .derivate n ih h
  | deriv n _ _ h ih => exact .deriv n ih h

/-- The derivative of a regular function: it can be evaluated everywhere, with the values `dval`. -/
theorem derivate_dval {f : Fn} (hf : Regular f) {m : ℕ} (hm : OrderOk m f) : ∃ a, f.derivate m = .ok a ∧ Built a ∧ a.dom = f.dom ∧ a.codim = f.codim ∧
    ∀ t, a.call [t] = .ok [(List.range f.codim).map fun c => dval f m c t] := by
  obtain ⟨a, h1, h2, h3, -⟩ := C06_derivate_partial f hf m hm
  have hr : Regular a := .derivate m hf hm h1
  refine ⟨a, h1, built_of_regular hr, h2, h3, fun t => ?_⟩
  rw [C06_value a hr t, h3]
  unfold dval
  rw [h1]

theorem dval_smooth {f : Fn} (hf : Regular f) {m : ℕ} (hm : OrderOk m f) {t : ℝ} (hs : Smooth f t) {c : ℕ} (hc : c < f.codim) :
    dval f m c t = iteratedDeriv m (val f c) t := by
  obtain ⟨a, h1, h2, h3, h4⟩ := C06_derivate_partial f hf m hm
  unfold dval
  rw [h1]
  change val a c t = _
  rw [val_of_call (h4 t hs), getD_map_range hc]

theorem list_sum_range (n : ℕ) (F : ℕ → ℝ) : ((List.range n).map F).sum = ∑ c ∈ range n, F c := by
  induction n with
  | zero => simp
  | succ n ih => rw [List.range_succ, List.map_append, List.sum_append, ih, sum_range_succ]; simp

theorem semiStep_ok {f g s : Fn} (hf : Regular f) (hg : Regular g) (hc : f.codim = g.codim) {q : ℕ × ℝ} (hqf : OrderOk q.1 f) (hqg : OrderOk q.1 g)
    (hs : Built s) (hsc : s.codim = 1) {S : ℝ → ℝ} (hsv : ∀ t, s.call [t] = .ok [[S t]]) :
    ∃ r, semiStep f g s q = .ok r ∧ Built r ∧ r.dom = s.dom ∧ r.codim = 1 ∧
      ∀ t, r.call [t] = .ok [[S t + q.2 * ∑ c ∈ range f.codim, dval f q.1 c t * dval g q.1 c t]] := by
  obtain ⟨a, a1, a2, a3, a4, a5⟩ := derivate_dval hf hqf
  obtain ⟨b, b1, b2, b3, b4, b5⟩ := derivate_dval hg hqg
  obtain ⟨d, d1, d2, d3, d4⟩ := (C08_dot_value a b ⟨true, true⟩).2 (by rw [a4, b4, hc])
  have hdb : Built d := .dot _ a2 b2 d1
  obtain ⟨t, t1, t2, t3, t4, t5⟩ := C03_scalar q.2 d hdb
  rw [d2] at t4
  refine ⟨addInPlace s t, ?_, .addInPlace hs t2 (by rw [hsc, t4]), ?_, ?_, fun u => ?_⟩
  · unfold semiStep
    rw [a1]; change (do let b ← g.derivate q.1; _) = _
    rw [b1]; change (do let d ← dotOp ⟨true, true⟩ a b; _) = _
    rw [d1]; change (do let t ← smul q.2 d; _) = _
    rw [t1]; rfl
  · unfold addInPlace inPlace
    cases s <;> first | rfl | (dsimp only; split_ifs <;> rfl)
  · rw [← hsc]
    unfold addInPlace inPlace
    cases s <;> first | rfl | (dsimp only; split_ifs <;> rfl)
  · refine (call_addInPlace (wf_of_built hs) (by rw [hsc, t4]) _ _).mpr ⟨_, _, hsv u, (t5 _ _).mpr ⟨_, (d4 _ _).mpr ⟨_, _, a5 u, b5 u, rfl⟩, rfl⟩, ?_⟩
    simp only [addRows, List.zipWith_cons_cons, List.zipWith_nil_left, List.map_cons, List.map_nil]
    rw [← hc, zip_range, list_sum_range]

/-- The integrand built by `sobolev_semi_inner_product`. -/
theorem semiFold_ok {f g : Fn} (hf : Regular f) (hg : Regular g) (hc : f.codim = g.codim) : ∀ (terms : List (ℕ × ℝ)) {s : Fn} {S : ℝ → ℝ},
    (∀ q ∈ terms, OrderOk q.1 f ∧ OrderOk q.1 g) → Built s → s.codim = 1 → (∀ t, s.call [t] = .ok [[S t]]) →
    ∃ r, terms.foldlM (semiStep f g) s = .ok r ∧ r.dom = s.dom ∧ r.codim = 1 ∧
      ∀ t, r.call [t] = .ok [[S t + (terms.map fun q => q.2 * ∑ c ∈ range f.codim, dval f q.1 c t * dval g q.1 c t).sum]] := by
  intro terms
  induction terms with
  | nil => intro s S _ hs h1 h2; exact ⟨s, rfl, rfl, h1, by simpa using h2⟩
  | cons q l ih =>
    intro s S ho hs h1 h2
    obtain ⟨s', e1, e2, e3, e4, e5⟩ := semiStep_ok hf hg hc (ho q (by simp)).1 (ho q (by simp)).2 hs h1 h2
    obtain ⟨r, r1, r2, r3, r4⟩ := ih (fun x hx => ho x (by simp [hx])) e2 e4 e5
    refine ⟨r, ?_, by rw [r2, e3], r3, fun t => ?_⟩
    · rw [List.foldlM_cons, e1]; exact r1
    · rw [r4, List.map_cons, List.sum_cons, add_assoc]

/-- **C43**, inner products: for all regular functions with the same number of components, if the derivatives that occur are among those which the code
computes correctly, the result is the composite Gauss-Lobatto sum, over the domain of the first function, of the weighted scalar products of the values
of the derivatives. -/
theorem C43_semi_inner_product (f g : Fn) (hf : Regular f) (hg : Regular g) (hc : f.codim = g.codim) (terms : List (ℕ × ℝ))
    (ho : ∀ q ∈ terms, OrderOk q.1 f ∧ OrderOk q.1 g) (n k : ℕ) (jp jw p w : Vec) (hp : GLL.pointsWeights n jp jw = .ok (p, w)) :
    semiInner f g terms n k jp jw =
      .ok (quadrature (fun t => (terms.map fun q => q.2 * ∑ c ∈ range f.codim, dval f q.1 c t * dval g q.1 c t).sum) f.dom n k p w) := by
  obtain ⟨r, r1, r2, r3, r4⟩ := semiFold_ok hf hg hc terms ho (s := zero f.dom 1) (S := fun _ => 0)
    (.toExpr (f := wrap (const f.dom [0])) (.toExpr (.const _ _ (by simp)))) rfl (fun t => by
      unfold zero; rw [call, run_expr]; simp [evalTy, evalUnique, run, codim, ev])
  unfold semiInner
  rw [r1]
  change r.integral n k jp jw = _
  rw [(C43_integral r n k jp jw).2 r3, r2]
  refine ⟨p, w, hp, fun iv _ j _ => ⟨_, r4 _⟩, ?_⟩
  exact quadrature_congr fun iv _ j _ => by rw [val_of_call (r4 _)]; simp

/-- **C43**, inner products in terms of the derivatives of the functions, if the functions are smooth at the points of the grid. -/
theorem C43_semi_inner_product_smooth (f g : Fn) (hf : Regular f) (hg : Regular g) (hc : f.codim = g.codim) (terms : List (ℕ × ℝ))
    (ho : ∀ q ∈ terms, OrderOk q.1 f ∧ OrderOk q.1 g) (n k : ℕ) (jp jw p w : Vec) (hp : GLL.pointsWeights n jp jw = .ok (p, w))
    (hs : ∀ iv < k, ∀ j < n, Smooth f (gridPoint f.dom k iv (p j)) ∧ Smooth g (gridPoint f.dom k iv (p j))) :
    semiInner f g terms n k jp jw = .ok (quadrature (fun t => (terms.map fun q => q.2 * ∑ c ∈ range f.codim,
      iteratedDeriv q.1 (val f c) t * iteratedDeriv q.1 (val g c) t).sum) f.dom n k p w) := by
  rw [C43_semi_inner_product f g hf hg hc terms ho n k jp jw p w hp]
  congr 1
  refine quadrature_congr fun iv hiv j hj => ?_
  congr 1
  refine List.map_congr_left fun q hq => ?_
  congr 1
  refine sum_congr rfl fun c hcc => ?_
  have h := hs iv hiv j hj
  rw [dval_smooth hf (ho q hq).1 h.1 (mem_range.mp hcc), dval_smooth hg (ho q hq).2 h.2 (by rw [← hc]; exact mem_range.mp hcc)]

/-- **C43**: functions with different numbers of components are rejected by the assertion of the dot product. -/
theorem C43_semi_inner_codim (f g : Fn) (hf : Regular f) (hg : Regular g) (hc : f.codim ≠ g.codim) (q : ℕ × ℝ) (terms : List (ℕ × ℝ))
    (ho : OrderOk q.1 f ∧ OrderOk q.1 g) (n k : ℕ) (jp jw : Vec) : semiInner f g (q :: terms) n k jp jw = .error .assertFail := by
  obtain ⟨a, a1, -, -, a4, -⟩ := derivate_dval hf ho.1
  obtain ⟨b, b1, -, -, b4, -⟩ := derivate_dval hg ho.2
  have := (C08_dot_value a b ⟨true, true⟩).1 (by rw [a4, b4]; exact hc)
  unfold semiInner
  rw [List.foldlM_cons]
  unfold semiStep
  rw [a1, GLL.ok_bind, b1, GLL.ok_bind, this]
  rfl

/-- **C43**: the inner products of functions with the same domain are symmetric. -/
theorem C43_symmetric (f g : Fn) (hf : Regular f) (hg : Regular g) (hc : f.codim = g.codim) (hd : f.dom = g.dom) (terms : List (ℕ × ℝ))
    (ho : ∀ q ∈ terms, OrderOk q.1 f ∧ OrderOk q.1 g) (n k : ℕ) (jp jw p w : Vec) (hp : GLL.pointsWeights n jp jw = .ok (p, w)) :
    semiInner f g terms n k jp jw = semiInner g f terms n k jp jw := by
  rw [C43_semi_inner_product f g hf hg hc terms ho n k jp jw p w hp,
    C43_semi_inner_product g f hg hf hc.symm terms (fun q hq => (ho q hq).symm) n k jp jw p w hp, hd, hc]
  congr 3
  funext t
  congr 1
  refine List.map_congr_left fun q _ => ?_
  congr 1
  exact sum_congr rfl fun c _ => mul_comm _ _

/-- **C43**: without the same domain symmetry does not hold: the domain of the first function is used. -/
theorem C43_symmetric_domain (jp jw p w : Vec) (n k : ℕ) (hk : 0 < k) (hp : GLL.pointsWeights n jp jw = .ok (p, w)) (hw : ∑ j ∈ range n, w j = 2) :
    l2Inner (Fn.const (0, 1) [1]) (Fn.const (0, 3) [1]) n k jp jw = .ok 1 ∧
    l2Inner (Fn.const (0, 3) [1]) (Fn.const (0, 1) [1]) n k jp jw = .ok 3 := by
  have key : ∀ a b : ℝ, l2Inner (Fn.const (0, a) [1]) (Fn.const (0, b) [1]) n k jp jw = .ok a := by
    intro a b
    have hv : ∀ d : ℝ × ℝ, val (Fn.const d [1]) 0 = fun _ => 1 := fun d => (val_const d [1]).2 0 (by simp)
    unfold l2Inner sobolevInner allOrders
    rw [C43_semi_inner_product_smooth (Fn.const (0, a) [1]) (Fn.const (0, b) [1]) (.const _ _ (by simp)) (.const _ _ (by simp)) rfl _ (fun q _ => ⟨.const _ _, .const _ _⟩) n k jp jw p w hp
      (fun iv _ j _ => ⟨.const _ _ _, .const _ _ _⟩)]
    congr 1
    have hk' : (k : ℝ) ≠ 0 := by exact_mod_cast hk.ne'
    simp only [zero_add, List.range_one, List.map_cons, List.map_nil, codim, List.length_cons, List.length_nil, sum_range_one, hv, iteratedDeriv_zero,
      quadrature, List.sum_cons, List.sum_nil, mul_one, add_zero, hw, sum_const, card_range, nsmul_eq_mul, dom, sub_zero]
    field_simp
  exact ⟨key 1 3, key 3 1⟩

/-! ### Bilinearity -/

/-- The derivative of the elements that an operand contributes to a sum. -/
theorem derivs_splice {f : Fn} (hf : Good f) {m : ℕ} (hm : OrderOk m f) : ∃ ds f', derivs (splice .sum f) m = .ok ds ∧ f.deriv m = .ok f' ∧ ds ≠ [] ∧
    (∀ a ∈ ds, a.Tot ∧ a.codim = f.codim) ∧ ∀ c < f.codim, ∀ t, (ds.map fun a => val a c t).sum = val f' c t := by
  obtain ⟨f', e1, e2⟩ := deriv_nstep hf hm
  have single : ∀ g : Fn, g.deriv m = f.deriv m → derivs [g] m = .ok [f'] := by
    intro g hg
    rw [derivs, hg, e1, derivs]; rfl
  have one : derivs (splice .sum f) m = .ok [f'] → ∃ ds f', derivs (splice .sum f) m = .ok ds ∧ f.deriv m = .ok f' ∧ ds ≠ [] ∧
    (∀ a ∈ ds, a.Tot ∧ a.codim = f.codim) ∧ ∀ c < f.codim, ∀ t, (ds.map fun a => val a c t).sum = val f' c t := fun h =>
    ⟨[f'], f', h, e1, by simp, by simpa using ⟨tot_of_good e2.1, e2.2.2.1⟩, fun c _ t => by simp⟩
  cases f with
  | ident d =>
    refine one (single (dil d 1) ?_)
    rw [Fn.deriv, Fn.deriv]
  | expr d c ty args =>
    have hsp := splice_expr .sum d c ty args
    by_cases hty : ty = .sum ∨ ty = .unique
    · rw [if_pos hty] at hsp
      rw [hsp]
      obtain ⟨hga, hsh⟩ := good_args hf
      have hlin : ty ≠ .mul ∧ ty ≠ .comp := by rcases hty with rfl | rfl <;> simp
      have hoa : ∀ a ∈ args, OrderOk m a := by
        cases hm with
        | mul => simp at hlin
        | comp => simp at hlin
        | expr _ _ _ _ ho => exact ho
      obtain ⟨ds, d1, d2⟩ : ∃ ds, derivs args m = .ok ds ∧ List.Forall₂ (NStep m) args ds := by
        rw [derivs_eq]
        exact exists_mapM fun a ha => deriv_nstep (hga a ha) (hoa a ha)
      have hd : (expr d c ty args).deriv m = .ok (expr d c ty ds) := by
        rw [Fn.deriv.eq_def]
        rcases hty with rfl | rfl
        · dsimp only; rw [d1]; exact derivLin_ok hsh (by simp) (by simp)
        · dsimp only; rw [d1]; exact derivLin_ok hsh (by simp) (by simp)
      have hcd : ∀ a ∈ args, a.codim = c := by
        rcases hty with rfl | rfl
        · exact hsh.2
        · obtain ⟨a, rfl, -, h⟩ := hsh; simpa using h
      have hne : ds ≠ [] := by
        have : args ≠ [] := by
          rcases hty with rfl | rfl
          · obtain ⟨⟨a, rest, rfl, -⟩, -⟩ := hsh; simp
          · obtain ⟨a, rfl, -⟩ := hsh; simp
        intro h
        subst h
        cases d2
        exact this rfl
      have hds : ∀ a ∈ ds, a.Tot ∧ a.codim = c := by
        intro a ha
        obtain ⟨b, hb, h⟩ := nstep_mem_right d2 a ha
        exact ⟨tot_of_good h.1, by rw [h.2.2.1, hcd b hb]⟩
      refine ⟨ds, _, d1, hd, hne, hds, fun k hk t => ?_⟩
      rcases hty with rfl | rfl
      · rw [(val_sum d hne (fun a ha => (hds a ha).1) fun a ha => (hds a ha).2).2 k hk]
      · obtain ⟨a, rfl, -⟩ := hsh
        cases d2 with
        | cons h h' =>
          cases h'
          obtain ⟨-, h2⟩ := hds _ (List.mem_singleton.mpr rfl)
          subst h2
          rw [val_unique]; simp
    · rw [if_neg hty] at hsp
      rw [hsp] at one ⊢
      exact one (single _ rfl)
  | _ => exact one (single _ rfl)

theorem derivs_append {l l' ds ds' : List Fn} {m : ℕ} (h : derivs l m = .ok ds) (h' : derivs l' m = .ok ds') : derivs (l ++ l') m = .ok (ds ++ ds') := by
  rw [derivs_eq] at h h' ⊢
  rw [List.mapM_append, h, h']
  rfl

/-- The derivative of a sum takes the sum of the values of the derivatives, at all points. -/
theorem dval_add {f g r : Fn} (hf : Good f) (hg : Good g) (h : add f g = .ok r) {m : ℕ} (hmf : OrderOk m f) (hmg : OrderOk m g) {c : ℕ}
    (hcc : c < f.codim) (t : ℝ) : dval r m c t = dval f m c t + dval g m c t := by
  obtain ⟨ds, f', f1, f2, f3, f4, f5⟩ := derivs_splice hf hmf
  obtain ⟨es, g', g1, g2, g3, g4, g5⟩ := derivs_splice hg hmg
  unfold add at h
  by_cases h1 : sameDomain f g
  swap
  · rw [if_pos h1] at h; simp at h
  rw [if_neg (not_not.mpr h1)] at h
  by_cases h2 : f.codim = g.codim
  swap
  · rw [if_pos h2] at h; simp at h
  rw [if_neg (not_not.mpr h2)] at h
  injection h with h
  subst h
  have hsh := (good_args (good_sum hf hg h2)).2
  have hd : (expr f.dom f.codim .sum (splice .sum f ++ splice .sum g)).deriv m = .ok (expr f.dom f.codim .sum (ds ++ es)) := by
    rw [Fn.deriv.eq_def]
    dsimp only
    rw [derivs_append f1 g1]
    exact derivLin_ok hsh (by simp) (by simp)
  have hv := (val_sum f.dom (c := f.codim) (l := ds ++ es) (by simp [f3]) (by
    intro a ha
    rcases List.mem_append.mp ha with ha | ha
    · exact (f4 a ha).1
    · exact (g4 a ha).1) (by
    intro a ha
    rcases List.mem_append.mp ha with ha | ha
    · exact (f4 a ha).2
    · rw [h2]; exact (g4 a ha).2)).2 c hcc
  have hw : ∀ {x x' : Fn}, x.deriv m = .ok x' → x'.codim = x.codim → dval x m c t = val x' c t := by
    intro x x' hx hxc
    unfold dval derivate
    rw [hx]
    change val (expr x.dom x.codim .unique [x']) c t = _
    rw [← hxc, val_unique]
  obtain ⟨f'', a1, a2⟩ := deriv_nstep hf hmf
  obtain ⟨g'', b1, b2⟩ := deriv_nstep hg hmg
  rw [f2] at a1; cases a1
  rw [g2] at b1; cases b1
  rw [hw hd rfl, hw f2 a2.2.2.1, hw g2 b2.2.2.1, hv]
  dsimp only
  rw [List.map_append, List.sum_append, f5 c hcc, g5 c (by rw [← h2]; exact hcc)]

theorem orderOk_splice {f : Fn} {m : ℕ} (hm : OrderOk m f) : ∀ a ∈ splice .sum f, OrderOk m a := by
  cases hm with
  | mul d c args => rw [splice_expr]; simpa using .mul d c args
  | comp d c args => rw [splice_expr]; simpa using .comp d c args
  | expr d c ty args h =>
    rw [splice_expr]
    split_ifs
    · exact h
    · simpa using .expr d c ty args h
  | const d v => simpa [splice, parts, clone] using .const d v
  | dil d v => simpa [splice, parts, clone] using .dil d v
  | ident d => simpa [splice, parts, clone] using .dil d 1
  | exp d => simpa [splice, parts, clone] using .exp d
  | cos d => simpa [splice, parts, clone] using .cos d
  | sin d => simpa [splice, parts, clone] using .sin d
  | poly d a => simpa [splice, parts, clone] using .poly d a
  | user d c F => simpa [splice, parts, clone] using .user d c F
  | gspl g h => simpa [splice, parts, clone] using .gspl g h
  | dot d f g => simpa [splice, parts, clone] using .dot d f g

theorem orderOk_add {f g r : Fn} {m : ℕ} (hf : OrderOk m f) (hg : OrderOk m g) (h : add f g = .ok r) : OrderOk m r := by
  unfold add at h
  split_ifs at h
  injection h with h
  subst h
  refine .expr _ _ _ _ fun a ha => ?_
  rcases List.mem_append.mp ha with ha | ha
  · exact orderOk_splice hf a ha
  · exact orderOk_splice hg a ha

theorem list_sum_add {α : Type} (l : List α) (F G : α → ℝ) : (l.map fun q => F q + G q).sum = (l.map F).sum + (l.map G).sum := by
  induction l with
  | nil => simp
  | cons a l ih => simp only [List.map_cons, List.sum_cons, ih]; ring

theorem list_sum_mul {α : Type} (l : List α) (c : ℝ) (F : α → ℝ) : (l.map fun q => c * F q).sum = c * (l.map F).sum := by
  induction l with
  | nil => simp
  | cons a l ih => simp only [List.map_cons, List.sum_cons, ih]; ring

/-- **C43**: the inner products are additive in the first argument. -/
theorem C43_inner_add (f g r h : Fn) (hf : Regular f) (hg : Regular g) (hh : Regular h) (hd : f.dom = g.dom) (hc : f.codim = g.codim) (hch : f.codim = h.codim)
    (hr : add f g = .ok r) (terms : List (ℕ × ℝ)) (ho : ∀ q ∈ terms, OrderOk q.1 f ∧ OrderOk q.1 g ∧ OrderOk q.1 h) (n k : ℕ) (jp jw p w : Vec)
    (hp : GLL.pointsWeights n jp jw = .ok (p, w)) :
    ∃ x y, semiInner f h terms n k jp jw = .ok x ∧ semiInner g h terms n k jp jw = .ok y ∧ semiInner r h terms n k jp jw = .ok (x + y) := by
  obtain ⟨r', hr', -, hrd, hrc, -⟩ := (C01_sum f g (built_of_regular hf) (built_of_regular hg)).2 (by rw [hd]; simp) (by rw [hd]; simp) hc
  rw [hr] at hr'; cases hr'
  refine ⟨_, _, C43_semi_inner_product f h hf hh hch terms (fun q hq => ⟨(ho q hq).1, (ho q hq).2.2⟩) n k jp jw p w hp,
    C43_semi_inner_product g h hg hh (by rw [← hc, hch]) terms (fun q hq => ⟨(ho q hq).2.1, (ho q hq).2.2⟩) n k jp jw p w hp, ?_⟩
  rw [C43_semi_inner_product r h (.add hf hg hr) hh (by rw [hrc, hch]) terms
    (fun q hq => ⟨orderOk_add (ho q hq).1 (ho q hq).2.1 hr, (ho q hq).2.2⟩) n k jp jw p w hp, hrd, ← hd, ← quadrature_add, hrc, ← hc]
  congr 3
  funext t
  rw [← list_sum_add]
  congr 1
  refine List.map_congr_left fun q hq => ?_
  rw [← mul_add, ← sum_add_distrib]
  congr 1
  refine sum_congr rfl fun c hcc => ?_
  rw [dval_add (good_of_regular hf).1 (good_of_regular hg).1 hr (ho q hq).1 (ho q hq).2.1 (mem_range.mp hcc)]
  ring

/-- A function with a break at `1`. -/
noncomputable def kink : Fn := expr (0, 2) 1 .concat [wrap (Fn.poly (0, 1) [0, 1]), wrap (Fn.cos (1, 2))]

theorem kink_regular : Regular kink := by
  refine .concat ⟨false, false⟩ (.poly (0, 1) [0, 1] (by simp)) (.cos (1, 2)) ?_ ?_ rfl ?_ rfl
  · change (0 : ℝ) < 1; norm_num
  · change (1 : ℝ) < 2; norm_num
  · simp [Fn.concat, kink, chain, parts, toExpr, codim, dom, tol9]

theorem kink_order (m : ℕ) : OrderOk m kink := by
  refine .expr _ _ _ _ fun a ha => ?_
  simp only [List.mem_cons, List.not_mem_nil, or_false] at ha
  rcases ha with rfl | rfl
  · exact .expr _ _ _ _ (by simpa [clone] using .poly _ _)
  · exact .expr _ _ _ _ (by simpa [clone] using .cos _)

/-- The values of `deriv(m)` are those of `m` first derivatives. -/
theorem dval_eq_dv {f : Fn} (hf : Good f) {m : ℕ} (hm : OrderOk m f) {c : ℕ} (hc : c < f.codim) (t : ℝ) : dval f m c t = dv f m c t := by
  obtain ⟨f', f'', h1, h2, -, -, -, h6, h7⟩ := deriv_same hf hm
  unfold dval derivate
  rw [h1, dv_ok h2, h7.2.2.2.2 c (by rw [h6]; exact hc)]
  change val (expr f.dom f.codim .unique [f']) c t = _
  rw [← h6, val_unique]

/-- **C43**: the inner products are homogeneous in the first argument. -/
theorem C43_inner_smul (a : ℝ) (f r h : Fn) (hf : Regular f) (hh : Regular h) (hch : f.codim = h.codim)
    (hr : smul a f = .ok r) (terms : List (ℕ × ℝ)) (ho : ∀ q ∈ terms, OrderOk q.1 f ∧ OrderOk q.1 h) (n k : ℕ) (jp jw p w : Vec)
    (hp : GLL.pointsWeights n jp jw = .ok (p, w)) :
    ∃ x, semiInner f h terms n k jp jw = .ok x ∧ semiInner r h terms n k jp jw = .ok (a * x) := by
  obtain ⟨r', hr', -, hrd, hrc, hrv⟩ := C03_scalar a f (built_of_regular hf)
  rw [hr] at hr'; cases hr'
  have hord : ∀ m, OrderOk m r := by
    intro m
    unfold smul mul at hr
    split_ifs at hr <;> (injection hr with hr; subst hr; exact .mul _ _ _)
  have hrr : Regular r := .smul a hf hr
  refine ⟨_, C43_semi_inner_product f h hf hh hch terms ho n k jp jw p w hp, ?_⟩
  rw [C43_semi_inner_product r h hrr hh (by rw [hrc, hch]) terms (fun q hq => ⟨hord _, (ho q hq).2⟩) n k jp jw p w hp, hrd, hrc, ← quadrature_smul]
  congr 1
  refine quadrature_congr fun iv hiv j hj => ?_
  rw [← list_sum_mul]
  congr 1
  refine List.map_congr_left fun q hq => ?_
  rw [mul_left_comm a, mul_sum (a := a)]
  congr 1
  refine sum_congr rfl fun c hcc => ?_
  have hcc := mem_range.mp hcc
  rw [dval_eq_dv (good_of_regular hrr).1 (hord _) (by rw [hrc]; exact hcc), dval_eq_dv (good_of_regular hf).1 (ho q hq).1 hcc,
    dv_smul (good_of_regular hf).1 (good_of_regular hf).2 hr q.1 hcc]
  ring

/-- **C43**: for functions with one domain the inner products are linear in the second argument as well. -/
theorem C43_inner_linear_right (a : ℝ) (f g r s h : Fn) (hf : Regular f) (hg : Regular g) (hh : Regular h) (hd : f.dom = g.dom) (hdh : f.dom = h.dom)
    (hc : f.codim = g.codim) (hch : f.codim = h.codim) (hr : smul a f = .ok r) (hs : add r g = .ok s) (terms : List (ℕ × ℝ))
    (ho : ∀ q ∈ terms, OrderOk q.1 f ∧ OrderOk q.1 g ∧ OrderOk q.1 h) (n k : ℕ) (jp jw p w : Vec) (hp : GLL.pointsWeights n jp jw = .ok (p, w)) :
    ∃ x y, semiInner h f terms n k jp jw = .ok x ∧ semiInner h g terms n k jp jw = .ok y ∧ semiInner h s terms n k jp jw = .ok (a * x + y) := by
  obtain ⟨r', hr', -, hrd, hrc, -⟩ := C03_scalar a f (built_of_regular hf)
  rw [hr] at hr'; cases hr'
  have hrr : Regular r := .smul a hf hr
  obtain ⟨s', hs', -, hsd, hsc, -⟩ := (C01_sum r g (built_of_regular hrr) (built_of_regular hg)).2 (by rw [hrd, hd]; simp) (by rw [hrd, hd]; simp) (by rw [hrc, hc])
  rw [hs] at hs'; cases hs'
  have hord : ∀ m, OrderOk m r := by
    intro m
    unfold smul mul at hr
    split_ifs at hr <;> (injection hr with hr; subst hr; exact .mul _ _ _)
  obtain ⟨x, h1, h2⟩ := C43_inner_smul a f r h hf hh hch hr terms (fun q hq => ⟨(ho q hq).1, (ho q hq).2.2⟩) n k jp jw p w hp
  obtain ⟨x', y, h3, h4, h5⟩ := C43_inner_add r g s h hrr hg hh (by rw [hrd, hd]) (by rw [hrc, hc]) (by rw [hrc, hch]) hs terms
    (fun q hq => ⟨hord _, (ho q hq).2⟩) n k jp jw p w hp
  rw [h2] at h3
  cases h3
  refine ⟨x, y, ?_, ?_, ?_⟩
  · rw [← h1]
    exact C43_symmetric h f hh hf hch.symm hdh.symm terms (fun q hq => ⟨(ho q hq).2.2, (ho q hq).1⟩) n k jp jw p w hp
  · rw [← h4]
    exact C43_symmetric h g hh hg (hch.symm.trans hc) (hdh.symm.trans hd) terms (fun q hq => ⟨(ho q hq).2.2, (ho q hq).2.1⟩) n k jp jw p w hp
  · rw [← h5]
    refine C43_symmetric h s hh (.add hrr hg hs) (by rw [hsc, hrc, hch]) (by rw [hsd, hrd, hdh]) terms (fun q hq => ⟨(ho q hq).2.2, ?_⟩) n k jp jw p w hp
    exact orderOk_add (hord _) (ho q hq).2.1 hs

/-- A concatenation of two functions that do not fit together (the derivative has a jump at `1`) and three times that function meet the hypotheses of `C43_inner_smul`. -/
example (jp jw : Vec) : ∃ r x, smul 3 kink = .ok r ∧ semiInner kink kink [(0, 1), (1, 2)] 3 2 jp jw = .ok x ∧ semiInner r kink [(0, 1), (1, 2)] 3 2 jp jw = .ok (3 * x) := by
  obtain ⟨p, w, h, -⟩ := three_points jp jw
  obtain ⟨r, hr, -⟩ := C03_scalar 3 kink (built_of_regular kink_regular)
  obtain ⟨x, h1, h2⟩ := C43_inner_smul 3 kink r kink kink_regular kink_regular rfl hr [(0, 1), (1, 2)] (fun q _ => ⟨kink_order _, kink_order _⟩) 3 2 jp jw p w h
  exact ⟨r, x, hr, h1, h2⟩

/-- **C43**: the norms are the inner products of a function with itself, the `L²` functions are those of order zero, and the Sobolev functions sum all orders up to
the given one with weight one. -/
theorem C43_norms (f g : Fn) (terms : List (ℕ × ℝ)) (deg n k : ℕ) (jp jw : Vec) :
    semiNorm f terms n k jp jw = semiInner f f terms n k jp jw ∧ sobolevNorm f deg n k jp jw = sobolevInner f f deg n k jp jw ∧
    l2Norm f n k jp jw = l2Inner f f n k jp jw ∧
    sobolevInner f g deg n k jp jw = semiInner f g ((List.range (deg + 1)).map fun i => (i, 1)) n k jp jw ∧
    l2Inner f g n k jp jw = semiInner f g [(0, 1)] n k jp jw := ⟨rfl, rfl, rfl, rfl, rfl⟩

/-- **C43**: with weights that are not negative, the norm of a function whose domain is an interval is not negative. -/
theorem C43_norm_nonneg (f : Fn) (hf : Regular f) (hd : f.dom.1 ≤ f.dom.2) (terms : List (ℕ × ℝ)) (ho : ∀ q ∈ terms, OrderOk q.1 f) (hq : ∀ q ∈ terms, 0 ≤ q.2)
    (n k : ℕ) (jp jw p w : Vec) (hp : GLL.pointsWeights n jp jw = .ok (p, w)) : ∃ x, semiNorm f terms n k jp jw = .ok x ∧ 0 ≤ x := by
  refine ⟨_, C43_semi_inner_product f f hf hf rfl terms (fun q hq => ⟨ho q hq, ho q hq⟩) n k jp jw p w hp, ?_⟩
  obtain ⟨-, -, -, -, hw, -⟩ := C45_points_weights n jp jw p w hp
  refine sum_nonneg fun iv _ => mul_nonneg (div_nonneg (div_nonneg (by linarith) (by positivity)) (by norm_num)) (sum_nonneg fun j hj => ?_)
  refine mul_nonneg (hw j (mem_range.mp hj)).le (List.sum_nonneg fun x hx => ?_)
  obtain ⟨q, hq', rfl⟩ := List.mem_map.mp hx
  exact mul_nonneg (hq q hq') (sum_nonneg fun c _ => mul_self_nonneg _)

/-- A case that meets the hypotheses: the inner product of order one of a polynomial and a cosine, with three points and two intervals. -/
example (jp jw : Vec) : ∃ p w, GLL.pointsWeights 3 jp jw = .ok (p, w) ∧
    sobolevInner (Fn.poly (0, 2) [1, 0, 1]) (Fn.cos (0, 2)) 1 3 2 jp jw = .ok (quadrature (fun t => (t ^ 2 + 1) * Real.cos t - 2 * t * Real.sin t) (0, 2) 3 2 p w) := by
  obtain ⟨p, w, h, -⟩ := three_points jp jw
  refine ⟨p, w, h, ?_⟩
  unfold sobolevInner allOrders
  rw [C43_semi_inner_product_smooth (Fn.poly (0, 2) [1, 0, 1]) (Fn.cos (0, 2)) (.poly _ _ (by simp)) (.cos _) rfl _ (fun q _ => ⟨.poly _ _, .cos _⟩) 3 2 jp jw p w h
    (fun iv _ j _ => ⟨.poly _ _ _, .cos _ _⟩)]
  congr 1
  refine quadrature_congr fun iv _ j _ => ?_
  have h1 : val (Fn.poly (0, 2) [1, 0, 1]) 0 = fun t => t ^ 2 + 1 := by
    rw [(val_poly (0, 2) (by simp)).2]
    funext t
    simp [horner]; ring
  have h2 : _root_.deriv (fun t : ℝ => t ^ 2 + 1) = fun t => 2 * t := by
    funext t
    simp
  simp only [List.range_succ, List.range_zero, List.nil_append, List.cons_append, List.map_cons, List.map_nil, codim, sum_range_one, h1,
    (val_cos (0, 2)).2, iteratedDeriv_zero, iteratedDeriv_one, h2, Real.deriv_cos', List.sum_cons, List.sum_nil]
  ring

end GSplines.Props
