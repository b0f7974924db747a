import Verif.Proofs.CostLaws

/-!
# Laws of the Sobolev cost (C74)

The value that `SobolevNorm::operator()` returns, for two objects whose data are related.
-/

namespace GSplines.Props

open GSplines Spec Finset Sobolev Symmetry CostLaws

/-- The value of the cost in terms of the coefficients of the spline that `interpolate` returns. -/
theorem cost_good {lu : LU} (hlu : LUContract lu) {w : Pts} {b : Basis} (hb : Interpolable b) {ws : List (ℕ × ℝ)} (ho : ∀ p ∈ ws, Adds b p.1) {mem : LagMem}
    {s : Sobolev} (hs : SReach lu w b ws mem s) {tau : List ℝ} (hne : tau ≠ []) (hw : w.rows = tau.length + 1) (ht : ∀ t ∈ tau, 1 / 10 ^ 6 ≤ t) :
    ∃ s' g, s.cost lu tau = .ok (s', total b tau.length w.cols (fun iv => wsum (q b mem (vecOf tau iv)) ws Mat.zero) (vecOf g.coeffs) (vecOf g.coeffs)) ∧
      Good g w.at' ∧ g.tau = tau ∧ g.codim = w.cols ∧ g.basis = b ∧ interpolateFn lu (fun _ => 0) tau w b = .ok g := by
  have hl := List.length_pos_of_ne_nil hne
  obtain ⟨s', g, h1, h2, h3, h4, h5, -⟩ := cost_spline hlu (w := w) (by omega) hb ho hs (by omega) ht (fun _ => 0)
  obtain ⟨G, -⟩ := good_of hlu hb hne ht hw h1
  exact ⟨s', g, h5, G, h2, h3, h4, h1⟩

/-- **C74** (similarities). If the way points are moved by a linear map that multiplies all lengths by `r` (a rotation, a reflection, a permutation of the
coordinates, a change of the unit of length, an embedding into a space with more coordinates), the cost is multiplied by `r²`. For every list of weights whose
orders the basis accepts, in every state of both objects. -/
theorem C74_similarity (lu : LU) (hlu : LUContract lu) (b : Basis) (hb : Interpolable b) (ws : List (ℕ × ℝ)) (ho : ∀ p ∈ ws, Adds b p.1) (mem : LagMem)
    (w w' : Pts) (tau : List ℝ) (hne : tau ≠ []) (hw : w.rows = tau.length + 1) (hw' : w'.rows = tau.length + 1) (ht : ∀ t ∈ tau, 1 / 10 ^ 6 ≤ t)
    (A : ℕ → ℕ → ℝ) (r : ℝ) (hA : ∀ k < w.cols, ∀ l < w.cols, ∑ c ∈ range w'.cols, A c k * A c l = if k = l then r ^ 2 else 0)
    (hmap : ∀ i ≤ tau.length, ∀ c < w'.cols, w'.at' i c = ∑ k ∈ range w.cols, A c k * w.at' i k)
    (s s' : Sobolev) (hs : SReach lu w b ws mem s) (hs' : SReach lu w' b ws mem s') :
    ∃ t t' v, s.cost lu tau = .ok (t, v) ∧ s'.cost lu tau = .ok (t', r ^ 2 * v) := by
  obtain ⟨t, g, h1, G, g1, g2, g3, -⟩ := cost_good hlu hb ho hs hne hw ht
  obtain ⟨t', g', h1', G', g1', g2', g3', -⟩ := cost_good hlu hb ho hs' hne hw' ht
  refine ⟨t, t', _, h1, ?_⟩
  rw [h1']
  congr 2
  unfold total
  rw [mul_sum]
  refine sum_congr rfl fun iv hiv => ?_
  have hiv := mem_range.mp hiv
  rw [← form_orthogonal hA]
  refine sum_congr rfl fun c hc => ?_
  have hc := mem_range.mp hc
  have key : ∀ l < b.dim, part b w'.cols (vecOf g'.coeffs) iv c l = ∑ k ∈ range w.cols, A c k * part b w.cols (vecOf g.coeffs) iv k l := by
    intro l hl
    have := part_linear (K := w.cols) (g := fun _ => g) (w := fun _ => w.at') (g' := g') (w' := w'.at') (fun _ _ => G) G' (fun _ _ => g1.trans g1'.symm)
      (fun _ _ => by rw [g3, g3']) (c := c) (by rw [g2']; exact hc) (cs := fun k => k) (fun k hk => by rw [g2]; exact hk) (A c)
      (fun i hi => hmap i (by rw [g1'] at hi; exact hi) c hc) (i := iv) (by rw [g1']; exact hiv) (l := l) (by rw [g3']; exact hl)
    rw [g3', g2', g2] at this
    exact this
  exact form_congr (fun _ _ _ _ => rfl) key key

/-- The way points with one coordinate only. -/
def column (w : Pts) (c : ℕ) : Pts := ⟨w.rows, 1, fun i _ => w.at' i c⟩

/-- **C74** (coordinates do not interact). The cost is the sum of the costs of the coordinates, each taken as a problem with one coordinate. -/
theorem C74_components (lu : LU) (hlu : LUContract lu) (b : Basis) (hb : Interpolable b) (ws : List (ℕ × ℝ)) (ho : ∀ p ∈ ws, Adds b p.1) (mem : LagMem)
    (w : Pts) (tau : List ℝ) (hne : tau ≠ []) (hw : w.rows = tau.length + 1) (ht : ∀ t ∈ tau, 1 / 10 ^ 6 ≤ t)
    (s : Sobolev) (hs : SReach lu w b ws mem s) (o : ℕ → Sobolev) (hobj : ∀ c < w.cols, SReach lu (column w c) b ws mem (o c)) :
    ∃ (t : Sobolev) (v : ℕ → ℝ) (t' : ℕ → Sobolev), s.cost lu tau = .ok (t, ∑ c ∈ range w.cols, v c) ∧ ∀ c < w.cols, (o c).cost lu tau = .ok (t' c, v c) := by
  obtain ⟨t, g, h1, G, g1, g2, g3, -⟩ := cost_good hlu hb ho hs hne hw ht
  have each : ∀ c, ∃ t', c < w.cols → (o c).cost lu tau = .ok (t', ∑ iv ∈ range tau.length,
      form b.dim (wsum (q b mem (vecOf tau iv)) ws Mat.zero) (part b w.cols (vecOf g.coeffs) iv c) (part b w.cols (vecOf g.coeffs) iv c)) := by
    intro c
    by_cases hc : c < w.cols
    · obtain ⟨t', g', h1', G', g1', g2', g3', -⟩ := cost_good hlu hb ho (hobj c hc) hne (show (column w c).rows = _ from hw) ht
      refine ⟨t', fun _ => ?_⟩
      rw [h1']
      congr 2
      unfold total
      refine sum_congr rfl fun iv hiv => ?_
      have hiv := mem_range.mp hiv
      change ∑ _c ∈ range 1, _ = _
      rw [sum_range_one]
      have key : ∀ l < b.dim, part b 1 (vecOf g'.coeffs) iv 0 l = part b w.cols (vecOf g.coeffs) iv c l := by
        intro l hl
        have := part_linear (K := 1) (g := fun _ => g) (w := fun _ => w.at') (g' := g') (w' := (column w c).at') (fun _ _ => G) G' (fun _ _ => g1.trans g1'.symm)
          (fun _ _ => by rw [g3, g3']) (c := 0) (by rw [g2']; exact one_pos) (cs := fun _ => c) (fun k hk => by rw [g2]; exact hc) (fun _ => 1)
          (fun i hi => by simp [column]) (i := iv) (by rw [g1']; exact hiv) (l := l) (by rw [g3']; exact hl)
        rw [g3', g2', g2, sum_range_one, one_mul] at this
        exact this
      exact form_congr (fun _ _ _ _ => rfl) key key
    · exact ⟨s, fun h => absurd h hc⟩
  choose t' h' using each
  refine ⟨t, _, t', ?_, h'⟩
  rw [h1]
  congr 2
  unfold total
  rw [sum_comm]

/-- **C74** (the cost is a quadratic form of the way points). The costs for the sum and the difference of two lists of way points add up to twice the sum of their
costs. -/
theorem C74_parallelogram (lu : LU) (hlu : LUContract lu) (b : Basis) (hb : Interpolable b) (ws : List (ℕ × ℝ)) (ho : ∀ p ∈ ws, Adds b p.1) (mem : LagMem)
    (w1 w2 add sub : Pts) (tau : List ℝ) (hne : tau ≠ []) (h1 : w1.rows = tau.length + 1) (h2 : w2.rows = tau.length + 1) (h3 : add.rows = tau.length + 1)
    (h4 : sub.rows = tau.length + 1) (ht : ∀ t ∈ tau, 1 / 10 ^ 6 ≤ t) (c2 : w2.cols = w1.cols) (c3 : add.cols = w1.cols) (c4 : sub.cols = w1.cols)
    (hadd : ∀ i ≤ tau.length, ∀ c < w1.cols, add.at' i c = w1.at' i c + w2.at' i c) (hsub : ∀ i ≤ tau.length, ∀ c < w1.cols, sub.at' i c = w1.at' i c - w2.at' i c)
    (s1 s2 s3 s4 : Sobolev) (hs1 : SReach lu w1 b ws mem s1) (hs2 : SReach lu w2 b ws mem s2) (hs3 : SReach lu add b ws mem s3) (hs4 : SReach lu sub b ws mem s4) :
    ∃ t1 t2 t3 t4 v1 v2 v3 v4, s1.cost lu tau = .ok (t1, v1) ∧ s2.cost lu tau = .ok (t2, v2) ∧ s3.cost lu tau = .ok (t3, v3) ∧ s4.cost lu tau = .ok (t4, v4) ∧
      v3 + v4 = 2 * v1 + 2 * v2 := by
  obtain ⟨t1, g1, e1, G1, a1, a2, a3, -⟩ := cost_good hlu hb ho hs1 hne h1 ht
  obtain ⟨t2, g2, e2, G2, b1, b2, b3, -⟩ := cost_good hlu hb ho hs2 hne h2 ht
  obtain ⟨t3, g3, e3, G3, d1, d2, d3, -⟩ := cost_good hlu hb ho hs3 hne h3 ht
  obtain ⟨t4, g4, e4, G4, f1, f2, f3, -⟩ := cost_good hlu hb ho hs4 hne h4 ht
  refine ⟨t1, t2, t3, t4, _, _, _, _, e1, e2, e3, e4, ?_⟩
  rw [c2, c3, c4]
  unfold total
  rw [mul_sum, mul_sum, ← sum_add_distrib, ← sum_add_distrib]
  refine sum_congr rfl fun iv hiv => ?_
  have hiv := mem_range.mp hiv
  rw [mul_sum, mul_sum, ← sum_add_distrib, ← sum_add_distrib]
  refine sum_congr rfl fun c hc => ?_
  have hc := mem_range.mp hc
  have key : ∀ (g : GSpline) (w : Pts) (σ : ℝ), Good g w.at' → g.tau = tau → g.codim = w1.cols → g.basis = b →
      (∀ i ≤ tau.length, ∀ c < w1.cols, w.at' i c = w1.at' i c + σ * w2.at' i c) →
      ∀ l < b.dim, part b w1.cols (vecOf g.coeffs) iv c l = part b w1.cols (vecOf g1.coeffs) iv c l + σ * part b w1.cols (vecOf g2.coeffs) iv c l := by
    intro g w σ G z1 z2 z3 hz l hl
    have := part_linear (K := 2) (g := fun k => if k = 0 then g1 else g2) (w := fun k => if k = 0 then w1.at' else w2.at') (g' := g) (w' := w.at')
      (fun k _ => by beta_reduce; split_ifs; exacts [G1, G2]) G (fun k _ => by beta_reduce; split_ifs; exacts [a1.trans z1.symm, b1.trans z1.symm])
      (fun k _ => by beta_reduce; split_ifs; exacts [a3.trans z3.symm, b3.trans z3.symm]) (c := c) (by rw [z2]; exact hc) (cs := fun _ => c)
      (fun k _ => by beta_reduce; split_ifs; exacts [by rw [a2]; exact hc, by rw [b2, c2]; exact hc]) (fun k => if k = 0 then 1 else σ)
      (fun i hi => by rw [hz i (by rw [z1] at hi; exact hi) c hc]; simp [sum_range_succ]) (i := iv) (by rw [z1]; exact hiv) (l := l) (by rw [z3]; exact hl)
    simp only [sum_range_succ, sum_range_zero, if_true, one_ne_zero, if_false, zero_add, one_mul, z3, z2, a2, b2, c2] at this
    exact this
  have k3 := key g3 add 1 G3 d1 (d2.trans c3) d3 (fun i hi c hc => by rw [hadd i hi c hc, one_mul])
  have k4 := key g4 sub (-1) G4 f1 (f2.trans c4) f3 (fun i hi c hc => by rw [hsub i hi c hc]; ring)
  rw [form_congr (fun _ _ _ _ => rfl) k3 k3, form_congr (fun _ _ _ _ => rfl) k4 k4]
  unfold form
  rw [mul_sum, mul_sum, ← sum_add_distrib, ← sum_add_distrib]
  refine sum_congr rfl fun i _ => ?_
  rw [mul_sum, mul_sum, ← sum_add_distrib, ← sum_add_distrib]
  exact sum_congr rfl fun j _ => by ring

theorem make_coeffs {d : ℝ × ℝ} {c n : ℕ} {b : Basis} {co ta : List ℝ} {g : GSpline} (h : GSpline.make d c n b co ta = .ok g) : g.coeffs = co := by
  unfold GSpline.make at h
  split_ifs at h
  cases h; rfl

/-- **C74** (unit of time). If all lengths are multiplied by `f`, the cost of a single order `k` is multiplied by `f^(1 - 2 k)` (for Basis0101 with the parameter that
belongs to the new unit of time). For every order with Legendre bases, and for the orders with a right matrix otherwise. -/
theorem C74_time (lu : LU) (hlu : LUContract lu) (b : Basis) (hb : Interpolable b) (k : ℕ) (weight : ℝ) (ho : (∃ d, b = .legendre d) ∨ RightOrder b k) (mem : LagMem)
    (w : Pts) (tau : List ℝ) (hne : tau ≠ []) (hw : w.rows = tau.length + 1) (ht : ∀ t ∈ tau, 1 / 10 ^ 6 ≤ t) (f : ℝ) (hf : 0 < f)
    (ht' : ∀ t ∈ tau, 1 / 10 ^ 6 ≤ t * f) (s s' : Sobolev) (hs : SReach lu w b [(k, weight)] mem s)
    (hs' : SReach lu w (GSpline.scaledBasis b f) [(k, weight)] mem s') :
    ∃ t t' v v', s.cost lu tau = .ok (t, v) ∧ s'.cost lu (tau.map (· * f)) = .ok (t', v') ∧ f ^ (2 * k) * v' = f * v := by
  have hadd : Adds b k := by
    rcases ho with ⟨d, rfl⟩ | h
    · trivial
    · exact right_adds h
  have hadd' : Adds (GSpline.scaledBasis b f) k := by cases b <;> exact hadd
  obtain ⟨t, g, h1, G, g1, g2, g3, hg⟩ := cost_good hlu hb (by simpa using hadd) hs hne hw ht
  have hne' : tau.map (· * f) ≠ [] := by simpa using hne
  have hts : ∀ t ∈ tau.map (· * f), 1 / 10 ^ 6 ≤ t := by
    intro t h
    obtain ⟨u, hu, rfl⟩ := List.mem_map.mp h
    exact ht' u hu
  obtain ⟨t', g', h1', G', g1', g2', g3', hg'⟩ := cost_good hlu (interpolable_scaled hb hf) (by simpa using hadd') hs' hne' (by rw [List.length_map]; exact hw) hts
  have hco : g'.coeffs = g.coeffs := by
    have := C73_time lu lu hlu hlu (fun _ => 0) (fun _ => 0) b hb tau hne ht f hf ht' w hw g hg
    rw [hg'] at this
    unfold GSpline.linearScaling at this
    split_ifs at this
    exact make_coeffs this.symm
  refine ⟨t, t', _, _, h1, h1', ?_⟩
  unfold total
  rw [mul_sum, mul_sum, List.length_map]
  refine sum_congr rfl fun iv hiv => ?_
  have hiv := mem_range.mp hiv
  rw [mul_sum, mul_sum]
  refine sum_congr rfl fun c hc => ?_
  rw [hco, GSpline.scaledBasis_dim]
  unfold form
  rw [mul_sum, mul_sum]
  refine sum_congr rfl fun i hi => ?_
  rw [mul_sum, mul_sum]
  refine sum_congr rfl fun j hj => ?_
  have hpart : part (GSpline.scaledBasis b f) w.cols (vecOf g.coeffs) iv c = part b w.cols (vecOf g.coeffs) iv c := by
    unfold part
    rw [GSpline.scaledBasis_dim]
  have hpos : 0 < vecOf tau iv := vecOf_pos (fun t h => lt_of_lt_of_le (by norm_num) (ht t h)) hiv
  have key := q_scaled hb ho mem hf hpos (mem_range.mp hi) (mem_range.mp hj)
  beta_reduce
  rw [hpart, vecOf_map hiv]
  simp only [wsum]
  rw [show (Mat.zero i j : ℝ) = 0 from rfl, zero_add, zero_add]
  linear_combination (part b w.cols (vecOf g.coeffs) iv c i * weight * part b w.cols (vecOf g.coeffs) iv c j) * key

theorem energy_reverse {g g' : GSpline} {w : ℕ → ℕ → ℝ} (G : Good g w) (G' : Good g' fun i c => w (g.tau.length - i) c) (ht : g'.tau = g.tau.reverse)
    (hb : g'.basis = g.basis) (hcd : g'.codim = g.codim) (k : ℕ) : energy g' k = energy g k := by
  have hbr := brk_reverse (g := g) (g' := g') (by rw [G.ends]) (by rw [G'.ends]) ht
  unfold energy
  rw [show g'.tau.length = g.tau.length by rw [ht, List.length_reverse], hcd,
    ← sum_range_reflect (fun i => ∑ c ∈ range g.codim, ∫ t in (brk g' i)..(brk g' (i + 1)), iteratedDeriv k (curve g' i c) t ^ 2)]
  refine sum_congr rfl fun i hi => sum_congr rfl fun c hc => ?_
  have hi := mem_range.mp hi
  have hc := mem_range.mp hc
  have e : curve g' (g.tau.length - 1 - i) c = fun t => curve g i c (g.tau.sum + -1 * t) := by
    funext t
    rw [curve_reverse G G' ht hb hcd hi hc]
    congr 1; ring
  have hD : ∀ t, iteratedDeriv k (curve g' (g.tau.length - 1 - i) c) t ^ 2 = iteratedDeriv k (curve g i c) (g.tau.sum - t) ^ 2 := by
    intro t
    rw [e, iteratedDeriv_line (analytic_curve g i c), mul_pow, ← pow_mul, mul_comm k 2, pow_mul]
    norm_num
    congr 2
  simp only [hD]
  rw [intervalIntegral.integral_comp_sub_left (fun t => iteratedDeriv k (curve g i c) t ^ 2), hbr, hbr,
    show g.tau.length - (g.tau.length - 1 - i + 1) = i by omega, show g.tau.length - (g.tau.length - 1 - i) = i + 1 by omega, sub_sub_cancel, sub_sub_cancel]

/-- **C74** (the way back costs the same). If the way points and the lengths are put in the opposite order, the cost does not change. For every list of weights with
Legendre bases, and for the orders with a right matrix otherwise. -/
theorem C74_reverse (lu : LU) (hlu : LUContract lu) (b : Basis) (hb : Interpolable b) (ws : List (ℕ × ℝ)) (ho : (∃ d, b = .legendre d) ∨ ∀ p ∈ ws, RightOrder b p.1)
    (mem : LagMem) (w : Pts) (tau : List ℝ) (hne : tau ≠ []) (hw : w.rows = tau.length + 1) (ht : ∀ t ∈ tau, 1 / 10 ^ 6 ≤ t)
    (s s' : Sobolev) (hs : SReach lu w b ws mem s) (hs' : SReach lu (Pts.reverse w) b ws mem s') :
    ∃ t t' v, s.cost lu tau = .ok (t, v) ∧ s'.cost lu tau.reverse = .ok (t', v) := by
  have hadd : ∀ p ∈ ws, Adds b p.1 := by
    rcases ho with ⟨d, rfl⟩ | h
    · exact fun _ _ => trivial
    · exact fun p hp => right_adds (h p hp)
  have htr : ∀ t ∈ tau.reverse, 1 / 10 ^ 6 ≤ t := fun t h => ht t (List.mem_reverse.mp h)
  obtain ⟨t, g, h1, G, g1, g2, g3, -⟩ := cost_good hlu hb hadd hs hne hw ht
  obtain ⟨t', g', h1', G0, g1', g2', g3', -⟩ := cost_good hlu hb hadd hs' (tau := tau.reverse) (by simpa using hne)
    (show (Pts.reverse w).rows = _ by rw [List.length_reverse]; exact hw) htr
  have G' : Good g' fun i c => w.at' (g.tau.length - i) c := by
    have e : (Pts.reverse w).at' = fun i c => w.at' (g.tau.length - i) c := by
      funext i c
      change w.at' (w.rows - 1 - i) c = _
      rw [hw, g1]; rfl
    rw [← e]; exact G0
  have hrev : g'.tau = g.tau.reverse := by rw [g1', g1]
  have hbb : g'.basis = g.basis := by rw [g3', g3]
  have hcc : g'.codim = g.codim := by rw [g2', g2]; rfl
  refine ⟨t, t', _, h1, ?_⟩
  rw [h1']
  congr 2
  rcases ho with ⟨d, rfl⟩ | hr
  · unfold total
    rw [List.length_reverse, ← sum_range_reflect]
    refine sum_congr rfl fun iv hiv => sum_congr rfl fun c hc => ?_
    have hiv := mem_range.mp hiv
    have hc : c < w.cols := mem_range.mp hc
    have htau : vecOf tau.reverse (tau.length - 1 - iv) = vecOf tau iv := by
      unfold vecOf
      rw [List.getD_eq_getElem?_getD, List.getD_eq_getElem?_getD, List.getElem?_reverse (by omega), show tau.length - 1 - (tau.length - 1 - iv) = iv by omega]
    beta_reduce
    rw [htau]
    refine Eq.trans ?_ (form_alternate d mem (vecOf tau iv) ws (part (.legendre d) w.cols (vecOf g.coeffs) iv c))
    have key : ∀ l < d, part (.legendre d) w.cols (vecOf g'.coeffs) (tau.length - 1 - iv) c l = (-1) ^ l * part (.legendre d) w.cols (vecOf g.coeffs) iv c l := by
      intro l hl
      have := part_reverse G G' hrev g3 hbb hcc (i := iv) (by rw [g1]; exact hiv) (c := c) (by rw [g2]; exact hc) hl
      rwa [g2, g1] at this
    exact form_congr (fun _ _ _ _ => rfl) key key
  · have e1 := total_energy (mem := mem) hb hr g3 G.pos.2
    have e2 := total_energy (mem := mem) hb hr g3' G'.pos.2
    rw [g1, g2] at e1
    rw [g1', g2'] at e2
    rw [e1, e2]
    unfold sobolevCost
    simp only [energy_reverse G G' hrev hbb hcc]

/-- **C74**, partial (translations): for orders of at least one that have a right matrix, the cost does not change when all way points are moved by the same vector.
Missing: the orders `1 … dim - 1` of Legendre bases, for which it does change (`C74_translate_false`), order 2 of Basis0101 and the orders `1 … dim - 1` of Lagrange bases. -/
theorem C74_translate_partial (lu : LU) (hlu : LUContract lu) (b : Basis) (hb : Interpolable b) (ws : List (ℕ × ℝ)) (ho : ∀ p ∈ ws, 1 ≤ p.1 ∧ RightOrder b p.1)
    (mem : LagMem) (w w' : Pts) (tau : List ℝ) (hne : tau ≠ []) (hw : w.rows = tau.length + 1) (hw' : w'.rows = tau.length + 1) (hcol : w'.cols = w.cols)
    (ht : ∀ t ∈ tau, 1 / 10 ^ 6 ≤ t) (x : ℕ → ℝ) (hmove : ∀ i ≤ tau.length, ∀ c < w.cols, w'.at' i c = w.at' i c + x c)
    (s s' : Sobolev) (hs : SReach lu w b ws mem s) (hs' : SReach lu w' b ws mem s') :
    ∃ t t' v, s.cost lu tau = .ok (t, v) ∧ s'.cost lu tau = .ok (t', v) := by
  have hr : ∀ p ∈ ws, RightOrder b p.1 := fun p hp => (ho p hp).2
  have hadd : ∀ p ∈ ws, Adds b p.1 := fun p hp => right_adds (hr p hp)
  obtain ⟨t, g, h1, G, g1, g2, g3, -⟩ := cost_good hlu hb hadd hs hne hw ht
  obtain ⟨t', g', h1', G', g1', g2', g3', -⟩ := cost_good hlu hb hadd hs' hne hw' ht
  refine ⟨t, t', _, h1, ?_⟩
  rw [h1']
  congr 2
  have e1 := total_energy (mem := mem) hb hr g3 G.pos.2
  have e2 := total_energy (mem := mem) hb hr g3' G'.pos.2
  rw [g1, g2] at e1
  rw [g1', g2'] at e2
  rw [e1, e2]
  have hbrk : brk g' = brk g := by funext i; simp [brk, g1, g1', G.ends, G'.ends]
  have key : ∀ k, 1 ≤ k → energy g' k = energy g k := by
    intro k hk
    unfold energy
    rw [g1', g2', hbrk, g1, g2, hcol]
    refine sum_congr rfl fun i hi => sum_congr rfl fun c hc => ?_
    have hi := mem_range.mp hi
    have hc := mem_range.mp hc
    have e : curve g' i c = fun t => curve g i c t + x c := by
      funext t
      have := curve_affine (K := 1) (g := fun _ => g) (w := fun _ => w.at') (g' := g') (w' := w'.at') (fun _ _ => G) G' (fun _ _ => g1.trans g1'.symm)
        (fun _ _ => by rw [g3, g3']) (fun _ _ => by rw [g3, g3']) (c := c) (by rw [g2', hcol]; exact hc) (cs := fun _ => c) (fun k _ => by rw [g2]; exact hc)
        (fun _ => 1) (x c) (fun i hi => by rw [hmove i (by rw [g1'] at hi; exact hi) c hc]; simp) (i := i) (by rw [g1']; exact hi) t
      rwa [sum_range_one, one_mul] at this
    obtain ⟨m, rfl⟩ : ∃ m, k = m + 1 := ⟨k - 1, by omega⟩
    have hD : iteratedDeriv (m + 1) (curve g' i c) = iteratedDeriv (m + 1) (curve g i c) := by
      rw [e, iteratedDeriv_succ', iteratedDeriv_succ']
      congr 1
      funext t
      exact deriv_add_const (x c)
    rw [hD]
  unfold sobolevCost
  congr 1
  refine List.map_congr_left fun p hp => ?_
  have : 1 ≤ p.1 := by
    have hm : ∀ l : List (ℕ × ℝ), (∀ p ∈ l, 1 ≤ p.1) → ∀ p ∈ effective l, 1 ≤ p.1 := by
      intro l
      induction l with
      | nil => simp [effective]
      | cons a l ih =>
        intro h p hp
        rcases List.mem_cons.mp hp with rfl | hp
        · exact h a (by simp)
        · exact ih (fun p hp => h p (by simp [hp])) p hp
    exact hm ws (fun p hp => (ho p hp).1) p hp
  rw [key p.1 this]

theorem new_norm (lu : LU) {w : Pts} (hw : 0 < w.rows) {b : Basis} (hb : Interpolable b) (ws : List (ℕ × ℝ)) (mem : LagMem) : ∃ s, SReach lu w b ws mem s := by
  have hmk : Interp.make w.cols (w.rows - 1) b (fun _ => 0) = .ok ⟨b, w.cols, w.rows - 1, Mat.zero, fun _ => 0, fun _ => 0, fun _ => Mat.zero, []⟩ := by
    unfold Interp.make
    rw [if_neg (by have := hb.even; omega), if_neg hb.ne]
  refine ⟨⟨⟨b, w.cols, w.rows - 1, Mat.zero, fun _ => 0, fun _ => 0, fun _ => Mat.zero, []⟩, ws, w, mem⟩, SReach.make (junk := fun _ => 0) ?_⟩
  unfold Sobolev.make
  rw [if_neg (by omega), hmk]
  rfl

/-- Two way points at the origin. -/
def resting : Pts := ⟨2, 1, fun _ _ => 0⟩

/-- **C74 is false for translations and Legendre bases**: the cost of standing still at 1 differs from the cost of standing still at 0, for every order `1 … dim - 1`. -/
theorem C74_translate_false (k : ℕ) (h1 : 1 ≤ k) (h2 : k < 4) (s' : Sobolev) (hs' : SReach exactLU resting (.legendre 4) [(k, 1)] ⟨fun _ => 0, Mat.zero⟩ s') :
    (∀ i c, resting.at' i c = standing.at' i c - 1) ∧
      ∃ t t' v v', (newNorm [(k, 1)]).cost exactLU [1] = .ok (t, v) ∧ s'.cost exactLU [1] = .ok (t', v') ∧ v' = 0 ∧ 0 < v := by
  refine ⟨fun i c => by simp [resting, standing], ?_⟩
  obtain ⟨t, -, v, -, -, e1, e2⟩ := C41_legendre_false k h1 h2
  obtain ⟨u, u', v', f1, f2⟩ := C74_similarity exactLU exactLU_contract (.legendre 4) interpolable4 [(k, 1)] (fun _ _ => trivial) ⟨fun _ => 0, Mat.zero⟩ standing resting [1]
    (by simp) rfl rfl (by simp; norm_num) (fun _ _ => 0) 0 (by simp) (by simp [resting]) _ s' (SReach.make (newNorm_make _)) hs'
  exact ⟨t, u', v, _, e1, f2, by simp, e2⟩

/-! ## Examples -/

/-- C74: the corner after a quarter turn and with lengths in other units, with a basis and weights for which the cost is a mixture of two orders. -/
example (s s' : Sobolev) (mem : LagMem) (hs : SReach exactLU corner (.b0101 (1 / 2)) [(1, 2), (3, 5)] mem s)
    (hs' : SReach exactLU ⟨3, 2, fun i c => if c = 0 then -10 * corner.at' i 1 else 10 * corner.at' i 0⟩ (.b0101 (1 / 2)) [(1, 2), (3, 5)] mem s') :
    ∃ t t' v, s.cost exactLU [1, 2] = .ok (t, v) ∧ s'.cost exactLU [1, 2] = .ok (t', 10 ^ 2 * v) :=
  C74_similarity exactLU exactLU_contract _ (interpolable0101 (by norm_num) (by norm_num)) _ (by simp [Adds]) mem corner _ [1, 2] (by simp) rfl rfl (by simp; norm_num)
    (fun c k => if c = 0 then (if k = 1 then -10 else 0) else if k = 0 then 10 else 0) 10
    (fun k hk l hl => by
      have hk : k < 2 := hk
      have hl : l < 2 := hl
      change ∑ c ∈ range 2, _ = _
      interval_cases k <;> interval_cases l <;> norm_num [sum_range_succ])
    (fun i _ c hc => by
      have hc' : c < 2 := hc
      change (if c = 0 then _ else _) = ∑ k ∈ range 2, _
      interval_cases c <;> simp [sum_range_succ])
    s s' hs hs'

/-- There are such objects. -/
example (mem : LagMem) : ∃ s, SReach exactLU corner (.b0101 (1 / 2)) [(1, 2), (3, 5)] mem s :=
  new_norm _ (by decide) (interpolable0101 (by norm_num) (by norm_num)) _ _

/-- C74: the corner, twice as fast, with jerk as the cost. -/
example (s s' : Sobolev) (mem : LagMem) (hs : SReach exactLU corner (.legendre 6) [(3, 1)] mem s) (hs' : SReach exactLU corner (.legendre 6) [(3, 1)] mem s') :
    ∃ t t' v v', s.cost exactLU [1, 2] = .ok (t, v) ∧ s'.cost exactLU [1 / 2, 1] = .ok (t', v') ∧ v' = 32 * v := by
  obtain ⟨t, t', v, v', h1, h2, h3⟩ := C74_time exactLU exactLU_contract (.legendre 6) (interpolable_legendre (by norm_num) rfl) 3 1 (.inl ⟨6, rfl⟩) mem corner [1, 2]
    (by simp) rfl (by simp; norm_num) (1 / 2) (by norm_num) (by simp; norm_num) s s' hs hs'
  refine ⟨t, t', v, v', h1, ?_, by norm_num at h3; linarith⟩
  simpa using h2

/-- C74: the corner walked backwards. -/
example (s s' : Sobolev) (mem : LagMem) (hs : SReach exactLU corner (.legendre 6) [(1, 3), (3, 1)] mem s)
    (hs' : SReach exactLU (Pts.reverse corner) (.legendre 6) [(1, 3), (3, 1)] mem s') :
    ∃ t t' v, s.cost exactLU [1, 2] = .ok (t, v) ∧ s'.cost exactLU [2, 1] = .ok (t', v) :=
  C74_reverse exactLU exactLU_contract (.legendre 6) (interpolable_legendre (by norm_num) rfl) _ (.inl ⟨6, rfl⟩) mem corner [1, 2]
    (by simp) rfl (by simp; norm_num) s s' hs hs'

/-- C74: the corner moved elsewhere. -/
example (s s' : Sobolev) (mem : LagMem) (hs : SReach exactLU corner (.b0101 (1 / 2)) [(1, 2), (3, 5)] mem s)
    (hs' : SReach exactLU ⟨3, 2, fun i c => corner.at' i c + (c + 4)⟩ (.b0101 (1 / 2)) [(1, 2), (3, 5)] mem s') :
    ∃ t t' v, s.cost exactLU [1, 2] = .ok (t, v) ∧ s'.cost exactLU [1, 2] = .ok (t', v) :=
  C74_translate_partial exactLU exactLU_contract _ (interpolable0101 (by norm_num) (by norm_num)) _ (by simp [RightOrder]) mem corner ⟨3, 2, fun i c => corner.at' i c + (c + 4)⟩ [1, 2] (by simp) rfl rfl rfl
    (by simp; norm_num) (fun c => c + 4) (fun _ _ _ _ => rfl) s s' hs hs'

/-- C74: the corner, the corner walked backwards, their sum and their difference. -/
example (s1 s2 s3 s4 : Sobolev) (mem : LagMem) (h1 : SReach exactLU corner (.legendre 4) [(2, 1)] mem s1)
    (h2 : SReach exactLU (Pts.reverse corner) (.legendre 4) [(2, 1)] mem s2)
    (h3 : SReach exactLU ⟨3, 2, fun i c => corner.at' i c + (Pts.reverse corner).at' i c⟩ (.legendre 4) [(2, 1)] mem s3)
    (h4 : SReach exactLU ⟨3, 2, fun i c => corner.at' i c - (Pts.reverse corner).at' i c⟩ (.legendre 4) [(2, 1)] mem s4) :
    ∃ t1 t2 t3 t4 v1 v2 v3 v4, s1.cost exactLU [1, 2] = .ok (t1, v1) ∧ s2.cost exactLU [1, 2] = .ok (t2, v2) ∧ s3.cost exactLU [1, 2] = .ok (t3, v3) ∧
      s4.cost exactLU [1, 2] = .ok (t4, v4) ∧ v3 + v4 = 2 * v1 + 2 * v2 :=
  C74_parallelogram exactLU exactLU_contract (.legendre 4) interpolable4 _ (fun _ _ => trivial) mem corner (Pts.reverse corner)
    ⟨3, 2, fun i c => corner.at' i c + (Pts.reverse corner).at' i c⟩ ⟨3, 2, fun i c => corner.at' i c - (Pts.reverse corner).at' i c⟩ [1, 2] (by simp) rfl rfl rfl rfl
    (by simp; norm_num) rfl rfl rfl (fun _ _ _ _ => rfl) (fun _ _ _ _ => rfl) s1 s2 s3 s4 h1 h2 h3 h4

/-- C74: the costs of the two coordinates of the corner add up. -/
example (s : Sobolev) (o : ℕ → Sobolev) (mem : LagMem) (hs : SReach exactLU corner (.legendre 4) [(2, 1)] mem s)
    (hobj : ∀ c < 2, SReach exactLU (column corner c) (.legendre 4) [(2, 1)] mem (o c)) :
    ∃ t v0 v1 t0 t1, s.cost exactLU [1, 2] = .ok (t, v0 + v1) ∧ (o 0).cost exactLU [1, 2] = .ok (t0, v0) ∧ (o 1).cost exactLU [1, 2] = .ok (t1, v1) := by
  obtain ⟨t, v, t', h1, h2⟩ := C74_components exactLU exactLU_contract (.legendre 4) interpolable4 _ (fun _ _ => trivial) mem corner [1, 2] (by simp) rfl (by simp; norm_num)
    s hs o hobj
  refine ⟨t, v 0, v 1, _, _, ?_, h2 0 (by decide), h2 1 (by decide)⟩
  rw [h1, show range corner.cols = range 2 from rfl, sum_range_succ, sum_range_one]

end GSplines.Props
