import Verif.Proofs.Special

/-! # Evaluation with numbers that are not finite: helper lemmas -/

namespace GSplines.Special

open GSplines Spec Dbl

/-! ## location -/

theorem scan_lt {t : Dbl} : ∀ {l : List Dbl} {i k : ℕ} {left : Dbl}, DSpline.scan t i left l = some k → k < i + l.length := by
  intro l
  induction l with
  | nil => intro i k left h; simp [DSpline.scan] at h
  | cons x xs ih =>
    intro i k left h
    unfold DSpline.scan at h
    split_ifs at h with hc
    · simp at h; simp; omega
    · have := ih h; simp; omega

theorem getInterval_lt (g : DSpline) (h : g.tau ≠ []) (t : Dbl) : g.getInterval t < g.tau.length := by
  have hl : 0 < g.tau.length := List.length_pos_iff.mpr h
  unfold DSpline.getInterval
  by_cases h1 : t ≤ g.dom.1
  · rw [if_pos h1]; exact hl
  · rw [if_neg h1]
    cases hs : DSpline.scan t 0 g.dom.1 g.tau with
    | some k => simpa using scan_lt hs
    | none =>
      change (if g.tau.length = 0 then _ else g.tau.length - 1) < _
      rw [if_neg hl.ne']; omega

theorem scan_fin (t : ℝ) : ∀ (l : List ℝ) (i : ℕ) (left : ℝ), DSpline.scan (fin t) i (fin left) (l.map fin) = GSpline.scan t i left l := by
  intro l
  induction l with
  | nil => intro i left; rfl
  | cons x xs ih =>
    intro i left
    simp only [List.map_cons, DSpline.scan, GSpline.scan, fin_lt, fin_add, fin_le, ih]

theorem getInterval_fin (g : GSpline) (t : ℝ) : (exact g).getInterval (fin t) = g.getInterval t := by
  unfold DSpline.getInterval GSpline.getInterval
  have e1 : (fin t ≤ (exact g).dom.1) = (t ≤ g.dom.1) := rfl
  have e2 : DSpline.scan (fin t) 0 (exact g).dom.1 (exact g).tau = GSpline.scan t 0 g.dom.1 g.tau := scan_fin t g.tau 0 g.dom.1
  have e3 : (exact g).tau.length = g.nIntervals := List.length_map ..
  simp only [e1, e2, e3]
  rfl

/-! ## evaluation -/

/-- The window coordinate. -/
noncomputable def winD (g : DSpline) (t : Dbl) (i : ℕ) : Dbl := fin 2 * (t - (g.dom.1 + Dbl.sum (g.tau.take i))) / vecD g.tau i - fin 1

/-- Row computed from the content of the basis buffer. -/
noncomputable def rowD (g : DSpline) (i : ℕ) (buf : ℕ → Dbl) : List Dbl :=
  (List.range g.codim).map fun c =>
    Dbl.dot ((g.coeffs.drop (i * g.basis.dim * g.codim + g.basis.dim * c)).take g.basis.dim) ((List.range g.basis.dim).map buf)

theorem coef_bound {g : DSpline} (hc : g.coeffs.length = g.tau.length * g.basis.dim * g.codim) {i c : ℕ} (hi : i < g.tau.length) (hcc : c < g.codim) :
    i * g.basis.dim * g.codim + g.basis.dim * c + g.basis.dim ≤ g.coeffs.length := by
  rw [hc]
  have h1 : g.basis.dim * (c + 1) ≤ g.basis.dim * g.codim := Nat.mul_le_mul_left _ hcc
  have h2 : (i + 1) * (g.basis.dim * g.codim) ≤ g.tau.length * (g.basis.dim * g.codim) := Nat.mul_le_mul_right _ hi
  rw [Nat.mul_succ] at h1
  rw [Nat.succ_mul] at h2
  rw [mul_assoc, mul_assoc g.tau.length]
  omega

theorem value_ok {g : DSpline} (hs : g.coeffs.length = g.tau.length * g.basis.dim * g.codim) {t : Dbl} {i : ℕ} (hi : g.getInterval t = i) (hin : i < g.tau.length)
    {buf : ℕ → Dbl} (hb : g.basis.evalOnWindow (winD g t i) (vecD g.tau i) = .ok buf) : g.value t = .ok (rowD g i buf) := by
  unfold DSpline.value DSpline.intervalToWindow
  simp only [hi, rd_ok hin, segment_ok (l := g.tau) (i := 0) (n := i) (by omega)]
  change (do
    let buf ← g.basis.evalOnWindow (winD g t i) (vecD g.tau i)
    (List.range g.codim).mapM fun c => do
      let seg ← g.coefficientSegment i c
      return Dbl.dot seg ((List.range g.basis.dim).map buf)) = _
  rw [hb]
  change (List.range g.codim).mapM _ = _
  refine mapM_ok _ fun c hcm => ?_
  unfold DSpline.coefficientSegment
  rw [segment_ok (coef_bound hs hin (List.mem_range.mp hcm))]
  rfl

theorem eval_total {g : DSpline} (hs : Sized g) (s tau : Dbl) : ∃ buf, g.basis.evalOnWindow s tau = .ok buf := by
  obtain ⟨_, _, hb⟩ := hs
  cases h : g.basis with
  | legendre d =>
    rw [h] at hb
    exact ⟨_, if_neg (by simp only at hb; omega)⟩
  | lagrange x => exact ⟨_, rfl⟩
  | b0101 a => exact ⟨_, rfl⟩

theorem dim_pos {g : DSpline} (hs : Sized g) : 0 < g.basis.dim := by
  obtain ⟨_, _, hb⟩ := hs
  cases h : g.basis with
  | legendre d =>
    rw [h] at hb
    simp only at hb
    exact Nat.lt_of_lt_of_le (by norm_num) hb
  | lagrange x =>
    rw [h] at hb
    exact List.length_pos_iff.2 hb
  | b0101 a => exact Nat.succ_pos 5

/-- Evaluating never leaves the vectors. -/
theorem value_eq {g : DSpline} (hs : Sized g) (t : Dbl) : ∃ buf, g.basis.evalOnWindow (winD g t (g.getInterval t)) (vecD g.tau (g.getInterval t)) = .ok buf ∧
    g.value t = .ok (rowD g (g.getInterval t) buf) := by
  obtain ⟨buf, hb⟩ := eval_total hs (winD g t (g.getInterval t)) (vecD g.tau (g.getInterval t))
  exact ⟨buf, hb, value_ok hs.2.1 rfl (getInterval_lt g hs.1 t) hb⟩

theorem seg_length {g : DSpline} (hs : Sized g) {i c : ℕ} (hi : i < g.tau.length) (hc : c < g.codim) :
    ((g.coeffs.drop (i * g.basis.dim * g.codim + g.basis.dim * c)).take g.basis.dim).length = g.basis.dim := by
  have := coef_bound hs.2.1 hi hc
  simp only [List.length_take, List.length_drop]
  omega

theorem row_nan {g : DSpline} (hs : Sized g) {i : ℕ} (hi : i < g.tau.length) {buf : ℕ → Dbl} {k : ℕ} (hk : k < g.basis.dim) (h : buf k = nan) :
    rowD g i buf = List.replicate g.codim nan := by
  unfold rowD
  refine List.eq_replicate_iff.2 ⟨by simp, fun x hx => ?_⟩
  obtain ⟨c, hc, rfl⟩ := List.mem_map.1 hx
  have hl := seg_length hs hi (List.mem_range.1 hc)
  have := dot_nan (seg := (g.coeffs.drop (i * g.basis.dim * g.codim + g.basis.dim * c)).take g.basis.dim) (buf := buf) (k := k) (by omega) (by rw [h, mul_nan])
  rwa [hl] at this

theorem row_not_finite {g : DSpline} (hs : Sized g) {i : ℕ} (hi : i < g.tau.length) {buf : ℕ → Dbl} {k : ℕ} (hk : k < g.basis.dim) (h : ¬ IsFinite (buf k)) :
    ∀ x ∈ rowD g i buf, ¬ IsFinite x := by
  intro x hx
  unfold rowD at hx
  obtain ⟨c, hc, rfl⟩ := List.mem_map.1 hx
  have hl := seg_length hs hi (List.mem_range.1 hc)
  have := dot_not_finite (seg := (g.coeffs.drop (i * g.basis.dim * g.codim + g.basis.dim * c)).take g.basis.dim) (buf := buf) (k := k) (by omega)
    (by rw [finite_mul]; exact fun hf => h hf.2)
  rwa [hl] at this

/-! ## the bases at points that are not finite -/

theorem legendre_one {d : ℕ} {s : Dbl} {buf : ℕ → Dbl} (h : legendre d s = .ok buf) : 2 ≤ d ∧ buf 1 = s := by
  unfold legendre at h
  split_ifs at h with hd
  refine ⟨by omega, ?_⟩
  injection h with h
  rw [← h]
  refine (forLoop_ind (fun _ (b : ℕ → Dbl) => b 1 = s) (a := 1) (b := d - 1) (by omega) (recBody s) _ (setAt_self _ _ _) ?_ : _)
  intro i b h1 _ hb
  unfold recBody
  rw [setAt_ne _ _ (by omega)]
  exact hb

/-- The absolute value of something that is not finite is not less than anything. -/
theorem abs_not_lt {d : Dbl} (h : ¬ IsFinite d) (y : Dbl) : ¬ Dbl.abs d < y := by
  rcases d with _ | a | d
  · simp
  · rcases y with _ | b | y <;> simp
  · exact absurd trivial h

theorem not_almostEqual {s x : Dbl} (hs : ¬ IsFinite s) {eps : ℝ} : almostEqual s x (fin eps) = false := by
  have h : ¬ IsFinite (s - x) := by
    rw [finite_sub]
    exact fun h => hs h.1
  unfold almostEqual
  split_ifs
  · simpa only [decide_eq_false_iff_not] using abs_not_lt h _
  · simpa only [decide_eq_false_iff_not] using fun hc : _ ∧ _ => abs_not_lt h _ hc.1

theorem lagrange_not_finite (n : ℕ) (x : ℕ → Dbl) {s : Dbl} (hs : ¬ IsFinite s) : lagrange n x s = fun j => (baryLoop n x s).1 j / (baryLoop n x s).2 := by
  unfold lagrange
  have : (List.range n).find? (fun j => almostEqual s (x j) (fin tol9)) = none := by
    rw [List.find?_eq_none]
    intro j _
    rw [not_almostEqual hs]
    simp
  rw [this]

theorem baryLoop_entry (n : ℕ) (x : ℕ → Dbl) (s : Dbl) {j : ℕ} (hj : j < n) : (baryLoop n x s).1 j = baryWeights n x j / (s - x j) := by
  have key := forLoop_ind (fun J (st : (ℕ → Dbl) × Dbl) => ∀ j < J, st.1 j = baryWeights n x j / (s - x j)) (a := 0) (b := n) (by omega)
    (fun j (st : (ℕ → Dbl) × Dbl) => let t := baryWeights n x j / (s - x j); (setAt st.1 j t, st.2 + t)) ((fun _ => fin 0), fin 0) (fun j hj => by omega) ?_
  · exact key j hj
  · rintro J st _ _ h1 j hj
    simp only [setAt_apply]
    split_ifs with h
    · subst h; rfl
    · exact h1 j (by omega)

/-- No basis has finite values everywhere at a point that is not a number. -/
theorem eval_nan {g : DSpline} (hs : Sized g) {tau : Dbl} {buf : ℕ → Dbl} (h : g.basis.evalOnWindow nan tau = .ok buf) : ∃ k < g.basis.dim, buf k = nan := by
  obtain ⟨_, _, hb⟩ := hs
  cases e : g.basis with
  | legendre d =>
    rw [e] at h
    obtain ⟨hd, h1⟩ := legendre_one h
    exact ⟨1, by show 1 < d; omega, h1⟩
  | lagrange x =>
    rw [e] at h hb
    injection h with h
    have hl : 0 < x.length := List.length_pos_iff.2 hb
    refine ⟨0, hl, ?_⟩
    rw [← h, lagrange_not_finite _ _ not_finite_nan]
    beta_reduce
    rw [baryLoop_entry _ _ _ hl]
    simp
  | b0101 a =>
    rw [e] at h
    injection h with h
    refine ⟨4, by show 4 < 6; omega, ?_⟩
    rw [← h]
    simp [b0101]

theorem baryLoop_inf {n : ℕ} {x : Vec} {y : ℕ → Dbl} (h : Same x y) (hd : Lagrange.Distinct n x) (a : Bool) :
    (∀ j < n, (baryLoop n y (Dbl.inf a)).1 j = fin 0) ∧ (baryLoop n y (Dbl.inf a)).2 = fin 0 := by
  have e : ∀ j < n, baryWeights n y j / (Dbl.inf a - y j) = fin 0 := by
    intro j hj
    rw [baryWeights_fin h hd hj, h j]
    simp
  refine ⟨fun j hj => by rw [baryLoop_entry _ _ _ hj, e j hj], ?_⟩
  refine (forLoop_ind (fun _ (st : (ℕ → Dbl) × Dbl) => st.2 = fin 0) (a := 0) (b := n) (by omega) _ ((fun _ => fin 0), fin 0) rfl ?_ : _)
  intro j st _ hj hst
  simp only [hst, e j hj, fin_add, add_zero]

/-- No basis has finite values everywhere at infinity. -/
theorem eval_inf {b : Basis} (hb : b.Valid) (hd : 0 < b.dim) {a : Bool} {tau : Dbl} {buf : ℕ → Dbl} (h : (exactBasis b).evalOnWindow (Dbl.inf a) tau = .ok buf) :
    ∃ k < b.dim, ¬ IsFinite (buf k) := by
  cases b with
  | legendre d =>
    obtain ⟨hd, h1⟩ := legendre_one h
    exact ⟨1, by show 1 < d; omega, by rw [h1]; simp⟩
  | lagrange x =>
    injection h with h
    refine ⟨0, hd, ?_⟩
    have e : (x.map fin).length = x.length := List.length_map ..
    obtain ⟨h1, h2⟩ := baryLoop_inf (vecD_map x) (Props.Separated.distinct hb) a
    rw [← h, lagrange_not_finite _ _ (not_finite_inf a), e]
    simp only [h1 0 hd, h2]
    show ¬ IsFinite (Dbl.div _ _)
    simp [Dbl.div]
  | b0101 al =>
    injection h with h
    refine ⟨4, by show 4 < 6; omega, ?_⟩
    rw [← h]
    show ¬ IsFinite (tau * kOf (fin al) * Dbl.inf a)
    rw [finite_mul]
    simp

/-! ## splines with finite numbers -/

theorem exactBasis_dim (b : Basis) : (exactBasis b).dim = b.dim := by
  cases b with
  | legendre d => rfl
  | lagrange x => exact List.length_map ..
  | b0101 a => rfl

theorem sized_exact {g : GSpline} (hb : g.basis.Valid) (hd : 0 < g.basis.dim) (hc : Consistent g) (hp : g.tau ≠ []) : Sized (exact g) := by
  refine ⟨by simpa [exact] using hp, ?_, ?_⟩
  · have e1 : (exact g).coeffs.length = g.coeffs.length := List.length_map ..
    have e2 : (exact g).tau.length = g.tau.length := List.length_map ..
    have e3 : (exact g).basis.dim = g.basis.dim := exactBasis_dim _
    rw [e1, e2, e3, hc]
    rfl
  · show match exactBasis g.basis with | .legendre d => 2 ≤ d | .lagrange x => x ≠ [] | .b0101 _ => True
    cases h : g.basis with
    | legendre d => rw [h] at hb; exact hb
    | lagrange x =>
      rw [h] at hd
      show x.map fin ≠ []
      have : 0 < x.length := hd
      simpa [← List.length_pos_iff] using this
    | b0101 a => trivial

theorem take_sum_fin (l : List ℝ) (i : ℕ) : Dbl.sum ((l.map fin).take i) = fin (l.take i).sum := by
  rw [← List.map_take, sum_fin]

theorem winD_exact (g : GSpline) (t : ℝ) {i : ℕ} (hz : vecOf g.tau i ≠ 0) : winD (exact g) (fin t) i = fin (window (vecOf g.tau i) (t - brk g i)) := by
  unfold winD
  have e1 : (exact g).dom.1 = fin g.dom.1 := rfl
  have e2 : Dbl.sum ((exact g).tau.take i) = fin (g.tau.take i).sum := take_sum_fin g.tau i
  have e3 : vecD (exact g).tau i = fin (vecOf g.tau i) := vecD_map g.tau i
  rw [e1, e2, e3]
  simp only [fin_add, fin_sub, fin_mul, fin_div hz]
  rfl

theorem row_exact {g : GSpline} (hc : Consistent g) {i : ℕ} (hi : i < g.tau.length) {v : Vec} {w : ℕ → Dbl} (h : ∀ k < g.basis.dim, w k = fin (v k)) :
    rowD (exact g) i w = (g.rowOf i v).map fin := by
  unfold rowD GSpline.rowOf
  have e0 : (exact g).basis.dim = g.basis.dim := exactBasis_dim _
  rw [List.map_map, e0]
  refine List.map_congr_left fun c hcm => ?_
  have hcc : c < g.codim := List.mem_range.1 hcm
  have hb := GSpline.coef_bound hc hi hcc
  have e1 : ((exact g).coeffs.drop (i * g.basis.dim * g.codim + g.basis.dim * c)).take g.basis.dim
      = ((g.coeffs.drop (i * g.basis.dim * g.codim + g.basis.dim * c)).take g.basis.dim).map fin := by
    rw [List.map_take, List.map_drop]
    rfl
  have hl : ((g.coeffs.drop (i * g.basis.dim * g.codim + g.basis.dim * c)).take g.basis.dim).length = g.basis.dim := by
    simp only [List.length_take, List.length_drop]
    omega
  have e2 : (exact g).codim = g.codim := rfl
  have key := dot_fin ((g.coeffs.drop (i * g.basis.dim * g.codim + g.basis.dim * c)).take g.basis.dim) (buf := w) (v := v) (by rw [hl]; exact h)
  rw [hl] at key
  rw [e2, e1, key]
  simp only [Function.comp]
  congr 1
  unfold Vec.dot
  refine Finset.sum_congr rfl fun k hk => ?_
  rw [vecOf_segment (Finset.mem_range.mp hk)]
  rfl

theorem value_exact {g : GSpline} (hb : g.basis.Valid) (hc : Consistent g) (hne : g.tau ≠ []) (hz : 0 ∉ g.tau) (t : ℝ) :
    ∃ v, g.value t = .ok v ∧ (exact g).value (fin t) = .ok (v.map fin) := by
  have hi := GSpline.getInterval_lt g hne t
  have hz' := GSpline.vecOf_ne_zero hz hi
  obtain ⟨v, w, h1, h2, h3⟩ := evalOnWindow_fin hb (window (vecOf g.tau (g.getInterval t)) (t - brk g (g.getInterval t))) (vecOf g.tau (g.getInterval t))
  refine ⟨_, GSpline.value_ok hc rfl hi hz' h1, ?_⟩
  have e2 : (exact g).tau.length = g.tau.length := List.length_map ..
  rw [value_ok (g := exact g) (i := g.getInterval t) (by
    have e1 : (exact g).coeffs.length = g.coeffs.length := List.length_map ..
    have e3 : (exact g).basis.dim = g.basis.dim := exactBasis_dim _
    rw [e1, e2, e3, hc]
    rfl) (getInterval_fin g t) (by rw [e2]; exact hi) (buf := w) (by
    rw [winD_exact g t hz', show vecD (exact g).tau (g.getInterval t) = _ from vecD_map g.tau _]
    exact h2), row_exact hc hi h3]

/-! ## one length is replaced -/

theorem scan_append (t : Dbl) : ∀ (a b : List Dbl) (i : ℕ) (left : Dbl),
    DSpline.scan t i left (a ++ b) = (DSpline.scan t i left a).or (DSpline.scan t (i + a.length) (a.foldl (· + ·) left) b) := by
  intro a
  induction a with
  | nil => intro b i left; simp [DSpline.scan]
  | cons x a ih =>
    intro b i left
    simp only [List.cons_append, DSpline.scan, List.foldl_cons, List.length_cons]
    split_ifs with h
    · simp
    · rw [ih, show i + 1 + a.length = i + (a.length + 1) by omega]

theorem foldl_fin : ∀ (l : List ℝ) (L : ℝ), (l.map fin).foldl (· + ·) (fin L) = fin (L + l.sum) := by
  intro l
  induction l with
  | nil => intro L; simp
  | cons x l ih =>
    intro L
    simp only [List.map_cons, List.foldl_cons, fin_add, ih, List.sum_cons]
    rw [_root_.add_assoc]

theorem scan_nan_left (t : Dbl) : ∀ (l : List Dbl) (i : ℕ), DSpline.scan t i nan l = none := by
  intro l
  induction l with
  | nil => intro i; rfl
  | cons x l ih =>
    intro i
    simp [DSpline.scan, ih]

theorem set_split (l : List ℝ) {j : ℕ} (hj : j < l.length) (x : Dbl) : (l.map fin).set j x = (l.take j).map fin ++ x :: (l.drop (j + 1)).map fin := by
  rw [List.set_eq_take_append_cons_drop, if_pos (by simpa using hj), ← List.map_take, ← List.map_drop]

theorem take_pos {l : List ℝ} (h : ∀ x ∈ l, 0 < x) (j : ℕ) : ∀ x ∈ l.take j, 0 < x := fun x hx => h x (List.mem_of_mem_take hx)

theorem scan_before {l : List ℝ} (h : ∀ x ∈ l, 0 < x) {i j : ℕ} (hij : i < j) (hj : j < l.length) (x : Dbl) {t L : ℝ} (h1 : L + (l.take i).sum < t)
    (h2 : t ≤ L + (l.take (i + 1)).sum) : DSpline.scan (fin t) 0 (fin L) ((l.map fin).set j x) = some i := by
  rw [set_split l hj, scan_append, scan_fin, GSpline.scan_some (j := i) (take_pos h j) (by simp; omega)
    (by rw [List.take_take, min_eq_left (by omega)]; exact h1) (by rw [List.take_take, min_eq_left (by omega)]; exact h2)]
  simp

theorem scan_after {l : List ℝ} (h : ∀ x ∈ l, 0 < x) {j : ℕ} (hj : j < l.length) (x : Dbl) {t L : ℝ} (h1 : L + (l.take j).sum < t) :
    DSpline.scan (fin t) 0 (fin L) ((l.map fin).set j x) = DSpline.scan (fin t) j (fin (L + (l.take j).sum)) (x :: (l.drop (j + 1)).map fin) := by
  rw [set_split l hj, scan_append, scan_fin, GSpline.scan_none (take_pos h j) h1, foldl_fin]
  simp [Nat.min_eq_left hj.le]

theorem withLength_sized {g : DSpline} (hs : Sized g) (j : ℕ) (x : Dbl) : Sized (withLength g j x) := by
  obtain ⟨h1, h2, h3⟩ := hs
  refine ⟨?_, ?_, h3⟩
  · show g.tau.set j x ≠ []
    intro e
    exact h1 (by simpa using congrArg List.length e)
  · show g.coeffs.length = (g.tau.set j x).length * g.basis.dim * g.codim
    rw [List.length_set, h2]

theorem getInterval_before {g : GSpline} (hp : Positive g) {t : ℝ} {i j : ℕ} (hl : Located g t i) (hij : i < j) (hj : j < g.tau.length) (x : Dbl) :
    (withLength (exact g) j x).getInterval (fin t) = i := by
  obtain ⟨hi, h | h | h⟩ := hl
  · unfold DSpline.getInterval
    rw [if_pos (show fin t ≤ (withLength (exact g) j x).dom.1 from by show t ≤ g.dom.1; rw [← GSpline.brk_zero]; exact h.1)]
    exact h.2.symm
  · have hb := GSpline.brk_mono hp (Nat.zero_le i) hi.le
    unfold DSpline.getInterval
    rw [if_neg (show ¬ fin t ≤ (withLength (exact g) j x).dom.1 from by show ¬ t ≤ g.dom.1; rw [← GSpline.brk_zero]; push Not; exact lt_of_le_of_lt hb h.1)]
    rw [show DSpline.scan (fin t) 0 (withLength (exact g) j x).dom.1 (withLength (exact g) j x).tau = some i from scan_before hp.2 hij hj x h.1 h.2]
  · omega

theorem lt_of_brk {g : GSpline} (hp : Positive g) {t : ℝ} {j : ℕ} (hj : j < g.tau.length) (h : brk g j < t) (x : Dbl) :
    ¬ fin t ≤ (withLength (exact g) j x).dom.1 := by
  have hb := GSpline.brk_mono hp (Nat.zero_le j) hj.le
  show ¬ fin t ≤ fin g.dom.1
  rw [fin_le, ← GSpline.brk_zero]
  push Not
  exact lt_of_le_of_lt hb h

theorem getInterval_nan {g : GSpline} (hp : Positive g) {t : ℝ} {j : ℕ} (hj : j < g.tau.length) (h : brk g j < t) :
    (withLength (exact g) j nan).getInterval (fin t) = g.tau.length - 1 := by
  unfold DSpline.getInterval
  rw [if_neg (lt_of_brk hp hj h nan)]
  have e : DSpline.scan (fin t) 0 (withLength (exact g) j nan).dom.1 (withLength (exact g) j nan).tau = none := by
    refine (scan_after hp.2 hj nan h).trans ?_
    simp [DSpline.scan, scan_nan_left]
  have e2 : (withLength (exact g) j nan).tau.length = g.tau.length := by simp [withLength, exact]
  rw [e]
  simp only [e2]
  rw [if_neg (by omega)]

theorem getInterval_inf {g : GSpline} (hp : Positive g) {t : ℝ} {j : ℕ} (hj : j < g.tau.length) (h : brk g j < t) :
    (withLength (exact g) j (Dbl.inf false)).getInterval (fin t) = j := by
  unfold DSpline.getInterval
  rw [if_neg (lt_of_brk hp hj h _)]
  have e : DSpline.scan (fin t) 0 (withLength (exact g) j (Dbl.inf false)).dom.1 (withLength (exact g) j (Dbl.inf false)).tau = some j := by
    refine (scan_after hp.2 hj _ h).trans ?_
    have h' : g.dom.1 + (g.tau.take j).sum < t := h
    simp [DSpline.scan, h']
  rw [e]

theorem vecD_set_self {l : List Dbl} {j : ℕ} (hj : j < l.length) (x : Dbl) : vecD (l.set j x) j = x := by
  simp [vecD, List.getD_eq_getElem?_getD, hj]

theorem vecD_set_ne (l : List Dbl) {i j : ℕ} (h : j ≠ i) (x : Dbl) : vecD (l.set j x) i = vecD l i := by
  simp [vecD, List.getD_eq_getElem?_getD, List.getElem?_set_ne h]

end GSplines.Special
