import Verif.Spec.GSpline
import Verif.Proofs.BasisSpec
import Verif.Proofs.BasisCache
import Verif.Proofs.Loops

/-! # GSpline: helper lemmas -/

namespace GSplines

open Finset Spec

theorem mapM_ok {α β : Type} {f : α → Res β} {g : α → β} (l : List α) (h : ∀ a ∈ l, f a = .ok (g a)) : l.mapM f = .ok (l.map g) := by
  induction l with
  | nil => rfl
  | cons a l ih =>
    rw [List.mapM_cons, h a (by simp), ih (fun b hb => h b (by simp [hb]))]; rfl

theorem mapM_congr {α β : Type} {f g : α → Res β} (l : List α) (h : ∀ a ∈ l, f a = g a) : l.mapM f = l.mapM g := by
  induction l with
  | nil => rfl
  | cons a l ih =>
    rw [List.mapM_cons, List.mapM_cons, h a (by simp), ih (fun b hb => h b (by simp [hb]))]

theorem rd_ok {l : List ℝ} {i : ℕ} (h : i < l.length) : rd l i = .ok (vecOf l i) := by
  unfold rd vecOf
  rw [List.getD_eq_getElem?_getD, List.getElem?_eq_getElem h]
  rfl

theorem segment_ok {l : List ℝ} {i n : ℕ} (h : i + n ≤ l.length) : segment l i n = .ok ((l.drop i).take n) := by
  unfold segment; rw [if_pos h]

theorem vecOf_segment {l : List ℝ} {i n k : ℕ} (hk : k < n) : vecOf ((l.drop i).take n) k = vecOf l (i + k) := by
  unfold vecOf
  rw [List.getD_eq_getElem?_getD, List.getD_eq_getElem?_getD, List.getElem?_take, if_pos hk, List.getElem?_drop]

theorem vecOf_map {l : List ℝ} {f : ℝ → ℝ} {i : ℕ} (h : i < l.length) : vecOf (l.map f) i = f (vecOf l i) := by
  unfold vecOf
  rw [List.getD_eq_getElem?_getD, List.getD_eq_getElem?_getD, List.getElem?_map, List.getElem?_eq_getElem h]; rfl

theorem vecOf_map_range {v : Vec} {n i : ℕ} (h : i < n) : vecOf ((List.range n).map v) i = v i := by
  unfold vecOf
  rw [List.getD_eq_getElem?_getD, List.getElem?_map, List.getElem?_range h]; rfl

theorem vecOf_zipWith {a b : List ℝ} {f : ℝ → ℝ → ℝ} {i : ℕ} (ha : i < a.length) (hb : i < b.length) :
    vecOf (List.zipWith f a b) i = f (vecOf a i) (vecOf b i) := by
  unfold vecOf
  rw [List.getD_eq_getElem?_getD, List.getD_eq_getElem?_getD, List.getD_eq_getElem?_getD, List.getElem?_zipWith,
    List.getElem?_eq_getElem ha, List.getElem?_eq_getElem hb]; rfl

theorem vecOf_pos {l : List ℝ} (h : ∀ x ∈ l, 0 < x) {i : ℕ} (hi : i < l.length) : 0 < vecOf l i := by
  unfold vecOf
  rw [List.getD_eq_getElem?_getD, List.getElem?_eq_getElem hi]
  exact h _ (List.getElem_mem hi)

theorem sum_take_succ {l : List ℝ} {i : ℕ} (hi : i < l.length) : (l.take (i + 1)).sum = (l.take i).sum + vecOf l i := by
  rw [List.take_succ, List.sum_append, List.getElem?_eq_getElem hi]
  simp [vecOf, List.getElem?_eq_getElem hi]

namespace GSpline

/-! ## interval location -/

theorem scan_some {t : ℝ} : ∀ {l : List ℝ} {i j : ℕ} {left : ℝ}, (∀ x ∈ l, 0 < x) → j < l.length → left + (l.take j).sum < t →
    t ≤ left + (l.take (j + 1)).sum → scan t i left l = some (i + j) := by
  intro l
  induction l with
  | nil => intro i j left _ h; simp at h
  | cons x xs ih =>
    intro i j left hpos hj h1 h2
    unfold scan
    cases j with
    | zero =>
      simp only [List.take_zero, List.sum_nil, add_zero, zero_add, List.take_succ_cons, List.sum_cons] at h1 h2
      rw [if_pos ⟨h1, h2⟩]; rfl
    | succ j =>
      simp only [List.take_succ_cons, List.sum_cons] at h1 h2
      have hnn : 0 ≤ (xs.take j).sum := List.sum_nonneg fun y hy => (hpos y (by simp [List.mem_of_mem_take hy])).le
      rw [if_neg (by intro hc; linarith [hc.2])]
      have := ih (i := i + 1) (j := j) (left := left + x) (fun y hy => hpos y (by simp [hy])) (by simpa using hj)
        (by linarith) (by linarith)
      rw [this]; congr 1; omega

theorem scan_none {t : ℝ} : ∀ {l : List ℝ} {i : ℕ} {left : ℝ}, (∀ x ∈ l, 0 < x) → left + l.sum < t → scan t i left l = none := by
  intro l
  induction l with
  | nil => intro i left _ _; rfl
  | cons x xs ih =>
    intro i left hpos h
    unfold scan
    simp only [List.sum_cons] at h
    have hnn : 0 ≤ xs.sum := List.sum_nonneg fun y hy => (hpos y (by simp [hy])).le
    rw [if_neg (by intro hc; linarith [hc.2])]
    exact ih (fun y hy => hpos y (by simp [hy])) (by linarith)

theorem scan_lt {t : ℝ} : ∀ {l : List ℝ} {i k : ℕ} {left : ℝ}, scan t i left l = some k → k < i + l.length := by
  intro l
  induction l with
  | nil => intro i k left h; simp [scan] at h
  | cons x xs ih =>
    intro i k left h
    unfold scan at h
    split_ifs at h with hc
    · simp at h; simp; omega
    · have := ih h; simp; omega

theorem getInterval_lt (g : GSpline) (h : g.tau ≠ []) (t : ℝ) : g.getInterval t < g.tau.length := by
  have hl : 0 < g.tau.length := List.length_pos_iff.mpr h
  unfold getInterval
  by_cases h1 : t ≤ g.dom.1
  · rw [if_pos h1]; exact hl
  · rw [if_neg h1]
    cases hs : scan t 0 g.dom.1 g.tau with
    | some k => simpa using scan_lt hs
    | none =>
      change (if g.tau.length = 0 then _ else g.tau.length - 1) < _
      rw [if_neg hl.ne']; omega

theorem brk_zero (g : GSpline) : brk g 0 = g.dom.1 := by simp [brk]

theorem brk_succ (g : GSpline) {i : ℕ} (hi : i < g.tau.length) : brk g (i + 1) = brk g i + vecOf g.tau i := by
  unfold brk; rw [sum_take_succ hi]; ring

theorem brk_lt_succ {g : GSpline} (hp : Positive g) {i : ℕ} (hi : i < g.tau.length) : brk g i < brk g (i + 1) := by
  rw [brk_succ g hi]; linarith [vecOf_pos hp.2 hi]

theorem brk_mono {g : GSpline} (hp : Positive g) {i j : ℕ} (hij : i ≤ j) (hj : j ≤ g.tau.length) : brk g i ≤ brk g j := by
  induction j with
  | zero => rw [Nat.le_zero.mp hij]
  | succ j ih =>
    rcases Nat.lt_or_ge i (j + 1) with h | h
    · exact (ih (by omega) (by omega)).trans (brk_lt_succ hp (by omega)).le
    · rw [show i = j + 1 by omega]

theorem located_exists {g : GSpline} (hp : Positive g) (t : ℝ) : ∃ i, Located g t i := by
  have hl : 0 < g.tau.length := List.length_pos_iff.mpr hp.1
  by_cases h0 : t ≤ brk g 0
  · exact ⟨0, hl, .inl ⟨h0, rfl⟩⟩
  by_cases h1 : brk g g.tau.length < t
  · exact ⟨g.tau.length - 1, by omega, .inr (.inr ⟨h1, by omega⟩)⟩
  push Not at h0 h1
  have hex : ∃ j, t ≤ brk g (j + 1) := ⟨g.tau.length - 1, by rwa [Nat.sub_add_cancel hl]⟩
  classical
  have hs := Nat.find_spec hex
  have hmin : ∀ m < Nat.find hex, ¬ t ≤ brk g (m + 1) := fun m hm => Nat.find_min hex hm
  set j := Nat.find hex
  have hjl : j ≤ g.tau.length - 1 := Nat.find_min' hex (by rwa [Nat.sub_add_cancel hl])
  refine ⟨j, by omega, .inr (.inl ⟨?_, hs⟩)⟩
  cases hj : j with
  | zero => exact h0
  | succ m =>
    have := hmin m (by omega)
    push Not at this
    exact this

theorem getInterval_of_located {g : GSpline} (hp : Positive g) {t : ℝ} {i : ℕ} (h : Located g t i) : g.getInterval t = i := by
  obtain ⟨hi, h | h | h⟩ := h
  · unfold getInterval
    rw [if_pos (by rw [← brk_zero]; exact h.1)]; exact h.2.symm
  · have hb := brk_mono hp (Nat.zero_le i) hi.le
    unfold getInterval
    rw [if_neg (by rw [← brk_zero]; push Not; exact lt_of_le_of_lt hb h.1), scan_some hp.2 hi h.1 h.2]
    simp
  · have hb := brk_mono hp (Nat.zero_le g.tau.length) le_rfl
    unfold getInterval
    rw [if_neg (by rw [← brk_zero]; push Not; exact lt_of_le_of_lt hb h.1), scan_none hp.2 (by simpa [brk] using h.1)]
    change (if g.tau.length = 0 then _ else g.tau.length - 1) = _
    rw [if_neg (show ¬ g.tau.length = 0 by omega)]; omega

/-! ## evaluation -/

theorem intervalToWindow_ok (g : GSpline) (t : ℝ) {i : ℕ} (hi : i < g.tau.length) (hz : vecOf g.tau i ≠ 0) :
    g.intervalToWindow t i = .ok (window (vecOf g.tau i) (t - brk g i)) := by
  unfold intervalToWindow
  rw [segment_ok (by omega), rd_ok hi]
  change (fdiv (2 * (t - (g.dom.1 + (List.take i (List.drop 0 g.tau)).sum))) (vecOf g.tau i)).bind _ = _
  unfold fdiv
  rw [if_neg hz]
  rfl

theorem coef_bound {g : GSpline} (hc : Consistent g) {i c : ℕ} (hi : i < g.tau.length) (hcc : c < g.codim) :
    i * g.basis.dim * g.codim + g.basis.dim * c + g.basis.dim ≤ g.coeffs.length := by
  rw [hc]
  have h1 : g.basis.dim * (c + 1) ≤ g.basis.dim * g.codim := Nat.mul_le_mul_left _ hcc
  have h2 : (i + 1) * (g.basis.dim * g.codim) ≤ g.tau.length * (g.basis.dim * g.codim) := Nat.mul_le_mul_right _ hi
  rw [Nat.mul_succ] at h1
  rw [Nat.succ_mul] at h2
  rw [mul_assoc, mul_assoc g.tau.length]
  omega

/-- Row computed from the content of the basis buffer. -/
noncomputable def rowOf (g : GSpline) (i : ℕ) (buf : Vec) : List ℝ :=
  (List.range g.codim).map fun c => Vec.dot g.basis.dim (fun k => vecOf g.coeffs (Basis.coefIdx g.basis.dim g.codim i c k)) buf

theorem value_ok {g : GSpline} (hc : Consistent g) {t : ℝ} {i : ℕ} (hi : g.getInterval t = i) (hin : i < g.tau.length) (hz : vecOf g.tau i ≠ 0) {buf : Vec}
    (hb : g.basis.evalOnWindow (window (vecOf g.tau i) (t - brk g i)) (vecOf g.tau i) = .ok buf) :
    g.value t = .ok (g.rowOf i buf) := by
  unfold value
  simp only [hi, intervalToWindow_ok g t hin hz, rd_ok hin]
  change (do
    let buf ← g.basis.evalOnWindow (window (vecOf g.tau i) (t - brk g i)) (vecOf g.tau i)
    (List.range g.codim).mapM fun c => do
      let seg ← g.coefficientSegment i c
      return Vec.dot g.basis.dim (vecOf seg) buf) = _
  rw [hb]
  change (List.range g.codim).mapM _ = _
  refine mapM_ok _ fun c hcm => ?_
  have hcc : c < g.codim := List.mem_range.mp hcm
  unfold coefficientSegment
  rw [segment_ok (coef_bound hc hin hcc)]
  change Except.ok _ = _
  congr 1
  unfold Vec.dot
  refine sum_congr rfl fun k hk => ?_
  rw [vecOf_segment (mem_range.mp hk)]; rfl

theorem value_error {g : GSpline} {t : ℝ} {i : ℕ} (hi : g.getInterval t = i) (hin : i < g.tau.length) (hz : vecOf g.tau i ≠ 0) {e : Err}
    (hb : g.basis.evalOnWindow (window (vecOf g.tau i) (t - brk g i)) (vecOf g.tau i) = .error e) :
    g.value t = .error e := by
  unfold value
  simp only [hi, intervalToWindow_ok g t hin hz, rd_ok hin]
  change (do
    let buf ← g.basis.evalOnWindow (window (vecOf g.tau i) (t - brk g i)) (vecOf g.tau i)
    (List.range g.codim).mapM fun c => do
      let seg ← g.coefficientSegment i c
      return Vec.dot g.basis.dim (vecOf seg) buf) = _
  rw [hb]; rfl

theorem rowOf_getElem? (g : GSpline) (i : ℕ) (buf : Vec) {c : ℕ} (hc : c < g.codim) :
    (g.rowOf i buf)[c]? = some (∑ k ∈ range g.basis.dim, vecOf g.coeffs (Basis.coefIdx g.basis.dim g.codim i c k) * buf k) := by
  unfold rowOf
  rw [List.getElem?_map, List.getElem?_range hc]; rfl

theorem rowOf_length (g : GSpline) (i : ℕ) (buf : Vec) : (g.rowOf i buf).length = g.codim := by simp [rowOf]

theorem value_spec {g : GSpline} (hb : g.basis.Valid) (hcon : Consistent g) {t : ℝ} {i : ℕ} (hi : g.getInterval t = i) (hin : i < g.tau.length)
    (hz : vecOf g.tau i ≠ 0) (hclean : g.basis.CleanAt (window (vecOf g.tau i) (t - brk g i))) :
    ∃ v, g.value t = .ok v ∧ v.length = g.codim ∧ ∀ c < g.codim, v[c]? = some (curve g i c t) := by
  obtain ⟨buf, hbuf, hv⟩ := Basis.evalOnWindow_spec hb _ _ hclean
  refine ⟨_, value_ok hcon hi hin hz hbuf, rowOf_length _ _ _, fun c hc => ?_⟩
  rw [rowOf_getElem? _ _ _ hc]
  congr 1
  unfold curve piece comb
  exact sum_congr rfl fun k hk => by rw [hv k (mem_range.mp hk)]; rfl

theorem evalOnWindow_total {b : Basis} (hb : b.Valid) (s tau : ℝ) : ∃ buf, b.evalOnWindow s tau = .ok buf := by
  cases b with
  | legendre d =>
    refine ⟨Legendre.values d s, ?_⟩
    change (if d < 2 then _ else _) = _
    rw [if_neg (by have : 2 ≤ d := hb; omega)]
  | lagrange x => exact ⟨_, rfl⟩
  | b0101 a => exact ⟨_, rfl⟩

theorem vecOf_ne_zero {l : List ℝ} (h : 0 ∉ l) {i : ℕ} (hi : i < l.length) : vecOf l i ≠ 0 := by
  unfold vecOf
  rw [List.getD_eq_getElem?_getD, List.getElem?_eq_getElem hi]
  intro e
  exact h (e ▸ List.getElem_mem hi)

theorem _root_.GSplines.Spec.Positive.not_mem {g : GSpline} (h : Positive g) : 0 ∉ g.tau := fun hz => lt_irrefl _ (h.2 0 hz)

theorem value_total {g : GSpline} (hb : g.basis.Valid) (hcon : Consistent g) (hne : g.tau ≠ []) (hz : 0 ∉ g.tau) (t : ℝ) :
    ∃ v, g.value t = .ok v ∧ v.length = g.codim := by
  obtain ⟨buf, hbuf⟩ := evalOnWindow_total hb (window (vecOf g.tau (g.getInterval t)) (t - brk g (g.getInterval t))) (vecOf g.tau (g.getInterval t))
  exact ⟨_, value_ok hcon rfl (getInterval_lt g hne t) (vecOf_ne_zero hz (getInterval_lt g hne t)) hbuf, rowOf_length _ _ _⟩

/-! ## derivative -/

theorem derivLoop {b : Basis} (hd : 0 < b.dim) (deg codim n : ℕ) (sc : ℕ → ℝ) (v0 : Vec) :
    ∀ x, forLoop 0 n (fun i v => forLoop 0 codim (fun c v => derivSegment b deg (i * b.dim * codim + b.dim * c) (sc i) v) v) v0 x
      = if x / b.dim < n * codim then
          (b.derivBlock deg).mulVec b.dim (fun k => v0 (x / b.dim * b.dim + k)) (x % b.dim) * sc (x / b.dim / codim)
        else v0 x := by
  set new : Vec := fun x => (b.derivBlock deg).mulVec b.dim (fun k => v0 (x / b.dim * b.dim + k)) (x % b.dim) * sc (x / b.dim / codim) with hnew
  have key : ∀ (q i c : ℕ) (v : Vec), q = i * codim + c → c < codim → (∀ x, v x = if x / b.dim < q then new x else v0 x) →
      ∀ x, derivSegment b deg (i * b.dim * codim + b.dim * c) (sc i) v x = if x / b.dim < q + 1 then new x else v0 x := by
    intro q i c v hq hc hv x
    have hi0 : i * b.dim * codim + b.dim * c = q * b.dim := by rw [hq]; ring
    unfold derivSegment
    rw [hi0]
    have hdiv : (q * b.dim ≤ x ∧ x < q * b.dim + b.dim) ↔ x / b.dim = q := by
      rw [Nat.div_eq_iff hd]
      constructor
      · rintro ⟨h1, h2⟩; constructor <;> omega
      · rintro ⟨h1, h2⟩; constructor <;> omega
    by_cases hx : x / b.dim = q
    · rw [if_pos (hdiv.mpr hx), if_pos (by omega), hnew]
      beta_reduce
      have hqc : q / codim = i := by
        rw [hq, mul_comm, Nat.mul_add_div (by omega), Nat.div_eq_of_lt hc]; rfl
      have hmod : x - q * b.dim = x % b.dim := by
        rw [← hx]; have := Nat.div_add_mod x b.dim; rw [mul_comm] at this; omega
      rw [hx, hqc, hmod]
      congr 1
      unfold Mat.mulVec
      refine sum_congr rfl fun k hk => ?_
      have hk := mem_range.mp hk
      beta_reduce
      rw [hv, if_neg]
      rw [mul_comm, Nat.mul_add_div hd, Nat.div_eq_of_lt hk]; omega
    · rw [if_neg (fun h => hx (hdiv.mp h)), hv]
      by_cases h2 : x / b.dim < q
      · rw [if_pos h2, if_pos (by omega)]
      · rw [if_neg h2, if_neg (by omega)]
  refine forLoop_ind (fun i v => ∀ x, v x = if x / b.dim < i * codim then new x else v0 x) (Nat.zero_le n) _ v0 ?_ ?_
  · intro x; simp
  · intro i v _ _ hv
    have := forLoop_ind (fun c v => ∀ x, v x = if x / b.dim < i * codim + c then new x else v0 x) (Nat.zero_le codim)
      (fun c v => derivSegment b deg (i * b.dim * codim + b.dim * c) (sc i) v) v (by simpa using hv) (by
        intro c v _ hc hv
        exact key (i * codim + c) i c v rfl hc hv)
    intro x
    rw [Nat.succ_mul]; exact this x

theorem derivCoeffs_spec (g : GSpline) (deg : ℕ) {i c k : ℕ} (hi : i < g.tau.length) (hc : c < g.codim) (hk : k < g.basis.dim) :
    g.derivCoeffs deg (Basis.coefIdx g.basis.dim g.codim i c k)
      = (g.basis.derivBlock deg).mulVec g.basis.dim (fun k => vecOf g.coeffs (Basis.coefIdx g.basis.dim g.codim i c k)) k
        * derivScale g.basis (vecOf g.tau i) deg := by
  have hd : 0 < g.basis.dim := by omega
  unfold derivCoeffs
  rw [derivLoop hd deg g.codim g.nIntervals (fun i => derivScale g.basis (vecOf g.tau i) deg)]
  have hix : ∀ k, Basis.coefIdx g.basis.dim g.codim i c k = (i * g.codim + c) * g.basis.dim + k := by
    intro k; unfold Basis.coefIdx; ring
  have hdiv : Basis.coefIdx g.basis.dim g.codim i c k / g.basis.dim = i * g.codim + c := by
    rw [hix, mul_comm, Nat.mul_add_div hd, Nat.div_eq_of_lt hk]; rfl
  have hmod : Basis.coefIdx g.basis.dim g.codim i c k % g.basis.dim = k := by
    rw [hix, mul_comm, Nat.mul_add_mod, Nat.mod_eq_of_lt hk]
  have hlt : i * g.codim + c < g.nIntervals * g.codim := by
    have : (i + 1) * g.codim ≤ g.nIntervals * g.codim := Nat.mul_le_mul_right _ hi
    rw [Nat.succ_mul] at this; omega
  have hq : (i * g.codim + c) / g.codim = i := by
    rw [mul_comm, Nat.mul_add_div (by omega), Nat.div_eq_of_lt hc]; rfl
  rw [hdiv, if_pos hlt, hmod, hq]
  simp only [hix]

theorem make_ok {dom : ℝ × ℝ} {codim nInt : ℕ} {b : Basis} {coeffs tau : List ℝ} (hdom : dom.1 ≤ dom.2) (hl : coeffs.length = nInt * b.dim * codim) :
    make dom codim nInt b coeffs tau = .ok ⟨dom, codim, b, coeffs, tau⟩ := by
  unfold make; rw [if_pos hdom, if_neg (by simpa using hl)]

theorem deriv_ok {g : GSpline} (hdom : g.dom.1 ≤ g.dom.2) (hc : Consistent g) (hz : 0 ∉ g.tau) (deg : ℕ) :
    g.deriv deg = .ok { g with coeffs := if 0 < deg then (List.range g.coeffs.length).map (g.derivCoeffs deg) else g.coeffs } := by
  unfold deriv
  have hcl : ¬ g.coeffs.length < g.nIntervals * g.basis.dim * g.codim := by
    have : g.coeffs.length = g.nIntervals * g.basis.dim * g.codim := hc
    omega
  have hdz : ¬ g.derivDividesByZero := fun h => hz h.2.2.2
  split_ifs with h
  · rw [make_ok hdom (by rw [List.length_map, List.length_range]; exact hc)]
  · exact make_ok hdom hc

theorem copy_ok {g : GSpline} (hc : Consistent g) : g.copy = .ok g := by
  unfold copy; exact if_neg (not_not.mpr hc)

theorem derivate_ok {g : GSpline} (hdom : g.dom.1 ≤ g.dom.2) (hc : Consistent g) (hz : 0 ∉ g.tau) (deg : ℕ) : g.derivate deg = g.deriv deg := by
  unfold derivate
  rw [deriv_ok hdom hc hz]
  change copy _ = _
  rw [copy_ok]
  unfold Consistent
  split_ifs <;> simp <;> exact hc

/-- The pieces of what `deriv` returns, for every basis and order: the coefficients of every piece multiplied by the derivative matrix of the basis. -/
theorem curve_deriv_block {g g' : GSpline} (hdom : g.dom.1 ≤ g.dom.2) (hcon : Consistent g) (hz : 0 ∉ g.tau) (deg : ℕ) (hd : 0 < deg)
    (hg' : g.deriv deg = .ok g') {i c : ℕ} (hi : i < g.tau.length) (hc : c < g.codim) (t : ℝ) :
    curve g' i c t = comb g.basis (vecOf g.tau i) (fun k => (g.basis.derivBlock deg).mulVec g.basis.dim
      (fun k => vecOf g.coeffs (Basis.coefIdx g.basis.dim g.codim i c k)) k * g.basis.dscale (vecOf g.tau i) deg) (t - brk g i) := by
  rw [deriv_ok hdom hcon hz] at hg'
  injection hg' with hg'
  rw [if_pos hd] at hg'
  rw [← hg']
  unfold curve
  have hbrk : brk { g with coeffs := (List.range g.coeffs.length).map (g.derivCoeffs deg) } i = brk g i := rfl
  rw [hbrk]
  unfold piece comb
  refine sum_congr rfl fun k hk => ?_
  have hk := mem_range.mp hk
  beta_reduce
  have hcb := coef_bound hcon hi hc
  rw [vecOf_map_range (show i * g.basis.dim * g.codim + g.basis.dim * c + k < g.coeffs.length by omega), show i * g.basis.dim * g.codim + g.basis.dim * c + k = Basis.coefIdx g.basis.dim g.codim i c k from rfl,
    derivCoeffs_spec g deg hi hc hk]
  have : derivScale g.basis (vecOf g.tau i) deg = g.basis.dscale (vecOf g.tau i) deg := by
    unfold derivScale Basis.dscale
    cases g.basis <;> simp [hd.ne']
  rw [this]

theorem iteratedDeriv_curve (g : GSpline) (deg i c : ℕ) : iteratedDeriv deg (curve g i c) = fun t =>
    iteratedDeriv deg (comb g.basis (vecOf g.tau i) (fun k => vecOf g.coeffs (Basis.coefIdx g.basis.dim g.codim i c k))) (t - brk g i) :=
  iteratedDeriv_comp_sub_const deg (piece g.basis g.codim (vecOf g.tau) (vecOf g.coeffs) i c) (brk g i)

theorem curve_deriv {g g' : GSpline} (hb : g.basis.Valid) (hdom : g.dom.1 ≤ g.dom.2) (hcon : Consistent g) (hz : 0 ∉ g.tau) (deg : ℕ) (ho : g.basis.MatOrderOk deg)
    (hg' : g.deriv deg = .ok g') {i c : ℕ} (hi : i < g.tau.length) (hτ : vecOf g.tau i ≠ 0) (hc : c < g.codim) :
    curve g' i c = iteratedDeriv deg (curve g i c) := by
  rcases Nat.eq_zero_or_pos deg with hd | hd
  · subst hd
    rw [deriv_ok hdom hcon hz, if_neg (by omega)] at hg'
    injection hg' with hg'
    rw [← hg', iteratedDeriv_zero]
  · rw [iteratedDeriv_curve]
    funext t
    rw [curve_deriv_block hdom hcon hz deg hd hg' hi hc t, Basis.derivBlock_spec hb (vecOf g.tau i) hτ deg ho]

end GSpline

end GSplines
