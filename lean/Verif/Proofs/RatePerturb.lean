import Verif.Proofs.RateSpline
import Verif.Proofs.RateList
import Verif.Proofs.RoundingCurve
import Verif.Proofs.RateLagrange
import Verif.Spec.Perturb

/-! # Evaluation of a spline whose data are not exact: errors proportional to the errors of the data and of the operations -/

namespace GSplines.Rounded

open Nd Spec

/-- The parameter of a basis (zero where there is none). -/
def par : Basis → ℝ
  | .b0101 a => a
  | _ => 0

/-- The basis with another parameter. -/
def withPar : Basis → ℝ → Basis
  | .b0101 _, a => .b0101 a
  | b, _ => b

theorem withPar_dim (b : Basis) (a : ℝ) : (withPar b a).dim = b.dim := by cases b <;> rfl

theorem withPar_par (b : Basis) : withPar b (par b) = b := by cases b <;> rfl

theorem b0101V_rate {a : ℝ} (h0 : 0 < a) (h1 : a < 1) (tau s : ℝ) : RateAt (fun u (q : (ℝ × ℝ) × ℝ) => b0101 u q.2 q.1.1 q.1.2) ((s, tau), a) (B0101.evalOnWindow a s tau) := by
  have hd : (0 : ℝ) < 1 - a := by linarith
  unfold b0101
  refine RateAt.bind (RateAt.near (by fun_prop)) ?_
  refine RateAt.bind (RateAt.near (by fun_prop)) ?_
  refine RateAt.bind (RateAt.near (by apply LLip.rpow; (fun_prop); exact ne_of_gt h0)) ?_
  refine RateAt.bind (RateAt.near (by fun_prop)) ?_
  refine RateAt.bind (RateAt.near (by fun_prop)) ?_
  refine RateAt.bind (RateAt.near (by apply LLip.rpow; (fun_prop); exact ne_of_gt hd)) ?_
  refine RateAt.bind (RateAt.quot (by fun_prop) (by fun_prop) (ne_of_gt (Real.rpow_pos_of_pos hd _))) ?_
  refine RateAt.bind (RateAt.near (by fun_prop)) ?_
  refine RateAt.bind (RateAt.near (by fun_prop)) ?_
  refine RateAt.bind (RateAt.near (by fun_prop)) ?_
  refine RateAt.bind (RateAt.near (by fun_prop)) ?_
  refine RateAt.bind (RateAt.near (by fun_prop)) ?_
  refine RateAt.bind (RateAt.near (by fun_prop)) ?_
  refine RateAt.bind (RateAt.near (by fun_prop)) ?_
  refine RateAt.bind (RateAt.quot (by fun_prop) (by fun_prop) (Real.exp_ne_zero _)) ?_
  refine RateAt.bind (RateAt.quot (by fun_prop) (by fun_prop) (Real.exp_ne_zero _)) ?_
  exact (RateAt.pure (vec6_llip (by fun_prop) (by fun_prop) (by fun_prop) (by fun_prop) (by fun_prop) (by fun_prop))).congr rfl

theorem evalV_rate {b : Basis} (hb : b.Valid) (hpos : ∀ a, b = .b0101 a → 0 < a) (tau t : ℝ) (hc : Clear b (window tau t)) :
    ∃ v : Vec, RateAt (fun u (q : (ℝ × ℝ) × ℝ) => evalOnWindow u (withPar b q.2) q.1.1 q.1.2) ((window tau t, tau), par b) v ∧ ∀ k < b.dim, v k = basisFn b tau k t := by
  obtain ⟨v, hv, hv'⟩ := evalOnWindow_rate hb tau t hc
  cases b with
  | legendre d => exact ⟨v, RateAt.comp (x := ((window tau t, tau), (0 : ℝ))) (f := fun q : (ℝ × ℝ) × ℝ => q.1.1) hv (by fun_prop), hv'⟩
  | lagrange x => exact ⟨v, RateAt.comp (x := ((window tau t, tau), (0 : ℝ))) (f := fun q : (ℝ × ℝ) × ℝ => q.1.1) hv (by fun_prop), hv'⟩
  | b0101 a =>
    obtain ⟨v, e, h⟩ := Basis.evalOnWindow_spec (b := .b0101 a) hb tau t trivial
    refine ⟨_, b0101V_rate (hpos a rfl) hb.2 tau _, ?_⟩
    cases e
    exact h

theorem windowV_rate (a : ℝ) (i : ℕ) {v : Vec} (hh : v i ≠ 0) (t : ℝ) :
    RateAt (fun u q => windowOf u a i q) (t, v) (window (v i) (t - (a + ∑ k ∈ Finset.range i, v k))) := by
  unfold windowOf
  refine RateAt.bind (RateAt.sum (f := fun k (q : ℝ × Vec) => q.2 k) fun k _ => by fun_prop) ?_
  refine RateAt.bind (RateAt.near (by fun_prop)) ?_
  refine RateAt.bind (RateAt.near (by fun_prop)) ?_
  refine RateAt.bind (RateAt.near (by fun_prop)) ?_
  refine RateAt.bind (RateAt.quot (by fun_prop) (by fun_prop) hh) ?_
  exact (RateAt.near (by fun_prop)).congr rfl

/-- The data of a spline and a time: time, interval lengths, parameter, coefficients. -/
abbrev Data := ((ℝ × Vec) × ℝ) × Vec

/-- GSpline.cpp:104-111 as a function of the data. -/
noncomputable def pieceV (u : ℝ × ℝ) (a0 : ℝ) (b : Basis) (codim i : ℕ) (q : Data) : Nd (List ℝ) := do
  let s ← windowOf u a0 i q.1.1
  let buf ← evalOnWindow u (withPar b q.1.2) s (q.1.1.2 i)
  (List.range codim).mapM fun c => dot u ((List.range b.dim).map fun k => q.2 (i * b.dim * codim + b.dim * c + k)) ((List.range b.dim).map buf)

/-- The data of a spline. -/
def dataOf (g : GSpline) (t : ℝ) : Data := (((t, vecOf g.tau), par g.basis), vecOf g.coeffs)

theorem dotV_rate (n : ℕ) (y buf : Vec) :
    RateAt (fun u (q : Vec × Vec) => dot u ((List.range n).map q.1) ((List.range n).map q.2)) (y, buf) (Vec.dot n y buf) := by
  have h := RateAt.comp (x := (y, buf)) (f := fun q : Vec × Vec => ((List.range n).map q.1, (List.range n).map q.2)) (dotList_rate _ _)
    (LLip.prodMk (LLip.comp (g := fun v : Vec => (List.range n).map v) (range_llip n _) (f := fun q : Vec × Vec => q.1) (by fun_prop))
      (LLip.comp (g := fun v : Vec => (List.range n).map v) (range_llip n _) (f := fun q : Vec × Vec => q.2) (by fun_prop)))
  refine h.congr ?_
  unfold Vec.dot
  dsimp only
  rw [List.zipWith_map, List.zipWith_self]
  rfl

/-- Moving the coefficients of one component to the front. -/
theorem shiftV_llip (m n : ℕ) (v : Vec) : LLip (fun (v : Vec) k => if k < n then v (m + k) else 0) v :=
  LLip.pi (n := n) (fun k hk => by
    simp only [hk, if_true]
    exact LLip.apply _ _) fun a k hk => if_neg (by omega)

theorem pieceV_rate {g : GSpline} (hb : g.basis.Valid) (hpos : ∀ a, g.basis = .b0101 a → 0 < a) (hp : Positive g) {i : ℕ} (hin : i < g.tau.length) {t : ℝ}
    (hc : Clear g.basis (window (vecOf g.tau i) (t - brk g i))) :
    RateAt (fun u q => pieceV u g.dom.1 g.basis g.codim i q) (dataOf g t) ((List.range g.codim).map fun c => curve g i c t) := by
  have hz : vecOf g.tau i ≠ 0 := (vecOf_pos hp.2 hin).ne'
  obtain ⟨buf, hbuf, hv⟩ := evalV_rate hb hpos (vecOf g.tau i) (t - brk g i) hc
  have hbrk : g.dom.1 + ∑ k ∈ Finset.range i, vecOf g.tau k = brk g i := by
    unfold brk
    congr 1
    change ((List.range i).map (vecOf g.tau)).sum = _
    have : (List.range i).map (vecOf g.tau) = g.tau.take i := by
      refine List.ext_getElem (by simp; omega) fun k h1 h2 => ?_
      simp only [List.getElem_map, List.getElem_range, List.getElem_take]
      unfold vecOf
      rw [List.getD_eq_getElem?_getD, List.getElem?_eq_getElem (by simp at h1; omega)]
      rfl
    rw [this]
  have hw := windowV_rate g.dom.1 i hz t
  rw [hbrk] at hw
  unfold pieceV
  refine RateAt.bind (RateAt.comp (x := dataOf g t) (f := fun q : Data => q.1.1) hw (by fun_prop)) ?_
  refine RateAt.bind (RateAt.comp (x := (dataOf g t, window (vecOf g.tau i) (t - brk g i))) (f := fun q : Data × ℝ => ((q.2, q.1.1.1.2 i), q.1.1.2)) hbuf (by fun_prop)) ?_
  refine RateAt.mapM _ fun c hcm => ?_
  have h := dotV_rate g.basis.dim (fun k => if k < g.basis.dim then vecOf g.coeffs (i * g.basis.dim * g.codim + g.basis.dim * c + k) else 0) buf
  have h' := RateAt.comp (x := ((dataOf g t, window (vecOf g.tau i) (t - brk g i)), buf))
    (f := fun q : (Data × ℝ) × Vec => ((fun k => if k < g.basis.dim then q.1.1.2 (i * g.basis.dim * g.codim + g.basis.dim * c + k) else 0 : Vec), q.2)) h
    (LLip.prodMk (LLip.comp (f := fun q : (Data × ℝ) × Vec => q.1.1.2) (shiftV_llip (i * g.basis.dim * g.codim + g.basis.dim * c) g.basis.dim _) (by fun_prop)) (by fun_prop))
  refine (h'.congr ?_).of_sub fun u q o ho => ?_
  · unfold curve piece comb Vec.dot
    exact Finset.sum_congr rfl fun k hk => by
      rw [hv k (Finset.mem_range.mp hk)]
      dsimp only
      rw [if_pos (Finset.mem_range.mp hk)]
  · dsimp only at ho ⊢
    rwa [show (List.range g.basis.dim).map (fun k => if k < g.basis.dim then q.1.1.2 (i * g.basis.dim * g.codim + g.basis.dim * c + k) else 0) =
      (List.range g.basis.dim).map fun k => q.1.1.2 (i * g.basis.dim * g.codim + g.basis.dim * c + k) from
      List.map_congr_left fun k hk => if_pos (List.mem_range.mp hk)]

theorem near_basis {ε : ℝ} {r g : GSpline} (hε : 0 ≤ ε) (h : NearSpline ε r g) : r.basis = withPar g.basis (par r.basis) ∧ |par r.basis - par g.basis| ≤ ε := by
  rcases h.basis with e | ⟨a, a', e1, e2, e3⟩
  · rw [e, withPar_par]
    simpa using hε
  · rw [e1, e2]
    exact ⟨rfl, e3⟩

theorem near_vec {ε : ℝ} (hε : 0 ≤ ε) {a b : List ℝ} (hl : a.length = b.length) (h : ∀ i < b.length, |vecOf a i - vecOf b i| ≤ ε) : close ε (vecOf a) (vecOf b) := by
  intro i
  by_cases hi : i < b.length
  · exact h i hi
  · have : ∀ l : List ℝ, l.length ≤ i → vecOf l i = 0 := fun l hl => by
      unfold vecOf
      rw [List.getD_eq_getElem?_getD, List.getElem?_eq_none hl]
      rfl
    rw [this a (by omega), this b (by omega)]
    simpa [close] using hε

theorem near_data {ε : ℝ} {r g : GSpline} (hε : 0 ≤ ε) (h : NearSpline ε r g) {t t' : ℝ} (ht : |t' - t| ≤ ε) : close ε (dataOf r t') (dataOf g t) :=
  ⟨⟨⟨ht, near_vec hε h.intervals h.tau⟩, (near_basis hε h).2⟩, near_vec hε h.size h.coeffs⟩

theorem pieceValue_eq {ε : ℝ} {r g : GSpline} (hε : 0 ≤ ε) (h : NearSpline ε r g) (hcon : Consistent g) {i : ℕ} (hi : i < g.tau.length) (u : ℝ × ℝ) (t : ℝ) :
    pieceValue u r i t = pieceV u g.dom.1 g.basis g.codim i (dataOf r t) := by
  obtain ⟨hb, -⟩ := near_basis hε h
  have hdim : r.basis.dim = g.basis.dim := by rw [hb, withPar_dim]
  have hcon' : Consistent r := by
    unfold Consistent
    rw [h.size, h.intervals, h.codim, hdim]
    exact hcon
  have hi' : i < r.tau.length := by rw [h.intervals]; exact hi
  have e1 : intervalToWindow u r t i = windowOf u g.dom.1 i (t, vecOf r.tau) := by
    unfold intervalToWindow windowOf
    simp only [segment_ok (show 0 + i ≤ r.tau.length by omega), rd_ok hi', lift_ok, LawfulMonad.pure_bind, List.drop_zero]
    have : (List.range i).map (fun k => vecOf r.tau k) = r.tau.take i := by
      refine List.ext_getElem (by simp; omega) fun k h1 h2 => ?_
      simp only [List.getElem_map, List.getElem_range, List.getElem_take]
      unfold vecOf
      rw [List.getD_eq_getElem?_getD, List.getElem?_eq_getElem (by simp at h1; omega)]
      rfl
    rw [this, h.start]
  unfold pieceValue pieceV
  simp only [rd_ok hi', lift_ok, LawfulMonad.pure_bind]
  rw [e1]
  refine congrArg _ (funext fun s => ?_)
  have e2 : evalOnWindow u r.basis s (vecOf r.tau i) = evalOnWindow u (withPar g.basis (dataOf r t).1.2) s ((dataOf r t).1.1.2 i) := by
    change _ = evalOnWindow u (withPar g.basis (par r.basis)) s (vecOf r.tau i)
    rw [← hb]
  rw [e2]
  refine congrArg _ (funext fun buf => ?_)
  rw [h.codim]
  refine mapM_congr fun c hc => ?_
  have hcc := List.mem_range.mp hc
  have hbd := GSpline.coef_bound hcon' hi' (c := c) (by rw [h.codim]; exact hcc)
  unfold GSpline.coefficientSegment
  simp only [segment_ok hbd, lift_ok, LawfulMonad.pure_bind]
  have : (r.coeffs.drop (i * r.basis.dim * r.codim + r.basis.dim * c)).take r.basis.dim =
      (List.range g.basis.dim).map fun k => vecOf r.coeffs (i * g.basis.dim * g.codim + g.basis.dim * c + k) := by
    rw [hdim, h.codim] at hbd ⊢
    refine List.ext_getElem (by simp; omega) fun k h1 h2 => ?_
    simp only [List.getElem_map, List.getElem_range, List.getElem_take, List.getElem_drop]
    unfold vecOf
    rw [List.getD_eq_getElem?_getD, List.getElem?_eq_getElem (by simp at h1; omega)]
    rfl
  rw [this, hdim]
  rfl

/-! ## The interval -/

theorem scan_near {u : ℝ × ℝ} {ε t : ℝ} (hu : Small u 1) (hε : 0 ≤ ε) : ∀ (xs ys : List ℝ) (i : ℕ) (left : ℝ), List.Forall₂ (fun x y => |x - y| ≤ ε) xs ys →
    ∀ o, scan u t i left xs o → scan (u.1, u.2 + 2 * ε) t i left ys o := by
  intro xs
  induction xs with
  | nil =>
    intro ys i left hF o ho
    cases hF
    exact ho
  | cons x xs ih =>
    intro ys i left hF o ho
    cases hF with
    | cons hxx hF =>
    rename_i h ys
    have ih := ih ys (i + 1)
    unfold scan at ho
    unfold scan
    rcases ho with ⟨e, ⟨_, h, _⟩, -⟩ | ⟨right, ⟨_, h', hr⟩, ho⟩
    · cases h
    cases h'
    refine .inr ⟨right, ⟨right, rfl, ?_⟩, ?_⟩
    · have b1 := abs_sub_le right (left + x) (left + h)
      rw [show left + x - (left + h) = x - h by ring] at b1
      have b2 := abs_sub_abs_le_abs_sub (left + x) (left + h)
      rw [show left + x - (left + h) = x - h by ring] at b2
      have b3 : u.1 * |left + x| ≤ u.1 * (|left + h| + ε) := mul_le_mul_of_nonneg_left (by linarith) hu.1
      have b4 : u.1 * ε ≤ 1 * ε := mul_le_mul_of_nonneg_right hu.2.1 hε
      dsimp only
      linarith
    · dsimp only
      split_ifs at ho ⊢ with hc
      · exact ho
      · exact ih right hF o ho

theorem getInterval_near {u : ℝ × ℝ} {ε : ℝ} (hu : Small u 1) (hε : 0 ≤ ε) {r g : GSpline} (h : NearSpline ε r g) (t : ℝ) {o : Res ℕ} (ho : getInterval u r t o) :
    getInterval (u.1, u.2 + 2 * ε) g t o := by
  unfold getInterval at ho ⊢
  rw [h.start] at ho
  by_cases ht : t ≤ g.dom.1
  · rw [if_pos ht] at ho ⊢
    exact ho
  · rw [if_neg ht] at ho ⊢
    have hF : List.Forall₂ (fun x y => |x - y| ≤ ε) r.tau g.tau := List.forall₂_iff_get.mpr ⟨h.intervals, fun i h1 h2 => by
      have := h.tau i h2
      unfold vecOf at this
      rwa [List.getD_eq_getElem?_getD, List.getElem?_eq_getElem h1, List.getD_eq_getElem?_getD, List.getElem?_eq_getElem h2] at this⟩
    have hn : r.nIntervals = g.nIntervals := h.intervals
    rw [hn] at ho
    rcases ho with ⟨e, he, h2⟩ | ⟨a, ha, h2⟩
    · exact .inl ⟨e, scan_near hu hε _ _ _ _ hF _ he, h2⟩
    · exact .inr ⟨a, scan_near hu hε _ _ _ _ hF _ ha, h2⟩

end GSplines.Rounded
