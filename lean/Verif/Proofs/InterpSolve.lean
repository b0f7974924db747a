import Verif.Proofs.InterpVector

/-!
# The interpolation system: what its rows say
-/

namespace GSplines.Interp

open GSplines Spec Finset

/-- A basis with an even number of functions that can be evaluated at both ends of an interval. -/
structure Usable (b : Basis) (h : ℕ) : Prop where
  valid : b.Valid
  dim : b.dim = 2 * h + 2
  left : b.CleanAt (-1)
  right : b.CleanAt 1

theorem Usable.order {b : Basis} {h : ℕ} (hb : Usable b h) {d : ℕ} (hd : d ≤ b.dim - 2) : b.OrderOk d := by
  have := hb.dim
  cases b with
  | legendre n => change d < n; change d ≤ n - 2 at hd; change n = _ at this; omega
  | _ => trivial

/-- The contents of the buffers for the interval lengths `tau`. -/
noncomputable def bufs (b : Basis) (tau : Vec) : Bufs where
  pl iv := b.ev (-1) (tau iv) 0
  dl iv k j := if j < b.dim - 2 then b.ev (-1) (tau iv) (j + 1) k else 0
  pr iv := b.ev 1 (tau iv) 0
  dr iv k j := if j < b.dim - 2 then b.ev 1 (tau iv) (j + 1) k else 0

/-- The contents of the buffers filled with derivatives with respect to `tau`. -/
noncomputable def bufsT (b : Basis) (tau : Vec) : Bufs where
  pl iv := b.evT (-1) (tau iv) 0
  dl iv k j := if j < b.dim - 2 then b.evT (-1) (tau iv) (j + 1) k else 0
  pr iv := b.evT 1 (tau iv) 0
  dr iv k j := if j < b.dim - 2 then b.evT 1 (tau iv) (j + 1) k else 0

theorem fillBuffers_ok {b : Basis} {h : ℕ} (hb : Usable b h) (s tau : ℝ) :
    fillBuffers b s tau = .ok (b.ev s tau 0, fun k j => if j < b.dim - 2 then b.ev s tau (j + 1) k else 0) :=
  buffers_ok fun j hj => (Basis.tau_spec hb.valid s tau j (hb.order hj)).1 tau

theorem fillBuffersTau_ok {b : Basis} {h : ℕ} (hb : Usable b h) (s : ℝ) {tau : ℝ} (ht : tau ≠ 0) :
    fillBuffersTau b s tau = .ok (b.evT s tau 0, fun k j => if j < b.dim - 2 then b.evT s tau (j + 1) k else 0) :=
  buffers_ok fun j hj => ((Basis.tau_spec hb.valid s tau j (hb.order hj)).2 ht).1

theorem ok_bind {α β : Type} (a : α) (f : α → Res β) : ((Except.ok a : Res α) >>= f) = f a := rfl

theorem fillMatrix_ok {b : Basis} {h n c : ℕ} (hb : Usable b h) (hn : 0 < n) {tau : List ℝ} (hl : tau.length = n) (m : Mat) :
    fillMatrix b c n tau m = .ok (fillP b.dim c n (bufs b (vecOf tau)) m) := by
  unfold fillMatrix
  rw [if_neg (not_not.mpr hl), rd_ok (show 0 < tau.length by omega)]
  simp only [ok_bind, fillBuffers_ok hb]
  unfold fillP
  by_cases h1 : n = 1
  · rw [if_pos h1, if_pos h1]; rfl
  · rw [if_neg h1, if_neg h1]
    have hmid : ∀ iv st, 1 ≤ iv → iv < n - 1 → middle b c tau iv st =
        .ok (midM b.dim c st.2.1 st.2.2 iv (bufs b (vecOf tau)) st.1, st.2.1 + c * (b.dim - 2) + c + c, st.2.2 + c * b.dim) := by
      intro iv st _ h2
      unfold middle
      rw [rd_ok (show iv < tau.length by omega)]
      simp only [ok_bind, fillBuffers_ok hb]
      rfl
    have hfin : ∀ st, final b c n tau st = .ok (finM b.dim c st.2.1 st.2.2 (n - 1) (bufs b (vecOf tau)) st.1) := by
      intro st
      unfold final
      rw [rd_ok (show n - 1 < tau.length by omega)]
      simp only [ok_bind, fillBuffers_ok hb]
      rfl
    change (do
      let st ← forLoopM 1 (n - 1) (middle b c tau) _
      final b c n tau st) = _
    rw [forLoopM_ok _ hmid]
    exact hfin _

theorem fillDer_ok {b : Basis} {h n c idx : ℕ} (hb : Usable b h) (hi : idx < n) {tau : List ℝ} (hl : tau.length = n) (ht : vecOf tau idx ≠ 0) (m : Mat) :
    fillDer b c n tau idx m = .ok (derP b.dim c n idx (bufsT b (vecOf tau)) m) := by
  unfold fillDer
  rw [rd_ok (show idx < tau.length by omega)]
  simp only [ok_bind, fillBuffersTau_ok hb _ ht]
  unfold derP
  by_cases h0 : idx = 0
  · rw [if_pos h0, if_pos h0]
    subst h0
    by_cases h1 : n = 1
    · rw [if_pos h1, if_pos h1]; rfl
    · rw [if_neg h1, if_neg h1]; rfl
  · rw [if_neg h0, if_neg h0]
    by_cases h1 : 0 < idx ∧ idx < n - 1
    · rw [if_pos h1, if_pos h1]; rfl
    · rw [if_neg h1, if_neg h1, if_pos (by omega)]; rfl

/-! ## Row sums -/

theorem sum_upd {a D M : ℕ} (h : a + D ≤ M) (F y : ℕ → ℝ) :
    ∑ col ∈ range M, upd a D F (fun _ => 0) col * y col = ∑ k ∈ range D, F k * y (a + k) := by
  have e : range M = range (a + (D + (M - (a + D)))) := by congr 1; omega
  rw [e, sum_range_add, sum_range_add]
  have h1 : ∑ x ∈ range a, upd a D F (fun _ => 0) x * y x = 0 :=
    sum_eq_zero fun x hx => by
      have := mem_range.mp hx
      unfold upd; rw [if_neg (by omega), zero_mul]
  have h2 : ∑ x ∈ range (M - (a + D)), upd a D F (fun _ => 0) (a + (D + x)) * y (a + (D + x)) = 0 :=
    sum_eq_zero fun x hx => by unfold upd; rw [if_neg (by omega), zero_mul]
  rw [h1, h2, zero_add, add_zero]
  refine sum_congr rfl fun k hk => ?_
  have := mem_range.mp hk
  unfold upd
  rw [if_pos (by omega), Nat.add_sub_cancel_left]

theorem upd_split {a b D : ℕ} (h : a + D ≤ b) (F G : ℕ → ℝ) (col : ℕ) :
    upd b D F (upd a D G fun _ => 0) col = upd b D F (fun _ => 0) col + upd a D G (fun _ => 0) col := by
  unfold upd
  by_cases h1 : b ≤ col ∧ col < b + D
  · rw [if_pos h1, if_pos h1, if_neg (by omega), add_zero]
  · rw [if_neg h1, if_neg h1, zero_add]

theorem seg_bound {c D n iv comp : ℕ} (hiv : iv < n) (hc : comp < c) : iv * (c * D) + D * comp + D ≤ D * c * n := by
  have h1 := succ_mul_le (K := c * D) hiv
  have h2 := succ_mul_le (K := D) hc
  have e1 : D * comp = comp * D := by ring
  have e2 : D * c * n = n * (c * D) := by ring
  omega

/-- The sum over a row, with the buffers. -/
theorem sum_over {n c h : ℕ} (hn : 0 < n) (B : Bufs) (x : Cond n c h) (y : ℕ → ℝ) :
    ∑ col ∈ range ((2 * h + 2) * c * n), over B x (fun _ => 0) col * y col =
      let s := fun (iv comp : ℕ) (F : ℕ → ℝ) => ∑ k ∈ range (2 * h + 2), F k * y (iv * (c * (2 * h + 2)) + (2 * h + 2) * comp + k)
      match x with
      | .start iv comp => s iv comp (B.pl iv)
      | .stop iv comp => s iv comp (B.pr iv)
      | .restL comp j => s 0 comp (fun k => B.dl 0 k j)
      | .restR comp j => s (n - 1) comp (fun k => B.dr (n - 1) k j)
      | .join iv comp j => s iv comp (fun k => B.dr iv k j) - s (iv + 1) comp (fun k => B.dl (iv + 1) k j) := by
  cases x with
  | start iv comp => exact sum_upd (seg_bound iv.2 comp.2) _ _
  | stop iv comp => exact sum_upd (seg_bound iv.2 comp.2) _ _
  | restL comp j =>
    have := seg_bound (c := c) (D := 2 * h + 2) (n := n) (iv := 0) hn comp.2
    have e := sum_upd (a := 0 * (c * (2 * h + 2)) + (2 * h + 2) * comp) this (fun k => B.dl 0 k j) y
    simp only [over]
    rw [Nat.zero_mul, Nat.zero_add] at e ⊢
    exact e
  | restR comp j => exact sum_upd (seg_bound (D := 2 * h + 2) (n := n) (iv := n - 1) (by omega) comp.2) (fun k => B.dr (n - 1) k j) y
  | join iv comp j =>
    have h1 := seg_bound (c := c) (D := 2 * h + 2) (n := n) (iv := iv) (by omega) comp.2
    have h2 := seg_bound (c := c) (D := 2 * h + 2) (n := n) (iv := iv + 1) (by omega) comp.2
    simp only [over]
    have e : ∀ col, upd ((iv + 1) * (c * (2 * h + 2)) + (2 * h + 2) * comp) (2 * h + 2) (fun k => -1 * B.dl (iv + 1) k j)
        (upd (iv * (c * (2 * h + 2)) + (2 * h + 2) * comp) (2 * h + 2) (fun k => B.dr iv k j) fun _ => 0) col * y col = _ :=
      fun col => by rw [upd_split (seg_apart comp.2), add_mul]
    rw [sum_congr rfl fun col _ => e col, sum_add_distrib, sum_upd h2, sum_upd h1, add_comm, sub_eq_add_neg, ← sum_neg_distrib]
    congr 1
    exact sum_congr rfl fun k _ => by ring

theorem piece_sum {b : Basis} {h : ℕ} (hb : Usable b h) (c : ℕ) (tau y : ℕ → ℝ) (iv comp d : ℕ) (t : ℝ) :
    iteratedDeriv d (piece b c tau y iv comp) t =
      ∑ k ∈ range (2 * h + 2), iteratedDeriv d (basisFn b (tau iv) k) t * y (iv * (c * (2 * h + 2)) + (2 * h + 2) * comp + k) := by
  have : piece b c tau y iv comp = comb b (tau iv) (fun k => y (iv * b.dim * c + b.dim * comp + k)) := rfl
  rw [this, Basis.iteratedDeriv_comb, hb.dim]
  refine sum_congr rfl fun k _ => ?_
  rw [mul_comm, show iv * (2 * h + 2) * c = iv * (c * (2 * h + 2)) by ring]

/-- The row of a condition times the coefficients is the quantity that the condition is about. -/
theorem row_quantity {b : Basis} {h n c : ℕ} (hb : Usable b h) (hn : 0 < n) {tau : Vec} (ht : ∀ i < n, tau i ≠ 0) (y : Vec) (x : Cond n c h) :
    ∑ col ∈ range ((2 * h + 2) * c * n), over (bufs b tau) x (fun _ => 0) col * y col = x.quantity b tau y := by
  have hdim := hb.dim
  have L : ∀ iv < n, ∀ d, d ≤ b.dim - 2 → ∀ k ∈ range (2 * h + 2), b.ev (-1) (tau iv) d k = iteratedDeriv d (basisFn b (tau iv) k) 0 :=
    fun iv hiv d hd k hk => Basis.ev_left hb.valid (ht iv hiv) (hb.order hd) hb.left (by rw [hdim]; exact mem_range.mp hk)
  have R : ∀ iv < n, ∀ d, d ≤ b.dim - 2 → ∀ k ∈ range (2 * h + 2), b.ev 1 (tau iv) d k = iteratedDeriv d (basisFn b (tau iv) k) (tau iv) :=
    fun iv hiv d hd k hk => Basis.ev_right hb.valid (ht iv hiv) (hb.order hd) hb.right (by rw [hdim]; exact mem_range.mp hk)
  rw [sum_over hn]
  cases x with
  | start iv comp =>
    simp only [Cond.quantity]
    have := piece_sum hb c tau y iv comp 0 0
    rw [iteratedDeriv_zero] at this
    rw [this]
    exact sum_congr rfl fun k hk => by rw [← L iv iv.2 0 (by omega) k hk]; rfl
  | stop iv comp =>
    simp only [Cond.quantity]
    have := piece_sum hb c tau y iv comp 0 (tau iv)
    rw [iteratedDeriv_zero] at this
    rw [this]
    exact sum_congr rfl fun k hk => by rw [← R iv iv.2 0 (by omega) k hk]; rfl
  | restL comp j =>
    simp only [Cond.quantity]
    rw [piece_sum hb]
    refine sum_congr rfl fun k hk => ?_
    have hj := j.2
    rw [← L 0 hn (j + 1) (by omega) k hk]
    simp only [bufs]
    rw [if_pos (by omega)]
  | restR comp j =>
    simp only [Cond.quantity]
    rw [piece_sum hb]
    refine sum_congr rfl fun k hk => ?_
    have hj := j.2
    rw [← R (n - 1) (by omega) (j + 1) (by omega) k hk]
    simp only [bufs]
    rw [if_pos (by omega)]
  | join iv comp j =>
    simp only [Cond.quantity]
    rw [piece_sum hb, piece_sum hb]
    have hj := j.2
    congr 1
    · refine sum_congr rfl fun k hk => ?_
      rw [← R iv (by omega) (j + 1) (by omega) k hk]
      simp only [bufs]
      rw [if_pos (by omega)]
    · refine sum_congr rfl fun k hk => ?_
      rw [← L (iv + 1) (by omega) (j + 1) (by omega) k hk]
      simp only [bufs]
      rw [if_pos (by omega)]

/-! ## The solver object -/

/-- What holds of an interpolator between calls. -/
structure Inv (h : ℕ) (s : Interp) : Prop where
  dim : s.basis.dim = 2 * h + 2
  mat : Clean s.n s.codim h s.mat
  vec : ∀ x : Cond s.n s.codim h, ¬ IsValue x → s.vec (row s.n s.codim h x) = 0
  ders : ∀ idx < s.n, CleanI s.n s.codim h idx (s.ders idx)

theorem make_inv {codim n : ℕ} {b : Basis} {junk : Vec} {s : Interp} (h : Interp.make codim n b junk = .ok s) :
    ∃ q, Inv q s ∧ s.basis = b ∧ s.codim = codim ∧ s.n = n := by
  unfold Interp.make at h
  by_cases h1 : b.dim % 2 ≠ 0
  · rw [if_pos h1] at h; cases h
  · rw [if_neg h1] at h
    by_cases h2 : b.dim = 0
    · rw [if_pos h2] at h; cases h
    · rw [if_neg h2] at h
      cases h
      refine ⟨b.dim / 2 - 1, ⟨by simp only; omega, clean_zero _ _ _, fun _ _ => rfl, fun _ _ => cleanI_zero _ _ _ _⟩, rfl, rfl, rfl⟩

/-- The system that `solve_interpolation` sets up. -/
structure System (b : Basis) (h n c : ℕ) (tau : Vec) (m : Mat) : Prop where
  rows : ∀ x : Cond n c h, m (row n c h x) = over (bufs b tau) x fun _ => 0

theorem System.clean {b : Basis} {h n c : ℕ} {tau : Vec} {m : Mat} (H : System b h n c tau m) : Clean n c h m := fun x => ⟨_, H.rows x⟩

theorem fillMatrix_system {b : Basis} {h n c : ℕ} (hb : Usable b h) (hn : 0 < n) {tau : List ℝ} (hl : tau.length = n) {m0 : Mat} (hm : Clean n c h m0) :
    ∃ m, fillMatrix b c n tau m0 = .ok m ∧ System b h n c (vecOf tau) m := by
  refine ⟨_, fillMatrix_ok hb hn hl m0, ⟨fun x => ?_⟩⟩
  rw [hb.dim]
  exact fillP_rows _ hn hm x

/-- Rows in condition form. -/
theorem System.sum {b : Basis} {h n c : ℕ} (hb : Usable b h) (hn : 0 < n) {tau : Vec} (ht : ∀ i < n, tau i ≠ 0) {m : Mat}
    (H : System b h n c tau m) (y : Vec) (x : Cond n c h) :
    ∑ k ∈ range (b.dim * c * n), m (row n c h x) k * y k = x.quantity b tau y := by
  rw [H.rows x, hb.dim]
  exact row_quantity hb hn ht y x

theorem interpolates_iff {b : Basis} {h n c : ℕ} (hb : Usable b h) (hn : 0 < n) (tau y : Vec) (w : Mat) :
    Interpolates b n c tau w y ↔ ∀ x : Cond n c h, x.quantity b tau y = x.target w := by
  have hdim := hb.dim
  constructor
  · intro H x
    cases x with
    | start iv comp => exact H.start iv iv.2 comp comp.2
    | stop iv comp => exact H.stop iv iv.2 comp comp.2
    | restL comp j => exact H.restL comp comp.2 (j + 1) (by omega) (by omega)
    | restR comp j => exact H.restR comp comp.2 (j + 1) (by omega) (by omega)
    | join iv comp j => exact sub_eq_zero.mpr (H.join iv (by omega) comp comp.2 (j + 1) (by omega) (by omega))
  · intro H
    refine ⟨fun iv hiv comp hc => H (.start ⟨iv, hiv⟩ ⟨comp, hc⟩), fun iv hiv comp hc => H (.stop ⟨iv, hiv⟩ ⟨comp, hc⟩), ?_, ?_, ?_⟩
    · intro comp hc d h1 h2
      obtain ⟨j, rfl⟩ : ∃ j, d = j + 1 := ⟨d - 1, by omega⟩
      exact H (.restL ⟨comp, hc⟩ ⟨j, by omega⟩)
    · intro comp hc d h1 h2
      obtain ⟨j, rfl⟩ : ∃ j, d = j + 1 := ⟨d - 1, by omega⟩
      exact H (.restR ⟨comp, hc⟩ ⟨j, by omega⟩)
    · intro iv hiv comp hc d h1 h2
      obtain ⟨j, rfl⟩ : ∃ j, d = j + 1 := ⟨d - 1, by omega⟩
      exact sub_eq_zero.mp (H (.join ⟨iv, by omega⟩ ⟨comp, hc⟩ ⟨j, by omega⟩))

theorem solves_iff {b : Basis} {h n c : ℕ} (hb : Usable b h) (hn : 0 < n) {tau : Vec} (ht : ∀ i < n, tau i ≠ 0) {m : Mat}
    (H : System b h n c tau m) {v : Vec} {w : Mat} (hv : ∀ x : Cond n c h, v (row n c h x) = x.target w) (y : Vec) :
    Solves (b.dim * c * n) m y v ↔ Interpolates b n c tau w y := by
  rw [interpolates_iff hb hn]
  constructor
  · intro hs x
    rw [← H.sum hb hn ht y x, ← hv x]
    exact hs _ (by rw [hb.dim]; exact row_lt hn x)
  · intro hs r hr
    rw [hb.dim] at hr
    obtain ⟨x, rfl⟩ := row_surj hn hr
    rw [H.sum hb hn ht y x, hv x, hs x]

end GSplines.Interp
