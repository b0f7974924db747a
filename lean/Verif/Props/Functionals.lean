import Verif.Proofs.Functionals
import Verif.Props.CollocOps

/-!
# C49: functionals on collocation splines
-/

namespace GSplines.Props

open GSplines Spec Finset Fn Colloc

/-! ## Derivative -/

/-- A request to change the interval lengths of a `Derivative`. -/
inductive DReq
  | lengths (tau : List ℝ)
  | const (len : ℝ)

/-- The update that the request asks for. -/
noncomputable def DReq.run (d : Deriv) : DReq → Res Deriv
  | .lengths tau => d.update tau
  | .const len => d.updateConst len

noncomputable def DReq.runAll (d : Deriv) : List DReq → Res Deriv
  | [] => .ok d
  | r :: rs => (r.run d).bind fun d => DReq.runAll d rs

/-- The interval lengths after the request, for an object that was constructed with `m` intervals. -/
def DReq.lens (m : ℕ) : DReq → List ℝ
  | .lengths tau => tau
  | .const len => List.replicate m len

/-- The interval lengths after the last request. -/
def DReq.last (m : ℕ) (tau : List ℝ) : List DReq → List ℝ
  | [] => tau
  | r :: rs => DReq.last m (r.lens m) rs

structure DInv (d : Deriv) (n m cd deg' : ℕ) (p : Vec) (tau : List ℝ) : Prop where
  basis : d.basis = .lagrange ((List.range n).map p)
  nInt : d.nInt = m
  codim : d.codim = cd
  deg : d.deg = deg'
  cache : d.basis.DerivInv d.cache
  rows : d.lf.rows = tau.length * cd * n
  cols : d.lf.cols = tau.length * cd * n
  mat : d.basis.derivFresh tau.length cd deg' tau = .ok d.lf.mat
  nz : 0 ∉ tau

theorem dinv_make (codim n deg : ℕ) (tau : List ℝ) (hz : 0 ∉ tau) {jp jw p w : Vec} (hpw : GLL.pointsWeights n jp jw = .ok (p, w)) :
    ∃ d, Deriv.ofLengths codim n tau deg jp jw = .ok d ∧ DInv d n tau.length codim deg p tau := by
  have hgl : glBasis n jp jw = .ok (.lagrange ((List.range n).map p)) := by unfold glBasis; rw [hpw]; rfl
  have hdim : (Basis.lagrange ((List.range n).map p)).dim = n := by simp [Basis.dim]
  obtain ⟨h1, h2⟩ := Basis.gsplineDerivativeMatrix_spec (Basis.derivInv_empty (.lagrange ((List.range n).map p))) tau.length codim deg tau
  have h3 := derivFresh_eq (b := .lagrange ((List.range n).map p)) (codim := codim) (order := deg) (le_refl tau.length) (by rwa [List.take_length])
  have hex : ∃ d, Deriv.ofLengths codim n tau deg jp jw = .ok d ∧ d = ⟨⟨tau.length * codim * (Basis.lagrange ((List.range n).map p)).dim, tau.length * codim * (Basis.lagrange ((List.range n).map p)).dim,
      Basis.derivScale (Basis.lagrange ((List.range n).map p)).dim tau.length codim deg tau (Basis.derivStatic (Basis.lagrange ((List.range n).map p)).dim tau.length codim ((Basis.lagrange ((List.range n).map p)).derivBlock deg))
      (Basis.derivStatic (Basis.lagrange ((List.range n).map p)).dim tau.length codim ((Basis.lagrange ((List.range n).map p)).derivBlock deg))⟩, .lagrange ((List.range n).map p), tau.length, codim, deg,
      ((Basis.lagrange ((List.range n).map p)).gsplineDerivativeMatrix tau.length codim deg tau (fun _ => none)).1⟩ := by
    refine ⟨_, ?_, rfl⟩
    unfold Deriv.ofLengths
    rw [hgl, GLL.ok_bind]
    simp only
    rw [h2, h3, GLL.ok_bind]
    rfl
  obtain ⟨d, e, rfl⟩ := hex
  exact ⟨_, e, rfl, rfl, rfl, rfl, h1, by dsimp only; rw [hdim], by dsimp only; rw [hdim], h3, hz⟩

theorem dinv_run {d : Deriv} {n m codim deg : ℕ} {p : Vec} {tau : List ℝ} (h : DInv d n m codim deg p tau) (r : DReq) (hz : 0 ∉ r.lens m) :
    ∃ d', r.run d = .ok d' ∧ DInv d' n m codim deg p (r.lens m) := by
  have hdim : d.basis.dim = n := by rw [h.basis]; simp [Basis.dim]
  cases r with
  | lengths tau' =>
    obtain ⟨h1, h2⟩ := Basis.gsplineDerivativeMatrix_spec h.cache tau'.length d.codim d.deg tau'
    have h3 := derivFresh_eq (b := d.basis) (codim := d.codim) (order := d.deg) (le_refl tau'.length) (by rw [List.take_length]; exact hz)
    have hex : d.update tau' = .ok ⟨⟨tau'.length * d.codim * d.basis.dim, tau'.length * d.codim * d.basis.dim, Basis.derivScale d.basis.dim tau'.length d.codim d.deg tau'
        (Basis.derivStatic d.basis.dim tau'.length d.codim (d.basis.derivBlock d.deg)) (Basis.derivStatic d.basis.dim tau'.length d.codim (d.basis.derivBlock d.deg))⟩,
        d.basis, d.nInt, d.codim, d.deg, (d.basis.gsplineDerivativeMatrix tau'.length d.codim d.deg tau' d.cache).1⟩ := by
      unfold Deriv.update
      simp only
      rw [h2, h3, GLL.ok_bind]
      rfl
    refine ⟨_, hex, ?_⟩
    · refine ⟨h.basis, h.nInt, h.codim, h.deg, h1, by rw [hdim, h.codim]; rfl, by rw [hdim, h.codim]; rfl, ?_, hz⟩
      rw [h.codim, h.deg] at h3
      simp only [h.codim, h.deg]
      exact h3
  | const len =>
    obtain ⟨h1, h2⟩ := Basis.gsplineDerivativeMatrix_spec h.cache d.nInt d.codim d.deg (List.replicate d.nInt len)
    have h3 := derivFresh_eq (b := d.basis) (n := d.nInt) (codim := d.codim) (order := d.deg) (tau := List.replicate d.nInt len) (by simp)
      (by rw [List.take_of_length_le (by simp), h.nInt]; exact hz)
    have hl : (List.replicate m len).length = m := by simp
    have hex : d.updateConst len = .ok ⟨⟨d.nInt * d.codim * d.basis.dim, d.nInt * d.codim * d.basis.dim, Basis.derivScale d.basis.dim d.nInt d.codim d.deg (List.replicate d.nInt len)
        (Basis.derivStatic d.basis.dim d.nInt d.codim (d.basis.derivBlock d.deg)) (Basis.derivStatic d.basis.dim d.nInt d.codim (d.basis.derivBlock d.deg))⟩,
        d.basis, d.nInt, d.codim, d.deg, (d.basis.gsplineDerivativeMatrix d.nInt d.codim d.deg (List.replicate d.nInt len) d.cache).1⟩ := by
      unfold Deriv.updateConst
      simp only
      rw [h2, h3, GLL.ok_bind]
      rfl
    refine ⟨_, hex, ?_⟩
    · refine ⟨h.basis, h.nInt, h.codim, h.deg, h1, by show _ = (List.replicate m len).length * _ * _; rw [hl, hdim, h.codim, h.nInt],
        by show _ = (List.replicate m len).length * _ * _; rw [hl, hdim, h.codim, h.nInt], ?_, hz⟩
      rw [h.codim, h.deg, h.nInt] at h3
      show d.basis.derivFresh (List.replicate m len).length codim deg (List.replicate m len) = _
      rw [hl]
      simp only [h.codim, h.deg, h.nInt]
      exact h3

theorem dinv_runAll {d : Deriv} {n m codim deg : ℕ} {p : Vec} {tau : List ℝ} (h : DInv d n m codim deg p tau) (rs : List DReq)
    (hz : ∀ r ∈ rs, 0 ∉ r.lens m) :
    ∃ d', DReq.runAll d rs = .ok d' ∧ DInv d' n m codim deg p (DReq.last m tau rs) := by
  induction rs generalizing d tau with
  | nil => exact ⟨d, rfl, h⟩
  | cons r rs ih =>
    obtain ⟨d1, e1, h1⟩ := dinv_run h r (hz r (by simp))
    obtain ⟨d2, e2, h2⟩ := ih h1 fun r' hr' => hz r' (List.mem_cons_of_mem _ hr')
    exact ⟨d2, by unfold DReq.runAll; rw [e1]; exact e2, h2⟩

theorem lagrange_scale (x : List ℝ) (tau : ℝ) (deg : ℕ) : GSpline.derivScale (.lagrange x) tau deg = (2 / tau) ^ deg := rfl

theorem dinv_act {d : Deriv} {n m codim deg : ℕ} {p w jp jw : Vec} {tau : List ℝ} (hpw : GLL.pointsWeights n jp jw = .ok (p, w)) (h : DInv d n m codim deg p tau)
    (h0 : 0 < tau.length) (g : GSpline) (hg : OnGrid g n tau.length codim p) (ht : g.tau = tau) : d.lf.actOn g jp jw = g.derivate deg := by
  have hn : 2 ≤ n := points_two hpw
  have hdim : g.basis.dim = n := by rw [hg.basis]; simp [Basis.dim]
  have hdimb : (Basis.lagrange ((List.range n).map p)).dim = n := by simp [Basis.dim]
  have hcoef : g.coeffs.length = tau.length * n * codim := by rw [hg.cons, hdim, hg.codim, ht]
  obtain ⟨r, e1, e2, e3, e4, e5⟩ := actOn_ok (R := codim) (C := codim) hpw (by omega) h0 (by rw [h.rows]; ring) (by rw [h.cols]; ring) hg
  have hmat := derivFresh_eq (b := d.basis) (codim := codim) (order := deg) (le_refl tau.length) (by rw [List.take_length]; exact h.nz)
  rw [h.mat, h.basis, hdimb] at hmat
  injection hmat with hmat
  rw [e1, GSpline.derivate_ok hg.dom hg.cons (ht ▸ h.nz), GSpline.deriv_ok hg.dom hg.cons (ht ▸ h.nz)]
  congr 1
  have hnod : ∀ iv < tau.length, ∀ c < codim, ∀ k < n, nodal r iv c k
      = ((Basis.lagrange ((List.range n).map p)).derivBlock deg).mulVec n (fun j => nodal g iv c j) k * (2 / vecOf tau iv) ^ deg := by
    intro iv hiv c hc k hk
    rw [e5 iv hiv c hc k hk, hmat, show tau.length * n * codim = tau.length * codim * n by ring, Basis.derivScale_mulVec tau _ _ _ hiv hc hk]
    congr 2
    funext j
    rw [nodal_coef hg]
  have hrl : r.coeffs.length = g.coeffs.length := by
    rw [e2.cons, hcoef, e2.len, e2.codim, e2.basis, hdimb]
  have hco : r.coeffs = if 0 < deg then (List.range g.coeffs.length).map (g.derivCoeffs deg) else g.coeffs := by
    refine GSpline.ext_vecOf (by split_ifs <;> simp [hrl]) fun i hi => ?_
    rw [hrl, hcoef] at hi
    obtain ⟨iv, c, k, hiv, hc, hk, rfl⟩ : ∃ iv c k, iv < tau.length ∧ c < codim ∧ k < n ∧ i = Basis.coefIdx n codim iv c k := by
      have hc0 : 0 < codim := by
        rcases Nat.eq_zero_or_pos codim with h | h
        · subst h; simp at hi
        · exact h
      refine ⟨i / n / codim, i / n % codim, i % n, ?_, Nat.mod_lt _ hc0, Nat.mod_lt _ (by omega), ?_⟩
      · rw [Nat.div_lt_iff_lt_mul hc0, Nat.div_lt_iff_lt_mul (by omega)]
        rw [show tau.length * codim * n = tau.length * n * codim by ring]; exact hi
      · rw [pos_eq, Nat.mul_comm (i / n / codim), Nat.div_add_mod, Nat.mul_comm, Nat.div_add_mod]
    rw [nodal_coef e2, hnod iv hiv c hc k hk]
    split_ifs with hd
    · rw [vecOf_map_range (by rw [hcoef]; exact hi)]
      have := GSpline.derivCoeffs_spec g deg (i := iv) (c := c) (k := k) (by rw [ht]; exact hiv) (by rw [hg.codim]; exact hc) (by rw [hdim]; exact hk)
      rw [hdim, hg.codim, hg.basis, lagrange_scale, ht] at this
      rw [this]
      congr 2
      funext j
      rw [nodal_coef hg]
    · have : deg = 0 := by omega
      subst this
      rw [pow_zero, mul_one, nodal_coef hg]
      unfold Mat.mulVec
      show ∑ j ∈ range n, Mat.id k j * nodal g iv c j = _
      rw [sum_eq_single k]
      · simp [Mat.id]
      · intro j _ hj; simp [Mat.id, Ne.symm hj]
      · intro hn'; exact absurd (mem_range.mpr hk) hn'
  obtain ⟨rd, rc, rb, rco, rt⟩ := r
  obtain ⟨gd, gc, gb, gco, gt⟩ := g
  have q1 := e2.codim
  have q2 := e2.basis
  have q3 := hg.codim
  have q4 := hg.basis
  dsimp only at *
  rw [GSpline.mk.injEq]
  exact ⟨e3, q1.trans q3.symm, q2.trans q4.symm, hco, e4⟩

/-- **C49.** Every number of nodes for which the reference points can be computed, every number of components, order of the derivative and lengths, and any
sequence of updates, with lengths or with one length, none of them zero: all of them succeed, and afterwards the functional applied to any spline on these nodes with the lengths of
the last request is the same object that the spline's own `deriv` returns. -/
theorem C49_derivative (codim n deg : ℕ) (tau : List ℝ) (jp jw p w : Vec) (hpw : GLL.pointsWeights n jp jw = .ok (p, w)) (htau : 0 ∉ tau) (rs : List DReq)
    (hrs : ∀ r ∈ rs, 0 ∉ r.lens tau.length) :
    ∃ d0 d, Deriv.ofLengths codim n tau deg jp jw = .ok d0 ∧ DReq.runAll d0 rs = .ok d ∧
      ∀ g, OnGrid g n g.tau.length codim p → g.tau ≠ [] → g.tau = DReq.last tau.length tau rs → d.lf.actOn g jp jw = g.derivate deg := by
  obtain ⟨d0, e0, h0⟩ := dinv_make codim n deg tau htau hpw
  obtain ⟨d, e, h⟩ := dinv_runAll h0 rs hrs
  refine ⟨d0, d, e0, e, fun g hg hne ht => dinv_act hpw h ?_ g (by rw [← ht]; exact hg) ht⟩
  rw [← ht]; exact List.length_pos_iff.mpr hne

/-- **C49.** The curves of the result are the derivatives of the curves of the spline. -/
theorem C49_derivative_curves (codim n deg : ℕ) (tau : List ℝ) (jp jw p w : Vec) (hpw : GLL.pointsWeights n jp jw = .ok (p, w)) (hp : Nodes n p)
    (htau : 0 ∉ tau) (rs : List DReq) (hrs : ∀ r ∈ rs, 0 ∉ r.lens tau.length) :
    ∃ d0 d, Deriv.ofLengths codim n tau deg jp jw = .ok d0 ∧ DReq.runAll d0 rs = .ok d ∧
      ∀ g, OnGrid g n g.tau.length codim p → Positive g → g.tau = DReq.last tau.length tau rs →
        ∃ r, d.lf.actOn g jp jw = .ok r ∧ r.tau = g.tau ∧ r.dom = g.dom ∧ ∀ iv < g.tau.length, ∀ c < codim, curve r iv c = iteratedDeriv deg (curve g iv c) := by
  obtain ⟨d0, d, e0, e, h⟩ := C49_derivative codim n deg tau jp jw p w hpw htau rs hrs
  refine ⟨d0, d, e0, e, fun g hg hpos ht => ?_⟩
  have hd := GSpline.deriv_ok hg.dom hg.cons hpos.not_mem deg
  have hact := h g hg hpos.1 ht
  rw [GSpline.derivate_ok hg.dom hg.cons hpos.not_mem, hd] at hact
  refine ⟨_, hact, rfl, rfl, fun iv hiv c hc => ?_⟩
  exact GSpline.curve_deriv (by rw [hg.basis]; exact valid_nodes hp.sep) hg.dom hg.cons hpos.not_mem deg (by rw [hg.basis]; trivial) hd hiv
    (vecOf_pos hpos.2 hiv).ne' (by rw [hg.codim]; exact hc)

/-- **C49.** The constructor from a spline: first derivative with its lengths. -/
theorem C49_derivative_of_spline (n codim : ℕ) (jp jw p w : Vec) (hpw : GLL.pointsWeights n jp jw = .ok (p, w)) (a : GSpline) (ha : OnGrid a n a.tau.length codim p)
    (hne : a.tau ≠ []) (hz : 0 ∉ a.tau) : ∃ d, Deriv.ofSpline a jp jw = .ok d ∧ ∀ g, OnGrid g n g.tau.length codim p → g.tau = a.tau → d.lf.actOn g jp jw = g.derivate 1 := by
  have hdim : a.basis.dim = n := by rw [ha.basis]; simp [Basis.dim]
  obtain ⟨d0, d, e0, e, h⟩ := C49_derivative codim n 1 a.tau jp jw p w hpw hz [] (by simp)
  cases e
  refine ⟨d0, by unfold Deriv.ofSpline; rw [ha.codim, hdim]; exact e0, fun g hg ht => h g hg (by rw [ht]; exact hne) ht⟩

/-- **C49.** The constructor from a domain: equal lengths. -/
theorem C49_derivative_of_domain (dom : ℝ × ℝ) (hdom : dom.1 < dom.2) (n m codim deg : ℕ) (hm : 0 < m) (jp jw p w : Vec) (hpw : GLL.pointsWeights n jp jw = .ok (p, w)) :
    ∃ d, Deriv.ofDomain dom codim n m deg jp jw = .ok d ∧
      ∀ g, OnGrid g n m codim p → g.tau = List.replicate m ((dom.2 - dom.1) / m) → d.lf.actOn g jp jw = g.derivate deg := by
  obtain ⟨d0, d, e0, e, h⟩ := C49_derivative codim n deg (List.replicate m ((dom.2 - dom.1) / m)) jp jw p w hpw
    (by rw [List.mem_replicate]; rintro ⟨-, h⟩; have : (0 : ℝ) < (dom.2 - dom.1) / m := div_pos (by linarith) (by exact_mod_cast hm); linarith) [] (by simp)
  cases e
  refine ⟨d0, e0, fun g hg ht => h g (by rw [ht]; simpa using hg) (by rw [ht]; simp; omega) ht⟩

/-! ## Integral -/

theorem row_spec (dom : ℝ × ℝ) (n m : ℕ) (jp jw junk p w : Vec) (hpw : GLL.pointsWeights n jp jw = .ok (p, w)) :
    ∃ l, Integ.row dom n m jp jw junk = .ok l ∧ l.rows = 1 ∧ l.cols = n * m ∧
      ∀ g, OnGrid g n m 1 p → l.call g = .ok [nodalQuadrature g n m ((dom.2 - dom.1) / m) w] := by
  refine ⟨_, by unfold Integ.row; rw [hpw]; rfl, rfl, rfl, fun g hg => ?_⟩
  have hdim : g.basis.dim = n := by rw [hg.basis]; simp [Basis.dim]
  have hlen : g.coeffs.length = n * m := by rw [hg.cons, hg.len, hdim, hg.codim]; ring
  unfold LF.call
  rw [apply_ok (by exact hlen)]
  simp only [List.range_one, List.map_cons, List.map_nil]
  congr 2
  unfold Mat.mulVec nodalQuadrature
  rw [Nat.mul_comm n m, sum_range_mul]
  refine sum_congr rfl fun iv hiv => ?_
  rw [mul_sum]
  refine sum_congr rfl fun k hk => ?_
  unfold GLL.gridWeights
  beta_reduce
  rw [GLL.segments_spec _ _ _ _ (mem_range.mp hiv) (mem_range.mp hk), ← nodal_coef hg]
  rw [show Basis.coefIdx n 1 iv 0 k = iv * n + k by unfold Basis.coefIdx; ring]
  ring

/-- **C49.** The integral functional of a domain, constructed or updated to it from any object, applied to any scalar spline on the nodes, is the sum of the
weighted nodal values, with the weights of intervals of equal length. -/
theorem C49_integral (dom : ℝ × ℝ) (n m : ℕ) (jp jw junk p w : Vec) (hpw : GLL.pointsWeights n jp jw = .ok (p, w)) :
    (∃ I, Integ.ofDomain dom n m jp jw junk = .ok I ∧ ∀ g, OnGrid g n m 1 p → I.lf.call g = .ok [nodalQuadrature g n m ((dom.2 - dom.1) / m) w]) ∧
    ∀ I0 : Integ, ∃ I, I0.update dom n m jp jw junk = .ok I ∧ ∀ g, OnGrid g n m 1 p → I.lf.call g = .ok [nodalQuadrature g n m ((dom.2 - dom.1) / m) w] := by
  obtain ⟨l, e, -, -, h⟩ := row_spec dom n m jp jw junk p w hpw
  exact ⟨⟨⟨l, n⟩, by unfold Integ.ofDomain; rw [e]; rfl, h⟩, fun I0 => ⟨{ I0 with lf := l }, by unfold Integ.update; rw [e]; rfl, h⟩⟩

theorem call_entry {f : Fn} {t : ℝ} {r : List ℝ} (h : f.call [t] = .ok [r]) {c : ℕ} (hc : c < f.codim) : vecOf r c = val f c t := by
  have hl : r.length = f.codim := (C10_shape f [t] [r] h).2 r (by simp)
  unfold Spec.val
  rw [h]
  simp [vecOf, hl, hc]

/-- The nodal values of an approximation. -/
theorem approx_nodal {f : Fn} {n m : ℕ} {jp jw junk p w : Vec} (hpw : GLL.pointsWeights n jp jw = .ok (p, w)) (hd : f.dom.1 ≤ f.dom.2) {g : GSpline}
    (hg : Colloc.approximate f n m jp jw junk = .ok g) {iv c k : ℕ} (hiv : iv < m) (hc : c < f.codim) (hk : k < n) :
    nodal g iv c k = val f c (gridPoint f.dom m iv (p k)) := by
  obtain ⟨h1, h2, h3, h4, h5, h6⟩ := (C47_approximate f n m jp jw junk p w hpw hd).2 g hg
  have hdim : g.basis.dim = n := by rw [h4]; simp [Basis.dim]
  obtain ⟨r, hr, hv⟩ := h6 iv hiv k hk
  have := Colloc.valueAt_ok h5 (iv := iv) (k := k) (by rw [h3]; simpa using hiv) (by omega)
  rw [hdim, hv] at this
  injection this with this
  rw [← call_entry hr hc, this]
  unfold nodalRow
  rw [vecOf_map_range (by omega)]

theorem approx_onGrid {f : Fn} {n m : ℕ} {jp jw junk p w : Vec} (hpw : GLL.pointsWeights n jp jw = .ok (p, w)) (hd : f.dom.1 ≤ f.dom.2) {g : GSpline}
    (hg : Colloc.approximate f n m jp jw junk = .ok g) : OnGrid g n m f.codim p := by
  obtain ⟨h1, h2, h3, h4, h5, -⟩ := (C47_approximate f n m jp jw junk p w hpw hd).2 g hg
  exact ⟨h4, h2, by rw [h3]; simp, h5, by rw [h1]; exact hd⟩

/-- **C49.** On the approximation of a scalar function the functional returns what `integral` returns for the function itself. -/
theorem C49_integral_of_function (f : Fn) (hf : f.codim = 1) (hd : f.dom.1 ≤ f.dom.2) (n m : ℕ) (jp jw junk p w : Vec)
    (hpw : GLL.pointsWeights n jp jw = .ok (p, w)) (g : GSpline) (hg : Colloc.approximate f n m jp jw junk = .ok g) :
    ∃ I v, Integ.ofSpline g jp jw junk = .ok I ∧ I.lf.call g = .ok [v] ∧ f.integral n m jp jw = .ok v := by
  obtain ⟨h1, h2, h3, h4, h5, h6⟩ := (C47_approximate f n m jp jw junk p w hpw hd).2 g hg
  have hon := approx_onGrid hpw hd hg
  have hdim : g.basis.dim = n := by rw [h4]; simp [Basis.dim]
  have hni : g.nIntervals = m := hon.len
  rw [hf] at hon
  obtain ⟨⟨I, e, h⟩, -⟩ := C49_integral g.dom n m jp jw junk p w hpw
  refine ⟨I, _, by unfold Integ.ofSpline; rw [hdim, hni]; exact e, h g hon, ?_⟩
  rw [(C43_integral f n m jp jw).2 hf]
  refine ⟨p, w, hpw, fun iv hiv k hk => ?_, ?_⟩
  · obtain ⟨r, hr, -⟩ := h6 iv hiv k hk
    have hl : r.length = 1 := by rw [(C10_shape f _ _ hr).2 r (by simp), hf]
    obtain ⟨x, rfl⟩ := List.length_eq_one_iff.mp hl
    exact ⟨x, hr⟩
  · unfold nodalQuadrature quadrature
    rw [h1]
    refine sum_congr rfl fun iv hiv => ?_
    congr 1
    refine sum_congr rfl fun k hk => ?_
    rw [approx_nodal hpw hd hg (mem_range.mp hiv) (by omega) (mem_range.mp hk)]

/-- **C49 is false for `Integral::update(lengths)`:** whatever the lengths, it throws, because it compares their number with the number of rows, which is one. -/
theorem C49_integral_update_lengths_false (dom : ℝ × ℝ) (n m : ℕ) (jp jw junk : Vec) (I : Integ) (hI : Integ.ofDomain dom n m jp jw junk = .ok I) (tau : List ℝ) :
    I.updateLengths tau jp jw junk = .error .invalidArgument := by
  cases hpw : GLL.pointsWeights n jp jw with
  | error e => unfold Integ.ofDomain Integ.row at hI; rw [hpw] at hI; cases hI
  | ok r =>
    have hn := points_two hpw
    obtain ⟨l, e, h1, -, -⟩ := row_spec dom n m jp jw junk r.1 r.2 hpw
    unfold Integ.ofDomain at hI
    rw [e] at hI
    cases hI
    unfold Integ.updateLengths
    rw [if_pos]
    show tau.length * n ≠ l.rows
    rw [h1]
    intro h
    have := Nat.eq_one_of_mul_eq_one_left h
    omega

/-- **C49 is false for `Integral(spline)` with unequal lengths:** the lengths are not used. The line from 0 to 6 on the second interval of `1, 3` has integral 9,
and the functional returns 6. -/
theorem C49_integral_lengths_false (jp jw junk : Vec) : ∃ p w, GLL.pointsWeights 2 jp jw = .ok (p, w) ∧ ∃ g : GSpline, OnGrid g 2 2 1 p ∧ Positive g ∧
    g.dom.2 - g.dom.1 = g.tau.sum ∧
    (∃ I, Integ.ofSpline g jp jw junk = .ok I ∧ I.lf.call g = .ok [6]) ∧
    ∑ iv ∈ range 2, vecOf g.tau iv / 2 * ∑ k ∈ range 2, w k * nodal g iv 0 k = 9 := by
  obtain ⟨p, w, hpw, hp0, hp1, hw0, hw1⟩ := two_points jp jw
  have hdim : (Basis.lagrange ((List.range 2).map p)).dim = 2 := by simp [Basis.dim]
  set g : GSpline := ⟨(0, 4), 1, .lagrange ((List.range 2).map p), [0, 0, 0, 6], [1, 3]⟩ with hg
  have hon : OnGrid g 2 2 1 p := ⟨rfl, rfl, rfl, by simp [Consistent, hg, hdim], by norm_num [hg]⟩
  refine ⟨p, w, hpw, g, hon, ⟨by simp [hg], by simp [hg]⟩, by norm_num [hg], ?_, ?_⟩
  · obtain ⟨⟨I, e, h⟩, -⟩ := C49_integral g.dom 2 2 jp jw junk p w hpw
    refine ⟨I, by unfold Integ.ofSpline; rw [show g.basis.dim = 2 from hdim]; exact e, ?_⟩
    rw [h g hon]
    norm_num [nodalQuadrature, nodal, hg, hdim, sum_range_succ, hw0, hw1, vecOf]
  · norm_num [nodal, hg, hdim, sum_range_succ, hw0, hw1, vecOf]

/-! ## TransposeLeftMultiplication -/

/-- The objects that constructors and assignments produce for splines with `codim` components on `m` intervals of `n` nodes, with the last spline assigned. -/
inductive TLMReach (codim n m : ℕ) (p jp jw junk : Vec) : TLM → Option GSpline → Prop
  | sizes : TLMReach codim n m p jp jw junk (TLM.ofSizes codim n m) none
  | spline (u : GSpline) (T : TLM) : OnGrid u n m codim p → TLM.ofSpline u = .ok T → TLMReach codim n m p jp jw junk T (some u)
  | assign (T T' : TLM) (u : GSpline) (o : Option GSpline) : TLMReach codim n m p jp jw junk T o → OnGrid u n m codim p → T.assign u = .ok T' →
      TLMReach codim n m p jp jw junk T' (some u)
  | assignFn (T T' : TLM) (f : Fn) (u : GSpline) (o : Option GSpline) : TLMReach codim n m p jp jw junk T o → f.dom.1 ≤ f.dom.2 →
      Colloc.approximate f n m jp jw junk = .ok u → T.assignFn f jp jw junk = .ok T' → TLMReach codim n m p jp jw junk T' (some u)

structure TInv (T : TLM) (cd n m : ℕ) (B : ℕ → ℕ → Mat) : Prop where
  nglp : T.nglp = n
  nInt : T.nInt = m
  codim : T.codim = cd
  rows : T.lf.rows = m * n * 1
  cols : T.lf.cols = m * n * cd
  mat : Nodewise n m 1 cd T.lf.mat B

/-- The matrix of node `k` of interval `iv` that belongs to the last assigned spline. -/
noncomputable def tBlock (codim n : ℕ) : Option GSpline → ℕ → ℕ → Mat
  | none => fun _ _ => Mat.zero
  | some u => fun iv k _ c => vecOf u.coeffs (Basis.coefIdx n codim iv c k)

theorem tinv_reach {codim n m : ℕ} {p jp jw junk w : Vec} (hpw : GLL.pointsWeights n jp jw = .ok (p, w)) {T : TLM} {o : Option GSpline}
    (h : TLMReach codim n m p jp jw junk T o) : TInv T codim n m (tBlock codim n o) := by
  have hon : ∀ u, OnGrid u n m codim p → u.coeffs.length = m * n * codim := by
    intro u hu
    have hdim : u.basis.dim = n := by rw [hu.basis]; simp [Basis.dim]
    rw [hu.cons, hu.len, hdim, hu.codim]
  induction h with
  | sizes => exact ⟨rfl, rfl, rfl, by simp [TLM.ofSizes, Nat.mul_comm], by simp [TLM.ofSizes, Nat.mul_comm], nodewise_zero _ _ _ _⟩
  | spline u T hu e =>
    have hdim : u.basis.dim = n := by rw [hu.basis]; simp [Basis.dim]
    have hni : u.nIntervals = m := hu.len
    obtain ⟨m1, e1, h1⟩ := fill_spec (n := n) (m := m) (C := codim) (v := u.coeffs) (hon u hu).ge (nodewise_zero n m 1 codim)
    unfold TLM.ofSpline at e
    rw [hdim, hni, hu.codim, e1] at e
    cases e
    exact ⟨rfl, rfl, rfl, by simp [Nat.mul_comm], by simp [Nat.mul_comm], h1⟩
  | assign T T' u o _ hu e ih =>
    obtain ⟨m1, e1, h1⟩ := fill_spec (n := n) (m := m) (C := codim) (v := u.coeffs) (hon u hu).ge ih.mat
    unfold TLM.assign at e
    rw [if_neg (by rw [ih.codim, hu.codim]; simp), ih.nglp, ih.nInt, ih.codim, e1] at e
    cases e
    exact ⟨by first | exact ih.nglp | rfl, by first | exact ih.nInt | rfl, by first | exact ih.codim | rfl, ih.rows, ih.cols, h1⟩
  | assignFn T T' f u o _ hd ha e ih =>
    have hu := approx_onGrid hpw hd ha
    unfold TLM.assignFn at e
    by_cases hc : f.codim ≠ T.codim
    · rw [if_pos hc] at e; cases e
    · push Not at hc
      rw [hc, ih.codim] at hu
      obtain ⟨m1, e1, h1⟩ := fill_spec (n := n) (m := m) (C := codim) (v := u.coeffs) (hon u hu).ge ih.mat
      rw [if_neg (not_not.mpr hc), ih.nglp, ih.nInt, ih.codim, ha, GLL.ok_bind, e1] at e
      cases e
      exact ⟨by first | exact ih.nglp | rfl, by first | exact ih.nInt | rfl, by first | exact ih.codim | rfl, ih.rows, ih.cols, h1⟩

/-- **C49.** After any sequence of assignments of splines and functions, whatever was assigned before, the functional maps every spline with the same sizes to
the scalar spline whose value at each node is the scalar product with the last assigned one. -/
theorem C49_transpose (codim n m : ℕ) (hm : 0 < m) (jp jw junk p w : Vec) (hpw : GLL.pointsWeights n jp jw = .ok (p, w)) (T : TLM) (u : GSpline)
    (h : TLMReach codim n m p jp jw junk T (some u)) (g : GSpline) (hg : OnGrid g n m codim p) :
    ∃ r, T.lf.actOn g jp jw = .ok r ∧ OnGrid r n m 1 p ∧ r.dom = g.dom ∧ r.tau = g.tau ∧
      ∀ iv < m, ∀ k < n, nodal r iv 0 k = ∑ c ∈ range codim, nodal u iv c k * nodal g iv c k := by
  have hn := points_two hpw
  have ht := tinv_reach hpw h
  obtain ⟨r, h1, h2, h3, h4, h5⟩ := actOn_nodewise hpw (by omega) hm ht.rows ht.cols ht.mat hg
  have hu : OnGrid u n m codim p := by
    cases h with
    | spline _ _ hu _ => exact hu
    | assign _ _ _ _ _ hu _ => exact hu
    | assignFn T0 _ f _ _ hr hd ha e =>
      have := approx_onGrid hpw hd ha
      have ht0 := tinv_reach hpw hr
      unfold TLM.assignFn at e
      by_cases hc : f.codim ≠ T0.codim
      · rw [if_pos hc] at e; cases e
      · push Not at hc
        rw [hc, ht0.codim] at this
        exact this
  refine ⟨r, h1, h2, h3, h4, fun iv hiv k hk => ?_⟩
  rw [h5 iv hiv 0 (by norm_num) k hk]
  refine sum_congr rfl fun c _ => ?_
  rw [← nodal_coef hu]; rfl

/-- **C49.** The constructors and assignments succeed on splines with the right sizes; the wrong number of components is refused. -/
theorem C49_transpose_assign (codim n m : ℕ) (jp jw junk p w : Vec) (hpw : GLL.pointsWeights n jp jw = .ok (p, w)) (T : TLM) (o : Option GSpline)
    (h : TLMReach codim n m p jp jw junk T o) (u : GSpline) :
    (OnGrid u n m codim p → (∃ T', TLM.ofSpline u = .ok T') ∧ ∃ T', T.assign u = .ok T') ∧ (u.codim ≠ codim → T.assign u = .error .invalidArgument) := by
  have ht := tinv_reach hpw h
  refine ⟨fun hu => ?_, fun hc => by unfold TLM.assign; rw [ht.codim, if_pos hc]⟩
  have hdim : u.basis.dim = n := by rw [hu.basis]; simp [Basis.dim]
  have hni : u.nIntervals = m := hu.len
  have hl : u.coeffs.length = m * n * codim := by rw [hu.cons, hu.len, hdim, hu.codim]
  constructor
  · obtain ⟨m1, e1, -⟩ := fill_spec (n := n) (m := m) (C := codim) (v := u.coeffs) hl.ge (nodewise_zero n m 1 codim)
    exact ⟨_, by unfold TLM.ofSpline; rw [hdim, hni, hu.codim, e1]; rfl⟩
  · obtain ⟨m1, e1, -⟩ := fill_spec (n := n) (m := m) (C := codim) (v := u.coeffs) hl.ge ht.mat
    exact ⟨_, by unfold TLM.assign; rw [if_neg (by rw [ht.codim, hu.codim]; simp), ht.nglp, ht.nInt, ht.codim, e1]; rfl⟩

/-! ## MatrixLeftMultiplication -/

/-- What `update(matrix)` leaves at every node: in the first rows, as many as the matrix has columns, those of the transposed matrix; below them what was there
before. -/
def afterAll (domDim n m codomDim : ℕ) (M : LF) (o : Option (List LF)) : List LF :=
  (List.range (n * m)).map fun i => ⟨codomDim, domDim, fun row col => if row < domDim then M.mat col row else match o with
    | none => 0
    | some Ms => (Ms.getD i ⟨0, 0, Mat.zero⟩).mat row col⟩

/-- The objects that the constructor and the updates produce, with the matrices of the nodes after the last update. -/
inductive MLMReach (domDim n m codomDim : ℕ) : MLM → Option (List LF) → Prop
  | sizes : MLMReach domDim n m codomDim (MLM.ofSizes domDim n m codomDim) none
  | each (L L' : MLM) (Ms : List LF) (o : Option (List LF)) : MLMReach domDim n m codomDim L o → L.updateEach Ms = .ok L' →
      MLMReach domDim n m codomDim L' (some Ms)
  | all (L L' : MLM) (M : LF) (o : Option (List LF)) : MLMReach domDim n m codomDim L o → L.updateAll M = .ok L' →
      MLMReach domDim n m codomDim L' (some (afterAll domDim n m codomDim M o))

structure MInv (L : MLM) (C n m R : ℕ) (B : ℕ → ℕ → Mat) : Prop where
  nglp : L.nglp = n
  nInt : L.nInt = m
  colsM : L.cols = C
  rowsM : L.rows = R
  rows : L.lf.rows = m * n * R
  cols : L.lf.cols = m * n * C
  mat : Nodewise n m R C L.lf.mat B

/-- The matrix of node `k` of interval `iv`. -/
def mBlock (n : ℕ) : Option (List LF) → ℕ → ℕ → Mat
  | none => fun _ _ => Mat.zero
  | some Ms => fun iv k => (Ms.getD (iv * n + k) ⟨0, 0, Mat.zero⟩).mat

theorem forLoopM_congr {σ : Type} {N : ℕ} {f g : ℕ → σ → Res σ} (h : ∀ i < N, ∀ s, f i s = g i s) (s : σ) : forLoopM 0 N f s = forLoopM 0 N g s := by
  induction N with
  | zero => rfl
  | succ N ih =>
    rw [Colloc.forLoopM_succ, Colloc.forLoopM_succ, ih fun i hi => h i (by omega)]
    congr 1
    funext s
    exact h N (by omega) s

theorem loop_ub {σ : Type} {body : ℕ → σ → Res σ} {m iv : ℕ} (hiv : iv < m) (h : ∀ st, body iv st = .error .ub) (hall : ∀ i st, (∃ s', body i st = .ok s') ∨ body i st = .error .ub)
    (s : σ) : forLoopM 0 m body s = .error .ub := by
  obtain ⟨e, he⟩ := loop_error hiv (fun st => ⟨_, h st⟩) s
  have : ∀ j s, (∃ s', forLoopM 0 j body s = .ok s') ∨ forLoopM 0 j body s = .error .ub := by
    intro j
    induction j with
    | zero => intro s; exact .inl ⟨s, rfl⟩
    | succ j ih =>
      intro s
      rw [Colloc.forLoopM_succ]
      rcases ih s with ⟨s', e⟩ | e
      · rw [e, GLL.ok_bind]; exact hall j s'
      · rw [e]; exact .inr rfl
  rcases this m s with ⟨s', e'⟩ | e'
  · rw [e'] at he; cases he
  · exact e'

theorem loop_ub_all {σ : Type} {body : ℕ → σ → Res σ} (hall : ∀ i st, (∃ s', body i st = .ok s') ∨ body i st = .error .ub) (m : ℕ)
    (s : σ) : (∃ s', forLoopM 0 m body s = .ok s') ∨ forLoopM 0 m body s = .error .ub := by
  induction m generalizing s with
  | zero => exact .inl ⟨s, rfl⟩
  | succ j ih =>
    rw [Colloc.forLoopM_succ]
    rcases ih s with ⟨s', e⟩ | e
    · rw [e, GLL.ok_bind]; exact hall j s'
    · rw [e]; exact .inr rfl

theorem updateAll_wide {L : MLM} {C n m R : ℕ} {B : ℕ → ℕ → Mat} (ht : MInv L C n m R B) (hlt : R < C) (hpos : 0 < m * n) {M : LF}
    (hr : M.rows = R) (hc : M.cols = C) : L.updateAll M = .error .ub := by
  unfold MLM.updateAll
  rw [if_neg (by rw [ht.rowsM, ht.colsM]; omega), ht.nInt, ht.nglp, ht.colsM]
  have leaf : ∀ {P : Prop} [Decidable P] (v : Mat), (∃ s', (if P then (.error .ub : Res Mat) else .ok v) = .ok s') ∨ (if P then (.error .ub : Res Mat) else .ok v) = .error .ub := by
    intro P _ v
    split_ifs
    · exact .inr rfl
    · exact .inl ⟨_, rfl⟩
  rw [loop_ub (iv := 0) hpos (fun st => loop_ub (iv := R) hlt (fun st => loop_ub (iv := 0) (by omega) (fun st => if_pos (.inr (.inr (.inl hr.le)))) (fun i st => leaf _) st)
    (fun i st => loop_ub_all (fun i st => leaf _) _ _) st) (fun i st => loop_ub_all (fun i st => loop_ub_all (fun i st => leaf _) _ _) _ _)]
  rfl

theorem mBlock_afterAll {C n m R : ℕ} {M : LF} {o : Option (List LF)} {iv k : ℕ} (hiv : iv < m) (hk : k < n) (row col : ℕ) :
    mBlock n (some (afterAll C n m R M o)) iv k row col = if row < C then M.mat col row else mBlock n o iv k row col := by
  have hi : iv * n + k < n * m := by rw [Nat.mul_comm iv]; exact col_lt hiv hk
  change ((afterAll C n m R M o).getD (iv * n + k) ⟨0, 0, Mat.zero⟩).mat row col = _
  unfold afterAll
  rw [List.getD_eq_getElem?_getD, List.getElem?_map, List.getElem?_range hi]
  simp only [Option.map_some, Option.getD_some]
  cases o <;> rfl

theorem updateAll_minv {L L' : MLM} {C n m R : ℕ} {o : Option (List LF)} (ht : MInv L C n m R (mBlock n o)) {M : LF} (e : L.updateAll M = .ok L') :
    MInv L' C n m R (mBlock n (some (afterAll C n m R M o))) := by
  have hs : M.rows = R ∧ M.cols = C := by
    by_contra hcon
    unfold MLM.updateAll at e
    rw [if_pos (by rw [ht.rowsM, ht.colsM]; omega)] at e
    cases e
  by_cases hCR : C ≤ R
  · obtain ⟨m1, e1, h1⟩ := updateAll_spec ht.nglp ht.nInt ht.colsM ht.rowsM ht.rows ht.cols hCR hs.1 hs.2 ht.mat
    rw [e1] at e
    cases e
    refine ⟨ht.nglp, ht.nInt, ht.colsM, ht.rowsM, ht.rows, ht.cols, ?_⟩
    intro iv hiv row hrow k hk iv' hiv' c hc k' hk'
    rw [mBlock_afterAll hiv hk]
    exact h1 iv hiv row hrow k hk iv' hiv' c hc k' hk'
  · have h0 : m * n = 0 := by
      by_contra hne
      rw [updateAll_wide ht (by omega) (Nat.pos_of_ne_zero hne) hs.1 hs.2] at e
      cases e
    unfold MLM.updateAll at e
    rw [if_neg (by rw [ht.rowsM, ht.colsM]; omega), show L.nInt * L.nglp = 0 by rw [ht.nInt, ht.nglp, h0]] at e
    cases e
    refine ⟨ht.nglp, ht.nInt, ht.colsM, ht.rowsM, ht.rows, ht.cols, ?_⟩
    intro iv hiv row hrow k hk
    rcases Nat.mul_eq_zero.mp h0 with h | h <;> omega

theorem minv_reach {C n m R : ℕ} {L : MLM} {o : Option (List LF)} (h : MLMReach C n m R L o) : MInv L C n m R (mBlock n o) := by
  have each : ∀ {L L' : MLM} {Ms : List LF} {B : ℕ → ℕ → Mat}, MInv L C n m R B → L.updateEach Ms = .ok L' → MInv L' C n m R (mBlock n (some Ms)) := by
    intro L L' Ms B hL e
    by_cases hl : Ms.length = L.nglp * L.nInt
    · by_cases hs : ∀ M ∈ Ms, M.cols = L.cols ∧ M.rows = L.rows
      · obtain ⟨m1, e1, h1⟩ := updateEach_spec hl hs (by rw [hL.nglp, hL.nInt, hL.colsM, hL.rowsM]; exact hL.mat)
        rw [e1] at e
        cases e
        rw [hL.nglp, hL.nInt, hL.colsM, hL.rowsM] at h1
        exact ⟨hL.nglp, hL.nInt, hL.colsM, hL.rowsM, hL.rows, hL.cols, h1⟩
      · push Not at hs
        obtain ⟨M, hM, hs⟩ := hs
        obtain ⟨i, hi, rfl⟩ := List.getElem_of_mem hM
        unfold MLM.updateEach at e
        rw [if_neg (not_not.mpr hl)] at e
        obtain ⟨er, he⟩ := loop_error (body := fun i m => if (Ms.getD i ⟨0, 0, Mat.zero⟩).cols ≠ L.cols ∨ (Ms.getD i ⟨0, 0, Mat.zero⟩).rows ≠ L.rows then .error .runtimeError
          else .ok (MLM.writeNode L.nglp L.rows L.cols i (Ms.getD i ⟨0, 0, Mat.zero⟩).mat m)) hi (fun st => by
            refine ⟨.runtimeError, if_pos ?_⟩
            rw [List.getD_eq_getElem?_getD, List.getElem?_eq_getElem hi]
            by_cases hcc : Ms[i].cols = L.cols
            · exact .inr (hs hcc)
            · exact .inl hcc) L.lf.mat
        dsimp only at e he
        rw [he] at e
        cases e
    · unfold MLM.updateEach at e
      rw [if_pos hl] at e; cases e
  induction h with
  | sizes => exact ⟨rfl, rfl, rfl, rfl, by simp [MLM.ofSizes, Nat.mul_comm], by simp [MLM.ofSizes, Nat.mul_comm], nodewise_zero _ _ _ _⟩
  | each L L' Ms o _ e ih => exact each ih e
  | all L L' M o _ e ih => exact updateAll_minv ih e

/-- **C49.** After any sequence of updates the functional maps every spline with the right sizes to the spline whose vector at each node is the matrix that the
last update gave for this node times the vector of the argument. -/
theorem C49_matrix (C n m R : ℕ) (hm : 0 < m) (jp jw p w : Vec) (hpw : GLL.pointsWeights n jp jw = .ok (p, w)) (L : MLM) (Ms : List LF)
    (h : MLMReach C n m R L (some Ms)) (g : GSpline) (hg : OnGrid g n m C p) :
    ∃ r, L.lf.actOn g jp jw = .ok r ∧ OnGrid r n m R p ∧ r.dom = g.dom ∧ r.tau = g.tau ∧ ∀ iv < m, ∀ row < R, ∀ k < n,
      nodal r iv row k = ∑ c ∈ range C, (Ms.getD (iv * n + k) ⟨0, 0, Mat.zero⟩).mat row c * nodal g iv c k := by
  have hn := points_two hpw
  have ht := minv_reach h
  exact actOn_nodewise hpw (by omega) hm ht.rows ht.cols ht.mat hg

/-- **C49.** An update with one matrix per node succeeds exactly if there are as many matrices as nodes, all with the declared size. -/
theorem C49_matrix_update (C n m R : ℕ) (L : MLM) (o : Option (List LF)) (h : MLMReach C n m R L o) (Ms : List LF) :
    ((∃ L', L.updateEach Ms = .ok L') ↔ Ms.length = n * m ∧ ∀ M ∈ Ms, M.cols = C ∧ M.rows = R) ∧
    ((¬ ∃ L', L.updateEach Ms = .ok L') → L.updateEach Ms = .error .runtimeError) := by
  have ht := minv_reach h
  have good : (Ms.length = n * m ∧ ∀ M ∈ Ms, M.cols = C ∧ M.rows = R) → ∃ L', L.updateEach Ms = .ok L' := by
    rintro ⟨h1, h2⟩
    obtain ⟨m1, e1, -⟩ := updateEach_spec (L := L) (Ms := Ms) (B0 := mBlock n o) (by rw [ht.nglp, ht.nInt]; exact h1) (by rw [ht.colsM, ht.rowsM]; exact h2)
      (by rw [ht.nglp, ht.nInt, ht.colsM, ht.rowsM]; exact ht.mat)
    exact ⟨_, e1⟩
  have bad : ¬ (Ms.length = n * m ∧ ∀ M ∈ Ms, M.cols = C ∧ M.rows = R) → L.updateEach Ms = .error .runtimeError := by
    intro hb
    unfold MLM.updateEach
    by_cases hl : Ms.length = L.nglp * L.nInt
    · rw [if_neg (not_not.mpr hl)]
      have hs : ¬ ∀ M ∈ Ms, M.cols = C ∧ M.rows = R := fun hs => hb ⟨by rw [hl, ht.nglp, ht.nInt], hs⟩
      push Not at hs
      obtain ⟨M, hM, hs⟩ := hs
      obtain ⟨i, hi, rfl⟩ := List.getElem_of_mem hM
      have key : ∀ N ≤ Ms.length, i < N → ∀ s, forLoopM 0 N (fun i m =>
          let M := Ms.getD i ⟨0, 0, Mat.zero⟩
          if M.cols ≠ L.cols ∨ M.rows ≠ L.rows then (.error .runtimeError : Res Mat)
          else .ok (MLM.writeNode L.nglp L.rows L.cols i M.mat m)) s = .error .runtimeError := by
        intro N
        induction N with
        | zero => intro _ h; omega
        | succ N ih =>
          intro hN hiN s
          rw [Colloc.forLoopM_succ]
          rcases Nat.lt_succ_iff_lt_or_eq.mp hiN with h1 | h1
          · rw [ih (by omega) h1]; rfl
          · subst h1
            have hbad : (Ms.getD i ⟨0, 0, Mat.zero⟩).cols ≠ L.cols ∨ (Ms.getD i ⟨0, 0, Mat.zero⟩).rows ≠ L.rows := by
              rw [List.getD_eq_getElem?_getD, List.getElem?_eq_getElem hi, ht.colsM, ht.rowsM]
              by_cases hcc : Ms[i].cols = C
              · exact .inr (hs hcc)
              · exact .inl hcc
            have hpre : ∀ j ≤ i, ∀ s, (∃ s', forLoopM 0 j (fun i m =>
                let M := Ms.getD i ⟨0, 0, Mat.zero⟩
                if M.cols ≠ L.cols ∨ M.rows ≠ L.rows then (.error .runtimeError : Res Mat)
                else .ok (MLM.writeNode L.nglp L.rows L.cols i M.mat m)) s = .ok s') ∨ forLoopM 0 j (fun i m =>
                let M := Ms.getD i ⟨0, 0, Mat.zero⟩
                if M.cols ≠ L.cols ∨ M.rows ≠ L.rows then (.error .runtimeError : Res Mat)
                else .ok (MLM.writeNode L.nglp L.rows L.cols i M.mat m)) s = .error .runtimeError := by
              intro j
              induction j with
              | zero => intro _ s; exact .inl ⟨s, rfl⟩
              | succ j ihj =>
                intro hj s
                rw [Colloc.forLoopM_succ]
                rcases ihj (by omega) s with ⟨s', e⟩ | e
                · rw [e, GLL.ok_bind]
                  dsimp only
                  split_ifs
                  · exact .inr rfl
                  · exact .inl ⟨_, rfl⟩
                · rw [e]; exact .inr rfl
            rcases hpre i le_rfl s with ⟨s', e⟩ | e
            · rw [e, GLL.ok_bind]
              exact if_pos hbad
            · rw [e]; rfl
      rw [key _ le_rfl hi]; rfl
    · rw [if_pos hl]
  refine ⟨⟨fun ⟨L', e⟩ => ?_, good⟩, fun hno => bad fun hg => hno (good hg)⟩
  by_contra hb
  rw [bad hb] at e
  cases e

/-- **C49 is false for `update(matrix)`:** with as many rows as columns or more, the functional multiplies by the transposed matrix in the first rows, as many as there
are columns, and keeps in the other rows what the updates before have stored (zero after the constructor). It multiplies by the matrix itself if that is square and symmetric. -/
theorem C49_matrix_all_partial (C n m R : ℕ) (hCR : C ≤ R) (hm : 0 < m) (jp jw p w : Vec) (hpw : GLL.pointsWeights n jp jw = .ok (p, w)) (L : MLM)
    (o : Option (List LF)) (h : MLMReach C n m R L o) (M : LF) (hr : M.rows = R) (hc : M.cols = C) :
    ∃ L', L.updateAll M = .ok L' ∧ ∀ g, OnGrid g n m C p → ∃ r, L'.lf.actOn g jp jw = .ok r ∧ OnGrid r n m R p ∧
      (∀ iv < m, ∀ row < C, ∀ k < n, nodal r iv row k = ∑ c ∈ range C, M.mat c row * nodal g iv c k) ∧
      (∀ iv < m, ∀ row < R, C ≤ row → ∀ k < n, nodal r iv row k = ∑ c ∈ range C, (match o with
          | none => 0
          | some Ms => (Ms.getD (iv * n + k) ⟨0, 0, Mat.zero⟩).mat row c) * nodal g iv c k) ∧
      (C = R → (∀ i < C, ∀ j < C, M.mat i j = M.mat j i) → ∀ iv < m, ∀ row < C, ∀ k < n, nodal r iv row k = ∑ c ∈ range C, M.mat row c * nodal g iv c k) := by
  have ht := minv_reach h
  obtain ⟨m1, e1, -⟩ := updateAll_spec ht.nglp ht.nInt ht.colsM ht.rowsM ht.rows ht.cols hCR hr hc ht.mat
  refine ⟨_, e1, fun g hg => ?_⟩
  have ht' := updateAll_minv ht e1
  obtain ⟨r, h1, h2, -, -, h5⟩ := actOn_nodewise hpw (by have := points_two hpw; omega) hm ht'.rows ht'.cols ht'.mat hg
  have key : ∀ iv < m, ∀ row < C, ∀ k < n, nodal r iv row k = ∑ c ∈ range C, M.mat c row * nodal g iv c k := by
    intro iv hiv row hrow k hk
    rw [h5 iv hiv row (by omega) k hk]
    refine sum_congr rfl fun c _ => ?_
    rw [mBlock_afterAll hiv hk, if_pos hrow]
  refine ⟨r, h1, h2, key, fun iv hiv row hrow hge k hk => ?_, fun _ hs iv hiv row hrow k hk => ?_⟩
  · rw [h5 iv hiv row hrow k hk]
    refine sum_congr rfl fun c _ => ?_
    rw [mBlock_afterAll hiv hk, if_neg (by omega)]
    cases o <;> rfl
  · rw [key iv hiv row hrow k hk]
    exact sum_congr rfl fun c hc => by rw [hs c (mem_range.mp hc) row hrow]

/-- **C49 is false for `update(matrix)` with more rows than columns:** on a new functional the other rows of the result are zero, whatever the matrix. -/
theorem C49_matrix_all_tall_false (C n m R : ℕ) (hlt : C < R) (hm : 0 < m) (jp jw p w : Vec) (hpw : GLL.pointsWeights n jp jw = .ok (p, w)) (M : LF)
    (hr : M.rows = R) (hc : M.cols = C) :
    ∃ L', (MLM.ofSizes C n m R).updateAll M = .ok L' ∧ ∀ g, OnGrid g n m C p → ∃ r, L'.lf.actOn g jp jw = .ok r ∧ OnGrid r n m R p ∧
      ∀ iv < m, ∀ row < R, C ≤ row → ∀ k < n, nodal r iv row k = 0 := by
  obtain ⟨L', e, h⟩ := C49_matrix_all_partial C n m R hlt.le hm jp jw p w hpw _ none .sizes M hr hc
  refine ⟨L', e, fun g hg => ?_⟩
  obtain ⟨r, h1, h2, -, h3, -⟩ := h g hg
  exact ⟨r, h1, h2, fun iv hiv row hrow hge k hk => by rw [h3 iv hiv row hrow hge k hk]; simp⟩

/-- **C49 is false for `update(matrix)` with fewer rows than columns:** it reads beyond the matrix. -/
theorem C49_matrix_all_wide_false (C n m R : ℕ) (hlt : R < C) (hpos : 0 < m * n) (L : MLM) (o : Option (List LF)) (h : MLMReach C n m R L o) (M : LF)
    (hr : M.rows = R) (hc : M.cols = C) : L.updateAll M = .error .ub :=
  updateAll_wide (minv_reach h) hlt hpos hr hc

/-- Two components, two nodes, one interval: the matrix that maps `(x, y)` to `(y, 0)` is applied as the one that maps it to `(0, x)`. -/
theorem C49_matrix_all_false (jp jw : Vec) : ∃ p w L' r, GLL.pointsWeights 2 jp jw = .ok (p, w) ∧ ∃ g : GSpline, OnGrid g 2 1 2 p ∧
    (MLM.ofSizes 2 2 1 2).updateAll ⟨2, 2, fun i j => if i = 0 ∧ j = 1 then 1 else 0⟩ = .ok L' ∧ L'.lf.actOn g jp jw = .ok r ∧
    nodal g 0 0 0 = 3 ∧ nodal g 0 1 0 = 7 ∧ nodal r 0 0 0 = 0 ∧ nodal r 0 1 0 = 3 := by
  obtain ⟨p, w, hpw, -⟩ := two_points jp jw
  have hdim : (Basis.lagrange ((List.range 2).map p)).dim = 2 := by simp [Basis.dim]
  set g : GSpline := ⟨(0, 1), 2, .lagrange ((List.range 2).map p), [3, 4, 7, 8], [1]⟩ with hg
  have hon : OnGrid g 2 1 2 p := ⟨rfl, rfl, rfl, by simp [Consistent, hg, hdim], by norm_num [hg]⟩
  obtain ⟨L', e, h⟩ := C49_matrix_all_partial 2 2 1 2 le_rfl (by norm_num) jp jw p w hpw _ none .sizes ⟨2, 2, fun i j => if i = 0 ∧ j = 1 then 1 else 0⟩ rfl rfl
  obtain ⟨r, e1, -, e2, -, -⟩ := h g hon
  have q0 := e2 0 (by norm_num) 0 (by norm_num) 0 (by norm_num)
  have q1 := e2 0 (by norm_num) 1 (by norm_num) 0 (by norm_num)
  have n0 : nodal g 0 0 0 = 3 := by simp [nodal, hg, vecOf]
  have n1 : nodal g 0 1 0 = 7 := by simp [nodal, hg, vecOf, hdim]
  refine ⟨p, w, L', r, hpw, g, hon, e, e1, n0, n1, ?_, ?_⟩
  · rw [q0]; simp
  · rw [q1]; simp [n0]

/-! ## Examples -/

/-- Lengths `5, 5`, then `7, 7`, then `1, 2`: the functional is the derivative of splines with lengths `1, 2`. -/
example (jp jw : Vec) : ∃ p w d0 d, GLL.pointsWeights 2 jp jw = .ok (p, w) ∧ Deriv.ofLengths 1 2 [5, 5] 1 jp jw = .ok d0 ∧
    DReq.runAll d0 [.const 7, .lengths [1, 2]] = .ok d ∧
    d.lf.actOn ⟨(0, 3), 1, .lagrange ((List.range 2).map p), [1, 2, 2, 5], [1, 2]⟩ jp jw
      = GSpline.derivate ⟨(0, 3), 1, .lagrange ((List.range 2).map p), [1, 2, 2, 5], [1, 2]⟩ 1 := by
  obtain ⟨p, w, hpw, -⟩ := two_points jp jw
  obtain ⟨d0, d, h1, h2, h3⟩ := C49_derivative 1 2 1 [5, 5] jp jw p w hpw (by norm_num) [.const 7, .lengths [1, 2]] (by simp [DReq.lens])
  exact ⟨p, w, d0, d, hpw, h1, h2, h3 _ ⟨rfl, rfl, rfl, by simp [Consistent, Basis.dim], by norm_num⟩ (by simp) rfl⟩

/-- The scalar product with `(3, 7)` at the first node, after something else was assigned. -/
example (jp jw : Vec) : ∃ p w T T' r, GLL.pointsWeights 2 jp jw = .ok (p, w) ∧
    TLM.ofSpline ⟨(0, 1), 2, .lagrange ((List.range 2).map p), [9, 9, 9, 9], [1]⟩ = .ok T ∧
    T.assign ⟨(0, 1), 2, .lagrange ((List.range 2).map p), [3, 4, 7, 8], [1]⟩ = .ok T' ∧
    T'.lf.actOn ⟨(0, 1), 2, .lagrange ((List.range 2).map p), [1, 1, 10, 1], [1]⟩ jp jw = .ok r ∧ nodal r 0 0 0 = 73 := by
  obtain ⟨p, w, hpw, -⟩ := two_points jp jw
  have hdim : (Basis.lagrange ((List.range 2).map p)).dim = 2 := by simp [Basis.dim]
  have grid : ∀ a b c d : ℝ, OnGrid (⟨(0, 1), 2, .lagrange ((List.range 2).map p), [a, b, c, d], [1]⟩ : GSpline) 2 1 2 p :=
    fun a b c d => ⟨rfl, rfl, rfl, by simp [Consistent, hdim], by norm_num⟩
  obtain ⟨⟨T, e⟩, -⟩ := (C49_transpose_assign 2 2 1 jp jw (fun _ => 0) p w hpw _ _ .sizes _).1 (grid 9 9 9 9)
  have hr : TLMReach 2 2 1 p jp jw (fun _ => 0) T _ := .spline _ T (grid 9 9 9 9) e
  obtain ⟨-, T', e'⟩ := (C49_transpose_assign 2 2 1 jp jw (fun _ => 0) p w hpw _ _ hr _).1 (grid 3 4 7 8)
  obtain ⟨r, h1, -, -, -, h5⟩ := C49_transpose 2 2 1 (by norm_num) jp jw (fun _ => 0) p w hpw T' _ (.assign T T' _ _ hr (grid 3 4 7 8) e') _ (grid 1 1 10 1)
  refine ⟨p, w, T, T', r, hpw, e, e', h1, ?_⟩
  rw [h5 0 (by norm_num) 0 (by norm_num)]
  norm_num [sum_range_succ, nodal, hdim, vecOf]

/-- A different matrix at every node: two components to one. -/
example (jp jw : Vec) : ∃ p w L r, GLL.pointsWeights 2 jp jw = .ok (p, w) ∧
    (MLM.ofSizes 2 2 1 1).updateEach [⟨1, 2, fun _ j => (j : ℝ) + 1⟩, ⟨1, 2, fun _ _ => 5⟩] = .ok L ∧
    L.lf.actOn ⟨(0, 1), 2, .lagrange ((List.range 2).map p), [3, 4, 7, 8], [1]⟩ jp jw = .ok r ∧ nodal r 0 0 0 = 17 ∧ nodal r 0 0 1 = 60 := by
  obtain ⟨p, w, hpw, -⟩ := two_points jp jw
  have hdim : (Basis.lagrange ((List.range 2).map p)).dim = 2 := by simp [Basis.dim]
  obtain ⟨L, e⟩ := (C49_matrix_update 2 2 1 1 _ _ .sizes [⟨1, 2, fun _ j => (j : ℝ) + 1⟩, ⟨1, 2, fun _ _ => 5⟩]).1.mpr ⟨rfl, by simp⟩
  obtain ⟨r, h1, -, -, -, h5⟩ := C49_matrix 2 2 1 1 (by norm_num) jp jw p w hpw L _ (.each _ L _ _ .sizes e)
    ⟨(0, 1), 2, .lagrange ((List.range 2).map p), [3, 4, 7, 8], [1]⟩ ⟨rfl, rfl, rfl, by simp [Consistent, hdim], by norm_num⟩
  refine ⟨p, w, L, r, hpw, e, h1, ?_, ?_⟩
  · rw [h5 0 (by norm_num) 0 (by norm_num) 0 (by norm_num)]
    norm_num [sum_range_succ, nodal, hdim, vecOf]
  · rw [h5 0 (by norm_num) 0 (by norm_num) 1 (by norm_num)]
    norm_num [sum_range_succ, nodal, hdim, vecOf]

end GSplines.Props
