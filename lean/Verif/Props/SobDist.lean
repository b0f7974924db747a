import Verif.Props.Functionals
import Mathlib.Analysis.Calculus.Deriv.Pow
import Mathlib.Analysis.Calculus.Deriv.Add
import Mathlib.Analysis.Calculus.Deriv.Mul

/-!
# C50: the Sobolev distance to a function; C59: arithmetic of functionals
-/

namespace GSplines.Props

open GSplines Spec Finset Fn Colloc

/-! ## C59 -/

theorem mulVec_mul (n m : ℕ) (A B : Mat) (v : Vec) (i : ℕ) : (Mat.mul m A B).mulVec n v i = A.mulVec m (B.mulVec n v) i := by
  unfold Mat.mulVec Mat.mul
  simp only [sum_mul, mul_sum]
  rw [sum_comm]
  exact sum_congr rfl fun j _ => sum_congr rfl fun k _ => by ring

/-- **C59.** The product of two functionals exists exactly if their sizes fit, and applied to any coefficients it is one applied after the other. -/
theorem C59_compose (A B : LF) (v : List ℝ) (hv : v.length = B.cols) :
    ((∃ C, A.comp B = .ok C) ↔ A.cols = B.rows) ∧ ∀ C, A.comp B = .ok C → C.apply v = (B.apply v).bind A.apply := by
  constructor
  · constructor
    · rintro ⟨C, h⟩
      by_contra hn
      unfold LF.comp at h
      rw [if_pos hn] at h; cases h
    · intro h
      exact ⟨_, if_neg (not_not.mpr h)⟩
  · intro C h
    unfold LF.comp at h
    split_ifs at h with hn
    push Not at hn
    cases h
    rw [apply_ok (by exact hv), apply_ok (by exact hv)]
    show _ = A.apply _
    rw [apply_ok (by simp [hn])]
    dsimp only
    refine congrArg Except.ok (List.map_congr_left fun i _ => ?_)
    rw [mulVec_mul]
    unfold Mat.mulVec
    refine sum_congr rfl fun j hj => ?_
    rw [vecOf_map_range (by rw [← hn]; exact mem_range.mp hj)]

/-- **C59.** Sums, differences, negation and scalar multiples of functionals act as such. -/
theorem C59_linear (A B : LF) (x : ℝ) (v ya : List ℝ) (ha : A.apply v = .ok ya) :
    A.neg.apply v = .ok (ya.map fun y => -y) ∧ (A.smul x).apply v = .ok (ya.map fun y => x * y) ∧
    ((∃ C, A.add B = .ok C) ↔ A.rows = B.rows ∧ A.cols = B.cols) ∧ ((∃ C, A.sub B = .ok C) ↔ A.rows = B.rows ∧ A.cols = B.cols) ∧
    (∀ C, A.add B = .ok C → ∃ yb, B.apply v = .ok yb ∧ C.apply v = .ok (List.zipWith (· + ·) ya yb)) ∧
    (∀ C, A.sub B = .ok C → ∃ yb, B.apply v = .ok yb ∧ C.apply v = .ok (List.zipWith (· - ·) ya yb)) := by
  have hv : v.length = A.cols := by
    by_contra hn
    unfold LF.apply at ha; rw [if_pos hn] at ha; cases ha
  rw [apply_ok hv] at ha
  cases ha
  refine ⟨?_, ?_, ?_, ?_, fun C h => ?_, fun C h => ?_⟩
  · rw [apply_ok (by exact hv), List.map_map]
    refine congrArg Except.ok (List.map_congr_left fun i _ => ?_)
    simp [Mat.mulVec, LF.neg]
  · rw [apply_ok (by exact hv), List.map_map]
    refine congrArg Except.ok (List.map_congr_left fun i _ => ?_)
    simp only [Mat.mulVec, LF.smul, Function.comp, mul_sum]
    exact sum_congr rfl fun j _ => by ring
  · constructor
    · rintro ⟨C, h⟩
      unfold LF.add at h
      split_ifs at h with hn
      push Not at hn; exact hn
    · intro h; exact ⟨_, if_neg (by push Not; exact h)⟩
  · constructor
    · rintro ⟨C, h⟩
      unfold LF.sub at h
      split_ifs at h with hn
      push Not at hn; exact hn
    · intro h; exact ⟨_, if_neg (by push Not; exact h)⟩
  · unfold LF.add at h
    split_ifs at h with hn
    push Not at hn
    cases h
    refine ⟨_, apply_ok (by omega), ?_⟩
    rw [apply_ok (by exact hv), ← hn.1, ← hn.2, List.zipWith_map, List.zipWith_self]
    refine congrArg Except.ok (List.map_congr_left fun i _ => ?_)
    simp [Mat.mulVec, add_mul, sum_add_distrib]
  · unfold LF.sub at h
    split_ifs at h with hn
    push Not at hn
    cases h
    refine ⟨_, apply_ok (by omega), ?_⟩
    rw [apply_ok (by exact hv), ← hn.1, ← hn.2, List.zipWith_map, List.zipWith_self]
    refine congrArg Except.ok (List.map_congr_left fun i _ => ?_)
    simp [Mat.mulVec, sub_mul, sum_sub_distrib]

example : ∃ C, (LF.mk 1 2 fun _ j => (j : ℝ) + 1).comp ⟨2, 2, Mat.id⟩ = .ok C ∧ C.apply [3, 4] = .ok [11] := by
  have hv : ([3, 4] : List ℝ).length = (LF.mk 2 2 Mat.id).cols := rfl
  obtain ⟨h1, h2⟩ := C59_compose (LF.mk 1 2 fun _ j => (j : ℝ) + 1) ⟨2, 2, Mat.id⟩ [3, 4] hv
  obtain ⟨C, hC⟩ := h1.mpr rfl
  refine ⟨C, hC, ?_⟩
  rw [h2 C hC, apply_ok hv]
  show LF.apply _ _ = _
  rw [apply_ok (by simp)]
  norm_num [List.range_succ, Mat.mulVec, sum_range_succ, Mat.id, vecOf]

/-! ## Operations on splines on a grid -/

theorem op_grid (op : BinOp) {a b : GSpline} {n m C : ℕ} {p : Vec} (ha : OnGrid a n m C p) (hb : OnGrid b n m C p) (ht : b.tau = a.tau) :
    ∃ r, op.run a b = .ok r ∧ OnGrid r n m C p ∧ r.tau = a.tau ∧ ∀ iv < m, ∀ c < C, ∀ k < n, nodal r iv c k = op.num (nodal a iv c k) (nodal b iv c k) := by
  have hdim : a.basis.dim = n := by rw [ha.basis]; simp [Basis.dim]
  have hs := C15_same_vector_space_complete a b (by rw [ha.basis, hb.basis]) (by rw [ha.codim, hb.codim]) ht
  have hl := consistent_length ha.cons hb.cons hs
  have hla : a.coeffs.length = m * n * C := by rw [ha.cons, ha.len, hdim, ha.codim]
  obtain ⟨r, hr⟩ := (C15_throws_iff op a b ha.cons hb.cons).mpr hs
  have hlen : ∀ f : ℝ → ℝ → ℝ, (List.zipWith f a.coeffs b.coeffs).length = m * n * C := by intro f; simp [← hl, hla]
  have hco : r = ⟨r.dom, a.codim, a.basis, List.zipWith op.num a.coeffs b.coeffs, a.tau⟩ ∧ (r.dom = a.dom ∨ r.dom = b.dom) := by
    have hcomm : List.zipWith (fun x y : ℝ => x + y) b.coeffs a.coeffs = List.zipWith (fun x y : ℝ => x + y) a.coeffs b.coeffs := by
      rw [List.zipWith_comm]; congr 1; funext x y; ring
    have hbb : b.basis = a.basis := by rw [ha.basis, hb.basis]
    have hbc : b.codim = a.codim := by rw [ha.codim, hb.codim]
    cases op <;> simp [BinOp.run, GSpline.add, GSpline.addToThat, GSpline.addInPlace, GSpline.sub, GSpline.subToThat, GSpline.subInPlace, hs,
      GSpline.copy_ok ha.cons, zipRes, hl, bind, Except.bind, pure, Except.pure] at hr <;> subst hr <;> simp [BinOp.num, hcomm, hbb, hbc, ht]
  refine ⟨r, hr, ?_, by rw [hco.1], fun iv hiv c hc k hk => ?_⟩
  · refine ⟨by rw [hco.1]; exact ha.basis, by rw [hco.1]; exact ha.codim, by rw [hco.1]; exact ha.len, ?_, ?_⟩
    · rw [hco.1]
      unfold Consistent
      dsimp only
      rw [hlen, ha.len, hdim, ha.codim]
    · rcases hco.2 with e | e
      · rw [e]; exact ha.dom
      · rw [e]; exact hb.dom
  · have hx : nodal r iv c k = vecOf (List.zipWith op.num a.coeffs b.coeffs) (Basis.coefIdx n C iv c k) := by
      rw [hco.1]; unfold nodal; dsimp only; rw [hdim, ha.codim]; rfl
    rw [hx, vecOf_zipWith (by rw [hla]; exact pos_lt hiv hc hk) (by rw [← hl, hla]; exact pos_lt hiv hc hk), nodal_coef ha, nodal_coef hb]

theorem actOn_coeffs {L : LF} {g r : GSpline} {jp jw : Vec} (h : L.actOn g jp jw = .ok r) : L.apply g.coeffs = .ok r.coeffs := by
  unfold LF.actOn at h
  cases ha : L.apply g.coeffs with
  | error e => rw [ha] at h; cases h
  | ok co =>
    rw [ha, GLL.ok_bind] at h
    split_ifs at h with h0
    unfold Colloc.mk at h
    cases hb : glBasis g.basis.dim jp jw with
    | error e => rw [hb] at h; cases h
    | ok b =>
      rw [hb, GLL.ok_bind] at h
      unfold GSpline.make at h
      split_ifs at h
      cases h
      rfl

/-! ## The distance object -/

structure DistOk (s : SobDist) (f : Fn) (n m : ℕ) (p w : Vec) : Prop where
  ga : OnGrid s.approx n m f.codim p
  gd : OnGrid s.approxD n m f.codim p
  tau : s.approx.tau = List.replicate m ((f.dom.2 - f.dom.1) / m)
  tauD : s.approxD.tau = s.approx.tau
  va : ∀ iv < m, ∀ c < f.codim, ∀ k < n, nodal s.approx iv c k = val f c (gridPoint f.dom m iv (p k))
  vd : ∀ iv < m, ∀ c < f.codim, ∀ k < n, nodal s.approxD iv c k = dval f 1 c (gridPoint f.dom m iv (p k))
  int : ∀ g, OnGrid g n m 1 p → s.int.lf.call g = .ok [nodalQuadrature g n m ((f.dom.2 - f.dom.1) / m) w]
  intRows : s.int.lf.rows = 1
  intCols : s.int.lf.cols = n * m
  der : DInv s.der n m f.codim 1 p s.approx.tau

theorem make_ok (f : Fn) (hd : f.dom.1 < f.dom.2) (n m deg : ℕ) (jp jw junk p w : Vec) (junkDiff : Mat) (hpw : GLL.pointsWeights n jp jw = .ok (p, w)) :
    ((∃ s, SobDist.make f n m deg jp jw junk junkDiff = .ok s) ↔ ∃ f1, f.derivate 1 = .ok f1 ∧
      ∀ iv < m, ∀ k < n, (∃ r, f.call [gridPoint f.dom m iv (p k)] = .ok [r]) ∧ ∃ r, f1.call [gridPoint f.dom m iv (p k)] = .ok [r]) ∧
    ∀ s, SobDist.make f n m deg jp jw junk junkDiff = .ok s → DistOk s f n m p w := by
  have hdd : ∀ f1, f.derivate 1 = .ok f1 → f1.dom = f.dom ∧ f1.codim = f.codim := by
    intro f1 h
    unfold Fn.derivate at h
    cases hx : f.deriv 1 with
    | error e => rw [hx] at h; cases h
    | ok d => rw [hx] at h; cases h; exact ⟨rfl, rfl⟩
  have int_ok : ∀ a, Colloc.approximate f n m jp jw junk = .ok a → ∃ I, Integ.ofSpline a jp jw junk = .ok I ∧ I.lf.rows = 1 ∧ I.lf.cols = n * m ∧
      ∀ g, OnGrid g n m 1 p → I.lf.call g = .ok [nodalQuadrature g n m ((f.dom.2 - f.dom.1) / m) w] := by
    intro a ha
    have hon := approx_onGrid hpw hd.le ha
    have hdim : a.basis.dim = n := by rw [hon.basis]; simp [Basis.dim]
    have hni : a.nIntervals = m := hon.len
    have hdom := ((C47_approximate f n m jp jw junk p w hpw hd.le).2 a ha).1
    obtain ⟨l, e, h1, h2, h3⟩ := row_spec a.dom n m jp jw junk p w hpw
    refine ⟨⟨l, n⟩, by unfold Integ.ofSpline Integ.ofDomain; rw [hdim, hni, e]; rfl, h1, h2, fun g hg => ?_⟩
    rw [← hdom]; exact h3 g hg
  have der_ok : ∀ a, Colloc.approximate f n m jp jw junk = .ok a → ∃ d, Deriv.ofSpline a jp jw = .ok d ∧ DInv d n m f.codim 1 p a.tau := by
    intro a ha
    have hon := approx_onGrid hpw hd.le ha
    have hdim : a.basis.dim = n := by rw [hon.basis]; simp [Basis.dim]
    obtain ⟨d, e, h⟩ := dinv_make f.codim n 1 a.tau (by
      rw [((C47_approximate f n m jp jw junk p w hpw hd.le).2 a ha).2.2.1, List.mem_replicate]
      rintro ⟨hm, h⟩
      have : (0 : ℝ) < (f.dom.2 - f.dom.1) / m := div_pos (by linarith) (by exact_mod_cast Nat.pos_of_ne_zero hm)
      linarith) hpw
    rw [hon.len] at h
    exact ⟨d, by unfold Deriv.ofSpline; rw [hdim, hon.codim]; exact e, h⟩
  refine ⟨⟨?_, ?_⟩, ?_⟩
  · rintro ⟨s, h⟩
    unfold SobDist.make at h
    cases ha : Colloc.approximate f n m jp jw junk with
    | error e => rw [ha] at h; cases h
    | ok a =>
      rw [ha, GLL.ok_bind] at h
      cases hf1 : f.derivate 1 with
      | error e => rw [hf1] at h; cases h
      | ok f1 =>
        rw [hf1, GLL.ok_bind] at h
        cases had : Colloc.approximate f1 n m jp jw junk with
        | error e => rw [had] at h; cases h
        | ok ad =>
          obtain ⟨e1, e2⟩ := hdd f1 hf1
          have q1 := (C47_approximate f n m jp jw junk p w hpw hd.le).1.mp ⟨a, ha⟩
          have q2 := (C47_approximate f1 n m jp jw junk p w hpw (by rw [e1]; exact hd.le)).1.mp ⟨ad, had⟩
          rw [e1] at q2
          exact ⟨f1, rfl, fun iv hiv k hk => ⟨q1 iv hiv k hk, q2 iv hiv k hk⟩⟩
  · rintro ⟨f1, hf1, hall⟩
    obtain ⟨e1, e2⟩ := hdd f1 hf1
    obtain ⟨a, ha⟩ := (C47_approximate f n m jp jw junk p w hpw hd.le).1.mpr fun iv hiv k hk => (hall iv hiv k hk).1
    obtain ⟨ad, had⟩ := (C47_approximate f1 n m jp jw junk p w hpw (by rw [e1]; exact hd.le)).1.mpr fun iv hiv k hk => by rw [e1]; exact (hall iv hiv k hk).2
    obtain ⟨I, hI, -⟩ := int_ok a ha
    obtain ⟨d, hde, -⟩ := der_ok a ha
    exact ⟨_, by unfold SobDist.make; rw [ha, GLL.ok_bind, hf1, GLL.ok_bind, had, GLL.ok_bind, hI, GLL.ok_bind, hde]; rfl⟩
  · intro s h
    unfold SobDist.make at h
    cases ha : Colloc.approximate f n m jp jw junk with
    | error e => rw [ha] at h; cases h
    | ok a =>
      rw [ha, GLL.ok_bind] at h
      cases hf1 : f.derivate 1 with
      | error e => rw [hf1] at h; cases h
      | ok f1 =>
        rw [hf1, GLL.ok_bind] at h
        cases had : Colloc.approximate f1 n m jp jw junk with
        | error e => rw [had] at h; cases h
        | ok ad =>
          obtain ⟨e1, e2⟩ := hdd f1 hf1
          have hd1 : f1.dom.1 ≤ f1.dom.2 := by rw [e1]; exact hd.le
          obtain ⟨I, hI, i1, i2, i3⟩ := int_ok a ha
          obtain ⟨d, hde, hinv⟩ := der_ok a ha
          rw [had, GLL.ok_bind, hI, GLL.ok_bind, hde] at h
          cases h
          have ta := ((C47_approximate f n m jp jw junk p w hpw hd.le).2 a ha).2.2.1
          have td := ((C47_approximate f1 n m jp jw junk p w hpw hd1).2 ad had).2.2.1
          refine ⟨approx_onGrid hpw hd.le ha, by have := approx_onGrid hpw hd1 had; rwa [e2] at this, ta, by rw [ta, td, e1],
            fun iv hiv c hc k hk => approx_nodal hpw hd.le ha hiv hc hk, fun iv hiv c hc k hk => ?_, i3, i1, i2, hinv⟩
          have := approx_nodal hpw hd1 had hiv (by rw [e2]; exact hc) hk
          rw [e1] at this
          rw [this]
          unfold dval
          rw [hf1]

/-- The component of the distance to the values at a node. -/
noncomputable def eA (f : Fn) (m : ℕ) (p : Vec) (g : GSpline) (iv c k : ℕ) : ℝ := val f c (gridPoint f.dom m iv (p k)) - nodal g iv c k

/-- The component of the distance to the derivatives at a node; `d` is the derivative of the spline. -/
noncomputable def eD (f : Fn) (m : ℕ) (p : Vec) (d : GSpline) (iv c k : ℕ) : ℝ := dval f 1 c (gridPoint f.dom m iv (p k)) - nodal d iv c k

theorem parts_ok {s : SobDist} {f : Fn} {n m : ℕ} {jp jw p w : Vec} (hpw : GLL.pointsWeights n jp jw = .ok (p, w)) (hm : 0 < m) (hs : DistOk s f n m p w)
    (g : GSpline) (hg : OnGrid g n m f.codim p) (ht : g.tau = s.approx.tau) :
    ∃ e d ed t1 t2, s.err g = .ok e ∧ s.der.lf.actOn g jp jw = .ok d ∧ g.derivate 1 = .ok d ∧ s.errD g jp jw = .ok ed ∧ TLM.ofSpline e = .ok t1 ∧ TLM.ofSpline ed = .ok t2 ∧
      OnGrid e n m f.codim p ∧ OnGrid d n m f.codim p ∧ OnGrid ed n m f.codim p ∧ e.tau = g.tau ∧ d.tau = g.tau ∧ ed.tau = g.tau ∧
      (∀ iv < m, ∀ c < f.codim, ∀ k < n, nodal e iv c k = eA f m p g iv c k) ∧ (∀ iv < m, ∀ c < f.codim, ∀ k < n, nodal ed iv c k = eD f m p d iv c k) := by
  have hlen : s.approx.tau.length = m := hs.ga.len
  obtain ⟨e, h1, h2, h3, h4⟩ := op_grid .sub hs.ga hg ht
  have hact := dinv_act hpw hs.der (by rw [hlen]; exact hm) g (by rw [hlen]; exact hg) ht
  have hr : s.der.lf.rows = m * n * f.codim := by rw [hs.der.rows, hlen]; ring
  have hc : s.der.lf.cols = m * n * f.codim := by rw [hs.der.cols, hlen]; ring
  obtain ⟨d, d1, d2, d3, d4, d5⟩ := actOn_ok hpw (by have := points_two hpw; omega) hm hr hc hg
  obtain ⟨ed, f1, f2, f3, f4⟩ := op_grid .subToThat hs.gd d2 (by rw [d4, ht, hs.tauD])
  have hw : TLMReach f.codim n m p jp jw (fun _ => 0) (TLM.ofSizes f.codim n m) none := .sizes
  obtain ⟨⟨t1, e1⟩, -⟩ := (C49_transpose_assign f.codim n m jp jw (fun _ => 0) p w hpw _ _ hw e).1 h2
  obtain ⟨⟨t2, e2⟩, -⟩ := (C49_transpose_assign f.codim n m jp jw (fun _ => 0) p w hpw _ _ hw ed).1 f2
  refine ⟨e, d, ed, t1, t2, h1, d1, by rw [← hact]; exact d1, by unfold SobDist.errD; rw [d1, GLL.ok_bind]; exact f1, e1, e2, h2, d2, f2, by rw [h3, ht], d4, by rw [f3, hs.tauD, ht],
    fun iv hiv c hc k hk => ?_, fun iv hiv c hc k hk => ?_⟩
  · rw [h4 iv hiv c hc k hk, hs.va iv hiv c hc k hk]; rfl
  · rw [f4 iv hiv c hc k hk, hs.vd iv hiv c hc k hk]; rfl

theorem call_ok {s : SobDist} {f : Fn} {n m : ℕ} {jp jw p w : Vec} (hpw : GLL.pointsWeights n jp jw = .ok (p, w)) (hm : 0 < m) (hs : DistOk s f n m p w)
    (g : GSpline) (hg : OnGrid g n m f.codim p) (ht : g.tau = s.approx.tau) (d : GSpline) (hd : g.derivate 1 = .ok d) :
    s.call g jp jw = .ok [∑ iv ∈ range m, (f.dom.2 - f.dom.1) / m / 2 * ∑ k ∈ range n, w k * ∑ c ∈ range f.codim, (eA f m p g iv c k ^ 2 + eD f m p d iv c k ^ 2)] := by
  obtain ⟨e, d', ed, t1, t2, h1, h2, h3, h4, h5, h6, ge, gd, ged, te, td, ted, ve, vd⟩ := parts_ok hpw hm hs g hg ht
  rw [hd] at h3
  cases h3
  obtain ⟨r1, a1, a2, a3, a4, a5⟩ := C49_transpose f.codim n m hm jp jw (fun _ => 0) p w hpw t1 e (.spline e t1 ge h5) e ge
  obtain ⟨r2, b1, b2, b3, b4, b5⟩ := C49_transpose f.codim n m hm jp jw (fun _ => 0) p w hpw t2 ed (.spline ed t2 ged h6) ed ged
  obtain ⟨r, c1, c2, c3, c4⟩ := op_grid .addInPlace a2 b2 (by rw [a4, b4, te, ted])
  unfold SobDist.call
  rw [h1, GLL.ok_bind, h5, GLL.ok_bind, h4, GLL.ok_bind, h6, GLL.ok_bind]
  simp only [GLL.ok_bind]
  rw [a1, GLL.ok_bind, b1, GLL.ok_bind]
  rw [show r1.addInPlace r2 = .ok r from c1, GLL.ok_bind, hs.int r c2]
  congr 2
  unfold nodalQuadrature
  refine sum_congr rfl fun iv hiv => ?_
  congr 1
  refine sum_congr rfl fun k hk => ?_
  rw [mem_range] at hiv hk
  rw [c4 iv hiv 0 (by norm_num) k hk, a5 iv hiv k hk, b5 iv hiv k hk, sum_add_distrib]
  simp only [BinOp.num]
  congr 2
  · exact sum_congr rfl fun c hc => by rw [ve iv hiv c (mem_range.mp hc) k hk]; ring
  · exact sum_congr rfl fun c hc => by rw [vd iv hiv c (mem_range.mp hc) k hk]; ring

/-- **C50.** The Sobolev distance of a spline with the sizes and lengths of the discretisation to the function is the quadrature of the squared difference of
values plus the squared difference of first derivatives: weights `w`, times of the nodes, values and derivative of the function as its own objects return them,
and the curve of the spline with its derivative. -/
theorem C50_value (f : Fn) (hdom : f.dom.1 < f.dom.2) (n m deg : ℕ) (hm : 0 < m) (jp jw junk p w : Vec) (junkDiff : Mat) (hpw : GLL.pointsWeights n jp jw = .ok (p, w))
    (hp : Nodes n p) (s : SobDist) (hs : SobDist.make f n m deg jp jw junk junkDiff = .ok s) (g : GSpline) (hg : OnGrid g n m f.codim p) (hgd : g.dom = f.dom)
    (ht : g.tau = List.replicate m ((f.dom.2 - f.dom.1) / m)) :
    s.call g jp jw = .ok [∑ iv ∈ range m, (f.dom.2 - f.dom.1) / m / 2 * ∑ k ∈ range n, w k * ∑ c ∈ range f.codim,
      ((val f c (gridPoint f.dom m iv (p k)) - curve g iv c (gridPoint f.dom m iv (p k))) ^ 2
        + (dval f 1 c (gridPoint f.dom m iv (p k)) - deriv (curve g iv c) (gridPoint f.dom m iv (p k))) ^ 2)] := by
  have hok := (make_ok f hdom n m deg jp jw junk p w junkDiff hpw).2 s hs
  have hm0 : (0 : ℝ) < m := by exact_mod_cast hm
  have hlen : 0 < (f.dom.2 - f.dom.1) / m := div_pos (by linarith) hm0
  have hgz : 0 ∉ g.tau := by rw [ht, List.mem_replicate]; rintro ⟨-, h⟩; linarith
  have hder := GSpline.deriv_ok hg.dom hg.cons hgz 1
  have hde : g.derivate 1 = _ := (GSpline.derivate_ok hg.dom hg.cons hgz 1).trans hder
  rw [call_ok hpw hm hok g hg (by rw [ht, hok.tau]) _ hde]
  congr 2
  refine sum_congr rfl fun iv hiv => ?_
  congr 1
  refine sum_congr rfl fun k hk => ?_
  congr 1
  refine sum_congr rfl fun c hc => ?_
  rw [mem_range] at hiv hk hc
  have htau : vecOf g.tau iv ≠ 0 := by rw [ht, vecOf_replicate hiv]; exact hlen.ne'
  have htg : g.tau = List.replicate m ((g.dom.2 - g.dom.1) / m) := by rw [hgd]; exact ht
  have hnt : nodeTime g p iv k = gridPoint f.dom m iv (p k) := by rw [nodeTime_grid htg p hiv, hgd]
  unfold eA eD
  rw [← gl_curve hg.basis hp.sep (c := c) htau hk, hnt]
  have hcd := GSpline.curve_deriv (by rw [hg.basis]; exact valid_nodes hp.sep) hg.dom hg.cons hgz 1 (by rw [hg.basis]; trivial) hder (i := iv) (c := c)
    (by rw [hg.len]; exact hiv) htau (by rw [hg.codim]; exact hc)
  rw [iteratedDeriv_one] at hcd
  rw [← hcd]
  have := gl_curve (g := { g with coeffs := if 0 < 1 then (List.range g.coeffs.length).map (g.derivCoeffs 1) else g.coeffs }) (c := c) hg.basis hp.sep htau hk
  rw [← this, show nodeTime { g with coeffs := if 0 < 1 then (List.range g.coeffs.length).map (g.derivCoeffs 1) else g.coeffs } p iv k = nodeTime g p iv k from rfl, hnt]

theorem mulVec_line (M : Mat) (n : ℕ) (x y z : Vec) (s : ℝ) (h : ∀ j < n, z j = x j + s * y j) (i : ℕ) : M.mulVec n z i = M.mulVec n x i + s * M.mulVec n y i := by
  unfold Mat.mulVec
  rw [mul_sum, ← sum_add_distrib]
  exact sum_congr rfl fun j hj => by rw [h j (mem_range.mp hj)]; ring

/-- The spline moved by `s` in the direction `h`. -/
def moved (g : GSpline) (h : List ℝ) (s : ℝ) : GSpline := { g with coeffs := List.zipWith (fun x y => x + s * y) g.coeffs h }

theorem differential_ok {s : SobDist} {f : Fn} {n m : ℕ} {jp jw p w : Vec} (hpw : GLL.pointsWeights n jp jw = .ok (p, w)) (hm : 0 < m) (hok : DistOk s f n m p w)
    (g : GSpline) (hg : OnGrid g n m f.codim p) (hta : g.tau = s.approx.tau) :
    ∃ d q, g.derivate 1 = .ok d ∧ s.differential g jp jw = .ok { s with diff := q } ∧ ∀ h : List ℝ, h.length = g.coeffs.length →
      ∃ dh, GSpline.derivate { g with coeffs := h } 1 = .ok dh ∧ (∀ x, s.call (moved g h x) jp jw = .ok [∑ iv ∈ range m, (f.dom.2 - f.dom.1) / m / 2 * ∑ k ∈ range n, w k * ∑ c ∈ range f.codim,
          ((eA f m p g iv c k - x * nodal { g with coeffs := h } iv c k) ^ 2 + (eD f m p d iv c k - x * nodal dh iv c k) ^ 2)]) ∧
        q.apply h = .ok [∑ iv ∈ range m, (f.dom.2 - f.dom.1) / m / 2 * ∑ k ∈ range n, w k * ∑ c ∈ range f.codim,
            (-2 * (eA f m p g iv c k * nodal { g with coeffs := h } iv c k + eD f m p d iv c k * nodal dh iv c k))] := by
  have hdim : g.basis.dim = n := by rw [hg.basis]; simp [Basis.dim]
  have hn : 0 < n := by have := points_two hpw; omega
  have hl : g.coeffs.length = m * n * f.codim := by rw [hg.cons, hg.len, hdim, hg.codim]
  have htl : s.approx.tau.length = m := hok.ga.len
  have hdr : s.der.lf.rows = m * n * f.codim := by rw [hok.der.rows, htl]; ring
  have hdc : s.der.lf.cols = m * n * f.codim := by rw [hok.der.cols, htl]; ring
  obtain ⟨e, d, ed, t1, t2, h1, h2, h3, h4, h5, h6, ge, gd, ged, te, td, ted, ve, vd⟩ := parts_ok hpw hm hok g hg hta
  have i1 := tinv_reach hpw (.spline (jp := jp) (jw := jw) (junk := fun _ => 0) e t1 ge h5)
  have i2 := tinv_reach hpw (.spline (jp := jp) (jw := jw) (junk := fun _ => 0) ed t2 ged h6)
  obtain ⟨c, hc⟩ := (C59_compose t2.lf s.der.lf g.coeffs (by rw [hdc, hl])).1.mpr (by rw [i2.cols, hdr])
  have hcs : c.rows = m * n ∧ c.cols = m * n * f.codim := by
    unfold LF.comp at hc
    split_ifs at hc
    cases hc
    exact ⟨by dsimp only; rw [i2.rows, mul_one], hdc⟩
  have hra : t1.lf.rows = c.rows ∧ t1.lf.cols = c.cols := ⟨by rw [i1.rows, hcs.1, mul_one], by rw [i1.cols, hcs.2]⟩
  obtain ⟨r, hr⟩ : ∃ r, t1.lf.add c = .ok r := ⟨_, if_neg (by push Not; exact hra)⟩
  have hrs : r.rows = m * n ∧ r.cols = m * n * f.codim := by
    unfold LF.add at hr
    split_ifs at hr
    cases hr
    exact ⟨by dsimp only; rw [hra.1, hcs.1], by dsimp only; rw [hra.2, hcs.2]⟩
  obtain ⟨q, hq⟩ := (C59_compose (LF.smul (-2) s.int.lf) r g.coeffs (by rw [hrs.2, hl])).1.mpr (by show s.int.lf.cols = _; rw [hok.intCols, hrs.1]; ring)
  refine ⟨d, q, h3, ?_, fun h hh => ?_⟩
  · unfold SobDist.differential
    rw [h1, GLL.ok_bind, h5, GLL.ok_bind, h4, GLL.ok_bind, h6, GLL.ok_bind, hc, GLL.ok_bind, hr, GLL.ok_bind, hq]
    rfl
  · set gh : GSpline := { g with coeffs := h } with hgh
    have hong : OnGrid gh n m f.codim p := ⟨hg.basis, hg.codim, hg.len, by unfold Consistent; rw [hgh]; dsimp only; rw [hh]; exact hg.cons, hg.dom⟩
    obtain ⟨dh, y1, y2, y3, y4, y5⟩ := actOn_ok hpw hn hm hdr hdc hong
    obtain ⟨d0, z1, z2, z3, z4, z5⟩ := actOn_ok hpw hn hm hdr hdc hg
    obtain rfl : d = d0 := by rw [h2] at z1; cases z1; rfl
    obtain ⟨r1, a1, a2, a3, a4, a5⟩ := C49_transpose f.codim n m hm jp jw (fun _ => 0) p w hpw t1 e (.spline e t1 ge h5) gh hong
    obtain ⟨r2, b1, b2, b3, b4, b5⟩ := C49_transpose f.codim n m hm jp jw (fun _ => 0) p w hpw t2 ed (.spline ed t2 ged h6) dh y2
    have ac := actOn_coeffs a1
    have bc := actOn_coeffs b1
    have yc := actOn_coeffs y1
    have hcapp := (C59_compose t2.lf s.der.lf h (by rw [hdc, hh, hl])).2 c hc
    rw [show s.der.lf.apply h = .ok dh.coeffs from yc] at hcapp
    rw [show (Except.ok dh.coeffs : Res (List ℝ)).bind t2.lf.apply = t2.lf.apply dh.coeffs from rfl, bc] at hcapp
    obtain ⟨yb, w1, w2⟩ := (C59_linear t1.lf c 0 h r1.coeffs ac).2.2.2.2.1 r hr
    rw [hcapp] at w1
    cases w1
    have hqapp := (C59_compose (LF.smul (-2) s.int.lf) r h (by rw [hrs.2, hh, hl])).2 q hq
    rw [w2] at hqapp
    obtain ⟨rr, c1, c2, c3, c4⟩ := op_grid .addInPlace a2 b2 (by rw [a4, b4, y4])
    have hrr : rr.coeffs = List.zipWith (· + ·) r1.coeffs r2.coeffs := by
      have hss := C15_same_vector_space_complete r1 r2 (by rw [a2.basis, b2.basis]) (by rw [a2.codim, b2.codim]) (by rw [a4, b4, y4])
      simp only [BinOp.run, GSpline.addInPlace, hss, if_true, zipRes, if_pos (consistent_length a2.cons b2.cons hss)] at c1
      cases c1
      rfl
    rw [show (Except.ok (List.zipWith (fun x y : ℝ => x + y) r1.coeffs r2.coeffs) : Res (List ℝ)).bind (LF.smul (-2) s.int.lf).apply
      = (LF.smul (-2) s.int.lf).apply (List.zipWith (· + ·) r1.coeffs r2.coeffs) from rfl, ← hrr,
      (C59_linear s.int.lf s.int.lf (-2) rr.coeffs _ (hok.int rr c2)).2.1] at hqapp
    have hactg := dinv_act hpw hok.der (by rw [htl]; exact hm) gh (by rw [htl]; exact hong) hta
    refine ⟨dh, by rw [← hactg]; exact y1, fun x => ?_, ?_⟩
    · have hmv : OnGrid (moved g h x) n m f.codim p := ⟨hg.basis, hg.codim, hg.len, by
        unfold Consistent moved; dsimp only; rw [List.length_zipWith, hh, Nat.min_self]; exact hg.cons, hg.dom⟩
      obtain ⟨dx, x1, x2, x3, x4, x5⟩ := actOn_ok hpw hn hm hdr hdc hmv
      have hact := dinv_act hpw hok.der (by rw [htl]; exact hm) (moved g h x) (by rw [htl]; exact hmv) hta
      have hzip : ∀ i < m * n * f.codim, vecOf (moved g h x).coeffs i = vecOf g.coeffs i + x * vecOf gh.coeffs i := by
        intro i hi
        unfold moved
        dsimp only
        rw [vecOf_zipWith (by rw [hl]; exact hi) (by rw [hh, hl]; exact hi)]
      rw [call_ok hpw hm hok _ hmv hta dx (by rw [← hact]; exact x1)]
      congr 2
      refine sum_congr rfl fun iv hiv => ?_
      congr 1
      refine sum_congr rfl fun k hk => ?_
      congr 1
      refine sum_congr rfl fun c hc => ?_
      rw [mem_range] at hiv hk hc
      have n1 : nodal (moved g h x) iv c k = nodal g iv c k + x * nodal gh iv c k := by
        rw [← nodal_coef hmv, ← nodal_coef hg, ← nodal_coef hong, hzip _ (pos_lt hiv hc hk)]
      have n2 : nodal dx iv c k = nodal d iv c k + x * nodal dh iv c k := by
        rw [x5 iv hiv c hc k hk, z5 iv hiv c hc k hk, y5 iv hiv c hc k hk]
        exact mulVec_line _ _ _ _ _ _ hzip _
      unfold eA eD
      rw [n1, n2]; ring
    · rw [hqapp]
      simp only [List.map_cons, List.map_nil]
      congr 2
      unfold nodalQuadrature
      rw [mul_sum]
      refine sum_congr rfl fun iv hiv => ?_
      rw [← mul_assoc, mul_comm (-2 : ℝ), mul_assoc, mul_sum]
      congr 1
      refine sum_congr rfl fun k hk => ?_
      rw [mem_range] at hiv hk
      rw [c4 iv hiv 0 (by norm_num) k hk, a5 iv hiv k hk, b5 iv hiv k hk, ← mul_sum]
      simp only [BinOp.num]
      rw [← sum_add_distrib, ← mul_assoc, ← mul_assoc, mul_comm (w k)]
      congr 1
      refine sum_congr rfl fun c hc => ?_
      rw [ve iv hiv c (mem_range.mp hc) k hk, vd iv hiv c (mem_range.mp hc) k hk]

/-- **C50.** After `differential` at a spline, for every direction in the space of coefficients, the functional returns the derivative of the distance in this
direction. -/
theorem C50_differential (f : Fn) (hdom : f.dom.1 < f.dom.2) (n m deg : ℕ) (hm : 0 < m) (jp jw junk p w : Vec) (junkDiff : Mat)
    (hpw : GLL.pointsWeights n jp jw = .ok (p, w)) (s : SobDist) (hs : SobDist.make f n m deg jp jw junk junkDiff = .ok s) (g : GSpline) (hg : OnGrid g n m f.codim p)
    (ht : g.tau = List.replicate m ((f.dom.2 - f.dom.1) / m)) :
    ∃ s', s.differential g jp jw = .ok s' ∧ ∀ h : List ℝ, h.length = g.coeffs.length →
      ∃ (V : ℝ → ℝ) (V' : ℝ), (∀ x, s.call (moved g h x) jp jw = .ok [V x]) ∧ s'.diff.apply h = .ok [V'] ∧ HasDerivAt V V' 0 := by
  have hok := (make_ok f hdom n m deg jp jw junk p w junkDiff hpw).2 s hs
  obtain ⟨d, q, -, e, hq⟩ := differential_ok hpw hm hok g hg (by rw [ht, hok.tau])
  refine ⟨_, e, fun h hh => ?_⟩
  obtain ⟨dh, -, h1, h2⟩ := hq h hh
  refine ⟨_, _, h1, h2, ?_⟩
  refine HasDerivAt.fun_sum fun iv hiv => HasDerivAt.const_mul _ (HasDerivAt.fun_sum fun k hk => HasDerivAt.const_mul _ (HasDerivAt.fun_sum fun c hc => ?_))
  have base : ∀ A B : ℝ, HasDerivAt (fun x : ℝ => (A - x * B) ^ 2) (-2 * (A * B)) 0 := by
    intro A B
    have h0 : HasDerivAt (fun x : ℝ => A - x * B) (0 - 1 * B) 0 := (hasDerivAt_const _ _).sub ((hasDerivAt_id _).mul_const B)
    have h1 := h0.pow 2
    refine HasDerivAt.congr_deriv h1 ?_
    simp
    ring
  refine HasDerivAt.congr_deriv ((base _ _).add (base _ _)) ?_
  ring

/-- **C50.** The distance object exists exactly if the function and its derivative can be evaluated at all nodes. -/
theorem C50_constructor (f : Fn) (hd : f.dom.1 < f.dom.2) (n m deg : ℕ) (jp jw junk p w : Vec) (junkDiff : Mat) (hpw : GLL.pointsWeights n jp jw = .ok (p, w)) :
    (∃ s, SobDist.make f n m deg jp jw junk junkDiff = .ok s) ↔ ∃ f1, f.derivate 1 = .ok f1 ∧
      ∀ iv < m, ∀ k < n, (∃ r, f.call [gridPoint f.dom m iv (p k)] = .ok [r]) ∧ ∃ r, f1.call [gridPoint f.dom m iv (p k)] = .ok [r] :=
  (make_ok f hd n m deg jp jw junk p w junkDiff hpw).1

/-- The zero function on `[0, 1]`. -/
noncomputable def zeroFn : Fn := .const (0, 1) [0]

theorem zeroFn_call (t : ℝ) : zeroFn.call [t] = .ok [[0]] := rfl

theorem zeroFn_derivate : ∃ f1, zeroFn.derivate 1 = .ok f1 ∧ ∀ t, f1.call [t] = .ok [[0]] := by
  refine ⟨_, rfl, fun t => ?_⟩
  rfl

theorem zeroFn_make (jp jw junk : Vec) (junkDiff : Mat) : ∃ s, SobDist.make zeroFn 2 1 1 jp jw junk junkDiff = .ok s := by
  obtain ⟨p, w, hpw, -⟩ := two_points jp jw
  obtain ⟨f1, h1, h2⟩ := zeroFn_derivate
  exact (C50_constructor zeroFn (by norm_num [zeroFn, dom]) 2 1 1 jp jw junk p w junkDiff hpw).mpr ⟨f1, h1, fun iv _ k _ => ⟨⟨_, zeroFn_call _⟩, _, h2 _⟩⟩

/-- Two nodes, one interval: the distance of the line `t ↦ 3 t` on `[0, 1]` to zero, with the derivative of the first order. -/
example (jp jw junk : Vec) (junkDiff : Mat) : ∃ s p w, GLL.pointsWeights 2 jp jw = .ok (p, w) ∧ SobDist.make zeroFn 2 1 1 jp jw junk junkDiff = .ok s ∧
    ∃ v, s.call ⟨(0, 1), 1, .lagrange ((List.range 2).map p), [0, 3], [1]⟩ jp jw = .ok [v] ∧ 9 / 2 ≤ v := by
  obtain ⟨p, w, hpw, hp0, hp1, hw0, hw1⟩ := two_points jp jw
  obtain ⟨s, hs⟩ := zeroFn_make jp jw junk junkDiff
  have hdim : (Basis.lagrange ((List.range 2).map p)).dim = 2 := by simp [Basis.dim]
  have hok := (make_ok zeroFn (by norm_num [zeroFn, dom]) 2 1 1 jp jw junk p w junkDiff hpw).2 s hs
  set g : GSpline := ⟨(0, 1), 1, .lagrange ((List.range 2).map p), [0, 3], [1]⟩ with hgd
  have hg : OnGrid g 2 1 1 p := ⟨rfl, rfl, rfl, by simp [Consistent, hgd, hdim], by norm_num [hgd]⟩
  have hgz : 0 ∉ g.tau := by simp [hgd]
  have hder : g.derivate 1 = _ := (GSpline.derivate_ok hg.dom hg.cons hgz 1).trans (GSpline.deriv_ok hg.dom hg.cons hgz 1)
  refine ⟨s, p, w, hpw, hs, _, call_ok hpw (by norm_num) hok g hg (by rw [hok.tau]; norm_num [hgd, zeroFn, dom]) _ hder, ?_⟩
  have hv : ∀ t, val zeroFn 0 t = 0 := fun t => rfl
  have n0 : nodal g 0 0 0 = 0 := by simp [nodal, hgd, vecOf]
  have n1 : nodal g 0 0 1 = 3 := by simp [nodal, hgd, vecOf]
  simp only [range_one, sum_singleton, sum_range_succ, hw0, hw1, show zeroFn.codim = 1 from rfl, show zeroFn.dom = (0, 1) from rfl, eA, hv, n0, n1]
  norm_num
  nlinarith [sq_nonneg (eD zeroFn 1 p { dom := g.dom, codim := g.codim, basis := g.basis, coeffs := if 0 < 1 then List.map (g.derivCoeffs 1) (List.range g.coeffs.length) else g.coeffs, tau := g.tau } 0 0 0),
    sq_nonneg (eD zeroFn 1 p { dom := g.dom, codim := g.codim, basis := g.basis, coeffs := if 0 < 1 then List.map (g.derivCoeffs 1) (List.range g.coeffs.length) else g.coeffs, tau := g.tau } 0 0 1)]

/-- **C50 is false for a differential that is kept:** all calls of `differential` return the same object. The distance to the zero function has differential zero
at the zero spline; after another call, at the spline with value one, the functional that was obtained first returns a positive number. -/
theorem C50_differential_shared_false (jp jw junk : Vec) (junkDiff : Mat) : ∃ (s s1 s2 : SobDist) (g1 g2 : GSpline) (x : ℝ),
    SobDist.make zeroFn 2 1 1 jp jw junk junkDiff = .ok s ∧ s.differential g1 jp jw = .ok s1 ∧ s1.diff.apply [1, 1] = .ok [0] ∧
    s1.differential g2 jp jw = .ok s2 ∧ s2.diff.apply [1, 1] = .ok [x] ∧ 0 < x := by
  obtain ⟨p, w, hpw, hp0, hp1, hw0, hw1⟩ := two_points jp jw
  obtain ⟨s, hs⟩ := zeroFn_make jp jw junk junkDiff
  have hdim : (Basis.lagrange ((List.range 2).map p)).dim = 2 := by simp [Basis.dim]
  have hok := (make_ok zeroFn (by norm_num [zeroFn, dom]) 2 1 1 jp jw junk p w junkDiff hpw).2 s hs
  have htau : s.approx.tau = [1] := by rw [hok.tau]; norm_num [zeroFn, dom]
  have grid : ∀ a b : ℝ, OnGrid (⟨(0, 1), 1, .lagrange ((List.range 2).map p), [a, b], [1]⟩ : GSpline) 2 1 1 p :=
    fun a b => ⟨rfl, rfl, rfl, by simp [Consistent, hdim], by norm_num⟩
  have nod : ∀ a b : ℝ, nodal (⟨(0, 1), 1, .lagrange ((List.range 2).map p), [a, b], [1]⟩ : GSpline) 0 0 0 = a ∧
      nodal (⟨(0, 1), 1, .lagrange ((List.range 2).map p), [a, b], [1]⟩ : GSpline) 0 0 1 = b := by
    intro a b; simp [nodal, vecOf]
  have hv : ∀ t, val zeroFn 0 t = 0 := fun t => rfl
  have hdv : ∀ t, dval zeroFn 1 0 t = 0 := fun t => rfl
  obtain ⟨d1, q1, e1, f1, h1⟩ := differential_ok hpw (by norm_num) hok _ (grid 0 0) htau.symm
  have hok1 : DistOk { s with diff := q1 } zeroFn 2 1 p w := ⟨hok.ga, hok.gd, hok.tau, hok.tauD, hok.va, hok.vd, hok.int, hok.intRows, hok.intCols, hok.der⟩
  obtain ⟨d2, q2, e2, f2, h2⟩ := differential_ok hpw (by norm_num) hok1 _ (grid 1 1) htau.symm
  obtain ⟨dh, k1, -, k2⟩ := h1 [1, 1] rfl
  obtain ⟨dh', k1', -, k2'⟩ := h2 [1, 1] rfl
  have hdd : dh' = d2 := by rw [e2] at k1'; cases k1'; rfl
  subst hdd
  have hz : ∀ k < 2, nodal d1 0 0 k = 0 := by
    intro k hk
    have hact := dinv_act hpw hok.der (by rw [htau]; norm_num) _ (by rw [htau]; exact grid 0 0) htau.symm
    obtain ⟨r, r1, -, -, -, r5⟩ := actOn_ok (L := s.der.lf) (R := 1) (C := 1) hpw (by norm_num) (by norm_num) (by rw [hok.der.rows, htau]; rfl) (by rw [hok.der.cols, htau]; rfl) (grid 0 0)
    rw [hact, e1] at r1
    cases r1
    rw [r5 0 (by norm_num) 0 (by norm_num) k hk]
    unfold Mat.mulVec
    refine sum_eq_zero fun j hj => ?_
    have : j < 2 := mem_range.mp hj
    interval_cases j <;> simp [vecOf]
  refine ⟨s, _, _, _, _, _, hs, f1, k2.trans ?_, f2, k2', ?_⟩
  · simp only [range_one, sum_singleton, sum_range_succ, show zeroFn.codim = 1 from rfl, show zeroFn.dom = (0, 1) from rfl, eA, eD, hv, hdv, (nod 0 0).1, (nod 0 0).2, hz 0 (by norm_num), hz 1 (by norm_num)]
    simp
  · simp only [range_one, sum_singleton, sum_range_succ, show zeroFn.codim = 1 from rfl, show zeroFn.dom = (0, 1) from rfl, eA, eD, hv, hdv, (nod 1 1).1, (nod 1 1).2, hw0, hw1]
    norm_num
    nlinarith [mul_self_nonneg (nodal dh' 0 0 0), mul_self_nonneg (nodal dh' 0 0 1)]

/-- The requested order of the derivative is not used. -/
theorem C50_order_ignored (f : Fn) (n m deg deg' : ℕ) (jp jw junk : Vec) (junkDiff : Mat) :
    SobDist.make f n m deg jp jw junk junkDiff = SobDist.make f n m deg' jp jw junk junkDiff := rfl

end GSplines.Props
