import Verif.Model.Wrappers
import Verif.Props.SobDist
import Verif.Props.Interp

/-!
# C63, C64: the continuity error, and functionals presented to the optimisation library
-/

namespace GSplines.Props

open GSplines Spec Finset Fn Colloc

/-! ## C63 -/

/-- The jump of the derivative of order `der` of component `c` at the breakpoint between the intervals `iv` and `iv + 1`. -/
noncomputable def jump (g : GSpline) (der iv c : ℕ) : ℝ :=
  iteratedDeriv der (curve g iv c) (brk g (iv + 1)) - iteratedDeriv der (curve g (iv + 1) c) (brk g (iv + 1))

/-- What a continuity error of order `deg` with interval lengths `tau` must compute. -/
def Jumps (L : LF) (n codim deg : ℕ) (p : Vec) (tau : List ℝ) : Prop :=
  ∀ g, OnGrid g n tau.length codim p → g.tau = tau → ∃ v, L.call g = .ok v ∧ v.length = (tau.length - 1) * codim * (deg + 1) ∧
    (∀ der ≤ deg, ∀ iv < tau.length - 1, ∀ c < codim, vecOf v (codim * (tau.length - 1) * der + iv * codim + c) = jump g der iv c) ∧
    ((∀ i < v.length, vecOf v i = 0) ↔ ∀ der ≤ deg, ∀ iv < tau.length - 1, ∀ c < codim, jump g der iv c = 0)

/-- The updates of a `ContinuityError`, one after the other. -/
noncomputable def contUpdates (e : ContErr) : List (List ℝ) → Res ContErr
  | [] => .ok e
  | tau :: rest => (e.update tau).bind fun e => contUpdates e rest

/-- The interval lengths after the last update. -/
def lastLens (tau : List ℝ) : List (List ℝ) → List ℝ
  | [] => tau
  | tau' :: rest => lastLens tau' rest

theorem cont_jumps {n codim deg : ℕ} {p : Vec} (hp : Nodes n p) {tau : List ℝ} (hne : tau ≠ []) (hz : 0 ∉ tau) :
    ∃ C, (Basis.lagrange ((List.range n).map p)).contFresh tau.length codim deg tau = .ok C ∧ Jumps (ContErr.size tau.length codim deg n C) n codim deg p tau := by
  set x := (List.range n).map p with hx
  have hxl : x.length = n := by simp [hx]
  have hxv : ∀ k < n, vecOf x k = p k := fun k hk => by simp [hx, vecOf, hk]
  have hsep : Separated x.length (vecOf x) := by rw [hxl]; exact separated_congr (fun k hk => (hxv k hk).symm) hp.sep
  have h2 := hp.two
  obtain ⟨C, hC, hrows⟩ := C33_continuity_matrix_lagrange_rows_partial x hsep (by omega) (by rw [hxv 0 (by omega), hp.first])
    (by rw [hxl, hxv _ (by omega), hp.last]) [] tau.length codim deg (List.length_pos_iff.mpr hne) tau rfl (fun i hi => GSpline.vecOf_ne_zero hz hi)
  refine ⟨C, hC, fun g hg ht => ?_⟩
  have hdim : g.basis.dim = n := by rw [hg.basis, Basis.dim]; exact hxl
  have hlen : g.coeffs.length = tau.length * codim * n := by rw [hg.cons, hg.len, hdim, hg.codim]; ring
  have hval : ∀ der ≤ deg, ∀ iv < tau.length - 1, ∀ c < codim,
      vecOf ((List.range (ContErr.size tau.length codim deg n C).rows).map ((ContErr.size tau.length codim deg n C).mat.mulVec (ContErr.size tau.length codim deg n C).cols (vecOf g.coeffs)))
        (codim * (tau.length - 1) * der + iv * codim + c) = jump g der iv c := by
    intro der hd iv hiv c hc
    have hi : codim * (tau.length - 1) * der + iv * codim + c < (ContErr.size tau.length codim deg n C).rows := by
      unfold ContErr.size
      dsimp only
      have h1 : iv * codim + c < (tau.length - 1) * codim := by
        have : (iv + 1) * codim ≤ (tau.length - 1) * codim := Nat.mul_le_mul_right _ (by omega)
        rw [Nat.succ_mul] at this; omega
      have h3 : (tau.length - 1) * codim * (der + 1) ≤ (tau.length - 1) * codim * (deg + 1) := Nat.mul_le_mul_left _ (by omega)
      rw [Nat.mul_succ] at h3
      rw [mul_comm codim]
      omega
    rw [vecOf_map_range hi]
    have h4 := hrows (vecOf g.coeffs) der hd iv hiv c hc
    rw [hxl] at h4
    refine h4.trans ?_
    unfold jump
    rw [iteratedDeriv_curve, iteratedDeriv_curve, sub_self, GSpline.brk_succ g (by rw [ht]; omega), add_sub_cancel_left, hg.basis, hg.codim, ht]
  refine ⟨_, apply_ok (by exact hlen), by simp [ContErr.size], hval, ?_⟩
  rw [show (((List.range (ContErr.size tau.length codim deg n C).rows).map ((ContErr.size tau.length codim deg n C).mat.mulVec (ContErr.size tau.length codim deg n C).cols (vecOf g.coeffs))).length)
    = (tau.length - 1) * codim * (deg + 1) by simp [ContErr.size]]
  constructor
  · intro h der hd iv hiv c hc
    rw [← hval der hd iv hiv c hc]
    refine h _ ?_
    have h1 : iv * codim + c < (tau.length - 1) * codim := by
      have : (iv + 1) * codim ≤ (tau.length - 1) * codim := Nat.mul_le_mul_right _ (by omega)
      rw [Nat.succ_mul] at this; omega
    have h3 : (tau.length - 1) * codim * (der + 1) ≤ (tau.length - 1) * codim * (deg + 1) := Nat.mul_le_mul_left _ (by omega)
    rw [Nat.mul_succ] at h3
    rw [mul_comm codim]
    omega
  · intro h i hi
    obtain ⟨der, iv, c, hd, hiv, hc, rfl⟩ := contIdx_surj hi
    exact (hval der hd iv hiv c hc).trans (h der hd iv hiv c hc)

structure EInv (e : ContErr) (n cd dg : ℕ) (p : Vec) (tau : List ℝ) : Prop where
  basis : e.basis = .lagrange ((List.range n).map p)
  codim : e.codim = cd
  deg : e.deg = dg
  cache : e.basis.ContInv e.cache
  jumps : Jumps e.lf n cd dg p tau

theorem einv_updates {e : ContErr} {n codim deg : ℕ} {p : Vec} (hp : Nodes n p) {tau : List ℝ} (h : EInv e n codim deg p tau) (rs : List (List ℝ))
    (hrs : ∀ r ∈ rs, r ≠ [] ∧ 0 ∉ r) : ∃ e', contUpdates e rs = .ok e' ∧ EInv e' n codim deg p (lastLens tau rs) := by
  induction rs generalizing e tau with
  | nil => exact ⟨e, rfl, h⟩
  | cons r rs ih =>
    have hdim : e.basis.dim = n := by rw [h.basis]; simp [Basis.dim]
    obtain ⟨h1, h2⟩ := Basis.continuityMatrix_spec h.cache r.length e.codim e.deg r
    obtain ⟨C, hC, hj⟩ := cont_jumps (codim := codim) (deg := deg) hp (hrs r (by simp)).1 (hrs r (by simp)).2
    have hm : (e.basis.continuityMatrix r.length e.codim e.deg r e.cache).2 = .ok C := by rw [h2, h.basis, h.codim, h.deg, hC]
    have hu : e.update r = .ok { e with lf := ContErr.size r.length e.codim e.deg e.basis.dim C, cache := (e.basis.continuityMatrix r.length e.codim e.deg r e.cache).1 } := by
      unfold ContErr.update
      simp only [hm, GLL.ok_bind]
      rfl
    have hi : EInv { e with lf := ContErr.size r.length e.codim e.deg e.basis.dim C, cache := (e.basis.continuityMatrix r.length e.codim e.deg r e.cache).1 } n codim deg p r :=
      ⟨h.basis, h.codim, h.deg, h1, by dsimp only; rw [hdim, h.codim, h.deg]; exact hj⟩
    obtain ⟨e', k1, k2⟩ := ih hi fun r' hr' => hrs r' (List.mem_cons_of_mem _ hr')
    exact ⟨e', by unfold contUpdates; rw [hu]; exact k1, k2⟩

/-- **C63.** Built from interval lengths, and after any sequence of updates with other lengths (of any number of intervals), the continuity error of a spline
with the present lengths lists the jumps of its derivatives up to the order at the interior breakpoints; it vanishes exactly if they match. -/
theorem C63_jumps (n codim deg : ℕ) (tau : List ℝ) (jp jw p w : Vec) (hpw : GLL.pointsWeights n jp jw = .ok (p, w)) (hp : Nodes n p)
    (hne : tau ≠ []) (hz : 0 ∉ tau) (rs : List (List ℝ)) (hrs : ∀ r ∈ rs, r ≠ [] ∧ 0 ∉ r) :
    ∃ e0 e, ContErr.ofLengths n tau codim deg jp jw = .ok e0 ∧ contUpdates e0 rs = .ok e ∧ Jumps e.lf n codim deg p (lastLens tau rs) := by
  have hgl : glBasis n jp jw = .ok (.lagrange ((List.range n).map p)) := by unfold glBasis; rw [hpw]; rfl
  have hdim : (Basis.lagrange ((List.range n).map p)).dim = n := by simp [Basis.dim]
  obtain ⟨C, hC, hj⟩ := cont_jumps (codim := codim) (deg := deg) hp hne hz
  have hm : ((Basis.lagrange ((List.range n).map p)).continuityMatrix tau.length codim deg tau (fun _ => none)).2 = .ok C := hC
  have hu : ContErr.ofLengths n tau codim deg jp jw = .ok ⟨ContErr.size tau.length codim deg (Basis.lagrange ((List.range n).map p)).dim C, .lagrange ((List.range n).map p), fun _ => none, codim, deg⟩ := by
    unfold ContErr.ofLengths
    simp only [hgl, hm, GLL.ok_bind]
    rfl
  obtain ⟨e', k1, k2⟩ := einv_updates hp (e := ⟨ContErr.size tau.length codim deg (Basis.lagrange ((List.range n).map p)).dim C, .lagrange ((List.range n).map p), fun _ => none, codim, deg⟩)
    (n := n) (codim := codim) (deg := deg) (tau := tau) ⟨rfl, rfl, rfl, Basis.contInv_empty _, by dsimp only; rw [hdim]; exact hj⟩ rs hrs
  exact ⟨_, e', hu, k1, k2.jumps⟩

/-- **C63.** The constructor from a spline whose basis was asked for any matrices before. -/
theorem C63_jumps_of_spline (n codim deg : ℕ) (jp jw p w : Vec) (hpw : GLL.pointsWeights n jp jw = .ok (p, w)) (hp : Nodes n p) (a : GSpline)
    (ha : OnGrid a n a.tau.length codim p) (hne : a.tau ≠ []) (hz : 0 ∉ a.tau) (hist : List MatReq) (rs : List (List ℝ)) (hrs : ∀ r ∈ rs, r ≠ [] ∧ 0 ∉ r) :
    ∃ e0 e, ContErr.ofSpline a deg (contHistory a.basis hist) jp jw = .ok e0 ∧ contUpdates e0 rs = .ok e ∧ Jumps e.lf n codim deg p (lastLens a.tau rs) := by
  have hdim : a.basis.dim = n := by rw [ha.basis]; simp [Basis.dim]
  have hgl : glBasis n jp jw = .ok (.lagrange ((List.range n).map p)) := by unfold glBasis; rw [hpw]; rfl
  obtain ⟨C, hC, hj⟩ := cont_jumps (codim := codim) (deg := deg) hp hne hz
  have hm : (a.basis.continuityMatrix a.nIntervals a.codim deg a.tau (contHistory a.basis hist)).2 = .ok C := by
    rw [C33_continuity_matrix_history, ha.basis, ha.codim]; exact hC
  have hu : ContErr.ofSpline a deg (contHistory a.basis hist) jp jw = .ok ⟨ContErr.size a.nIntervals a.codim deg a.basis.dim C, .lagrange ((List.range n).map p), fun _ => none, a.codim, deg⟩ := by
    unfold ContErr.ofSpline
    simp only [hm, hdim, hgl, GLL.ok_bind]
    rfl
  obtain ⟨e', k1, k2⟩ := einv_updates hp (e := ⟨ContErr.size a.nIntervals a.codim deg a.basis.dim C, .lagrange ((List.range n).map p), fun _ => none, a.codim, deg⟩)
    (n := n) (codim := codim) (deg := deg) (tau := a.tau) ⟨rfl, ha.codim, rfl, Basis.contInv_empty _, by dsimp only; rw [hdim, ha.codim]; exact hj⟩ rs hrs
  exact ⟨_, e', hu, k1, k2.jumps⟩

theorem nodes_two {p : Vec} (h0 : p 0 = -1) (h1 : p 1 = 1) : Nodes 2 p where
  two := le_rfl
  first := h0
  last := h1
  sep := separated_congr (p := vecOf [-1, 1]) (fun k hk => by interval_cases k <;> simp [vecOf, h0, h1]) two_nodes.sep
  mem := fun k hk => by interval_cases k <;> norm_num [h0, h1]

/-- Two nodes, lengths `1, 2`: the spline runs from `0` to `3`, then from `1` to `7`, the jump at time one is `2`. -/
example (jp jw : Vec) : ∃ p w e0 e v, GLL.pointsWeights 2 jp jw = .ok (p, w) ∧ ContErr.ofLengths 2 [5, 5, 5] 1 1 jp jw = .ok e0 ∧ contUpdates e0 [[3], [1, 2]] = .ok e ∧
    e.lf.call ⟨(0, 3), 1, .lagrange ((List.range 2).map p), [0, 3, 1, 7], [1, 2]⟩ = .ok v ∧ v.length = 2 ∧ vecOf v 0 = 2 := by
  obtain ⟨p, w, hpw, hp0, hp1, hw0, hw1⟩ := two_points jp jw
  have hp : Nodes 2 p := nodes_two hp0 hp1
  obtain ⟨e0, e, h0, h1, h2⟩ := C63_jumps 2 1 1 [5, 5, 5] jp jw p w hpw hp (by simp) (by norm_num) [[3], [1, 2]] (by simp)
  set g : GSpline := ⟨(0, 3), 1, .lagrange ((List.range 2).map p), [0, 3, 1, 7], [1, 2]⟩ with hgd
  have hg : OnGrid g 2 2 1 p := ⟨rfl, rfl, rfl, by simp [Consistent, hgd, Basis.dim], by norm_num [hgd]⟩
  obtain ⟨v, k1, k2, k3, -⟩ := h2 g hg rfl
  refine ⟨p, w, e0, e, v, hpw, h0, h1, k1, k2, ?_⟩
  have := k3 0 (by norm_num) 0 (by norm_num [lastLens]) 0 (by norm_num)
  simp only [lastLens, mul_zero, zero_mul, add_zero] at this
  rw [this]
  have e1 := gl_curve (g := g) rfl hp.sep (iv := 0) (c := 0) (k := 1) (by norm_num [hgd, vecOf]) (by norm_num)
  have e2 := gl_curve (g := g) rfl hp.sep (iv := 1) (c := 0) (k := 0) (by norm_num [hgd, vecOf]) (by norm_num)
  have b1 : nodeTime g p 0 1 = brk g 1 := by norm_num [nodeTime, brk, hgd, vecOf, hp1, List.range_succ]
  have b2 : nodeTime g p 1 0 = brk g 1 := by norm_num [nodeTime, brk, hgd, vecOf, hp0, List.range_succ]
  have n1 : nodal g 0 0 1 = 3 := by norm_num [nodal, hgd, vecOf, Basis.dim]
  have n2 : nodal g 1 0 0 = 1 := by norm_num [nodal, hgd, vecOf, Basis.dim]
  unfold jump
  rw [iteratedDeriv_zero, iteratedDeriv_zero, zero_add, ← b1, e1, b1, ← b2, e2, n1, n2]
  norm_num

/-! ## C64 -/

/-- The variables of a problem in which a collocation spline with the coefficients `x` is registered, among other components. -/
noncomputable def registered (pre post : List (String × VarComp)) (g : GSpline) (x : List ℝ) : List (String × VarComp) :=
  pre ++ ("GLL", .gll ((GLLVar.make g).setVariables x)) :: post

/-- The other components have other names. -/
def OtherNames (pre : List (String × VarComp)) : Prop := ∀ q ∈ pre, q.1 ≠ "GLL"

/-- `x + s h`. -/
def along (x h : List ℝ) (s : ℝ) : List ℝ := List.zipWith (fun a b => a + s * b) x h

theorem theSpline_registered {pre post : List (String × VarComp)} (hpre : OtherNames pre) (g : GSpline) (x : List ℝ) :
    theSpline (registered pre post g x) = .ok { g with coeffs := x } := by
  unfold theSpline registered
  have : (pre ++ ("GLL", VarComp.gll ((GLLVar.make g).setVariables x)) :: post).lookup "GLL" = some (.gll ((GLLVar.make g).setVariables x)) := by
    induction pre with
    | nil => simp
    | cons q pre ih =>
      have h1 := hpre q (by simp)
      rw [List.cons_append, List.lookup_cons]
      rw [show ("GLL" == q.1) = false by simpa using fun h => h1 h.symm]
      exact ih fun q' hq' => hpre q' (List.mem_cons_of_mem _ hq')
  rw [this]
  rfl

/-- **C64**, variables: the number of variables is the number of coefficients, they are unbounded, and whatever was set before, the values are the last ones set,
the other data of the spline stay. -/
theorem C64_variable (g : GSpline) (xs : List (List ℝ)) (x : List ℝ) :
    (GLLVar.make g).rows = g.coeffs.length ∧ (GLLVar.make g).getValues = g.coeffs ∧
    (let v := (xs.foldl GLLVar.setVariables (GLLVar.make g)).setVariables x
     v.getValues = x ∧ v.rows = g.coeffs.length ∧ v.getBounds.length = g.coeffs.length ∧ (∀ b ∈ v.getBounds, b = (⊥, ⊤)) ∧ v.spline = { g with coeffs := x }) := by
  refine ⟨rfl, rfl, ?_⟩
  have h : ∀ (xs : List (List ℝ)) (v : GLLVar), (xs.foldl GLLVar.setVariables v).rows = v.rows ∧ (xs.foldl GLLVar.setVariables v).bounds = v.bounds ∧
      ∃ y, (xs.foldl GLLVar.setVariables v).spline = { v.spline with coeffs := y } := by
    intro xs
    induction xs with
    | nil => intro v; exact ⟨rfl, rfl, v.spline.coeffs, rfl⟩
    | cons y xs ih =>
      intro v
      obtain ⟨a, b, z, c⟩ := ih (v.setVariables y)
      exact ⟨a, b, z, c⟩
  obtain ⟨a, b, y, c⟩ := h xs (GLLVar.make g)
  refine ⟨rfl, a, ?_, ?_, ?_⟩
  · show (xs.foldl GLLVar.setVariables (GLLVar.make g)).bounds.length = _
    rw [b]; simp [GLLVar.make]
  · show ∀ q ∈ (xs.foldl GLLVar.setVariables (GLLVar.make g)).bounds, _
    rw [b]; intro q hq; exact (List.mem_replicate.mp hq).2
  · show { (xs.foldl GLLVar.setVariables (GLLVar.make g)).spline with coeffs := x } = _
    rw [c]; rfl

theorem mulVec_along (M : Mat) (x h : List ℝ) (hh : h.length = x.length) (n i : ℕ) (hn : n = x.length) (s : ℝ) :
    M.mulVec n (vecOf (along x h s)) i = M.mulVec n (vecOf x) i + s * M.mulVec n (vecOf h) i := by
  unfold Mat.mulVec
  rw [mul_sum, ← sum_add_distrib]
  refine sum_congr rfl fun j hj => ?_
  have hj' := mem_range.mp hj
  unfold along
  rw [vecOf_zipWith (by omega) (by omega)]
  ring

theorem along_length {x h : List ℝ} (hh : h.length = x.length) (s : ℝ) : (along x h s).length = x.length := by
  unfold along; rw [List.length_zipWith]; omega

/-- **C64**, constraints: a wrapped linear functional with as many columns as there are variables has `GetRows()` values, all with the given bounds, the values are
those of the functional at the spline with the current coefficients, and the Jacobian is exact: the derivative of the values in the direction `h` is the Jacobian
times `h`, at all variables. -/
theorem C64_constraint_linear (L : LF) (lo hi : ℝ) (pre post : List (String × VarComp)) (hpre : OtherNames pre) (g : GSpline) (hg : g.coeffs.length = L.cols)
    (x : List ℝ) (hx : x.length = g.coeffs.length) :
    ∃ v J, (ConstraintW.make lo hi L.functional).getValues (registered pre post g x) = .ok v ∧
      v.length = (ConstraintW.make lo hi L.functional).rows ∧ L.call { g with coeffs := x } = .ok v ∧
      (ConstraintW.make lo hi L.functional).getBounds = List.replicate v.length ((lo : EReal), (hi : EReal)) ∧
      (ConstraintW.make lo hi L.functional).fillJacobian (registered pre post g x) "GLL" = .ok J ∧
      ∀ h : List ℝ, h.length = x.length → ∃ (V : ℕ → ℝ → ℝ) (d : List ℝ), J.apply h = .ok d ∧ d.length = v.length ∧
        (∀ s, (ConstraintW.make lo hi L.functional).getValues (registered pre post g (along x h s)) = .ok ((List.range v.length).map (V · s))) ∧
        ∀ i < v.length, HasDerivAt (V i) (vecOf d i) 0 := by
  have hval : ∀ y : List ℝ, y.length = L.cols → (ConstraintW.make lo hi L.functional).getValues (registered pre post g y) =
      .ok ((List.range L.rows).map (L.mat.mulVec L.cols (vecOf y))) := by
    intro y hy
    unfold ConstraintW.getValues
    rw [theSpline_registered hpre, GLL.ok_bind]
    exact apply_ok hy
  refine ⟨_, L, hval x (by omega), by simp [ConstraintW.make, LF.functional], apply_ok (by dsimp only; omega), by simp [ConstraintW.make, LF.functional, ConstraintW.getBounds], ?_, ?_⟩
  · unfold ConstraintW.fillJacobian fillJacobian
    rw [theSpline_registered hpre, GLL.ok_bind]
    rfl
  · intro h hh
    refine ⟨fun i s => L.mat.mulVec L.cols (vecOf x) i + s * L.mat.mulVec L.cols (vecOf h) i, _, apply_ok (by omega), by simp, ?_, ?_⟩
    · intro s
      rw [hval _ (by rw [along_length hh]; omega)]
      simp only [List.length_map, List.length_range]
      congr 1
      exact List.map_congr_left fun i _ => mulVec_along _ _ _ hh _ _ (by omega) _
    · intro i hi
      rw [vecOf_map_range (by simpa using hi)]
      simpa using ((hasDerivAt_id (0 : ℝ)).mul_const (L.mat.mulVec L.cols (vecOf h) i)).const_add (L.mat.mulVec L.cols (vecOf x) i)

/-- **C64**, costs: the cost of a wrapped linear functional with one row. -/
theorem C64_cost_linear (L : LF) (hr : L.rows = 1) (pre post : List (String × VarComp)) (hpre : OtherNames pre) (g : GSpline) (hg : g.coeffs.length = L.cols)
    (x : List ℝ) (hx : x.length = g.coeffs.length) :
    ∃ v J, getCost L.functional (registered pre post g x) = .ok v ∧ L.call { g with coeffs := x } = .ok [v] ∧
      fillJacobian L.functional (registered pre post g x) "GLL" = .ok J ∧
      ∀ h : List ℝ, h.length = x.length → ∃ (V : ℝ → ℝ) (d : ℝ), J.apply h = .ok [d] ∧
        (∀ s, getCost L.functional (registered pre post g (along x h s)) = .ok (V s)) ∧ HasDerivAt V d 0 := by
  have hcall : ∀ y : List ℝ, y.length = L.cols → L.apply y = .ok [L.mat.mulVec L.cols (vecOf y) 0] := by
    intro y hy
    rw [apply_ok hy, hr]
    rfl
  have hval : ∀ y : List ℝ, y.length = L.cols → getCost L.functional (registered pre post g y) = .ok (L.mat.mulVec L.cols (vecOf y) 0) := by
    intro y hy
    unfold getCost
    rw [theSpline_registered hpre, GLL.ok_bind, show L.functional.call { g with coeffs := y } = L.apply y from rfl, hcall y hy, GLL.ok_bind]
    rfl
  refine ⟨_, L, hval x (by omega), hcall x (by omega), ?_, ?_⟩
  · unfold fillJacobian
    rw [theSpline_registered hpre, GLL.ok_bind]
    rfl
  · intro h hh
    refine ⟨fun s => L.mat.mulVec L.cols (vecOf x) 0 + s * L.mat.mulVec L.cols (vecOf h) 0, _, hcall h (by omega), fun s => ?_, ?_⟩
    · rw [hval _ (by rw [along_length hh]; omega), mulVec_along _ _ _ hh _ _ (by omega)]
    · simpa using ((hasDerivAt_id (0 : ℝ)).mul_const (L.mat.mulVec L.cols (vecOf h) 0)).const_add (L.mat.mulVec L.cols (vecOf x) 0)

/-- **C64**, costs: the cost of a wrapped `SobolevDistance`, with its gradient, at all variables. -/
theorem C64_cost_sobolev (f : Fn) (hdom : f.dom.1 < f.dom.2) (n m deg : ℕ) (hm : 0 < m) (jp jw junk p w : Vec) (junkDiff : Mat)
    (hpw : GLL.pointsWeights n jp jw = .ok (p, w)) (s : SobDist) (hs : SobDist.make f n m deg jp jw junk junkDiff = .ok s)
    (pre post : List (String × VarComp)) (hpre : OtherNames pre) (g : GSpline) (hg : OnGrid g n m f.codim p)
    (ht : g.tau = List.replicate m ((f.dom.2 - f.dom.1) / m)) (x : List ℝ) (hx : x.length = g.coeffs.length) :
    ∃ v J, getCost (s.functional jp jw) (registered pre post g x) = .ok v ∧ s.call { g with coeffs := x } jp jw = .ok [v] ∧
      fillJacobian (s.functional jp jw) (registered pre post g x) "GLL" = .ok J ∧
      ∀ h : List ℝ, h.length = x.length → ∃ (V : ℝ → ℝ) (d : ℝ), J.apply h = .ok [d] ∧
        (∀ r, getCost (s.functional jp jw) (registered pre post g (along x h r)) = .ok (V r)) ∧ HasDerivAt V d 0 := by
  have hg' : OnGrid { g with coeffs := x } n m f.codim p := ⟨hg.basis, hg.codim, hg.len, by
    unfold Consistent; dsimp only; rw [hx]; exact hg.cons, hg.dom⟩
  obtain ⟨s', e1, e2⟩ := C50_differential f hdom n m deg hm jp jw junk p w junkDiff hpw s hs _ hg' ht
  have hget : ∀ y v, s.call { g with coeffs := y } jp jw = .ok [v] → getCost (s.functional jp jw) (registered pre post g y) = .ok v := by
    intro y v hv
    unfold getCost
    rw [theSpline_registered hpre, GLL.ok_bind]
    show ((s.call { g with coeffs := y } jp jw).bind _) = _
    rw [hv]
    rfl
  obtain ⟨V0, V0', k1, -, -⟩ := e2 (List.replicate x.length 0) (by simp)
  have k0 : s.call { g with coeffs := x } jp jw = .ok [V0 0] := by
    rw [← k1 0]
    unfold moved
    congr 2
    dsimp only
    apply List.ext_getElem
    · simp
    · intro i h1 h2; simp
  refine ⟨V0 0, s'.diff, hget x _ k0, k0, ?_, ?_⟩
  · unfold fillJacobian
    rw [theSpline_registered hpre, GLL.ok_bind, if_pos rfl]
    show ((s.differential { g with coeffs := x } jp jw).bind _) = _
    rw [e1]
    rfl
  · intro h hh
    obtain ⟨V, d, l1, l2, l3⟩ := e2 h hh
    exact ⟨V, d, l2, fun r => hget _ _ (l1 r), l3⟩

/-- The variables of the examples: the spline of `C63` with two nodes and two intervals, after a component of another name. -/
noncomputable def exVars (x : List ℝ) : List (String × VarComp) :=
  registered [("other", .other)] [] ⟨(0, 3), 1, .lagrange [-1, 1], [0, 3, 1, 7], [1, 2]⟩ x

/-- A linear functional with two rows, as a constraint. -/
example : ∃ v, (ConstraintW.make 0 1 (LF.functional ⟨2, 4, fun i j => i + j⟩)).getValues (exVars [1, 2, 3, 4]) = .ok v ∧ v.length = 2 ∧ vecOf v 0 = 20 := by
  obtain ⟨v, J, h1, h2, h3, -⟩ := C64_constraint_linear ⟨2, 4, fun i j => i + j⟩ 0 1 [("other", .other)] [] (by simp [OtherNames])
    ⟨(0, 3), 1, .lagrange [-1, 1], [0, 3, 1, 7], [1, 2]⟩ rfl [1, 2, 3, 4] rfl
  refine ⟨v, h1, h2, ?_⟩
  rw [LF.call, apply_ok rfl] at h3
  cases h3
  rw [vecOf_map_range (by norm_num)]
  norm_num [Mat.mulVec, sum_range_succ, vecOf]

/-- A linear functional with one row, as a cost. -/
example : ∃ v J, getCost (LF.functional ⟨1, 4, fun _ j => j⟩) (exVars [1, 2, 3, 4]) = .ok v ∧ fillJacobian (LF.functional ⟨1, 4, fun _ j => j⟩) (exVars [1, 2, 3, 4]) "GLL" = .ok J := by
  obtain ⟨v, J, h1, -, h2, -⟩ := C64_cost_linear ⟨1, 4, fun _ j => j⟩ rfl [("other", .other)] [] (by simp [OtherNames])
    ⟨(0, 3), 1, .lagrange [-1, 1], [0, 3, 1, 7], [1, 2]⟩ rfl [1, 2, 3, 4] rfl
  exact ⟨v, J, h1, h2⟩

/-- The distance to the zero function on `[0, 1]`, two nodes, one interval. -/
example (jp jw junk : Vec) (junkDiff : Mat) : ∃ s g v, SobDist.make zeroFn 2 1 1 jp jw junk junkDiff = .ok s ∧
    getCost (s.functional jp jw) (registered [] [("other", .other)] g [0, 3]) = .ok v := by
  obtain ⟨p, w, hpw, -⟩ := two_points jp jw
  obtain ⟨s, hs⟩ := zeroFn_make jp jw junk junkDiff
  obtain ⟨v, J, h1, -⟩ := C64_cost_sobolev zeroFn (by norm_num [zeroFn, dom]) 2 1 1 (by norm_num) jp jw junk p w junkDiff hpw s hs [] [("other", .other)] (by simp [OtherNames])
    ⟨(0, 1), 1, .lagrange ((List.range 2).map p), [5, 6], [1]⟩ ⟨rfl, rfl, rfl, by simp [Consistent, Basis.dim], by norm_num⟩ (by simp [zeroFn, dom]) [0, 3] rfl
  exact ⟨s, _, v, hs, h1⟩

/-- **C64**, errors: the Jacobian with respect to any other set of variables, a component `"GLL"` of another class, and no component `"GLL"`. -/
theorem C64_errors (F : Functional) (lo hi : ℝ) (pre post : List (String × VarComp)) (hpre : OtherNames pre) (g : GSpline) (x : List ℝ) (name : String) :
    (name ≠ "GLL" → fillJacobian F (registered pre post g x) name = .error .logicError) ∧
    (getCost F (pre ++ ("GLL", .other) :: post) = .error .logicError ∧ (ConstraintW.make lo hi F).getValues (pre ++ ("GLL", .other) :: post) = .error .logicError ∧
      fillJacobian F (pre ++ ("GLL", .other) :: post) name = .error .logicError) ∧
    (getCost F pre = .error .assertFail ∧ (ConstraintW.make lo hi F).getValues pre = .error .assertFail ∧ fillJacobian F pre name = .error .assertFail) := by
  have h1 : theSpline (pre ++ ("GLL", .other) :: post) = .error .logicError := by
    unfold theSpline
    have : (pre ++ ("GLL", VarComp.other) :: post).lookup "GLL" = some .other := by
      induction pre with
      | nil => simp
      | cons q pre ih =>
        have h1 := hpre q (by simp)
        rw [List.cons_append, List.lookup_cons, show ("GLL" == q.1) = false by simpa using fun h => h1 h.symm]
        exact ih fun q' hq' => hpre q' (List.mem_cons_of_mem _ hq')
    rw [this]
  have h2 : theSpline pre = .error .assertFail := by
    unfold theSpline
    have : pre.lookup "GLL" = none := by
      rw [List.lookup_eq_none_iff]
      intro q hq
      simpa using fun h => hpre q hq h.symm
    rw [this]
  refine ⟨fun hn => ?_, ⟨?_, ?_, ?_⟩, ?_, ?_, ?_⟩
  · unfold fillJacobian
    rw [theSpline_registered hpre, GLL.ok_bind, if_neg hn]
  · unfold getCost; rw [h1]; rfl
  · unfold ConstraintW.getValues; rw [h1]; rfl
  · unfold fillJacobian; rw [h1]; rfl
  · unfold getCost; rw [h2]; rfl
  · unfold ConstraintW.getValues; rw [h2]; rfl
  · unfold fillJacobian; rw [h2]; rfl

/-- **C64** does not hold for vectors of another size: they are stored without an exception, and the next evaluation of a linear functional is undefined. -/
theorem C64_wrong_size (L : LF) (pre post : List (String × VarComp)) (hpre : OtherNames pre) (g : GSpline) (x : List ℝ) (hx : x.length ≠ L.cols) :
    ((GLLVar.make g).setVariables x).getValues = x ∧ getCost L.functional (registered pre post g x) = .error .ub := by
  refine ⟨rfl, ?_⟩
  unfold getCost
  rw [theSpline_registered hpre, GLL.ok_bind]
  show ((L.apply x).bind _) = _
  unfold LF.apply
  rw [if_pos hx]
  rfl

/-- **C64**, a wrapped `ContinuityError` that is updated: the values are the jumps for the new lengths, and they fit `GetRows()` if the number of intervals is the old one. -/
theorem C64_continuity_constraint (n codim deg : ℕ) (tau : List ℝ) (jp jw p w : Vec) (hpw : GLL.pointsWeights n jp jw = .ok (p, w)) (hp : Nodes n p)
    (hne : tau ≠ []) (hz : 0 ∉ tau) (rs : List (List ℝ)) (hrs : ∀ r ∈ rs, r ≠ [] ∧ 0 ∉ r) (lo hi : ℝ) :
    ∃ e0 e, ContErr.ofLengths n tau codim deg jp jw = .ok e0 ∧ contUpdates e0 rs = .ok e ∧
      ∀ (pre post : List (String × VarComp)), OtherNames pre → ∀ g, OnGrid g n (lastLens tau rs).length codim p → g.tau = lastLens tau rs →
        ∃ v, ((ConstraintW.make lo hi e0.lf.functional).setMatrix e.lf).getValues (registered pre post g g.coeffs) = .ok v ∧
          (∀ der ≤ deg, ∀ iv < g.tau.length - 1, ∀ c < codim, vecOf v (codim * (g.tau.length - 1) * der + iv * codim + c) = jump g der iv c) ∧
          v.length = (g.tau.length - 1) * codim * (deg + 1) ∧ ((ConstraintW.make lo hi e0.lf.functional).setMatrix e.lf).rows = (tau.length - 1) * codim * (deg + 1) := by
  obtain ⟨e0, e, h0, h1, h2⟩ := C63_jumps n codim deg tau jp jw p w hpw hp hne hz rs hrs
  refine ⟨e0, e, h0, h1, fun pre post hpre g hg ht => ?_⟩
  obtain ⟨v, k1, k2, k3, -⟩ := h2 g hg ht
  refine ⟨v, ?_, by rw [ht]; exact k3, by rw [ht]; exact k2, ?_⟩
  · unfold ConstraintW.getValues
    rw [theSpline_registered hpre, GLL.ok_bind]
    exact k1
  · have hgl : glBasis n jp jw = .ok (.lagrange ((List.range n).map p)) := by unfold glBasis; rw [hpw]; rfl
    unfold ContErr.ofLengths at h0
    rw [hgl, GLL.ok_bind] at h0
    cases hc : ((Basis.lagrange ((List.range n).map p)).continuityMatrix tau.length codim deg tau (fun _ => none)).2 with
    | error q => rw [hc] at h0; cases h0
    | ok C => rw [hc, GLL.ok_bind, GLL.ok_bind] at h0; cases h0; rfl

/-- The error of a wrapper for three intervals is updated to two intervals: two rows are announced, one value is returned. -/
theorem C64_rows_false (jp jw : Vec) : ∃ p w e0 e v, GLL.pointsWeights 2 jp jw = .ok (p, w) ∧ ContErr.ofLengths 2 [5, 5, 5] 1 0 jp jw = .ok e0 ∧ e0.update [1, 2] = .ok e ∧
    ((ConstraintW.make 0 0 e0.lf.functional).setMatrix e.lf).getValues (registered [] [] ⟨(0, 3), 1, .lagrange ((List.range 2).map p), [0, 3, 1, 7], [1, 2]⟩ [0, 3, 1, 7]) = .ok v ∧
    v.length = 1 ∧ ((ConstraintW.make 0 0 e0.lf.functional).setMatrix e.lf).rows = 2 := by
  obtain ⟨p, w, hpw, hp0, hp1, -⟩ := two_points jp jw
  obtain ⟨e0, e, h0, h1, h2⟩ := C64_continuity_constraint 2 1 0 [5, 5, 5] jp jw p w hpw (nodes_two hp0 hp1) (by simp) (by norm_num) [[1, 2]] (by simp) 0 0
  obtain ⟨v, k1, -, k2, k3⟩ := h2 [] [] (by simp [OtherNames]) ⟨(0, 3), 1, .lagrange ((List.range 2).map p), [0, 3, 1, 7], [1, 2]⟩
    ⟨rfl, rfl, rfl, by simp [Consistent, Basis.dim], by norm_num⟩ rfl
  refine ⟨p, w, e0, e, v, hpw, h0, ?_, k1, k2, k3⟩
  unfold contUpdates at h1
  cases hu : e0.update [1, 2] with
  | error q => rw [hu] at h1; cases h1
  | ok e' => rw [hu] at h1; cases h1; rfl

end GSplines.Props
