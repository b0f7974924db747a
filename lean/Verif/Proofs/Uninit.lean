import Verif.Spec.Uninit
import Verif.Proofs.FailureSobolev
import Verif.Proofs.GLL
import Verif.Proofs.Colloc
import Verif.Model.Wrappers
import Verif.Model.PathIntegral
import Verif.Model.Random

/-!
# Two runs that differ in the contents of freshly allocated memory
-/

namespace GSplines.Uninit

open GSplines Finset Spec Colloc

/-! ## Points and weights -/

theorem pw_bind {α : Type} (n : ℕ) (jp jw jp' jw' : Vec) (F G : Vec × Vec → Res α)
    (h : ∀ r r' : Vec × Vec, (∀ i < n, r.1 i = r'.1 i ∧ r.2 i = r'.2 i) → F r = G r') :
    (GLL.pointsWeights n jp jw >>= F) = (GLL.pointsWeights n jp' jw' >>= G) := by
  rcases GLL.pointsWeights_junk n jp jw jp' jw' with ⟨e, h1, h2⟩ | ⟨r, r', h1, h2, h3⟩
  · rw [h1, h2]; rfl
  · rw [h1, h2]; exact h r r' h3

theorem map_range_congr {α : Type} {n : ℕ} {f g : ℕ → α} (h : ∀ i < n, f i = g i) : (List.range n).map f = (List.range n).map g :=
  List.map_congr_left fun i hi => h i (List.mem_range.mp hi)

theorem glBasis_eq (n : ℕ) (jp jw jp' jw' : Vec) : glBasis n jp jw = glBasis n jp' jw' := by
  refine pw_bind n jp jw jp' jw' _ _ fun r r' h => ?_
  dsimp only
  rw [map_range_congr fun i hi => (h i hi).1]

theorem mk_eq (dom : ℝ × ℝ) (codim nInt nglp : ℕ) (co tau : List ℝ) (jp jw jp' jw' : Vec) :
    Colloc.mk dom codim nInt nglp co tau jp jw = Colloc.mk dom codim nInt nglp co tau jp' jw' := by
  unfold Colloc.mk; rw [glBasis_eq nglp jp jw jp' jw']

/-- The blocks that were written agree. -/
theorem approximate_eq (f : Fn) (n m : ℕ) (jp jw junk jp' jw' junk' : Vec) : approximate f n m jp jw junk = approximate f n m jp' jw' junk' := by
  unfold approximate
  refine pw_bind n jp jw jp' jw' _ _ fun r r' h => ?_
  dsimp only
  have hp : ∀ iv : ℕ, (List.range n).map (fun k => (r.1 k + 1) * ((f.dom.2 - f.dom.1) / m) / 2 + (f.dom.1 + iv * ((f.dom.2 - f.dom.1) / m)))
      = (List.range n).map (fun k => (r'.1 k + 1) * ((f.dom.2 - f.dom.1) / m) / 2 + (f.dom.1 + iv * ((f.dom.2 - f.dom.1) / m))) :=
    fun iv => map_range_congr fun i hi => by rw [(h i hi).1]
  simp only [hp, mk_eq f.dom f.codim m n _ _ jp jw jp' jw']
  rcases GLL.forLoopM_rel (fun j (s t : Vec) => ∀ x < j * n * f.codim, s x = t x) (a := 0) (b := m) (Nat.zero_le m)
    (fun iv v => do
      let rows ← f.run f.codim ((List.range n).map fun k => (r'.1 k + 1) * ((f.dom.2 - f.dom.1) / m) / 2 + (f.dom.1 + iv * ((f.dom.2 - f.dom.1) / m)))
      return storeBlock n f.codim iv rows v) (s := junk) (t := junk') (by intro x hx; simp at hx)
    (by
      intro iv _ _ s t hst
      cases f.run f.codim ((List.range n).map fun k => (r'.1 k + 1) * ((f.dom.2 - f.dom.1) / m) / 2 + (f.dom.1 + iv * ((f.dom.2 - f.dom.1) / m))) with
      | error e => exact .inl ⟨e, rfl, rfl⟩
      | ok rows =>
        refine .inr ⟨_, _, rfl, rfl, fun x hx => ?_⟩
        by_cases hlt : x < iv * n * f.codim
        · rw [(storeBlock_spec n f.codim iv rows s).2 x (.inl hlt), (storeBlock_spec n f.codim iv rows t).2 x (.inl hlt)]; exact hst x hlt
        · obtain ⟨y, rfl⟩ : ∃ y, x = iv * n * f.codim + y := ⟨x - iv * n * f.codim, by omega⟩
          have hy : y < n * f.codim := by
            have : (iv + 1) * n * f.codim = iv * n * f.codim + n * f.codim := by ring
            omega
          rw [(storeBlock_spec n f.codim iv rows s).1 y hy, (storeBlock_spec n f.codim iv rows t).1 y hy]) with ⟨e, h1, h2⟩ | ⟨x, y, h1, h2, h3⟩
  · rw [h1, h2]
  · rw [h1, h2, GLL.ok_bind, GLL.ok_bind]
    rw [map_range_congr fun i hi => h3 i (by rw [show m * n * f.codim = f.codim * n * m by ring]; exact hi)]

theorem segments_eq {m n : ℕ} {f g : ℕ → Vec} (r s : Vec) (h : ∀ iv < n, ∀ k < m, f iv k = g iv k) {j : ℕ} (hj : j < m * n) :
    GLL.segments m n f r j = GLL.segments m n g s j := by
  have hm : 0 < m := Nat.pos_of_ne_zero fun h0 => by simp [h0] at hj
  have h1 : j / m < n := Nat.div_lt_of_lt_mul hj
  have h2 : j % m < m := Nat.mod_lt _ hm
  have h3 : j = j / m * m + j % m := by rw [Nat.mul_comm, Nat.div_add_mod]
  rw [h3, GLL.segments_spec m n f r h1 h2, GLL.segments_spec m n g s h1 h2, h _ h1 _ h2]

theorem norm_eq (g : GSpline) (jp jw junk jp' jw' junk' : Vec) : Colloc.norm g jp jw junk = Colloc.norm g jp' jw' junk' := by
  unfold Colloc.norm
  dsimp only
  rw [mk_eq _ _ _ _ _ _ jp jw jp' jw', map_range_congr fun j hj => segments_eq junk junk' (fun _ _ _ _ => rfl) hj]

theorem discretization_eq (g : GSpline) (jp jw junk jp' jw' junk' : Vec) : discretization g jp jw junk = discretization g jp' jw' junk' := by
  unfold discretization
  refine pw_bind _ jp jw jp' jw' _ _ fun r r' h => ?_
  dsimp only
  congr 1
  refine map_range_congr fun j hj => ?_
  unfold GLL.gridPoints
  exact segments_eq _ _ (fun iv _ k hk => by rw [(h k hk).1]) hj

/-! ## Integrals -/

theorem zipWith_range_congr {α : Type} (v : List α) (n : ℕ) (f g : α → ℕ → ℝ) (h : ∀ a, ∀ k < n, f a k = g a k) :
    List.zipWith f v (List.range n) = List.zipWith g v (List.range n) := by
  refine List.ext_getElem (by simp) fun i h1 h2 => ?_
  simp only [List.getElem_zipWith, List.getElem_range]
  refine h _ _ ?_
  simp at h1
  exact h1.2

theorem integral_eq (f : Fn) (n k : ℕ) (jp jw jp' jw' : Vec) : f.integral n k jp jw = f.integral n k jp' jw' := by
  unfold Fn.integral
  split_ifs
  · rfl
  refine pw_bind _ jp jw jp' jw' _ _ fun r r' h => ?_
  dsimp only
  congr 1
  funext iv x
  unfold Fn.integralStep
  dsimp only
  rw [map_range_congr (g := fun i => (r'.1 i + 1) * ((f.dom.2 - f.dom.1) / k) / 2 + (f.dom.1 + iv * ((f.dom.2 - f.dom.1) / k))) fun i hi => by rw [(h i hi).1]]
  congr 1
  funext v
  rw [zipWith_range_congr v n _ (fun row k => row.headD 0 * r'.2 k) fun a i hi => by rw [(h i hi).2]]

theorem semiInner_eq (f g : Fn) (l : List (ℕ × ℝ)) (n k : ℕ) (jp jw jp' jw' : Vec) : f.semiInner g l n k jp jw = f.semiInner g l n k jp' jw' := by
  unfold Fn.semiInner; simp only [fun s : Fn => integral_eq s n k jp jw jp' jw']

theorem pathIntegral_eq (d p : Fn) (jp jw jp' jw' : Vec) : pathIntegral d p jp jw = pathIntegral d p jp' jw' := by
  unfold pathIntegral; simp only [fun s : Fn => integral_eq s 10 1 jp jw jp' jw']

/-! ## Functionals -/

theorem actOn_eq (L : LF) (g : GSpline) (jp jw jp' jw' : Vec) : L.actOn g jp jw = L.actOn g jp' jw' := by
  unfold LF.actOn; simp only [fun a b c d e f => mk_eq a b c d e f jp jw jp' jw']

theorem derivLengths_eq (codim nglp : ℕ) (tau : List ℝ) (deg : ℕ) (jp jw jp' jw' : Vec) : Deriv.ofLengths codim nglp tau deg jp jw = Deriv.ofLengths codim nglp tau deg jp' jw' := by
  unfold Deriv.ofLengths; rw [glBasis_eq nglp jp jw jp' jw']

theorem tlmAssign_eq (T : TLM) (f : Fn) (jp jw junk jp' jw' junk' : Vec) : T.assignFn f jp jw junk = T.assignFn f jp' jw' junk' := by
  unfold TLM.assignFn; rw [approximate_eq f T.nglp T.nInt jp jw junk jp' jw' junk']

theorem contSpline_eq (g : GSpline) (deg : ℕ) (cc : Basis.CCache) (jp jw jp' jw' : Vec) : ContErr.ofSpline g deg cc jp jw = ContErr.ofSpline g deg cc jp' jw' := by
  unfold ContErr.ofSpline; rw [glBasis_eq _ jp jw jp' jw']

theorem contLengths_eq (nglp : ℕ) (tau : List ℝ) (codim deg : ℕ) (jp jw jp' jw' : Vec) : ContErr.ofLengths nglp tau codim deg jp jw = ContErr.ofLengths nglp tau codim deg jp' jw' := by
  unfold ContErr.ofLengths; rw [glBasis_eq _ jp jw jp' jw']

theorem pw_rel {α : Type} (R : α → α → Prop) (n : ℕ) (jp jw jp' jw' : Vec) (F G : Vec × Vec → Res α)
    (h : ∀ r r' : Vec × Vec, (∀ i < n, r.1 i = r'.1 i ∧ r.2 i = r'.2 i) → SameRes R (F r) (G r')) :
    SameRes R (GLL.pointsWeights n jp jw >>= F) (GLL.pointsWeights n jp' jw' >>= G) := by
  rcases GLL.pointsWeights_junk n jp jw jp' jw' with ⟨e, h1, h2⟩ | ⟨r, r', h1, h2, h3⟩
  · rw [h1, h2]; exact .inl ⟨e, rfl, rfl⟩
  · rw [h1, h2]; exact h r r' h3

theorem row_same (dom : ℝ × ℝ) (nglp n : ℕ) (jp jw junk jp' jw' junk' : Vec) :
    SameRes SameLF (Integ.row dom nglp n jp jw junk) (Integ.row dom nglp n jp' jw' junk') :=
  pw_rel _ _ jp jw jp' jw' _ _ fun _ _ h => .inr ⟨_, _, rfl, rfl, rfl, rfl, fun _ _ _ hj => by
    dsimp only [GLL.gridWeights]
    exact segments_eq _ _ (fun iv _ k hk => by rw [(h k hk).2]) hj⟩

theorem ofDomain_same (dom : ℝ × ℝ) (nglp n : ℕ) (jp jw junk jp' jw' junk' : Vec) :
    SameRes SameInteg (Integ.ofDomain dom nglp n jp jw junk) (Integ.ofDomain dom nglp n jp' jw' junk') := by
  unfold Integ.ofDomain
  rcases row_same dom nglp n jp jw junk jp' jw' junk' with ⟨e, h1, h2⟩ | ⟨x, y, h1, h2, h3⟩
  · rw [h1, h2]; exact .inl ⟨e, rfl, rfl⟩
  · rw [h1, h2]; exact .inr ⟨_, _, rfl, rfl, h3, rfl⟩

theorem update_same {I J : Integ} (h : SameInteg I J) (dom : ℝ × ℝ) (nglp n : ℕ) (jp jw junk jp' jw' junk' : Vec) :
    SameRes SameInteg (I.update dom nglp n jp jw junk) (J.update dom nglp n jp' jw' junk') := by
  unfold Integ.update
  rcases row_same dom nglp n jp jw junk jp' jw' junk' with ⟨e, h1, h2⟩ | ⟨x, y, h1, h2, h3⟩
  · rw [h1, h2]; exact .inl ⟨e, rfl, rfl⟩
  · rw [h1, h2]; exact .inr ⟨_, _, rfl, rfl, h3, h.2⟩

theorem updateLengths_same {I J : Integ} (h : SameInteg I J) (tau : List ℝ) (jp jw junk jp' jw' junk' : Vec) :
    SameRes SameInteg (I.updateLengths tau jp jw junk) (J.updateLengths tau jp' jw' junk') := by
  unfold Integ.updateLengths
  rw [← h.2, ← h.1.1]
  split_ifs with h0
  · exact .inl ⟨_, rfl, rfl⟩
  · exact pw_rel _ _ jp jw jp' jw' _ _ fun _ _ h' => .inr ⟨_, _, rfl, rfl, ⟨rfl, rfl, fun _ _ _ hj => by
      dsimp only [GLL.varWeights]
      exact segments_eq _ _ (fun iv _ k hk => by rw [(h' k hk).2]) hj⟩, rfl⟩

theorem apply_same {A B : LF} (h : SameLF A B) (v : List ℝ) : A.apply v = B.apply v := by
  unfold LF.apply
  rw [← h.1, ← h.2.1]
  split_ifs
  · rfl
  · congr 1
    refine map_range_congr fun i hi => ?_
    unfold Mat.mulVec
    exact Finset.sum_congr rfl fun j hj => by rw [h.2.2 i hi j (Finset.mem_range.mp hj)]

/-- Distances that differ at most in entries outside of their matrices and in the differential. -/
def SameDist (s t : SobDist) : Prop := s.approx = t.approx ∧ s.approxD = t.approxD ∧ SameInteg s.int t.int ∧ s.der = t.der

theorem make_same (f : Fn) (nglp nInt deg : ℕ) (jp jw junk : Vec) (jd : Mat) (jp' jw' junk' : Vec) (jd' : Mat) :
    SameRes SameDist (SobDist.make f nglp nInt deg jp jw junk jd) (SobDist.make f nglp nInt deg jp' jw' junk' jd') := by
  unfold SobDist.make
  rw [approximate_eq f nglp nInt jp jw junk jp' jw' junk']
  cases approximate f nglp nInt jp' jw' junk' with
  | error e => exact .inl ⟨e, rfl, rfl⟩
  | ok a =>
    rw [GLL.ok_bind, GLL.ok_bind]
    cases f.derivate 1 with
    | error e => exact .inl ⟨e, rfl, rfl⟩
    | ok fd =>
      rw [GLL.ok_bind, GLL.ok_bind, approximate_eq fd nglp nInt jp jw junk jp' jw' junk']
      cases approximate fd nglp nInt jp' jw' junk' with
      | error e => exact .inl ⟨e, rfl, rfl⟩
      | ok ad =>
        rw [GLL.ok_bind, GLL.ok_bind]
        unfold Integ.ofSpline Deriv.ofSpline
        rcases ofDomain_same a.dom a.basis.dim a.nIntervals jp jw junk jp' jw' junk' with ⟨e, h1, h2⟩ | ⟨x, y, h1, h2, h3⟩
        · rw [h1, h2]; exact .inl ⟨e, rfl, rfl⟩
        · rw [h1, h2, GLL.ok_bind, GLL.ok_bind, derivLengths_eq _ _ _ _ jp jw jp' jw']
          cases Deriv.ofLengths a.codim a.basis.dim a.tau 1 jp' jw' with
          | error e => exact .inl ⟨e, rfl, rfl⟩
          | ok d => exact .inr ⟨_, _, rfl, rfl, rfl, rfl, h3, rfl⟩

theorem errD_same {s t : SobDist} (h : SameDist s t) (g : GSpline) (jp jw jp' jw' : Vec) : s.errD g jp jw = t.errD g jp' jw' := by
  unfold SobDist.errD
  rw [h.2.1, h.2.2.2, actOn_eq _ _ jp jw jp' jw']

theorem call_same {s t : SobDist} (h : SameDist s t) (g : GSpline) (jp jw jp' jw' : Vec) : s.call g jp jw = t.call g jp' jw' := by
  have h1 : s.err g = t.err g := by unfold SobDist.err; rw [h.1]
  have h2 := errD_same h g jp jw jp' jw'
  unfold SobDist.call
  rw [h1, h2]
  simp only [fun (L : LF) g => actOn_eq L g jp jw jp' jw', LF.call, apply_same h.2.2.1.1]

theorem differential_same {s t : SobDist} (h : SameDist s t) (g : GSpline) (jp jw jp' jw' : Vec) :
    SameRes (fun x y => SameDist x y ∧ SameLF x.diff y.diff) (s.differential g jp jw) (t.differential g jp' jw') := by
  have h1 : s.err g = t.err g := by unfold SobDist.err; rw [h.1]
  have h2 := errD_same h g jp jw jp' jw'
  unfold SobDist.differential
  rw [h1, h2, h.2.2.2]
  cases t.err g with
  | error e => exact .inl ⟨e, rfl, rfl⟩
  | ok x1 =>
    rw [GLL.ok_bind, GLL.ok_bind]
    cases TLM.ofSpline x1 with
    | error e => exact .inl ⟨e, rfl, rfl⟩
    | ok tr1 =>
      rw [GLL.ok_bind, GLL.ok_bind]
      cases t.errD g jp' jw' with
      | error e => exact .inl ⟨e, rfl, rfl⟩
      | ok x2 =>
        rw [GLL.ok_bind, GLL.ok_bind]
        cases TLM.ofSpline x2 with
        | error e => exact .inl ⟨e, rfl, rfl⟩
        | ok tr2 =>
          rw [GLL.ok_bind, GLL.ok_bind]
          cases tr2.lf.comp t.der.lf with
          | error e => exact .inl ⟨e, rfl, rfl⟩
          | ok c =>
            rw [GLL.ok_bind, GLL.ok_bind]
            cases tr1.lf.add c with
            | error e => exact .inl ⟨e, rfl, rfl⟩
            | ok r =>
              rw [GLL.ok_bind, GLL.ok_bind]
              have hI := h.2.2.1.1
              unfold LF.comp LF.smul
              dsimp only
              rw [← hI.1, ← hI.2.1]
              by_cases hc : s.int.lf.cols ≠ r.rows
              · rw [if_pos hc, if_pos hc]; exact .inl ⟨_, rfl, rfl⟩
              · rw [if_neg hc, if_neg hc]
                refine .inr ⟨_, _, rfl, rfl, ⟨h.1, h.2.1, h.2.2.1, rfl⟩, rfl, rfl, fun i hi j _ => ?_⟩
                dsimp only [Mat.mul]
                exact Finset.sum_congr rfl fun k hk => by rw [hI.2.2 i hi k (Finset.mem_range.mp hk)]

/-! ## change_interpolation_points -/

theorem changePoints_same (n m : ℕ) (old new : Vec) (junk junk' : Mat) {k j : ℕ} (hk : k < m) (hj : j < n) :
    Lagrange.changePoints n m old new junk k j = Lagrange.changePoints n m old new junk' k j := by
  obtain ⟨a1, a2⟩ := Lagrange.changePoints_spec n m old new junk k hk
  obtain ⟨b1, b2⟩ := Lagrange.changePoints_spec n m old new junk' k hk
  by_cases h : Lagrange.MatchUpTo n old new k
  · rw [a1 h j hj, b1 h j hj]
  · rw [a2 h j hj, b2 h j hj]

/-! ## Interpolator -/

theorem solve_coef (lu : LU) (tau : List ℝ) (w : Pts) (s : Interp) (c : Vec) :
    Failure.solve lu tau w { s with coef := c } = ({ (Failure.solve lu tau w s).1 with coef := c }, (Failure.solve lu tau w s).2) := by
  unfold Failure.solve
  by_cases h1 : ∃ x ∈ tau, x < 1 / 10 ^ 6
  · rw [if_pos h1, if_pos h1]
  rw [if_neg h1, if_neg h1]
  dsimp only
  cases Interp.fillMatrix s.basis s.codim s.n tau s.mat with
  | error e => rfl
  | ok m =>
    cases Interp.fillVector s.basis.dim s.codim s.n w s.vec with
    | error e => rfl
    | ok v =>
      dsimp only
      by_cases hs : lu.succeeds (s.basis.dim * s.codim * s.n) m = true <;> simp [Interp.size, hs]

theorem solve_const (lu : LU) (tau : List ℝ) (w : Pts) (s : Interp) :
    (Failure.solve lu tau w s).1.basis = s.basis ∧ (Failure.solve lu tau w s).1.codim = s.codim ∧ (Failure.solve lu tau w s).1.n = s.n := by
  unfold Failure.solve
  by_cases h1 : ∃ x ∈ tau, x < 1 / 10 ^ 6
  · rw [if_pos h1]; exact ⟨rfl, rfl, rfl⟩
  rw [if_neg h1]
  cases Interp.fillMatrix s.basis s.codim s.n tau s.mat with
  | error e => exact ⟨rfl, rfl, rfl⟩
  | ok m =>
    cases Interp.fillVector s.basis.dim s.codim s.n w s.vec with
    | error e => exact ⟨rfl, rfl, rfl⟩
    | ok v =>
      dsimp only
      split_ifs <;> exact ⟨rfl, rfl, rfl⟩

theorem solve_len {lu : LU} {tau : List ℝ} {w : Pts} {s : Interp} {x : List ℝ} (h : (Failure.solve lu tau w s).2 = .ok x) : tau.length = s.n := by
  unfold Failure.solve at h
  by_cases h1 : ∃ x ∈ tau, x < 1 / 10 ^ 6
  · rw [if_pos h1] at h; cases h
  rw [if_neg h1] at h
  rcases Failure.fillMatrix_error s.basis s.codim s.n tau s.mat with ⟨-, h2⟩ | ⟨h2, -⟩
  · rw [h2] at h; cases h
  · exact h2

theorem interpolate_coef (lu : LU) (tau : List ℝ) (w : Pts) (s : Interp) (c : Vec) :
    Failure.interpolate lu tau w { s with coef := c } = ({ (Failure.interpolate lu tau w s).1 with coef := c }, (Failure.interpolate lu tau w s).2) := by
  unfold Failure.interpolate
  rw [solve_coef]
  rcases Failure.solve lu tau w s with ⟨s', _ | x⟩ <;> rfl

theorem interpolate_const (lu : LU) (tau : List ℝ) (w : Pts) (s : Interp) : (Failure.interpolate lu tau w s).1 = (Failure.solve lu tau w s).1 := by
  unfold Failure.interpolate
  rcases Failure.solve lu tau w s with ⟨s', _ | x⟩ <;> rfl

theorem coeff_coef (lu : LU) (y tau : List ℝ) (idx : ℕ) (s : Interp) (c : Vec) (h1 : tau.length = s.n) (h2 : idx < s.n) :
    ∃ c', Failure.coeff lu y tau idx { s with coef := c } = ({ (Failure.coeff lu y tau idx s).1 with coef := c' }, (Failure.coeff lu y tau idx s).2) := by
  have h3 : ¬ (tau.length ≠ s.n ∨ s.n ≤ idx) := by omega
  unfold Failure.coeff
  by_cases h0 : ∃ x ∈ tau, x < 1 / 10 ^ 6
  · rw [if_pos h0, if_pos h0]; exact ⟨c, rfl⟩
  rw [if_neg h0, if_neg h0]
  dsimp only
  rw [if_neg h3, if_neg h3]
  cases Interp.fillDer s.basis s.codim s.n tau idx (s.ders idx) with
  | error e => exact ⟨c, rfl⟩
  | ok d =>
    dsimp only
    by_cases h4 : y.length ≠ s.basis.dim * s.codim * s.n
    · refine ⟨c, ?_⟩; simp [Interp.size, h4]
    cases hm : Interp.fillMatrix s.basis s.codim s.n tau s.mat with
    | error e => exact ⟨Mat.mulVec (s.basis.dim * s.codim * s.n) d (vecOf y), by simp [Interp.size, h4]⟩
    | ok m =>
      by_cases hs : lu.succeeds (s.basis.dim * s.codim * s.n) m = true
      · exact ⟨fun i => - lu.solve (s.basis.dim * s.codim * s.n) m (Mat.mulVec (s.basis.dim * s.codim * s.n) d (vecOf y)) i, by simp [Interp.size, h4, hs]⟩
      · exact ⟨Mat.mulVec (s.basis.dim * s.codim * s.n) d (vecOf y), by simp [Interp.size, h4, hs]⟩

theorem coeff_const (lu : LU) (y tau : List ℝ) (idx : ℕ) (s : Interp) :
    (Failure.coeff lu y tau idx s).1.basis = s.basis ∧ (Failure.coeff lu y tau idx s).1.codim = s.codim ∧ (Failure.coeff lu y tau idx s).1.n = s.n := by
  unfold Failure.coeff
  by_cases h0 : ∃ x ∈ tau, x < 1 / 10 ^ 6
  · rw [if_pos h0]; exact ⟨rfl, rfl, rfl⟩
  rw [if_neg h0]
  by_cases h3 : tau.length ≠ s.n ∨ s.n ≤ idx
  · rw [if_pos h3]; exact ⟨rfl, rfl, rfl⟩
  rw [if_neg h3]
  cases Interp.fillDer s.basis s.codim s.n tau idx (s.ders idx) with
  | error e => exact ⟨rfl, rfl, rfl⟩
  | ok d =>
    dsimp only
    split_ifs
    · exact ⟨rfl, rfl, rfl⟩
    · cases Interp.fillMatrix s.basis s.codim s.n tau s.mat with
      | error e => exact ⟨rfl, rfl, rfl⟩
      | ok m =>
        dsimp only
        split_ifs <;> exact ⟨rfl, rfl, rfl⟩

theorem run_n (lu : LU) (s : Interp) (c : ICall) : (c.run lu s).1.n = s.n := by
  cases c with
  | solve tau w => exact (solve_const lu tau w s).2.2
  | interpolate tau w => rw [ICall.run, interpolate_const]; exact (solve_const lu tau w s).2.2
  | coeff y tau idx => exact (coeff_const lu y tau idx s).2.2

theorem ianswers_coef (lu : LU) (l : List ICall) (s : Interp) (c : Vec) (h : ∀ a ∈ l, a.InRange s.n) : ianswers lu { s with coef := c } l = ianswers lu s l := by
  induction l generalizing s c with
  | nil => rfl
  | cons a l ih =>
    have hl : ∀ x ∈ l, x.InRange (a.run lu s).1.n := fun x hx => by rw [run_n]; exact h x (List.mem_cons_of_mem _ hx)
    have ha := h a List.mem_cons_self
    have key : ∃ c', a.run lu { s with coef := c } = ({ (a.run lu s).1 with coef := c' }, (a.run lu s).2) := by
      cases a with
      | solve tau w => exact ⟨c, by simp only [ICall.run, solve_coef]⟩
      | interpolate tau w => exact ⟨c, by simp only [ICall.run, interpolate_coef]⟩
      | coeff y tau idx =>
        obtain ⟨c', hc⟩ := coeff_coef lu y tau idx s c ha.1 ha.2
        exact ⟨c', by simp only [ICall.run, hc, Interp.size]⟩
    obtain ⟨c', hc⟩ := key
    simp only [ianswers, hc]
    rw [ih _ c' hl]

theorem interpolateFn_eq (lu : LU) (junk junk' : Vec) (tau : List ℝ) (w : Pts) (b : Basis) : interpolateFn lu junk tau w b = interpolateFn lu junk' tau w b := by
  unfold interpolateFn Interp.make
  split_ifs
  · rfl
  · rfl
  · rfl
  rw [GLL.ok_bind, GLL.ok_bind, ← Failure.interpolate_drop, ← Failure.interpolate_drop]
  rw [show (⟨b, w.cols, w.rows - 1, Mat.zero, fun _ => 0, junk', fun _ => Mat.zero, []⟩ : Interp)
    = { (⟨b, w.cols, w.rows - 1, Mat.zero, fun _ => 0, junk, fun _ => Mat.zero, []⟩ : Interp) with coef := junk' } from rfl, interpolate_coef]
  rcases Failure.interpolate lu tau w ⟨b, w.cols, w.rows - 1, Mat.zero, fun _ => 0, junk, fun _ => Mat.zero, []⟩ with ⟨s', _ | x⟩ <;> rfl

/-! ## SobolevNorm -/

theorem loop_same {σ : Type} (R : σ → σ → Prop) (n : ℕ) (body body' : ℕ → σ → σ × Res Unit) {s t : σ} (h0 : R s t)
    (hs : ∀ i < n, ∀ x y, R x y → (body i x).2 = (body' i y).2 ∧ R (body i x).1 (body' i y).1) :
    (Failure.loop 0 n body s).2 = (Failure.loop 0 n body' t).2 ∧ R (Failure.loop 0 n body s).1 (Failure.loop 0 n body' t).1 := by
  induction n with
  | zero => exact ⟨rfl, h0⟩
  | succ n ih =>
    obtain ⟨h1, h2⟩ := ih fun i hi => hs i (by omega)
    rw [Failure.loop_succ, Failure.loop_succ, ← h1]
    cases (Failure.loop 0 n body s).2 with
    | error e => exact ⟨rfl, h2⟩
    | ok u => exact hs n (by omega) _ _ h2

/-- For the classes other than Lagrange the memory is not used. -/
theorem matrix_mem {b : Basis} {mem mem' : LagMem} (h : ∀ x, b = .lagrange x → mem' = mem) (weights : List (ℕ × ℝ)) (t : ℝ) :
    Sobolev.matrix b mem' weights t = Sobolev.matrix b mem weights t ∧ Sobolev.matrixDtau b mem' weights t = Sobolev.matrixDtau b mem weights t := by
  cases b with
  | lagrange x => rw [h x rfl]; exact ⟨rfl, rfl⟩
  | legendre d => exact ⟨rfl, rfl⟩
  | b0101 a => exact ⟨rfl, rfl⟩

theorem innerProd_mem {b : Basis} {mem mem' : LagMem} (h : ∀ x, b = .lagrange x → mem' = mem) (weights : List (ℕ × ℝ)) (n codim : ℕ) (tau v1 v2 : List ℝ) :
    Sobolev.innerProd b mem' weights n codim tau v1 v2 = Sobolev.innerProd b mem weights n codim tau v1 v2 := by
  unfold Sobolev.innerProd
  simp only [fun t => (matrix_mem h weights t).1]

theorem gradValue_mem {b : Basis} {mem mem' : LagMem} (h : ∀ x, b = .lagrange x → mem' = mem) (weights : List (ℕ × ℝ)) (n codim size : ℕ) (tau y : List ℝ) (dy : Vec) (idx : ℕ) :
    Failure.gradValue b mem' weights n codim size tau y dy idx = Failure.gradValue b mem weights n codim size tau y dy idx := by
  unfold Failure.gradValue
  simp only [fun t => (matrix_mem h weights t).2, innerProd_mem h]

/-- Interpolators that differ at most in the member `coefficients_vector_`. -/
def SameInterp (s t : Interp) : Prop := t = { s with coef := t.coef }

theorem SameInterp.const {s t : Interp} (h : SameInterp s t) : t.basis = s.basis ∧ t.codim = s.codim ∧ t.n = s.n := by
  rw [h]; exact ⟨rfl, rfl, rfl⟩

theorem SameInterp.solve {s t : Interp} (h : SameInterp s t) (lu : LU) (tau : List ℝ) (w : Pts) :
    (Failure.solve lu tau w t).2 = (Failure.solve lu tau w s).2 ∧ SameInterp (Failure.solve lu tau w s).1 (Failure.solve lu tau w t).1 := by
  rw [h, solve_coef]; exact ⟨rfl, rfl⟩

theorem SameInterp.coeff {s t : Interp} (h : SameInterp s t) (lu : LU) (y tau : List ℝ) (idx : ℕ) (h1 : tau.length = s.n) (h2 : idx < s.n) :
    (Failure.coeff lu y tau idx t).2 = (Failure.coeff lu y tau idx s).2 ∧ SameInterp (Failure.coeff lu y tau idx s).1 (Failure.coeff lu y tau idx t).1 := by
  obtain ⟨c', hc⟩ := coeff_coef lu y tau idx s t.coef h1 h2
  rw [h, hc]; exact ⟨rfl, rfl⟩

/-- Objects that differ at most in uninitialised memory that is not used. -/
structure SameSob (s t : Sobolev) : Prop where
  interp : SameInterp s.interp t.interp
  weights : t.weights = s.weights
  points : t.points = s.points
  mem : ∀ x, s.interp.basis = .lagrange x → t.mem = s.mem

theorem SameSob.cost {s t : Sobolev} (h : SameSob s t) (lu : LU) (tau : List ℝ) :
    (Failure.cost lu tau t).2 = (Failure.cost lu tau s).2 ∧ SameSob (Failure.cost lu tau s).1 (Failure.cost lu tau t).1 := by
  obtain ⟨h1, h2⟩ := h.interp.solve lu tau s.points
  have hb := solve_const lu tau s.points s.interp
  unfold Failure.cost
  rw [h.points]
  generalize Failure.solve lu tau s.points s.interp = p at *
  generalize Failure.solve lu tau s.points t.interp = q at *
  obtain ⟨p1, p2⟩ := p
  obtain ⟨q1, q2⟩ := q
  dsimp only at h1 h2 hb
  subst h1
  have hm : ∀ x, p1.basis = .lagrange x → t.mem = s.mem := fun x hx => h.mem x (by rw [← hb.1]; exact hx)
  cases q2 with
  | error e => exact ⟨rfl, h2, h.weights, rfl, hm⟩
  | ok y =>
    refine ⟨?_, h2, h.weights, rfl, hm⟩
    dsimp only
    rw [h2.const.1, h2.const.2.1, h2.const.2.2, h.weights]
    exact innerProd_mem hm _ _ _ _ _ _

/-- Interpolators that differ at most in `coefficients_vector_`, with the constants of a given one, and equal buffers. -/
def SameSt (b : Basis) (n : ℕ) (x y : Interp × List ℝ) : Prop := SameInterp x.1 y.1 ∧ x.1.basis = b ∧ x.1.n = n ∧ y.2 = x.2

theorem gradPass_same {s t : Sobolev} (h : SameSob s t) (lu : LU) (tau y : List ℝ) {idx : ℕ} {n : ℕ} (hlen : tau.length = n) (hidx : idx < n)
    {x z : Interp × List ℝ} (hx : SameSt s.interp.basis n x z) :
    (Failure.gradPass lu s tau y idx x).2 = (Failure.gradPass lu t tau y idx z).2 ∧
      SameSt s.interp.basis n (Failure.gradPass lu s tau y idx x).1 (Failure.gradPass lu t tau y idx z).1 := by
  obtain ⟨x1, x2⟩ := x
  obtain ⟨z1, z2⟩ := z
  obtain ⟨k1, k2, k3, k4⟩ := hx
  dsimp only at k1 k2 k3 k4
  subst k4
  obtain ⟨h1, h2⟩ := k1.coeff lu y tau idx (by omega) (by omega)
  have hb := coeff_const lu y tau idx x1
  unfold Failure.gradPass
  dsimp only
  generalize Failure.coeff lu y tau idx x1 = p at *
  generalize Failure.coeff lu y tau idx z1 = q at *
  obtain ⟨p1, p2⟩ := p
  obtain ⟨q1, q2⟩ := q
  dsimp only at h1 h2 hb
  subst h1
  have hpb : p1.basis = s.interp.basis := by rw [hb.1, k2]
  have hm : ∀ x, p1.basis = .lagrange x → t.mem = s.mem := fun x hx => h.mem x (by rw [← hpb]; exact hx)
  have hp : SameSt s.interp.basis n (p1, z2) (q1, z2) := ⟨h2, hpb, by rw [hb.2.2, k3], rfl⟩
  cases q2 with
  | error e => exact ⟨rfl, hp⟩
  | ok dy =>
    dsimp only
    have e : Failure.gradValue q1.basis t.mem t.weights q1.n q1.codim q1.size tau y dy idx = Failure.gradValue p1.basis s.mem s.weights p1.n p1.codim p1.size tau y dy idx := by
      simp only [Interp.size, h2.const.1, h2.const.2.1, h2.const.2.2, h.weights]
      exact gradValue_mem hm _ _ _ _ _ _ _ _
    rw [e]
    cases Failure.gradValue p1.basis s.mem s.weights p1.n p1.codim p1.size tau y dy idx with
    | error e => exact ⟨rfl, hp⟩
    | ok r =>
      dsimp only
      split_ifs
      · exact ⟨rfl, h2, hpb, by rw [hb.2.2, k3], rfl⟩
      · exact ⟨rfl, hp⟩

theorem SameSob.grad {s t : Sobolev} (h : SameSob s t) (lu : LU) (tau buff : List ℝ) :
    (Failure.grad lu tau buff t).2 = (Failure.grad lu tau buff s).2 ∧ (Failure.grad lu tau buff t).1.2 = (Failure.grad lu tau buff s).1.2 ∧
      SameSob (Failure.grad lu tau buff s).1.1 (Failure.grad lu tau buff t).1.1 := by
  obtain ⟨h1, h2⟩ := h.interp.solve lu tau s.points
  have hb := solve_const lu tau s.points s.interp
  have hlen := @solve_len lu tau s.points s.interp
  unfold Failure.grad
  rw [h.points]
  generalize Failure.solve lu tau s.points s.interp = p at *
  generalize Failure.solve lu tau s.points t.interp = q at *
  obtain ⟨p1, p2⟩ := p
  obtain ⟨q1, q2⟩ := q
  dsimp only at h1 h2 hb hlen
  subst h1
  cases q2 with
  | error e => exact ⟨rfl, rfl, h2, h.weights, rfl, fun x hx => h.mem x (by rw [← hb.1]; exact hx)⟩
  | ok y =>
    dsimp only
    obtain ⟨g1, g2, g3, g4, g5⟩ := loop_same (SameSt s.interp.basis s.interp.n) p1.n (Failure.gradPass lu s tau y) (Failure.gradPass lu t tau y) (s := (p1, buff)) (t := (q1, buff))
      ⟨h2, hb.1, hb.2.2, rfl⟩ fun i hi x z hx => gradPass_same h lu tau y (hlen rfl) (by rw [← hb.2.2]; exact hi) hx
    rw [h2.const.2.2]
    exact ⟨g1.symm, g5, g2, h.weights, rfl, fun x hx => h.mem x (by rw [← g3]; exact hx)⟩

theorem sanswers_same (lu : LU) (l : List SCall) {s t : Sobolev} (h : SameSob s t) : sanswers lu t l = sanswers lu s l := by
  induction l generalizing s t with
  | nil => rfl
  | cons a l ih =>
    cases a with
    | cost tau =>
      obtain ⟨h1, h2⟩ := h.cost lu tau
      simp only [sanswers, SCall.run, h1, ih h2]
    | grad tau buff =>
      obtain ⟨h1, h2, h3⟩ := h.grad lu tau buff
      simp only [sanswers, SCall.run, h1, h2, ih h3]

theorem make_sob {w : Pts} {b : Basis} {weights : List (ℕ × ℝ)} {mem mem' : LagMem} {junk junk' : Vec} {s t : Sobolev} (hm : ∀ x, b = .lagrange x → mem' = mem)
    (hs : Sobolev.make w b weights mem junk = .ok s) (ht : Sobolev.make w b weights mem' junk' = .ok t) : SameSob s t := by
  unfold Sobolev.make Interp.make at hs ht
  split_ifs at hs ht
  · cases hs
  · cases hs
  · cases hs
    cases ht
    exact ⟨rfl, rfl, rfl, hm⟩

/-! ## The cost term of the optimisation problem -/

open Optim

/-- After `j` passes the states of two runs that differ in the buffer. -/
def BufSt (n L j : ℕ) (x y : Interp × List ℝ) : Prop := x.1 = y.1 ∧ x.1.n = n ∧ x.2.length = L ∧ y.2.length = L ∧ ∀ k < j, x.2[k]? = y.2[k]?

theorem gradPass_buf (lu : LU) (s : Sobolev) (tau y : List ℝ) {n L j : ℕ} {x z : Interp × List ℝ} (h : BufSt n L j x z) :
    (Failure.gradPass lu s tau y j x).2 = (Failure.gradPass lu s tau y j z).2 ∧
      ((Failure.gradPass lu s tau y j x).2 = .ok () → BufSt n L (j + 1) (Failure.gradPass lu s tau y j x).1 (Failure.gradPass lu s tau y j z).1) := by
  obtain ⟨x1, x2⟩ := x
  obtain ⟨z1, z2⟩ := z
  obtain ⟨h1, h2, h3, h4, h5⟩ := h
  dsimp only at h1 h2 h3 h4 h5
  subst h1
  have hb := coeff_const lu y tau j x1
  unfold Failure.gradPass
  dsimp only
  generalize Failure.coeff lu y tau j x1 = p at *
  obtain ⟨p1, _ | dy⟩ := p
  · exact ⟨rfl, fun h => by cases h⟩
  dsimp only at hb ⊢
  cases Failure.gradValue p1.basis s.mem s.weights p1.n p1.codim p1.size tau y dy j with
  | error e => exact ⟨rfl, fun h => by cases h⟩
  | ok r =>
    dsimp only
    by_cases hj : j < L
    · rw [if_pos (by omega), if_pos (by omega)]
      refine ⟨rfl, fun _ => ⟨rfl, by rw [hb.2.2, h2], by simp [h3], by simp [h4], fun k hk => ?_⟩⟩
      dsimp only
      rw [List.getElem?_set, List.getElem?_set]
      by_cases hkj : j = k
      · simp [hkj, show k < x2.length by omega, show k < z2.length by omega]
      · simp only [hkj, if_false]; exact h5 k (by omega)
    · rw [if_neg (by omega), if_neg (by omega)]
      exact ⟨rfl, fun h => by cases h⟩

/-- The buffer does not matter if it has as many entries as there are intervals. -/
theorem grad_buf (lu : LU) (tau buff buff' : List ℝ) (s : Sobolev) (h : buff.length = s.interp.n) (h' : buff'.length = s.interp.n) :
    s.grad lu tau buff = s.grad lu tau buff' ∧ ∀ s' out, s.grad lu tau buff = .ok (s', out) → out.length = s.interp.n ∧ s'.interp.n = s.interp.n := by
  rw [← Failure.grad_drop, ← Failure.grad_drop]
  have hb := solve_const lu tau s.points s.interp
  unfold Failure.grad
  generalize Failure.solve lu tau s.points s.interp = p at *
  obtain ⟨p1, _ | y⟩ := p
  · exact ⟨rfl, fun _ _ h => by cases h⟩
  dsimp only at hb ⊢
  obtain ⟨g1, g2⟩ := Failure.loop_rel (fun j x z => BufSt p1.n p1.n j x z) p1.n (Failure.gradPass lu s tau y) (Failure.gradPass lu s tau y) (p1, buff) (p1, buff')
    ⟨rfl, rfl, by rw [h, hb.2.2], by rw [h', hb.2.2], fun k hk => by omega⟩ fun i _ x z hx => gradPass_buf lu s tau y hx
  generalize Failure.loop 0 p1.n (Failure.gradPass lu s tau y) (p1, buff) = u at *
  generalize Failure.loop 0 p1.n (Failure.gradPass lu s tau y) (p1, buff') = v at *
  obtain ⟨⟨u1, u2⟩, u3⟩ := u
  obtain ⟨⟨v1, v2⟩, v3⟩ := v
  dsimp only at g1 g2 ⊢
  subst g1
  cases u3 with
  | error e => exact ⟨rfl, fun _ _ h => by cases h⟩
  | ok w =>
    obtain ⟨k1, k2, k3, k4, k5⟩ := g2 rfl
    dsimp only at k1 k2 k3 k4 k5
    subst k1
    have hout : u2 = v2 := by
      refine List.ext_getElem? fun k => ?_
      by_cases hk : k < p1.n
      · exact k5 k hk
      · rw [List.getElem?_eq_none (by omega), List.getElem?_eq_none (by omega)]
    subst hout
    refine ⟨rfl, fun s' out h => ?_⟩
    simp only [dropState] at h
    cases h
    exact ⟨by rw [k3, hb.2.2], by dsimp only; rw [k2, hb.2.2]⟩

theorem cost_rel {s t : Sobolev} (h : SameSob s t) (lu : LU) (tau : List ℝ) :
    SameRes (fun x y => SameSob x.1 y.1 ∧ y.2 = x.2 ∧ x.1.interp.n = s.interp.n) (s.cost lu tau) (t.cost lu tau) := by
  obtain ⟨h1, h2⟩ := h.cost lu tau
  have hb := solve_const lu tau s.points s.interp
  have hn : (Failure.cost lu tau s).1.interp.n = s.interp.n := by
    rw [← hb.2.2]
    unfold Failure.cost
    rcases Failure.solve lu tau s.points s.interp with ⟨p1, _ | y⟩ <;> rfl
  rw [← Failure.cost_drop, ← Failure.cost_drop]
  generalize Failure.cost lu tau s = p at *
  generalize Failure.cost lu tau t = q at *
  obtain ⟨p1, p2⟩ := p
  obtain ⟨q1, q2⟩ := q
  dsimp only at h1 h2 hn
  subst h1
  cases q2 with
  | error e => exact .inl ⟨e, rfl, rfl⟩
  | ok x => exact .inr ⟨_, _, rfl, rfl, h2, rfl, hn⟩

theorem grad_rel {s t : Sobolev} (h : SameSob s t) (lu : LU) (tau : List ℝ) {buff buff' : List ℝ} (hb : buff.length = s.interp.n) (hb' : buff'.length = s.interp.n) :
    SameRes (fun x y => SameSob x.1 y.1 ∧ y.2 = x.2 ∧ x.2.length = s.interp.n ∧ x.1.interp.n = s.interp.n) (s.grad lu tau buff) (t.grad lu tau buff') := by
  obtain ⟨e1, e2⟩ := grad_buf lu tau buff buff' s hb hb'
  rw [e1] at e2 ⊢
  obtain ⟨h1, h2, h3⟩ := h.grad lu tau buff'
  rw [← Failure.grad_drop] at e2
  rw [← Failure.grad_drop, ← Failure.grad_drop]
  generalize Failure.grad lu tau buff' s = p at *
  generalize Failure.grad lu tau buff' t = q at *
  obtain ⟨⟨p1, p2⟩, p3⟩ := p
  obtain ⟨⟨q1, q2⟩, q3⟩ := q
  dsimp only at h1 h2 h3
  subst h1 h2
  cases q3 with
  | error e => exact .inl ⟨e, rfl, rfl⟩
  | ok x => exact .inr ⟨_, _, rfl, rfl, h3, rfl, e2 _ _ rfl⟩

/-- Cost terms that differ at most in uninitialised memory. -/
def SameTerm (c d : CostTerm) : Prop := SameSob c.sob d.sob ∧ c.buff2.length = c.sob.interp.n ∧ d.buff2.length = c.sob.interp.n

theorem tanswers_same (lu : LU) (l : List TCall) {c d : CostTerm} (h : SameTerm c d) : tanswers lu d l = tanswers lu c l := by
  induction l generalizing c d with
  | nil => rfl
  | cons a l ih =>
    cases a with
    | cost v =>
      unfold tanswers CostTerm.getCost
      rcases cost_rel h.1 lu v.values with ⟨e, h1, h2⟩ | ⟨⟨x1, x2⟩, ⟨y1, y2⟩, h1, h2, h3, h4, h5⟩
      · rw [h1, h2]; rfl
      · rw [h1, h2, GLL.ok_bind, GLL.ok_bind]
        dsimp only at h3 h4 h5
        subst h4
        change Except.ok (Sum.inl y2) :: tanswers lu ⟨y1, d.buff2⟩ l = Except.ok (Sum.inl y2) :: tanswers lu ⟨x1, c.buff2⟩ l
        rw [ih (c := ⟨x1, c.buff2⟩) (d := ⟨y1, d.buff2⟩) ⟨h3, h.2.1.trans h5.symm, h.2.2.trans h5.symm⟩]
    | jacobian v jac =>
      unfold tanswers CostTerm.fillJacobian
      rcases grad_rel h.1 lu v.values h.2.1 h.2.2 with ⟨e, h1, h2⟩ | ⟨⟨x1, x2⟩, ⟨y1, y2⟩, h1, h2, h3, h4, h5, h6⟩
      · rw [h1, h2]
      · rw [h1, h2, GLL.ok_bind, GLL.ok_bind]
        dsimp only at h3 h4 h5 h6 ⊢
        subst h4
        cases forLoopM 0 v.rows (fun i m => do
          let x ← rd y2 i
          return setAt2 m 0 i x) jac with
        | error e => rfl
        | ok m =>
          rw [GLL.ok_bind, GLL.ok_bind]
          change Except.ok (Sum.inr m) :: tanswers lu ⟨y1, y2⟩ l = Except.ok (Sum.inr m) :: tanswers lu ⟨x1, y2⟩ l
          rw [ih (c := ⟨x1, y2⟩) (d := ⟨y1, y2⟩) ⟨h3, h5.trans h6.symm, h5.trans h6.symm⟩]

theorem make_term {w : Pts} {b : Basis} {weights : List (ℕ × ℝ)} {mem mem' : LagMem} {junk buff junk' buff' : Vec} {c d : CostTerm} (hm : ∀ x, b = .lagrange x → mem' = mem)
    (hc : CostTerm.make w b weights mem junk buff = .ok c) (hd : CostTerm.make w b weights mem' junk' buff' = .ok d) : SameTerm c d := by
  unfold CostTerm.make at hc hd
  cases hs : Sobolev.make w b weights mem junk with
  | error e => rw [hs] at hc; cases hc
  | ok s =>
    cases ht : Sobolev.make w b weights mem' junk' with
    | error e => rw [ht] at hd; cases hd
    | ok t =>
      rw [hs] at hc
      rw [ht] at hd
      cases hc
      cases hd
      have hn : s.interp.n = w.rows - 1 := by
        unfold Sobolev.make Interp.make at hs
        split_ifs at hs
        · cases hs
        · cases hs
        · cases hs; rfl
      exact ⟨make_sob hm hs ht, by simp [hn], by simp [hn]⟩

theorem SameInterp.interpolate {s t : Interp} (h : SameInterp s t) (lu : LU) (tau : List ℝ) (w : Pts) {α : Type} (F : GSpline → Res α) :
    (s.interpolate lu tau w >>= fun p => F p.2) = (t.interpolate lu tau w >>= fun p => F p.2) := by
  rw [← Failure.interpolate_drop, ← Failure.interpolate_drop, h, interpolate_coef lu tau w s t.coef]
  rcases Failure.interpolate lu tau w s with ⟨s', _ | x⟩ <;> rfl

theorem make_interp (codim n : ℕ) (b : Basis) (junk junk' : Vec) : SameRes SameInterp (Interp.make codim n b junk) (Interp.make codim n b junk') := by
  unfold Interp.make
  split_ifs
  · exact .inl ⟨_, rfl, rfl⟩
  · exact .inl ⟨_, rfl, rfl⟩
  · exact .inr ⟨_, _, rfl, rfl, rfl⟩

theorem term_exists (w : Pts) (b : Basis) (weights : List (ℕ × ℝ)) (mem mem' : LagMem) (junk buff junk' buff' : Vec) (hm : ∀ x, b = .lagrange x → mem' = mem) :
    SameRes SameTerm (CostTerm.make w b weights mem junk buff) (CostTerm.make w b weights mem' junk' buff') := by
  cases h1 : CostTerm.make w b weights mem junk buff with
  | error e =>
    refine .inl ⟨e, rfl, ?_⟩
    unfold CostTerm.make Sobolev.make Interp.make at h1 ⊢
    split_ifs at h1 ⊢ <;> cases h1 <;> rfl
  | ok c =>
    cases h2 : CostTerm.make w b weights mem' junk' buff' with
    | error e =>
      unfold CostTerm.make Sobolev.make Interp.make at h1 h2
      split_ifs at h1 h2 <;> cases h1 <;> cases h2
    | ok d => exact .inr ⟨c, d, rfl, rfl, make_term hm h1 h2⟩

theorem optimal_same {lu : LU} {solver : Solver} (hs : BlackBox lu solver) (st : Option Options) (mem mem' : Memory) (w : Pts) (b : Basis) (weights : List (ℕ × ℝ)) (exec : ℝ)
    (hm : ∀ x, b = .lagrange x → mem'.lag = mem.lag) :
    optimalSobolevNorm lu solver st mem w b weights exec = optimalSobolevNorm lu solver st mem' w b weights exec := by
  unfold optimalSobolevNorm
  split_ifs with h0 h1
  · rfl
  · rcases make_interp w.cols (w.rows - 1) b mem.junk1 mem'.junk1 with ⟨e, k1, k2⟩ | ⟨x, y, k1, k2, k3⟩
    · rw [k1, k2]
    · rw [k1, k2, GLL.ok_bind, GLL.ok_bind]
      exact k3.interpolate lu [exec] w fun g => pure (some g)
  · rcases make_interp w.cols (w.rows - 1) b mem.junk1 mem'.junk1 with ⟨e, k1, k2⟩ | ⟨x, y, k1, k2, k3⟩
    · rw [k1, k2]; rfl
    · rw [k1, k2, GLL.ok_bind, GLL.ok_bind]
      unfold problem
      rcases term_exists w b weights mem.lag mem'.lag mem.junk2 mem.buff mem'.junk2 mem'.buff hm with ⟨e, j1, j2⟩ | ⟨c, d, j1, j2, j3⟩
      · rw [j1, j2]; rfl
      · rw [j1, j2, GLL.ok_bind, GLL.ok_bind]
        simp only [LawfulMonad.pure_bind]
        rw [hs (forward st).2 ⟨TimeVar.make (w.rows - 1) exec, TimeCon.make exec, c⟩ ⟨TimeVar.make (w.rows - 1) exec, TimeCon.make exec, d⟩ rfl rfl
          fun l => tanswers_same lu l j3]
        congr 1
        funext p
        split_ifs
        · rfl
        · exact k3.interpolate lu p.2 w fun g => pure (some g)

end GSplines.Uninit
