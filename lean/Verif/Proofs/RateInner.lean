import Verif.Proofs.RoundingCost
import Verif.Proofs.RateBlocks
import Verif.Proofs.RateSolve

/-! # The inner product of the cost: errors proportional to the rounding errors -/

namespace GSplines.Rounded

open Nd Spec Sobolev

theorem addDerivMatrix_rate {b : Basis} (hb : b.Valid) (hp : PosParam b) (mem : LagMem) {tau : ℝ} (ht : tau ≠ 0) {deg : ℕ} (hd : Adds b deg) (m : Mat) :
    ∃ z, RateAt (fun u m => addDerivMatrix u b mem tau deg m) m z ∧ Agree b.dim z fun i j => m i j + q b mem tau deg i j := by
  cases b with
  | legendre d =>
    obtain ⟨z, h1, h2⟩ := addPoly_rate (n := d) (deg := deg) (buffer := fun u => legendreBuffer u d deg) (scale := fun u => sobScale u tau deg) m
      (legendreBuffer_rate d deg m) (sobScale_rate ht deg _)
    exact ⟨z, h1, fun i hi j hj => by rw [h2 i hi j hj]; simp only [q_legendre]⟩
  | lagrange x =>
    have hb' : Props.Separated x.length (vecOf x) := hb
    obtain ⟨z, h1, h2⟩ := addPoly_rate (n := x.length) (deg := deg) (buffer := fun u => lagrangeBuffer u x.length (vecOf x) mem deg) (scale := fun u => sobScale u tau deg) m
      (lagrangeBuffer_rate hb'.distinct mem deg m) (sobScale_rate ht deg _)
    exact ⟨z, h1, fun i hi j hj => by rw [h2 i hi j hj]; simp only [q_lagrange]⟩
  | b0101 a =>
    have h0 := hp a rfl
    have h1 : a < 1 := hb.2
    have hd' : deg ≤ 3 := hd
    interval_cases deg
    · obtain ⟨z, h, e⟩ := addBlock_rate (tau := tau) h0 h1 Ex.q0_computes m
      exact ⟨z, h, fun i hi j hj => by rw [e i hi j hj]; simp only [q, Basis.addDerivMatrix, B0101.addDerivativeMatrix, zero_add_mat]⟩
    · obtain ⟨z, h, e⟩ := addBlock_rate (tau := tau) h0 h1 Ex.qd1_computes m
      exact ⟨z, h, fun i hi j hj => by rw [e i hi j hj]; simp only [q, Basis.addDerivMatrix, B0101.addDerivativeMatrix, zero_add_mat]⟩
    · obtain ⟨z, h, e⟩ := addBlock_rate (tau := tau) h0 h1 Ex.qd2_computes m
      exact ⟨z, h, fun i hi j hj => by rw [e i hi j hj]; simp only [q, Basis.addDerivMatrix, B0101.addDerivativeMatrix, zero_add_mat]⟩
    · obtain ⟨z, h, e⟩ := addBlock_rate (tau := tau) h0 h1 Ex.qd3_computes m
      exact ⟨z, h, fun i hi j hj => by rw [e i hi j hj]; simp only [q, Basis.addDerivMatrix, B0101.addDerivativeMatrix, zero_add_mat]⟩

theorem addDerivMatrixDtau_rate {b : Basis} (hb : b.Valid) (hp : PosParam b) (mem : LagMem) {tau : ℝ} (ht : tau ≠ 0) {deg : ℕ} (hd : AddsDtau b deg) (m : Mat) :
    ∃ z, RateAt (fun u m => addDerivMatrixDtau u b mem tau deg m) m z ∧ Agree b.dim z fun i j => m i j + dq b mem tau deg i j := by
  cases b with
  | legendre d =>
    obtain ⟨z, h1, h2⟩ := addPoly_rate (n := d) (deg := deg) (buffer := fun u => legendreBuffer u d deg) (scale := fun u => sobScaleDtau u tau deg) m
      (legendreBuffer_rate d deg m) (sobScaleDtau_rate ht deg _)
    exact ⟨z, h1, fun i hi j hj => by rw [h2 i hi j hj]; simp only [dq_legendre]⟩
  | lagrange x =>
    have hb' : Props.Separated x.length (vecOf x) := hb
    obtain ⟨z, h1, h2⟩ := addPoly_rate (n := x.length) (deg := deg) (buffer := fun u => lagrangeBuffer u x.length (vecOf x) mem deg) (scale := fun u => sobScaleDtau u tau deg) m
      (lagrangeBuffer_rate hb'.distinct mem deg m) (sobScaleDtau_rate ht deg _)
    exact ⟨z, h1, fun i hi j hj => by rw [h2 i hi j hj]; simp only [dq_lagrange]⟩
  | b0101 a =>
    have h0 := hp a rfl
    have h1 : a < 1 := hb.2
    rcases hd with rfl | rfl
    · obtain ⟨z, h, e⟩ := addBlock_rate (tau := tau) h0 h1 Ex.qd1Dtau_computes m
      exact ⟨z, h, fun i hi j hj => by rw [e i hi j hj]; simp only [dq, Basis.addDerivMatrixDtau, B0101.addDerivativeMatrixDtau, zero_add_mat]⟩
    · obtain ⟨z, h, e⟩ := addBlock_rate (tau := tau) h0 h1 Ex.qd3Dtau_computes m
      exact ⟨z, h, fun i hi j hj => by rw [e i hi j hj]; simp only [dq, Basis.addDerivMatrixDtau, B0101.addDerivativeMatrixDtau, zero_add_mat]⟩

theorem weighted_fold_rate {n : ℕ} {add : ℝ × ℝ → ℕ → Mat → Nd Mat} {Q : ℕ → Mat} {ws : List (ℕ × ℝ)}
    (h : ∀ p ∈ ws, ∀ m, ∃ z, RateAt (fun u m => add u p.1 m) m z ∧ Agree n z fun i j => m i j + Q p.1 i j) (M : Mat) :
    ∃ z, RateAt (fun u (M : Mat) => ws.foldlM (fun m w => do
      let m ← add u w.1 m
      fillMat n fun i j => near u (m i j * w.2)) M) M z ∧ Agree n z (wsum Q ws M) := by
  induction ws generalizing M with
  | nil => exact ⟨M, RateAt.pure (f := fun M : Mat => M) (by fun_prop), Agree.refl _ _⟩
  | cons p ps ih =>
    obtain ⟨z, h1, h2⟩ := h p (by simp) M
    obtain ⟨z', h3, h4⟩ := ih (fun p hp => h p (by simp [hp])) (fillX n fun i j => z i j * p.2)
    refine ⟨z', ?_, h4.trans (wsum_agree fun i hi j hj => by rw [fillX_eq _ hi hj, h2 i hi j hj])⟩
    simp only [List.foldlM_cons]
    have h5 : RateAt (fun u (m : Mat) => fillMat n fun i j => near u (m i j * p.2)) z (fillX n fun i j => z i j * p.2) :=
      fillMat_rate fun i _ j _ => RateAt.near (f := fun m : Mat => m i j * p.2) (by fun_prop)
    refine RateAt.bind (RateAt.bind h1 (RateAt.comp (F := fun u (m : Mat) => fillMat n fun i j => near u (m i j * p.2)) (f := fun q : Mat × Mat => q.2) h5 (by fun_prop))) ?_
    exact RateAt.comp (F := fun u (M : Mat) => ps.foldlM (fun m w => do
      let m ← add u w.1 m
      fillMat n fun i j => near u (m i j * w.2)) M) (x := (M, fillX n fun i j => z i j * p.2)) (f := fun q : Mat × Mat => q.2) h3 (by fun_prop)

theorem weighted_rate {α : Type} [Gauge α] {n : ℕ} {add : ℝ × ℝ → ℕ → Mat → Nd Mat} {Q : ℕ → Mat} {ws : List (ℕ × ℝ)}
    (h : ∀ p ∈ ws, ∀ m, ∃ z, RateAt (fun u m => add u p.1 m) m z ∧ Agree n z fun i j => m i j + Q p.1 i j) (x : α) :
    ∃ z, RateAt (fun u (_ : α) => weighted u n (add u) ws) x z ∧ Agree n z (wsum Q ws Mat.zero) := by
  obtain ⟨z, h1, h2⟩ := weighted_fold_rate h Mat.zero
  exact ⟨z, RateAt.comp (f := fun _ : α => Mat.zero) h1 (LLip.const _ _), h2⟩

/-! ## The quadratic form -/

theorem form_rate (n : ℕ) (m : Mat) (v1 v2 : Vec) :
    RateAt (fun u (p : Mat × Vec × Vec) => form u n p.1 p.2.1 p.2.2) (m, v1, v2) (Sobolev.form n m v1 v2) := by
  unfold form
  have h := RateAt.loop (a := 0) (b := n) (α := Mat × Vec × Vec) (σ := Vec) (body := fun u j p (r : Vec) => do
      let e ← dot u ((List.range n).map p.2.1) ((List.range n).map fun i => p.1 i j)
      return setAt r j e) (exact := fun j r => setAt r j (Vec.dot n v1 fun i => m i j)) (x := (m, v1, v2)) (s := fun _ => 0) fun j _ _ r => by
    refine RateAt.bind (RateAt.comp (F := fun u (q : Vec × Vec) => dot u ((List.range n).map q.1) ((List.range n).map q.2))
      (f := fun q : (Mat × Vec × Vec) × Vec => (q.1.2.1, fun i => q.1.1 i j)) (dot2_rate n _ _)
      (LLip.prodMk (by fun_prop) (LLip.comp (g := fun (m : Mat) (k : ℕ) => m k j) (f := fun q : (Mat × Vec × Vec) × Vec => q.1.1) (col_llip j _) (by fun_prop)))) ?_
    exact RateAt.pure (f := fun q : ((Mat × Vec × Vec) × Vec) × ℝ => setAt q.1.2 j q.2) (LLip.setAt (by fun_prop) (by fun_prop))
  refine (RateAt.bind (RateAt.comp (x := (m, v1, v2)) (f := fun q : Mat × Vec × Vec => (q, fun _ => (0 : ℝ))) h (LLip.prodMk (by fun_prop) (LLip.const _ _)))
    (RateAt.comp (F := fun u (q : Vec × Vec) => dot u ((List.range n).map q.1) ((List.range n).map q.2))
      (f := fun q : (Mat × Vec × Vec) × Vec => (q.2, q.1.2.2)) (dot2_rate n _ _) (by fun_prop))).congr ?_
  unfold Vec.dot Sobolev.form
  rw [Finset.sum_comm]
  refine Finset.sum_congr rfl fun j hj => ?_
  dsimp only
  rw [fill_loop (f := fun j => ∑ i ∈ Finset.range n, v1 i * m i j) (Finset.mem_range.mp hj), Finset.sum_mul]

theorem part_llip (b : Basis) (codim iv c : ℕ) (y : Vec) : LLip (fun y : Vec => part b codim y iv c) y :=
  LLip.of_bound (C := 1) (δ := 1) (by norm_num) (by norm_num) fun a a' _ _ r _ h k => by
    rw [one_mul]
    exact h _

theorem addFormX_rate (b : Basis) (codim iv c : ℕ) (m : Mat) (v1 v2 : Vec) (r : ℝ) :
    RateAt (fun u (p : (Mat × Vec × Vec) × ℝ) => addFormX u b codim p.1.1 p.1.2.1 p.1.2.2 iv c p.2) ((m, v1, v2), r)
      (r + Sobolev.form b.dim m (part b codim v1 iv c) (part b codim v2 iv c)) := by
  unfold addFormX
  have hp := part_llip b codim iv c
  refine RateAt.bind (RateAt.comp (F := fun u (p : Mat × Vec × Vec) => form u b.dim p.1 p.2.1 p.2.2)
    (f := fun p : (Mat × Vec × Vec) × ℝ => (p.1.1, part b codim p.1.2.1 iv c, part b codim p.1.2.2 iv c)) (form_rate _ _ _ _) ?_) ?_
  · exact LLip.prodMk (by fun_prop) (LLip.prodMk (LLip.comp (g := fun y : Vec => part b codim y iv c) (f := fun p : (Mat × Vec × Vec) × ℝ => p.1.2.1) (hp _) (by fun_prop))
      (LLip.comp (g := fun y : Vec => part b codim y iv c) (f := fun p : (Mat × Vec × Vec) × ℝ => p.1.2.2) (hp _) (by fun_prop)))
  · exact RateAt.near (f := fun p : ((Mat × Vec × Vec) × ℝ) × ℝ => p.1.2 + p.2) (by fun_prop)

/-- The sum over the components of one interval. -/
theorem comps_rate (b : Basis) (codim iv : ℕ) (m : Mat) (v1 v2 : Vec) (r : ℝ) :
    RateAt (fun u (p : (Mat × Vec × Vec) × ℝ) => Nd.loop 0 codim (fun c r => addFormX u b codim p.1.1 p.1.2.1 p.1.2.2 iv c r) p.2) ((m, v1, v2), r)
      (r + ∑ c ∈ Finset.range codim, Sobolev.form b.dim m (part b codim v1 iv c) (part b codim v2 iv c)) := by
  refine (RateAt.loop (a := 0) (b := codim) (α := Mat × Vec × Vec) (σ := ℝ) (body := fun u c p r => addFormX u b codim p.1 p.2.1 p.2.2 iv c r)
    (exact := fun c r => r + Sobolev.form b.dim m (part b codim v1 iv c) (part b codim v2 iv c)) (x := (m, v1, v2)) (s := r) fun c _ _ r => addFormX_rate b codim iv c m v1 v2 r).congr ?_
  exact sum_loop _ _

theorem innerX_rate {b : Basis} (hb : b.Valid) (hp : PosParam b) (mem : LagMem) {ws : List (ℕ × ℝ)} (hw : ∀ p ∈ ws, Adds b p.1) {n codim : ℕ} {tau : Vec} (ht : ∀ i < n, tau i ≠ 0)
    (v1 v2 : Vec) : RateAt (fun u (p : Vec × Vec) => innerX u b mem ws n codim tau p.1 p.2) (v1, v2)
      (total b n codim (fun iv => wsum (q b mem (tau iv)) ws Mat.zero) v1 v2) := by
  unfold innerX total
  have h := RateAt.loop (a := 0) (b := n) (α := Vec × Vec) (σ := ℝ) (body := fun u iv p r => do
      let m ← weighted u b.dim (addDerivMatrix u b mem (tau iv)) ws
      Nd.loop 0 codim (fun c r => addFormX u b codim m p.1 p.2 iv c r) r)
    (exact := fun iv r => r + ∑ c ∈ Finset.range codim, Sobolev.form b.dim (wsum (q b mem (tau iv)) ws Mat.zero) (part b codim v1 iv c) (part b codim v2 iv c)) (x := (v1, v2)) (s := 0)
    fun iv _ hiv r => by
      obtain ⟨z, hz, ez⟩ := weighted_rate (add := fun u => addDerivMatrix u b mem (tau iv)) (Q := q b mem (tau iv)) (n := b.dim) (ws := ws)
        (fun p hp' m => addDerivMatrix_rate hb hp mem (ht iv hiv) (hw p hp') m) (((v1, v2), r) : (Vec × Vec) × ℝ)
      refine (RateAt.bind hz (RateAt.comp (F := fun u (p : (Mat × Vec × Vec) × ℝ) => Nd.loop 0 codim (fun c r => addFormX u b codim p.1.1 p.1.2.1 p.1.2.2 iv c r) p.2)
        (f := fun p : ((Vec × Vec) × ℝ) × Mat => ((p.2, p.1.1.1, p.1.1.2), p.1.2)) (comps_rate b codim iv z v1 v2 r) (by fun_prop))).congr ?_
      congr 1
      exact Finset.sum_congr rfl fun c _ => form_congr ez (fun _ _ => rfl) fun _ _ => rfl
  refine (RateAt.comp (x := (v1, v2)) (f := fun q : Vec × Vec => (q, (0 : ℝ))) h (by fun_prop)).congr ?_
  rw [sum_loop, zero_add]

theorem tauScale_rate (dim : ℕ) {tau : ℝ} (ht : tau ≠ 0) (deg : ℕ) (v : Vec) :
    ∃ z : Vec, RateAt (fun u (v : Vec) => tauScale u dim tau deg v) v z ∧ ∀ k < dim, z k = v k * (-(1 / 2) * (deg : ℝ) * (2 / tau)) := by
  obtain ⟨z, hz, hz1, -⟩ := scale_rate dim (-(1 / 2) * (deg : ℝ) * (2 / tau)) v
  refine ⟨z, ?_, hz1⟩
  unfold tauScale
  refine RateAt.bind (RateAt.near (f := fun _ : Vec => -(1 / 2) * (deg : ℝ)) (by fun_prop)) ?_
  refine RateAt.bind (RateAt.quot (f := fun _ => (2 : ℝ)) (g := fun _ => tau) (by fun_prop) (by fun_prop) ht) ?_
  refine RateAt.bind (RateAt.near (f := fun q : (Vec × ℝ) × ℝ => q.1.2 * q.2) (by fun_prop)) ?_
  exact RateAt.comp (F := fun u (q : ℝ × Vec) => scale u dim q.1 q.2) (f := fun q : ((Vec × ℝ) × ℝ) × ℝ => (q.2, q.1.1.1)) hz (by fun_prop)

theorem b0101Tau_rate {a : ℝ} (h1 : a < 1) (s tau : ℝ) (deg : ℕ) :
    ∃ z : Vec, RateAt (fun u (_ : Unit) => b0101Tau u a s tau deg) () z ∧ ∀ k < 6, z k = B0101.evalDerivWrtTauOnWindow a s tau deg k := by
  have hd : (0 : ℝ) < 1 - a := by linarith
  obtain ⟨z, hz, hz1, -⟩ := scale_rate 6 (s * B0101.kOf a) (B0101.dstep (B0101.evalDerivOnWindow a s tau deg))
  refine ⟨z, ?_, hz1⟩
  unfold b0101Tau
  refine RateAt.bind (RateAt.near (by fun_prop)) ?_
  refine RateAt.bind (RateAt.near (by fun_prop)) ?_
  refine RateAt.bind (RateAt.near (by fun_prop)) ?_
  refine RateAt.bind (RateAt.near (by fun_prop)) ?_
  refine RateAt.bind (RateAt.near (by fun_prop)) ?_
  refine RateAt.bind (RateAt.near (by apply LLip.rpow; (fun_prop); exact ne_of_gt hd)) ?_
  refine RateAt.bind (RateAt.quot (by fun_prop) (by fun_prop) (ne_of_gt (Real.rpow_pos_of_pos hd _))) ?_
  refine RateAt.bind (RateAt.comp (F := fun u (_ : Unit) => b0101Deriv u a s tau deg) (f := fun _ => ()) (b0101Deriv_rate h1 s tau deg) (LLip.const _ _)) ?_
  refine RateAt.bind (RateAt.near (by fun_prop)) ?_
  refine RateAt.bind (RateAt.near (by fun_prop)) ?_
  refine RateAt.bind (RateAt.near (by fun_prop)) ?_
  refine RateAt.bind (RateAt.near (by fun_prop)) ?_
  refine RateAt.bind (RateAt.near (by fun_prop)) ?_
  refine RateAt.comp (F := fun u (q : ℝ × Vec) => scale u 6 q.1 q.2)
    (f := fun q : ((((((((((((Unit × ℝ) × ℝ) × ℝ) × ℝ) × ℝ) × ℝ) × ℝ) × Vec) × ℝ) × ℝ) × ℝ) × ℝ) × ℝ =>
      (q.2, B0101.vec6 q.1.1.1.1.2 q.1.1.1.2 q.1.1.2 q.1.2 (q.1.1.1.1.1.2 5) 0)) ?_
    (LLip.prodMk (by fun_prop) (vec6_llip (by fun_prop) (by fun_prop) (by fun_prop) (by fun_prop) (by fun_prop) (by fun_prop)))
  exact hz

theorem evalDerivWrtTau_rate {b : Basis} (hb : b.Valid) {s tau : ℝ} (ht : tau ≠ 0) {deg : ℕ} (hd : b.OrderOk deg) (hc : Clear b s) (hc' : b.CleanAt s) :
    ∃ z : Vec, RateAt (fun u (_ : Unit) => evalDerivWrtTau u b s tau deg) () z ∧ ∀ k < b.dim, z k = b.evT s tau deg k := by
  have hev := (Basis.tau_spec hb s tau deg hd).1 tau
  cases b with
  | b0101 a =>
    obtain ⟨z, h1, h2⟩ := b0101Tau_rate hb.2 s tau deg
    exact ⟨z, h1, fun k hk => by rw [h2 k hk, Basis.evT_of (b := .b0101 a) rfl]⟩
  | legendre d =>
    obtain ⟨z, h1, h2⟩ := evalDeriv_rate hb ht hd hc hc'
    obtain ⟨y, h3, h4⟩ := tauScale_rate d ht deg z
    refine ⟨y, RateAt.bind h1 (RateAt.comp (x := ((), z)) (f := fun q : Unit × Vec => q.2) h3 (by fun_prop)), fun k hk => ?_⟩
    have e : (Basis.legendre d).evalDerivWrtTauOnWindow s tau deg = .ok fun i => (Basis.legendre d).ev s tau deg i * (-(1 / 2) * (deg : ℝ) * (2 / tau)) := by
      change Legendre.evalDerivWrtTauOnWindow d s tau deg = _
      unfold Legendre.evalDerivWrtTauOnWindow
      rw [show Legendre.evalDerivOnWindow d s tau deg = .ok _ from hev]
      rfl
    rw [h4 k hk, h2 k hk, Basis.evT_of e]
  | lagrange x =>
    obtain ⟨z, h1, h2⟩ := evalDeriv_rate hb ht hd hc hc'
    obtain ⟨y, h3, h4⟩ := tauScale_rate x.length ht deg z
    refine ⟨y, RateAt.bind h1 (RateAt.comp (x := ((), z)) (f := fun q : Unit × Vec => q.2) h3 (by fun_prop)), fun k hk => ?_⟩
    rw [h4 k hk, h2 k hk, Basis.evT_of (b := .lagrange x) rfl, Basis.ev_of (b := .lagrange x) rfl]
    rfl

theorem matVec_rate (n : ℕ) (d : Mat) (y : Vec) :
    ∃ z : Vec, RateAt (fun u (q : Mat × Vec) => matVec u n q.1 q.2) (d, y) z ∧ ∀ k < n, z k = d.mulVec n y k := by
  have h := RateAt.loop (a := 0) (b := n) (α := Mat × Vec) (σ := Vec) (body := fun u i q (r : Vec) => do
      let e ← dot u ((List.range n).map (q.1 i)) ((List.range n).map q.2)
      return setAt r i e) (exact := fun i r => setAt r i (Vec.dot n (d i) y)) (x := (d, y)) (s := fun _ => 0) fun i _ hi r => by
    refine RateAt.bind (RateAt.comp (F := fun u (q : Vec × Vec) => dot u ((List.range n).map q.1) ((List.range n).map q.2))
      (f := fun q : (Mat × Vec) × Vec => (q.1.1 i, q.1.2)) (dot2_rate n _ _) (LLip.prodMk ?_ (by fun_prop))) ?_
    · fun_prop
    · exact RateAt.pure (f := fun q : ((Mat × Vec) × Vec) × ℝ => setAt q.1.2 i q.2) (LLip.setAt (by fun_prop) (by fun_prop))
  refine ⟨_, RateAt.comp (x := (d, y)) (f := fun q : Mat × Vec => (q, fun _ => (0 : ℝ))) h (LLip.prodMk (by fun_prop) (LLip.const _ _)), fun k hk => ?_⟩
  rw [fill_loop (f := fun i => Vec.dot n (d i) y) hk]
  rfl

theorem gradX_rate {b : Basis} (hb : b.Valid) (hp : PosParam b) (mem : LagMem) {ws : List (ℕ × ℝ)} (hw : ∀ p ∈ ws, Adds b p.1) (hw' : ∀ p ∈ ws, AddsDtau b p.1) {n codim idx : ℕ}
    {tau : Vec} (ht : ∀ i < n, tau i ≠ 0) (hi : idx < n) (y d : Vec) :
    RateAt (fun u (p : Vec × Vec) => gradX u b mem ws n codim tau p.1 p.2 idx) (y, d) (gradFn b mem ws n codim tau y d idx) := by
  unfold gradX
  obtain ⟨z, hz, ez⟩ := weighted_rate (add := fun u => addDerivMatrixDtau u b mem (tau idx)) (Q := dq b mem (tau idx)) (n := b.dim) (ws := ws)
    (fun p hp' m => addDerivMatrixDtau_rate hb hp mem (ht idx hi) (hw' p hp') m) ((y, d) : Vec × Vec)
  have h1 := RateAt.comp (F := fun u (p : (Mat × Vec × Vec) × ℝ) => Nd.loop 0 codim (fun c r => addFormX u b codim p.1.1 p.1.2.1 p.1.2.2 idx c r) p.2)
    (f := fun p : (Vec × Vec) × Mat => ((p.2, p.1.1, p.1.1), (0 : ℝ))) (x := ((y, d), z)) (comps_rate b codim idx z y y 0) (by fun_prop)
  refine (RateAt.bind hz (RateAt.bind h1 (RateAt.bind (RateAt.comp (F := fun u (p : Vec × Vec) => innerX u b mem ws n codim tau p.1 p.2)
    (f := fun p : ((Vec × Vec) × Mat) × ℝ => (p.1.1.1, p.1.1.2)) (innerX_rate hb hp mem hw ht y d) (by fun_prop))
    (RateAt.bind (RateAt.near (f := fun p : (((Vec × Vec) × Mat) × ℝ) × ℝ => 2 * p.2) (by fun_prop))
      (RateAt.near (f := fun p : ((((Vec × Vec) × Mat) × ℝ) × ℝ) × ℝ => p.1.1.2 + p.2) (by fun_prop)))))).congr ?_
  unfold gradFn
  dsimp only
  rw [zero_add]
  congr 1
  exact Finset.sum_congr rfl fun c _ => form_congr ez (fun _ _ => rfl) fun _ _ => rfl

end GSplines.Rounded
