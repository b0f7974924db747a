import Verif.Proofs.RoundingBlocks

/-! # Rounded evaluation of the inner product of the cost -/

namespace GSplines.Rounded

open Nd Spec Filter Topology Sobolev

/-! ## One order -/

/-- The parameter of `Basis0101` is positive. -/
def PosParam (b : Basis) : Prop := ∀ a, b = .b0101 a → 0 < a

theorem q_legendre (d : ℕ) (mem : LagMem) (t : ℝ) (deg i j : ℕ) :
    q (.legendre d) mem t deg i j = if deg < d + 1 then Legendre.sobolevBuffer d deg i j * Legendre.sobScale t deg else 0 := by
  unfold q
  simp only [Basis.addDerivMatrix, Legendre.addDerivativeMatrix]
  split_ifs <;> simp [Mat.zero]

theorem q_lagrange (x : List ℝ) (mem : LagMem) (t : ℝ) (deg i j : ℕ) :
    q (.lagrange x) mem t deg i j = if deg < x.length + 1 then Lagrange.sobolevBuffer x.length (vecOf x) mem.w mem.junk deg i j * Legendre.sobScale t deg else 0 := by
  unfold q
  simp only [Basis.addDerivMatrix, Lagrange.addDerivativeMatrix]
  split_ifs <;> simp [Mat.zero, Lagrange.sobScale, Legendre.sobScale]

theorem dq_legendre (d : ℕ) (mem : LagMem) (t : ℝ) (deg i j : ℕ) :
    dq (.legendre d) mem t deg i j = if deg < d + 1 then Legendre.sobolevBuffer d deg i j * Legendre.sobScaleDtau t deg else 0 := by
  unfold dq
  simp only [Basis.addDerivMatrixDtau, Legendre.addDerivativeMatrixDtau]
  split_ifs <;> simp [Mat.zero]

theorem dq_lagrange (x : List ℝ) (mem : LagMem) (t : ℝ) (deg i j : ℕ) :
    dq (.lagrange x) mem t deg i j = if deg < x.length + 1 then Lagrange.sobolevBuffer x.length (vecOf x) mem.w mem.junk deg i j * Legendre.sobScaleDtau t deg else 0 := by
  unfold dq
  simp only [Basis.addDerivMatrixDtau, Lagrange.addDerivativeMatrixDtau]
  split_ifs <;> simp [Mat.zero, Lagrange.sobScaleDtau, Legendre.sobScaleDtau]

theorem zero_add_mat (m : Mat) (i j : ℕ) : (Mat.zero.add m) i j = m i j := by simp [Mat.add, Mat.zero]

theorem addDerivMatrix_conv {b : Basis} (hb : b.Valid) (hp : PosParam b) (mem : LagMem) {tau : ℝ} (ht : tau ≠ 0) {deg : ℕ} (hd : Adds b deg) (m : Mat) :
    ∃ z, ConvAt (fun u m => addDerivMatrix u b mem tau deg m) m z ∧ Agree b.dim z fun i j => m i j + q b mem tau deg i j := by
  cases b with
  | legendre d =>
    obtain ⟨z, h1, h2⟩ := addPoly_conv (n := d) (deg := deg) (buffer := fun u => legendreBuffer u d deg) (scale := fun u => sobScale u tau deg) m
      (legendreBuffer_conv d deg m) (sobScale_conv ht deg _)
    exact ⟨z, h1, fun i hi j hj => by rw [h2 i hi j hj]; simp only [q_legendre]⟩
  | lagrange x =>
    have hb' : Props.Separated x.length (vecOf x) := hb
    obtain ⟨z, h1, h2⟩ := addPoly_conv (n := x.length) (deg := deg) (buffer := fun u => lagrangeBuffer u x.length (vecOf x) mem deg) (scale := fun u => sobScale u tau deg) m
      (lagrangeBuffer_conv hb'.distinct mem deg m) (sobScale_conv ht deg _)
    exact ⟨z, h1, fun i hi j hj => by rw [h2 i hi j hj]; simp only [q_lagrange]⟩
  | b0101 a =>
    have h0 := hp a rfl
    have h1 : a < 1 := hb.2
    have hd' : deg ≤ 3 := hd
    interval_cases deg
    · obtain ⟨z, h, e⟩ := addBlock_conv (tau := tau) h0 h1 Ex.q0_computes m
      exact ⟨z, h, fun i hi j hj => by rw [e i hi j hj]; simp only [q, Basis.addDerivMatrix, B0101.addDerivativeMatrix, zero_add_mat]⟩
    · obtain ⟨z, h, e⟩ := addBlock_conv (tau := tau) h0 h1 Ex.qd1_computes m
      exact ⟨z, h, fun i hi j hj => by rw [e i hi j hj]; simp only [q, Basis.addDerivMatrix, B0101.addDerivativeMatrix, zero_add_mat]⟩
    · obtain ⟨z, h, e⟩ := addBlock_conv (tau := tau) h0 h1 Ex.qd2_computes m
      exact ⟨z, h, fun i hi j hj => by rw [e i hi j hj]; simp only [q, Basis.addDerivMatrix, B0101.addDerivativeMatrix, zero_add_mat]⟩
    · obtain ⟨z, h, e⟩ := addBlock_conv (tau := tau) h0 h1 Ex.qd3_computes m
      exact ⟨z, h, fun i hi j hj => by rw [e i hi j hj]; simp only [q, Basis.addDerivMatrix, B0101.addDerivativeMatrix, zero_add_mat]⟩

theorem addDerivMatrixDtau_conv {b : Basis} (hb : b.Valid) (hp : PosParam b) (mem : LagMem) {tau : ℝ} (ht : tau ≠ 0) {deg : ℕ} (hd : AddsDtau b deg) (m : Mat) :
    ∃ z, ConvAt (fun u m => addDerivMatrixDtau u b mem tau deg m) m z ∧ Agree b.dim z fun i j => m i j + dq b mem tau deg i j := by
  cases b with
  | legendre d =>
    obtain ⟨z, h1, h2⟩ := addPoly_conv (n := d) (deg := deg) (buffer := fun u => legendreBuffer u d deg) (scale := fun u => sobScaleDtau u tau deg) m
      (legendreBuffer_conv d deg m) (sobScaleDtau_conv ht deg _)
    exact ⟨z, h1, fun i hi j hj => by rw [h2 i hi j hj]; simp only [dq_legendre]⟩
  | lagrange x =>
    have hb' : Props.Separated x.length (vecOf x) := hb
    obtain ⟨z, h1, h2⟩ := addPoly_conv (n := x.length) (deg := deg) (buffer := fun u => lagrangeBuffer u x.length (vecOf x) mem deg) (scale := fun u => sobScaleDtau u tau deg) m
      (lagrangeBuffer_conv hb'.distinct mem deg m) (sobScaleDtau_conv ht deg _)
    exact ⟨z, h1, fun i hi j hj => by rw [h2 i hi j hj]; simp only [dq_lagrange]⟩
  | b0101 a =>
    have h0 := hp a rfl
    have h1 : a < 1 := hb.2
    rcases hd with rfl | rfl
    · obtain ⟨z, h, e⟩ := addBlock_conv (tau := tau) h0 h1 Ex.qd1Dtau_computes m
      exact ⟨z, h, fun i hi j hj => by rw [e i hi j hj]; simp only [dq, Basis.addDerivMatrixDtau, B0101.addDerivativeMatrixDtau, zero_add_mat]⟩
    · obtain ⟨z, h, e⟩ := addBlock_conv (tau := tau) h0 h1 Ex.qd3Dtau_computes m
      exact ⟨z, h, fun i hi j hj => by rw [e i hi j hj]; simp only [dq, Basis.addDerivMatrixDtau, B0101.addDerivativeMatrixDtau, zero_add_mat]⟩

/-! ## The weighted sum -/

theorem Agree.trans {n : ℕ} {a b c : Mat} (h : Agree n a b) (h' : Agree n b c) : Agree n a c := fun i hi j hj => (h i hi j hj).trans (h' i hi j hj)

theorem wsum_agree {n : ℕ} {Q : ℕ → Mat} {ws : List (ℕ × ℝ)} {M M' : Mat} (h : Agree n M M') : Agree n (wsum Q ws M) (wsum Q ws M') :=
  fun i hi j hj => wsum_congr (fun _ _ => rfl) M M' (h i hi j hj)

theorem weighted_fold {n : ℕ} {add : ℝ × ℝ → ℕ → Mat → Nd Mat} {Q : ℕ → Mat} {ws : List (ℕ × ℝ)}
    (h : ∀ p ∈ ws, ∀ m, ∃ z, ConvAt (fun u m => add u p.1 m) m z ∧ Agree n z fun i j => m i j + Q p.1 i j) (M : Mat) :
    ∃ z, ConvAt (fun u (M : Mat) => ws.foldlM (fun m w => do
      let m ← add u w.1 m
      fillMat n fun i j => near u (m i j * w.2)) M) M z ∧ Agree n z (wsum Q ws M) := by
  induction ws generalizing M with
  | nil => exact ⟨M, ConvAt.pure (f := fun M : Mat => M) (by fun_prop), Agree.refl _ _⟩
  | cons p ps ih =>
    obtain ⟨z, h1, h2⟩ := h p (by simp) M
    obtain ⟨z', h3, h4⟩ := ih (fun p hp => h p (by simp [hp])) (fillX n fun i j => z i j * p.2)
    refine ⟨z', ?_, h4.trans (wsum_agree fun i hi j hj => by rw [fillX_eq _ hi hj, h2 i hi j hj])⟩
    simp only [List.foldlM_cons]
    have h5 : ConvAt (fun u (m : Mat) => fillMat n fun i j => near u (m i j * p.2)) z (fillX n fun i j => z i j * p.2) :=
      fillMat_conv fun i _ j _ => ConvAt.near (f := fun m : Mat => m i j * p.2) ((continuous_apply_apply i j).continuousAt.mul continuousAt_const)
    refine ConvAt.bind (ConvAt.bind h1 (ConvAt.comp (F := fun u (m : Mat) => fillMat n fun i j => near u (m i j * p.2)) (f := fun q : Mat × Mat => q.2) h5 (by fun_prop))) ?_
    exact ConvAt.comp (F := fun u (M : Mat) => ps.foldlM (fun m w => do
      let m ← add u w.1 m
      fillMat n fun i j => near u (m i j * w.2)) M) (x := (M, fillX n fun i j => z i j * p.2)) (f := fun q : Mat × Mat => q.2) h3 (by fun_prop)

theorem weighted_conv {α : Type} [TopologicalSpace α] {n : ℕ} {add : ℝ × ℝ → ℕ → Mat → Nd Mat} {Q : ℕ → Mat} {ws : List (ℕ × ℝ)}
    (h : ∀ p ∈ ws, ∀ m, ∃ z, ConvAt (fun u m => add u p.1 m) m z ∧ Agree n z fun i j => m i j + Q p.1 i j) (x : α) :
    ∃ z, ConvAt (fun u (_ : α) => weighted u n (add u) ws) x z ∧ Agree n z (wsum Q ws Mat.zero) := by
  obtain ⟨z, h1, h2⟩ := weighted_fold h Mat.zero
  exact ⟨z, ConvAt.comp (f := fun _ : α => Mat.zero) h1 (by fun_prop), h2⟩

/-! ## The quadratic form -/

theorem form_conv (n : ℕ) (m : Mat) (v1 v2 : Vec) :
    ConvAt (fun u (p : Mat × Vec × Vec) => form u n p.1 p.2.1 p.2.2) (m, v1, v2) (Sobolev.form n m v1 v2) := by
  unfold form
  have h := ConvAt.loop (a := 0) (b := n) (α := Mat × Vec × Vec) (σ := Vec) (body := fun u j p (r : Vec) => do
      let e ← dot u ((List.range n).map p.2.1) ((List.range n).map fun i => p.1 i j)
      return setAt r j e) (exact := fun j r => setAt r j (Vec.dot n v1 fun i => m i j)) (x := (m, v1, v2)) (s := fun _ => 0) fun j _ _ r => by
    refine ConvAt.bind (ConvAt.comp (F := fun u (q : Vec × Vec) => dot u ((List.range n).map q.1) ((List.range n).map q.2))
      (f := fun q : (Mat × Vec × Vec) × Vec => (q.1.2.1, fun i => q.1.1 i j)) (dot2_conv n _ _) (by fun_prop)) ?_
    exact ConvAt.pure (f := fun q : ((Mat × Vec × Vec) × Vec) × ℝ => setAt q.1.2 j q.2) (setAt_continuousAt (by fun_prop) (by fun_prop))
  refine (ConvAt.bind (ConvAt.comp (x := (m, v1, v2)) (f := fun q : Mat × Vec × Vec => (q, fun _ => (0 : ℝ))) h (by fun_prop))
    (ConvAt.comp (F := fun u (q : Vec × Vec) => dot u ((List.range n).map q.1) ((List.range n).map q.2))
      (f := fun q : (Mat × Vec × Vec) × Vec => (q.2, q.1.2.2)) (dot2_conv n _ _) (by fun_prop))).congr ?_
  unfold Vec.dot Sobolev.form
  rw [Finset.sum_comm]
  refine Finset.sum_congr rfl fun j hj => ?_
  dsimp only
  rw [fill_loop (f := fun j => ∑ i ∈ Finset.range n, v1 i * m i j) (Finset.mem_range.mp hj), Finset.sum_mul]

/-- One term of the sum, with the coefficients given as functions. -/
def addFormX (u : ℝ × ℝ) (b : Basis) (codim : ℕ) (m : Mat) (v1 v2 : Vec) (iv c : ℕ) (r : ℝ) : Nd ℝ := do
  let f ← form u b.dim m (part b codim v1 iv c) (part b codim v2 iv c)
  near u (r + f)

theorem form_arg {u : ℝ × ℝ} {n : ℕ} {m : Mat} {v1 v1' v2 v2' : Vec} (h1 : ∀ k < n, v1 k = v1' k) (h2 : ∀ k < n, v2 k = v2' k) : form u n m v1 v2 = form u n m v1' v2' := by
  unfold form
  rw [List.map_congr_left (f := v1) (g := v1') fun k hk => h1 k (List.mem_range.mp hk), List.map_congr_left (f := v2) (g := v2') fun k hk => h2 k (List.mem_range.mp hk)]

theorem addForm_eq {u : ℝ × ℝ} {b : Basis} {codim n : ℕ} {m : Mat} {v1 v2 : List ℝ} (h1 : v1.length = b.dim * codim * n) (h2 : v2.length = b.dim * codim * n) {iv c : ℕ}
    (hiv : iv < n) (hc : c < codim) (r : ℝ) : addForm u b codim m v1 v2 iv c r = addFormX u b codim m (vecOf v1) (vecOf v2) iv c r := by
  obtain ⟨l1, e1, k1⟩ := seg_ok h1 hiv hc
  obtain ⟨l2, e2, k2⟩ := seg_ok h2 hiv hc
  unfold addForm addFormX
  rw [e1, e2, lift_ok, lift_ok, LawfulMonad.pure_bind, LawfulMonad.pure_bind, form_arg k1 k2]

theorem part_continuous (b : Basis) (codim iv c : ℕ) : Continuous fun y : Vec => part b codim y iv c := by
  unfold part
  fun_prop

theorem addFormX_conv (b : Basis) (codim iv c : ℕ) (m : Mat) (v1 v2 : Vec) (r : ℝ) :
    ConvAt (fun u (p : (Mat × Vec × Vec) × ℝ) => addFormX u b codim p.1.1 p.1.2.1 p.1.2.2 iv c p.2) ((m, v1, v2), r)
      (r + Sobolev.form b.dim m (part b codim v1 iv c) (part b codim v2 iv c)) := by
  unfold addFormX
  have hp := part_continuous b codim iv c
  refine ConvAt.bind (ConvAt.comp (F := fun u (p : Mat × Vec × Vec) => form u b.dim p.1 p.2.1 p.2.2)
    (f := fun p : (Mat × Vec × Vec) × ℝ => (p.1.1, part b codim p.1.2.1 iv c, part b codim p.1.2.2 iv c)) (form_conv _ _ _ _) ?_) ?_
  · exact ContinuousAt.prodMk (by fun_prop) (ContinuousAt.prodMk (hp.comp (by fun_prop : Continuous fun p : (Mat × Vec × Vec) × ℝ => p.1.2.1)).continuousAt
      (hp.comp (by fun_prop : Continuous fun p : (Mat × Vec × Vec) × ℝ => p.1.2.2)).continuousAt)
  · exact ConvAt.near (f := fun p : ((Mat × Vec × Vec) × ℝ) × ℝ => p.1.2 + p.2) (by fun_prop)

/-- Loops with equal bodies. -/
theorem loop_congr {σ : Type} {a b : ℕ} {f g : ℕ → σ → Nd σ} (h : ∀ i, a ≤ i → i < b → ∀ s, f i s = g i s) (s : σ) : Nd.loop a b f s = Nd.loop a b g s := by
  unfold Nd.loop
  have h' : ∀ i ∈ List.range' a (b - a), ∀ s, f i s = g i s := by
    intro i hi
    have := List.mem_range'.mp hi
    exact h i (by omega) (by omega)
  revert s
  generalize List.range' a (b - a) = l at h'
  induction l with
  | nil => intro s; rfl
  | cons i l ih =>
    intro s
    rw [List.foldlM_cons, List.foldlM_cons, h' i (by simp)]
    congr 1
    funext s'
    exact ih (fun j hj => h' j (by simp [hj])) s'

theorem sum_loop {n : ℕ} (f : ℕ → ℝ) (r : ℝ) : forLoop 0 n (fun i r => r + f i) r = r + ∑ i ∈ Finset.range n, f i := by
  induction n with
  | zero => simp [forLoop]
  | succ n ih => rw [forLoop_succ (Nat.zero_le n), ih, Finset.sum_range_succ, add_assoc]

/-- The sum over the components of one interval. -/
theorem comps_conv (b : Basis) (codim iv : ℕ) (m : Mat) (v1 v2 : Vec) (r : ℝ) :
    ConvAt (fun u (p : (Mat × Vec × Vec) × ℝ) => Nd.loop 0 codim (fun c r => addFormX u b codim p.1.1 p.1.2.1 p.1.2.2 iv c r) p.2) ((m, v1, v2), r)
      (r + ∑ c ∈ Finset.range codim, Sobolev.form b.dim m (part b codim v1 iv c) (part b codim v2 iv c)) := by
  refine (ConvAt.loop (a := 0) (b := codim) (α := Mat × Vec × Vec) (σ := ℝ) (body := fun u c p r => addFormX u b codim p.1 p.2.1 p.2.2 iv c r)
    (exact := fun c r => r + Sobolev.form b.dim m (part b codim v1 iv c) (part b codim v2 iv c)) (x := (m, v1, v2)) (s := r) fun c _ _ r => addFormX_conv b codim iv c m v1 v2 r).congr ?_
  exact sum_loop _ _

/-- The inner product with the coefficients given as functions. -/
noncomputable def innerX (u : ℝ × ℝ) (b : Basis) (mem : LagMem) (weights : List (ℕ × ℝ)) (n codim : ℕ) (tau : Vec) (v1 v2 : Vec) : Nd ℝ :=
  loop 0 n (fun iv r => do
    let m ← weighted u b.dim (addDerivMatrix u b mem (tau iv)) weights
    loop 0 codim (fun c r => addFormX u b codim m v1 v2 iv c r) r) 0

theorem innerProd_eq {u : ℝ × ℝ} {b : Basis} {mem : LagMem} {ws : List (ℕ × ℝ)} {n codim : ℕ} {tau v1 v2 : List ℝ} (ht : tau.length = n)
    (h1 : v1.length = b.dim * codim * n) (h2 : v2.length = b.dim * codim * n) : innerProd u b mem ws n codim tau v1 v2 = innerX u b mem ws n codim (vecOf tau) (vecOf v1) (vecOf v2) := by
  unfold innerProd innerX
  refine loop_congr (fun iv _ hiv r => ?_) _
  rw [rd_ok (by omega), lift_ok, LawfulMonad.pure_bind]
  congr 1
  funext m
  exact loop_congr (fun c _ hc r => addForm_eq h1 h2 hiv hc r) _

theorem innerX_conv {b : Basis} (hb : b.Valid) (hp : PosParam b) (mem : LagMem) {ws : List (ℕ × ℝ)} (hw : ∀ p ∈ ws, Adds b p.1) {n codim : ℕ} {tau : Vec} (ht : ∀ i < n, tau i ≠ 0)
    (v1 v2 : Vec) : ConvAt (fun u (p : Vec × Vec) => innerX u b mem ws n codim tau p.1 p.2) (v1, v2)
      (total b n codim (fun iv => wsum (q b mem (tau iv)) ws Mat.zero) v1 v2) := by
  unfold innerX total
  have h := ConvAt.loop (a := 0) (b := n) (α := Vec × Vec) (σ := ℝ) (body := fun u iv p r => do
      let m ← weighted u b.dim (addDerivMatrix u b mem (tau iv)) ws
      Nd.loop 0 codim (fun c r => addFormX u b codim m p.1 p.2 iv c r) r)
    (exact := fun iv r => r + ∑ c ∈ Finset.range codim, Sobolev.form b.dim (wsum (q b mem (tau iv)) ws Mat.zero) (part b codim v1 iv c) (part b codim v2 iv c)) (x := (v1, v2)) (s := 0)
    fun iv _ hiv r => by
      obtain ⟨z, hz, ez⟩ := weighted_conv (add := fun u => addDerivMatrix u b mem (tau iv)) (Q := q b mem (tau iv)) (n := b.dim) (ws := ws)
        (fun p hp' m => addDerivMatrix_conv hb hp mem (ht iv hiv) (hw p hp') m) (((v1, v2), r) : (Vec × Vec) × ℝ)
      refine (ConvAt.bind hz (ConvAt.comp (F := fun u (p : (Mat × Vec × Vec) × ℝ) => Nd.loop 0 codim (fun c r => addFormX u b codim p.1.1 p.1.2.1 p.1.2.2 iv c r) p.2)
        (f := fun p : ((Vec × Vec) × ℝ) × Mat => ((p.2, p.1.1.1, p.1.1.2), p.1.2)) (comps_conv b codim iv z v1 v2 r) (by fun_prop))).congr ?_
      congr 1
      exact Finset.sum_congr rfl fun c _ => form_congr ez (fun _ _ => rfl) fun _ _ => rfl
  refine (ConvAt.comp (x := (v1, v2)) (f := fun q : Vec × Vec => (q, (0 : ℝ))) h (by fun_prop)).congr ?_
  rw [sum_loop, zero_add]

end GSplines.Rounded
