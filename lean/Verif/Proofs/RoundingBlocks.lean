import Verif.Model.RoundingSobolev
import Verif.Proofs.RoundingSpline
import Verif.Proofs.Sobolev

/-! # Rounded evaluation of the matrices of the bases -/

namespace GSplines.Ex

open Nd Rounded Topology Filter

/-- The value without rounding. -/
noncomputable def val (t κ : ℝ) : Ex → ℝ
  | tau => t
  | k => κ
  | lit x => x
  | rlit x => x
  | neg a => -a.val t κ
  | add a b => a.val t κ + b.val t κ
  | sub a b => a.val t κ - b.val t κ
  | mul a b => a.val t κ * b.val t κ
  | div a b => a.val t κ / b.val t κ
  | pw a n => B0101.pw (a.val t κ) n
  | exp a => Real.exp (a.val t κ)
  | sin a => Real.sin (a.val t κ)
  | cos a => Real.cos (a.val t κ)

/-- The only divisor is `k`. -/
def good : Ex → Bool
  | tau => true
  | k => true
  | lit _ => true
  | rlit _ => true
  | neg a => a.good
  | add a b => a.good && b.good
  | sub a b => a.good && b.good
  | mul a b => a.good && b.good
  | div a k => a.good
  | div _ _ => false
  | pw a _ => a.good
  | exp a => a.good
  | sin a => a.good
  | cos a => a.good

theorem good_div {a b : Ex} (h : (div a b).good = true) : a.good = true ∧ b = k := by
  cases b <;> simp_all [good]

theorem conv2 {e1 e2 : Ex} {q : ℝ × ℝ} {f : ℝ → ℝ → ℝ} (hf : Continuous fun p : ℝ × ℝ => f p.1 p.2)
    (h1 : ConvAt (fun u (q : ℝ × ℝ) => e1.run u q.1 q.2) q (e1.val q.1 q.2)) (h2 : ConvAt (fun u (q : ℝ × ℝ) => e2.run u q.1 q.2) q (e2.val q.1 q.2)) :
    ConvAt (fun u (q : ℝ × ℝ) => (do
      let x ← e1.run u q.1 q.2
      let y ← e2.run u q.1 q.2
      near u (f x y) : Nd ℝ)) q (f (e1.val q.1 q.2) (e2.val q.1 q.2)) := by
  refine ConvAt.bind h1 (ConvAt.bind (ConvAt.comp (F := fun u (q : ℝ × ℝ) => e2.run u q.1 q.2) (x := (q, e1.val q.1 q.2)) (f := fun q : (ℝ × ℝ) × ℝ => q.1) h2 continuousAt_fst) ?_)
  exact ConvAt.near (f := fun q : ((ℝ × ℝ) × ℝ) × ℝ => f q.1.2 q.2) (hf.comp (by fun_prop : Continuous fun q : ((ℝ × ℝ) × ℝ) × ℝ => (q.1.2, q.2))).continuousAt

theorem conv1 {e : Ex} {q : ℝ × ℝ} {f : ℝ → ℝ} (hf : Continuous f) (h : ConvAt (fun u (q : ℝ × ℝ) => e.run u q.1 q.2) q (e.val q.1 q.2)) :
    ConvAt (fun u (q : ℝ × ℝ) => (do
      let x ← e.run u q.1 q.2
      near u (f x) : Nd ℝ)) q (f (e.val q.1 q.2)) :=
  ConvAt.bind h (ConvAt.near (f := fun q : (ℝ × ℝ) × ℝ => f q.2) (hf.comp continuous_snd).continuousAt)

theorem run_conv (e : Ex) (h : e.good = true) {q : ℝ × ℝ} (hk : q.2 ≠ 0) : ConvAt (fun u (q : ℝ × ℝ) => e.run u q.1 q.2) q (e.val q.1 q.2) := by
  induction e with
  | tau => exact ConvAt.pure (f := fun q : ℝ × ℝ => q.1) (by fun_prop)
  | k => exact ConvAt.pure (f := fun q : ℝ × ℝ => q.2) (by fun_prop)
  | lit x => exact ConvAt.pure (f := fun _ : ℝ × ℝ => x) (by fun_prop)
  | rlit x => exact ConvAt.near (f := fun _ : ℝ × ℝ => x) (by fun_prop)
  | neg a ih => exact ConvAt.bind (ih h) (ConvAt.pure (f := fun q : (ℝ × ℝ) × ℝ => -q.2) (by fun_prop))
  | add a b iha ihb =>
    simp only [good, Bool.and_eq_true] at h
    exact conv2 (f := fun x y => x + y) (by fun_prop) (iha h.1) (ihb h.2)
  | sub a b iha ihb =>
    simp only [good, Bool.and_eq_true] at h
    exact conv2 (f := fun x y => x - y) (by fun_prop) (iha h.1) (ihb h.2)
  | mul a b iha ihb =>
    simp only [good, Bool.and_eq_true] at h
    exact conv2 (f := fun x y => x * y) (by fun_prop) (iha h.1) (ihb h.2)
  | div a b iha ihb =>
    obtain ⟨ha, rfl⟩ := good_div h
    refine ConvAt.bind (iha ha) (ConvAt.bind (ConvAt.pure (f := fun q : (ℝ × ℝ) × ℝ => q.1.2) (by fun_prop)) ?_)
    exact ConvAt.quot (f := fun q : ((ℝ × ℝ) × ℝ) × ℝ => q.1.2) (g := fun q : ((ℝ × ℝ) × ℝ) × ℝ => q.2) (by fun_prop) (by fun_prop) hk
  | pw a n ih => exact conv1 (f := fun x => x ^ n) (by fun_prop) (ih h)
  | exp a ih => exact conv1 (f := Real.exp) (by fun_prop) (ih h)
  | sin a ih => exact conv1 (f := Real.sin) (by fun_prop) (ih h)
  | cos a ih => exact conv1 (f := Real.cos) (by fun_prop) (ih h)

theorem run_has {u : ℝ × ℝ} (h1 : 0 ≤ u.1) (h2 : 0 ≤ u.2) (t : ℝ) {κ : ℝ} (hk : κ ≠ 0) (e : Ex) (h : e.good = true) : Has (e.run u t κ) (e.val t κ) := by
  induction e with
  | tau => exact .pure _
  | k => exact .pure _
  | lit x => exact .pure _
  | rlit x => exact .near h1 h2 _
  | neg a ih => exact .bind (ih h) (.pure _)
  | add a b iha ihb =>
    simp only [good, Bool.and_eq_true] at h
    exact .bind (iha h.1) (.bind (ihb h.2) (.near h1 h2 _))
  | sub a b iha ihb =>
    simp only [good, Bool.and_eq_true] at h
    exact .bind (iha h.1) (.bind (ihb h.2) (.near h1 h2 _))
  | mul a b iha ihb =>
    simp only [good, Bool.and_eq_true] at h
    exact .bind (iha h.1) (.bind (ihb h.2) (.near h1 h2 _))
  | div a b iha ihb =>
    obtain ⟨ha, rfl⟩ := good_div h
    exact .bind (iha ha) (.bind (.pure _) (.quot h1 h2 _ hk))
  | pw a n ih => exact .bind (ih h) (.near h1 h2 _)
  | exp a ih => exact .bind (ih h) (.near h1 h2 _)
  | sin a ih => exact .bind (ih h) (.near h1 h2 _)
  | cos a ih => exact .bind (ih h) (.near h1 h2 _)

theorem safe_run (u : ℝ × ℝ) (t κ : ℝ) (e : Ex) : All (e.run u t κ) Safe := by
  induction e with
  | tau => exact safe_pure _
  | k => exact safe_pure _
  | lit x => exact safe_pure _
  | rlit x => exact safe_near _ _
  | neg a ih => exact safe_bind ih fun _ => safe_pure _
  | add a b iha ihb => exact safe_bind iha fun _ => safe_bind ihb fun _ => safe_near _ _
  | sub a b iha ihb => exact safe_bind iha fun _ => safe_bind ihb fun _ => safe_near _ _
  | mul a b iha ihb => exact safe_bind iha fun _ => safe_bind ihb fun _ => safe_near _ _
  | div a b iha ihb => exact safe_bind iha fun _ => safe_bind ihb fun _ => safe_quot _ _ _
  | pw a n ih => exact safe_bind ih fun _ => safe_near _ _
  | exp a ih => exact safe_bind ih fun _ => safe_near _ _
  | sin a ih => exact safe_bind ih fun _ => safe_near _ _
  | cos a ih => exact safe_bind ih fun _ => safe_near _ _

/-- An array of expressions with the entries of a matrix. -/
def Computes (q : ℕ → ℕ → Ex) (m : ℝ → ℝ → Mat) : Prop := ∀ i < 6, ∀ j < 6, (q i j).good = true ∧ ∀ t κ, (q i j).val t κ = m t κ i j

theorem q0_computes : Computes q0 B0101.q0 := by
  intro i hi j hj
  interval_cases i <;> interval_cases j <;> exact ⟨rfl, fun _ _ => rfl⟩

theorem qd1_computes : Computes qd1 B0101.qd1 := by
  intro i hi j hj
  interval_cases i <;> interval_cases j <;> exact ⟨rfl, fun _ _ => rfl⟩

theorem qd2_computes : Computes qd2 B0101.qd2 := by
  intro i hi j hj
  interval_cases i <;> interval_cases j <;> exact ⟨rfl, fun _ _ => rfl⟩

theorem qd3_computes : Computes qd3 B0101.qd3 := by
  intro i hi j hj
  interval_cases i <;> interval_cases j <;> exact ⟨rfl, fun _ _ => rfl⟩

theorem qd1Dtau_computes : Computes qd1Dtau B0101.qd1Dtau := by
  intro i hi j hj
  interval_cases i <;> interval_cases j <;> exact ⟨rfl, fun _ _ => rfl⟩

theorem qd3Dtau_computes : Computes qd3Dtau B0101.qd3Dtau := by
  intro i hi j hj
  interval_cases i <;> interval_cases j <;> exact ⟨rfl, fun _ _ => rfl⟩

end GSplines.Ex

namespace GSplines.Rounded

open Nd Spec Filter Topology

/-! ## Matrices assigned entry by entry -/

/-- The assignment without rounding. -/
def fillX (n : ℕ) (g : ℕ → ℕ → ℝ) : Mat := forLoop 0 n (fun i m => forLoop 0 n (fun j m => setAt2 m i j (g i j)) m) Mat.zero

theorem fillX_eq {n : ℕ} (g : ℕ → ℕ → ℝ) {i j : ℕ} (hi : i < n) (hj : j < n) : fillX n g i j = g i j := fill2 n g _ hi hj

theorem fillMat_conv {α : Type} [TopologicalSpace α] {n : ℕ} {f : ℝ × ℝ → ℕ → ℕ → α → Nd ℝ} {g : ℕ → ℕ → ℝ} {x : α}
    (h : ∀ i < n, ∀ j < n, ConvAt (fun u a => f u i j a) x (g i j)) : ConvAt (fun u a => fillMat n fun i j => f u i j a) x (fillX n g) := by
  unfold fillMat fillX
  have h' := ConvAt.loop (a := 0) (b := n) (α := α) (σ := Mat) (body := fun u i a m => Nd.loop 0 n (fun j (m : Mat) => do
      let e ← f u i j a
      return setAt2 m i j e) m) (exact := fun i m => forLoop 0 n (fun j m => setAt2 m i j (g i j)) m) (x := x) (s := Mat.zero) fun i _ hi m => by
    refine ConvAt.loop (a := 0) (b := n) (α := α) (σ := Mat) (body := fun u j a (m : Mat) => do
      let e ← f u i j a
      return setAt2 m i j e) (exact := fun j m => setAt2 m i j (g i j)) (x := x) (s := m) fun j _ hj m => ?_
    refine ConvAt.bind (ConvAt.comp (F := fun u a => f u i j a) (f := fun q : α × Mat => q.1) (h i hi j hj) continuousAt_fst) ?_
    exact ConvAt.pure (f := fun q : (α × Mat) × ℝ => setAt2 q.1.2 i j q.2) (setAt2_continuousAt (by fun_prop) (by fun_prop))
  exact ConvAt.comp (x := x) (f := fun a : α => (a, Mat.zero)) h' (by fun_prop)

theorem fillMat_has {n : ℕ} {f : ℕ → ℕ → Nd ℝ} {g : ℕ → ℕ → ℝ} (h : ∀ i < n, ∀ j < n, Has (f i j) (g i j)) : Has (fillMat n f) (fillX n g) :=
  Has.loop (exact := fun i m => forLoop 0 n (fun j m => setAt2 m i j (g i j)) m) (fun i _ hi _ =>
    Has.loop (exact := fun j m => setAt2 m i j (g i j)) (fun j _ hj _ => .bind (h i hi j hj) (.pure _)) _) _

theorem safe_fillMat {n : ℕ} {f : ℕ → ℕ → Nd ℝ} (h : ∀ i j, All (f i j) Safe) : All (fillMat n f) Safe :=
  safe_loop (fun _ _ => safe_loop (fun _ _ => safe_bind (h _ _) fun _ => safe_pure _) _) _

/-! ## The blocks of `Basis0101` -/

theorem kQ_conv {α : Type} [TopologicalSpace α] {a : ℝ} (h1 : a < 1) (x : α) : ConvAt (fun u (_ : α) => kQ u a) x (B0101.kQ a) := by
  have hd : (0 : ℝ) < 1 - a := by linarith
  unfold kQ
  refine ConvAt.bind (ConvAt.near (f := fun _ => √2 / 4) (by fun_prop)) ?_
  refine ConvAt.bind (ConvAt.near (by fun_prop)) ?_
  refine ConvAt.bind (ConvAt.near (by fun_prop)) ?_
  refine ConvAt.bind (ConvAt.near (by fun_prop)) ?_
  refine ConvAt.bind (ConvAt.quot (f := fun _ => (1 : ℝ)) (by fun_prop) (by fun_prop) (ne_of_gt hd)) ?_
  refine ConvAt.bind (ConvAt.near (f := fun q : (((((α × ℝ) × ℝ) × ℝ) × ℝ) × ℝ) => q.2 ^ (1 / 4 : ℝ)) (ContinuousAt.rpow (by fun_prop) (by fun_prop) (.inl (ne_of_gt (by positivity))))) ?_
  exact (ConvAt.near (f := fun q : ((((((α × ℝ) × ℝ) × ℝ) × ℝ) × ℝ) × ℝ) => q.1.1.1.2 * q.2) (by fun_prop)).congr rfl

theorem kQ_pos {a : ℝ} (h0 : 0 < a) (h1 : a < 1) : 0 < B0101.kQ a := by
  have hd : (0 : ℝ) < 1 - a := by linarith
  unfold B0101.kQ
  positivity

theorem kQ_has {u : ℝ × ℝ} (h1 : 0 ≤ u.1) (h2 : 0 ≤ u.2) {a : ℝ} (ha : a < 1) : Has (kQ u a) (B0101.kQ a) := by
  have hd : (0 : ℝ) < 1 - a := by linarith
  exact .bind (.near h1 h2 _) (.bind (.near h1 h2 _) (.bind (.near h1 h2 _) (.bind (.near h1 h2 _) (.bind (.quot h1 h2 _ hd.ne') (.bind (.near h1 h2 _) (.near h1 h2 _))))))

theorem addBlock_conv {a tau : ℝ} (h0 : 0 < a) (h1 : a < 1) {q : ℕ → ℕ → Ex} {M : ℝ → ℝ → Mat} (hq : Ex.Computes q M) (m : Mat) :
    ∃ z, ConvAt (fun u m => addBlock u q a tau m) m z ∧ Agree 6 z fun i j => m i j + M tau (B0101.kQ a) i j := by
  refine ⟨fillX 6 fun i j => m i j + fillX 6 (fun i j => M tau (B0101.kQ a) i j) i j, ?_, fun i hi j hj => ?_⟩
  · unfold addBlock
    refine ConvAt.bind (kQ_conv h1 m) (ConvAt.bind (y := fillX 6 (fun i j => M tau (B0101.kQ a) i j)) (fillMat_conv fun i hi j hj => ?_) (fillMat_conv fun i _ j _ => ?_))
    · have := Ex.run_conv (q i j) (hq i hi j hj).1 (q := (tau, B0101.kQ a)) (kQ_pos h0 h1).ne'
      rw [(hq i hi j hj).2] at this
      exact ConvAt.comp (F := fun u (p : ℝ × ℝ) => (q i j).run u p.1 p.2) (f := fun p : Mat × ℝ => (tau, p.2)) this (by fun_prop)
    · exact ConvAt.near (f := fun p : (Mat × ℝ) × Mat => p.1.1 i j + p.2 i j) (by fun_prop)
  · rw [fillX_eq _ hi hj, fillX_eq _ hi hj]

theorem addBlock_has {u : ℝ × ℝ} (h1 : 0 ≤ u.1) (h2 : 0 ≤ u.2) {a tau : ℝ} (ha0 : 0 < a) (ha : a < 1) {q : ℕ → ℕ → Ex} {M : ℝ → ℝ → Mat} (hq : Ex.Computes q M) (m : Mat) :
    ∃ z, Has (addBlock u q a tau m) z ∧ Agree 6 z fun i j => m i j + M tau (B0101.kQ a) i j := by
  refine ⟨fillX 6 fun i j => m i j + fillX 6 (fun i j => M tau (B0101.kQ a) i j) i j, .bind (kQ_has h1 h2 ha) (.bind (fillMat_has fun i hi j hj => ?_)
    (fillMat_has fun i _ j _ => .near h1 h2 _)), fun i hi j hj => ?_⟩
  · rw [← (hq i hi j hj).2]
    exact Ex.run_has h1 h2 tau (kQ_pos ha0 ha).ne' _ (hq i hi j hj).1
  · rw [fillX_eq _ hi hj, fillX_eq _ hi hj]

theorem safe_addBlock (u : ℝ × ℝ) (q : ℕ → ℕ → Ex) (a tau : ℝ) (m : Mat) : All (addBlock u q a tau m) Safe := by
  unfold addBlock kQ
  refine safe_bind ?_ fun k => safe_bind (safe_fillMat fun i j => Ex.safe_run _ _ _ _) fun b => safe_fillMat fun i j => safe_near _ _
  exact safe_bind (safe_near _ _) fun _ => safe_bind (safe_near _ _) fun _ => safe_bind (safe_near _ _) fun _ => safe_bind (safe_near _ _) fun _ =>
    safe_bind (safe_quot _ _ _) fun _ => safe_bind (safe_near _ _) fun _ => safe_near _ _

/-! ## The matrices of the polynomial bases -/

theorem Agree.tr {n : ℕ} {a b : Mat} (h : Agree n a b) : Agree n a.tr b.tr := fun i hi j hj => h j hj i hi

theorem Agree.refl (n : ℕ) (a : Mat) : Agree n a a := fun _ _ _ _ => rfl

theorem loop_agree {n a b : ℕ} {f g : Mat → Mat} (h : ∀ a b, Agree n a b → Agree n (f a) (g b)) {x y : Mat} (hxy : Agree n x y) :
    Agree n (forLoop a b (fun _ r => f r) x) (forLoop a b (fun _ r => g r) y) := by
  rcases Nat.le_total a b with hd | hd
  · induction b, hd using Nat.le_induction with
    | base => rwa [forLoop_of_le le_rfl, forLoop_of_le le_rfl]
    | succ k hk ih => rw [forLoop_succ hk, forLoop_succ hk]; exact h _ _ ih
  · rwa [forLoop_of_le hd, forLoop_of_le hd]

theorem legendreL2_conv {α : Type} [TopologicalSpace α] (dim : ℕ) (x : α) : ConvAt (fun u (_ : α) => legendreL2 u dim) x (fillX dim Legendre.l2Mat) := by
  unfold legendreL2
  refine fillMat_conv fun i _ j _ => ?_
  unfold Legendre.l2Mat
  by_cases h : i = j
  · simp only [if_pos h]
    exact ConvAt.quot (f := fun _ => (2 : ℝ)) (g := fun _ => 2 * (i : ℝ) + 1) (by fun_prop) (by fun_prop) (by positivity)
  · simp only [if_neg h]
    exact ConvAt.pure (f := fun _ : α => (0 : ℝ)) (by fun_prop)

/-- The two products of the buffers, without rounding. -/
def gramX (n : ℕ) (d l : Mat) : Mat := mulX n (mulX n d l) d.tr

theorem gram_conv (n : ℕ) (d l : Mat) : ConvAt (fun u (q : Mat × Mat) => (do
      let p ← matMul u n q.1 q.2
      matMul u n p q.1.tr : Nd Mat)) (d, l) (gramX n d l) := by
  refine ConvAt.bind (matMul_conv n d l) ?_
  refine ConvAt.comp (F := fun u (q : Mat × Mat) => matMul u n q.1 q.2) (f := fun q : (Mat × Mat) × Mat => (q.2, q.1.1.tr)) (matMul_conv n _ _) ?_
  unfold Mat.tr
  fun_prop

theorem gramX_agree {n : ℕ} {d d' l l' : Mat} (hd : Agree n d d') (hl : Agree n l l') : Agree n (gramX n d l) ((d'.mul n l').mul n d'.tr) := (hd.mul hl).mul hd.tr

theorem legendreBuffer_conv {α : Type} [TopologicalSpace α] (dim k : ℕ) (x : α) :
    ∃ z, ConvAt (fun u (_ : α) => legendreBuffer u dim k) x z ∧ Agree dim z (Legendre.sobolevBuffer dim k) := by
  unfold legendreBuffer Legendre.sobolevBuffer
  by_cases h0 : k = 0
  · simp only [if_pos h0]
    exact ⟨_, legendreL2_conv dim x, fun i hi j hj => fillX_eq _ hi hj⟩
  · simp only [if_neg h0]
    refine ⟨gramX dim (forLoop 1 k (fun _ a => mulX dim a (Legendre.dmat dim).tr) (Legendre.dmat dim).tr) (fillX dim Legendre.l2Mat), ?_,
      gramX_agree (loop_agree (f := fun a => mulX dim a (Legendre.dmat dim).tr) (g := fun a => a.mul dim (Legendre.dmat dim).tr)
        (fun a b h => h.mul (Agree.refl _ _)) (Agree.refl _ _)) fun i hi j hj => fillX_eq _ hi hj⟩
    refine ConvAt.bind (legendreL2_conv dim x) (ConvAt.bind (legendreDmat_conv dim _) (ConvAt.bind (y := forLoop 1 k (fun _ a => mulX dim a (Legendre.dmat dim).tr) (Legendre.dmat dim).tr) ?_ ?_))
    · have h := ConvAt.loop (a := 1) (b := k) (α := Mat) (σ := Mat) (body := fun u _ d r => matMul u dim r d) (exact := fun _ r => mulX dim r (Legendre.dmat dim).tr)
        (x := (Legendre.dmat dim).tr) (s := (Legendre.dmat dim).tr) fun _ _ _ r =>
          ConvAt.comp (F := fun u (q : Mat × Mat) => matMul u dim q.1 q.2) (x := ((Legendre.dmat dim).tr, r)) (f := fun q : Mat × Mat => (q.2, q.1)) (matMul_conv dim _ _) (by fun_prop)
      refine ConvAt.comp (F := fun u (q : Mat × Mat) => Nd.loop 1 k (fun _ r => matMul u dim r q.1) q.2) (f := fun q : (α × Mat) × Mat => (q.2.tr, q.2.tr)) h ?_
      unfold Mat.tr
      fun_prop
    · exact ConvAt.comp (F := fun u (q : Mat × Mat) => (do
        let p ← matMul u dim q.1 q.2
        matMul u dim p q.1.tr : Nd Mat)) (f := fun q : ((α × Mat) × Mat) × Mat => (q.2, q.1.1.2)) (gram_conv dim _ _) (by fun_prop)

theorem lagrangeBuffer_conv {α : Type} [TopologicalSpace α] {n : ℕ} {x : Vec} (h : Lagrange.Distinct n x) (mem : LagMem) (k : ℕ) (a : α) :
    ∃ z, ConvAt (fun u (_ : α) => lagrangeBuffer u n x mem k) a z ∧ Agree n z (Lagrange.sobolevBuffer n x mem.w mem.junk k) := by
  unfold lagrangeBuffer Lagrange.sobolevBuffer
  by_cases h0 : k = 0
  · simp only [if_pos h0]
    exact ⟨_, ConvAt.pure (f := fun _ : α => Lagrange.l2Mat mem.w mem.junk) (by fun_prop), Agree.refl _ _⟩
  · simp only [if_neg h0]
    have e : (if k = 1 then Lagrange.dmat1 n x else Lagrange.dmat n x k) = Lagrange.dmat n x k := by
      split_ifs with h1
      · subst h1; simp [Lagrange.dmat]
      · rfl
    rw [e]
    refine ⟨gramX n (Lagrange.dmat n x k) (Lagrange.l2Mat mem.w mem.junk), ConvAt.bind (dmat_conv h k a) ?_, gramX_agree (Agree.refl _ _) (Agree.refl _ _)⟩
    exact ConvAt.comp (F := fun u (q : Mat × Mat) => (do
        let p ← matMul u n q.1 q.2
        matMul u n p q.1.tr : Nd Mat)) (f := fun q : α × Mat => (q.2, Lagrange.l2Mat mem.w mem.junk)) (gram_conv n _ _) (by fun_prop)

theorem sobScale_conv {α : Type} [TopologicalSpace α] {tau : ℝ} (ht : tau ≠ 0) (deg : ℕ) (a : α) : ConvAt (fun u (_ : α) => sobScale u tau deg) a (Legendre.sobScale tau deg) := by
  unfold sobScale Legendre.sobScale
  by_cases h : 0 < deg
  · simp only [if_pos h]
    exact ConvAt.bind (ConvAt.quot (f := fun _ => (2 : ℝ)) (g := fun _ => tau) (by fun_prop) (by fun_prop) ht) (ConvAt.near (f := fun q : α × ℝ => q.2 ^ (2 * deg - 1)) (by fun_prop))
  · simp only [if_neg h]
    exact ConvAt.near (f := fun _ : α => tau / 2) (by fun_prop)

theorem sobScaleDtau_conv {α : Type} [TopologicalSpace α] {tau : ℝ} (ht : tau ≠ 0) (deg : ℕ) (a : α) :
    ConvAt (fun u (_ : α) => sobScaleDtau u tau deg) a (Legendre.sobScaleDtau tau deg) := by
  unfold sobScaleDtau Legendre.sobScaleDtau
  by_cases h : 0 < deg
  · simp only [if_pos h]
    refine ConvAt.bind (ConvAt.quot (f := fun _ => (2 : ℝ)) (g := fun _ => tau) (by fun_prop) (by fun_prop) ht) ?_
    refine ConvAt.bind (ConvAt.near (f := fun q : α × ℝ => q.2 ^ (2 * deg)) (by fun_prop)) ?_
    refine ConvAt.bind (ConvAt.near (f := fun _ => -(1 / 2) * (2 * (deg : ℝ) - 1)) (by fun_prop)) ?_
    exact (ConvAt.near (f := fun q : ((α × ℝ) × ℝ) × ℝ => q.2 * q.1.2) (by fun_prop)).congr rfl
  · simp only [if_neg h]
    exact ConvAt.pure (f := fun _ : α => (1 / 2 : ℝ)) (by fun_prop)

theorem addPoly_conv {n deg : ℕ} {buffer : ℝ × ℝ → Nd Mat} {scale : ℝ × ℝ → Nd ℝ} {Q : Mat} {sc : ℝ} (m : Mat)
    (hb : ∃ z, ConvAt (fun u (_ : Mat) => buffer u) m z ∧ Agree n z Q) (hs : ConvAt (fun u (_ : Mat × Mat) => scale u) (m, hb.choose) sc) :
    ∃ z, ConvAt (fun u m => addPoly u n deg (buffer u) (scale u) m) m z ∧ Agree n z fun i j => m i j + if deg < n + 1 then Q i j * sc else 0 := by
  unfold addPoly
  by_cases h : deg < n + 1
  · simp only [if_pos h]
    obtain ⟨h1, h2⟩ := hb.choose_spec
    refine ⟨fillX n fun i j => m i j + hb.choose i j * sc, ConvAt.bind h1 (ConvAt.bind hs ?_), fun i hi j hj => ?_⟩
    · unfold addScaled
      refine fillMat_conv fun i _ j _ => ?_
      refine ConvAt.bind (ConvAt.near (f := fun q : (Mat × Mat) × ℝ => q.1.2 i j * q.2) (by fun_prop)) ?_
      exact (ConvAt.near (f := fun q : ((Mat × Mat) × ℝ) × ℝ => q.1.1.1 i j + q.2) (by fun_prop)).congr rfl
    · rw [fillX_eq _ hi hj, h2 i hi j hj]
  · simp only [if_neg h]
    exact ⟨m, ConvAt.pure (f := fun m : Mat => m) (by fun_prop), fun i _ j _ => by simp⟩

end GSplines.Rounded
