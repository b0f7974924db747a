import Verif.Proofs.RoundingBlocks
import Verif.Proofs.RateSplineOps

/-! # The matrices of the bases: errors proportional to the rounding errors -/

namespace GSplines.Ex

open Nd Rounded

theorem rate2 {e1 e2 : Ex} {q : ℝ × ℝ} {f : ℝ → ℝ → ℝ} (hf : ∀ p : ℝ × ℝ, LLip (fun p : ℝ × ℝ => f p.1 p.2) p)
    (h1 : RateAt (fun u (q : ℝ × ℝ) => e1.run u q.1 q.2) q (e1.val q.1 q.2)) (h2 : RateAt (fun u (q : ℝ × ℝ) => e2.run u q.1 q.2) q (e2.val q.1 q.2)) :
    RateAt (fun u (q : ℝ × ℝ) => (do
      let x ← e1.run u q.1 q.2
      let y ← e2.run u q.1 q.2
      near u (f x y) : Nd ℝ)) q (f (e1.val q.1 q.2) (e2.val q.1 q.2)) := by
  refine RateAt.bind h1 (RateAt.bind (RateAt.comp (F := fun u (q : ℝ × ℝ) => e2.run u q.1 q.2) (x := (q, e1.val q.1 q.2)) (f := fun q : (ℝ × ℝ) × ℝ => q.1) h2 (LLip.fst' _)) ?_)
  exact RateAt.near (f := fun q : ((ℝ × ℝ) × ℝ) × ℝ => f q.1.2 q.2) (LLip.comp (g := fun p : ℝ × ℝ => f p.1 p.2) (f := fun q : ((ℝ × ℝ) × ℝ) × ℝ => (q.1.2, q.2)) (hf _) (by fun_prop))

theorem rate1 {e : Ex} {q : ℝ × ℝ} {f : ℝ → ℝ} (hf : ∀ x, LLip f x) (h : RateAt (fun u (q : ℝ × ℝ) => e.run u q.1 q.2) q (e.val q.1 q.2)) :
    RateAt (fun u (q : ℝ × ℝ) => (do
      let x ← e.run u q.1 q.2
      near u (f x) : Nd ℝ)) q (f (e.val q.1 q.2)) :=
  RateAt.bind h (RateAt.near (f := fun q : (ℝ × ℝ) × ℝ => f q.2) (LLip.comp (g := f) (f := fun q : (ℝ × ℝ) × ℝ => q.2) (hf _) (by fun_prop)))

theorem run_rate (e : Ex) (h : e.good = true) {q : ℝ × ℝ} (hk : q.2 ≠ 0) : RateAt (fun u (q : ℝ × ℝ) => e.run u q.1 q.2) q (e.val q.1 q.2) := by
  induction e with
  | tau => exact RateAt.pure (f := fun q : ℝ × ℝ => q.1) (by fun_prop)
  | k => exact RateAt.pure (f := fun q : ℝ × ℝ => q.2) (by fun_prop)
  | lit x => exact RateAt.pure (f := fun _ : ℝ × ℝ => x) (by fun_prop)
  | rlit x => exact RateAt.near (f := fun _ : ℝ × ℝ => x) (by fun_prop)
  | neg a ih => exact RateAt.bind (ih h) (RateAt.pure (f := fun q : (ℝ × ℝ) × ℝ => -q.2) (by fun_prop))
  | add a b iha ihb =>
    simp only [good, Bool.and_eq_true] at h
    exact rate2 (f := fun x y => x + y) (fun _ => by fun_prop) (iha h.1) (ihb h.2)
  | sub a b iha ihb =>
    simp only [good, Bool.and_eq_true] at h
    exact rate2 (f := fun x y => x - y) (fun _ => by fun_prop) (iha h.1) (ihb h.2)
  | mul a b iha ihb =>
    simp only [good, Bool.and_eq_true] at h
    exact rate2 (f := fun x y => x * y) (fun _ => by fun_prop) (iha h.1) (ihb h.2)
  | div a b iha ihb =>
    obtain ⟨ha, rfl⟩ := good_div h
    refine RateAt.bind (iha ha) (RateAt.bind (RateAt.pure (f := fun q : (ℝ × ℝ) × ℝ => q.1.2) (by fun_prop)) ?_)
    exact RateAt.quot (f := fun q : ((ℝ × ℝ) × ℝ) × ℝ => q.1.2) (g := fun q : ((ℝ × ℝ) × ℝ) × ℝ => q.2) (by fun_prop) (by fun_prop) hk
  | pw a n ih => exact rate1 (f := fun x => x ^ n) (fun _ => pow_llip (by fun_prop) n) (ih h)
  | exp a ih => exact rate1 (f := Real.exp) (fun _ => by fun_prop) (ih h)
  | sin a ih => exact rate1 (f := Real.sin) (fun _ => by fun_prop) (ih h)
  | cos a ih => exact rate1 (f := Real.cos) (fun _ => by fun_prop) (ih h)

end GSplines.Ex

namespace GSplines.Rounded

open Nd Spec

theorem fillMat_rate {α : Type} [Gauge α] {n : ℕ} {f : ℝ × ℝ → ℕ → ℕ → α → Nd ℝ} {g : ℕ → ℕ → ℝ} {x : α}
    (h : ∀ i < n, ∀ j < n, RateAt (fun u a => f u i j a) x (g i j)) : RateAt (fun u a => fillMat n fun i j => f u i j a) x (fillX n g) := by
  unfold fillMat fillX
  have h' := RateAt.loop (a := 0) (b := n) (α := α) (σ := Mat) (body := fun u i a m => Nd.loop 0 n (fun j (m : Mat) => do
      let e ← f u i j a
      return setAt2 m i j e) m) (exact := fun i m => forLoop 0 n (fun j m => setAt2 m i j (g i j)) m) (x := x) (s := Mat.zero) fun i _ hi m => by
    refine RateAt.loop (a := 0) (b := n) (α := α) (σ := Mat) (body := fun u j a (m : Mat) => do
      let e ← f u i j a
      return setAt2 m i j e) (exact := fun j m => setAt2 m i j (g i j)) (x := x) (s := m) fun j _ hj m => ?_
    refine RateAt.bind (RateAt.comp (F := fun u a => f u i j a) (f := fun q : α × Mat => q.1) (h i hi j hj) (LLip.fst' _)) ?_
    exact RateAt.pure (f := fun q : (α × Mat) × ℝ => setAt2 q.1.2 i j q.2) (setAt2_llip (by fun_prop) (by fun_prop))
  exact RateAt.comp (x := x) (f := fun a : α => (a, Mat.zero)) h' (LLip.prodMk (by fun_prop) (LLip.const _ _))

theorem kQ_rate {α : Type} [Gauge α] {a : ℝ} (h1 : a < 1) (x : α) : RateAt (fun u (_ : α) => kQ u a) x (B0101.kQ a) := by
  have hd : (0 : ℝ) < 1 - a := by linarith
  unfold kQ
  refine RateAt.bind (RateAt.near (f := fun _ => √2 / 4) (by fun_prop)) ?_
  refine RateAt.bind (RateAt.near (by fun_prop)) ?_
  refine RateAt.bind (RateAt.near (by fun_prop)) ?_
  refine RateAt.bind (RateAt.near (by fun_prop)) ?_
  refine RateAt.bind (RateAt.quot (f := fun _ => (1 : ℝ)) (by fun_prop) (by fun_prop) (ne_of_gt hd)) ?_
  refine RateAt.bind (RateAt.near (f := fun q : (((((α × ℝ) × ℝ) × ℝ) × ℝ) × ℝ) => q.2 ^ (1 / 4 : ℝ)) (by apply LLip.rpow; (fun_prop); exact ne_of_gt (by positivity))) ?_
  exact (RateAt.near (f := fun q : ((((((α × ℝ) × ℝ) × ℝ) × ℝ) × ℝ) × ℝ) => q.1.1.1.2 * q.2) (by fun_prop)).congr rfl

theorem addBlock_rate {a tau : ℝ} (h0 : 0 < a) (h1 : a < 1) {q : ℕ → ℕ → Ex} {M : ℝ → ℝ → Mat} (hq : Ex.Computes q M) (m : Mat) :
    ∃ z, RateAt (fun u m => addBlock u q a tau m) m z ∧ Agree 6 z fun i j => m i j + M tau (B0101.kQ a) i j := by
  refine ⟨fillX 6 fun i j => m i j + fillX 6 (fun i j => M tau (B0101.kQ a) i j) i j, ?_, fun i hi j hj => ?_⟩
  · unfold addBlock
    refine RateAt.bind (kQ_rate h1 m) (RateAt.bind (y := fillX 6 (fun i j => M tau (B0101.kQ a) i j)) (fillMat_rate fun i hi j hj => ?_) (fillMat_rate fun i _ j _ => ?_))
    · have := Ex.run_rate (q i j) (hq i hi j hj).1 (q := (tau, B0101.kQ a)) (kQ_pos h0 h1).ne'
      rw [(hq i hi j hj).2] at this
      exact RateAt.comp (F := fun u (p : ℝ × ℝ) => (q i j).run u p.1 p.2) (f := fun p : Mat × ℝ => (tau, p.2)) this (by fun_prop)
    · exact RateAt.near (f := fun p : (Mat × ℝ) × Mat => p.1.1 i j + p.2 i j) (by fun_prop)
  · rw [fillX_eq _ hi hj, fillX_eq _ hi hj]

theorem legendreL2_rate {α : Type} [Gauge α] (dim : ℕ) (x : α) : RateAt (fun u (_ : α) => legendreL2 u dim) x (fillX dim Legendre.l2Mat) := by
  unfold legendreL2
  refine fillMat_rate fun i _ j _ => ?_
  unfold Legendre.l2Mat
  by_cases h : i = j
  · simp only [if_pos h]
    exact RateAt.quot (f := fun _ => (2 : ℝ)) (g := fun _ => 2 * (i : ℝ) + 1) (by fun_prop) (by fun_prop) (by positivity)
  · simp only [if_neg h]
    exact RateAt.pure (f := fun _ : α => (0 : ℝ)) (by fun_prop)

theorem gram_rate (n : ℕ) (d l : Mat) : RateAt (fun u (q : Mat × Mat) => (do
      let p ← matMul u n q.1 q.2
      matMul u n p q.1.tr : Nd Mat)) (d, l) (gramX n d l) := by
  refine RateAt.bind (matMul_rate n d l) ?_
  refine RateAt.comp (F := fun u (q : Mat × Mat) => matMul u n q.1 q.2) (f := fun q : (Mat × Mat) × Mat => (q.2, q.1.1.tr)) (matMul_rate n _ _) ?_
  exact LLip.prodMk (by fun_prop) (LLip.comp (g := Mat.tr) (f := fun q : (Mat × Mat) × Mat => q.1.1) (tr_llip _) (by fun_prop))

theorem legendreBuffer_rate {α : Type} [Gauge α] (dim k : ℕ) (x : α) :
    ∃ z, RateAt (fun u (_ : α) => legendreBuffer u dim k) x z ∧ Agree dim z (Legendre.sobolevBuffer dim k) := by
  unfold legendreBuffer Legendre.sobolevBuffer
  by_cases h0 : k = 0
  · simp only [if_pos h0]
    exact ⟨_, legendreL2_rate dim x, fun i hi j hj => fillX_eq _ hi hj⟩
  · simp only [if_neg h0]
    refine ⟨gramX dim (forLoop 1 k (fun _ a => mulX dim a (Legendre.dmat dim).tr) (Legendre.dmat dim).tr) (fillX dim Legendre.l2Mat), ?_,
      gramX_agree (loop_agree (f := fun a => mulX dim a (Legendre.dmat dim).tr) (g := fun a => a.mul dim (Legendre.dmat dim).tr)
        (fun a b h => h.mul (Agree.refl _ _)) (Agree.refl _ _)) fun i hi j hj => fillX_eq _ hi hj⟩
    refine RateAt.bind (legendreL2_rate dim x) (RateAt.bind (legendreDmat_rate dim _) (RateAt.bind (y := forLoop 1 k (fun _ a => mulX dim a (Legendre.dmat dim).tr) (Legendre.dmat dim).tr) ?_ ?_))
    · have h := RateAt.loop (a := 1) (b := k) (α := Mat) (σ := Mat) (body := fun u _ d r => matMul u dim r d) (exact := fun _ r => mulX dim r (Legendre.dmat dim).tr)
        (x := (Legendre.dmat dim).tr) (s := (Legendre.dmat dim).tr) fun _ _ _ r =>
          RateAt.comp (F := fun u (q : Mat × Mat) => matMul u dim q.1 q.2) (x := ((Legendre.dmat dim).tr, r)) (f := fun q : Mat × Mat => (q.2, q.1)) (matMul_rate dim _ _) (by fun_prop)
      refine RateAt.comp (F := fun u (q : Mat × Mat) => Nd.loop 1 k (fun _ r => matMul u dim r q.1) q.2) (f := fun q : (α × Mat) × Mat => (q.2.tr, q.2.tr)) h ?_
      have hq : LLip (fun q : (α × Mat) × Mat => q.2.tr) ((x, fillX dim Legendre.l2Mat), (Legendre.dmat dim)) := LLip.comp (g := Mat.tr) (f := fun q : (α × Mat) × Mat => q.2) (tr_llip _) (by fun_prop)
      exact LLip.prodMk hq hq
    · exact RateAt.comp (F := fun u (q : Mat × Mat) => (do
        let p ← matMul u dim q.1 q.2
        matMul u dim p q.1.tr : Nd Mat)) (f := fun q : ((α × Mat) × Mat) × Mat => (q.2, q.1.1.2)) (gram_rate dim _ _) (by fun_prop)

theorem lagrangeBuffer_rate {α : Type} [Gauge α] {n : ℕ} {x : Vec} (h : Lagrange.Distinct n x) (mem : LagMem) (k : ℕ) (a : α) :
    ∃ z, RateAt (fun u (_ : α) => lagrangeBuffer u n x mem k) a z ∧ Agree n z (Lagrange.sobolevBuffer n x mem.w mem.junk k) := by
  unfold lagrangeBuffer Lagrange.sobolevBuffer
  by_cases h0 : k = 0
  · simp only [if_pos h0]
    exact ⟨_, RateAt.pure (f := fun _ : α => Lagrange.l2Mat mem.w mem.junk) (LLip.const _ _), Agree.refl _ _⟩
  · simp only [if_neg h0]
    have e : (if k = 1 then Lagrange.dmat1 n x else Lagrange.dmat n x k) = Lagrange.dmat n x k := by
      split_ifs with h1
      · subst h1; simp [Lagrange.dmat]
      · rfl
    rw [e]
    refine ⟨gramX n (Lagrange.dmat n x k) (Lagrange.l2Mat mem.w mem.junk), RateAt.bind (dmat_rate h k a) ?_, gramX_agree (Agree.refl _ _) (Agree.refl _ _)⟩
    exact RateAt.comp (F := fun u (q : Mat × Mat) => (do
        let p ← matMul u n q.1 q.2
        matMul u n p q.1.tr : Nd Mat)) (f := fun q : α × Mat => (q.2, Lagrange.l2Mat mem.w mem.junk)) (gram_rate n _ _) (LLip.prodMk (by fun_prop) (LLip.const _ _))

theorem sobScale_rate {α : Type} [Gauge α] {tau : ℝ} (ht : tau ≠ 0) (deg : ℕ) (a : α) : RateAt (fun u (_ : α) => sobScale u tau deg) a (Legendre.sobScale tau deg) := by
  unfold sobScale Legendre.sobScale
  by_cases h : 0 < deg
  · simp only [if_pos h]
    exact RateAt.bind (RateAt.quot (f := fun _ => (2 : ℝ)) (g := fun _ => tau) (by fun_prop) (by fun_prop) ht) (RateAt.near (f := fun q : α × ℝ => q.2 ^ (2 * deg - 1)) (pow_llip (by fun_prop) _))
  · simp only [if_neg h]
    exact RateAt.near (f := fun _ : α => tau / 2) (by fun_prop)

theorem sobScaleDtau_rate {α : Type} [Gauge α] {tau : ℝ} (ht : tau ≠ 0) (deg : ℕ) (a : α) :
    RateAt (fun u (_ : α) => sobScaleDtau u tau deg) a (Legendre.sobScaleDtau tau deg) := by
  unfold sobScaleDtau Legendre.sobScaleDtau
  by_cases h : 0 < deg
  · simp only [if_pos h]
    refine RateAt.bind (RateAt.quot (f := fun _ => (2 : ℝ)) (g := fun _ => tau) (by fun_prop) (by fun_prop) ht) ?_
    refine RateAt.bind (RateAt.near (f := fun q : α × ℝ => q.2 ^ (2 * deg)) (pow_llip (by fun_prop) _)) ?_
    refine RateAt.bind (RateAt.near (f := fun _ => -(1 / 2) * (2 * (deg : ℝ) - 1)) (by fun_prop)) ?_
    exact (RateAt.near (f := fun q : ((α × ℝ) × ℝ) × ℝ => q.2 * q.1.2) (by fun_prop)).congr rfl
  · simp only [if_neg h]
    exact RateAt.pure (f := fun _ : α => (1 / 2 : ℝ)) (by fun_prop)

theorem addPoly_rate {n deg : ℕ} {buffer : ℝ × ℝ → Nd Mat} {scale : ℝ × ℝ → Nd ℝ} {Q : Mat} {sc : ℝ} (m : Mat)
    (hb : ∃ z, RateAt (fun u (_ : Mat) => buffer u) m z ∧ Agree n z Q) (hs : RateAt (fun u (_ : Mat × Mat) => scale u) (m, hb.choose) sc) :
    ∃ z, RateAt (fun u m => addPoly u n deg (buffer u) (scale u) m) m z ∧ Agree n z fun i j => m i j + if deg < n + 1 then Q i j * sc else 0 := by
  unfold addPoly
  by_cases h : deg < n + 1
  · simp only [if_pos h]
    obtain ⟨h1, h2⟩ := hb.choose_spec
    refine ⟨fillX n fun i j => m i j + hb.choose i j * sc, RateAt.bind h1 (RateAt.bind hs ?_), fun i hi j hj => ?_⟩
    · unfold addScaled
      refine fillMat_rate fun i _ j _ => ?_
      refine RateAt.bind (RateAt.near (f := fun q : (Mat × Mat) × ℝ => q.1.2 i j * q.2) (by fun_prop)) ?_
      exact (RateAt.near (f := fun q : ((Mat × Mat) × ℝ) × ℝ => q.1.1.1 i j + q.2) (by fun_prop)).congr rfl
    · rw [fillX_eq _ hi hj, h2 i hi j hj]
  · simp only [if_neg h]
    exact ⟨m, RateAt.pure (f := fun m : Mat => m) (by fun_prop), fun i _ j _ => by simp⟩

end GSplines.Rounded
