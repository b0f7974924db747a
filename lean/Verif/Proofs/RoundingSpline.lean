import Verif.Model.RoundingSpline
import Verif.Proofs.RoundingInterpExact
import Verif.Proofs.RoundingCurve

/-! # Rounded derivatives and arithmetic of splines -/

namespace GSplines.Rounded

open Nd Spec Filter Topology

/-- Filling a square matrix entry by entry. -/
theorem fill2 (n : ℕ) (f : ℕ → ℕ → ℝ) (m : Mat) {i j : ℕ} (hi : i < n) (hj : j < n) :
    forLoop 0 n (fun i m => forLoop 0 n (fun j m => setAt2 m i j (f i j)) m) m i j = f i j := by
  have row : ∀ (i : ℕ) (m : Mat), ∀ a b, forLoop 0 n (fun j m => setAt2 m i j (f i j)) m a b = if a = i ∧ b < n then f i b else m a b := by
    intro i m
    refine forLoop_ind (fun J (z : Mat) => ∀ a b, z a b = if a = i ∧ b < J then f i b else m a b) (Nat.zero_le n) _ m (fun a b => by simp) fun J z _ _ hz a b => ?_
    unfold setAt2
    by_cases h : a = i ∧ b = J
    · obtain ⟨rfl, rfl⟩ := h
      simp
    · rw [if_neg h, hz a b]
      by_cases h1 : a = i ∧ b < J
      · rw [if_pos h1, if_pos ⟨h1.1, by omega⟩]
      · rw [if_neg h1, if_neg (by omega)]
  have := forLoop_ind (fun I (z : Mat) => ∀ a < I, ∀ b < n, z a b = f a b) (Nat.zero_le n) (fun i m => forLoop 0 n (fun j m => setAt2 m i j (f i j)) m) m
    (fun a ha => by omega) fun I z _ _ hz a ha b hb => by
      rw [row I z a b]
      by_cases h : a = I
      · rw [if_pos ⟨h, hb⟩, h]
      · rw [if_neg (by omega)]
        exact hz a (by omega) b hb
  exact this i hi j hj

/-- The product computed entry by entry, without rounding. -/
def mulX (n : ℕ) (a b : Mat) : Mat := forLoop 0 n (fun i m => forLoop 0 n (fun j m => setAt2 m i j (Vec.dot n (a i) fun k => b k j)) m) Mat.zero

theorem mulX_eq {n : ℕ} (a b : Mat) {i j : ℕ} (hi : i < n) (hj : j < n) : mulX n a b i j = a.mul n b i j := fill2 n (fun i j => Vec.dot n (a i) fun k => b k j) _ hi hj

/-- The same entries. -/
def Agree (n : ℕ) (a b : Mat) : Prop := ∀ i < n, ∀ j < n, a i j = b i j

theorem Agree.mul {n : ℕ} {a a' b b' : Mat} (ha : Agree n a a') (hb : Agree n b b') : Agree n (mulX n a b) (a'.mul n b') := fun i hi j hj => by
  rw [mulX_eq a b hi hj]
  unfold Mat.mul
  exact Finset.sum_congr rfl fun k hk => by rw [ha i hi k (Finset.mem_range.mp hk), hb k (Finset.mem_range.mp hk) j hj]

theorem matMul_conv (n : ℕ) (a b : Mat) : ConvAt (fun u (q : Mat × Mat) => matMul u n q.1 q.2) (a, b) (mulX n a b) := by
  unfold matMul mulX
  have h := ConvAt.loop (a := 0) (b := n) (α := Mat × Mat) (σ := Mat) (body := fun u i q m => Nd.loop 0 n (fun j (m : Mat) => do
      let e ← dot u ((List.range n).map (q.1 i)) ((List.range n).map fun k => q.2 k j)
      return setAt2 m i j e) m) (exact := fun i m => forLoop 0 n (fun j m => setAt2 m i j (Vec.dot n (a i) fun k => b k j)) m) (x := (a, b)) (s := Mat.zero) fun i _ _ m => by
    refine ConvAt.loop (a := 0) (b := n) (α := Mat × Mat) (σ := Mat) (body := fun u j q (m : Mat) => do
      let e ← dot u ((List.range n).map (q.1 i)) ((List.range n).map fun k => q.2 k j)
      return setAt2 m i j e) (exact := fun j m => setAt2 m i j (Vec.dot n (a i) fun k => b k j)) (x := (a, b)) (s := m) fun j _ _ m => ?_
    refine ConvAt.bind (ConvAt.comp (F := fun u (q : Vec × Vec) => dot u ((List.range n).map q.1) ((List.range n).map q.2))
      (f := fun q : (Mat × Mat) × Mat => (q.1.1 i, fun k => q.1.2 k j)) (dot2_conv n _ _) (by fun_prop)) ?_
    exact ConvAt.pure (f := fun q : ((Mat × Mat) × Mat) × ℝ => setAt2 q.1.2 i j q.2) (setAt2_continuousAt (by fun_prop) (by fun_prop))
  exact ConvAt.comp (x := (a, b)) (f := fun q : Mat × Mat => (q, Mat.zero)) h (by fun_prop)

/-! ## Convergence of the derivative matrices -/

theorem alpha_pos (i : ℕ) : 0 < Legendre.alpha i := by unfold Legendre.alpha; positivity

theorem alpha_conv {α : Type} [TopologicalSpace α] (i : ℕ) (x : α) : ConvAt (fun u (_ : α) => alpha u i) x (Legendre.alpha i) :=
  ConvAt.quot (f := fun _ => (i : ℝ) + 1) (g := fun _ => 2 * (i : ℝ) + 1) (by fun_prop) (by fun_prop) (by positivity)

theorem gamma_conv {α : Type} [TopologicalSpace α] (i : ℕ) (x : α) : ConvAt (fun u (_ : α) => gamma u i) x (Legendre.gamma i) :=
  ConvAt.quot (f := fun _ => (i : ℝ)) (g := fun _ => 2 * (i : ℝ) + 1) (by fun_prop) (by fun_prop) (by positivity)

theorem second_conv {α : Type} [TopologicalSpace α] {f : α → Mat} {x : α} (hf : ContinuousAt f x) (i j : ℕ) :
    ConvAt (fun u a => second u (f a) i j) x (if 1 ≤ j then Legendre.alpha (j - 1) * f x (i - 1) (j - 1) else 0) := by
  unfold second
  split_ifs with h
  · refine ConvAt.bind (alpha_conv _ _) ?_
    refine ConvAt.near (f := fun q : α × ℝ => q.2 * f q.1 (i - 1) (j - 1)) (ContinuousAt.mul (by fun_prop) ?_)
    have := continuousAt_pi.mp (continuousAt_pi.mp hf (i - 1)) (j - 1)
    exact ContinuousAt.comp (f := Prod.fst) (g := fun a => f a (i - 1) (j - 1)) this continuousAt_fst
  · exact ConvAt.pure (f := fun _ : α => (0 : ℝ)) continuousAt_const

theorem third_conv {α : Type} [TopologicalSpace α] {f : α → Mat} {x : α} (hf : ContinuousAt f x) (i j : ℕ) :
    ConvAt (fun u a => third u (f a) i j) x (if 1 ≤ i then Legendre.gamma (j + 1) * f x (i - 1) (j + 1) else 0) := by
  unfold third
  split_ifs with h
  · refine ConvAt.bind (gamma_conv _ _) ?_
    refine ConvAt.near (f := fun q : α × ℝ => q.2 * f q.1 (i - 1) (j + 1)) (ContinuousAt.mul (by fun_prop) ?_)
    have := continuousAt_pi.mp (continuousAt_pi.mp hf (i - 1)) (j + 1)
    exact ContinuousAt.comp (f := Prod.fst) (g := fun a => f a (i - 1) (j + 1)) this continuousAt_fst
  · exact ConvAt.pure (f := fun _ : α => (0 : ℝ)) continuousAt_const

theorem fourth_conv {α : Type} [TopologicalSpace α] {f : α → Mat} {x : α} (hf : ContinuousAt f x) (i j : ℕ) :
    ConvAt (fun u a => fourth u (f a) i j) x (if 2 ≤ i then Legendre.gamma (i - 1) * f x (i - 2) j else 0) := by
  unfold fourth
  split_ifs with h
  · refine ConvAt.bind (gamma_conv _ _) ?_
    refine ConvAt.near (f := fun q : α × ℝ => q.2 * f q.1 (i - 2) j) (ContinuousAt.mul (by fun_prop) ?_)
    have := continuousAt_pi.mp (continuousAt_pi.mp hf (i - 2)) j
    exact ContinuousAt.comp (f := Prod.fst) (g := fun a => f a (i - 2) j) this continuousAt_fst
  · exact ConvAt.pure (f := fun _ : α => (0 : ℝ)) continuousAt_const

theorem lowerEntry_conv (m : Mat) (i j : ℕ) : ConvAt (fun u (q : Unit × Mat) => lowerEntry u q.2 i j) ((), m) (1 / Legendre.alpha (i - 1) *
    (0 + (if 1 ≤ j then Legendre.alpha (j - 1) * m (i - 1) (j - 1) else 0) + (if 1 ≤ i then Legendre.gamma (j + 1) * m (i - 1) (j + 1) else 0)
      - (if 2 ≤ i then Legendre.gamma (i - 1) * m (i - 2) j else 0))) := by
  unfold lowerEntry
  refine ConvAt.bind (second_conv (f := fun q : Unit × Mat => q.2) (by fun_prop) i j) ?_
  refine ConvAt.bind (third_conv (f := fun q : (Unit × Mat) × ℝ => q.1.2) (by fun_prop) i j) ?_
  refine ConvAt.bind (fourth_conv (f := fun q : ((Unit × Mat) × ℝ) × ℝ => q.1.1.2) (by fun_prop) i j) ?_
  refine ConvAt.bind (alpha_conv _ _) ?_
  refine ConvAt.bind (ConvAt.quot (f := fun _ : ((((Unit × Mat) × ℝ) × ℝ) × ℝ) × ℝ => (1 : ℝ)) (g := fun q => q.2) (by fun_prop) (by fun_prop) (alpha_pos _).ne') ?_
  refine ConvAt.bind (ConvAt.near (by fun_prop)) ?_
  refine ConvAt.bind (ConvAt.near (by fun_prop)) ?_
  refine ConvAt.bind (ConvAt.near (by fun_prop)) ?_
  exact ConvAt.near (by fun_prop)

theorem legendreEntry_conv (m : Mat) (i j : ℕ) : ConvAt (fun u (q : Unit × Mat) => legendreEntry u q.2 i j) ((), m) (Legendre.dmatEntry m i j) := by
  unfold legendreEntry Legendre.dmatEntry
  by_cases h : i = j + 1
  · simp only [if_pos h]
    refine ConvAt.bind (alpha_conv _ _) ?_
    exact ConvAt.quot (f := fun _ : (Unit × Mat) × ℝ => (i : ℝ)) (g := fun q : (Unit × Mat) × ℝ => q.2) (by fun_prop) (by fun_prop) (alpha_pos _).ne'
  · simp only [if_neg h]
    by_cases h' : j + 1 < i
    · simp only [if_pos h']
      exact lowerEntry_conv m i j
    · simp only [if_neg h']
      exact ConvAt.pure (f := fun _ : Unit × Mat => (0 : ℝ)) continuousAt_const

theorem legendreDmat_conv {α : Type} [TopologicalSpace α] (dim : ℕ) (a : α) : ConvAt (fun u (_ : α) => legendreDmat u dim) a (Legendre.dmat dim) := by
  unfold legendreDmat Legendre.dmat
  have h := ConvAt.loop (a := 1) (b := dim) (α := Unit) (σ := Mat) (body := fun u i _ m => Nd.loop 0 (dim - 1) (fun j (m : Mat) => do
      let e ← legendreEntry u m i j
      return setAt2 m i j e) m) (exact := fun i m => forLoop 0 (dim - 1) (fun j m => setAt2 m i j (Legendre.dmatEntry m i j)) m) (x := ()) (s := Mat.zero) fun i _ _ m => by
    refine ConvAt.loop (a := 0) (b := dim - 1) (α := Unit) (σ := Mat) (body := fun u j _ (m : Mat) => do
      let e ← legendreEntry u m i j
      return setAt2 m i j e) (exact := fun j m => setAt2 m i j (Legendre.dmatEntry m i j)) (x := ()) (s := m) fun j _ _ m => ?_
    refine ConvAt.bind (legendreEntry_conv m i j) ?_
    exact ConvAt.pure (f := fun q : (Unit × Mat) × ℝ => setAt2 q.1.2 i j q.2) (setAt2_continuousAt (by fun_prop) (by fun_prop))
  exact ConvAt.comp (x := a) (f := fun _ : α => ((), Mat.zero)) h (by fun_prop)

theorem power_agree {n deg : ℕ} {f g : Mat → Mat} (h : ∀ a b, Agree n a b → Agree n (f a) (g b)) {a b : Mat} (hab : Agree n a b) :
    Agree n (forLoop 2 (deg + 1) (fun _ r => f r) a) (forLoop 2 (deg + 1) (fun _ r => g r) b) := by
  generalize deg + 1 = d
  rcases Nat.le_total 2 d with hd | hd
  · induction d, hd using Nat.le_induction with
    | base => rwa [forLoop_of_le le_rfl, forLoop_of_le le_rfl]
    | succ k hk ih => rw [forLoop_succ hk, forLoop_succ hk]; exact h _ _ ih
  · rwa [forLoop_of_le hd, forLoop_of_le hd]

theorem legendreBlock_conv {α : Type} [TopologicalSpace α] (dim deg : ℕ) (a : α) :
    ∃ z, ConvAt (fun u (_ : α) => legendreBlock u dim deg) a z ∧ Agree dim z (Legendre.derivMatrixImpl dim deg) := by
  unfold legendreBlock Legendre.derivMatrixImpl
  by_cases h0 : deg = 0
  · simp only [if_pos h0]
    exact ⟨_, ConvAt.pure (f := fun _ : α => Mat.id) continuousAt_const, fun _ _ _ _ => rfl⟩
  · simp only [if_neg h0]
    refine ⟨forLoop 2 (deg + 1) (fun _ r => mulX dim r (Legendre.dmat dim).tr) (Legendre.dmat dim).tr, ?_, ?_⟩
    · refine ConvAt.bind (legendreDmat_conv dim a) (ConvAt.bind (legendreDmat_conv dim _) ?_)
      have h := ConvAt.loop (a := 2) (b := deg + 1) (α := Mat) (σ := Mat) (body := fun u _ d r => matMul u dim r d) (exact := fun _ r => mulX dim r (Legendre.dmat dim).tr)
        (x := (Legendre.dmat dim).tr) (s := (Legendre.dmat dim).tr) fun _ _ _ r =>
          ConvAt.comp (F := fun u (q : Mat × Mat) => matMul u dim q.1 q.2) (x := ((Legendre.dmat dim).tr, r)) (f := fun q : Mat × Mat => (q.2, q.1)) (matMul_conv dim _ _) (by fun_prop)
      refine ConvAt.comp (F := fun u (q : Mat × Mat) => Nd.loop 2 (deg + 1) (fun _ r => matMul u dim r q.1) q.2) (f := fun q : (α × Mat) × Mat => (q.2.tr, q.1.2.tr)) h ?_
      unfold Mat.tr
      fun_prop
    · exact power_agree (f := fun r => mulX dim r (Legendre.dmat dim).tr) (g := fun r => r.mul dim (Legendre.dmat dim).tr) (fun a b hab => hab.mul fun _ _ _ _ => rfl) fun _ _ _ _ => rfl

theorem b0101Scaled_conv (t : ℝ) : ConvAt (fun u t => b0101Scaled u t) t
    (forLoop 0 6 (fun i m => forLoop 0 6 (fun j m => setAt2 m i j (B0101.d1mat i j * t)) m) Mat.zero) := by
  unfold b0101Scaled
  have h := ConvAt.loop (a := 0) (b := 6) (α := ℝ) (σ := Mat) (body := fun u i t m => Nd.loop 0 6 (fun j (m : Mat) => do
      let e ← near u (B0101.d1mat i j * t)
      return setAt2 m i j e) m) (exact := fun i m => forLoop 0 6 (fun j m => setAt2 m i j (B0101.d1mat i j * t)) m) (x := t) (s := Mat.zero) fun i _ _ m => by
    refine ConvAt.loop (a := 0) (b := 6) (α := ℝ) (σ := Mat) (body := fun u j t (m : Mat) => do
      let e ← near u (B0101.d1mat i j * t)
      return setAt2 m i j e) (exact := fun j m => setAt2 m i j (B0101.d1mat i j * t)) (x := t) (s := m) fun j _ _ m => ?_
    refine ConvAt.bind (ConvAt.near (f := fun q : ℝ × Mat => B0101.d1mat i j * q.1) (by fun_prop)) ?_
    exact ConvAt.pure (f := fun q : (ℝ × Mat) × ℝ => setAt2 q.1.2 i j q.2) (setAt2_continuousAt (by fun_prop) (by fun_prop))
  exact ConvAt.comp (x := t) (f := fun t : ℝ => (t, Mat.zero)) h (by fun_prop)

theorem b0101Block_conv {α : Type} [TopologicalSpace α] {al : ℝ} (h1 : al < 1) (deg : ℕ) (a : α) :
    ∃ z, ConvAt (fun u (_ : α) => b0101Block u al deg) a z ∧ Agree 6 z (B0101.derivMatrixImpl al deg) := by
  have hd : (0 : ℝ) < 1 - al := by linarith
  unfold b0101Block B0101.derivMatrixImpl
  by_cases h0 : deg = 0
  · simp only [if_pos h0]
    exact ⟨_, ConvAt.pure (f := fun _ : α => Mat.id) continuousAt_const, fun _ _ _ _ => rfl⟩
  · simp only [if_neg h0]
    refine ⟨forLoop 2 (deg + 1) (fun _ q => mulX 6 q q) (forLoop 0 6 (fun i m => forLoop 0 6 (fun j m => setAt2 m i j (B0101.d1mat i j * (B0101.kOf al * 2))) m) Mat.zero), ?_, ?_⟩
    · refine ConvAt.bind (ConvAt.near (by fun_prop)) ?_
      refine ConvAt.bind (ConvAt.near (by fun_prop)) ?_
      refine ConvAt.bind (ConvAt.near (by fun_prop)) ?_
      refine ConvAt.bind (ConvAt.near (by fun_prop)) ?_
      refine ConvAt.bind (ConvAt.near (by fun_prop)) ?_
      refine ConvAt.bind (ConvAt.near (ContinuousAt.rpow (by fun_prop) (by fun_prop) (.inl (ne_of_gt hd)))) ?_
      refine ConvAt.bind (ConvAt.quot (by fun_prop) (by fun_prop) (ne_of_gt (Real.rpow_pos_of_pos hd _))) ?_
      refine ConvAt.bind (ConvAt.near (by fun_prop)) ?_
      refine ConvAt.bind (ConvAt.comp (F := fun u (t : ℝ) => b0101Scaled u t) (f := fun q : ((((((((α × ℝ) × ℝ) × ℝ) × ℝ) × ℝ) × ℝ) × ℝ) × ℝ) => q.2) (b0101Scaled_conv _) (by fun_prop)) ?_
      refine ConvAt.comp (f := fun q : ((((((((α × ℝ) × ℝ) × ℝ) × ℝ) × ℝ) × ℝ) × ℝ) × ℝ) × Mat => ((), q.2))
        (ConvAt.loop (a := 2) (b := deg + 1) (α := Unit) (σ := Mat) (body := fun u _ _ q => matMul u 6 q q) (exact := fun _ q => mulX 6 q q)
          (x := ()) fun _ _ _ q =>
            ConvAt.comp (F := fun u (q : Mat × Mat) => matMul u 6 q.1 q.2) (f := fun q : Unit × Mat => (q.2, q.2)) (matMul_conv 6 _ _) (by fun_prop)) (by fun_prop)
    · exact power_agree (f := fun q => mulX 6 q q) (g := fun q => q.mul 6 q) (fun a b hab => hab.mul hab) fun i hi j hj =>
        fill2 6 (fun i j => B0101.d1mat i j * (B0101.kOf al * 2)) _ hi hj

/-- The derivative matrix with rounding tends to the exact one. -/
theorem derivBlock_conv {α : Type} [TopologicalSpace α] {b : Basis} (hb : b.Valid) (deg : ℕ) (a : α) :
    ∃ z, ConvAt (fun u (_ : α) => derivBlock u b deg) a z ∧ Agree b.dim z (b.derivBlock deg) := by
  cases b with
  | legendre d => exact legendreBlock_conv d deg a
  | b0101 al => exact b0101Block_conv hb.2 deg a
  | lagrange x =>
    have hb' : Props.Separated x.length (vecOf x) := hb
    refine ⟨_, dmat_conv hb'.distinct deg a, fun i _ j _ => ?_⟩
    unfold Basis.derivBlock Basis.derivMatrixImpl Lagrange.derivMatrixImpl
    split_ifs with h
    · subst h; simp [Lagrange.dmat]
    · rfl

/-! ## Convergence of `deriv` -/

/-- The assignment to a segment, without rounding, with any matrix. -/
def segX (dim i0 : ℕ) (d : Mat) (scale : ℝ) (v : Vec) : Vec := fun x =>
  if i0 ≤ x ∧ x < i0 + dim then d.mulVec dim (fun k => v (i0 + k)) (x - i0) * scale else v x

theorem segmentProduct_conv (dim i0 : ℕ) (d : Mat) (sc : ℝ) (v : Vec) :
    ∃ z : Vec, ConvAt (fun u (q : (Mat × ℝ) × Vec) => segmentProduct u dim i0 q.1.1 q.1.2 q.2) ((d, sc), v) z ∧
      ∀ k < dim, z k = d.mulVec dim (fun k => v (i0 + k)) k * sc := by
  have h := ConvAt.loop (a := 0) (b := dim) (α := (Mat × ℝ) × Vec) (σ := Vec) (body := fun u i q (r : Vec) => do
      let a ← dot u ((List.range dim).map (q.1.1 i)) ((List.range dim).map fun k => q.2 (i0 + k))
      let p ← near u (a * q.1.2)
      return setAt r i p) (exact := fun i r => setAt r i (Vec.dot dim (d i) (fun k => v (i0 + k)) * sc)) (x := ((d, sc), v)) (s := fun _ => 0) fun i _ _ r => by
    refine ConvAt.bind (ConvAt.comp (F := fun u (q : Vec × Vec) => dot u ((List.range dim).map q.1) ((List.range dim).map q.2))
      (f := fun q : ((Mat × ℝ) × Vec) × Vec => (q.1.1.1 i, fun k => q.1.2 (i0 + k))) (dot2_conv dim _ _) (by fun_prop)) ?_
    refine ConvAt.bind (ConvAt.near (by fun_prop)) ?_
    exact ConvAt.pure (f := fun q : (((((Mat × ℝ) × Vec) × Vec) × ℝ) × ℝ) => setAt q.1.1.2 i q.2) (setAt_continuousAt (by fun_prop) (by fun_prop))
  refine ⟨_, ConvAt.comp (x := ((d, sc), v)) (f := fun q : (Mat × ℝ) × Vec => (q, fun _ => (0 : ℝ))) h (by fun_prop), fun k hk => ?_⟩
  rw [fill_loop (f := fun i => Vec.dot dim (d i) (fun k => v (i0 + k)) * sc) hk]
  rfl

theorem derivSegment_conv (dim i0 : ℕ) (d : Mat) (sc : ℝ) (v : Vec) :
    ConvAt (fun u (q : (Mat × ℝ) × Vec) => derivSegment u dim i0 q.1.1 q.1.2 q.2) ((d, sc), v) (segX dim i0 d sc v) := by
  obtain ⟨z, hz, hz1⟩ := segmentProduct_conv dim i0 d sc v
  unfold derivSegment
  refine ConvAt.bind hz ?_
  have e : segX dim i0 d sc v = fun x => if i0 ≤ x ∧ x < i0 + dim then z (x - i0) else v x := by
    funext x
    unfold segX
    split_ifs with h
    · rw [hz1 _ (by omega)]
    · rfl
  rw [e]
  refine ConvAt.pure (f := fun (q : ((Mat × ℝ) × Vec) × Vec) (x : ℕ) => if i0 ≤ x ∧ x < i0 + dim then q.2 (x - i0) else q.1.2 x) (continuousAt_pi.mpr fun x => ?_)
  by_cases h : i0 ≤ x ∧ x < i0 + dim
  · simp only [if_pos h]; fun_prop
  · simp only [if_neg h]; fun_prop

theorem derivScale_conv {α : Type} [TopologicalSpace α] (b : Basis) {tau : ℝ} (ht : tau ≠ 0) (deg : ℕ) (a : α) :
    ConvAt (fun u (_ : α) => derivScale u b tau deg) a (GSpline.derivScale b tau deg) := by
  have h : ConvAt (fun u (_ : α) => (do
      let q ← quot u 2 tau
      near u (q ^ deg) : Nd ℝ)) a ((2 / tau) ^ deg) :=
    ConvAt.bind (ConvAt.quot (f := fun _ => (2 : ℝ)) (g := fun _ => tau) (by fun_prop) (by fun_prop) ht) (ConvAt.near (f := fun q : α × ℝ => q.2 ^ deg) (by fun_prop))
  cases b with
  | legendre d => exact h
  | lagrange x => exact h
  | b0101 al => exact ConvAt.pure (f := fun _ : α => if deg = 0 then (0 : ℝ) else 1) continuousAt_const

theorem derivStep_conv (b : Basis) (codim deg : ℕ) {tau : List ℝ} {i : ℕ} (ht : vecOf tau i ≠ 0) (d : Mat) (c : ℕ) (v : Vec) :
    ConvAt (fun u (q : Mat × Vec) => derivStep u b codim deg tau q.1 i c q.2) (d, v)
      (segX b.dim (i * b.dim * codim + b.dim * c) d (GSpline.derivScale b (vecOf tau i) deg) v) := by
  unfold derivStep
  refine ConvAt.bind (derivScale_conv b ht deg _) ?_
  exact ConvAt.comp (F := fun u (q : (Mat × ℝ) × Vec) => derivSegment u b.dim (i * b.dim * codim + b.dim * c) q.1.1 q.1.2 q.2)
    (f := fun q : (Mat × Vec) × ℝ => ((q.1.1, q.2), q.1.2)) (derivSegment_conv _ _ _ _ _) (by fun_prop)

/-- The loops without rounding, with any matrix. -/
noncomputable def coX (b : Basis) (codim deg : ℕ) (tau : List ℝ) (d : Mat) (v : Vec) : Vec :=
  forLoop 0 tau.length (fun i v => forLoop 0 codim (fun c v => segX b.dim (i * b.dim * codim + b.dim * c) d (GSpline.derivScale b (vecOf tau i) deg) v) v) v

theorem derivCoeffs_conv (b : Basis) (codim deg : ℕ) {tau : List ℝ} (hz : 0 ∉ tau) (d : Mat) (v : Vec) :
    ConvAt (fun u (q : Mat × Vec) => derivCoeffs u b codim deg tau q.1 q.2) (d, v) (coX b codim deg tau d v) := by
  unfold derivCoeffs coX
  refine ConvAt.loop (a := 0) (b := tau.length) (α := Mat) (σ := Vec) (body := fun u i d v => Nd.loop 0 codim (fun c v => derivStep u b codim deg tau d i c v) v)
    (exact := fun i v => forLoop 0 codim (fun c v => segX b.dim (i * b.dim * codim + b.dim * c) d (GSpline.derivScale b (vecOf tau i) deg) v) v) (x := d) (s := v) fun i _ hi v => ?_
  refine ConvAt.loop (a := 0) (b := codim) (α := Mat) (σ := Vec) (body := fun u c d v => derivStep u b codim deg tau d i c v)
    (exact := fun c v => segX b.dim (i * b.dim * codim + b.dim * c) d (GSpline.derivScale b (vecOf tau i) deg) v) (x := d) (s := v) fun c _ _ v => ?_
  refine derivStep_conv b codim deg (fun h => hz ?_) d c v
  rw [← h]
  unfold vecOf
  rw [List.getD_eq_getElem?_getD, List.getElem?_eq_getElem hi]
  exact List.getElem_mem hi

theorem segX_congr {dim i0 : ℕ} {d d' : Mat} (h : Agree dim d d') (sc : ℝ) (v : Vec) : segX dim i0 d sc v = segX dim i0 d' sc v := by
  funext x
  unfold segX
  split_ifs with hx
  · congr 1
    unfold Mat.mulVec
    exact Finset.sum_congr rfl fun k hk => by rw [h _ (by omega) k (Finset.mem_range.mp hk)]
  · rfl

theorem coX_eq (g : GSpline) (deg : ℕ) {d : Mat} (h : (g.nIntervals = 0 ∨ g.codim = 0) ∨ Agree g.basis.dim d (g.basis.derivBlock deg)) :
    coX g.basis g.codim deg g.tau d (vecOf g.coeffs) = g.derivCoeffs deg := by
  unfold coX GSpline.derivCoeffs
  rcases h with (h | h) | h
  · have h' : g.tau.length = 0 := h
    rw [forLoop_of_le (by omega), forLoop_of_le (by omega)]
  · rw [h]
    exact forLoop_congr (fun i v _ _ => by rw [forLoop_of_le le_rfl, forLoop_of_le le_rfl]) _
  · exact forLoop_congr (fun i v _ _ => forLoop_congr (fun c v _ _ => segX_congr h _ v) v) _

theorem neededBlock_conv {α : Type} [TopologicalSpace α] {g : GSpline} (hb : g.basis.Valid) (deg : ℕ) (a : α) :
    ∃ z, ConvAt (fun u (_ : α) => neededBlock u g deg) a z ∧ ((g.nIntervals = 0 ∨ g.codim = 0) ∨ Agree g.basis.dim z (g.basis.derivBlock deg)) := by
  unfold neededBlock
  by_cases h : g.nIntervals = 0 ∨ g.codim = 0
  · simp only [if_pos h]
    exact ⟨_, ConvAt.pure (f := fun _ : α => Mat.zero) continuousAt_const, .inl h⟩
  · simp only [if_neg h]
    obtain ⟨z, h1, h2⟩ := derivBlock_conv hb deg a
    exact ⟨z, h1, .inr h2⟩

/-- The coefficients of the derivative, as `deriv` computes them without rounding. -/
noncomputable def dco (g : GSpline) (deg : ℕ) : List ℝ := if 0 < deg then (List.range g.coeffs.length).map (g.derivCoeffs deg) else g.coeffs

theorem dco_length (g : GSpline) (deg : ℕ) : (dco g deg).length = g.coeffs.length := by
  unfold dco; split_ifs <;> simp

theorem vecOf_near {x y : List ℝ} (hl : x.length = y.length) {κ : ℝ} (hκ : 0 ≤ κ) (h : ∀ k < x.length, |vecOf x k - vecOf y k| ≤ κ) (k : ℕ) : |vecOf x k - vecOf y k| ≤ κ := by
  by_cases hk : k < x.length
  · exact h k hk
  · unfold vecOf
    rw [List.getD_eq_getElem?_getD, List.getD_eq_getElem?_getD, List.getElem?_eq_none (by omega), List.getElem?_eq_none (by omega)]
    simpa using hκ

/-- `deriv` of splines with coefficients near those of `g`. -/
theorem deriv_near {g : GSpline} (hb : g.basis.Valid) (hcon : Consistent g) (hz : 0 ∉ g.tau) (deg : ℕ) {ε : ℝ} (hε : 0 < ε) :
    ∃ κ > 0, ∀ᶠ u in 𝓝 (0 : ℝ × ℝ), ∀ (x : List ℝ) (e : ℝ), g.dom.1 ≤ e → x.length = g.coeffs.length → (∀ k < x.length, |vecOf x k - vecOf g.coeffs k| ≤ κ) →
      All (deriv u { g with dom := (g.dom.1, e), coeffs := x } deg) fun r => ∃ y, r = .ok { g with dom := (g.dom.1, e), coeffs := y } ∧ y.length = g.coeffs.length ∧
        ∀ k < y.length, |vecOf y k - vecOf (dco g deg) k| ≤ ε := by
  have hlen : g.coeffs.length = g.tau.length * g.basis.dim * g.codim := hcon
  by_cases hd : 0 < deg
  swap
  · refine ⟨ε, hε, Eventually.of_forall fun u x e he hxl hx r hr => ?_⟩
    unfold deriv at hr
    rw [if_neg hd] at hr
    have hm : GSpline.make (g.dom.1, e) g.codim g.tau.length g.basis x g.tau = .ok ⟨(g.dom.1, e), g.codim, g.basis, x, g.tau⟩ := GSpline.make_ok he (by rw [hxl]; exact hlen)
    change r = GSpline.make (g.dom.1, e) g.codim g.tau.length g.basis x g.tau at hr
    rw [hm] at hr
    refine ⟨x, hr, hxl, fun k hk => ?_⟩
    unfold dco
    rw [if_neg hd]
    exact hx k hk
  obtain ⟨z, hz1, hz2⟩ := neededBlock_conv hb deg (vecOf g.coeffs)
  have hc : ConvAt (fun u (v : Vec) => (do
      let d ← neededBlock u g deg
      derivCoeffs u g.basis g.codim deg g.tau d v : Nd Vec)) (vecOf g.coeffs) (g.derivCoeffs deg) := by
    rw [← coX_eq g deg hz2]
    refine ConvAt.bind hz1 ?_
    exact ConvAt.comp (F := fun u (q : Mat × Vec) => derivCoeffs u g.basis g.codim deg g.tau q.1 q.2) (f := fun q : Vec × Mat => (q.2, q.1)) (derivCoeffs_conv _ _ _ hz _ _) (by fun_prop)
  have hU : {v : Vec | ∀ k ∈ Finset.range g.coeffs.length, |v k - g.derivCoeffs deg k| ≤ ε} ∈ 𝓝 (g.derivCoeffs deg) := by
    refine (Filter.eventually_all_finset _).mpr fun k _ => ?_
    have h : Tendsto (fun v : Vec => v k) (𝓝 (g.derivCoeffs deg)) (𝓝 (g.derivCoeffs deg k)) := (continuous_apply k).tendsto _
    filter_upwards [h (Metric.closedBall_mem_nhds _ hε)] with v hv
    simpa [Real.dist_eq] using hv
  have key := hc _ hU
  rw [nhds_prod_eq] at key
  obtain ⟨pa, hpa, pb, hpb, hab⟩ := eventually_prod_iff.mp key
  obtain ⟨κ, hκ, hpb⟩ := vec_nhds hpb
  refine ⟨κ, hκ, ?_⟩
  filter_upwards [hpa] with u hu x e he hxl hx r hr
  have hy : pb (vecOf x) := hpb _ (vecOf_near hxl hκ.le hx)
  have H := hab hu hy
  unfold deriv at hr
  rw [if_pos hd, if_neg (by change ¬ x.length < g.tau.length * g.basis.dim * g.codim; omega)] at hr
  change (do
    let d ← neededBlock u g deg
    let v ← derivCoeffs u g.basis g.codim deg g.tau d (vecOf x)
    lift (GSpline.make (g.dom.1, e) g.codim g.tau.length g.basis ((List.range x.length).map v) g.tau) : Nd GSpline) r at hr
  rw [← LawfulMonad.bind_assoc] at hr
  rcases hr with ⟨e', h', -⟩ | ⟨v, hv, hr⟩
  · obtain ⟨_, _, h⟩ := H _ h'; cases h
  · obtain ⟨v', hv', h⟩ := H _ hv
    cases h
    have hm : GSpline.make (g.dom.1, e) g.codim g.tau.length g.basis ((List.range x.length).map v) g.tau = .ok ⟨(g.dom.1, e), g.codim, g.basis, (List.range x.length).map v, g.tau⟩ :=
      GSpline.make_ok he (by rw [List.length_map, List.length_range, hxl]; exact hlen)
    change r = GSpline.make (g.dom.1, e) g.codim g.tau.length g.basis ((List.range x.length).map v) g.tau at hr
    rw [hm] at hr
    refine ⟨_, hr, by simp [hxl], fun k hk => ?_⟩
    rw [List.length_map, List.length_range] at hk
    unfold dco
    rw [if_pos hd, vecOf_map_range hk, vecOf_map_range (by omega)]
    exact hv' k (Finset.mem_range.mpr (by omega))

/-! ## The exact results are among the possible ones -/

section
variable {u : ℝ × ℝ} (h1 : 0 ≤ u.1) (h2 : 0 ≤ u.2)
include h1 h2

theorem dot2_has (n : ℕ) (a b : Vec) : Has (dot u ((List.range n).map a) ((List.range n).map b)) (Vec.dot n a b) := by
  convert dot_has h1 h2 (n := n) (seg := (List.range n).map a) (by simp) b using 1
  unfold Vec.dot
  exact Finset.sum_congr rfl fun k hk => by rw [vecOf_map_range (Finset.mem_range.mp hk)]

theorem matMul_has (n : ℕ) (a b : Mat) : Has (matMul u n a b) (mulX n a b) :=
  Has.loop (exact := fun i m => forLoop 0 n (fun j m => setAt2 m i j (Vec.dot n (a i) fun k => b k j)) m) (fun i _ _ _ =>
    Has.loop (exact := fun j m => setAt2 m i j (Vec.dot n (a i) fun k => b k j)) (fun j _ _ _ => .bind (dot2_has h1 h2 n _ _) (.pure _)) _) _

theorem alpha_has (i : ℕ) : Has (alpha u i) (Legendre.alpha i) := .quot h1 h2 _ (by positivity)

theorem gamma_has (i : ℕ) : Has (gamma u i) (Legendre.gamma i) := .quot h1 h2 _ (by positivity)

theorem legendreEntry_has (m : Mat) (i j : ℕ) : Has (legendreEntry u m i j) (Legendre.dmatEntry m i j) := by
  unfold legendreEntry Legendre.dmatEntry
  by_cases h : i = j + 1
  · rw [if_pos h, if_pos h]
    exact .bind (alpha_has h1 h2 _) (.quot h1 h2 _ (alpha_pos _).ne')
  rw [if_neg h, if_neg h]
  by_cases h' : j + 1 < i
  swap
  · rw [if_neg h', if_neg h']
    exact .pure _
  rw [if_pos h', if_pos h']
  unfold lowerEntry
  refine .bind (a := if 1 ≤ j then Legendre.alpha (j - 1) * m (i - 1) (j - 1) else 0) ?_ (.bind (a := if 1 ≤ i then Legendre.gamma (j + 1) * m (i - 1) (j + 1) else 0) ?_
    (.bind (a := if 2 ≤ i then Legendre.gamma (i - 1) * m (i - 2) j else 0) ?_ (.bind (alpha_has h1 h2 _) (.bind (.quot h1 h2 _ (alpha_pos _).ne') (.bind (.near h1 h2 _)
      (.bind (.near h1 h2 _) (.bind (.near h1 h2 _) (.near h1 h2 _))))))))
  · unfold second
    by_cases c : 1 ≤ j
    · rw [if_pos c, if_pos c]; exact .bind (alpha_has h1 h2 _) (.near h1 h2 _)
    · rw [if_neg c, if_neg c]; exact .pure _
  · unfold third
    by_cases c : 1 ≤ i
    · rw [if_pos c, if_pos c]; exact .bind (gamma_has h1 h2 _) (.near h1 h2 _)
    · rw [if_neg c, if_neg c]; exact .pure _
  · unfold fourth
    by_cases c : 2 ≤ i
    · rw [if_pos c, if_pos c]; exact .bind (gamma_has h1 h2 _) (.near h1 h2 _)
    · rw [if_neg c, if_neg c]; exact .pure _

theorem legendreDmat_has (dim : ℕ) : Has (legendreDmat u dim) (Legendre.dmat dim) :=
  Has.loop (exact := fun i m => forLoop 0 (dim - 1) (fun j m => setAt2 m i j (Legendre.dmatEntry m i j)) m) (fun i _ _ _ =>
    Has.loop (exact := fun j m => setAt2 m i j (Legendre.dmatEntry m i j)) (fun j _ _ _ => .bind (legendreEntry_has h1 h2 _ _ _) (.pure _)) _) _

theorem derivBlock_has {b : Basis} (hb : b.Valid) (deg : ℕ) : ∃ z, Has (derivBlock u b deg) z ∧ Agree b.dim z (b.derivBlock deg) := by
  cases b with
  | legendre d =>
    change ∃ z, Has (legendreBlock u d deg) z ∧ Agree d z (Legendre.derivMatrixImpl d deg)
    unfold legendreBlock Legendre.derivMatrixImpl
    by_cases h0 : deg = 0
    · rw [if_pos h0, if_pos h0]; exact ⟨_, .pure _, fun _ _ _ _ => rfl⟩
    · rw [if_neg h0, if_neg h0]
      refine ⟨_, .bind (legendreDmat_has h1 h2 d) (.bind (legendreDmat_has h1 h2 d) (Has.loop (exact := fun _ r => mulX d r (Legendre.dmat d).tr) (fun _ _ _ r => matMul_has h1 h2 d _ _) _)), ?_⟩
      exact power_agree (f := fun r => mulX d r (Legendre.dmat d).tr) (g := fun r => r.mul d (Legendre.dmat d).tr) (fun a b hab => hab.mul fun _ _ _ _ => rfl) fun _ _ _ _ => rfl
  | b0101 al =>
    have hd : (0 : ℝ) < 1 - al := by have := hb.2; linarith
    change ∃ z, Has (b0101Block u al deg) z ∧ Agree 6 z (B0101.derivMatrixImpl al deg)
    unfold b0101Block B0101.derivMatrixImpl
    by_cases h0 : deg = 0
    · rw [if_pos h0, if_pos h0]; exact ⟨_, .pure _, fun _ _ _ _ => rfl⟩
    · rw [if_neg h0, if_neg h0]
      refine ⟨_, .bind (.near h1 h2 _) (.bind (.near h1 h2 _) (.bind (.near h1 h2 _) (.bind (.near h1 h2 _) (.bind (.near h1 h2 _) (.bind (.near h1 h2 _)
        (.bind (.quot h1 h2 _ (ne_of_gt (Real.rpow_pos_of_pos hd _))) (.bind (.near h1 h2 _) (.bind (Has.loop (exact := fun i m => forLoop 0 6 (fun j m =>
          setAt2 m i j (B0101.d1mat i j * (B0101.kOf al * 2))) m) (fun i _ _ _ => Has.loop (exact := fun j m => setAt2 m i j (B0101.d1mat i j * (B0101.kOf al * 2)))
            (fun j _ _ _ => .bind (.near h1 h2 _) (.pure _)) _) _) (Has.loop (exact := fun _ q => mulX 6 q q) (fun _ _ _ q => matMul_has h1 h2 6 _ _) _))))))))), ?_⟩
      exact power_agree (f := fun q => mulX 6 q q) (g := fun q => q.mul 6 q) (fun a b hab => hab.mul hab) fun i hi j hj =>
        fill2 6 (fun i j => B0101.d1mat i j * (B0101.kOf al * 2)) _ hi hj
  | lagrange x =>
    have hb' : Props.Separated x.length (vecOf x) := hb
    refine ⟨_, dmat_has h1 h2 hb'.distinct deg, fun i _ j _ => ?_⟩
    unfold Basis.derivBlock Basis.derivMatrixImpl Lagrange.derivMatrixImpl
    split_ifs with h
    · subst h; simp [Lagrange.dmat]
    · rfl

theorem derivCoeffs_has (b : Basis) (codim deg : ℕ) {tau : List ℝ} (hz : 0 ∉ tau) (d : Mat) (v : Vec) : Has (derivCoeffs u b codim deg tau d v) (coX b codim deg tau d v) := by
  refine Has.loop (exact := fun i v => forLoop 0 codim (fun c v => segX b.dim (i * b.dim * codim + b.dim * c) d (GSpline.derivScale b (vecOf tau i) deg) v) v) (fun i _ hi v => ?_) _
  refine Has.loop (exact := fun c v => segX b.dim (i * b.dim * codim + b.dim * c) d (GSpline.derivScale b (vecOf tau i) deg) v) (fun c _ _ v => ?_) _
  have ht : vecOf tau i ≠ 0 := fun h => hz (by
    rw [← h]
    unfold vecOf
    rw [List.getD_eq_getElem?_getD, List.getElem?_eq_getElem hi]
    exact List.getElem_mem hi)
  have hs : Has (derivScale u b (vecOf tau i) deg) (GSpline.derivScale b (vecOf tau i) deg) := by
    cases b with
    | legendre d => exact .bind (.quot h1 h2 _ ht) (.near h1 h2 _)
    | lagrange x => exact .bind (.quot h1 h2 _ ht) (.near h1 h2 _)
    | b0101 al => exact .pure _
  refine .bind hs ?_
  generalize GSpline.derivScale b (vecOf tau i) deg = sc
  have e : segX b.dim (i * b.dim * codim + b.dim * c) d sc v = fun x => if i * b.dim * codim + b.dim * c ≤ x ∧ x < i * b.dim * codim + b.dim * c + b.dim then
      forLoop 0 b.dim (fun k r => setAt r k (Vec.dot b.dim (d k) (fun k => v (i * b.dim * codim + b.dim * c + k)) * sc)) (fun _ => 0) (x - (i * b.dim * codim + b.dim * c)) else v x := by
    funext x
    unfold segX
    split_ifs with h
    · rw [fill_loop (f := fun k => Vec.dot b.dim (d k) (fun k => v (i * b.dim * codim + b.dim * c + k)) * sc) (by omega)]
      rfl
    · rfl
  rw [e]
  exact .bind (Has.loop (exact := fun k r => setAt r k (Vec.dot b.dim (d k) (fun k => v (i * b.dim * codim + b.dim * c + k)) * sc))
    (fun k _ _ r => .bind (dot2_has h1 h2 _ _ _) (.bind (.near h1 h2 _) (.pure (setAt r k _)))) _) (.pure _)

theorem deriv_has {g : GSpline} (hb : g.basis.Valid) (hz : 0 ∉ g.tau) (deg : ℕ) : deriv u g deg (g.deriv deg) := by
  unfold deriv GSpline.deriv
  by_cases hd : 0 < deg
  swap
  · rw [if_neg hd, if_neg hd]; rfl
  rw [if_pos hd, if_pos hd]
  by_cases hl : g.coeffs.length < g.nIntervals * g.basis.dim * g.codim
  · rw [if_pos hl, if_pos hl]; rfl
  rw [if_neg hl, if_neg hl, if_neg fun h => hz h.2.2.2]
  obtain ⟨z, hz1, hz2⟩ : ∃ z, Has (neededBlock u g deg) z ∧ ((g.nIntervals = 0 ∨ g.codim = 0) ∨ Agree g.basis.dim z (g.basis.derivBlock deg)) := by
    unfold neededBlock
    by_cases h : g.nIntervals = 0 ∨ g.codim = 0
    · rw [if_pos h]; exact ⟨_, .pure _, .inl h⟩
    · rw [if_neg h]
      obtain ⟨z, a, b⟩ := derivBlock_has h1 h2 hb deg
      exact ⟨z, a, .inr b⟩
  have hv := derivCoeffs_has h1 h2 g.basis g.codim deg hz z (vecOf g.coeffs)
  rw [coX_eq g deg hz2] at hv
  exact .inr ⟨z, hz1, .inr ⟨_, hv, rfl⟩⟩

end

/-! ## No access out of range -/

theorem safe_matMul (u : ℝ × ℝ) (n : ℕ) (a b : Mat) : All (matMul u n a b) Safe :=
  safe_loop (fun _ _ => safe_loop (fun _ _ => safe_bind (safe_dot _ _ _) fun _ => safe_pure _) _) _

theorem safe_legendreEntry (u : ℝ × ℝ) (m : Mat) (i j : ℕ) : All (legendreEntry u m i j) Safe := by
  unfold legendreEntry
  split_ifs
  · exact safe_bind (safe_quot _ _ _) fun _ => safe_quot _ _ _
  · unfold lowerEntry
    refine safe_bind ?_ fun _ => safe_bind ?_ fun _ => safe_bind ?_ fun _ => safe_bind (safe_quot _ _ _) fun _ => safe_bind (safe_quot _ _ _) fun _ =>
      safe_bind (safe_near _ _) fun _ => safe_bind (safe_near _ _) fun _ => safe_bind (safe_near _ _) fun _ => safe_near _ _
    · unfold second; split_ifs
      · exact safe_bind (safe_quot _ _ _) fun _ => safe_near _ _
      · exact safe_pure _
    · unfold third; split_ifs
      · exact safe_bind (safe_quot _ _ _) fun _ => safe_near _ _
      · exact safe_pure _
    · unfold fourth; split_ifs
      · exact safe_bind (safe_quot _ _ _) fun _ => safe_near _ _
      · exact safe_pure _
  · exact safe_pure _

theorem safe_legendreDmat (u : ℝ × ℝ) (dim : ℕ) : All (legendreDmat u dim) Safe :=
  safe_loop (fun _ _ => safe_loop (fun _ _ => safe_bind (safe_legendreEntry _ _ _ _) fun _ => safe_pure _) _) _

theorem safe_derivBlock (u : ℝ × ℝ) (b : Basis) (deg : ℕ) : All (derivBlock u b deg) Safe := by
  cases b with
  | legendre d =>
    change All (legendreBlock u d deg) Safe
    unfold legendreBlock
    split_ifs
    · exact safe_pure _
    · exact safe_bind (safe_legendreDmat _ _) fun _ => safe_bind (safe_legendreDmat _ _) fun _ => safe_loop (fun _ _ => safe_matMul _ _ _ _) _
  | b0101 al =>
    change All (b0101Block u al deg) Safe
    unfold b0101Block
    split_ifs
    · exact safe_pure _
    · exact safe_bind (safe_near _ _) fun _ => safe_bind (safe_near _ _) fun _ => safe_bind (safe_near _ _) fun _ => safe_bind (safe_near _ _) fun _ => safe_bind (safe_near _ _) fun _ =>
        safe_bind (safe_near _ _) fun _ => safe_bind (safe_quot _ _ _) fun _ => safe_bind (safe_near _ _) fun _ =>
        safe_bind (safe_loop (fun _ _ => safe_loop (fun _ _ => safe_bind (safe_near _ _) fun _ => safe_pure _) _) _) fun _ => safe_loop (fun _ _ => safe_matMul _ _ _ _) _
  | lagrange x => exact safe_dmat _ _ _ _

theorem safe_deriv (u : ℝ × ℝ) {g : GSpline} (hcon : Consistent g) (deg : ℕ) : All (deriv u g deg) Safe := by
  have hlen : g.coeffs.length = g.nIntervals * g.basis.dim * g.codim := hcon
  have hm : ∀ c, All (lift (GSpline.make g.dom g.codim g.nIntervals g.basis c g.tau)) Safe := fun c r hr => by
    change r = _ at hr
    rw [hr]
    unfold GSpline.make Safe
    split_ifs <;> simp
  unfold deriv
  split_ifs with h h'
  · omega
  · refine safe_bind ?_ fun d => safe_bind ?_ fun v => hm _
    · unfold neededBlock
      split_ifs
      · exact safe_pure _
      · exact safe_derivBlock _ _ _
    · refine safe_loop (fun i v => safe_loop (fun c v => safe_bind ?_ fun sc => safe_bind
        (safe_loop (fun k r => safe_bind (safe_dot _ _ _) fun _ => safe_bind (safe_near _ _) fun _ => safe_pure _) _) fun _ => safe_pure _) _) _
      unfold derivScale
      split
      · exact safe_pure _
      · exact safe_bind (safe_quot _ _ _) fun _ => safe_near _ _
  · exact hm _

/-! ## Sums, differences, multiples -/

/-- Rounding every entry of a list. -/
theorem nears_list {u : ℝ × ℝ} {l : List ℝ} {r : Res (List ℝ)} (h : (l.mapM (near u)) r) :
    ∃ y, r = .ok y ∧ y.length = l.length ∧ ∀ k < l.length, |vecOf y k - vecOf l k| ≤ u.1 * |vecOf l k| + u.2 := by
  obtain ⟨y, e, hF⟩ := All.mapM (P := fun a y => |y - a| ≤ u.1 * |a| + u.2) (fun a _ r hr => hr) r h
  have hl := hF.length_eq
  refine ⟨y, e, hl.symm, fun k hk => ?_⟩
  have := (List.forall₂_iff_get.mp hF).2 k hk (by omega)
  unfold vecOf
  rw [List.getD_eq_getElem?_getD, List.getD_eq_getElem?_getD, List.getElem?_eq_getElem hk, List.getElem?_eq_getElem (by omega)]
  simpa using this

theorem nears_has {u : ℝ × ℝ} (h1 : 0 ≤ u.1) (h2 : 0 ≤ u.2) (l : List ℝ) : Has (l.mapM (near u)) l := by
  have := Has.mapM (l := l) (f := near u) (g := fun x => x) fun a _ => .near h1 h2 a
  simpa using this

end GSplines.Rounded
