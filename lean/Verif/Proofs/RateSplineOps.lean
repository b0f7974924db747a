import Verif.Proofs.RoundingSpline
import Verif.Proofs.RateDeriv
import Verif.Proofs.RateCurve

/-! # Derivatives of splines: errors proportional to the rounding errors -/

namespace GSplines.Rounded

open Nd Spec Filter Topology

theorem tr_llip (m : Mat) : LLip Mat.tr m := LLip.of_bound (C := 1) (δ := 1) (by norm_num) (by norm_num) fun a a' _ _ r _ h i j => by
  rw [one_mul]
  exact h j i

theorem matMul_rate (n : ℕ) (a b : Mat) : RateAt (fun u (q : Mat × Mat) => matMul u n q.1 q.2) (a, b) (mulX n a b) := by
  unfold matMul mulX
  have h := RateAt.loop (a := 0) (b := n) (α := Mat × Mat) (σ := Mat) (body := fun u i q m => Nd.loop 0 n (fun j (m : Mat) => do
      let e ← dot u ((List.range n).map (q.1 i)) ((List.range n).map fun k => q.2 k j)
      return setAt2 m i j e) m) (exact := fun i m => forLoop 0 n (fun j m => setAt2 m i j (Vec.dot n (a i) fun k => b k j)) m) (x := (a, b)) (s := Mat.zero) fun i _ _ m => by
    refine RateAt.loop (a := 0) (b := n) (α := Mat × Mat) (σ := Mat) (body := fun u j q (m : Mat) => do
      let e ← dot u ((List.range n).map (q.1 i)) ((List.range n).map fun k => q.2 k j)
      return setAt2 m i j e) (exact := fun j m => setAt2 m i j (Vec.dot n (a i) fun k => b k j)) (x := (a, b)) (s := m) fun j _ _ m => ?_
    refine RateAt.bind (RateAt.comp (F := fun u (q : Vec × Vec) => dot u ((List.range n).map q.1) ((List.range n).map q.2))
      (f := fun q : (Mat × Mat) × Mat => (q.1.1 i, fun k => q.1.2 k j)) (dot2_rate n _ _)
      (LLip.prodMk (by fun_prop) (LLip.comp (g := fun (m : Mat) (k : ℕ) => m k j) (f := fun q : (Mat × Mat) × Mat => q.1.2) (col_llip j _) (by fun_prop)))) ?_
    exact RateAt.pure (f := fun q : ((Mat × Mat) × Mat) × ℝ => setAt2 q.1.2 i j q.2) (setAt2_llip (by fun_prop) (by fun_prop))
  exact RateAt.comp (x := (a, b)) (f := fun q : Mat × Mat => (q, Mat.zero)) h (by fun_prop)

theorem alpha_rate {α : Type} [Gauge α] (i : ℕ) (x : α) : RateAt (fun u (_ : α) => alpha u i) x (Legendre.alpha i) :=
  RateAt.quot (f := fun _ => (i : ℝ) + 1) (g := fun _ => 2 * (i : ℝ) + 1) (by fun_prop) (by fun_prop) (by positivity)

theorem gamma_rate {α : Type} [Gauge α] (i : ℕ) (x : α) : RateAt (fun u (_ : α) => gamma u i) x (Legendre.gamma i) :=
  RateAt.quot (f := fun _ => (i : ℝ)) (g := fun _ => 2 * (i : ℝ) + 1) (by fun_prop) (by fun_prop) (by positivity)

theorem second_rate {α : Type} [Gauge α] {f : α → Mat} {x : α} (hf : LLip f x) (i j : ℕ) :
    RateAt (fun u a => second u (f a) i j) x (if 1 ≤ j then Legendre.alpha (j - 1) * f x (i - 1) (j - 1) else 0) := by
  unfold second
  split_ifs with h
  · refine RateAt.bind (alpha_rate _ _) ?_
    refine RateAt.near (f := fun q : α × ℝ => q.2 * f q.1 (i - 1) (j - 1)) (LLip.mul (by fun_prop) ?_)
    have : LLip (fun a => f a (i - 1) (j - 1)) x := LLip.comp (g := fun m : Mat => m (i - 1) (j - 1)) (by fun_prop) hf
    exact LLip.comp (f := Prod.fst) (g := fun a => f a (i - 1) (j - 1)) this (LLip.fst' _)
  · exact RateAt.pure (f := fun _ : α => (0 : ℝ)) (LLip.const _ _)

theorem third_rate {α : Type} [Gauge α] {f : α → Mat} {x : α} (hf : LLip f x) (i j : ℕ) :
    RateAt (fun u a => third u (f a) i j) x (if 1 ≤ i then Legendre.gamma (j + 1) * f x (i - 1) (j + 1) else 0) := by
  unfold third
  split_ifs with h
  · refine RateAt.bind (gamma_rate _ _) ?_
    refine RateAt.near (f := fun q : α × ℝ => q.2 * f q.1 (i - 1) (j + 1)) (LLip.mul (by fun_prop) ?_)
    have : LLip (fun a => f a (i - 1) (j + 1)) x := LLip.comp (g := fun m : Mat => m (i - 1) (j + 1)) (by fun_prop) hf
    exact LLip.comp (f := Prod.fst) (g := fun a => f a (i - 1) (j + 1)) this (LLip.fst' _)
  · exact RateAt.pure (f := fun _ : α => (0 : ℝ)) (LLip.const _ _)

theorem fourth_rate {α : Type} [Gauge α] {f : α → Mat} {x : α} (hf : LLip f x) (i j : ℕ) :
    RateAt (fun u a => fourth u (f a) i j) x (if 2 ≤ i then Legendre.gamma (i - 1) * f x (i - 2) j else 0) := by
  unfold fourth
  split_ifs with h
  · refine RateAt.bind (gamma_rate _ _) ?_
    refine RateAt.near (f := fun q : α × ℝ => q.2 * f q.1 (i - 2) j) (LLip.mul (by fun_prop) ?_)
    have : LLip (fun a => f a (i - 2) j) x := LLip.comp (g := fun m : Mat => m (i - 2) j) (by fun_prop) hf
    exact LLip.comp (f := Prod.fst) (g := fun a => f a (i - 2) j) this (LLip.fst' _)
  · exact RateAt.pure (f := fun _ : α => (0 : ℝ)) (LLip.const _ _)

theorem lowerEntry_rate (m : Mat) (i j : ℕ) : RateAt (fun u (q : Unit × Mat) => lowerEntry u q.2 i j) ((), m) (1 / Legendre.alpha (i - 1) *
    (0 + (if 1 ≤ j then Legendre.alpha (j - 1) * m (i - 1) (j - 1) else 0) + (if 1 ≤ i then Legendre.gamma (j + 1) * m (i - 1) (j + 1) else 0)
      - (if 2 ≤ i then Legendre.gamma (i - 1) * m (i - 2) j else 0))) := by
  unfold lowerEntry
  refine RateAt.bind (second_rate (f := fun q : Unit × Mat => q.2) (by fun_prop) i j) ?_
  refine RateAt.bind (third_rate (f := fun q : (Unit × Mat) × ℝ => q.1.2) (by fun_prop) i j) ?_
  refine RateAt.bind (fourth_rate (f := fun q : ((Unit × Mat) × ℝ) × ℝ => q.1.1.2) (by fun_prop) i j) ?_
  refine RateAt.bind (alpha_rate _ _) ?_
  refine RateAt.bind (RateAt.quot (f := fun _ : ((((Unit × Mat) × ℝ) × ℝ) × ℝ) × ℝ => (1 : ℝ)) (g := fun q => q.2) (by fun_prop) (by fun_prop) (alpha_pos _).ne') ?_
  refine RateAt.bind (RateAt.near (by fun_prop)) ?_
  refine RateAt.bind (RateAt.near (by fun_prop)) ?_
  refine RateAt.bind (RateAt.near (by fun_prop)) ?_
  exact RateAt.near (by fun_prop)

theorem legendreEntry_rate (m : Mat) (i j : ℕ) : RateAt (fun u (q : Unit × Mat) => legendreEntry u q.2 i j) ((), m) (Legendre.dmatEntry m i j) := by
  unfold legendreEntry Legendre.dmatEntry
  by_cases h : i = j + 1
  · simp only [if_pos h]
    refine RateAt.bind (alpha_rate _ _) ?_
    exact RateAt.quot (f := fun _ : (Unit × Mat) × ℝ => (i : ℝ)) (g := fun q : (Unit × Mat) × ℝ => q.2) (by fun_prop) (by fun_prop) (alpha_pos _).ne'
  · simp only [if_neg h]
    by_cases h' : j + 1 < i
    · simp only [if_pos h']
      exact lowerEntry_rate m i j
    · simp only [if_neg h']
      exact RateAt.pure (f := fun _ : Unit × Mat => (0 : ℝ)) (LLip.const _ _)

theorem legendreDmat_rate {α : Type} [Gauge α] (dim : ℕ) (a : α) : RateAt (fun u (_ : α) => legendreDmat u dim) a (Legendre.dmat dim) := by
  unfold legendreDmat Legendre.dmat
  have h := RateAt.loop (a := 1) (b := dim) (α := Unit) (σ := Mat) (body := fun u i _ m => Nd.loop 0 (dim - 1) (fun j (m : Mat) => do
      let e ← legendreEntry u m i j
      return setAt2 m i j e) m) (exact := fun i m => forLoop 0 (dim - 1) (fun j m => setAt2 m i j (Legendre.dmatEntry m i j)) m) (x := ()) (s := Mat.zero) fun i _ _ m => by
    refine RateAt.loop (a := 0) (b := dim - 1) (α := Unit) (σ := Mat) (body := fun u j _ (m : Mat) => do
      let e ← legendreEntry u m i j
      return setAt2 m i j e) (exact := fun j m => setAt2 m i j (Legendre.dmatEntry m i j)) (x := ()) (s := m) fun j _ _ m => ?_
    refine RateAt.bind (legendreEntry_rate m i j) ?_
    exact RateAt.pure (f := fun q : (Unit × Mat) × ℝ => setAt2 q.1.2 i j q.2) (setAt2_llip (by fun_prop) (by fun_prop))
  exact RateAt.comp (x := a) (f := fun _ : α => ((), Mat.zero)) h (by fun_prop)

theorem legendreBlock_rate {α : Type} [Gauge α] (dim deg : ℕ) (a : α) :
    ∃ z, RateAt (fun u (_ : α) => legendreBlock u dim deg) a z ∧ Agree dim z (Legendre.derivMatrixImpl dim deg) := by
  unfold legendreBlock Legendre.derivMatrixImpl
  by_cases h0 : deg = 0
  · simp only [if_pos h0]
    exact ⟨_, RateAt.pure (f := fun _ : α => Mat.id) (LLip.const _ _), fun _ _ _ _ => rfl⟩
  · simp only [if_neg h0]
    refine ⟨forLoop 2 (deg + 1) (fun _ r => mulX dim r (Legendre.dmat dim).tr) (Legendre.dmat dim).tr, ?_, ?_⟩
    · refine RateAt.bind (legendreDmat_rate dim a) (RateAt.bind (legendreDmat_rate dim _) ?_)
      have h := RateAt.loop (a := 2) (b := deg + 1) (α := Mat) (σ := Mat) (body := fun u _ d r => matMul u dim r d) (exact := fun _ r => mulX dim r (Legendre.dmat dim).tr)
        (x := (Legendre.dmat dim).tr) (s := (Legendre.dmat dim).tr) fun _ _ _ r =>
          RateAt.comp (F := fun u (q : Mat × Mat) => matMul u dim q.1 q.2) (x := ((Legendre.dmat dim).tr, r)) (f := fun q : Mat × Mat => (q.2, q.1)) (matMul_rate dim _ _) (by fun_prop)
      refine RateAt.comp (F := fun u (q : Mat × Mat) => Nd.loop 2 (deg + 1) (fun _ r => matMul u dim r q.1) q.2) (f := fun q : (α × Mat) × Mat => (q.2.tr, q.1.2.tr)) h ?_
      exact LLip.prodMk (LLip.comp (g := Mat.tr) (f := fun q : (α × Mat) × Mat => q.2) (tr_llip _) (by fun_prop)) (LLip.comp (g := Mat.tr) (f := fun q : (α × Mat) × Mat => q.1.2) (tr_llip _) (by fun_prop))
    · exact power_agree (f := fun r => mulX dim r (Legendre.dmat dim).tr) (g := fun r => r.mul dim (Legendre.dmat dim).tr) (fun a b hab => hab.mul fun _ _ _ _ => rfl) fun _ _ _ _ => rfl

theorem b0101Scaled_rate (t : ℝ) : RateAt (fun u t => b0101Scaled u t) t
    (forLoop 0 6 (fun i m => forLoop 0 6 (fun j m => setAt2 m i j (B0101.d1mat i j * t)) m) Mat.zero) := by
  unfold b0101Scaled
  have h := RateAt.loop (a := 0) (b := 6) (α := ℝ) (σ := Mat) (body := fun u i t m => Nd.loop 0 6 (fun j (m : Mat) => do
      let e ← near u (B0101.d1mat i j * t)
      return setAt2 m i j e) m) (exact := fun i m => forLoop 0 6 (fun j m => setAt2 m i j (B0101.d1mat i j * t)) m) (x := t) (s := Mat.zero) fun i _ _ m => by
    refine RateAt.loop (a := 0) (b := 6) (α := ℝ) (σ := Mat) (body := fun u j t (m : Mat) => do
      let e ← near u (B0101.d1mat i j * t)
      return setAt2 m i j e) (exact := fun j m => setAt2 m i j (B0101.d1mat i j * t)) (x := t) (s := m) fun j _ _ m => ?_
    refine RateAt.bind (RateAt.near (f := fun q : ℝ × Mat => B0101.d1mat i j * q.1) (by fun_prop)) ?_
    exact RateAt.pure (f := fun q : (ℝ × Mat) × ℝ => setAt2 q.1.2 i j q.2) (setAt2_llip (by fun_prop) (by fun_prop))
  exact RateAt.comp (x := t) (f := fun t : ℝ => (t, Mat.zero)) h (by fun_prop)

theorem b0101Block_rate {α : Type} [Gauge α] {al : ℝ} (h1 : al < 1) (deg : ℕ) (a : α) :
    ∃ z, RateAt (fun u (_ : α) => b0101Block u al deg) a z ∧ Agree 6 z (B0101.derivMatrixImpl al deg) := by
  have hd : (0 : ℝ) < 1 - al := by linarith
  unfold b0101Block B0101.derivMatrixImpl
  by_cases h0 : deg = 0
  · simp only [if_pos h0]
    exact ⟨_, RateAt.pure (f := fun _ : α => Mat.id) (LLip.const _ _), fun _ _ _ _ => rfl⟩
  · simp only [if_neg h0]
    refine ⟨forLoop 2 (deg + 1) (fun _ q => mulX 6 q q) (forLoop 0 6 (fun i m => forLoop 0 6 (fun j m => setAt2 m i j (B0101.d1mat i j * (B0101.kOf al * 2))) m) Mat.zero), ?_, ?_⟩
    · refine RateAt.bind (RateAt.near (by fun_prop)) ?_
      refine RateAt.bind (RateAt.near (by fun_prop)) ?_
      refine RateAt.bind (RateAt.near (by fun_prop)) ?_
      refine RateAt.bind (RateAt.near (by fun_prop)) ?_
      refine RateAt.bind (RateAt.near (by fun_prop)) ?_
      refine RateAt.bind (RateAt.near (by apply LLip.rpow; (fun_prop); exact ne_of_gt hd)) ?_
      refine RateAt.bind (RateAt.quot (by fun_prop) (by fun_prop) (ne_of_gt (Real.rpow_pos_of_pos hd _))) ?_
      refine RateAt.bind (RateAt.near (by fun_prop)) ?_
      refine RateAt.bind (RateAt.comp (F := fun u (t : ℝ) => b0101Scaled u t) (f := fun q : ((((((((α × ℝ) × ℝ) × ℝ) × ℝ) × ℝ) × ℝ) × ℝ) × ℝ) => q.2) (b0101Scaled_rate _) (by fun_prop)) ?_
      refine RateAt.comp (f := fun q : ((((((((α × ℝ) × ℝ) × ℝ) × ℝ) × ℝ) × ℝ) × ℝ) × ℝ) × Mat => ((), q.2))
        (RateAt.loop (a := 2) (b := deg + 1) (α := Unit) (σ := Mat) (body := fun u _ _ q => matMul u 6 q q) (exact := fun _ q => mulX 6 q q)
          (x := ()) fun _ _ _ q =>
            RateAt.comp (F := fun u (q : Mat × Mat) => matMul u 6 q.1 q.2) (f := fun q : Unit × Mat => (q.2, q.2)) (matMul_rate 6 _ _) (by fun_prop)) (by fun_prop)
    · exact power_agree (f := fun q => mulX 6 q q) (g := fun q => q.mul 6 q) (fun a b hab => hab.mul hab) fun i hi j hj =>
        fill2 6 (fun i j => B0101.d1mat i j * (B0101.kOf al * 2)) _ hi hj

/-- The derivative matrix with rounding is off the exact one in proportion to the rounding errors. -/
theorem derivBlock_rate {α : Type} [Gauge α] {b : Basis} (hb : b.Valid) (deg : ℕ) (a : α) :
    ∃ z, RateAt (fun u (_ : α) => derivBlock u b deg) a z ∧ Agree b.dim z (b.derivBlock deg) := by
  cases b with
  | legendre d => exact legendreBlock_rate d deg a
  | b0101 al => exact b0101Block_rate hb.2 deg a
  | lagrange x =>
    have hb' : Props.Separated x.length (vecOf x) := hb
    refine ⟨_, dmat_rate hb'.distinct deg a, fun i _ j _ => ?_⟩
    unfold Basis.derivBlock Basis.derivMatrixImpl Lagrange.derivMatrixImpl
    split_ifs with h
    · subst h; simp [Lagrange.dmat]
    · rfl

theorem segmentProduct_rate (dim i0 : ℕ) (d : Mat) (sc : ℝ) (v : Vec) :
    ∃ z : Vec, RateAt (fun u (q : (Mat × ℝ) × Vec) => segmentProduct u dim i0 q.1.1 q.1.2 q.2) ((d, sc), v) z ∧
      ∀ k < dim, z k = d.mulVec dim (fun k => v (i0 + k)) k * sc := by
  have h := RateAt.loop (a := 0) (b := dim) (α := (Mat × ℝ) × Vec) (σ := Vec) (body := fun u i q (r : Vec) => do
      let a ← dot u ((List.range dim).map (q.1.1 i)) ((List.range dim).map fun k => q.2 (i0 + k))
      let p ← near u (a * q.1.2)
      return setAt r i p) (exact := fun i r => setAt r i (Vec.dot dim (d i) (fun k => v (i0 + k)) * sc)) (x := ((d, sc), v)) (s := fun _ => 0) fun i _ _ r => by
    refine RateAt.bind (RateAt.comp (F := fun u (q : Vec × Vec) => dot u ((List.range dim).map q.1) ((List.range dim).map q.2))
      (f := fun q : ((Mat × ℝ) × Vec) × Vec => (q.1.1.1 i, fun k => q.1.2 (i0 + k))) (dot2_rate dim _ _)
      (LLip.prodMk (by fun_prop) (LLip.comp (g := fun (v : Vec) (k : ℕ) => v (i0 + k)) (f := fun q : ((Mat × ℝ) × Vec) × Vec => q.1.2) (shift_llip i0 _) (by fun_prop)))) ?_
    refine RateAt.bind (RateAt.near (by fun_prop)) ?_
    exact RateAt.pure (f := fun q : (((((Mat × ℝ) × Vec) × Vec) × ℝ) × ℝ) => setAt q.1.1.2 i q.2) (LLip.setAt (by fun_prop) (by fun_prop))
  refine ⟨_, RateAt.comp (x := ((d, sc), v)) (f := fun q : (Mat × ℝ) × Vec => (q, fun _ => (0 : ℝ))) h (LLip.prodMk (by fun_prop) (LLip.const _ _)), fun k hk => ?_⟩
  rw [fill_loop (f := fun i => Vec.dot dim (d i) (fun k => v (i0 + k)) * sc) hk]
  rfl

theorem derivSegment_rate (dim i0 : ℕ) (d : Mat) (sc : ℝ) (v : Vec) :
    RateAt (fun u (q : (Mat × ℝ) × Vec) => derivSegment u dim i0 q.1.1 q.1.2 q.2) ((d, sc), v) (segX dim i0 d sc v) := by
  obtain ⟨z, hz, hz1⟩ := segmentProduct_rate dim i0 d sc v
  unfold derivSegment
  refine RateAt.bind hz ?_
  have e : segX dim i0 d sc v = fun x => if i0 ≤ x ∧ x < i0 + dim then z (x - i0) else v x := by
    funext x
    unfold segX
    split_ifs with h
    · rw [hz1 _ (by omega)]
    · rfl
  rw [e]
  refine RateAt.pure (f := fun (q : ((Mat × ℝ) × Vec) × Vec) (x : ℕ) => if i0 ≤ x ∧ x < i0 + dim then q.2 (x - i0) else q.1.2 x) ?_
  refine LLip.of_bound (C := 1) (δ := 1) (by norm_num) (by norm_num) fun a a' _ _ r _ h x => ?_
  rw [one_mul]
  beta_reduce
  split_ifs with hx
  · exact h.2 _
  · exact h.1.2 _

theorem derivScale_rate {α : Type} [Gauge α] (b : Basis) {tau : ℝ} (ht : tau ≠ 0) (deg : ℕ) (a : α) :
    RateAt (fun u (_ : α) => derivScale u b tau deg) a (GSpline.derivScale b tau deg) := by
  have h : RateAt (fun u (_ : α) => (do
      let q ← quot u 2 tau
      near u (q ^ deg) : Nd ℝ)) a ((2 / tau) ^ deg) :=
    RateAt.bind (RateAt.quot (f := fun _ => (2 : ℝ)) (g := fun _ => tau) (by fun_prop) (by fun_prop) ht) (RateAt.near (f := fun q : α × ℝ => q.2 ^ deg) (pow_llip (by fun_prop) deg))
  cases b with
  | legendre d => exact h
  | lagrange x => exact h
  | b0101 al => exact RateAt.pure (f := fun _ : α => if deg = 0 then (0 : ℝ) else 1) (LLip.const _ _)

theorem derivStep_rate (b : Basis) (codim deg : ℕ) {tau : List ℝ} {i : ℕ} (ht : vecOf tau i ≠ 0) (d : Mat) (c : ℕ) (v : Vec) :
    RateAt (fun u (q : Mat × Vec) => derivStep u b codim deg tau q.1 i c q.2) (d, v)
      (segX b.dim (i * b.dim * codim + b.dim * c) d (GSpline.derivScale b (vecOf tau i) deg) v) := by
  unfold derivStep
  refine RateAt.bind (derivScale_rate b ht deg _) ?_
  exact RateAt.comp (F := fun u (q : (Mat × ℝ) × Vec) => derivSegment u b.dim (i * b.dim * codim + b.dim * c) q.1.1 q.1.2 q.2)
    (f := fun q : (Mat × Vec) × ℝ => ((q.1.1, q.2), q.1.2)) (derivSegment_rate _ _ _ _ _) (by fun_prop)

theorem derivCoeffs_rate (b : Basis) (codim deg : ℕ) {tau : List ℝ} (hz : 0 ∉ tau) (d : Mat) (v : Vec) :
    RateAt (fun u (q : Mat × Vec) => derivCoeffs u b codim deg tau q.1 q.2) (d, v) (coX b codim deg tau d v) := by
  unfold derivCoeffs coX
  refine RateAt.loop (a := 0) (b := tau.length) (α := Mat) (σ := Vec) (body := fun u i d v => Nd.loop 0 codim (fun c v => derivStep u b codim deg tau d i c v) v)
    (exact := fun i v => forLoop 0 codim (fun c v => segX b.dim (i * b.dim * codim + b.dim * c) d (GSpline.derivScale b (vecOf tau i) deg) v) v) (x := d) (s := v) fun i _ hi v => ?_
  refine RateAt.loop (a := 0) (b := codim) (α := Mat) (σ := Vec) (body := fun u c d v => derivStep u b codim deg tau d i c v)
    (exact := fun c v => segX b.dim (i * b.dim * codim + b.dim * c) d (GSpline.derivScale b (vecOf tau i) deg) v) (x := d) (s := v) fun c _ _ v => ?_
  refine derivStep_rate b codim deg (fun h => hz ?_) d c v
  rw [← h]
  unfold vecOf
  rw [List.getD_eq_getElem?_getD, List.getElem?_eq_getElem hi]
  exact List.getElem_mem hi

theorem neededBlock_rate {α : Type} [Gauge α] {g : GSpline} (hb : g.basis.Valid) (deg : ℕ) (a : α) :
    ∃ z, RateAt (fun u (_ : α) => neededBlock u g deg) a z ∧ ((g.nIntervals = 0 ∨ g.codim = 0) ∨ Agree g.basis.dim z (g.basis.derivBlock deg)) := by
  unfold neededBlock
  by_cases h : g.nIntervals = 0 ∨ g.codim = 0
  · simp only [if_pos h]
    exact ⟨_, RateAt.pure (f := fun _ : α => Mat.zero) (LLip.const _ _), .inl h⟩
  · simp only [if_neg h]
    obtain ⟨z, h1, h2⟩ := derivBlock_rate hb deg a
    exact ⟨z, h1, .inr h2⟩

/-- `deriv` of splines with coefficients near those of `g`. -/
theorem deriv_rate {g : GSpline} (hb : g.basis.Valid) (hcon : Consistent g) (hz : 0 ∉ g.tau) (deg : ℕ) :
    ∃ C ≥ (0 : ℝ), ∃ δ > (0 : ℝ), ∀ u, Small u δ → ∀ κ, 0 ≤ κ → κ ≤ δ → ∀ (x : List ℝ) (e : ℝ), g.dom.1 ≤ e → x.length = g.coeffs.length →
      (∀ k < x.length, |vecOf x k - vecOf g.coeffs k| ≤ κ) →
      All (deriv u { g with dom := (g.dom.1, e), coeffs := x } deg) fun r => ∃ y, r = .ok { g with dom := (g.dom.1, e), coeffs := y } ∧ y.length = g.coeffs.length ∧
        ∀ k < y.length, |vecOf y k - vecOf (dco g deg) k| ≤ C * (sz u + κ) := by
  have hlen : g.coeffs.length = g.tau.length * g.basis.dim * g.codim := hcon
  by_cases hd : 0 < deg
  swap
  · refine ⟨1, zero_le_one, 1, one_pos, fun u hu κ hκ _ x e he hxl hx r hr => ?_⟩
    unfold deriv at hr
    rw [if_neg hd] at hr
    have hm : GSpline.make (g.dom.1, e) g.codim g.tau.length g.basis x g.tau = .ok ⟨(g.dom.1, e), g.codim, g.basis, x, g.tau⟩ := GSpline.make_ok he (by rw [hxl]; exact hlen)
    change r = GSpline.make (g.dom.1, e) g.codim g.tau.length g.basis x g.tau at hr
    rw [hm] at hr
    refine ⟨x, hr, hxl, fun k hk => ?_⟩
    unfold dco
    rw [if_neg hd, one_mul]
    linarith [hx k hk, sz_nonneg hu]
  obtain ⟨z, hz1, hz2⟩ := neededBlock_rate hb deg (vecOf g.coeffs)
  have hc : RateAt (fun u (v : Vec) => (do
      let d ← neededBlock u g deg
      derivCoeffs u g.basis g.codim deg g.tau d v : Nd Vec)) (vecOf g.coeffs) (g.derivCoeffs deg) := by
    rw [← coX_eq g deg hz2]
    refine RateAt.bind hz1 ?_
    exact RateAt.comp (F := fun u (q : Mat × Vec) => derivCoeffs u g.basis g.codim deg g.tau q.1 q.2) (f := fun q : Vec × Mat => (q.2, q.1)) (derivCoeffs_rate _ _ _ hz _ _) (by fun_prop)
  obtain ⟨C, hC, δ, hδ, H⟩ := hc
  refine ⟨C, hC, δ, hδ, fun u hu κ hκ hκδ x e he hxl hx r hr => ?_⟩
  have hy : close κ (vecOf x) (vecOf g.coeffs) := vecOf_near hxl hκ hx
  unfold deriv at hr
  rw [if_pos hd, if_neg (by change ¬ x.length < g.tau.length * g.basis.dim * g.codim; omega)] at hr
  change (do
    let d ← neededBlock u g deg
    let v ← derivCoeffs u g.basis g.codim deg g.tau d (vecOf x)
    lift (GSpline.make (g.dom.1, e) g.codim g.tau.length g.basis ((List.range x.length).map v) g.tau) : Nd GSpline) r at hr
  rw [← LawfulMonad.bind_assoc] at hr
  rcases hr with ⟨e', h', -⟩ | ⟨v, hv, hr⟩
  · obtain ⟨_, h, _⟩ := (H u hu (vecOf x) _ h').1 κ hκ hκδ hy; cases h
  · obtain ⟨v', h, hv'⟩ := (H u hu (vecOf x) _ hv).1 κ hκ hκδ hy
    cases h
    have hm : GSpline.make (g.dom.1, e) g.codim g.tau.length g.basis ((List.range x.length).map v) g.tau = .ok ⟨(g.dom.1, e), g.codim, g.basis, (List.range x.length).map v, g.tau⟩ :=
      GSpline.make_ok he (by rw [List.length_map, List.length_range, hxl]; exact hlen)
    change r = GSpline.make (g.dom.1, e) g.codim g.tau.length g.basis ((List.range x.length).map v) g.tau at hr
    rw [hm] at hr
    refine ⟨_, hr, by simp [hxl], fun k hk => ?_⟩
    rw [List.length_map, List.length_range] at hk
    unfold dco
    rw [if_pos hd, vecOf_map_range hk, vecOf_map_range (by omega)]
    exact hv' k

end GSplines.Rounded
