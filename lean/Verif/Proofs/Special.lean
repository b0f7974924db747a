import Verif.Spec.Special
import Verif.Proofs.GSpline
import Verif.Proofs.Loops
import Verif.Proofs.LagrangeModel
import Verif.Proofs.BasisSpec
import Verif.Proofs.Rounding

/-! # Numbers that are not finite: helper lemmas -/

namespace GSplines.Special

open GSplines Spec Dbl

@[simp] theorem fin_add (x y : ℝ) : fin x + fin y = fin (x + y) := rfl
@[simp] theorem fin_neg (x : ℝ) : -fin x = fin (-x) := rfl
@[simp] theorem fin_sub (x y : ℝ) : fin x - fin y = fin (x - y) := by
  show fin (x + -y) = _
  rw [sub_eq_add_neg]
@[simp] theorem fin_mul (x y : ℝ) : fin x * fin y = fin (x * y) := rfl
theorem fin_div {x y : ℝ} (h : y ≠ 0) : fin x / fin y = fin (x / y) := if_neg h
@[simp] theorem fin_lt (x y : ℝ) : fin x < fin y ↔ x < y := Iff.rfl
@[simp] theorem fin_le (x y : ℝ) : fin x ≤ fin y ↔ x ≤ y := Iff.rfl
@[simp] theorem abs_fin (x : ℝ) : Dbl.abs (fin x) = fin |x| := rfl

@[simp] theorem nan_add (x : Dbl) : nan + x = nan := by cases x <;> rfl
@[simp] theorem add_nan (x : Dbl) : x + nan = nan := by cases x <;> rfl
@[simp] theorem nan_sub (x : Dbl) : nan - x = nan := nan_add _
@[simp] theorem sub_nan (x : Dbl) : x - nan = nan := add_nan _
@[simp] theorem nan_mul (x : Dbl) : nan * x = nan := by cases x <;> rfl
@[simp] theorem mul_nan (x : Dbl) : x * nan = nan := by cases x <;> rfl
@[simp] theorem nan_div (x : Dbl) : nan / x = nan := by cases x <;> rfl
@[simp] theorem div_nan (x : Dbl) : x / nan = nan := by cases x <;> rfl
@[simp] theorem not_lt_nan (x : Dbl) : ¬ x < nan := by cases x <;> exact id
@[simp] theorem not_nan_lt (x : Dbl) : ¬ nan < x := by cases x <;> exact id
@[simp] theorem not_le_nan (x : Dbl) : ¬ x ≤ nan := by cases x <;> exact id
@[simp] theorem not_nan_le (x : Dbl) : ¬ nan ≤ x := by cases x <;> exact id
@[simp] theorem abs_nan : Dbl.abs nan = nan := rfl

@[simp] theorem inf_add_fin (a : Bool) (x : ℝ) : Dbl.inf a + fin x = Dbl.inf a := rfl
@[simp] theorem fin_add_inf (a : Bool) (x : ℝ) : fin x + Dbl.inf a = Dbl.inf a := rfl
@[simp] theorem inf_sub_fin (a : Bool) (x : ℝ) : Dbl.inf a - fin x = Dbl.inf a := rfl
@[simp] theorem fin_sub_inf (a : Bool) (x : ℝ) : fin x - Dbl.inf a = Dbl.inf !a := rfl
@[simp] theorem fin_div_inf (a : Bool) (x : ℝ) : fin x / Dbl.inf a = fin 0 := rfl
@[simp] theorem inf_le_fin (a : Bool) (x : ℝ) : Dbl.inf a ≤ fin x ↔ a = true := Iff.rfl
@[simp] theorem fin_le_inf (a : Bool) (x : ℝ) : fin x ≤ Dbl.inf a ↔ a = false := Iff.rfl
@[simp] theorem inf_lt_fin (a : Bool) (x : ℝ) : Dbl.inf a < fin x ↔ a = true := Iff.rfl
@[simp] theorem fin_lt_inf (a : Bool) (x : ℝ) : fin x < Dbl.inf a ↔ a = false := Iff.rfl
@[simp] theorem inf_lt_inf (a b : Bool) : Dbl.inf a < Dbl.inf b ↔ a = true ∧ b = false := Iff.rfl
@[simp] theorem inf_le_inf (a b : Bool) : Dbl.inf a ≤ Dbl.inf b ↔ a = true ∨ b = false := Iff.rfl
@[simp] theorem abs_inf (a : Bool) : Dbl.abs (Dbl.inf a) = Dbl.inf false := rfl

theorem fin_mul_inf_pos {x : ℝ} (h : 0 < x) (a : Bool) : fin x * Dbl.inf a = Dbl.inf a := by
  show Dbl.mul _ _ = _
  simp [Dbl.mul, h.ne', h.le, not_lt.2 h.le]

theorem inf_div_fin_pos {x : ℝ} (h : 0 < x) (a : Bool) : Dbl.inf a / fin x = Dbl.inf a := by
  show Dbl.div _ _ = _
  simp [Dbl.div, not_lt.2 h.le]

/-- The order in which doubles (without rounding) are added does not matter. -/
theorem add_comm (x y : Dbl) : x + y = y + x := by
  rcases x with _ | a | x <;> rcases y with _ | b | y <;> try simp
  · show Dbl.add _ _ = Dbl.add _ _
    simp only [Dbl.add]
    by_cases h : a = b <;> simp [h, eq_comm]
  · exact _root_.add_comm x y

theorem add_assoc (x y z : Dbl) : x + y + z = x + (y + z) := by
  rcases x with _ | a | x <;> rcases y with _ | b | y <;> rcases z with _ | c | z <;> try simp
  · show Dbl.add (Dbl.add _ _) _ = Dbl.add _ (Dbl.add _ _)
    cases a <;> cases b <;> cases c <;> simp [Dbl.add]
  · show Dbl.add (Dbl.add _ _) _ = Dbl.add _ _
    cases a <;> cases b <;> simp [Dbl.add]
  · show Dbl.add _ _ = Dbl.add _ (Dbl.add _ _)
    cases b <;> cases c <;> simp [Dbl.add]
  · exact _root_.add_assoc x y z

/-! ## Not finite numbers spread -/

@[simp] theorem finite_fin (x : ℝ) : IsFinite (fin x) := trivial
@[simp] theorem not_finite_nan : ¬ IsFinite nan := id
@[simp] theorem not_finite_inf (a : Bool) : ¬ IsFinite (Dbl.inf a) := id

theorem finite_iff {x : Dbl} : IsFinite x ↔ ∃ y, x = fin y := by
  cases x <;> simp

theorem finite_add {x y : Dbl} : IsFinite (x + y) ↔ IsFinite x ∧ IsFinite y := by
  rcases x with _ | a | x <;> rcases y with _ | b | y <;> simp
  show ¬ IsFinite (Dbl.add _ _)
  cases a <;> cases b <;> simp [Dbl.add]

theorem finite_sub {x y : Dbl} : IsFinite (x - y) ↔ IsFinite x ∧ IsFinite y := by
  show IsFinite (x + -y) ↔ _
  rw [finite_add]
  cases y <;> simp [IsFinite, Neg.neg, Dbl.neg]

theorem finite_mul {x y : Dbl} : IsFinite (x * y) ↔ IsFinite x ∧ IsFinite y := by
  rcases x with _ | a | x <;> rcases y with _ | b | y <;> simp
  · show ¬ IsFinite (Dbl.mul _ _)
    simp [Dbl.mul]
  · show ¬ IsFinite (Dbl.mul _ _)
    simp only [Dbl.mul]
    split_ifs <;> simp
  · show ¬ IsFinite (Dbl.mul _ _)
    simp only [Dbl.mul]
    split_ifs <;> simp

theorem finite_sum {l : List Dbl} : IsFinite (sum l) ↔ ∀ x ∈ l, IsFinite x := by
  induction l with
  | nil => simp [sum]
  | cons x l ih =>
    have : sum (x :: l) = x + sum l := rfl
    rw [this, finite_add, ih]
    simp

theorem sum_nan {l : List Dbl} (h : nan ∈ l) : sum l = nan := by
  induction l with
  | nil => simp at h
  | cons x l ih =>
    have e : sum (x :: l) = x + sum l := rfl
    rw [e]
    rcases List.mem_cons.1 h with rfl | h
    · simp
    · rw [ih h, add_nan]

theorem sum_fin (l : List ℝ) : sum (l.map fin) = fin l.sum := by
  induction l with
  | nil => simp [sum]
  | cons x l ih =>
    have e : sum ((x :: l).map fin) = fin x + sum (l.map fin) := rfl
    rw [e, ih]
    simp

/-! ## scalar products -/

theorem vecD_map (l : List ℝ) (i : ℕ) : vecD (l.map fin) i = fin (vecOf l i) := by
  unfold vecD vecOf
  rcases lt_or_ge i l.length with h | h <;> simp [List.getD_eq_getElem?_getD, h]

theorem rd_ok {l : List Dbl} {i : ℕ} (h : i < l.length) : Dbl.rd l i = .ok (vecD l i) := by
  simp [Dbl.rd, vecD, List.getD_eq_getElem?_getD, h]

theorem segment_ok {l : List Dbl} {i n : ℕ} (h : i + n ≤ l.length) : Dbl.segment l i n = .ok ((l.drop i).take n) := by
  simp [Dbl.segment, h]

/-- The factors of the scalar product. -/
theorem mem_products {seg : List Dbl} {buf : ℕ → Dbl} {k : ℕ} (hk : k < seg.length) :
    vecD seg k * buf k ∈ List.zipWith (· * ·) seg ((List.range seg.length).map buf) := by
  have h : k < (List.zipWith (· * ·) seg ((List.range seg.length).map buf)).length := by simpa using hk
  have := List.getElem_mem h
  simpa [List.getElem_zipWith, vecD, List.getD_eq_getElem?_getD, hk] using this

theorem dot_nan {seg : List Dbl} {buf : ℕ → Dbl} {k : ℕ} (hk : k < seg.length) (h : vecD seg k * buf k = nan) :
    Dbl.dot seg ((List.range seg.length).map buf) = nan := by
  refine sum_nan ?_
  rw [← h]
  exact mem_products hk

theorem dot_not_finite {seg : List Dbl} {buf : ℕ → Dbl} {k : ℕ} (hk : k < seg.length) (h : ¬ IsFinite (vecD seg k * buf k)) :
    ¬ IsFinite (Dbl.dot seg ((List.range seg.length).map buf)) := by
  unfold Dbl.dot
  rw [finite_sum]
  push Not
  exact ⟨_, mem_products hk, h⟩

theorem zipWith_fin (f : ℝ → ℝ → ℝ) (h : Dbl → Dbl → Dbl) (hf : ∀ a b, h (fin a) (fin b) = fin (f a b)) :
    ∀ a b : List ℝ, List.zipWith h (a.map fin) (b.map fin) = (List.zipWith f a b).map fin := by
  intro a
  induction a with
  | nil => intro b; simp
  | cons x a ih =>
    intro b
    cases b with
    | nil => simp
    | cons y b => simp only [List.map_cons, List.zipWith_cons_cons, hf, ih]

theorem sum_zipWith_range (seg : List ℝ) (buf : Vec) :
    (List.zipWith (· * ·) seg ((List.range seg.length).map buf)).sum = Vec.dot seg.length (vecOf seg) buf := by
  have : List.zipWith (· * ·) seg ((List.range seg.length).map buf) = (List.range seg.length).map fun k => vecOf seg k * buf k := by
    refine List.ext_getElem (by simp) fun k h1 h2 => ?_
    have hk : k < seg.length := by simpa using h2
    simp [vecOf, hk]
  rw [this]
  rfl

theorem dot_fin (seg : List ℝ) {buf : ℕ → Dbl} {v : Vec} (h : ∀ k < seg.length, buf k = fin (v k)) :
    Dbl.dot (seg.map fin) ((List.range seg.length).map buf) = fin (Vec.dot seg.length (vecOf seg) v) := by
  have e : (List.range seg.length).map buf = ((List.range seg.length).map v).map fin := by
    rw [List.map_map]
    exact List.map_congr_left fun k hk => h k (List.mem_range.1 hk)
  unfold Dbl.dot
  rw [e, zipWith_fin (· * ·) (· * ·) fun _ _ => rfl, sum_fin, sum_zipWith_range]

/-! ## the bases at finite points -/

/-- A loop over doubles does the same as the loop over real numbers. -/
theorem loop_fin {σ σ' : Type} (R : σ → σ' → Prop) {a b : ℕ} (hab : a ≤ b) {f : ℕ → σ → σ} {f' : ℕ → σ' → σ'} {s : σ} {s' : σ'} (h0 : R s s')
    (h : ∀ i st st', a ≤ i → i < b → R st st' → R (f i st) (f' i st')) : R (forLoop a b f s) (forLoop a b f' s') := by
  obtain ⟨n, rfl⟩ := Nat.exists_eq_add_of_le hab
  induction n with
  | zero => rwa [forLoop_of_le (by simp), forLoop_of_le (by simp)]
  | succ n ih =>
    have e : a + (n + 1) = (a + n) + 1 := by omega
    rw [e, forLoop_succ (by omega), forLoop_succ (by omega)]
    exact h _ _ _ (by omega) (by omega) (ih (by omega) fun i st st' h1 h2 => h i st st' h1 (by omega))

/-- The same vector. -/
def Same (v : Vec) (w : ℕ → Dbl) : Prop := ∀ k, w k = fin (v k)

theorem Same.setAt {v : Vec} {w : ℕ → Dbl} (h : Same v w) (i : ℕ) {x : ℝ} {y : Dbl} (hy : y = fin x) : Same (setAt v i x) (GSplines.setAt w i y) := by
  intro k
  simp only [GSplines.setAt]
  split_ifs with e
  · exact hy
  · exact h k

theorem legendre_fin {d : ℕ} (hd : 2 ≤ d) (s : ℝ) : ∃ buf, legendre d (fin s) = .ok buf ∧ Same (Legendre.values d s) buf := by
  refine ⟨_, if_neg (by omega), ?_⟩
  refine loop_fin Same (by omega) ?_ ?_
  · exact ((Same.setAt (v := fun _ => 0) (fun _ => rfl) 0 rfl).setAt 1 rfl)
  · intro i v w h1 h2 hvw
    unfold Legendre.recBody recBody
    refine hvw.setAt _ ?_
    have hi : (i : ℝ) + 1 ≠ 0 := by positivity
    rw [hvw i, hvw (i - 1)]
    simp only [fin_add, fin_mul, fin_sub, fin_div hi]

theorem almostEqual_fin (a b eps : ℝ) : almostEqual (fin a) (fin b) (fin eps) = Lagrange.almostEqual a b eps := by
  unfold almostEqual Lagrange.almostEqual
  simp only [fin_sub, abs_fin, fin_lt, fin_mul]

theorem baryProducts_fin (n : ℕ) {x : Vec} {y : ℕ → Dbl} (h : Same x y) : Same (Lagrange.baryProducts n x) (baryProducts n y) := by
  unfold Lagrange.baryProducts baryProducts
  rcases Nat.lt_or_ge n 1 with h0 | h0
  · rw [forLoop_of_le (by omega), forLoop_of_le (by omega)]
    exact fun _ => rfl
  refine loop_fin Same h0 (fun _ => rfl) fun j v w _ _ hvw => ?_
  refine loop_fin Same (Nat.zero_le j) hvw fun k v w _ _ hvw => ?_
  have h1 := hvw.setAt k (x := v k * (x k - x j)) (y := w k * (y k - y j)) (by rw [hvw k, h k, h j]; simp)
  exact h1.setAt j (by rw [h1 j, h k, h j]; simp)

theorem baryWeights_fin {n : ℕ} {x : Vec} {y : ℕ → Dbl} (h : Same x y) (hd : Lagrange.Distinct n x) {k : ℕ} (hk : k < n) :
    baryWeights n y k = fin (Lagrange.baryWeights n x k) := by
  unfold baryWeights Lagrange.baryWeights
  rw [baryProducts_fin n h k, fin_div (Rounded.products_ne_zero hd hk)]

theorem baryLoop_fin {n : ℕ} {x : Vec} {y : ℕ → Dbl} (h : Same x y) (hd : Lagrange.Distinct n x) {s : ℝ} (hs : ∀ j < n, s ≠ x j) :
    Same (Lagrange.baryLoop n x s).1 (baryLoop n y (fin s)).1 ∧ (baryLoop n y (fin s)).2 = fin (Lagrange.baryLoop n x s).2 := by
  unfold Lagrange.baryLoop baryLoop
  refine loop_fin (fun (st : Vec × ℝ) (st' : (ℕ → Dbl) × Dbl) => Same st.1 st'.1 ∧ st'.2 = fin st.2) (Nat.zero_le n) ⟨fun _ => rfl, rfl⟩ ?_
  rintro j ⟨v, a⟩ ⟨w, b⟩ _ hj ⟨h1, h2⟩
  have e : baryWeights n y j / (fin s - y j) = fin (Lagrange.baryWeights n x j / (s - x j)) := by
    rw [baryWeights_fin h hd hj, h j, fin_sub, fin_div (sub_ne_zero.2 (hs j hj))]
  refine ⟨h1.setAt j e, ?_⟩
  simp only at h2 ⊢
  rw [h2, e, fin_add]

theorem book_ne_zero {n : ℕ} {x : Vec} (hd : Lagrange.Distinct n x) (hn : 0 < n) {s : ℝ} (hs : ∀ j < n, s ≠ x j) : (Lagrange.baryLoop n x s).2 ≠ 0 := by
  rw [(Lagrange.baryLoop_spec n x s).2]
  intro e
  have h1 := Finset.sum_congr rfl fun j hj => Lagrange.bary_eq_card hd hs (Finset.mem_range.mp hj)
  rw [e] at h1
  simp only [div_zero, Finset.sum_const_zero] at h1
  have h' := congrArg (Polynomial.eval s) (_root_.Lagrange.sum_basis (s := Finset.range n) (v := x) hd ⟨0, Finset.mem_range.mpr hn⟩)
  rw [Polynomial.eval_finsetSum] at h'
  have h2 : ∑ j ∈ Finset.range n, Polynomial.eval s (Lagrange.card n x j) = 0 := h1.symm
  have h3 : ∑ j ∈ Finset.range n, Polynomial.eval s (Lagrange.card n x j) = Polynomial.eval s 1 := h'
  rw [h2] at h3
  simp at h3

theorem lagrange_fin {n : ℕ} {x : Vec} {y : ℕ → Dbl} (h : Same x y) (hd : Lagrange.Distinct n x) (s tau : ℝ) {k : ℕ} (hk : k < n) :
    lagrange n y (fin s) k = fin (Lagrange.evalOnWindow n x s tau k) := by
  have e : (fun j => almostEqual (fin s) (y j) (fin tol9)) = fun j => Lagrange.almostEqual s (x j) tol9 := by
    funext j
    rw [h j, almostEqual_fin]
  unfold lagrange Lagrange.evalOnWindow
  rw [e]
  cases hf : (List.range n).find? (fun j => Lagrange.almostEqual s (x j) tol9) with
  | some j => exact Same.setAt (v := fun _ => 0) (fun _ => rfl) j rfl k
  | none =>
    have hs : ∀ j < n, s ≠ x j := by
      intro j hj e
      rw [List.find?_eq_none] at hf
      have := hf j (List.mem_range.2 hj)
      rw [← e] at this
      exact this (Lagrange.almostEqual_self s tol9 (by unfold tol9; norm_num))
    obtain ⟨h1, h2⟩ := baryLoop_fin h hd hs
    simp only [h2, h1 k]
    exact fin_div (book_ne_zero hd (by omega) hs)

theorem kOf_fin {a : ℝ} (h0 : 0 ≤ a) (h1 : a < 1) : kOf (fin a) = fin (B0101.kOf a) := by
  unfold kOf B0101.kOf
  have e1 : root4 (fin a) = fin (a ^ (1 / 4 : ℝ)) := if_neg (by linarith)
  have e2 : root4 (fin 1 - fin a) = fin ((1 - a) ^ (1 / 4 : ℝ)) := by
    rw [fin_sub]
    exact if_neg (by linarith)
  have h : (1 - a) ^ (1 / 4 : ℝ) ≠ 0 := (Real.rpow_pos_of_pos (by linarith) _).ne'
  rw [e1, e2, fin_div (by norm_num), fin_mul, fin_div h]

theorem b0101_fin {a : ℝ} (h0 : 0 ≤ a) (h1 : a < 1) (s tau : ℝ) : Same (B0101.evalOnWindow a s tau) (b0101 (fin a) (fin s) (fin tau)) := by
  intro k
  have hp : fin tau * kOf (fin a) * fin s = fin (tau * B0101.kOf a * s) := by rw [kOf_fin h0 h1]; simp
  have he : Real.exp (tau * B0101.kOf a * s) ≠ 0 := (Real.exp_pos _).ne'
  unfold b0101 B0101.evalOnWindow B0101.vec6
  simp only [hp]
  match k with
  | 0 => rfl
  | 1 => rfl
  | 2 => exact fin_div he
  | 3 => exact fin_div he
  | 4 => rfl
  | 5 => rfl
  | k + 6 => rfl

theorem evalOnWindow_fin {b : Basis} (hb : b.Valid) (s tau : ℝ) :
    ∃ v w, b.evalOnWindow s tau = .ok v ∧ (exactBasis b).evalOnWindow (fin s) (fin tau) = .ok w ∧ ∀ k < b.dim, w k = fin (v k) := by
  cases b with
  | legendre d =>
    obtain ⟨w, h1, h2⟩ := legendre_fin (d := d) hb s
    exact ⟨_, w, if_neg (by have : 2 ≤ d := hb; omega), h1, fun k _ => h2 k⟩
  | lagrange x =>
    refine ⟨_, _, rfl, rfl, fun k hk => ?_⟩
    have e : (x.map fin).length = x.length := List.length_map ..
    rw [e]
    exact lagrange_fin (vecD_map x) (Props.Separated.distinct hb) s tau hk
  | b0101 a => exact ⟨_, _, rfl, rfl, fun k _ => b0101_fin hb.1 hb.2 s tau k⟩

end GSplines.Special
