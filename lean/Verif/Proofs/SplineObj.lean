import Verif.Spec.SplineObj
import Verif.Proofs.Colloc
import Verif.Props.CollocOps

/-! # Proofs about programs on splines as objects -/

namespace GSplines.SplineObj

open Spec Spec.SplineObj

section basics

variable {α β : Type} (σ : Store)

theorem bind_app (m : M α) (f : α → M β) : (m >>= f) σ = match m σ with
    | (.ok a, σ') => f a σ'
    | (.error e, σ') => (.error e, σ') := rfl

theorem bind_ok {m : M α} {f : α → M β} {a : α} {σ σ' : Store} (h : m σ = (.ok a, σ')) : (m >>= f) σ = f a σ' := by
  rw [bind_app, h]

theorem bind_error {m : M α} {f : α → M β} {e : Stop} {σ σ' : Store} (h : m σ = (.error e, σ')) : (m >>= f) σ = (.error e, σ') := by
  rw [bind_app, h]

theorem pure_app (a : α) : (pure a : M α) σ = (.ok a, σ) := rfl

theorem stop_app (e : Stop) : (stop e : M α) σ = (.error e, σ) := rfl

theorem lift_ok (a : α) : (lift (.ok a) : M α) σ = (.ok a, σ) := rfl

theorem lift_error (e : Err) : (lift (.error e) : M α) σ = (.error (.thrown e), σ) := rfl

theorem put_app (x : ℕ) (g : GSpline) : put x g σ = (.ok (), update σ x (.live g)) := rfl

theorem get_live {x : ℕ} {g : GSpline} {σ : Store} (h : σ x = some (.live g)) : get x σ = (.ok g, σ) := by
  unfold get; rw [h]

theorem take_live {x : ℕ} {g : GSpline} {σ : Store} (h : σ x = some (.live g)) : take x σ = (.ok g, update σ x .moved) := by
  unfold take; rw [bind_ok (get_live h)]; rfl

theorem update_same (x : ℕ) (c : Cell) : update σ x c x = some c := by simp [update]

theorem update_ne {x w : ℕ} (c : Cell) (h : w ≠ x) : update σ x c w = σ w := by simp [update, h]

theorem update_update (x : ℕ) (c d : Cell) : update (update σ x c) x d = update σ x d := by
  funext y; unfold update; split <;> rfl

theorem update_id {x : ℕ} {c : Cell} {σ : Store} (h : σ x = some c) : update σ x c = σ := by
  funext y; unfold update; split
  · rename_i hy; rw [hy, h]
  · rfl

end basics

/-! ## loops in the memory of an operand -/

theorem each_inv {P : ℕ → Store → Prop} {n : ℕ} {body : ℕ → M Unit} {σ : Store} (h0 : P 0 σ)
    (hs : ∀ i < n, ∀ τ, P i τ → ∃ τ', body i τ = (.ok (), τ') ∧ P (i + 1) τ') : ∃ τ, each n body σ = (.ok (), τ) ∧ P n τ := by
  induction n with
  | zero => exact ⟨σ, rfl, h0⟩
  | succ n ih =>
    obtain ⟨τ, e, hP⟩ := ih fun i hi => hs i (by omega)
    obtain ⟨τ', e', hP'⟩ := hs n (by omega) τ hP
    exact ⟨τ', by rw [each, bind_ok e, e'], hP'⟩

/-- The objects while a loop has replaced the first `n` coefficients of the object `t` by those of `w`. -/
def Upto (σ : Store) (t : ℕ) (g : GSpline) (w : ℕ → ℝ) (n : ℕ) (τ : Store) : Prop :=
  ∃ l : List ℝ, τ = update σ t (.live { g with coeffs := l }) ∧ l.length = g.coeffs.length ∧ ∀ i < g.coeffs.length, vecOf l i = if i < n then w i else vecOf g.coeffs i

theorem upto_zero {σ : Store} {t : ℕ} {g : GSpline} (w : ℕ → ℝ) (h : σ t = some (.live g)) : Upto σ t g w 0 σ :=
  ⟨g.coeffs, (update_id h).symm, rfl, fun i _ => by simp⟩

theorem vecOf_eq_getElem {l : List ℝ} {i : ℕ} (h : i < l.length) : vecOf l i = l[i] := by
  simp [vecOf, h]

/-- Reading an entry of `x` during the loop. -/
theorem coeff_upto {σ : Store} {t x : ℕ} {g a : GSpline} {w : ℕ → ℝ} {n j : ℕ} {τ : Store} (hx : σ x = some (.live a)) (ht : σ t = some (.live g)) (h : Upto σ t g w n τ)
    (hj : j < a.coeffs.length) (hn : x = t → n ≤ j) : coeff x j τ = (.ok (vecOf a.coeffs j), τ) := by
  obtain ⟨l, rfl, hl, hv⟩ := h
  unfold coeff
  by_cases e : x = t
  · subst e
    rw [hx] at ht
    obtain rfl : a = g := by injection ht with h; injection h
    rw [bind_ok (get_live (update_same _ _ _))]
    dsimp only
    rw [rd_ok (by omega), lift_ok, hv j hj, if_neg (by have := hn rfl; omega)]
  · rw [bind_ok (get_live ((update_ne _ _ e).trans hx)), rd_ok hj, lift_ok]

/-- Writing the next entry. -/
theorem set_upto {σ : Store} {t : ℕ} {g : GSpline} {w : ℕ → ℝ} {n : ℕ} {τ : Store} (h : Upto σ t g w n τ) (hn : n < g.coeffs.length) :
    ∃ τ', setCoeff t n (w n) τ = (.ok (), τ') ∧ Upto σ t g w (n + 1) τ' := by
  obtain ⟨l, rfl, hl, hv⟩ := h
  refine ⟨update σ t (.live { g with coeffs := l.set n (w n) }), ?_, _, rfl, by simp [hl], fun i hi => ?_⟩
  · unfold setCoeff
    rw [bind_ok (get_live (update_same _ _ _))]
    dsimp only
    rw [if_pos (by omega), put_app, update_update]
  · rw [Sobolev.vecOf_set (by omega), Function.update_apply, hv i hi]
    split_ifs <;> first | rfl | omega | (subst_vars; rfl)

/-- The objects after the loop. -/
theorem upto_all {σ : Store} {t : ℕ} {g : GSpline} {w : ℕ → ℝ} {τ : Store} (h : Upto σ t g w g.coeffs.length τ) {l : List ℝ} (hl : l.length = g.coeffs.length)
    (hw : ∀ i < g.coeffs.length, vecOf l i = w i) : τ = update σ t (.live { g with coeffs := l }) := by
  obtain ⟨m, rfl, hm, hv⟩ := h
  have : m = l := by
    refine List.ext_getElem (by omega) fun i h1 h2 => ?_
    rw [← vecOf_eq_getElem h1, ← vecOf_eq_getElem h2, hv i (by omega), hw i (by omega), if_pos (by omega)]
  rw [this]

theorem vecOf_zipWith {f : ℝ → ℝ → ℝ} {a b : List ℝ} (h : a.length = b.length) {i : ℕ} (hi : i < a.length) : vecOf (List.zipWith f a b) i = f (vecOf a i) (vecOf b i) := by
  rw [vecOf_eq_getElem (by simp; omega), vecOf_eq_getElem hi, vecOf_eq_getElem (by omega), List.getElem_zipWith]

theorem zipInto_ok {σ : Store} {f : ℝ → ℝ → ℝ} {t x y : ℕ} {a b g : GSpline} (hx : σ x = some (.live a)) (hy : σ y = some (.live b)) (ht : σ t = some (.live g))
    (hab : a.coeffs.length = b.coeffs.length) (hg : g.coeffs.length = a.coeffs.length) :
    zipInto f t x y σ = (.ok (), update σ t (.live { g with coeffs := List.zipWith f a.coeffs b.coeffs })) := by
  unfold zipInto
  rw [bind_ok (get_live hx), bind_ok (get_live hy), if_neg (not_not.2 hab)]
  obtain ⟨τ, e, h⟩ := each_inv (P := Upto σ t g fun i => f (vecOf a.coeffs i) (vecOf b.coeffs i)) (n := a.coeffs.length)
    (body := fun i => do
      let u ← coeff x i
      let v ← coeff y i
      setCoeff t i (f u v)) (upto_zero _ ht) (fun i hi τ h => by
    obtain ⟨τ', e, h'⟩ := set_upto h (by omega)
    refine ⟨τ', ?_, h'⟩
    rw [bind_ok (coeff_upto hx ht h hi fun _ => le_rfl), bind_ok (coeff_upto hy ht h (by omega) fun _ => le_rfl)]
    exact e)
  rw [e]
  rw [← hg] at h
  rw [upto_all h (l := List.zipWith f a.coeffs b.coeffs) (by simp; omega) fun i hi => vecOf_zipWith hab (by omega)]

theorem scaleInto_ok {σ : Store} {k : ℝ} {x : ℕ} {a : GSpline} (hx : σ x = some (.live a)) :
    scaleInto k x σ = (.ok (), update σ x (.live { a with coeffs := a.coeffs.map (· * k) })) := by
  unfold scaleInto
  rw [bind_ok (get_live hx)]
  obtain ⟨τ, e, h⟩ := each_inv (P := Upto σ x a fun i => vecOf a.coeffs i * k) (n := a.coeffs.length)
    (body := fun i => do
      let u ← coeff x i
      setCoeff x i (u * k)) (upto_zero _ hx) (fun i hi τ h => by
    obtain ⟨τ', e, h'⟩ := set_upto h hi
    refine ⟨τ', ?_, h'⟩
    rw [bind_ok (coeff_upto hx hx h hi fun _ => le_rfl)]
    exact e)
  rw [e]
  rw [upto_all h (l := a.coeffs.map (· * k)) (by simp) fun i hi => by
    rw [vecOf_eq_getElem (by simpa using hi), vecOf_eq_getElem hi, List.getElem_map]]

/-! ## products -/

/-- The coefficient with index `i` of the product of a vector valued and a scalar spline. -/
theorem vecOf_scale {v s : GSpline} {i : ℕ} (hi : i < v.coeffs.length) :
    vecOf (scale v s).coeffs i = vecOf v.coeffs i * vecOf s.coeffs (i / (v.basis.dim * v.codim) * v.basis.dim + i % v.basis.dim) := by
  rw [vecOf_eq_getElem (by simpa [scale] using hi)]
  simp [scale, vecOf]

theorem scale_length (v s : GSpline) : (scale v s).coeffs.length = v.coeffs.length := by simp [scale]

theorem scale_consistent {v s : GSpline} (hv : Consistent v) : Consistent (scale v s) := by
  unfold Consistent; rw [scale_length]; exact hv

theorem mulInto_ok {σ : Store} {v s : ℕ} {a b : GSpline} (hv : σ v = some (.live a)) (hs : σ s = some (.live b)) (ha : Consistent a) (hb : Consistent b)
    (hd : b.basis.dim = a.basis.dim) (hn : b.tau.length = a.tau.length) (h1 : b.codim = 1) :
    mulInto v s σ = (.ok (), update σ v (.live (scale a b))) := by
  unfold mulInto
  rw [bind_ok (get_live hv), bind_ok (get_live hs)]
  set d := a.basis.dim with hdd
  set D := d * a.codim with hD
  have hal : a.coeffs.length = a.tau.length * D := by rw [ha, Nat.mul_assoc]
  have hbl : b.coeffs.length = a.tau.length * d := by rw [hb, hd, hn, h1, Nat.mul_one]
  set w : ℕ → ℝ := fun i => vecOf a.coeffs i * vecOf b.coeffs (i / D * d + i % d) with hw
  obtain ⟨τ, e, h⟩ := each_inv (P := fun iv τ => Upto σ v a w (iv * D) τ) (n := a.tau.length)
    (body := fun iv => each D fun y => do
      let u ← coeff v (iv * D + y)
      let z ← coeff s (iv * (b.basis.dim * b.codim) + y % d)
      setCoeff v (iv * D + y) (u * z)) (σ := σ) (by rw [Nat.zero_mul]; exact upto_zero _ hv) (fun iv hiv τ h => by
    have hlen : iv * D + D ≤ a.tau.length * D := by rw [← Nat.succ_mul]; exact Nat.mul_le_mul_right _ hiv
    obtain ⟨τ', e, h'⟩ := each_inv (P := fun y τ => Upto σ v a w (iv * D + y) τ) (n := D) (body := fun y => do
      let u ← coeff v (iv * D + y)
      let z ← coeff s (iv * (b.basis.dim * b.codim) + y % d)
      setCoeff v (iv * D + y) (u * z)) (σ := τ) h (fun y hy τ h => by
        obtain ⟨τ', e, h'⟩ := set_upto h (by omega)
        refine ⟨τ', ?_, h'⟩
        have hd0 : 0 < d := by
          rcases Nat.eq_zero_or_pos d with h | h
          · rw [hD, h, Nat.zero_mul] at hy; omega
          · exact h
        have hm := Nat.mod_lt y hd0
        have hlen' : iv * d + d ≤ a.tau.length * d := by rw [← Nat.succ_mul]; exact Nat.mul_le_mul_right _ hiv
        have ed : iv * (b.basis.dim * b.codim) + y % d = (iv * D + y) / D * d + (iv * D + y) % d := by
          obtain ⟨e1, e2⟩ := Colloc.node_div (iv := iv) hy
          rw [e1, h1, Nat.mul_one, hd, hD, ← Nat.mul_assoc, Nat.mul_comm iv d, Nat.mul_assoc, Nat.mul_add_mod]
        rw [bind_ok (coeff_upto hv hv h (by omega) fun _ => le_rfl), bind_ok (coeff_upto hs hv h (j := iv * (b.basis.dim * b.codim) + y % d) ?_ ?_)]
        · rw [ed]; exact e
        · rw [hd, h1, Nat.mul_one, hbl]; omega
        · intro hsv
          subst hsv
          rw [hs] at hv
          obtain rfl : b = a := by injection hv with h; injection h
          rw [h1, Nat.mul_one] at hD
          rw [h1, Nat.mul_one, hD]
          rw [hD] at hy
          rw [Nat.mod_eq_of_lt hy])
    refine ⟨τ', e, ?_⟩
    rw [Nat.succ_mul]; exact h')
  have e' : each a.nIntervals (fun iv => each D fun y => do
      let u ← coeff v (iv * D + y)
      let z ← coeff s (iv * (b.basis.dim * b.codim) + y % d)
      setCoeff v (iv * D + y) (u * z)) σ = (.ok (), τ) := e
  rw [e']
  rw [← hal] at h
  rw [upto_all h (l := (scale a b).coeffs) (scale_length _ _) fun i hi => vecOf_scale hi]
  rfl

theorem sameDomain_iff (a b : GSpline) : Colloc.sameDomain a b ↔ CloseBound a.dom.1 b.dom.1 ∧ CloseBound a.dom.2 b.dom.2 := by
  unfold Colloc.sameDomain
  rw [Props.closeBound_iff, Props.closeBound_iff, and_comm]

/-- Products of copies. -/
theorem mapBlocks_scale {a b : GSpline} (ha : Consistent a) (hb : Consistent b) (hd : b.basis.dim = a.basis.dim) (hn : b.tau.length = a.tau.length) (h1 : b.codim = 1) :
    Colloc.mapBlocks a (fun iv k _ x => do
      let s ← rd b.coeffs (iv * (b.basis.dim * b.codim) + k)
      return x * s) = .ok (scale a b) := by
  have hbl : b.coeffs.length = a.tau.length * a.basis.dim := by rw [hb, hd, hn, h1, Nat.mul_one]
  obtain ⟨co, e, hl, hv⟩ := Colloc.mapBlocks_ok ha (fun iv k _ x => do
      let s ← rd b.coeffs (iv * (b.basis.dim * b.codim) + k)
      return x * s) (fun iv c k => nodal a iv c k * vecOf b.coeffs (iv * a.basis.dim + k)) (fun iv hiv c hc k hk => by
    have hlen' : iv * a.basis.dim + a.basis.dim ≤ a.tau.length * a.basis.dim := by rw [← Nat.succ_mul]; exact Nat.mul_le_mul_right _ hiv
    rw [hd, h1, Nat.mul_one, rd_ok (by omega)]; rfl)
  rw [e]
  have : co = (scale a b).coeffs := by
    refine List.ext_getElem (by rw [scale_length, hl]) fun i h1 h2 => ?_
    rw [← vecOf_eq_getElem h1, ← vecOf_eq_getElem h2]
    have hi : i < a.coeffs.length := by omega
    rw [vecOf_scale hi]
    have hi' := hi
    rw [ha, Nat.mul_assoc] at hi'
    set D := a.basis.dim * a.codim with hD
    have hD0 : 0 < D := by
      rcases Nat.eq_zero_or_pos D with h | h
      · rw [h] at hi'; omega
      · exact h
    have hd0 : 0 < a.basis.dim := Nat.pos_of_mul_pos_right hD0
    have hiv : i / D < a.tau.length := by rw [Nat.div_lt_iff_lt_mul hD0]; exact hi'
    have hc : i % D / a.basis.dim < a.codim := by
      rw [Nat.div_lt_iff_lt_mul hd0, Nat.mul_comm]; exact Nat.mod_lt _ hD0
    have hk : i % D % a.basis.dim < a.basis.dim := Nat.mod_lt _ hd0
    have := hv _ hiv _ hc _ hk
    unfold nodal at this
    dsimp only at this
    have ei : i / D * a.basis.dim * a.codim + a.basis.dim * (i % D / a.basis.dim) + i % D % a.basis.dim = i := by
      rw [Nat.add_assoc, Nat.div_add_mod, Nat.mul_assoc, Nat.mul_comm, Nat.div_add_mod]
    have em : i % D % a.basis.dim = i % a.basis.dim := Nat.mod_mod_of_dvd _ ⟨a.codim, hD⟩
    rw [ei, em] at this
    exact this
  rw [this]; rfl

theorem mul_copies {a b : GSpline} (ha : Consistent a) (hb : Consistent b) (h1 : Colloc.sameDisc a b) (h2 : Colloc.sameDomain a b) (h3 : a.codim = 1 ∨ b.codim = 1) :
    Colloc.mul false false a b = .ok (if b.codim = 1 then scale a b else scale b a) := by
  unfold Colloc.mul
  rw [if_neg (not_not.2 h1), if_neg (not_not.2 h2), if_neg (not_not.2 h3)]
  obtain ⟨hd, hn⟩ := h1
  by_cases h : b.codim = 1
  · simp only [h, ne_eq, not_true_eq_false, if_false, if_true, Bool.false_eq_true]
    rw [GSpline.copy_ok ha, GLL.ok_bind]
    have := mapBlocks_scale ha hb hd.symm hn.symm h
    rw [h] at this
    exact this
  · have h' : a.codim = 1 := h3.resolve_right h
    simp only [h, ne_eq, not_false_eq_true, if_false, if_true, Bool.false_eq_true]
    rw [GSpline.copy_ok hb, GLL.ok_bind]
    exact mapBlocks_scale hb ha hd hn h'

/-! ## statements -/

/-- The objects hold the values of the variables. -/
def Rep (σ : Store) (E : Env) : Prop := ∀ x g, E x = some g → σ x = some (.live g) ∧ Consistent g

theorem Rep.set {σ : Store} {E : Env} (h : Rep σ E) {z : ℕ} {g : GSpline} (hg : Consistent g) : Rep (update σ z (.live g)) (E.set z (some g)) := by
  intro x f hx
  unfold Env.set at hx
  by_cases e : x = z
  · subst e
    rw [if_pos rfl] at hx
    obtain rfl := Option.some.inj hx
    exact ⟨update_same _ _ _, hg⟩
  · rw [if_neg e] at hx
    rw [update_ne _ _ e]
    exact h x f hx

theorem Rep.drop {σ : Store} {E : Env} (h : Rep σ E) (rv : Bool) (z : ℕ) : Rep σ (E.drop rv z) := by
  intro x f hx
  refine h x f ?_
  unfold Env.drop Env.set at hx
  split at hx
  · dsimp only at hx
    split at hx
    · cases hx
    · exact hx
  · exact hx

/-- An object that the variables do not use any more may change. -/
theorem Rep.forget {σ : Store} {E : Env} (h : Rep σ E) {z : ℕ} (c : Cell) (hz : E z = none) : Rep (update σ z c) E := by
  intro x f hx
  have e : x ≠ z := by rintro rfl; rw [hz] at hx; cases hx
  rw [update_ne _ _ e]
  exact h x f hx

theorem drop_self (E : Env) (z : ℕ) : E.drop true z z = none := by simp [Env.drop, Env.set]

theorem drop_none {E : Env} {z : ℕ} (rv : Bool) (w : ℕ) (h : E z = none) : E.drop rv w z = none := by
  unfold Env.drop Env.set
  split
  · dsimp only; split
    · rfl
    · exact h
  · exact h

/-- A computation of a value that destroys at most rvalue operands. -/
def Gives (m : M GSpline) (σ : Store) (E' : Env) (r : GSpline) : Prop := ∃ σ', m σ = (.ok r, σ') ∧ Rep σ' E' ∧ Consistent r

theorem Gives.put {m : M GSpline} {σ : Store} {E' : Env} {r : GSpline} (h : Gives m σ E' r) (z : ℕ) :
    ∃ σ', (m >>= fun r => put z r) σ = (.ok (), σ') ∧ Rep σ' (E'.set z (some r)) := by
  obtain ⟨σ', e, hR, hc⟩ := h
  exact ⟨_, by rw [bind_ok e, put_app], hR.set hc⟩

theorem consistent_zip {f : ℝ → ℝ → ℝ} {a b g : GSpline} (hab : a.coeffs.length = b.coeffs.length) (hg : g.coeffs.length = a.coeffs.length) (hc : Consistent g) :
    Consistent { g with coeffs := List.zipWith f a.coeffs b.coeffs } := by
  show (List.zipWith f a.coeffs b.coeffs).length = _
  rw [List.length_zipWith, ← hab, Nat.min_self, ← hg]; exact hc

theorem sum_eq {minus rx ry : Bool} {a b : GSpline} (h : a.sameVectorSpace b = true) :
    SplineObj.sum minus rx ry a b = .ok { (if rx = false ∧ ry = true then b else a) with coeffs := List.zipWith (num minus) a.coeffs b.coeffs } := by
  unfold SplineObj.sum
  rw [if_pos h]; rfl

theorem bin_gives {minus rx ry : Bool} {σ : Store} {E : Env} {x y : ℕ} {a b r : GSpline} (hR : Rep σ E) (hx : E x = some a) (hy : E y = some b)
    (hr : SplineObj.sum minus rx ry a b = .ok r) : Gives (bin minus rx ry x y) σ ((E.drop rx x).drop ry y) r := by
  obtain ⟨sx, ca⟩ := hR x a hx
  obtain ⟨sy, cb⟩ := hR y b hy
  have hs : a.sameVectorSpace b = true := by
    by_contra h
    unfold SplineObj.sum at hr; rw [if_neg h] at hr; cases hr
  rw [sum_eq hs] at hr
  injection hr with hr
  have hl := Props.consistent_length ca cb hs
  unfold Gives bin
  rw [bind_ok (get_live sx), bind_ok (get_live sy), if_neg (by rw [hs]; simp)]
  cases rx
  · cases ry
    · simp only [Bool.false_eq_true, and_false, if_false] at hr ⊢
      rw [GSpline.copy_ok ca, bind_ok (lift_ok _ _), zipRes, if_pos hl, bind_ok (lift_ok _ _)]
      subst hr
      exact ⟨σ, rfl, hR, consistent_zip hl rfl ca⟩
    · simp only [Bool.false_eq_true, and_self, if_false, if_true] at hr ⊢
      rw [bind_ok (zipInto_ok sx sy sy hl hl.symm), take_live (update_same _ _ _), update_update]
      subst hr
      exact ⟨_, rfl, ((hR.drop _ _).drop _ _).forget _ (drop_self _ _), consistent_zip hl hl.symm cb⟩
  · simp only [Bool.true_eq_false, false_and, if_false, if_true] at hr ⊢
    rw [bind_ok (zipInto_ok sx sy sx hl rfl), take_live (update_same _ _ _), update_update]
    subst hr
    exact ⟨_, rfl, ((hR.drop _ _).drop _ _).forget _ (drop_none _ _ (drop_self _ _)), consistent_zip hl rfl ca⟩

theorem bin_throws {minus rx ry : Bool} {σ : Store} {x y : ℕ} {a b : GSpline} {e : Err} (sx : σ x = some (.live a)) (sy : σ y = some (.live b))
    (hr : SplineObj.sum minus rx ry a b = .error e) : bin minus rx ry x y σ = (.error (.thrown e), σ) := by
  have hs : ¬ a.sameVectorSpace b = true := by intro h; rw [sum_eq h] at hr; cases hr
  unfold SplineObj.sum at hr
  rw [if_neg hs] at hr
  injection hr with hr
  unfold bin
  rw [bind_ok (get_live sx), bind_ok (get_live sy), if_pos (by simpa using hs), ← hr]; rfl

theorem inPlace_gives {minus : Bool} {σ : Store} {E : Env} {x y : ℕ} {a b r : GSpline} (hR : Rep σ E) (hx : E x = some a) (hy : E y = some b)
    (hr : SplineObj.sum minus true false a b = .ok r) : ∃ σ', inPlace minus x y σ = (.ok (), σ') ∧ Rep σ' (E.set x (some r)) := by
  obtain ⟨sx, ca⟩ := hR x a hx
  obtain ⟨sy, cb⟩ := hR y b hy
  have hs : a.sameVectorSpace b = true := by
    by_contra h
    unfold SplineObj.sum at hr; rw [if_neg h] at hr; cases hr
  rw [sum_eq hs] at hr
  injection hr with hr
  have hl := Props.consistent_length ca cb hs
  unfold inPlace
  rw [bind_ok (get_live sx), bind_ok (get_live sy), if_neg (by rw [hs]; simp), zipInto_ok sx sy sx hl rfl]
  refine ⟨_, rfl, ?_⟩
  simp only [Bool.true_eq_false, false_and, if_false] at hr
  subst hr
  exact hR.set (consistent_zip hl rfl ca)

theorem inPlace_throws {minus : Bool} {σ : Store} {x y : ℕ} {a b : GSpline} {e : Err} (sx : σ x = some (.live a)) (sy : σ y = some (.live b))
    (hr : SplineObj.sum minus true false a b = .error e) : inPlace minus x y σ = (.error (.thrown e), σ) := by
  have hs : ¬ a.sameVectorSpace b = true := by intro h; rw [sum_eq h] at hr; cases hr
  unfold SplineObj.sum at hr
  rw [if_neg hs] at hr
  injection hr with hr
  unfold inPlace
  rw [bind_ok (get_live sx), bind_ok (get_live sy), if_pos (by simpa using hs), ← hr]; rfl

theorem smul_gives (k : ℝ) (rv : Bool) {σ : Store} {E : Env} {x : ℕ} {g : GSpline} (hR : Rep σ E) (hx : E x = some g) :
    Gives (smul k rv x) σ (E.drop rv x) { g with coeffs := g.coeffs.map (· * k) } := by
  obtain ⟨sx, cg⟩ := hR x g hx
  have hc : Consistent { g with coeffs := g.coeffs.map (· * k) } := by
    show (g.coeffs.map _).length = _; rw [List.length_map]; exact cg
  unfold Gives smul
  cases rv
  · simp only [Bool.false_eq_true, if_false]
    rw [bind_ok (get_live sx), GSpline.smul, GSpline.copy_ok cg]
    exact ⟨σ, rfl, hR, hc⟩
  · simp only [if_true]
    rw [bind_ok (scaleInto_ok sx), take_live (update_same _ _ _), update_update]
    exact ⟨_, rfl, (hR.drop _ _).forget _ (drop_self _ _), hc⟩

theorem newFrom_gives (rv : Bool) {σ : Store} {E : Env} {x : ℕ} {g : GSpline} (hR : Rep σ E) (hx : E x = some g) : Gives (newFrom rv x) σ (E.drop rv x) g := by
  obtain ⟨sx, cg⟩ := hR x g hx
  unfold Gives newFrom
  cases rv
  · simp only [Bool.false_eq_true, if_false]
    rw [bind_ok (get_live sx), GSpline.copy_ok cg]
    exact ⟨σ, rfl, hR, cg⟩
  · simp only [if_true]
    rw [take_live sx]
    exact ⟨_, rfl, (hR.drop _ _).forget _ (drop_self _ _), cg⟩

theorem prod_cond (a b : GSpline) : (a.basis.dim = b.basis.dim ∧ a.tau.length = b.tau.length ∧ CloseBound a.dom.1 b.dom.1 ∧ CloseBound a.dom.2 b.dom.2 ∧ (a.codim = 1 ∨ b.codim = 1)) ↔
    Colloc.sameDisc a b ∧ Colloc.sameDomain a b ∧ (a.codim = 1 ∨ b.codim = 1) := by
  rw [sameDomain_iff]; unfold Colloc.sameDisc; tauto

theorem mul_gives {rx ry : Bool} {σ : Store} {E : Env} {x y : ℕ} {a b r : GSpline} (hR : Rep σ E) (hx : E x = some a) (hy : E y = some b) (hr : prod a b = .ok r) :
    Gives (mul rx ry x y) σ ((E.drop rx x).drop ry y) r := by
  obtain ⟨sx, ca⟩ := hR x a hx
  obtain ⟨sy, cb⟩ := hR y b hy
  unfold prod at hr
  split_ifs at hr with hc h1
  all_goals
    injection hr with hr
    obtain ⟨c1, c2, c3⟩ := (prod_cond a b).1 hc
    unfold Gives mul
    rw [bind_ok (get_live sx), bind_ok (get_live sy), if_neg (not_not.2 c1), if_neg (not_not.2 c2), if_neg (not_not.2 c3)]
  · simp only [h1, ne_eq, not_true_eq_false, if_false, if_true]
    subst hr
    have hm := mulInto_ok sx sy ca cb c1.1.symm c1.2.symm h1
    by_cases hrv : (rx = true ∧ x = x) ∨ (ry = true ∧ x = y)
    · have hrv' : (rx = true ∧ True) ∨ (ry = true ∧ x = y) := by simpa using hrv
      rw [if_pos hrv', bind_ok hm, take_live (update_same _ _ _), update_update]
      refine ⟨_, rfl, ((hR.drop _ _).drop _ _).forget _ ?_, scale_consistent ca⟩
      rcases hrv with ⟨h, -⟩ | ⟨h, h'⟩
      · subst h; exact drop_none _ _ (drop_self _ _)
      · subst h; subst h'; exact drop_self _ _
    · have hrv' : ¬ ((rx = true ∧ True) ∨ (ry = true ∧ x = y)) := by simpa using hrv
      rw [if_neg hrv', mul_copies ca cb c1 c2 c3, if_pos h1, lift_ok]
      exact ⟨σ, rfl, (hR.drop _ _).drop _ _, scale_consistent ca⟩
  · have h1' : a.codim = 1 := c3.resolve_right h1
    simp only [h1, ne_eq, not_false_eq_true, if_false, if_true]
    subst hr
    have hm := mulInto_ok sy sx cb ca c1.1 c1.2 h1'
    by_cases hrv : (rx = true ∧ y = x) ∨ (ry = true ∧ y = y)
    · have hrv' : (rx = true ∧ y = x) ∨ (ry = true ∧ True) := by simpa using hrv
      rw [if_pos hrv', bind_ok hm, take_live (update_same _ _ _), update_update]
      refine ⟨_, rfl, ((hR.drop _ _).drop _ _).forget _ ?_, scale_consistent cb⟩
      rcases hrv with ⟨h, h'⟩ | ⟨h, -⟩
      · subst h; subst h'; exact drop_none _ _ (drop_self _ _)
      · subst h; exact drop_self _ _
    · have hrv' : ¬ ((rx = true ∧ y = x) ∨ (ry = true ∧ True)) := by simpa using hrv
      rw [if_neg hrv', mul_copies ca cb c1 c2 c3, if_neg h1, lift_ok]
      exact ⟨σ, rfl, (hR.drop _ _).drop _ _, scale_consistent cb⟩

theorem mul_throws {rx ry : Bool} {σ : Store} {x y : ℕ} {a b : GSpline} {e : Err} (sx : σ x = some (.live a)) (sy : σ y = some (.live b)) (hr : prod a b = .error e) :
    mul rx ry x y σ = (.error (.thrown e), σ) := by
  unfold prod at hr
  split_ifs at hr with hc
  injection hr with hr
  rw [prod_cond] at hc
  subst hr
  unfold mul
  rw [bind_ok (get_live sx), bind_ok (get_live sy)]
  by_cases c1 : Colloc.sameDisc a b
  · rw [if_neg (not_not.2 c1)]
    by_cases c2 : Colloc.sameDomain a b
    · rw [if_neg (not_not.2 c2), if_pos fun c3 => hc ⟨c1, c2, c3⟩]; rfl
    · rw [if_pos c2]; rfl
  · rw [if_pos c1]; rfl

theorem assigned_eq (a b : GSpline) : Colloc.assign a b = assigned a b := by
  unfold Colloc.assign assigned GSpline.nIntervals
  by_cases h1 : a.basis.dim = b.basis.dim ∧ a.tau.length = b.tau.length
  · rw [if_neg (not_not.2 h1)]
    by_cases h2 : a.codim = b.codim
    · rw [if_neg (not_not.2 h2), if_pos ⟨h1.1, h1.2, h2⟩]
    · rw [if_pos h2, if_neg fun h => h2 h.2.2]
  · rw [if_pos h1, if_neg fun h => h1 ⟨h.1, h.2.1⟩]

theorem assigned_consistent {a b r : GSpline} (hb : Consistent b) (h : assigned a b = .ok r) : Consistent r := by
  unfold assigned at h
  split_ifs at h with hc
  injection h with h
  subst h
  show b.coeffs.length = _
  rw [hb, hc.1, hc.2.1, hc.2.2]

theorem assign_gives {ry : Bool} {σ : Store} {E : Env} {x y : ℕ} {a b r : GSpline} (hR : Rep σ E) (hx : E x = some a) (hy : E y = some b) (hxy : ¬ (ry = true ∧ x = y))
    (hr : assigned a b = .ok r) : ∃ σ', assign x ry y σ = (.ok (), σ') ∧ Rep σ' ((E.drop ry y).set x (some r)) := by
  obtain ⟨sx, ca⟩ := hR x a hx
  obtain ⟨sy, cb⟩ := hR y b hy
  have cr := assigned_consistent cb hr
  unfold assign
  rw [if_neg hxy, bind_ok (get_live sx), bind_ok (get_live sy), assigned_eq, hr, bind_ok (lift_ok _ _)]
  cases ry
  · exact ⟨_, rfl, hR.set cr⟩
  · simp only [if_true]
    rw [bind_ok (take_live sy), put_app]
    exact ⟨_, rfl, ((hR.drop _ _).forget _ (drop_self _ _)).set cr⟩

theorem assign_throws {ry : Bool} {σ : Store} {x y : ℕ} {a b : GSpline} {e : Err} (sx : σ x = some (.live a)) (sy : σ y = some (.live b)) (hxy : ¬ (ry = true ∧ x = y))
    (hr : assigned a b = .error e) : assign x ry y σ = (.error (.thrown e), σ) := by
  unfold assign
  rw [if_neg hxy, bind_ok (get_live sx), bind_ok (get_live sy), assigned_eq, hr, bind_error (lift_error _ _)]

/-- The errors of the specification. -/
theorem step_error {E : Env} {s : Stmt} {e : Err} (h : step E s = some (.error e)) : e = .invalidArgument := by
  have hs : ∀ {m rx ry a b}, SplineObj.sum m rx ry a b = .error e → e = .invalidArgument := by
    intro m rx ry a b h; unfold SplineObj.sum at h; split_ifs at h; injection h with h; exact h.symm
  have hp : ∀ {a b}, prod a b = .error e → e = .invalidArgument := by
    intro a b h; unfold prod at h; split_ifs at h; injection h with h; exact h.symm
  have ha : ∀ {a b}, assigned a b = .error e → e = .invalidArgument := by
    intro a b h; unfold assigned at h; split_ifs at h; injection h with h; exact h.symm
  have map_err : ∀ {r : Res GSpline} {f : GSpline → Env}, r.map f = .error e → r = .error e := by
    intro r f h; cases r with
    | error e' => simpa [Except.map] using h
    | ok v => simp [Except.map] at h
  cases s with
  | new z dom codim n b co tau =>
    unfold step at h
    dsimp only at h
    split_ifs at h
    · cases h
    · simp only [Option.some.injEq] at h
      injection h with h; exact h.symm
  | init z rv x => unfold step at h; dsimp only at h; cases hx : E x <;> simp [hx] at h
  | bin m z rx x ry y =>
    unfold step at h
    dsimp only at h
    cases hx : E x <;> cases hy : E y <;> simp [hx, hy] at h
    exact hs (map_err h)
  | inPlace m x y =>
    unfold step at h
    dsimp only at h
    cases hx : E x <;> cases hy : E y <;> simp [hx, hy] at h
    exact hs (map_err h)
  | smul z k rv x => unfold step at h; dsimp only at h; cases hx : E x <;> simp [hx] at h
  | neg z rv x => unfold step at h; dsimp only at h; cases hx : E x <;> simp [hx] at h
  | mul z rx x ry y =>
    unfold step at h
    dsimp only at h
    cases hx : E x <;> cases hy : E y <;> simp [hx, hy] at h
    exact hp (map_err h)
  | assign x ry y =>
    unfold step at h
    dsimp only at h
    cases hx : E x <;> cases hy : E y <;> simp [hx, hy] at h
    split_ifs at h
    · injection h with h; exact h.symm
    · exact ha (map_err h)

theorem map_ok {α β : Type} {r : Res α} {f : α → β} {b : β} (h : r.map f = .ok b) : ∃ a, r = .ok a ∧ f a = b := by
  cases r with
  | error e => cases h
  | ok a => exact ⟨a, rfl, by simpa [Except.map] using h⟩

theorem map_error {α β : Type} {r : Res α} {f : α → β} {e : Err} (h : r.map f = .error e) : r = .error e := by
  cases r with
  | error e' => simpa [Except.map] using h
  | ok v => simp [Except.map] at h

/-- One statement on the objects and on the values. -/
theorem step_refines {σ : Store} {E : Env} (hR : Rep σ E) (s : Stmt) :
    (∀ E', step E s = some (.ok E') → ∃ σ', s.run σ = (.ok (), σ') ∧ Rep σ' E') ∧
    (∀ e, step E s = some (.error e) → s.run σ = (.error (.thrown e), σ)) := by
  cases s with
  | new z dom codim n b co tau =>
    unfold step Stmt.run GSpline.make
    dsimp only
    constructor
    · intro E' h
      split_ifs at h with h1 h2
      · simp only [Option.some.injEq, Except.ok.injEq] at h
        subst h
        rw [if_pos h1.1, if_neg (not_not.2 h2), bind_ok (lift_ok _ _), put_app]
        exact ⟨_, rfl, hR.set (by show co.length = _; rw [h2, h1.2])⟩
      · cases h
    · intro e h
      split_ifs at h with h1 h2
      · cases h
      · simp only [Option.some.injEq, Except.error.injEq] at h
        subst h
        rw [if_pos h1.1, if_pos h2, bind_error (lift_error _ _)]
  | init z rv x =>
    unfold step Stmt.run
    dsimp only
    cases hx : E x with
    | none => simp
    | some g =>
      simp only [Option.bind_eq_bind, Option.bind_some, Option.pure_def, Option.some.injEq, Except.ok.injEq, reduceCtorEq, false_implies, implies_true, and_true]
      rintro E' rfl
      exact (newFrom_gives rv hR hx).put z
  | bin m z rx x ry y =>
    unfold step Stmt.run
    dsimp only
    cases hx : E x with
    | none => simp
    | some a =>
      cases hy : E y with
      | none => simp
      | some b =>
        simp only [Option.bind_eq_bind, Option.bind_some, Option.pure_def, Option.some.injEq]
        refine ⟨fun E' h => ?_, fun e h => ?_⟩
        · obtain ⟨r, hr, rfl⟩ := map_ok h
          exact (bin_gives hR hx hy hr).put z
        · exact bind_error (bin_throws (hR x a hx).1 (hR y b hy).1 (map_error h))
  | inPlace m x y =>
    unfold step Stmt.run
    dsimp only
    cases hx : E x with
    | none => simp
    | some a =>
      cases hy : E y with
      | none => simp
      | some b =>
        simp only [Option.bind_eq_bind, Option.bind_some, Option.pure_def, Option.some.injEq]
        refine ⟨fun E' h => ?_, fun e h => ?_⟩
        · obtain ⟨r, hr, rfl⟩ := map_ok h
          exact inPlace_gives hR hx hy hr
        · exact inPlace_throws (hR x a hx).1 (hR y b hy).1 (map_error h)
  | smul z k rv x =>
    unfold step Stmt.run
    dsimp only
    cases hx : E x with
    | none => simp
    | some g =>
      simp only [Option.bind_eq_bind, Option.bind_some, Option.pure_def, Option.some.injEq, Except.ok.injEq, reduceCtorEq, false_implies, implies_true, and_true]
      rintro E' rfl
      exact (smul_gives k rv hR hx).put z
  | neg z rv x =>
    unfold step Stmt.run
    dsimp only
    cases hx : E x with
    | none => simp
    | some g =>
      simp only [Option.bind_eq_bind, Option.bind_some, Option.pure_def, Option.some.injEq, Except.ok.injEq, reduceCtorEq, false_implies, implies_true, and_true]
      rintro E' rfl
      have := (smul_gives (-1) rv hR hx).put z
      simp only [mul_neg, mul_one] at this
      exact this
  | mul z rx x ry y =>
    unfold step Stmt.run
    dsimp only
    cases hx : E x with
    | none => simp
    | some a =>
      cases hy : E y with
      | none => simp
      | some b =>
        simp only [Option.bind_eq_bind, Option.bind_some, Option.pure_def, Option.some.injEq]
        refine ⟨fun E' h => ?_, fun e h => ?_⟩
        · obtain ⟨r, hr, rfl⟩ := map_ok h
          exact (mul_gives hR hx hy hr).put z
        · exact bind_error (mul_throws (hR x a hx).1 (hR y b hy).1 (map_error h))
  | assign x ry y =>
    unfold step Stmt.run
    dsimp only
    cases hx : E x with
    | none => simp
    | some a =>
      cases hy : E y with
      | none => simp
      | some b =>
        simp only [Option.bind_eq_bind, Option.bind_some, Option.pure_def, Option.some.injEq]
        by_cases hxy : ry = true ∧ x = y
        · rw [if_pos hxy]
          refine ⟨fun E' h => (by cases h), fun e h => ?_⟩
          injection h with h
          subst h
          unfold assign
          rw [if_pos hxy]; rfl
        · rw [if_neg hxy]
          refine ⟨fun E' h => ?_, fun e h => ?_⟩
          · obtain ⟨r, hr, rfl⟩ := map_ok h
            exact assign_gives hR hx hy hxy hr
          · exact assign_throws (hR x a hx).1 (hR y b hy).1 hxy (map_error h)

theorem run_refines (p : List Stmt) : ∀ (σ : Store) (E : Env), Rep σ E → ∀ bs E', Spec.SplineObj.run p E = some (bs, E') → ∃ σ', run p σ = (.ok bs, σ') ∧ Rep σ' E' := by
  induction p with
  | nil =>
    intro σ E hR bs E' h
    simp only [Spec.SplineObj.run, Option.some.injEq, Prod.mk.injEq] at h
    obtain ⟨rfl, rfl⟩ := h
    exact ⟨σ, rfl, hR⟩
  | cons s p ih =>
    intro σ E hR bs E' h
    rw [Spec.SplineObj.run] at h
    obtain ⟨h1, h2⟩ := step_refines hR s
    rcases hs : step E s with _ | (e | E1)
    · rw [hs] at h; cases h
    · rw [hs] at h
      obtain ⟨q, hq, hq'⟩ := Option.map_eq_some_iff.1 h
      simp only [Prod.mk.injEq] at hq'
      obtain ⟨rfl, rfl⟩ := hq'
      obtain ⟨σ', e1, hR'⟩ := ih σ E hR q.1 q.2 hq
      refine ⟨σ', ?_, hR'⟩
      obtain rfl := step_error hs
      rw [run]
      beta_reduce
      rw [h2 _ hs]
      dsimp only
      rw [bind_ok e1]; rfl
    · rw [hs] at h
      obtain ⟨q, hq, hq'⟩ := Option.map_eq_some_iff.1 h
      simp only [Prod.mk.injEq] at hq'
      obtain ⟨rfl, rfl⟩ := hq'
      obtain ⟨σ1, e0, hR1⟩ := h1 E1 hs
      obtain ⟨σ', e1, hR'⟩ := ih σ1 E1 hR1 q.1 q.2 hq
      refine ⟨σ', ?_, hR'⟩
      rw [run]
      beta_reduce
      rw [e0]
      dsimp only
      rw [bind_ok e1]; rfl

/-! ## what a computation leaves alone, in every state -/

/-- The object `w` is not changed, whatever happens. -/
def Keeps (w : ℕ) {α : Type} (m : M α) : Prop := ∀ σ, (m σ).2 w = σ w

/-- No object is changed, whatever happens. -/
def Reads {α : Type} (m : M α) : Prop := ∀ σ, (m σ).2 = σ

/-- `invalid_argument` is not thrown. -/
def Quiet {α : Type} (m : M α) : Prop := ∀ σ, (m σ).1 ≠ .error (.thrown .invalidArgument)

/-- If `invalid_argument` is thrown, no object has changed. -/
def Clean {α : Type} (m : M α) : Prop := ∀ σ σ', m σ = (.error (.thrown .invalidArgument), σ') → σ' = σ

section
variable {α β : Type} {w : ℕ} {m : M α} {f : α → M β}

theorem Keeps.bind (h : Keeps w m) (hf : ∀ a, Keeps w (f a)) : Keeps w (m >>= f) := by
  intro σ
  rw [bind_app]
  have := h σ
  rcases hm : m σ with ⟨e | a, σ'⟩
  · rw [hm] at this; exact this
  · rw [hm] at this
    dsimp only at this ⊢
    rw [hf a σ', this]

theorem Reads.keeps (h : Reads m) : Keeps w m := fun σ => by rw [h σ]

theorem Quiet.bind (h : Quiet m) (hf : ∀ a, Quiet (f a)) : Quiet (m >>= f) := by
  intro σ
  rw [bind_app]
  have := h σ
  rcases hm : m σ with ⟨e | a, σ'⟩
  · rw [hm] at this
    dsimp only at this ⊢
    intro h; injection h with h; subst h; exact this rfl
  · exact hf a σ'

theorem Quiet.clean (h : Quiet m) : Clean m := fun σ σ' e => absurd (by rw [e]) (h σ)

theorem Reads.clean (h : Reads m) : Clean m := fun σ σ' e => by have := h σ; rw [e] at this; exact this

theorem Clean.bind (h : Reads m) (hf : ∀ a, Clean (f a)) : Clean (m >>= f) := by
  intro σ σ' e
  rw [bind_app] at e
  have := h σ
  rcases hm : m σ with ⟨e' | a, σ1⟩
  · rw [hm] at this e
    dsimp only at this e
    injection e with _ e; rw [← e, this]
  · rw [hm] at this e
    dsimp only at this e
    subst this
    exact hf a _ _ e

theorem Clean.bind_quiet (h : Clean m) (hf : ∀ a, Quiet (f a)) : Clean (m >>= f) := by
  intro σ σ' e
  rw [bind_app] at e
  rcases hm : m σ with ⟨e' | a, σ1⟩
  · rw [hm] at e
    dsimp only at e
    injection e with e1 e2
    injection e1 with e1
    subst e1; subst e2
    exact h σ σ1 hm
  · rw [hm] at e
    dsimp only at e
    exact absurd (by rw [e]) (hf a σ1)

end

theorem reads_get (x : ℕ) : Reads (get x) := fun σ => by
  unfold get; split <;> rfl

theorem quiet_get (x : ℕ) : Quiet (get x) := fun σ => by
  unfold get; split <;> simp

theorem reads_lift {α : Type} (r : Res α) : Reads (lift r) := fun σ => by
  unfold lift; split <;> rfl

theorem reads_stop {α : Type} (e : Stop) : Reads (stop e : M α) := fun _ => rfl

theorem reads_pure {α : Type} (a : α) : Reads (pure a : M α) := fun _ => rfl

theorem quiet_pure {α : Type} (a : α) : Quiet (pure a : M α) := fun σ => by rw [pure_app]; simp

theorem quiet_put (x : ℕ) (g : GSpline) : Quiet (put x g) := fun σ => by rw [put_app]; simp

theorem keeps_put {w x : ℕ} (g : GSpline) (h : w ≠ x) : Keeps w (put x g) := fun σ => update_ne σ _ h

theorem quiet_take (x : ℕ) : Quiet (take x) :=
  (quiet_get x).bind fun g => Quiet.bind (fun σ => by unfold clear; simp) fun _ => quiet_pure g

theorem keeps_take {w x : ℕ} (h : w ≠ x) : Keeps w (take x) :=
  (reads_get x).keeps.bind fun g => Keeps.bind (fun σ => update_ne σ _ h) fun _ => (reads_pure g).keeps

theorem quiet_rd {l : List ℝ} {i : ℕ} : Quiet (lift (rd l i)) := fun σ => by
  unfold rd lift
  rcases l[i]? with _ | v <;> simp

theorem quiet_coeff (x i : ℕ) : Quiet (coeff x i) := (quiet_get x).bind fun _ => quiet_rd

theorem keeps_coeff (w x i : ℕ) : Keeps w (coeff x i) := (reads_get x).keeps.bind fun _ => (reads_lift _).keeps

theorem quiet_set (x i : ℕ) (v : ℝ) : Quiet (setCoeff x i v) := (quiet_get x).bind fun g => by
  split
  · exact quiet_put _ _
  · intro σ; rw [stop_app]; simp

theorem keeps_set {w x : ℕ} (i : ℕ) (v : ℝ) (h : w ≠ x) : Keeps w (setCoeff x i v) := (reads_get x).keeps.bind fun g => by
  split
  · exact keeps_put _ h
  · exact (reads_stop _).keeps

theorem quiet_each {n : ℕ} {body : ℕ → M Unit} (h : ∀ i, Quiet (body i)) : Quiet (each n body) := by
  induction n with
  | zero => exact quiet_pure ()
  | succ n ih => exact ih.bind fun _ => h n

theorem keeps_each {w n : ℕ} {body : ℕ → M Unit} (h : ∀ i, Keeps w (body i)) : Keeps w (each n body) := by
  induction n with
  | zero => exact (reads_pure ()).keeps
  | succ n ih => exact ih.bind fun _ => h n

theorem quiet_zip (f : ℝ → ℝ → ℝ) (t x y : ℕ) : Quiet (zipInto f t x y) := (quiet_get x).bind fun a => (quiet_get y).bind fun b => by
  split
  · intro σ; rw [stop_app]; simp
  · exact quiet_each fun i => (quiet_coeff _ _).bind fun u => (quiet_coeff _ _).bind fun v => quiet_set _ _ _

theorem keeps_zip {w t : ℕ} (f : ℝ → ℝ → ℝ) (x y : ℕ) (h : w ≠ t) : Keeps w (zipInto f t x y) := (reads_get x).keeps.bind fun a => (reads_get y).keeps.bind fun b => by
  split
  · exact (reads_stop _).keeps
  · exact keeps_each fun i => (keeps_coeff _ _ _).bind fun u => (keeps_coeff _ _ _).bind fun v => keeps_set _ _ h

theorem quiet_mulInto (v s : ℕ) : Quiet (mulInto v s) := (quiet_get v).bind fun a => (quiet_get s).bind fun b =>
  quiet_each fun _ => quiet_each fun _ => (quiet_coeff _ _).bind fun u => (quiet_coeff _ _).bind fun v => quiet_set _ _ _

theorem keeps_mulInto {w v : ℕ} (s : ℕ) (h : w ≠ v) : Keeps w (mulInto v s) := (reads_get v).keeps.bind fun a => (reads_get s).keeps.bind fun b =>
  keeps_each fun _ => keeps_each fun _ => (keeps_coeff _ _ _).bind fun u => (keeps_coeff _ _ _).bind fun v => keeps_set _ _ h

theorem keeps_newFrom {w : ℕ} (rv : Bool) (x : ℕ) (h : ¬ (rv = true ∧ w = x)) : Keeps w (newFrom rv x) := by
  unfold newFrom
  cases rv
  · exact (reads_get x).keeps.bind fun g => (reads_lift _).keeps
  · exact keeps_take (by simpa using h)

theorem clean_newFrom (rv : Bool) (x : ℕ) : Clean (newFrom rv x) := by
  unfold newFrom
  cases rv
  · exact Clean.bind (reads_get x) fun g => (reads_lift _).clean
  · exact (quiet_take x).clean

theorem keeps_smul {w : ℕ} (k : ℝ) (rv : Bool) (x : ℕ) (h : ¬ (rv = true ∧ w = x)) : Keeps w (smul k rv x) := by
  unfold smul
  cases rv
  · exact (reads_get x).keeps.bind fun g => (reads_lift _).keeps
  · have h' : w ≠ x := by simpa using h
    exact Keeps.bind ((reads_get x).keeps.bind fun a => keeps_each fun i => (keeps_coeff _ _ _).bind fun u => keeps_set _ _ h') fun _ => keeps_take h'

theorem clean_smul (k : ℝ) (rv : Bool) (x : ℕ) : Clean (smul k rv x) := by
  unfold smul
  cases rv
  · exact Clean.bind (reads_get x) fun g => (reads_lift _).clean
  · exact (Quiet.bind ((quiet_get x).bind fun a => quiet_each fun i => (quiet_coeff _ _).bind fun u => quiet_set _ _ _) fun _ => quiet_take x).clean

theorem keeps_bin {w : ℕ} (m rx ry : Bool) (x y : ℕ) (hx : ¬ (rx = true ∧ w = x)) (hy : ¬ (ry = true ∧ w = y)) : Keeps w (bin m rx ry x y) :=
  (reads_get x).keeps.bind fun a => (reads_get y).keeps.bind fun b => by
    split
    · exact (reads_stop _).keeps
    · split
      · rename_i h
        have h' : w ≠ x := fun e => hx ⟨h, e⟩
        exact (keeps_zip _ _ _ h').bind fun _ => keeps_take h'
      · split
        · rename_i h
          have h' : w ≠ y := fun e => hy ⟨h, e⟩
          exact (keeps_zip _ _ _ h').bind fun _ => keeps_take h'
        · exact (reads_lift _).keeps.bind fun _ => (reads_lift _).keeps.bind fun _ => (reads_pure _).keeps

theorem clean_bin (m rx ry : Bool) (x y : ℕ) : Clean (bin m rx ry x y) :=
  Clean.bind (reads_get x) fun a => Clean.bind (reads_get y) fun b => by
    split
    · exact (reads_stop _).clean
    · split
      · exact ((quiet_zip _ _ _ _).bind fun _ => quiet_take _).clean
      · split
        · exact ((quiet_zip _ _ _ _).bind fun _ => quiet_take _).clean
        · exact Clean.bind (reads_lift _) fun _ => Clean.bind (reads_lift _) fun _ => (reads_pure _).clean

theorem keeps_inPlace {w x : ℕ} (m : Bool) (y : ℕ) (h : w ≠ x) : Keeps w (inPlace m x y) :=
  (reads_get x).keeps.bind fun a => (reads_get y).keeps.bind fun b => by
    split
    · exact (reads_stop _).keeps
    · exact keeps_zip _ _ _ h

theorem clean_inPlace (m : Bool) (x y : ℕ) : Clean (inPlace m x y) :=
  Clean.bind (reads_get x) fun a => Clean.bind (reads_get y) fun b => by
    split
    · exact (reads_stop _).clean
    · exact (quiet_zip _ _ _ _).clean

theorem keeps_mul {w : ℕ} (rx ry : Bool) (x y : ℕ) (hx : ¬ (rx = true ∧ w = x)) (hy : ¬ (ry = true ∧ w = y)) : Keeps w (mul rx ry x y) :=
  (reads_get x).keeps.bind fun a => (reads_get y).keeps.bind fun b => by
    split
    · exact (reads_stop _).keeps
    · split
      · exact (reads_stop _).keeps
      · split
        · exact (reads_stop _).keeps
        · dsimp only
          generalize (if b.codim ≠ 1 then y else x) = v
          split
          · rename_i h
            have h' : w ≠ v := by
              rcases h with ⟨h1, h2⟩ | ⟨h1, h2⟩
              · rw [h2]; exact fun e => hx ⟨h1, e⟩
              · rw [h2]; exact fun e => hy ⟨h1, e⟩
            exact (keeps_mulInto _ h').bind fun _ => keeps_take h'
          · exact (reads_lift _).keeps

theorem clean_mul (rx ry : Bool) (x y : ℕ) : Clean (mul rx ry x y) :=
  Clean.bind (reads_get x) fun a => Clean.bind (reads_get y) fun b => by
    split
    · exact (reads_stop _).clean
    · split
      · exact (reads_stop _).clean
      · split
        · exact (reads_stop _).clean
        · dsimp only
          generalize (if b.codim ≠ 1 then y else x) = v
          split
          · exact ((quiet_mulInto _ _).bind fun _ => quiet_take _).clean
          · exact (reads_lift _).clean

theorem keeps_assign {w x : ℕ} (ry : Bool) (y : ℕ) (hx : w ≠ x) (hy : ¬ (ry = true ∧ w = y)) : Keeps w (assign x ry y) := by
  unfold assign
  split
  · exact (reads_stop _).keeps
  · refine (reads_get x).keeps.bind fun a => (reads_get y).keeps.bind fun b => (reads_lift _).keeps.bind fun r => ?_
    split
    · rename_i h
      exact (keeps_take fun e => hy ⟨h, e⟩).bind fun _ => keeps_put _ hx
    · exact keeps_put _ hx

theorem clean_assign (x : ℕ) (ry : Bool) (y : ℕ) : Clean (assign x ry y) := by
  unfold assign
  split
  · exact (reads_stop _).clean
  · refine Clean.bind (reads_get x) fun a => Clean.bind (reads_get y) fun b => Clean.bind (reads_lift _) fun r => ?_
    split
    · exact ((quiet_take _).bind fun _ => quiet_put _ _).clean
    · exact (quiet_put _ _).clean

theorem keeps_stmt (s : Stmt) (w : ℕ) (h : ¬ Touches w s) : Keeps w s.run := by
  cases s with
  | new z dom codim n b co tau => exact (reads_lift _).keeps.bind fun _ => keeps_put _ h
  | init z rv x => simp only [Touches, not_or] at h; exact (keeps_newFrom _ _ h.2).bind fun _ => keeps_put _ h.1
  | bin m z rx x ry y => simp only [Touches, not_or] at h; exact (keeps_bin _ _ _ _ _ h.2.1 h.2.2).bind fun _ => keeps_put _ h.1
  | inPlace m x y => exact keeps_inPlace _ _ h
  | smul z k rv x => simp only [Touches, not_or] at h; exact (keeps_smul _ _ _ h.2).bind fun _ => keeps_put _ h.1
  | neg z rv x => simp only [Touches, not_or] at h; exact (keeps_smul _ _ _ h.2).bind fun _ => keeps_put _ h.1
  | mul z rx x ry y => simp only [Touches, not_or] at h; exact (keeps_mul _ _ _ _ h.2.1 h.2.2).bind fun _ => keeps_put _ h.1
  | assign x ry y => simp only [Touches, not_or] at h; exact keeps_assign _ _ h.1 h.2

theorem clean_stmt (s : Stmt) : Clean s.run := by
  cases s with
  | new z dom codim n b co tau => exact (reads_lift _).clean.bind_quiet fun _ => quiet_put _ _
  | init z rv x => exact (clean_newFrom _ _).bind_quiet fun _ => quiet_put _ _
  | bin m z rx x ry y => exact (clean_bin _ _ _ _ _).bind_quiet fun _ => quiet_put _ _
  | inPlace m x y => exact clean_inPlace _ _ _
  | smul z k rv x => exact (clean_smul _ _ _).bind_quiet fun _ => quiet_put _ _
  | neg z rv x => exact (clean_smul _ _ _).bind_quiet fun _ => quiet_put _ _
  | mul z rx x ry y => exact (clean_mul _ _ _ _).bind_quiet fun _ => quiet_put _ _
  | assign x ry y => exact clean_assign _ _ _

end GSplines.SplineObj
