import Verif.Model.RoundingInterp
import Verif.Proofs.RoundingEval
import Verif.Proofs.Residual

/-! # Convergence of the rounded evaluation of the derivatives of the basis functions -/

namespace GSplines.Rounded

open Nd Filter Topology Spec

/-- Loops over related states. -/
theorem forLoop_map {σ ρ : Type} (φ : σ → ρ) {f : ℕ → σ → σ} {g : ℕ → ρ → ρ} {a b : ℕ} (h : ∀ i s, a ≤ i → i < b → φ (f i s) = g i (φ s)) (s : σ) :
    φ (forLoop a b f s) = forLoop a b g (φ s) := by
  rcases Nat.le_total a b with hab | hab
  · induction b, hab using Nat.le_induction with
    | base => rw [forLoop_of_le le_rfl, forLoop_of_le le_rfl]
    | succ b hb ih =>
      rw [forLoop_succ hb, forLoop_succ hb, h b _ hb (by omega), ih fun i s h1 h2 => h i s h1 (by omega)]
  · rw [forLoop_of_le hab, forLoop_of_le hab]

theorem scale_conv (n : ℕ) (c : ℝ) (v : Vec) :
    ∃ z : Vec, ConvAt (fun u (q : ℝ × Vec) => scale u n q.1 q.2) (c, v) z ∧ (∀ k < n, z k = v k * c) ∧ ∀ k, n ≤ k → z k = v k := by
  have h := ConvAt.loop (a := 0) (b := n) (α := ℝ × Vec) (σ := Vec) (body := fun u i q (v : Vec) => do
      let p ← near u (v i * q.1)
      return setAt v i p) (exact := fun i v => setAt v i (v i * c)) (x := (c, v)) (s := v)
    fun i _ _ s => ConvAt.bind (ConvAt.near (by fun_prop)) ((ConvAt.pure (setAt_continuousAt (by fun_prop) (by fun_prop))).congr rfl)
  refine ⟨_, ConvAt.comp (x := (c, v)) (f := fun q : ℝ × Vec => (q, q.2)) h (by fun_prop), ?_⟩
  have := forLoop_ind (fun J (z : Vec) => (∀ k < J, z k = v k * c) ∧ ∀ k, J ≤ k → z k = v k) (Nat.zero_le n) (fun i v => setAt v i (v i * c)) v
    ⟨fun k hk => by omega, fun k _ => rfl⟩ fun i st _ _ hP => ⟨fun k hk => by
      unfold setAt
      split_ifs with e
      · rw [e, hP.2 i le_rfl]
      · exact hP.1 k (by omega), fun k hk => by
      unfold setAt
      rw [if_neg (by omega)]
      exact hP.2 k (by omega)⟩
  exact this

/-! ## Legendre -/

theorem legendreInner_conv (s : ℝ) (d i : ℕ) (buff next : Vec) :
    ConvAt (fun u (q : Vec × Vec) => legendreInner u s d q.1 i q.2) (buff, next) (Legendre.dInner s d buff i next) := by
  unfold legendreInner
  refine ConvAt.bind (ConvAt.near (by fun_prop)) ?_
  refine ConvAt.bind (ConvAt.near (by fun_prop)) ?_
  refine ConvAt.bind (ConvAt.near (by fun_prop)) ?_
  refine ConvAt.bind (ConvAt.near (by fun_prop)) ?_
  refine ConvAt.bind (ConvAt.quot (by fun_prop) (by fun_prop) (by positivity)) ?_
  refine ConvAt.bind (ConvAt.near (by fun_prop)) ?_
  refine ConvAt.bind (ConvAt.near (by fun_prop)) ?_
  refine ConvAt.bind (ConvAt.near (by fun_prop)) ?_
  exact (ConvAt.pure (setAt_continuousAt (by fun_prop) (by fun_prop))).congr rfl

/-- One step of the outer loop without rounding, on tuples. -/
noncomputable def outerT (dim : ℕ) (s tau : ℝ) (d : ℕ) (st : Vec × Vec × ℝ × ℝ) : Vec × Vec × ℝ × ℝ :=
  (forLoop d (dim - 1) (Legendre.dInner s d st.1) (setAt (setAt st.2.1 (d - 1) 0) d st.2.2.1),
    forLoop d (dim - 1) (Legendre.dInner s d st.1) (setAt (setAt st.2.1 (d - 1) 0) d st.2.2.1),
    (2 * (d : ℝ) + 1) / ((d : ℝ) + 1) * ((d : ℝ) + 1) * st.2.2.1, st.2.2.2 * (2 / tau))

theorem legendreOuter_conv (dim : ℕ) (s : ℝ) {tau : ℝ} (ht : tau ≠ 0) (d : ℕ) (st : Vec × Vec × ℝ × ℝ) :
    ConvAt (fun u (q : Unit × (Vec × Vec × ℝ × ℝ)) => legendreOuter u dim s tau d q.2) ((), st) (outerT dim s tau d st) := by
  have h := ConvAt.loop (a := d) (b := dim - 1) (α := Vec) (σ := Vec) (body := fun u i buff next => legendreInner u s d buff i next)
    (exact := Legendre.dInner s d st.1) (x := st.1) (s := setAt (setAt st.2.1 (d - 1) 0) d st.2.2.1) fun i _ _ next => legendreInner_conv s d i st.1 next
  have h' := ConvAt.comp (x := ((), st)) (f := fun q : Unit × (Vec × Vec × ℝ × ℝ) => (q.2.1, setAt (setAt q.2.2.1 (d - 1) 0) d q.2.2.2.1)) h
    (ContinuousAt.prodMk (by fun_prop) (setAt_continuousAt (setAt_continuousAt (by fun_prop) (by fun_prop)) (by fun_prop)))
  unfold legendreOuter
  refine ConvAt.bind h' ?_
  refine ConvAt.bind (ConvAt.quot (by fun_prop) (by fun_prop) (by positivity)) ?_
  refine ConvAt.bind (ConvAt.near (by fun_prop)) ?_
  refine ConvAt.bind (ConvAt.near (by fun_prop)) ?_
  refine ConvAt.bind (ConvAt.quot (by fun_prop) (by fun_prop) ht) ?_
  refine ConvAt.bind (ConvAt.near (by fun_prop)) ?_
  exact (ConvAt.pure (by fun_prop)).congr rfl

theorem legendreDeriv_conv {dim deg : ℕ} (h2 : 2 ≤ dim) (hd : deg < dim) (s : ℝ) {tau : ℝ} (ht : tau ≠ 0) :
    ∃ z : Vec, ConvAt (fun u (_ : Unit) => legendreDeriv u dim s tau deg) () z ∧ ∀ k < dim, z k = (Basis.legendre dim).ev s tau deg k := by
  have h1 : ConvAt (fun u (_ : Unit) => legendre u dim s) () (Legendre.values dim s) := ConvAt.comp (f := fun _ : Unit => s) (legendre_conv h2 s) continuousAt_const
  have h3 := ConvAt.loop (a := 1) (b := deg + 1) (α := Unit) (body := fun u d _ st => legendreOuter u dim s tau d st) (exact := outerT dim s tau) (x := ())
    (s := (Legendre.values dim s, (fun _ => 0), 1, 1)) fun d _ _ st => legendreOuter_conv dim s ht d st
  have e := forLoop_map (a := 1) (b := deg + 1) (fun st : Legendre.DState => (st.buff, st.next, st.aux, st.mult)) (f := Legendre.dOuter dim s tau) (g := outerT dim s tau)
    (fun i st _ _ => rfl) ⟨Legendre.values dim s, fun _ => 0, 1, 1⟩
  simp only at e
  obtain ⟨z, hz, hz1, -⟩ := scale_conv dim (forLoop 1 (deg + 1) (Legendre.dOuter dim s tau) ⟨Legendre.values dim s, fun _ => 0, 1, 1⟩).mult
    (forLoop 1 (deg + 1) (Legendre.dOuter dim s tau) ⟨Legendre.values dim s, fun _ => 0, 1, 1⟩).buff
  refine ⟨z, ?_, fun k hk => ?_⟩
  · unfold legendreDeriv
    simp only [if_neg (show ¬ (dim < 2 ∨ dim ≤ deg) by omega)]
    refine ConvAt.bind h1 (ConvAt.bind (ConvAt.comp (x := ((), Legendre.values dim s)) (f := fun q : Unit × Vec => ((), (q.2, (fun _ => (0 : ℝ)), (1 : ℝ), (1 : ℝ)))) h3
      (by fun_prop)) ?_)
    rw [← e]
    refine ConvAt.comp (F := fun u (q : ℝ × Vec) => scale u dim q.1 q.2) (f := fun q : (Unit × Vec) × (Vec × Vec × ℝ × ℝ) => (q.2.2.2.2, q.2.1)) ?_ (by fun_prop)
    exact hz
  · rw [hz1 k hk]
    unfold Basis.ev
    simp only [Basis.evalDerivOnWindow, Legendre.evalDerivOnWindow, if_neg (show ¬ (dim < 2 ∨ dim ≤ deg) by omega)]

/-! ## Basis0101 -/

theorem b0101Step_conv (k : ℝ) (v : Vec) :
    ConvAt (fun u (q : ℝ × Vec) => b0101Step u q.1 q.2) (k, v) (fun i => B0101.dstep v i * (k * 2)) := by
  unfold b0101Step
  refine ConvAt.bind (ConvAt.near (by fun_prop)) ?_
  refine ConvAt.bind (ConvAt.near (by fun_prop)) ?_
  refine ConvAt.bind (ConvAt.near (by fun_prop)) ?_
  refine ConvAt.bind (ConvAt.near (by fun_prop)) ?_
  refine ConvAt.bind (ConvAt.near (by fun_prop)) ?_
  obtain ⟨z, hz, hz1, hz2⟩ := scale_conv 6 (k * 2) (B0101.dstep v)
  have e : z = fun i => B0101.dstep v i * (k * 2) := by
    funext i
    by_cases hi : i < 6
    · exact hz1 i hi
    · rw [hz2 i (by omega)]
      have : B0101.dstep v i = 0 := by
        unfold B0101.dstep
        obtain ⟨j, rfl⟩ : ∃ j, i = j + 6 := ⟨i - 6, by omega⟩
        rfl
      rw [this, zero_mul]
  rw [← e]
  refine ConvAt.comp (F := fun u (q : ℝ × Vec) => scale u 6 q.1 q.2)
    (f := fun q : (((((ℝ × Vec) × ℝ) × ℝ) × ℝ) × ℝ) × ℝ => (q.2, B0101.vec6 q.1.1.1.1.2 q.1.1.1.2 q.1.1.2 q.1.2 (q.1.1.1.1.1.2 5) 0)) ?_ (ContinuousAt.prodMk (by fun_prop) (vec6_continuousAt (by fun_prop) (by fun_prop) (by fun_prop) (by fun_prop) (by fun_prop) (by fun_prop)))
  exact hz

theorem b0101Deriv_conv {a : ℝ} (h1 : a < 1) (s tau : ℝ) (deg : ℕ) :
    ConvAt (fun u (_ : Unit) => b0101Deriv u a s tau deg) () (B0101.evalDerivOnWindow a s tau deg) := by
  have hd : (0 : ℝ) < 1 - a := by linarith
  unfold b0101Deriv
  refine ConvAt.bind (ConvAt.near (by fun_prop)) ?_
  refine ConvAt.bind (ConvAt.near (by fun_prop)) ?_
  refine ConvAt.bind (ConvAt.near (by fun_prop)) ?_
  refine ConvAt.bind (ConvAt.near (by fun_prop)) ?_
  refine ConvAt.bind (ConvAt.near (by fun_prop)) ?_
  refine ConvAt.bind (ConvAt.near (ContinuousAt.rpow (by fun_prop) (by fun_prop) (.inl (ne_of_gt hd)))) ?_
  refine ConvAt.bind (ConvAt.quot (by fun_prop) (by fun_prop) (ne_of_gt (Real.rpow_pos_of_pos hd _))) ?_
  refine ConvAt.bind (ConvAt.near (by fun_prop)) ?_
  refine ConvAt.bind (ConvAt.near (by fun_prop)) ?_
  refine ConvAt.bind (ConvAt.near (by fun_prop)) ?_
  refine ConvAt.bind (ConvAt.near (by fun_prop)) ?_
  refine ConvAt.bind (ConvAt.near (by fun_prop)) ?_
  refine ConvAt.bind (ConvAt.near (by fun_prop)) ?_
  refine ConvAt.bind (ConvAt.near (by fun_prop)) ?_
  refine ConvAt.bind (ConvAt.quot (by fun_prop) (by fun_prop) (Real.exp_ne_zero _)) ?_
  refine ConvAt.bind (ConvAt.quot (by fun_prop) (by fun_prop) (Real.exp_ne_zero _)) ?_
  have h := ConvAt.loop (a := 1) (b := deg + 1) (α := ℝ) (σ := Vec) (body := fun u _ k v => b0101Step u k v) (exact := fun _ v i => B0101.dstep v i * (B0101.kOf a * 2))
    (x := B0101.kOf a) (s := B0101.evalOnWindow a s tau) fun _ _ _ v => b0101Step_conv _ v
  refine ConvAt.comp (F := fun u (q : ℝ × Vec) => Nd.loop 1 (deg + 1) (fun _ v => b0101Step u q.1 v) q.2)
    (f := fun q : (((((((((((((((Unit × ℝ) × ℝ) × ℝ) × ℝ) × ℝ) × ℝ) × ℝ) × ℝ) × ℝ) × ℝ) × ℝ) × ℝ) × ℝ) × ℝ) × ℝ) × ℝ =>
      (q.1.1.1.1.1.1.1.1.1.2, B0101.vec6 q.1.1.1.2 q.1.1.2 q.1.2 q.2 q.1.1.1.1.1.1.1.2 1)) ?_
    (ContinuousAt.prodMk (by fun_prop) (vec6_continuousAt (by fun_prop) (by fun_prop) (by fun_prop) (by fun_prop) (by fun_prop) (by fun_prop)))
  exact h

/-! ## Lagrange -/

theorem setAt2_continuousAt {α : Type} [TopologicalSpace α] {i j : ℕ} {f : α → Mat} {g : α → ℝ} {x : α} (hf : ContinuousAt f x) (hg : ContinuousAt g x) :
    ContinuousAt (fun a => setAt2 (f a) i j (g a)) x := by
  refine continuousAt_pi.mpr fun a => continuousAt_pi.mpr fun b => ?_
  unfold setAt2
  by_cases h : a = i ∧ b = j
  · simpa only [if_pos h] using hg
  · simp only [if_neg h]
    exact (continuousAt_pi.mp (continuousAt_pi.mp hf a) b)

/-- The tail of both kinds of entries: write the entry and update the diagonal. -/
theorem entry_tail {α : Type} [TopologicalSpace α] {i j : ℕ} {m : α → Mat} {e : α → ℝ} {x : α} (hm : ContinuousAt m x) (he : ContinuousAt e x) :
    ConvAt (fun u a => do
      let s ← near u (setAt2 (m a) i j (e a) i i + -(setAt2 (m a) i j (e a) i j))
      return setAt2 (setAt2 (m a) i j (e a)) i i s) x
      (setAt2 (setAt2 (m x) i j (e x)) i i (setAt2 (m x) i j (e x) i i + -(setAt2 (m x) i j (e x) i j))) := by
  have h1 : ContinuousAt (fun a => setAt2 (m a) i j (e a)) x := setAt2_continuousAt hm he
  have h2 : ∀ k, ContinuousAt (fun a => setAt2 (m a) i j (e a) i k) x := fun k => continuousAt_pi.mp (continuousAt_pi.mp h1 i) k
  refine ConvAt.bind (ConvAt.near ((h2 i).add (h2 j).neg)) ?_
  refine (ConvAt.pure (f := fun q : α × ℝ => setAt2 (setAt2 (m q.1) i j (e q.1)) i i q.2) (setAt2_continuousAt ?_ (by fun_prop))).congr rfl
  exact ContinuousAt.comp (f := Prod.fst) (g := fun a => setAt2 (m a) i j (e a)) h1 continuousAt_fst

theorem dmatEntry_conv (x : Vec) {n : ℕ} (hx : Lagrange.Distinct n x) {bw : Vec} (hb : ∀ k < n, bw k ≠ 0) {i j : ℕ} (hi : i < n) (hj : j < n) (m : Mat) :
    ConvAt (fun u (q : Vec × Mat) => dmatEntry u x q.1 i j q.2) (bw, m)
      (if i ≠ j then setAt2 (setAt2 m i j (bw j / bw i * 1 / (x i - x j))) i i
          (setAt2 m i j (bw j / bw i * 1 / (x i - x j)) i i + -(setAt2 m i j (bw j / bw i * 1 / (x i - x j)) i j)) else m) := by
  unfold dmatEntry
  by_cases h : i ≠ j
  · simp only [if_pos h]
    refine ConvAt.bind (ConvAt.quot (by fun_prop) (by fun_prop) (hb i hi)) ?_
    refine ConvAt.bind (ConvAt.near (by fun_prop)) ?_
    refine ConvAt.bind (ConvAt.near (by fun_prop)) ?_
    refine ConvAt.bind (ConvAt.quot (by fun_prop) (by fun_prop) (sub_ne_zero.mpr (hx.ne hi hj h))) ?_
    refine (entry_tail (m := fun q : ((((Vec × Mat) × ℝ) × ℝ) × ℝ) × ℝ => q.1.1.1.1.2) (e := fun q => q.2) (by fun_prop) (by fun_prop)).congr ?_
    rfl
  · simp only [if_neg h]
    exact ConvAt.pure (f := fun q : Vec × Mat => q.2) (by fun_prop)

theorem dmatEntryK_conv (x : Vec) {n : ℕ} (hx : Lagrange.Distinct n x) {bw : Vec} (hb : ∀ k < n, bw k ≠ 0) (k : ℕ) (buff : Mat) {i j : ℕ} (hi : i < n) (hj : j < n)
    (m : Mat) : ConvAt (fun u (q : (Vec × Mat) × Mat) => dmatEntryK u x q.1.1 k q.1.2 i j q.2) ((bw, buff), m)
      (if i ≠ j then setAt2 (setAt2 m i j ((k : ℝ) / (x i - x j) * (bw j / bw i * buff i i - buff i j))) i i
          (setAt2 m i j ((k : ℝ) / (x i - x j) * (bw j / bw i * buff i i - buff i j)) i i +
            -(setAt2 m i j ((k : ℝ) / (x i - x j) * (bw j / bw i * buff i i - buff i j)) i j)) else m) := by
  unfold dmatEntryK
  by_cases h : i ≠ j
  · simp only [if_pos h]
    refine ConvAt.bind (ConvAt.near (by fun_prop)) ?_
    refine ConvAt.bind (ConvAt.quot (by fun_prop) (by fun_prop) (sub_ne_zero.mpr (hx.ne hi hj h))) ?_
    refine ConvAt.bind (ConvAt.quot (by fun_prop) (by fun_prop) (hb i hi)) ?_
    refine ConvAt.bind (ConvAt.near (by fun_prop)) ?_
    refine ConvAt.bind (ConvAt.near (by fun_prop)) ?_
    refine ConvAt.bind (ConvAt.near (by fun_prop)) ?_
    refine (entry_tail (m := fun q : (((((((Vec × Mat) × Mat) × ℝ) × ℝ) × ℝ) × ℝ) × ℝ) × ℝ => q.1.1.1.1.1.1.2) (e := fun q => q.2) (by fun_prop) (by fun_prop)).congr ?_
    rfl
  · simp only [if_neg h]
    exact ConvAt.pure (f := fun q : (Vec × Mat) × Mat => q.2) (by fun_prop)

theorem forLoop_congr {σ : Type} {f g : ℕ → σ → σ} {a b : ℕ} (h : ∀ i s, a ≤ i → i < b → f i s = g i s) (s : σ) : forLoop a b f s = forLoop a b g s :=
  forLoop_map (φ := fun s => s) h s

theorem exactW_ne {n : ℕ} {x : Vec} (h : Lagrange.Distinct n x) : ∀ k < n, exactW n x k ≠ 0 := fun k hk => by
  rw [exactW_eq hk]
  exact Lagrange.baryWeights_ne_zero h hk

theorem dmat1_conv {α : Type} [TopologicalSpace α] {n : ℕ} {x : Vec} (h : Lagrange.Distinct n x) (a : α) :
    ConvAt (fun u (_ : α) => dmat1 u n x) a (Lagrange.dmat1 n x) := by
  have hb := exactW_ne h
  unfold dmat1
  refine ConvAt.bind (baryWeights_conv h a) ?_
  have h1 := ConvAt.loop (a := 0) (b := n) (α := Vec) (σ := Mat) (body := fun u i bw (m : Mat) => Nd.loop 0 n (fun j m => dmatEntry u x bw i j m) (setAt2 m i i 0))
    (exact := Lagrange.dmatRow n x (Lagrange.baryWeights n x)) (x := exactW n x) (s := Mat.zero) fun i _ hi m => by
      have h2 := ConvAt.loop (a := 0) (b := n) (α := Vec) (σ := Mat) (body := fun u j bw m => dmatEntry u x bw i j m) (exact := fun j m =>
          if i ≠ j then setAt2 (setAt2 m i j (exactW n x j / exactW n x i * 1 / (x i - x j))) i i
            (setAt2 m i j (exactW n x j / exactW n x i * 1 / (x i - x j)) i i + -(setAt2 m i j (exactW n x j / exactW n x i * 1 / (x i - x j)) i j)) else m)
        (x := exactW n x) (s := setAt2 m i i 0) fun j _ hj m => dmatEntry_conv x h hb hi hj m
      have h3 := ConvAt.comp (x := (exactW n x, m)) (f := fun q : Vec × Mat => (q.1, setAt2 q.2 i i 0)) h2
        (ContinuousAt.prodMk (by fun_prop) (setAt2_continuousAt (by fun_prop) (by fun_prop)))
      refine h3.congr ?_
      unfold Lagrange.dmatRow
      exact forLoop_congr (fun j m _ hj => by rw [exactW_eq hi, exactW_eq hj]) _
  exact ConvAt.comp (x := (a, exactW n x)) (f := fun q : α × Vec => (q.2, Mat.zero)) h1 (by fun_prop)

theorem dmat_conv {α : Type} [TopologicalSpace α] {n : ℕ} {x : Vec} (h : Lagrange.Distinct n x) (deg : ℕ) (a : α) :
    ConvAt (fun u (_ : α) => dmat u n x deg) a (Lagrange.dmat n x deg) := by
  have hb := exactW_ne h
  unfold dmat Lagrange.dmat
  by_cases h0 : deg = 0
  · simp only [if_pos h0]
    exact ConvAt.pure (f := fun _ : α => Mat.id) continuousAt_const
  · simp only [if_neg h0]
    by_cases h1 : deg = 1
    · simp only [if_pos h1]
      exact dmat1_conv h a
    · simp only [if_neg h1]
      refine ConvAt.bind (dmat1_conv h a) (ConvAt.bind (dmat1_conv h _) (ConvAt.bind (baryWeights_conv h _) ?_))
      have h2 := ConvAt.loop (a := 2) (b := deg + 1) (α := Vec) (σ := Mat × Mat) (body := fun u k bw (st : Mat × Mat) => do
          let r ← Nd.loop 0 n (fun i (m : Mat) => Nd.loop 0 n (fun j m => dmatEntryK u x bw k st.2 i j m) (setAt2 m i i 0)) st.1
          return (r, r)) (exact := fun k st => (forLoop 0 n (Lagrange.dmatRowK n x (Lagrange.baryWeights n x) k st.2) st.1,
            forLoop 0 n (Lagrange.dmatRowK n x (Lagrange.baryWeights n x) k st.2) st.1)) (x := exactW n x) (s := (Lagrange.dmat1 n x, Lagrange.dmat1 n x)) fun k _ _ st => by
          have h3 := ConvAt.loop (a := 0) (b := n) (α := Vec × Mat) (σ := Mat)
            (body := fun u i q (m : Mat) => Nd.loop 0 n (fun j m => dmatEntryK u x q.1 k q.2 i j m) (setAt2 m i i 0))
            (exact := Lagrange.dmatRowK n x (Lagrange.baryWeights n x) k st.2) (x := (exactW n x, st.2)) (s := st.1) fun i _ hi m => by
              have h4 := ConvAt.loop (a := 0) (b := n) (α := Vec × Mat) (σ := Mat) (body := fun u j q m => dmatEntryK u x q.1 k q.2 i j m) (exact := fun j m =>
                  if i ≠ j then setAt2 (setAt2 m i j ((k : ℝ) / (x i - x j) * (exactW n x j / exactW n x i * st.2 i i - st.2 i j))) i i
                    (setAt2 m i j ((k : ℝ) / (x i - x j) * (exactW n x j / exactW n x i * st.2 i i - st.2 i j)) i i +
                      -(setAt2 m i j ((k : ℝ) / (x i - x j) * (exactW n x j / exactW n x i * st.2 i i - st.2 i j)) i j)) else m)
                (x := (exactW n x, st.2)) (s := setAt2 m i i 0) fun j _ hj m => dmatEntryK_conv x h hb k st.2 hi hj m
              have h5 := ConvAt.comp (x := ((exactW n x, st.2), m)) (f := fun q : (Vec × Mat) × Mat => (q.1, setAt2 q.2 i i 0)) h4
                (ContinuousAt.prodMk (by fun_prop) (setAt2_continuousAt (by fun_prop) (by fun_prop)))
              refine h5.congr ?_
              unfold Lagrange.dmatRowK
              exact forLoop_congr (fun j m _ hj => by rw [exactW_eq hi, exactW_eq hj]) _
          refine ConvAt.bind (ConvAt.comp (x := (exactW n x, st)) (f := fun q : Vec × (Mat × Mat) => ((q.1, q.2.2), q.2.1)) h3 (by fun_prop)) ?_
          exact (ConvAt.pure (f := fun q : (Vec × (Mat × Mat)) × Mat => (q.2, q.2)) (by fun_prop)).congr rfl
      refine ConvAt.bind (ConvAt.comp (x := (((a, Lagrange.dmat1 n x), Lagrange.dmat1 n x), exactW n x))
        (f := fun q : ((α × Mat) × Mat) × Vec => (q.2, (q.1.1.2, q.1.2))) h2 (by fun_prop)) ?_
      exact (ConvAt.pure (f := fun q : (((α × Mat) × Mat) × Vec) × (Mat × Mat) => q.2.1) (by fun_prop)).congr rfl

/-- The scalar product of two vectors that are both computed. -/
theorem dot2_conv (n : ℕ) (a b : Vec) :
    ConvAt (fun u (q : Vec × Vec) => dot u ((List.range n).map q.1) ((List.range n).map q.2)) (a, b) (Vec.dot n a b) := by
  have e : ∀ a b : Vec, ∀ k < n, vecOf (List.zipWith (· * ·) ((List.range n).map a) ((List.range n).map b)) k = a k * b k := by
    intro a b k hk
    unfold vecOf
    rw [List.getD_eq_getElem?_getD, List.getElem?_eq_getElem (by simp; omega)]
    simp
  have h := ConvAt.bind (F := fun u (q : Vec × Vec) => nears u n fun k => q.1 k * q.2 k) (G := fun u _ v => Nd.sum u ((List.range n).map v)) (x := (a, b))
    (ConvAt.nears (f := fun (q : Vec × Vec) k => q.1 k * q.2 k) fun k _ => by fun_prop)
    (ConvAt.sum (n := n) (f := fun k (q : (Vec × Vec) × Vec) => q.2 k) fun k _ => by fun_prop)
  have h' := h.congr (z' := Vec.dot n a b) (by
    unfold Vec.dot
    exact Finset.sum_congr rfl fun k hk => if_pos (Finset.mem_range.mp hk))
  intro U hU
  filter_upwards [h' U hU] with q hq r hr
  refine hq r ?_
  rcases dot_sub (n := n) (by simp) hr with ⟨e', ⟨v, hv, -⟩, rfl⟩ | ⟨v, ⟨v', hv, h1, h2⟩, h3⟩
  · cases hv
  · cases hv
    exact .inr ⟨v, ⟨v, rfl, fun k hk => by have := h1 k hk; rwa [e q.2.1 q.2.2 k hk] at this, h2⟩, h3⟩

theorem lagrangeDeriv_conv {n : ℕ} {x : Vec} (h : Props.Separated n x) {s : ℝ} (hs : ∀ j < n, s = x j ∨ tol9 * (1 + |s|) < |s - x j|) {tau : ℝ} (ht : tau ≠ 0)
    (hc : Props.Clean n x s) (deg : ℕ) :
    ∃ v : Vec, ConvAt (fun u (w : Vec) => lagrangeDeriv u n x w s tau deg) (exactW n x) v ∧ ∀ k < n, v k = Lagrange.evalDerivOnWindow n x s tau deg k := by
  obtain ⟨v, hv, hv'⟩ := lagrange_conv h.distinct hs
  have hv2 := ConvAt.comp (x := exactW n x) (f := fun w : Vec => (s, w)) hv (by fun_prop)
  have hval := Props.C26_lagrange_eval n x h s tau hc
  unfold lagrangeDeriv Lagrange.evalDerivOnWindow Lagrange.derivMatrixImpl
  by_cases hd : deg = 0
  · simp only [if_pos hd]
    exact ⟨v, ConvAt.bind hv2 (ConvAt.pure (f := fun q : Vec × Vec => q.2) (by fun_prop)), fun k hk => by rw [hv' k hk, hval k hk]⟩
  · simp only [if_neg hd]
    have hl := ConvAt.loop (a := 0) (b := n) (α := (Vec × ℝ) × Mat) (σ := Vec) (body := fun u i q (r : Vec) => do
        let a ← dot u ((List.range n).map fun k => q.2 k i) ((List.range n).map q.1.1)
        let p ← near u (a * q.1.2)
        return setAt r i p) (exact := fun i r => setAt r i (Vec.dot n (fun k => Lagrange.dmat n x deg k i) v * (2 / tau) ^ deg))
      (x := ((v, (2 / tau) ^ deg), Lagrange.dmat n x deg)) (s := fun _ => 0) fun i _ hi r => by
        refine ConvAt.bind (ConvAt.comp (F := fun u (q : Vec × Vec) => dot u ((List.range n).map q.1) ((List.range n).map q.2))
          (f := fun q : ((Vec × ℝ) × Mat) × Vec => ((fun k => q.1.2 k i), q.1.1.1)) (dot2_conv n _ _) (by fun_prop)) ?_
        refine ConvAt.bind (ConvAt.near (by fun_prop)) ?_
        exact ConvAt.pure (f := fun q : (((((Vec × ℝ) × Mat) × Vec) × ℝ) × ℝ) => setAt q.1.1.2 i q.2) (setAt_continuousAt (by fun_prop) (by fun_prop))
    refine ⟨_, ConvAt.bind hv2 (ConvAt.bind (ConvAt.quot (f := fun _ => (2 : ℝ)) (g := fun _ => tau) (by fun_prop) (by fun_prop) ht)
      (ConvAt.bind (ConvAt.near (by fun_prop)) (ConvAt.bind (dmat_conv h.distinct deg _)
        (ConvAt.comp (x := ((((exactW n x, v), 2 / tau), (2 / tau) ^ deg), Lagrange.dmat n x deg))
          (f := fun q : (((Vec × Vec) × ℝ) × ℝ) × Mat => (((q.1.1.1.2, q.1.2), q.2), fun _ => (0 : ℝ))) hl (by fun_prop))))), fun k hk => ?_⟩
    rw [fill_loop (f := fun i => Vec.dot n (fun k => Lagrange.dmat n x deg k i) v * (2 / tau) ^ deg) hk]
    congr 1
    unfold Vec.dot Mat.mulVec Mat.tr
    exact Finset.sum_congr rfl fun j hj => by rw [hv' j (Finset.mem_range.mp hj), hval j (Finset.mem_range.mp hj)]

/-- The derivatives of the basis with rounding tend to the exact ones. -/
theorem evalDeriv_conv {b : Basis} (hb : b.Valid) {s tau : ℝ} (ht : tau ≠ 0) {deg : ℕ} (hd : b.OrderOk deg) (hc : Clear b s) (hc' : b.CleanAt s) :
    ∃ z : Vec, ConvAt (fun u (_ : Unit) => evalDerivOnWindow u b s tau deg) () z ∧ ∀ k < b.dim, z k = b.ev s tau deg k := by
  cases b with
  | legendre d => exact legendreDeriv_conv hb hd s ht
  | b0101 a => exact ⟨_, b0101Deriv_conv hb.2 s tau deg, fun k _ => by rw [Basis.ev_of (b := .b0101 a) rfl]⟩
  | lagrange x =>
    have hb' : Props.Separated x.length (vecOf x) := hb
    obtain ⟨v, hv, hv'⟩ := lagrangeDeriv_conv hb' (s := s) (fun j hj => by
      refine hc (vecOf x j) ?_
      unfold vecOf
      rw [List.getD_eq_getElem?_getD, List.getElem?_eq_getElem hj]
      exact List.getElem_mem hj) ht hc' deg
    exact ⟨v, ConvAt.bind (baryWeights_conv hb'.distinct _) (ConvAt.comp (x := ((), exactW x.length (vecOf x))) (f := fun q : Unit × Vec => q.2) hv (by fun_prop)),
      fun k hk => by rw [Basis.ev_of (b := .lagrange x) rfl, hv' k hk]⟩

theorem evalValue_conv {b : Basis} (hb : b.Valid) {s tau : ℝ} (hc : Clear b s) (hc' : b.CleanAt s) (ht : tau ≠ 0) :
    ∃ z : Vec, ConvAt (fun u (_ : Unit) => evalOnWindow u b s tau) () z ∧ ∃ v, b.evalOnWindow s tau = .ok v ∧ ∀ k < b.dim, z k = v k := by
  have e : window tau (tau * (s + 1) / 2) = s := by
    unfold window
    field_simp
    ring
  obtain ⟨z, h1, h2⟩ := evalOnWindow_conv hb tau (tau * (s + 1) / 2) (by rw [e]; exact hc)
  obtain ⟨v, h3, h4⟩ := Basis.evalOnWindow_spec hb tau (tau * (s + 1) / 2) (by rw [e]; exact hc')
  rw [e] at h1 h3
  exact ⟨z, ConvAt.comp (f := fun _ : Unit => s) h1 continuousAt_const, v, h3, fun k hk => by rw [h2 k hk, h4 k hk]⟩

end GSplines.Rounded
