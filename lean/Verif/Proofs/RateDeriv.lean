import Verif.Proofs.RateSpline
import Verif.Proofs.RoundingDeriv

/-! # Derivatives of the basis functions: errors proportional to the rounding errors -/

namespace GSplines.Rounded

open Nd Filter Topology Spec

theorem scale_rate (n : ℕ) (c : ℝ) (v : Vec) :
    ∃ z : Vec, RateAt (fun u (q : ℝ × Vec) => scale u n q.1 q.2) (c, v) z ∧ (∀ k < n, z k = v k * c) ∧ ∀ k, n ≤ k → z k = v k := by
  have h := RateAt.loop (a := 0) (b := n) (α := ℝ × Vec) (σ := Vec) (body := fun u i q (v : Vec) => do
      let p ← near u (v i * q.1)
      return setAt v i p) (exact := fun i v => setAt v i (v i * c)) (x := (c, v)) (s := v)
    fun i _ _ s => RateAt.bind (RateAt.near (by fun_prop)) ((RateAt.pure (LLip.setAt (by fun_prop) (by fun_prop))).congr rfl)
  refine ⟨_, RateAt.comp (x := (c, v)) (f := fun q : ℝ × Vec => (q, q.2)) h (by fun_prop), ?_⟩
  have := forLoop_ind (fun J (z : Vec) => (∀ k < J, z k = v k * c) ∧ ∀ k, J ≤ k → z k = v k) (Nat.zero_le n) (fun i v => setAt v i (v i * c)) v
    ⟨fun k hk => by omega, fun k _ => rfl⟩ fun i st _ _ hP => ⟨fun k hk => by
      unfold setAt
      split_ifs with e
      · rw [e, hP.2 i le_rfl]
      · exact hP.1 k (by omega), fun k hk => by
      unfold setAt
      rw [if_neg (by omega)]
      exact hP.2 k (by omega)⟩
  exact this

/-! ## Legendre -/

theorem legendreInner_rate (s : ℝ) (d i : ℕ) (buff next : Vec) :
    RateAt (fun u (q : Vec × Vec) => legendreInner u s d q.1 i q.2) (buff, next) (Legendre.dInner s d buff i next) := by
  unfold legendreInner
  refine RateAt.bind (RateAt.near (by fun_prop)) ?_
  refine RateAt.bind (RateAt.near (by fun_prop)) ?_
  refine RateAt.bind (RateAt.near (by fun_prop)) ?_
  refine RateAt.bind (RateAt.near (by fun_prop)) ?_
  refine RateAt.bind (RateAt.quot (by fun_prop) (by fun_prop) (by positivity)) ?_
  refine RateAt.bind (RateAt.near (by fun_prop)) ?_
  refine RateAt.bind (RateAt.near (by fun_prop)) ?_
  refine RateAt.bind (RateAt.near (by fun_prop)) ?_
  exact (RateAt.pure (LLip.setAt (by fun_prop) (by fun_prop))).congr rfl

theorem legendreOuter_rate (dim : ℕ) (s : ℝ) {tau : ℝ} (ht : tau ≠ 0) (d : ℕ) (st : Vec × Vec × ℝ × ℝ) :
    RateAt (fun u (q : Unit × (Vec × Vec × ℝ × ℝ)) => legendreOuter u dim s tau d q.2) ((), st) (outerT dim s tau d st) := by
  have h := RateAt.loop (a := d) (b := dim - 1) (α := Vec) (σ := Vec) (body := fun u i buff next => legendreInner u s d buff i next)
    (exact := Legendre.dInner s d st.1) (x := st.1) (s := setAt (setAt st.2.1 (d - 1) 0) d st.2.2.1) fun i _ _ next => legendreInner_rate s d i st.1 next
  have h' := RateAt.comp (x := ((), st)) (f := fun q : Unit × (Vec × Vec × ℝ × ℝ) => (q.2.1, setAt (setAt q.2.2.1 (d - 1) 0) d q.2.2.2.1)) h
    (LLip.prodMk (by fun_prop) (LLip.setAt (LLip.setAt (by fun_prop) (by fun_prop)) (by fun_prop)))
  unfold legendreOuter
  refine RateAt.bind h' ?_
  refine RateAt.bind (RateAt.quot (by fun_prop) (by fun_prop) (by positivity)) ?_
  refine RateAt.bind (RateAt.near (by fun_prop)) ?_
  refine RateAt.bind (RateAt.near (by fun_prop)) ?_
  refine RateAt.bind (RateAt.quot (by fun_prop) (by fun_prop) ht) ?_
  refine RateAt.bind (RateAt.near (by fun_prop)) ?_
  exact (RateAt.pure (by fun_prop)).congr rfl

theorem legendreDeriv_rate {dim deg : ℕ} (h2 : 2 ≤ dim) (hd : deg < dim) (s : ℝ) {tau : ℝ} (ht : tau ≠ 0) :
    ∃ z : Vec, RateAt (fun u (_ : Unit) => legendreDeriv u dim s tau deg) () z ∧ ∀ k < dim, z k = (Basis.legendre dim).ev s tau deg k := by
  have h1 : RateAt (fun u (_ : Unit) => legendre u dim s) () (Legendre.values dim s) := RateAt.comp (f := fun _ : Unit => s) (legendre_rate h2 s) (LLip.const _ _)
  have h3 := RateAt.loop (a := 1) (b := deg + 1) (α := Unit) (body := fun u d _ st => legendreOuter u dim s tau d st) (exact := outerT dim s tau) (x := ())
    (s := (Legendre.values dim s, (fun _ => 0), 1, 1)) fun d _ _ st => legendreOuter_rate dim s ht d st
  have e := forLoop_map (a := 1) (b := deg + 1) (fun st : Legendre.DState => (st.buff, st.next, st.aux, st.mult)) (f := Legendre.dOuter dim s tau) (g := outerT dim s tau)
    (fun i st _ _ => rfl) ⟨Legendre.values dim s, fun _ => 0, 1, 1⟩
  simp only at e
  obtain ⟨z, hz, hz1, -⟩ := scale_rate dim (forLoop 1 (deg + 1) (Legendre.dOuter dim s tau) ⟨Legendre.values dim s, fun _ => 0, 1, 1⟩).mult
    (forLoop 1 (deg + 1) (Legendre.dOuter dim s tau) ⟨Legendre.values dim s, fun _ => 0, 1, 1⟩).buff
  refine ⟨z, ?_, fun k hk => ?_⟩
  · unfold legendreDeriv
    simp only [if_neg (show ¬ (dim < 2 ∨ dim ≤ deg) by omega)]
    refine RateAt.bind h1 (RateAt.bind (RateAt.comp (x := ((), Legendre.values dim s)) (f := fun q : Unit × Vec => ((), (q.2, (fun _ => (0 : ℝ)), (1 : ℝ), (1 : ℝ)))) h3
      (by fun_prop)) ?_)
    rw [← e]
    refine RateAt.comp (F := fun u (q : ℝ × Vec) => scale u dim q.1 q.2) (f := fun q : (Unit × Vec) × (Vec × Vec × ℝ × ℝ) => (q.2.2.2.2, q.2.1)) ?_ (by fun_prop)
    exact hz
  · rw [hz1 k hk]
    unfold Basis.ev
    simp only [Basis.evalDerivOnWindow, Legendre.evalDerivOnWindow, if_neg (show ¬ (dim < 2 ∨ dim ≤ deg) by omega)]

/-! ## Basis0101 -/

theorem b0101Step_rate (k : ℝ) (v : Vec) :
    RateAt (fun u (q : ℝ × Vec) => b0101Step u q.1 q.2) (k, v) (fun i => B0101.dstep v i * (k * 2)) := by
  unfold b0101Step
  refine RateAt.bind (RateAt.near (by fun_prop)) ?_
  refine RateAt.bind (RateAt.near (by fun_prop)) ?_
  refine RateAt.bind (RateAt.near (by fun_prop)) ?_
  refine RateAt.bind (RateAt.near (by fun_prop)) ?_
  refine RateAt.bind (RateAt.near (by fun_prop)) ?_
  obtain ⟨z, hz, hz1, hz2⟩ := scale_rate 6 (k * 2) (B0101.dstep v)
  have e : z = fun i => B0101.dstep v i * (k * 2) := by
    funext i
    by_cases hi : i < 6
    · exact hz1 i hi
    · rw [hz2 i (by omega)]
      have : B0101.dstep v i = 0 := by
        unfold B0101.dstep
        obtain ⟨j, rfl⟩ : ∃ j, i = j + 6 := ⟨i - 6, by omega⟩
        rfl
      rw [this, zero_mul]
  rw [← e]
  refine RateAt.comp (F := fun u (q : ℝ × Vec) => scale u 6 q.1 q.2)
    (f := fun q : (((((ℝ × Vec) × ℝ) × ℝ) × ℝ) × ℝ) × ℝ => (q.2, B0101.vec6 q.1.1.1.1.2 q.1.1.1.2 q.1.1.2 q.1.2 (q.1.1.1.1.1.2 5) 0)) ?_ (LLip.prodMk (by fun_prop) (vec6_llip (by fun_prop) (by fun_prop) (by fun_prop) (by fun_prop) (by fun_prop) (by fun_prop)))
  exact hz

theorem b0101Deriv_rate {a : ℝ} (h1 : a < 1) (s tau : ℝ) (deg : ℕ) :
    RateAt (fun u (_ : Unit) => b0101Deriv u a s tau deg) () (B0101.evalDerivOnWindow a s tau deg) := by
  have hd : (0 : ℝ) < 1 - a := by linarith
  unfold b0101Deriv
  refine RateAt.bind (RateAt.near (by fun_prop)) ?_
  refine RateAt.bind (RateAt.near (by fun_prop)) ?_
  refine RateAt.bind (RateAt.near (by fun_prop)) ?_
  refine RateAt.bind (RateAt.near (by fun_prop)) ?_
  refine RateAt.bind (RateAt.near (by fun_prop)) ?_
  refine RateAt.bind (RateAt.near (by apply LLip.rpow; (fun_prop); exact ne_of_gt hd)) ?_
  refine RateAt.bind (RateAt.quot (by fun_prop) (by fun_prop) (ne_of_gt (Real.rpow_pos_of_pos hd _))) ?_
  refine RateAt.bind (RateAt.near (by fun_prop)) ?_
  refine RateAt.bind (RateAt.near (by fun_prop)) ?_
  refine RateAt.bind (RateAt.near (by fun_prop)) ?_
  refine RateAt.bind (RateAt.near (by fun_prop)) ?_
  refine RateAt.bind (RateAt.near (by fun_prop)) ?_
  refine RateAt.bind (RateAt.near (by fun_prop)) ?_
  refine RateAt.bind (RateAt.near (by fun_prop)) ?_
  refine RateAt.bind (RateAt.quot (by fun_prop) (by fun_prop) (Real.exp_ne_zero _)) ?_
  refine RateAt.bind (RateAt.quot (by fun_prop) (by fun_prop) (Real.exp_ne_zero _)) ?_
  have h := RateAt.loop (a := 1) (b := deg + 1) (α := ℝ) (σ := Vec) (body := fun u _ k v => b0101Step u k v) (exact := fun _ v i => B0101.dstep v i * (B0101.kOf a * 2))
    (x := B0101.kOf a) (s := B0101.evalOnWindow a s tau) fun _ _ _ v => b0101Step_rate _ v
  refine RateAt.comp (F := fun u (q : ℝ × Vec) => Nd.loop 1 (deg + 1) (fun _ v => b0101Step u q.1 v) q.2)
    (f := fun q : (((((((((((((((Unit × ℝ) × ℝ) × ℝ) × ℝ) × ℝ) × ℝ) × ℝ) × ℝ) × ℝ) × ℝ) × ℝ) × ℝ) × ℝ) × ℝ) × ℝ) × ℝ =>
      (q.1.1.1.1.1.1.1.1.1.2, B0101.vec6 q.1.1.1.2 q.1.1.2 q.1.2 q.2 q.1.1.1.1.1.1.1.2 1)) ?_
    (LLip.prodMk (by fun_prop) (vec6_llip (by fun_prop) (by fun_prop) (by fun_prop) (by fun_prop) (by fun_prop) (by fun_prop)))
  exact h

/-! ## Lagrange -/

theorem setAt2_llip {α : Type} [Gauge α] {i j : ℕ} {f : α → Mat} {g : α → ℝ} {x : α} (hf : LLip f x) (hg : LLip g x) :
    LLip (fun a => setAt2 (f a) i j (g a)) x := by
  refine LLip.comp (g := fun q : Mat × ℝ => setAt2 q.1 i j q.2) (LLip.of_bound (C := 1) (δ := 1) (by norm_num) (by norm_num) ?_) (LLip.prodMk hf hg)
  intro a a' _ _ r hr h k l
  rw [one_mul]
  unfold setAt2
  split_ifs
  · exact h.2
  · exact h.1 k l

theorem col_llip (i : ℕ) (m : Mat) : LLip (fun (m : Mat) (k : ℕ) => m k i) m :=
  LLip.of_bound (C := 1) (δ := 1) (by norm_num) (by norm_num) fun a a' _ _ r hr h k => by rw [one_mul]; exact h k i

theorem pow_llip {α : Type} [Gauge α] {f : α → ℝ} {x : α} (hf : LLip f x) (n : ℕ) : LLip (fun a => f a ^ n) x := by
  induction n with
  | zero => simpa only [pow_zero] using LLip.const (1 : ℝ) x
  | succ n ih => simpa only [pow_succ] using ih.mul hf

/-- The tail of both kinds of entries: write the entry and update the diagonal. -/
theorem entry_rate {α : Type} [Gauge α] {i j : ℕ} {m : α → Mat} {e : α → ℝ} {x : α} (hm : LLip m x) (he : LLip e x) :
    RateAt (fun u a => do
      let s ← near u (setAt2 (m a) i j (e a) i i + -(setAt2 (m a) i j (e a) i j))
      return setAt2 (setAt2 (m a) i j (e a)) i i s) x
      (setAt2 (setAt2 (m x) i j (e x)) i i (setAt2 (m x) i j (e x) i i + -(setAt2 (m x) i j (e x) i j))) := by
  have h1 : LLip (fun a => setAt2 (m a) i j (e a)) x := setAt2_llip hm he
  have h2 : ∀ k, LLip (fun a => setAt2 (m a) i j (e a) i k) x := fun k => LLip.comp (g := fun m : Mat => m i k) (by fun_prop) h1
  refine RateAt.bind (RateAt.near ((h2 i).add (h2 j).neg)) ?_
  refine (RateAt.pure (f := fun q : α × ℝ => setAt2 (setAt2 (m q.1) i j (e q.1)) i i q.2) (setAt2_llip ?_ (by fun_prop))).congr rfl
  exact LLip.comp (f := Prod.fst) (g := fun a => setAt2 (m a) i j (e a)) h1 (LLip.fst' _)

theorem dmatEntry_rate (x : Vec) {n : ℕ} (hx : Lagrange.Distinct n x) {bw : Vec} (hb : ∀ k < n, bw k ≠ 0) {i j : ℕ} (hi : i < n) (hj : j < n) (m : Mat) :
    RateAt (fun u (q : Vec × Mat) => dmatEntry u x q.1 i j q.2) (bw, m)
      (if i ≠ j then setAt2 (setAt2 m i j (bw j / bw i * 1 / (x i - x j))) i i
          (setAt2 m i j (bw j / bw i * 1 / (x i - x j)) i i + -(setAt2 m i j (bw j / bw i * 1 / (x i - x j)) i j)) else m) := by
  unfold dmatEntry
  by_cases h : i ≠ j
  · simp only [if_pos h]
    refine RateAt.bind (RateAt.quot (by fun_prop) (by fun_prop) (hb i hi)) ?_
    refine RateAt.bind (RateAt.near (by fun_prop)) ?_
    refine RateAt.bind (RateAt.near (by fun_prop)) ?_
    refine RateAt.bind (RateAt.quot (by fun_prop) (by fun_prop) (sub_ne_zero.mpr (hx.ne hi hj h))) ?_
    refine (entry_rate (m := fun q : ((((Vec × Mat) × ℝ) × ℝ) × ℝ) × ℝ => q.1.1.1.1.2) (e := fun q => q.2) (by fun_prop) (by fun_prop)).congr ?_
    rfl
  · simp only [if_neg h]
    exact RateAt.pure (f := fun q : Vec × Mat => q.2) (by fun_prop)

theorem dmatEntryK_rate (x : Vec) {n : ℕ} (hx : Lagrange.Distinct n x) {bw : Vec} (hb : ∀ k < n, bw k ≠ 0) (k : ℕ) (buff : Mat) {i j : ℕ} (hi : i < n) (hj : j < n)
    (m : Mat) : RateAt (fun u (q : (Vec × Mat) × Mat) => dmatEntryK u x q.1.1 k q.1.2 i j q.2) ((bw, buff), m)
      (if i ≠ j then setAt2 (setAt2 m i j ((k : ℝ) / (x i - x j) * (bw j / bw i * buff i i - buff i j))) i i
          (setAt2 m i j ((k : ℝ) / (x i - x j) * (bw j / bw i * buff i i - buff i j)) i i +
            -(setAt2 m i j ((k : ℝ) / (x i - x j) * (bw j / bw i * buff i i - buff i j)) i j)) else m) := by
  unfold dmatEntryK
  by_cases h : i ≠ j
  · simp only [if_pos h]
    refine RateAt.bind (RateAt.near (by fun_prop)) ?_
    refine RateAt.bind (RateAt.quot (by fun_prop) (by fun_prop) (sub_ne_zero.mpr (hx.ne hi hj h))) ?_
    refine RateAt.bind (RateAt.quot (by fun_prop) (by fun_prop) (hb i hi)) ?_
    refine RateAt.bind (RateAt.near (by fun_prop)) ?_
    refine RateAt.bind (RateAt.near (by fun_prop)) ?_
    refine RateAt.bind (RateAt.near (by fun_prop)) ?_
    refine (entry_rate (m := fun q : (((((((Vec × Mat) × Mat) × ℝ) × ℝ) × ℝ) × ℝ) × ℝ) × ℝ => q.1.1.1.1.1.1.2) (e := fun q => q.2) (by fun_prop) (by fun_prop)).congr ?_
    rfl
  · simp only [if_neg h]
    exact RateAt.pure (f := fun q : (Vec × Mat) × Mat => q.2) (by fun_prop)

theorem dmat1_rate {α : Type} [Gauge α] {n : ℕ} {x : Vec} (h : Lagrange.Distinct n x) (a : α) :
    RateAt (fun u (_ : α) => dmat1 u n x) a (Lagrange.dmat1 n x) := by
  have hb := exactW_ne h
  unfold dmat1
  refine RateAt.bind (baryWeights_rate h a) ?_
  have h1 := RateAt.loop (a := 0) (b := n) (α := Vec) (σ := Mat) (body := fun u i bw (m : Mat) => Nd.loop 0 n (fun j m => dmatEntry u x bw i j m) (setAt2 m i i 0))
    (exact := Lagrange.dmatRow n x (Lagrange.baryWeights n x)) (x := exactW n x) (s := Mat.zero) fun i _ hi m => by
      have h2 := RateAt.loop (a := 0) (b := n) (α := Vec) (σ := Mat) (body := fun u j bw m => dmatEntry u x bw i j m) (exact := fun j m =>
          if i ≠ j then setAt2 (setAt2 m i j (exactW n x j / exactW n x i * 1 / (x i - x j))) i i
            (setAt2 m i j (exactW n x j / exactW n x i * 1 / (x i - x j)) i i + -(setAt2 m i j (exactW n x j / exactW n x i * 1 / (x i - x j)) i j)) else m)
        (x := exactW n x) (s := setAt2 m i i 0) fun j _ hj m => dmatEntry_rate x h hb hi hj m
      have h3 := RateAt.comp (x := (exactW n x, m)) (f := fun q : Vec × Mat => (q.1, setAt2 q.2 i i 0)) h2
        (LLip.prodMk (by fun_prop) (setAt2_llip (by fun_prop) (by fun_prop)))
      refine h3.congr ?_
      unfold Lagrange.dmatRow
      exact forLoop_congr (fun j m _ hj => by rw [exactW_eq hi, exactW_eq hj]) _
  exact RateAt.comp (x := (a, exactW n x)) (f := fun q : α × Vec => (q.2, Mat.zero)) h1 (by fun_prop)

theorem dmat_rate {α : Type} [Gauge α] {n : ℕ} {x : Vec} (h : Lagrange.Distinct n x) (deg : ℕ) (a : α) :
    RateAt (fun u (_ : α) => dmat u n x deg) a (Lagrange.dmat n x deg) := by
  have hb := exactW_ne h
  unfold dmat Lagrange.dmat
  by_cases h0 : deg = 0
  · simp only [if_pos h0]
    exact RateAt.pure (f := fun _ : α => Mat.id) (LLip.const _ _)
  · simp only [if_neg h0]
    by_cases h1 : deg = 1
    · simp only [if_pos h1]
      exact dmat1_rate h a
    · simp only [if_neg h1]
      refine RateAt.bind (dmat1_rate h a) (RateAt.bind (dmat1_rate h _) (RateAt.bind (baryWeights_rate h _) ?_))
      have h2 := RateAt.loop (a := 2) (b := deg + 1) (α := Vec) (σ := Mat × Mat) (body := fun u k bw (st : Mat × Mat) => do
          let r ← Nd.loop 0 n (fun i (m : Mat) => Nd.loop 0 n (fun j m => dmatEntryK u x bw k st.2 i j m) (setAt2 m i i 0)) st.1
          return (r, r)) (exact := fun k st => (forLoop 0 n (Lagrange.dmatRowK n x (Lagrange.baryWeights n x) k st.2) st.1,
            forLoop 0 n (Lagrange.dmatRowK n x (Lagrange.baryWeights n x) k st.2) st.1)) (x := exactW n x) (s := (Lagrange.dmat1 n x, Lagrange.dmat1 n x)) fun k _ _ st => by
          have h3 := RateAt.loop (a := 0) (b := n) (α := Vec × Mat) (σ := Mat)
            (body := fun u i q (m : Mat) => Nd.loop 0 n (fun j m => dmatEntryK u x q.1 k q.2 i j m) (setAt2 m i i 0))
            (exact := Lagrange.dmatRowK n x (Lagrange.baryWeights n x) k st.2) (x := (exactW n x, st.2)) (s := st.1) fun i _ hi m => by
              have h4 := RateAt.loop (a := 0) (b := n) (α := Vec × Mat) (σ := Mat) (body := fun u j q m => dmatEntryK u x q.1 k q.2 i j m) (exact := fun j m =>
                  if i ≠ j then setAt2 (setAt2 m i j ((k : ℝ) / (x i - x j) * (exactW n x j / exactW n x i * st.2 i i - st.2 i j))) i i
                    (setAt2 m i j ((k : ℝ) / (x i - x j) * (exactW n x j / exactW n x i * st.2 i i - st.2 i j)) i i +
                      -(setAt2 m i j ((k : ℝ) / (x i - x j) * (exactW n x j / exactW n x i * st.2 i i - st.2 i j)) i j)) else m)
                (x := (exactW n x, st.2)) (s := setAt2 m i i 0) fun j _ hj m => dmatEntryK_rate x h hb k st.2 hi hj m
              have h5 := RateAt.comp (x := ((exactW n x, st.2), m)) (f := fun q : (Vec × Mat) × Mat => (q.1, setAt2 q.2 i i 0)) h4
                (LLip.prodMk (by fun_prop) (setAt2_llip (by fun_prop) (by fun_prop)))
              refine h5.congr ?_
              unfold Lagrange.dmatRowK
              exact forLoop_congr (fun j m _ hj => by rw [exactW_eq hi, exactW_eq hj]) _
          refine RateAt.bind (RateAt.comp (x := (exactW n x, st)) (f := fun q : Vec × (Mat × Mat) => ((q.1, q.2.2), q.2.1)) h3 (by fun_prop)) ?_
          exact (RateAt.pure (f := fun q : (Vec × (Mat × Mat)) × Mat => (q.2, q.2)) (by fun_prop)).congr rfl
      refine RateAt.bind (RateAt.comp (x := (((a, Lagrange.dmat1 n x), Lagrange.dmat1 n x), exactW n x))
        (f := fun q : ((α × Mat) × Mat) × Vec => (q.2, (q.1.1.2, q.1.2))) h2 (by fun_prop)) ?_
      exact (RateAt.pure (f := fun q : (((α × Mat) × Mat) × Vec) × (Mat × Mat) => q.2.1) (by fun_prop)).congr rfl

/-- The scalar product of two vectors that are both computed. -/
theorem dot2_rate (n : ℕ) (a b : Vec) :
    RateAt (fun u (q : Vec × Vec) => dot u ((List.range n).map q.1) ((List.range n).map q.2)) (a, b) (Vec.dot n a b) := by
  have e : ∀ a b : Vec, ∀ k < n, vecOf (List.zipWith (· * ·) ((List.range n).map a) ((List.range n).map b)) k = a k * b k := by
    intro a b k hk
    unfold vecOf
    rw [List.getD_eq_getElem?_getD, List.getElem?_eq_getElem (by simp; omega)]
    simp
  have h := RateAt.bind (F := fun u (q : Vec × Vec) => nears u n fun k => q.1 k * q.2 k) (G := fun u _ v => Nd.sum u ((List.range n).map v)) (x := (a, b))
    (RateAt.nears (f := fun (q : Vec × Vec) k => q.1 k * q.2 k) fun k _ => by fun_prop)
    (RateAt.sum (n := n) (f := fun k (q : (Vec × Vec) × Vec) => q.2 k) fun k _ => by fun_prop)
  have h' := h.congr (z' := Vec.dot n a b) (by
    unfold Vec.dot
    exact Finset.sum_congr rfl fun k hk => if_pos (Finset.mem_range.mp hk))
  refine h'.of_sub fun u q r hr => ?_
  rcases dot_sub (n := n) (by simp) hr with ⟨e', ⟨v, hv, -⟩, rfl⟩ | ⟨v, ⟨v', hv, h1, h2⟩, h3⟩
  · cases hv
  · cases hv
    exact .inr ⟨v, ⟨v, rfl, fun k hk => by have := h1 k hk; rwa [e q.1 q.2 k hk] at this, h2⟩, h3⟩

theorem lagrangeDeriv_rate {n : ℕ} {x : Vec} (h : Props.Separated n x) {s : ℝ} (hs : ∀ j < n, s = x j ∨ tol9 * (1 + |s|) < |s - x j|) {tau : ℝ} (ht : tau ≠ 0)
    (hc : Props.Clean n x s) (deg : ℕ) :
    ∃ v : Vec, RateAt (fun u (w : Vec) => lagrangeDeriv u n x w s tau deg) (exactW n x) v ∧ ∀ k < n, v k = Lagrange.evalDerivOnWindow n x s tau deg k := by
  obtain ⟨v, hv, hv'⟩ := lagrange_rate h.distinct hs
  have hv2 := RateAt.comp (x := exactW n x) (f := fun w : Vec => (s, w)) hv (by fun_prop)
  have hval := Props.C26_lagrange_eval n x h s tau hc
  unfold lagrangeDeriv Lagrange.evalDerivOnWindow Lagrange.derivMatrixImpl
  by_cases hd : deg = 0
  · simp only [if_pos hd]
    exact ⟨v, RateAt.bind hv2 (RateAt.pure (f := fun q : Vec × Vec => q.2) (by fun_prop)), fun k hk => by rw [hv' k hk, hval k hk]⟩
  · simp only [if_neg hd]
    have hl := RateAt.loop (a := 0) (b := n) (α := (Vec × ℝ) × Mat) (σ := Vec) (body := fun u i q (r : Vec) => do
        let a ← dot u ((List.range n).map fun k => q.2 k i) ((List.range n).map q.1.1)
        let p ← near u (a * q.1.2)
        return setAt r i p) (exact := fun i r => setAt r i (Vec.dot n (fun k => Lagrange.dmat n x deg k i) v * (2 / tau) ^ deg))
      (x := ((v, (2 / tau) ^ deg), Lagrange.dmat n x deg)) (s := fun _ => 0) fun i _ hi r => by
        refine RateAt.bind (RateAt.comp (F := fun u (q : Vec × Vec) => dot u ((List.range n).map q.1) ((List.range n).map q.2))
          (f := fun q : ((Vec × ℝ) × Mat) × Vec => ((fun k => q.1.2 k i), q.1.1.1)) (dot2_rate n _ _)
          (LLip.prodMk (LLip.comp (g := fun (m : Mat) (k : ℕ) => m k i) (f := fun q : ((Vec × ℝ) × Mat) × Vec => q.1.2) (col_llip i _) (by fun_prop)) (by fun_prop))) ?_
        refine RateAt.bind (RateAt.near (by fun_prop)) ?_
        exact RateAt.pure (f := fun q : (((((Vec × ℝ) × Mat) × Vec) × ℝ) × ℝ) => setAt q.1.1.2 i q.2) (LLip.setAt (by fun_prop) (by fun_prop))
    refine ⟨_, RateAt.bind hv2 (RateAt.bind (RateAt.quot (f := fun _ => (2 : ℝ)) (g := fun _ => tau) (by fun_prop) (by fun_prop) ht)
      (RateAt.bind (RateAt.near (pow_llip (by fun_prop) deg)) (RateAt.bind (dmat_rate h.distinct deg _)
        (RateAt.comp (x := ((((exactW n x, v), 2 / tau), (2 / tau) ^ deg), Lagrange.dmat n x deg))
          (f := fun q : (((Vec × Vec) × ℝ) × ℝ) × Mat => (((q.1.1.1.2, q.1.2), q.2), fun _ => (0 : ℝ))) hl (LLip.prodMk (by fun_prop) (LLip.const _ _)))))), fun k hk => ?_⟩
    rw [fill_loop (f := fun i => Vec.dot n (fun k => Lagrange.dmat n x deg k i) v * (2 / tau) ^ deg) hk]
    congr 1
    unfold Vec.dot Mat.mulVec Mat.tr
    exact Finset.sum_congr rfl fun j hj => by rw [hv' j (Finset.mem_range.mp hj), hval j (Finset.mem_range.mp hj)]

/-- The derivatives of the basis with rounding tend to the exact ones. -/
theorem evalDeriv_rate {b : Basis} (hb : b.Valid) {s tau : ℝ} (ht : tau ≠ 0) {deg : ℕ} (hd : b.OrderOk deg) (hc : Clear b s) (hc' : b.CleanAt s) :
    ∃ z : Vec, RateAt (fun u (_ : Unit) => evalDerivOnWindow u b s tau deg) () z ∧ ∀ k < b.dim, z k = b.ev s tau deg k := by
  cases b with
  | legendre d => exact legendreDeriv_rate hb hd s ht
  | b0101 a => exact ⟨_, b0101Deriv_rate hb.2 s tau deg, fun k _ => by rw [Basis.ev_of (b := .b0101 a) rfl]⟩
  | lagrange x =>
    have hb' : Props.Separated x.length (vecOf x) := hb
    obtain ⟨v, hv, hv'⟩ := lagrangeDeriv_rate hb' (s := s) (fun j hj => by
      refine hc (vecOf x j) ?_
      unfold vecOf
      rw [List.getD_eq_getElem?_getD, List.getElem?_eq_getElem hj]
      exact List.getElem_mem hj) ht hc' deg
    exact ⟨v, RateAt.bind (baryWeights_rate hb'.distinct _) (RateAt.comp (x := ((), exactW x.length (vecOf x))) (f := fun q : Unit × Vec => q.2) hv (by fun_prop)),
      fun k hk => by rw [Basis.ev_of (b := .lagrange x) rfl, hv' k hk]⟩

theorem evalValue_rate {b : Basis} (hb : b.Valid) {s tau : ℝ} (hc : Clear b s) (hc' : b.CleanAt s) (ht : tau ≠ 0) :
    ∃ z : Vec, RateAt (fun u (_ : Unit) => evalOnWindow u b s tau) () z ∧ ∃ v, b.evalOnWindow s tau = .ok v ∧ ∀ k < b.dim, z k = v k := by
  have e : window tau (tau * (s + 1) / 2) = s := by
    unfold window
    field_simp
    ring
  obtain ⟨z, h1, h2⟩ := evalOnWindow_rate hb tau (tau * (s + 1) / 2) (by rw [e]; exact hc)
  obtain ⟨v, h3, h4⟩ := Basis.evalOnWindow_spec hb tau (tau * (s + 1) / 2) (by rw [e]; exact hc')
  rw [e] at h1 h3
  exact ⟨z, RateAt.comp (f := fun _ : Unit => s) h1 (LLip.const _ _), v, h3, fun k hk => by rw [h2 k hk, h4 k hk]⟩

end GSplines.Rounded
