import Verif.Proofs.RoundingSolve
import Verif.Proofs.RoundingExact

/-! # Interpolation: the exact run is one of the rounded ones; no access is out of range -/

namespace GSplines.Rounded

open Nd Spec Interp

section
variable {u : ℝ × ℝ} (h1 : 0 ≤ u.1) (h2 : 0 ≤ u.2)
include h1 h2

theorem scale_has (n : ℕ) (c : ℝ) (v : Vec) : ∃ z : Vec, Has (scale u n c v) z ∧ (∀ k < n, z k = v k * c) ∧ ∀ k, n ≤ k → z k = v k := by
  refine ⟨_, Has.loop (exact := fun i v => setAt v i (v i * c)) (fun i _ _ v => .bind (.near h1 h2 _) (.pure _)) v, ?_⟩
  exact forLoop_ind (fun J (z : Vec) => (∀ k < J, z k = v k * c) ∧ ∀ k, J ≤ k → z k = v k) (Nat.zero_le n) (fun i v => setAt v i (v i * c)) v
    ⟨fun k hk => by omega, fun k _ => rfl⟩ fun i st _ _ hP => ⟨fun k hk => by
      unfold setAt
      split_ifs with e
      · rw [e, hP.2 i le_rfl]
      · exact hP.1 k (by omega), fun k hk => by
      unfold setAt
      rw [if_neg (by omega)]
      exact hP.2 k (by omega)⟩

theorem legendreDeriv_has {dim deg : ℕ} (hd2 : 2 ≤ dim) (hd : deg < dim) (s : ℝ) {tau : ℝ} (ht : tau ≠ 0) :
    ∃ z : Vec, Has (legendreDeriv u dim s tau deg) z ∧ ∀ k < dim, z k = (Basis.legendre dim).ev s tau deg k := by
  have e := forLoop_map (a := 1) (b := deg + 1) (fun st : Legendre.DState => (st.buff, st.next, st.aux, st.mult)) (f := Legendre.dOuter dim s tau) (g := outerT dim s tau)
    (fun i st _ _ => rfl) ⟨Legendre.values dim s, fun _ => 0, 1, 1⟩
  simp only at e
  obtain ⟨z, hz, hz1, -⟩ := scale_has h1 h2 dim (forLoop 1 (deg + 1) (Legendre.dOuter dim s tau) ⟨Legendre.values dim s, fun _ => 0, 1, 1⟩).mult
    (forLoop 1 (deg + 1) (Legendre.dOuter dim s tau) ⟨Legendre.values dim s, fun _ => 0, 1, 1⟩).buff
  refine ⟨z, ?_, fun k hk => ?_⟩
  · unfold legendreDeriv
    rw [if_neg (show ¬ (dim < 2 ∨ dim ≤ deg) by omega)]
    refine .bind (legendre_has h1 h2 hd2 s) (Has.bind (Has.loop (exact := outerT dim s tau) (fun d _ _ st => ?_) _) (by rw [← e]; exact hz))
    unfold legendreOuter
    refine .bind (Has.loop (exact := Legendre.dInner s d st.1) (fun i _ _ next => ?_) _) (.bind (.quot h1 h2 _ (by positivity)) (.bind (.near h1 h2 _) (.bind (.near h1 h2 _)
      (.bind (.quot h1 h2 _ ht) (.bind (.near h1 h2 _) (.pure _))))))
    unfold legendreInner
    exact .bind (.near h1 h2 _) (.bind (.near h1 h2 _) (.bind (.near h1 h2 _) (.bind (.near h1 h2 _) (.bind (.quot h1 h2 _ (by positivity)) (.bind (.near h1 h2 _)
      (.bind (.near h1 h2 _) (.bind (.near h1 h2 _) (.pure _))))))))
  · rw [hz1 k hk]
    unfold Basis.ev
    simp only [Basis.evalDerivOnWindow, Legendre.evalDerivOnWindow, if_neg (show ¬ (dim < 2 ∨ dim ≤ deg) by omega)]

theorem b0101Deriv_has {a : ℝ} (ha : a < 1) (s tau : ℝ) (deg : ℕ) : Has (b0101Deriv u a s tau deg) (B0101.evalDerivOnWindow a s tau deg) := by
  have hd : (0 : ℝ) < 1 - a := by linarith
  unfold b0101Deriv
  refine .bind (.near h1 h2 _) (.bind (.near h1 h2 _) (.bind (.near h1 h2 _) (.bind (.near h1 h2 _) (.bind (.near h1 h2 _) (.bind (.near h1 h2 _)
    (.bind (.quot h1 h2 _ (Real.rpow_pos_of_pos hd _).ne') (.bind (.near h1 h2 _) (.bind (.near h1 h2 _) (.bind (.near h1 h2 _) (.bind (.near h1 h2 _) (.bind (.near h1 h2 _)
    (.bind (.near h1 h2 _) (.bind (.near h1 h2 _) (.bind (.quot h1 h2 _ (Real.exp_ne_zero _)) (.bind (.quot h1 h2 _ (Real.exp_ne_zero _)) ?_)))))))))))))))
  refine Has.loop (exact := fun _ v i => B0101.dstep v i * (B0101.kOf a * 2)) (fun _ _ _ v => ?_) _
  unfold b0101Step
  refine .bind (.near h1 h2 _) (.bind (.near h1 h2 _) (.bind (.near h1 h2 _) (.bind (.near h1 h2 _) (.bind (.near h1 h2 _) ?_))))
  obtain ⟨z, hz, hz1, hz2⟩ := scale_has h1 h2 6 (B0101.kOf a * 2) (B0101.dstep v)
  have e : z = fun i => B0101.dstep v i * (B0101.kOf a * 2) := by
    funext i
    by_cases hi : i < 6
    · exact hz1 i hi
    · rw [hz2 i (by omega)]
      have : B0101.dstep v i = 0 := by
        unfold B0101.dstep
        obtain ⟨j, rfl⟩ : ∃ j, i = j + 6 := ⟨i - 6, by omega⟩
        rfl
      rw [this, zero_mul]
  rw [← e]
  exact hz

theorem dmat1_has {n : ℕ} {x : Vec} (h : Lagrange.Distinct n x) : Has (dmat1 u n x) (Lagrange.dmat1 n x) := by
  unfold dmat1 Lagrange.dmat1
  refine .bind (baryWeights_has h1 h2 h) (Has.loop (fun i _ hi m => ?_) _)
  have e : Lagrange.dmatRow n x (Lagrange.baryWeights n x) i m = _ := forLoop_congr (g := fun j m => if i ≠ j then
      setAt2 (setAt2 m i j (exactW n x j / exactW n x i * 1 / (x i - x j))) i i
        (setAt2 m i j (exactW n x j / exactW n x i * 1 / (x i - x j)) i i + -(setAt2 m i j (exactW n x j / exactW n x i * 1 / (x i - x j)) i j)) else m)
    (fun j m _ hj => by rw [exactW_eq hi, exactW_eq hj]) _
  rw [e]
  refine Has.loop (fun j _ hj m => ?_) _
  unfold dmatEntry
  by_cases hij : i ≠ j
  · rw [if_pos hij, if_pos hij]
    exact .bind (.quot h1 h2 _ (exactW_ne h i hi)) (.bind (.near h1 h2 _) (.bind (.near h1 h2 _) (.bind (.quot h1 h2 _ (sub_ne_zero.mpr (h.ne hi hj hij)))
      (.bind (.near h1 h2 _) (.pure _)))))
  · rw [if_neg hij, if_neg hij]; exact .pure _

theorem dmat_has {n : ℕ} {x : Vec} (h : Lagrange.Distinct n x) (deg : ℕ) : Has (dmat u n x deg) (Lagrange.dmat n x deg) := by
  unfold dmat Lagrange.dmat
  by_cases h0 : deg = 0
  · rw [if_pos h0, if_pos h0]; exact .pure _
  rw [if_neg h0, if_neg h0]
  by_cases hone : deg = 1
  · rw [if_pos hone, if_pos hone]; exact dmat1_has h1 h2 h
  rw [if_neg hone, if_neg hone]
  refine .bind (dmat1_has h1 h2 h) (.bind (dmat1_has h1 h2 h) (.bind (baryWeights_has h1 h2 h) (.bind (Has.loop (fun k _ _ st => ?_) _) (.pure _))))
  refine .bind (a := forLoop 0 n (Lagrange.dmatRowK n x (Lagrange.baryWeights n x) k st.2) st.1) (Has.loop (fun i _ hi m => ?_) _) (.pure _)
  have e : Lagrange.dmatRowK n x (Lagrange.baryWeights n x) k st.2 i m = _ := forLoop_congr (g := fun j m => if i ≠ j then
      setAt2 (setAt2 m i j ((k : ℝ) / (x i - x j) * (exactW n x j / exactW n x i * st.2 i i - st.2 i j))) i i
        (setAt2 m i j ((k : ℝ) / (x i - x j) * (exactW n x j / exactW n x i * st.2 i i - st.2 i j)) i i +
          -(setAt2 m i j ((k : ℝ) / (x i - x j) * (exactW n x j / exactW n x i * st.2 i i - st.2 i j)) i j)) else m)
    (fun j m _ hj => by rw [exactW_eq hi, exactW_eq hj]) _
  rw [e]
  refine Has.loop (fun j _ hj m => ?_) _
  unfold dmatEntryK
  by_cases hij : i ≠ j
  · rw [if_pos hij, if_pos hij]
    exact .bind (.near h1 h2 _) (.bind (.quot h1 h2 _ (sub_ne_zero.mpr (h.ne hi hj hij))) (.bind (.quot h1 h2 _ (exactW_ne h i hi)) (.bind (.near h1 h2 _)
      (.bind (.near h1 h2 _) (.bind (.near h1 h2 _) (.bind (.near h1 h2 _) (.pure _)))))))
  · rw [if_neg hij, if_neg hij]; exact .pure _

theorem lagrangeDeriv_has {n : ℕ} {x : Vec} (h : Lagrange.Distinct n x) (s : ℝ) {tau : ℝ} (ht : tau ≠ 0) (deg : ℕ) :
    ∃ v, Has (lagrangeDeriv u n x (exactW n x) s tau deg) v ∧ ∀ k < n, v k = Lagrange.evalDerivOnWindow n x s tau deg k := by
  obtain ⟨v, hv, hv'⟩ := lagrange_has h1 h2 h s tau
  unfold lagrangeDeriv Lagrange.evalDerivOnWindow Lagrange.derivMatrixImpl
  by_cases hd : deg = 0
  · simp only [if_pos hd]
    exact ⟨v, .bind hv (.pure _), hv'⟩
  · simp only [if_neg hd]
    refine ⟨_, .bind hv (.bind (.quot h1 h2 _ ht) (.bind (.near h1 h2 _) (.bind (dmat_has h1 h2 h deg)
      (Has.loop (exact := fun i r => setAt r i (Vec.dot n (fun k => Lagrange.dmat n x deg k i) v * (2 / tau) ^ deg)) (fun i _ hi r => ?_) _)))), fun k hk => ?_⟩
    · refine .bind (a := Vec.dot n (fun k => Lagrange.dmat n x deg k i) v) ?_ (.bind (.near h1 h2 _) (.pure _))
      convert dot_has h1 h2 (n := n) (seg := (List.range n).map fun k => Lagrange.dmat n x deg k i) (by simp) v using 1
      unfold Vec.dot
      exact Finset.sum_congr rfl fun k hk => by rw [vecOf_map_range (Finset.mem_range.mp hk)]
    · rw [fill_loop (f := fun i => Vec.dot n (fun k => Lagrange.dmat n x deg k i) v * (2 / tau) ^ deg) hk]
      congr 1
      unfold Vec.dot Mat.mulVec Mat.tr
      exact Finset.sum_congr rfl fun j hj => by rw [hv' j (Finset.mem_range.mp hj)]

theorem evalDeriv_has {b : Basis} (hb : b.Valid) (s : ℝ) {tau : ℝ} (ht : tau ≠ 0) {deg : ℕ} (hd : b.OrderOk deg) :
    ∃ z : Vec, Has (evalDerivOnWindow u b s tau deg) z ∧ ∀ k < b.dim, z k = b.ev s tau deg k := by
  cases b with
  | legendre d => exact legendreDeriv_has h1 h2 hb hd s ht
  | b0101 a => exact ⟨_, b0101Deriv_has h1 h2 hb.2 s tau deg, fun k _ => by rw [Basis.ev_of (b := .b0101 a) rfl]⟩
  | lagrange x =>
    have hb' : Props.Separated x.length (vecOf x) := hb
    obtain ⟨v, hv, hv'⟩ := lagrangeDeriv_has h1 h2 hb'.distinct s ht deg
    exact ⟨v, .bind (baryWeights_has h1 h2 hb'.distinct) hv, fun k hk => by rw [Basis.ev_of (b := .lagrange x) rfl, hv' k hk]⟩

theorem fillBuffers_has {b : Basis} {h : ℕ} (hb : Usable b h) (s : ℝ) {tau : ℝ} (ht : tau ≠ 0) : ∃ q, Has (Rounded.fillBuffers u b s tau) q ∧ BufNear b 0 s tau q := by
  obtain ⟨z0, c0, e0⟩ := evalDeriv_has h1 h2 hb.valid s ht (hb.order (Nat.zero_le _))
  have hz : ∀ j, ∃ z : Vec, j < b.dim - 2 → Has (evalDerivOnWindow u b s tau (j + 1)) z ∧ ∀ k < b.dim, z k = b.ev s tau (j + 1) k := by
    intro j
    by_cases hj : j < b.dim - 2
    · obtain ⟨z, h1, h2⟩ := evalDeriv_has h1 h2 hb.valid s ht (hb.order (show j + 1 ≤ b.dim - 2 by omega))
      exact ⟨z, fun _ => ⟨h1, h2⟩⟩
    · exact ⟨fun _ => 0, fun h => absurd h hj⟩
  choose z hz using hz
  refine ⟨_, .bind c0 (.bind (Has.loop (exact := fun j (m : Mat) => fun k j' => if j' = j then z j k else m k j') (fun j _ hj m => .bind (hz j hj).1 (.pure _)) _) (.pure _)),
    fun k hk => ?_, fun k hk j hj => ?_⟩
  · simp only; rw [e0 k hk]; simp
  · simp only; rw [columns_loop _ _ _ _ hj, (hz j hj).2 k hk]; simp

end

/-! ## The matrix only depends on the entries of the buffers that exist -/

section
variable {D c : ℕ}

theorem posBlock_congr {i0 j0 : ℕ} {p p' : Vec} (h : ∀ k < D, p k = p' k) (m : Mat) : posBlock D c i0 j0 p m = posBlock D c i0 j0 p' m := by
  unfold posBlock
  exact forLoop_congr (fun i m _ _ => forLoop_congr (fun k m _ hk => by rw [h k hk]) m) m

theorem contBlock_congr {i0 j0 : ℕ} {minus : Bool} {d d' : Mat} (h : ∀ k < D, ∀ j < D - 2, d k j = d' k j) (m : Mat) : contBlock D c i0 j0 minus d m = contBlock D c i0 j0 minus d' m := by
  unfold contBlock
  exact forLoop_congr (fun i m _ _ => forLoop_congr (fun k m _ hk => forLoop_congr (fun j m _ hj => by rw [h k hk j hj]) m) m) m

theorem bndBlock_congr {i0 j0 : ℕ} {d d' : Mat} (hD : D / 2 - 1 ≤ D - 2) (h : ∀ k < D, ∀ j < D - 2, d k j = d' k j) (m : Mat) : bndBlock D c i0 j0 d m = bndBlock D c i0 j0 d' m := by
  unfold bndBlock
  exact forLoop_congr (fun i m _ _ => forLoop_congr (fun j m _ hj => forLoop_congr (fun k m _ hk => by rw [h k hk j (by omega)]) m) m) m

theorem fillP_congr {n : ℕ} (hn : 0 < n) (hD : D / 2 - 1 ≤ D - 2) {B B' : Bufs} (hpl : ∀ iv < n, ∀ k < D, B.pl iv k = B'.pl iv k) (hpr : ∀ iv < n, ∀ k < D, B.pr iv k = B'.pr iv k)
    (hdl : ∀ iv < n, ∀ k < D, ∀ j < D - 2, B.dl iv k j = B'.dl iv k j) (hdr : ∀ iv < n, ∀ k < D, ∀ j < D - 2, B.dr iv k j = B'.dr iv k j) (m : Mat) :
    fillP D c n B m = fillP D c n B' m := by
  have hf : ∀ m, firstM D c B m = firstM D c B' m := fun m => by
    unfold firstM
    rw [posBlock_congr (hpl 0 hn), bndBlock_congr hD (hdl 0 hn), posBlock_congr (hpr 0 hn)]
  unfold fillP
  split_ifs with hone
  · rw [hf, bndBlock_congr hD (hdr 0 hn)]
  · simp only
    rw [hf, contBlock_congr (hdr 0 hn), forLoop_congr (g := fun iv (st : Mat × ℕ × ℕ) => (midM D c st.2.1 st.2.2 iv B' st.1, st.2.1 + c * (D - 2) + c + c, st.2.2 + c * D))
      (fun iv st ha hb => by
        unfold midM
        rw [contBlock_congr (hdl iv (by omega)), posBlock_congr (hpl iv (by omega)), posBlock_congr (hpr iv (by omega)), contBlock_congr (hdr iv (by omega))])]
    unfold finM
    rw [contBlock_congr (hdl (n - 1) (by omega)), posBlock_congr (hpl (n - 1) (by omega)), bndBlock_congr hD (hdr (n - 1) (by omega)), posBlock_congr (hpr (n - 1) (by omega))]

end

section
variable {u : ℝ × ℝ} (h1 : 0 ≤ u.1) (h2 : 0 ≤ u.2)
include h1 h2

/-- Filling the matrix from one choice of the buffers. -/
theorem fillMatrix_has {b : Basis} {h n c : ℕ} (hb : Usable b h) (hn : 0 < n) {tau : List ℝ} (hl : tau.length = n) (ht : ∀ i < n, vecOf tau i ≠ 0) (m : Mat) :
    Has (Rounded.fillMatrix u b c n tau m) (fillP b.dim c n (bufs b (vecOf tau)) m) := by
  have hB : ∀ s iv, ∃ q, iv < n → Has (Rounded.fillBuffers u b s (vecOf tau iv)) q ∧ BufNear b 0 s (vecOf tau iv) q := by
    intro s iv
    by_cases hiv : iv < n
    · obtain ⟨q, h1, h2⟩ := fillBuffers_has h1 h2 hb s (ht iv hiv)
      exact ⟨q, fun _ => ⟨h1, h2⟩⟩
    · exact ⟨default, fun h => absurd h hiv⟩
  choose q hq using hB
  have e := fillP_congr (D := b.dim) (c := c) hn (by have := hb.dim; omega) (B := bufs b (vecOf tau))
    (B' := ⟨fun iv => (q (-1) iv).1, fun iv => (q (-1) iv).2, fun iv => (q 1 iv).1, fun iv => (q 1 iv).2⟩)
    (fun iv hiv k hk => by have := ((hq (-1) iv hiv).2).1 k hk; rw [abs_nonpos_iff] at this; simp only [bufs]; linarith)
    (fun iv hiv k hk => by have := ((hq 1 iv hiv).2).1 k hk; rw [abs_nonpos_iff] at this; simp only [bufs]; linarith)
    (fun iv hiv k hk j hj => by have := ((hq (-1) iv hiv).2).2 k hk j hj; rw [abs_nonpos_iff] at this; simp only [bufs, if_pos hj]; linarith)
    (fun iv hiv k hk j hj => by have := ((hq 1 iv hiv).2).2 k hk j hj; rw [abs_nonpos_iff] at this; simp only [bufs, if_pos hj]; linarith) m
  rw [e]
  unfold Rounded.fillMatrix
  rw [if_neg (not_not.mpr hl), rd_ok (show 0 < tau.length by omega)]
  refine .bind (.lift _) (.bind (hq (-1) 0 hn).1 (.bind (hq 1 0 hn).1 ?_))
  unfold fillP
  by_cases hone : n = 1
  · simp only [if_pos hone]
    exact .pure _
  · simp only [if_neg hone]
    refine .bind (Has.loop (exact := fun iv (st : Mat × ℕ × ℕ) => (midM b.dim c st.2.1 st.2.2 iv ⟨fun iv => (q (-1) iv).1, fun iv => (q (-1) iv).2, fun iv => (q 1 iv).1, fun iv => (q 1 iv).2⟩ st.1,
      st.2.1 + c * (b.dim - 2) + c + c, st.2.2 + c * b.dim)) (fun iv ha hb st => ?_) _) ?_
    · unfold Rounded.middle
      rw [rd_ok (show iv < tau.length by omega)]
      exact .bind (.lift _) (.bind (hq (-1) iv (by omega)).1 (.bind (hq 1 iv (by omega)).1 (.pure _)))
    · unfold Rounded.final
      rw [rd_ok (show n - 1 < tau.length by omega)]
      exact .bind (.lift _) (.bind (hq (-1) (n - 1) (by omega)).1 (.bind (hq 1 (n - 1) (by omega)).1 (.pure _)))

/-- The exact call is one of the possible ones, whatever it ends with. -/
theorem interpolate_has {lu : LU} {s : Interp} {h : ℕ} (hb : Usable s.basis h) (hn : 0 < s.n) (tau : List ℝ) (w : Pts) :
    Rounded.interpolate u lu s tau w (s.interpolate lu tau w) := by
  unfold Rounded.interpolate Interp.interpolate
  by_cases hs : ∃ x ∈ tau, x < 1 / 10 ^ 6
  · have e1 : s.solveInterpolation lu tau w = .error .invalidArgument := by unfold Interp.solveInterpolation; rw [if_pos hs]
    have e2 : Rounded.solveInterpolation u lu s tau w = lift (.error .invalidArgument) := by unfold Rounded.solveInterpolation; rw [if_pos hs]
    rw [e1, e2]
    exact .inl ⟨_, rfl, rfl⟩
  by_cases hl : tau.length = s.n
  swap
  · have e1 : s.solveInterpolation lu tau w = .error .logicError := by
      unfold Interp.solveInterpolation Interp.fillMatrix; rw [if_neg hs, if_pos hl]; rfl
    rw [e1]
    refine .inl ⟨.logicError, ?_, rfl⟩
    unfold Rounded.solveInterpolation Rounded.fillMatrix
    rw [if_neg hs, if_pos hl]
    exact .inl ⟨_, rfl, rfl⟩
  have ht : ∀ i < s.n, vecOf tau i ≠ 0 := fun i hi => by
    push Not at hs
    exact (vecOf_pos (fun t h => lt_of_lt_of_le (by norm_num) (hs t h)) (hl ▸ hi)).ne'
  have hm := fillMatrix_has h1 h2 (c := s.codim) hb hn hl ht s.mat
  have hm' := fillMatrix_ok (c := s.codim) hb hn hl s.mat
  have key : Rounded.solveInterpolation u lu s tau w (s.solveInterpolation lu tau w) := by
    unfold Rounded.solveInterpolation Interp.solveInterpolation
    rw [if_neg hs, if_neg hs, hm']
    refine .inr ⟨_, hm, ?_⟩
    simp only [ok_bind]
    cases hv : Interp.fillVector s.basis.dim s.codim s.n w s.vec with
    | error e => exact .inl ⟨_, rfl, rfl⟩
    | ok v =>
      refine .inr ⟨v, rfl, ?_⟩
      simp only [ok_bind]
      unfold Interp.size
      simp only
      split_ifs <;> rfl
  cases hsol : s.solveInterpolation lu tau w with
  | error e => rw [hsol] at key; exact .inl ⟨e, key, rfl⟩
  | ok p =>
    rw [hsol] at key
    refine .inr ⟨p, key, .inr ⟨tau.sum, Has.sum h1 h2 tau, ?_⟩⟩
    simp only [ok_bind]
    cases hg : GSpline.make (0, tau.sum) p.1.codim p.1.n p.1.basis p.2 tau with
    | error e => exact .inl ⟨_, rfl, rfl⟩
    | ok g => exact .inr ⟨g, rfl, rfl⟩

end

/-! ## No access out of range -/

theorem safe_scale (u : ℝ × ℝ) (n : ℕ) (c : ℝ) (v : Vec) : All (scale u n c v) Safe :=
  safe_loop (fun _ _ => safe_bind (safe_near _ _) fun _ => safe_pure _) _

theorem safe_legendre (u : ℝ × ℝ) {dim : ℕ} (hd : 2 ≤ dim) (s : ℝ) : All (legendre u dim s) Safe :=
  safe_evalOnWindow u (b := .legendre dim) (fun d e => by cases e; exact hd) s 1

theorem safe_dmat1 (u : ℝ × ℝ) (n : ℕ) (x : Vec) : All (dmat1 u n x) Safe := by
  unfold dmat1
  refine safe_bind (safe_baryWeights _ _ _) fun bw => safe_loop (fun i m => safe_loop (fun j m => ?_) _) _
  unfold dmatEntry
  split_ifs
  · exact safe_bind (safe_quot _ _ _) fun _ => safe_bind (safe_near _ _) fun _ => safe_bind (safe_near _ _) fun _ => safe_bind (safe_quot _ _ _) fun _ =>
      safe_bind (safe_near _ _) fun _ => safe_pure _
  · exact safe_pure _

theorem safe_dmat (u : ℝ × ℝ) (n : ℕ) (x : Vec) (deg : ℕ) : All (dmat u n x deg) Safe := by
  unfold dmat
  split_ifs
  · exact safe_pure _
  · exact safe_dmat1 u n x
  · refine safe_bind (safe_dmat1 u n x) fun _ => safe_bind (safe_dmat1 u n x) fun _ => safe_bind (safe_baryWeights _ _ _) fun bw => safe_bind (safe_loop (fun k st => ?_) _) fun _ => safe_pure _
    refine safe_bind (safe_loop (fun i m => safe_loop (fun j m => ?_) _) _) fun _ => safe_pure _
    unfold dmatEntryK
    split_ifs
    · exact safe_bind (safe_near _ _) fun _ => safe_bind (safe_quot _ _ _) fun _ => safe_bind (safe_quot _ _ _) fun _ => safe_bind (safe_near _ _) fun _ =>
        safe_bind (safe_near _ _) fun _ => safe_bind (safe_near _ _) fun _ => safe_bind (safe_near _ _) fun _ => safe_pure _
    · exact safe_pure _

theorem safe_dot (u : ℝ × ℝ) (a b : List ℝ) : All (dot u a b) Safe :=
  safe_bind (safe_mapM fun _ _ => safe_near _ _) fun _ => safe_sum _ _

theorem safe_evalDeriv (u : ℝ × ℝ) {b : Basis} (hb : b.Valid) (s tau : ℝ) {deg : ℕ} (hd : b.OrderOk deg) : All (evalDerivOnWindow u b s tau deg) Safe := by
  cases b with
  | legendre d =>
    have h1 : 2 ≤ d := hb
    have h2 : deg < d := hd
    unfold evalDerivOnWindow legendreDeriv
    simp only
    rw [if_neg (by omega)]
    refine safe_bind (safe_legendre u h1 s) fun v => safe_bind (safe_loop (fun i st => ?_) _) fun st => safe_scale _ _ _ _
    unfold legendreOuter
    refine safe_bind (safe_loop (fun i next => ?_) _) fun _ => safe_bind (safe_quot _ _ _) fun _ => safe_bind (safe_near _ _) fun _ => safe_bind (safe_near _ _) fun _ =>
      safe_bind (safe_quot _ _ _) fun _ => safe_bind (safe_near _ _) fun _ => safe_pure _
    unfold legendreInner
    exact safe_bind (safe_near _ _) fun _ => safe_bind (safe_near _ _) fun _ => safe_bind (safe_near _ _) fun _ => safe_bind (safe_near _ _) fun _ =>
      safe_bind (safe_quot _ _ _) fun _ => safe_bind (safe_near _ _) fun _ => safe_bind (safe_near _ _) fun _ => safe_bind (safe_near _ _) fun _ => safe_pure _
  | b0101 a =>
    unfold evalDerivOnWindow b0101Deriv
    simp only
    refine safe_bind (safe_near _ _) fun _ => safe_bind (safe_near _ _) fun _ => safe_bind (safe_near _ _) fun _ => safe_bind (safe_near _ _) fun _ =>
      safe_bind (safe_near _ _) fun _ => safe_bind (safe_near _ _) fun _ => safe_bind (safe_quot _ _ _) fun _ => safe_bind (safe_near _ _) fun _ =>
      safe_bind (safe_near _ _) fun _ => safe_bind (safe_near _ _) fun _ => safe_bind (safe_near _ _) fun _ => safe_bind (safe_near _ _) fun _ =>
      safe_bind (safe_near _ _) fun _ => safe_bind (safe_near _ _) fun _ => safe_bind (safe_quot _ _ _) fun _ => safe_bind (safe_quot _ _ _) fun _ => safe_loop (fun i v => ?_) _
    unfold b0101Step
    exact safe_bind (safe_near _ _) fun _ => safe_bind (safe_near _ _) fun _ => safe_bind (safe_near _ _) fun _ => safe_bind (safe_near _ _) fun _ =>
      safe_bind (safe_near _ _) fun _ => safe_scale _ _ _ _
  | lagrange x =>
    unfold evalDerivOnWindow lagrangeDeriv
    simp only
    refine safe_bind (safe_baryWeights _ _ _) fun w => safe_bind (safe_lagrange _ _ _ _ _) fun v => ?_
    split_ifs
    · exact safe_pure _
    · exact safe_bind (safe_quot _ _ _) fun _ => safe_bind (safe_near _ _) fun _ => safe_bind (safe_dmat _ _ _ _) fun _ =>
        safe_loop (fun i r => safe_bind (safe_dot _ _ _) fun _ => safe_bind (safe_near _ _) fun _ => safe_pure _) _

theorem safe_loop_lt {σ : Type} {a b : ℕ} {body : ℕ → σ → Nd σ} (h : ∀ i < b, ∀ s, All (body i s) Safe) (s : σ) : All (loop a b body s) Safe := by
  refine safe_foldlM (fun i hi => h i ?_) s
  rw [List.mem_range'] at hi
  obtain ⟨k, hk, rfl⟩ := hi
  omega

theorem safe_fillMatrix (u : ℝ × ℝ) {b : Basis} {h n c : ℕ} (hb : Usable b h) (hn : 0 < n) (tau : List ℝ) (m : Mat) : All (Rounded.fillMatrix u b c n tau m) Safe := by
  by_cases hl : tau.length = n
  swap
  · intro r hr
    unfold Rounded.fillMatrix at hr
    rw [if_pos hl] at hr
    rw [show r = _ from hr]
    simp [Safe]
  have H : ∀ s t, All (Rounded.fillBuffers u b s t) (Out (fun e => e ≠ .ub) fun _ => True) := by
    intro s t r hr
    have : Safe r := by
      refine (safe_bind (safe_evalDeriv u hb.valid s t (hb.order (Nat.zero_le _))) fun p => safe_bind (safe_loop_lt (fun j hj m => ?_) _) fun _ => safe_pure _) r hr
      exact safe_bind (safe_evalDeriv u hb.valid s t (hb.order (show j + 1 ≤ b.dim - 2 by omega))) fun _ => safe_pure _
    cases r with
    | error e => exact .inl ⟨e, fun he => this (by rw [he]), rfl⟩
    | ok a => exact .inr ⟨a, trivial, rfl⟩
  intro r hr
  rcases fillMatrix_out (E := fun e => e ≠ .ub) (G := fun _ _ _ => True) (fun iv _ s _ => H s _) hn hl m r hr with ⟨e, he, rfl⟩ | ⟨a, -, rfl⟩
  · simpa [Safe] using he
  · simp [Safe]

theorem safe_interpolate (u : ℝ × ℝ) (lu : LU) {s : Interp} {h : ℕ} (hb : Usable s.basis h) (hn : 0 < s.n) (tau : List ℝ) {w : Pts} (hw : s.n + 1 ≤ w.rows) (hw2 : s.codim ≤ w.cols) :
    All (Rounded.interpolate u lu s tau w) Safe := by
  unfold Rounded.interpolate
  have hlift : ∀ {α : Type} (e : Err), e ≠ .ub → All (lift (.error e) : Nd α) Safe := fun e he r hr => by rw [show r = _ from hr]; simpa [Safe] using he
  refine safe_bind ?_ fun p => safe_bind (safe_sum _ _) fun e => safe_bind ?_ fun _ => safe_pure _
  · unfold Rounded.solveInterpolation
    split_ifs with hs
    · exact hlift _ (by decide)
    · obtain ⟨v, hv, -⟩ := fillVector_ok (h := h) hn hw hw2 s.vec
      rw [← hb.dim] at hv
      refine safe_bind (safe_fillMatrix u hb hn tau s.mat) fun m => ?_
      rw [hv]
      refine safe_bind (safe_lift_ok v) fun v => ?_
      split_ifs <;> exact safe_pure _
  · unfold GSpline.make
    split_ifs
    · exact hlift _ (by decide)
    · exact safe_lift_ok _
    · exact hlift _ (by decide)

end GSplines.Rounded
