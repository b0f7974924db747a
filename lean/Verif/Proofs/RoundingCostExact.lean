import Verif.Proofs.RoundingCost
import Verif.Proofs.RoundingReg
import Verif.Proofs.RoundingInterpExact

/-! # Value and gradient of the cost: the exact ones are possible outcomes; no access is out of range -/

namespace GSplines.Rounded

open Nd Spec Interp Sobolev

theorem gradX_reg (b : Basis) (mem : LagMem) (ws : List (ℕ × ℝ)) (n codim : ℕ) (tau y d : Vec) (idx : ℕ) : Reg fun u => gradX u b mem ws n codim tau y d idx := by
  unfold gradX
  exact Reg.bind (weighted_reg (fun k m => addDerivMatrixDtau_reg b mem _ k m) ws) fun m => Reg.bind (Reg.loop (fun c r => addFormX_reg b codim m y y idx c r) 0) fun r =>
    Reg.bind (innerX_reg b mem ws n codim tau y d) fun p => Reg.bind (Reg.near _) fun q => Reg.near _

theorem matVec_reg (n : ℕ) (d : Mat) (y : Vec) : Reg fun u => matVec u n d y := by
  unfold matVec
  exact Reg.loop (fun i r => Reg.bind (dot_reg _ _) fun e => Reg.pure _) _

/-- A loop all of whose passes may end as wanted. -/
theorem loop_ex {σ : Type} (P : ℕ → σ → Prop) {a b : ℕ} (hab : a ≤ b) {body : ℕ → σ → Nd σ} {s : σ} (h0 : P a s)
    (hs : ∀ i, a ≤ i → i < b → ∀ st, P i st → ∃ st', Has (body i st) st' ∧ P (i + 1) st') : ∃ st', Has (Nd.loop a b body s) st' ∧ P b st' := by
  unfold Nd.loop
  obtain ⟨d, rfl⟩ : ∃ d, b = a + d := ⟨b - a, by omega⟩
  rw [show a + d - a = d by omega]
  clear hab
  induction d generalizing a s with
  | zero => exact ⟨s, .pure _, h0⟩
  | succ d ih =>
    simp only [List.range'_succ, List.foldlM_cons]
    obtain ⟨s1, h1, h2⟩ := hs a le_rfl (by omega) s h0
    obtain ⟨s2, h3, h4⟩ := ih h2 fun i h3 h4 => hs i (by omega) (by omega)
    exact ⟨s2, .bind h1 h3, by rwa [show a + (d + 1) = a + 1 + d by omega]⟩

section
variable {u : ℝ × ℝ} (h1 : 0 ≤ u.1) (h2 : 0 ≤ u.2)
include h1 h2

theorem tauScale_has (dim : ℕ) {tau : ℝ} (ht : tau ≠ 0) (deg : ℕ) (v : Vec) :
    ∃ z : Vec, Has (tauScale u dim tau deg v) z ∧ ∀ k < dim, z k = v k * (-(1 / 2) * (deg : ℝ) * (2 / tau)) := by
  obtain ⟨z, hz, hz1, -⟩ := scale_has h1 h2 dim (-(1 / 2) * (deg : ℝ) * (2 / tau)) v
  exact ⟨z, .bind (.near h1 h2 _) (.bind (.quot h1 h2 _ ht) (.bind (.near h1 h2 _) hz)), hz1⟩

theorem b0101Tau_has {a : ℝ} (ha : a < 1) (s tau : ℝ) (deg : ℕ) :
    ∃ z : Vec, Has (b0101Tau u a s tau deg) z ∧ ∀ k < 6, z k = B0101.evalDerivWrtTauOnWindow a s tau deg k := by
  have hd : (0 : ℝ) < 1 - a := by linarith
  obtain ⟨z, hz, hz1, -⟩ := scale_has h1 h2 6 (s * B0101.kOf a) (B0101.dstep (B0101.evalDerivOnWindow a s tau deg))
  exact ⟨z, .bind (.near h1 h2 _) (.bind (.near h1 h2 _) (.bind (.near h1 h2 _) (.bind (.near h1 h2 _) (.bind (.near h1 h2 _) (.bind (.near h1 h2 _)
    (.bind (.quot h1 h2 _ (Real.rpow_pos_of_pos hd _).ne') (.bind (b0101Deriv_has h1 h2 ha s tau deg) (.bind (.near h1 h2 _) (.bind (.near h1 h2 _) (.bind (.near h1 h2 _)
    (.bind (.near h1 h2 _) (.bind (.near h1 h2 _) hz)))))))))))), hz1⟩

theorem evalDerivWrtTau_has {b : Basis} (hb : b.Valid) (s : ℝ) {tau : ℝ} (ht : tau ≠ 0) {deg : ℕ} (hd : b.OrderOk deg) :
    ∃ z : Vec, Has (evalDerivWrtTau u b s tau deg) z ∧ ∀ k < b.dim, z k = b.evT s tau deg k := by
  have hev := (Basis.tau_spec hb s tau deg hd).1 tau
  cases b with
  | b0101 a =>
    obtain ⟨z, h1, h2⟩ := b0101Tau_has h1 h2 hb.2 s tau deg
    exact ⟨z, h1, fun k hk => by rw [h2 k hk, Basis.evT_of (b := .b0101 a) rfl]⟩
  | legendre d =>
    obtain ⟨z, h3, h4⟩ := evalDeriv_has h1 h2 hb s ht hd
    obtain ⟨y, h5, h6⟩ := tauScale_has h1 h2 d ht deg z
    refine ⟨y, .bind h3 h5, fun k hk => ?_⟩
    have e : (Basis.legendre d).evalDerivWrtTauOnWindow s tau deg = .ok fun i => (Basis.legendre d).ev s tau deg i * (-(1 / 2) * (deg : ℝ) * (2 / tau)) := by
      change Legendre.evalDerivWrtTauOnWindow d s tau deg = _
      unfold Legendre.evalDerivWrtTauOnWindow
      rw [show Legendre.evalDerivOnWindow d s tau deg = .ok _ from hev]
      rfl
    rw [h6 k hk, h4 k hk, Basis.evT_of e]
  | lagrange x =>
    obtain ⟨z, h3, h4⟩ := evalDeriv_has h1 h2 hb s ht hd
    obtain ⟨y, h5, h6⟩ := tauScale_has h1 h2 x.length ht deg z
    refine ⟨y, .bind h3 h5, fun k hk => ?_⟩
    rw [h6 k hk, h4 k hk, Basis.evT_of (b := .lagrange x) rfl, Basis.ev_of (b := .lagrange x) rfl]
    rfl

theorem fillBuffersTau_has {b : Basis} {h : ℕ} (hb : Usable b h) (s : ℝ) {tau : ℝ} (ht : tau ≠ 0) : ∃ q, Has (fillBuffersTau u b s tau) q ∧ BufNearT b 0 s tau q := by
  obtain ⟨z0, c0, e0⟩ := evalDerivWrtTau_has h1 h2 hb.valid s ht (hb.order (Nat.zero_le _))
  have hz : ∀ j, ∃ z : Vec, j < b.dim - 2 → Has (evalDerivWrtTau u b s tau (j + 1)) z ∧ ∀ k < b.dim, z k = b.evT s tau (j + 1) k := by
    intro j
    by_cases hj : j < b.dim - 2
    · obtain ⟨z, h1, h2⟩ := evalDerivWrtTau_has h1 h2 hb.valid s ht (hb.order (show j + 1 ≤ b.dim - 2 by omega))
      exact ⟨z, fun _ => ⟨h1, h2⟩⟩
    · exact ⟨fun _ => 0, fun h => absurd h hj⟩
  choose z hz using hz
  refine ⟨_, .bind c0 (.bind (Has.loop (exact := fun j (m : Mat) => fun k j' => if j' = j then z j k else m k j') (fun j _ hj m => .bind (hz j hj).1 (.pure _)) _) (.pure _)),
    fun k hk => ?_, fun k hk j hj => ?_⟩
  · simp only; rw [e0 k hk]; simp
  · simp only; rw [columns_loop _ _ _ _ hj, (hz j hj).2 k hk]; simp

theorem fillDer_has {b : Basis} {h n c idx : ℕ} (hb : Usable b h) (hi : idx < n) {tau : List ℝ} (hl : tau.length = n) (ht : vecOf tau idx ≠ 0) {m0 : Mat} (hm : CleanI n c h idx m0) :
    ∃ d, Has (fillDer u b c n tau idx m0) d ∧ ∀ x : Cond n c h, d (row n c h x) = overI idx (bufsT b (vecOf tau)) x fun _ => 0 := by
  obtain ⟨l, hl1, hl2⟩ := fillBuffersTau_has h1 h2 hb (-1) ht
  obtain ⟨r, hr1, hr2⟩ := fillBuffersTau_has h1 h2 hb 1 ht
  refine ⟨derBlocks b.dim c n idx l r m0, ?_, fun x => ?_⟩
  · unfold fillDer
    rw [rd_ok (show idx < tau.length by omega)]
    exact .bind (.lift _) (.bind hl1 (.bind hr1 (.pure _)))
  · have hrow : derBlocks b.dim c n idx l r m0 (row n c h x) = overI idx ⟨fun _ => l.1, fun _ => l.2, fun _ => r.1, fun _ => r.2⟩ x fun _ => 0 := by
      rw [derBlocks_eq hi, hb.dim]; exact derP_rows _ hi hm x
    rw [hrow]
    funext k
    have := overI_near hb le_rfl hl2 hr2 x k
    rw [abs_nonpos_iff] at this
    linarith

theorem matVec_has (n : ℕ) (d : Mat) (y : Vec) : ∃ z, Has (matVec u n d y) z ∧ ∀ k < n, z k = d.mulVec n y k := by
  obtain ⟨z, hz, ez⟩ := matVec_conv n d y
  exact ⟨z, Reg.has (F := fun u (q : Mat × Vec) => matVec u n q.1 q.2) (x := (d, y)) (matVec_reg n d y) hz h1 h2, ez⟩

/-- One of the runs finds the exact coefficients. -/
theorem solve_has {b : Basis} (hb : Interpolable b) {tau : List ℝ} (hne : tau ≠ []) (ht : ∀ t ∈ tau, 1 / 10 ^ 6 ≤ t) {w : Pts} (hw : w.rows = tau.length + 1) {lu : LU}
    (hlu : LUContract lu) {s : Interp} (I : Inv (b.dim / 2 - 1) s) (e1 : s.basis = b) (e2 : s.codim = w.cols) (e3 : s.n = tau.length) :
    ∃ q, Has (Rounded.solveInterpolation u lu s tau w) q ∧ q.2.length = b.dim * w.cols * tau.length ∧
      ∀ k < b.dim * w.cols * tau.length, vecOf q.2 k = sol b tau.length w.cols w.at' (vecOf tau) k := by
  have U := Props.usable_of hb.valid hb.even hb.ne hb.left hb.right
  have hn : 0 < tau.length := List.length_pos_of_ne_nil hne
  have hpos : ∀ i < tau.length, 0 < vecOf tau i := fun i hi' => vecOf_pos (fun t h => lt_of_lt_of_le (by norm_num) (ht t h)) hi'
  have hind : Independent b := by
    cases b with
    | b0101 a => exact hb.pos a rfl
    | _ => trivial
  obtain ⟨h, hh⟩ : ∃ h, h = b.dim / 2 - 1 := ⟨_, rfl⟩
  rw [← hh] at U I
  have hmat : Clean tau.length w.cols h s.mat := by have := I.mat; rwa [e2, e3] at this
  have hvec : ∀ x : Cond tau.length w.cols h, ¬ IsValue x → s.vec (row tau.length w.cols h x) = 0 := by
    have := I.vec; rw [e2, e3] at this; exact this
  obtain ⟨N, hN⟩ : ∃ N, N = b.dim * w.cols * tau.length := ⟨_, rfl⟩
  have hsz : s.size = N := by unfold Interp.size; rw [e1, e2, e3, hN]
  have hm := fillMatrix_has h1 h2 (c := w.cols) U hn rfl (fun i hi => (hpos i hi).ne') s.mat
  obtain ⟨A, hA⟩ : ∃ A, A = fillP b.dim w.cols tau.length (bufs b (vecOf tau)) s.mat := ⟨_, rfl⟩
  have S : System b h tau.length w.cols (vecOf tau) A := ⟨fun x => by rw [hA, U.dim]; exact fillP_rows _ hn hmat x⟩
  rw [← hA] at hm
  obtain ⟨v, hv, hrow⟩ := fillVector_ok (n := tau.length) (c := w.cols) (h := h) hn (w := w) (by omega) le_rfl s.vec
  rw [← U.dim] at hv
  have hrow' : ∀ q : Cond tau.length w.cols h, v (row tau.length w.cols h q) = q.target w.at' := fun q => by
    rw [hrow q]
    split_ifs with hq
    · rfl
    · rw [hvec q hq]
      cases q with
      | start iv comp => exact absurd trivial hq
      | stop iv comp => exact absurd trivial hq
      | _ => rfl
  have hinv := system_invertible U hind hn hpos S
  rw [← hN] at hinv ⊢
  have hsucc := hlu.succeeds N A hinv
  have hI : Interpolates b tau.length w.cols (vecOf tau) w.at' (lu.solve N A v) :=
    (solves_iff U hn (fun i hi => (hpos i hi).ne') S hrow' _).mp (hN ▸ hlu.solves N A v hsucc)
  refine ⟨({ s with mat := A, vec := v, sol := (List.range s.size).map (lu.solve s.size A v) }, (List.range s.size).map (lu.solve s.size A v)), ?_, by simp [hsz], fun k hk => ?_⟩
  · unfold Rounded.solveInterpolation
    rw [if_neg (by push Not; exact ht), e1, e2, e3]
    refine .bind hm ?_
    rw [hv]
    refine .bind (.lift _) ?_
    rw [if_pos (by rw [hsz]; exact hsucc)]
    exact .pure _
  · rw [hsz, vecOf_map_range hk]
    exact (sol_spec hb hn hpos).2 _ hI k (hN ▸ hk)

/-- One of the runs finds the exact derivatives of the coefficients. -/
theorem coeff_has {b : Basis} (hb : Interpolable b) {tau : List ℝ} (ht : ∀ t ∈ tau, 1 / 10 ^ 6 ≤ t) {c : ℕ} {w : ℕ → ℕ → ℝ} {idx : ℕ} (hi : idx < tau.length) {lu : LU}
    (hlu : LUContract lu) {s : Interp} (I : Inv (b.dim / 2 - 1) s) (e1 : s.basis = b) (e2 : s.codim = c) (e3 : s.n = tau.length) {y : List ℝ}
    (hy : y.length = b.dim * c * tau.length) (hyn : ∀ k < b.dim * c * tau.length, vecOf y k = sol b tau.length c w (vecOf tau) k) :
    ∃ q, Has (Rounded.coeffDerivative u lu s y tau idx) q ∧
      ∀ k < b.dim * c * tau.length, HasDerivAt (fun z => sol b tau.length c w (Function.update (vecOf tau) idx z) k) (q.2 k) (vecOf tau idx) := by
  have U := Props.usable_of hb.valid hb.even hb.ne hb.left hb.right
  have hn : 0 < tau.length := by omega
  have hpos : ∀ i < tau.length, 0 < vecOf tau i := fun i hi' => vecOf_pos (fun t h => lt_of_lt_of_le (by norm_num) (ht t h)) hi'
  have hind : Independent b := by
    cases b with
    | b0101 a => exact hb.pos a rfl
    | _ => trivial
  obtain ⟨A, inv, D, d0, hS, hinv, hinv', hDrow, hd0, hder⟩ := exact_problem hb ht c w hi
  obtain ⟨h, hh⟩ : ∃ h, h = b.dim / 2 - 1 := ⟨_, rfl⟩
  rw [← hh] at U I hDrow hS
  obtain ⟨N, hN⟩ : ∃ N, N = b.dim * c * tau.length := ⟨_, rfl⟩
  rw [← hN] at hy hyn hinv hinv' hd0 hder ⊢
  have hsz : s.size = N := by unfold Interp.size; rw [e1, e2, e3, hN]
  have hmat : Clean tau.length c h s.mat := by have := I.mat; rwa [e2, e3] at this
  have hcl : CleanI tau.length c h idx (s.ders idx) := by have := I.ders idx (by omega); rwa [e2, e3] at this
  obtain ⟨d, hd, hdrow⟩ := fillDer_has h1 h2 U hi rfl (hpos idx hi).ne' hcl
  obtain ⟨v, hv, ev⟩ := matVec_has h1 h2 N d (vecOf y)
  have hm := fillMatrix_has h1 h2 (c := c) U hn rfl (fun i hi => (hpos i hi).ne') s.mat
  obtain ⟨B, hB⟩ : ∃ B, B = fillP b.dim c tau.length (bufs b (vecOf tau)) s.mat := ⟨_, rfl⟩
  have S : System b h tau.length c (vecOf tau) B := ⟨fun x => by rw [hB, U.dim]; exact fillP_rows _ hn hmat x⟩
  rw [← hB] at hm
  have hBinv := system_invertible U hind hn hpos S
  rw [← hN] at hBinv
  have hsucc := hlu.succeeds N B hBinv
  have hsolve := hlu.solves N B v hsucc
  have hrows : ∀ r < N, B r = A r ∧ d r = D r := fun r hr => by
    rw [hN, U.dim] at hr
    obtain ⟨x, rfl⟩ := row_surj (n := tau.length) (c := c) (h := h) hn hr
    exact ⟨(S.rows x).trans (hS.rows x).symm, (hdrow x).trans (hDrow x).symm⟩
  have hd0' : Solves N B d0 v := fun r hr => by
    rw [(hrows r hr).1, hd0 r hr, ev r hr]
    unfold Mat.mulVec
    rw [(hrows r hr).2]
    exact Finset.sum_congr rfl fun k hk => by rw [hyn k (Finset.mem_range.mp hk)]
  have huniq := Interp.Invertible.unique hBinv hsolve hd0'
  refine ⟨({ s with mat := B, ders := setAt s.ders idx d, coef := fun i => - lu.solve s.size B v i }, fun i => - lu.solve s.size B v i), ?_, fun k hk => ?_⟩
  · unfold Rounded.coeffDerivative
    rw [if_neg (by push Not; exact ht), if_neg (by push Not; omega), e1, e2, e3]
    refine .bind hd ?_
    unfold Rounded.solveDerivative
    rw [if_neg (by rw [hsz]; simpa using hy), e1, e2, e3]
    refine .bind (by rw [hsz]; exact hv) (.bind hm ?_)
    rw [if_pos (by rw [hsz]; exact hsucc)]
    exact .pure _
  · simp only
    rw [hsz, huniq k hk]
    exact hder k hk

theorem cost_has {b : Basis} (hb : Interpolable b) {weights : List (ℕ × ℝ)} (ho : ∀ p ∈ weights, Adds b p.1) {mem : LagMem}
    {tau : List ℝ} (hne : tau ≠ []) (ht : ∀ t ∈ tau, 1 / 10 ^ 6 ≤ t) {w : Pts} (hw : w.rows = tau.length + 1) {lu : LU} (hlu : LUContract lu) {s : Sobolev} (hs : RSReach w b weights mem s) :
    ∃ s', Rounded.cost u lu s tau (.ok (s', costFn b mem weights tau.length w.cols w.at' (vecOf tau))) := by
  have U := Props.usable_of hb.valid hb.even hb.ne hb.left hb.right
  have hn : 0 < tau.length := List.length_pos_of_ne_nil hne
  have hpos : ∀ i < tau.length, 0 < vecOf tau i := fun i hi' => vecOf_pos (fun t h => lt_of_lt_of_le (by norm_num) (ht t h)) hi'
  obtain ⟨⟨I, e1, e2, e3⟩, rfl, rfl, rfl⟩ := rsreach_inv U.dim (by omega) hs
  have e3' : s.interp.n = tau.length := by omega
  obtain ⟨p, hp, hpl, hpn⟩ := solve_has h1 h2 hb hne ht hw hlu I e1 e2 e3'
  obtain ⟨-, f1, f2, f3⟩ := solve_inv (by omega) I hp
  have hc := innerX_conv hb.valid (posParam_of hb) s.mem ho (n := tau.length) (codim := s.points.cols) (fun i hi => (hpos i hi).ne') (vecOf p.2) (vecOf p.2)
  have hX := Reg.has (F := fun u (q : Vec × Vec) => innerX u b s.mem s.weights tau.length s.points.cols (vecOf tau) q.1 q.2) (x := (vecOf p.2, vecOf p.2))
    (innerX_reg _ _ _ _ _ _ _ _) hc h1 h2
  rw [show (costFn b s.mem s.weights tau.length s.points.cols s.points.at' (vecOf tau)) = _ from total_congr (fun _ _ _ _ _ _ => rfl) (fun k hk => (hpn k hk).symm) (fun k hk => (hpn k hk).symm)]
  refine ⟨{ s with interp := p.1 }, ?_⟩
  change Has _ _
  refine .bind hp ?_
  rw [f1, f2, f3, e1, e2, e3', innerProd_eq rfl hpl hpl]
  exact .bind hX (.pure _)

theorem grad_has {b : Basis} (hb : Interpolable b) {weights : List (ℕ × ℝ)} (ho : ∀ p ∈ weights, Adds b p.1) (ho' : ∀ p ∈ weights, AddsDtau b p.1) {mem : LagMem}
    {tau : List ℝ} (hne : tau ≠ []) (ht : ∀ t ∈ tau, 1 / 10 ^ 6 ≤ t) {w : Pts} (hw : w.rows = tau.length + 1) {lu : LU} (hlu : LUContract lu) {s : Sobolev} (hs : RSReach w b weights mem s)
    {buff : List ℝ} (hbuff : tau.length ≤ buff.length) :
    ∃ s' out, Rounded.grad u lu s tau buff (.ok (s', out)) ∧ out.length = buff.length ∧ (∀ idx < tau.length, ∃ d : Vec,
        (∀ k < b.dim * w.cols * tau.length, HasDerivAt (fun z => sol b tau.length w.cols w.at' (Function.update (vecOf tau) idx z) k) (d k) (vecOf tau idx)) ∧
        vecOf out idx = gradFn b mem weights tau.length w.cols (vecOf tau) (sol b tau.length w.cols w.at' (vecOf tau)) d idx) ∧
      ∀ idx, tau.length ≤ idx → vecOf out idx = vecOf buff idx := by
  have U := Props.usable_of hb.valid hb.even hb.ne hb.left hb.right
  have hn : 0 < tau.length := List.length_pos_of_ne_nil hne
  have hpos : ∀ i < tau.length, 0 < vecOf tau i := fun i hi' => vecOf_pos (fun t h => lt_of_lt_of_le (by norm_num) (ht t h)) hi'
  obtain ⟨⟨I, e1, e2, e3⟩, rfl, rfl, rfl⟩ := rsreach_inv U.dim (by omega) hs
  have e3' : s.interp.n = tau.length := by omega
  obtain ⟨p, hp, hpl, hpn⟩ := solve_has h1 h2 hb hne ht hw hlu I e1 e2 e3'
  obtain ⟨I', f1, f2, f3⟩ := solve_inv (by omega) I hp
  obtain ⟨st, hst, -, g2, g3, g4⟩ := loop_ex (fun k (st : Interp × List ℝ) => (Inv (b.dim / 2 - 1) st.1 ∧ st.1.basis = b ∧ st.1.codim = s.points.cols ∧ st.1.n = tau.length) ∧
      st.2.length = buff.length ∧ (∀ idx < k, ∃ d : Vec,
        (∀ k < b.dim * s.points.cols * tau.length, HasDerivAt (fun z => sol b tau.length s.points.cols s.points.at' (Function.update (vecOf tau) idx z) k) (d k) (vecOf tau idx)) ∧
        vecOf st.2 idx = gradFn b s.mem s.weights tau.length s.points.cols (vecOf tau) (sol b tau.length s.points.cols s.points.at' (vecOf tau)) d idx) ∧
      ∀ idx, k ≤ idx → vecOf st.2 idx = vecOf buff idx) (Nat.zero_le tau.length) (s := (p.1, buff)) (body := gradStep u lu s tau p.2)
    ⟨⟨I', f1.trans e1, f2.trans e2, f3.trans e3'⟩, rfl, fun idx h => absurd h (by omega), fun _ _ => rfl⟩ (by
      rintro idx - hidx st ⟨⟨J, k1, k2, k3⟩, g2, g3, g4⟩
      obtain ⟨N, hN⟩ : ∃ N, N = b.dim * s.points.cols * tau.length := ⟨_, rfl⟩
      obtain ⟨q, hq, hqd⟩ := coeff_has h1 h2 hb ht hidx hlu J k1 k2 k3 hpl hpn
      obtain ⟨J', l1, l2, l3⟩ := coeff_inv (by omega) J hq
      have hsz : q.1.size = N := by unfold Interp.size; rw [l1, l2, l3, k1, k2, k3, hN]
      have hc := gradX_conv hb.valid (posParam_of hb) s.mem ho ho' (n := tau.length) (codim := s.points.cols) (fun i hi => (hpos i hi).ne') hidx (vecOf p.2) (vecOf ((List.range N).map q.2))
      have hX := Reg.has (F := fun u (r : Vec × Vec) => gradX u b s.mem s.weights tau.length s.points.cols (vecOf tau) r.1 r.2 idx) (x := (vecOf p.2, vecOf ((List.range N).map q.2)))
        (gradX_reg _ _ _ _ _ _ _ _ _) hc h1 h2
      obtain ⟨g, hg⟩ : ∃ g, g = gradFn b s.mem s.weights tau.length s.points.cols (vecOf tau) (vecOf p.2) (vecOf ((List.range N).map q.2)) idx := ⟨_, rfl⟩
      rw [← hg] at hX
      have hg' : g = gradFn b s.mem s.weights tau.length s.points.cols (vecOf tau) (sol b tau.length s.points.cols s.points.at' (vecOf tau)) q.2 idx := by
        rw [hg]
        unfold gradFn
        congr 1
        · refine Finset.sum_congr rfl fun c hc => form_congr (fun _ _ _ _ => rfl) (fun k hk => ?_) fun k hk => ?_
          · simp only [part]; rw [hpn _ (part_bound hidx (Finset.mem_range.mp hc) hk)]
          · simp only [part]; rw [hpn _ (part_bound hidx (Finset.mem_range.mp hc) hk)]
        · congr 1
          exact total_congr (fun _ _ _ _ _ _ => rfl) hpn (fun k hk => by rw [vecOf_map_range (hN ▸ hk)])
      refine ⟨(q.1, st.2.set idx g), ?_, ⟨J', l1.trans k1, l2.trans k2, l3.trans k3⟩, by simpa using g2, fun k hk => ?_, fun k hk => ?_⟩
      · unfold gradStep
        refine .bind hq ?_
        rw [hsz, l1, l2, l3, k1, k2, k3, gradEntry_eq rfl hidx hpl (by simp [hN])]
        refine .bind hX ?_
        unfold store
        rw [if_pos (by omega)]
        exact .bind (.lift _) (.pure _)
      · simp only
        rw [vecOf_set (by omega)]
        by_cases hk' : k = idx
        · subst hk'; rw [Function.update_self]; exact ⟨q.2, hqd, hg'⟩
        · rw [Function.update_of_ne hk']; exact g3 k (by omega)
      · simp only
        rw [vecOf_set (by omega), Function.update_of_ne (by omega)]
        exact g4 k (by omega))
  refine ⟨{ s with interp := st.1 }, st.2, ?_, g2, g3, g4⟩
  change Has _ _
  refine .bind hp ?_
  rw [f3, e3']
  exact .bind hst (.pure _)

end

/-! ## No access out of range -/

/-- The outcomes that are not an access out of range. -/
theorem out_safe {α : Type} {p : Nd α} (h : All p Safe) : All p (Out (fun e => e ≠ .ub) fun a => p (.ok a)) := by
  intro r hr
  cases r with
  | error e => exact .inl ⟨e, fun he => h _ hr (by rw [he]), rfl⟩
  | ok a => exact .inr ⟨a, hr, rfl⟩

theorem safe_out {α : Type} {p : Nd α} {P : α → Prop} (h : All p (Out (fun e => e ≠ .ub) P)) : All p Safe := by
  intro r hr
  rcases h r hr with ⟨e, he, rfl⟩ | ⟨a, -, rfl⟩
  · simpa [Safe] using he
  · simp [Safe]

theorem safe_evalDerivWrtTau (u : ℝ × ℝ) {b : Basis} (hb : b.Valid) (s tau : ℝ) {deg : ℕ} (hd : b.OrderOk deg) : All (evalDerivWrtTau u b s tau deg) Safe := by
  have ht : ∀ dim v, All (tauScale u dim tau deg v) Safe := fun dim v =>
    safe_bind (safe_near _ _) fun _ => safe_bind (safe_quot _ _ _) fun _ => safe_bind (safe_near _ _) fun _ => safe_scale _ _ _ _
  cases b with
  | b0101 a =>
    exact safe_bind (safe_near _ _) fun _ => safe_bind (safe_near _ _) fun _ => safe_bind (safe_near _ _) fun _ => safe_bind (safe_near _ _) fun _ =>
      safe_bind (safe_near _ _) fun _ => safe_bind (safe_near _ _) fun _ => safe_bind (safe_quot _ _ _) fun _ => safe_bind (safe_evalDeriv u hb s tau hd) fun _ =>
      safe_bind (safe_near _ _) fun _ => safe_bind (safe_near _ _) fun _ => safe_bind (safe_near _ _) fun _ => safe_bind (safe_near _ _) fun _ =>
      safe_bind (safe_near _ _) fun _ => safe_scale _ _ _ _
  | legendre d => exact safe_bind (safe_evalDeriv u hb s tau hd) fun v => ht _ v
  | lagrange x => exact safe_bind (safe_evalDeriv u hb s tau hd) fun v => ht _ v

theorem safe_fillDer (u : ℝ × ℝ) {b : Basis} {h : ℕ} (hb : Usable b h) (c n : ℕ) {tau : List ℝ} {idx : ℕ} (hi : idx < tau.length) (m : Mat) : All (fillDer u b c n tau idx m) Safe := by
  have H : ∀ s t, All (fillBuffersTau u b s t) Safe := fun s t =>
    safe_bind (safe_evalDerivWrtTau u hb.valid s t (hb.order (Nat.zero_le _))) fun p => safe_bind (safe_loop_lt (fun j hj m =>
      safe_bind (safe_evalDerivWrtTau u hb.valid s t (hb.order (show j + 1 ≤ b.dim - 2 by omega))) fun _ => safe_pure _) _) fun _ => safe_pure _
  unfold fillDer
  rw [rd_ok hi]
  exact safe_bind (safe_lift_ok _) fun t => safe_bind (H _ _) fun l => safe_bind (H _ _) fun r => safe_pure _

theorem safe_solve (u : ℝ × ℝ) (lu : LU) {s : Interp} {h : ℕ} (hb : Usable s.basis h) (hn : 0 < s.n) (tau : List ℝ) {w : Pts} (hw : s.n + 1 ≤ w.rows) (hw2 : s.codim ≤ w.cols) :
    All (Rounded.solveInterpolation u lu s tau w) Safe := by
  unfold Rounded.solveInterpolation
  split_ifs with hs
  · intro r hr; rw [show r = _ from hr]; simp [Safe]
  · obtain ⟨v, hv, -⟩ := fillVector_ok (h := h) hn hw hw2 s.vec
    rw [← hb.dim] at hv
    refine safe_bind (safe_fillMatrix u hb hn tau s.mat) fun m => ?_
    rw [hv]
    refine safe_bind (safe_lift_ok v) fun v => ?_
    split_ifs <;> exact safe_pure _

/-- A call whose system is solved returns one coefficient per unknown. -/
theorem solve_sizes {u : ℝ × ℝ} {lu : LU} {s : Interp} {h : ℕ} (hn : 0 < s.n) (I : Inv h s) (hlu : ∀ m, lu.succeeds s.size m = true) {tau : List ℝ} {w : Pts} {q : Interp × List ℝ}
    (hq : Rounded.solveInterpolation u lu s tau w (.ok q)) : tau.length = s.n ∧ q.2.length = s.size := by
  obtain ⟨-, hm, -, -, -, -, -, -, hx⟩ := solve_cases (s' := q.1) (x := q.2) hq
  obtain ⟨hl, -⟩ := fillMatrix_clean I.dim hn I.mat hm
  rw [if_pos (hlu _)] at hx
  exact ⟨hl, by rw [hx]; simp⟩

theorem safe_coeff (u : ℝ × ℝ) (lu : LU) {s : Interp} {h : ℕ} (hb : Usable s.basis h) (hn : 0 < s.n) {y : List ℝ} (hy : y.length = s.size) (tau : List ℝ) (idx : ℕ) :
    All (Rounded.coeffDerivative u lu s y tau idx) Safe := by
  unfold Rounded.coeffDerivative
  split_ifs with h1 h2
  · intro r hr; rw [show r = _ from hr]; simp [Safe]
  · exact safe_pure _
  · push Not at h2
    refine safe_bind (safe_fillDer u hb _ _ (by omega) _) fun d => ?_
    unfold Rounded.solveDerivative
    rw [if_neg (by simpa using hy)]
    refine safe_bind ((matVec_reg _ _ _).safe u) fun rhs => safe_bind (safe_fillMatrix u hb hn tau s.mat) fun m => ?_
    split_ifs
    · exact safe_pure _
    · intro r hr; rw [show r = _ from hr]; simp [Safe]

theorem safe_cost (u : ℝ × ℝ) (lu : LU) {b : Basis} (hb : Interpolable b) {weights : List (ℕ × ℝ)} {mem : LagMem} {w : Pts} (hw : 2 ≤ w.rows)
    (hlu : ∀ m, lu.succeeds (b.dim * w.cols * (w.rows - 1)) m = true) {s : Sobolev} (hs : RSReach w b weights mem s) (tau : List ℝ) : All (Rounded.cost u lu s tau) Safe := by
  have U := Props.usable_of hb.valid hb.even hb.ne hb.left hb.right
  obtain ⟨⟨I, e1, e2, e3⟩, rfl, rfl, rfl⟩ := rsreach_inv U.dim (by omega) hs
  have hsz : s.interp.size = b.dim * s.points.cols * (s.points.rows - 1) := by unfold Interp.size; rw [e1, e2, e3]
  refine safe_out (P := fun _ => True) ?_
  unfold Rounded.cost
  refine Out.bind (out_safe (safe_solve u lu (h := b.dim / 2 - 1) (by rw [e1]; exact U) (by omega) tau (by omega) (by omega))) fun p hp => ?_
  obtain ⟨-, f1, f2, f3⟩ := solve_inv (by omega) I hp
  obtain ⟨g1, g2⟩ := solve_sizes (by omega) I (by rw [hsz]; exact hlu) hp
  rw [f1, f2, f3, e1, e2, e3, innerProd_eq (by omega) (by rw [g2, hsz]) (by rw [g2, hsz])]
  exact Out.bind (out_safe ((innerX_reg _ _ _ _ _ _ _ _).safe u)) fun r _ => Out.pure trivial

theorem safe_grad (u : ℝ × ℝ) (lu : LU) {b : Basis} (hb : Interpolable b) {weights : List (ℕ × ℝ)} {mem : LagMem} {w : Pts} (hw : 2 ≤ w.rows)
    (hlu : ∀ m, lu.succeeds (b.dim * w.cols * (w.rows - 1)) m = true) {s : Sobolev} (hs : RSReach w b weights mem s) (tau : List ℝ) {buff : List ℝ} (hbuff : w.rows - 1 ≤ buff.length) :
    All (Rounded.grad u lu s tau buff) Safe := by
  have U := Props.usable_of hb.valid hb.even hb.ne hb.left hb.right
  obtain ⟨⟨I, e1, e2, e3⟩, rfl, rfl, rfl⟩ := rsreach_inv U.dim (by omega) hs
  have hsz : s.interp.size = b.dim * s.points.cols * (s.points.rows - 1) := by unfold Interp.size; rw [e1, e2, e3]
  refine safe_out (P := fun _ => True) ?_
  unfold Rounded.grad
  refine Out.bind (out_safe (safe_solve u lu (h := b.dim / 2 - 1) (by rw [e1]; exact U) (by omega) tau (by omega) (by omega))) fun p hp => ?_
  obtain ⟨I', f1, f2, f3⟩ := solve_inv (by omega) I hp
  obtain ⟨g1, g2⟩ := solve_sizes (by omega) I (by rw [hsz]; exact hlu) hp
  rw [f3, e3]
  refine Out.bind (loop_out (fun _ (st : Interp × List ℝ) => (Inv (b.dim / 2 - 1) st.1 ∧ st.1.basis = b ∧ st.1.codim = s.points.cols ∧ st.1.n = s.points.rows - 1) ∧
    st.2.length = buff.length) (Nat.zero_le _) ⟨⟨I', f1.trans e1, f2.trans e2, f3.trans e3⟩, rfl⟩ ?_) fun st _ => Out.pure trivial
  rintro idx - hidx st ⟨⟨J, k1, k2, k3⟩, k4⟩
  have hst : st.1.size = b.dim * s.points.cols * (s.points.rows - 1) := by unfold Interp.size; rw [k1, k2, k3]
  unfold gradStep
  refine Out.bind (out_safe (safe_coeff u lu (h := b.dim / 2 - 1) (by rw [k1]; exact U) (by omega) (by rw [g2, hsz, hst]) tau idx)) fun q hq => ?_
  obtain ⟨J', l1, l2, l3⟩ := coeff_inv (by omega) J hq
  have hqz : q.1.size = b.dim * s.points.cols * (s.points.rows - 1) := by unfold Interp.size; rw [l1, l2, l3, k1, k2, k3]
  rw [hqz, l1, l2, l3, k1, k2, k3, gradEntry_eq (by omega) hidx (by rw [g2, hsz]) (by simp)]
  refine Out.bind (out_safe ((gradX_reg _ _ _ _ _ _ _ _ _).safe u)) fun r _ => ?_
  unfold store
  rw [if_pos (by omega)]
  refine Out.bind (Out.lift (P := fun l => l = st.2.set idx r) rfl) fun l hl => Out.pure ⟨⟨J', l1.trans k1, l2.trans k2, l3.trans k3⟩, by rw [hl]; simpa using k4⟩

end GSplines.Rounded
