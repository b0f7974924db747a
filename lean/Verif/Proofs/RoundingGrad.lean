import Verif.Proofs.RoundingInner
import Verif.Proofs.RoundingCurve
import Verif.Proofs.SobolevGrad

/-!
# The gradient of the cost with rounded arithmetic
-/

namespace GSplines.Rounded

open Nd Spec Interp Topology Filter

/-! ## Derivatives with respect to the interval length -/

theorem tauScale_conv (dim : ℕ) {tau : ℝ} (ht : tau ≠ 0) (deg : ℕ) (v : Vec) :
    ∃ z : Vec, ConvAt (fun u (v : Vec) => tauScale u dim tau deg v) v z ∧ ∀ k < dim, z k = v k * (-(1 / 2) * (deg : ℝ) * (2 / tau)) := by
  obtain ⟨z, hz, hz1, -⟩ := scale_conv dim (-(1 / 2) * (deg : ℝ) * (2 / tau)) v
  refine ⟨z, ?_, hz1⟩
  unfold tauScale
  refine ConvAt.bind (ConvAt.near (f := fun _ : Vec => -(1 / 2) * (deg : ℝ)) (by fun_prop)) ?_
  refine ConvAt.bind (ConvAt.quot (f := fun _ => (2 : ℝ)) (g := fun _ => tau) (by fun_prop) (by fun_prop) ht) ?_
  refine ConvAt.bind (ConvAt.near (f := fun q : (Vec × ℝ) × ℝ => q.1.2 * q.2) (by fun_prop)) ?_
  exact ConvAt.comp (F := fun u (q : ℝ × Vec) => scale u dim q.1 q.2) (f := fun q : ((Vec × ℝ) × ℝ) × ℝ => (q.2, q.1.1.1)) hz (by fun_prop)

theorem b0101Tau_conv {a : ℝ} (h1 : a < 1) (s tau : ℝ) (deg : ℕ) :
    ∃ z : Vec, ConvAt (fun u (_ : Unit) => b0101Tau u a s tau deg) () z ∧ ∀ k < 6, z k = B0101.evalDerivWrtTauOnWindow a s tau deg k := by
  have hd : (0 : ℝ) < 1 - a := by linarith
  obtain ⟨z, hz, hz1, -⟩ := scale_conv 6 (s * B0101.kOf a) (B0101.dstep (B0101.evalDerivOnWindow a s tau deg))
  refine ⟨z, ?_, hz1⟩
  unfold b0101Tau
  refine ConvAt.bind (ConvAt.near (by fun_prop)) ?_
  refine ConvAt.bind (ConvAt.near (by fun_prop)) ?_
  refine ConvAt.bind (ConvAt.near (by fun_prop)) ?_
  refine ConvAt.bind (ConvAt.near (by fun_prop)) ?_
  refine ConvAt.bind (ConvAt.near (by fun_prop)) ?_
  refine ConvAt.bind (ConvAt.near (ContinuousAt.rpow (by fun_prop) (by fun_prop) (.inl (ne_of_gt hd)))) ?_
  refine ConvAt.bind (ConvAt.quot (by fun_prop) (by fun_prop) (ne_of_gt (Real.rpow_pos_of_pos hd _))) ?_
  refine ConvAt.bind (ConvAt.comp (F := fun u (_ : Unit) => b0101Deriv u a s tau deg) (f := fun _ => ()) (b0101Deriv_conv h1 s tau deg) (by fun_prop)) ?_
  refine ConvAt.bind (ConvAt.near (by fun_prop)) ?_
  refine ConvAt.bind (ConvAt.near (by fun_prop)) ?_
  refine ConvAt.bind (ConvAt.near (by fun_prop)) ?_
  refine ConvAt.bind (ConvAt.near (by fun_prop)) ?_
  refine ConvAt.bind (ConvAt.near (by fun_prop)) ?_
  refine ConvAt.comp (F := fun u (q : ℝ × Vec) => scale u 6 q.1 q.2)
    (f := fun q : ((((((((((((Unit × ℝ) × ℝ) × ℝ) × ℝ) × ℝ) × ℝ) × ℝ) × Vec) × ℝ) × ℝ) × ℝ) × ℝ) × ℝ =>
      (q.2, B0101.vec6 q.1.1.1.1.2 q.1.1.1.2 q.1.1.2 q.1.2 (q.1.1.1.1.1.2 5) 0)) ?_
    (ContinuousAt.prodMk (by fun_prop) (vec6_continuousAt (by fun_prop) (by fun_prop) (by fun_prop) (by fun_prop) (by fun_prop) (by fun_prop)))
  exact hz

theorem evalDerivWrtTau_conv {b : Basis} (hb : b.Valid) {s tau : ℝ} (ht : tau ≠ 0) {deg : ℕ} (hd : b.OrderOk deg) (hc : Clear b s) (hc' : b.CleanAt s) :
    ∃ z : Vec, ConvAt (fun u (_ : Unit) => evalDerivWrtTau u b s tau deg) () z ∧ ∀ k < b.dim, z k = b.evT s tau deg k := by
  have hev := (Basis.tau_spec hb s tau deg hd).1 tau
  cases b with
  | b0101 a =>
    obtain ⟨z, h1, h2⟩ := b0101Tau_conv hb.2 s tau deg
    exact ⟨z, h1, fun k hk => by rw [h2 k hk, Basis.evT_of (b := .b0101 a) rfl]⟩
  | legendre d =>
    obtain ⟨z, h1, h2⟩ := evalDeriv_conv hb ht hd hc hc'
    obtain ⟨y, h3, h4⟩ := tauScale_conv d ht deg z
    refine ⟨y, ConvAt.bind h1 (ConvAt.comp (x := ((), z)) (f := fun q : Unit × Vec => q.2) h3 (by fun_prop)), fun k hk => ?_⟩
    have e : (Basis.legendre d).evalDerivWrtTauOnWindow s tau deg = .ok fun i => (Basis.legendre d).ev s tau deg i * (-(1 / 2) * (deg : ℝ) * (2 / tau)) := by
      change Legendre.evalDerivWrtTauOnWindow d s tau deg = _
      unfold Legendre.evalDerivWrtTauOnWindow
      rw [show Legendre.evalDerivOnWindow d s tau deg = .ok _ from hev]
      rfl
    rw [h4 k hk, h2 k hk, Basis.evT_of e]
  | lagrange x =>
    obtain ⟨z, h1, h2⟩ := evalDeriv_conv hb ht hd hc hc'
    obtain ⟨y, h3, h4⟩ := tauScale_conv x.length ht deg z
    refine ⟨y, ConvAt.bind h1 (ConvAt.comp (x := ((), z)) (f := fun q : Unit × Vec => q.2) h3 (by fun_prop)), fun k hk => ?_⟩
    rw [h4 k hk, h2 k hk, Basis.evT_of (b := .lagrange x) rfl, Basis.ev_of (b := .lagrange x) rfl]
    rfl

/-- The buffers hold the exact derivatives with respect to the length up to `δ`. -/
def BufNearT (b : Basis) (δ s tau : ℝ) (q : Vec × Mat) : Prop :=
  (∀ k < b.dim, |q.1 k - b.evT s tau 0 k| ≤ δ) ∧ ∀ k < b.dim, ∀ j < b.dim - 2, |q.2 k j - b.evT s tau (j + 1) k| ≤ δ

theorem fillBuffersTau_near {b : Basis} {h : ℕ} (hb : Usable b h) {s tau : ℝ} (ht : tau ≠ 0) (hc : Clear b s) (hc' : b.CleanAt s) {δ : ℝ} (hδ : 0 < δ) :
    ∀ᶠ u in 𝓝 (0 : ℝ × ℝ), All (fillBuffersTau u b s tau) (Out (fun _ => False) (BufNearT b δ s tau)) := by
  obtain ⟨z0, c0, e0⟩ := evalDerivWrtTau_conv hb.valid ht (hb.order (Nat.zero_le _)) hc hc'
  have hz : ∀ j, ∃ z : Vec, j < b.dim - 2 → ConvAt (fun u (_ : Unit) => evalDerivWrtTau u b s tau (j + 1)) () z ∧ ∀ k < b.dim, z k = b.evT s tau (j + 1) k := by
    intro j
    by_cases hj : j < b.dim - 2
    · obtain ⟨z, h1, h2⟩ := evalDerivWrtTau_conv hb.valid ht (hb.order (show j + 1 ≤ b.dim - 2 by omega)) hc hc'
      exact ⟨z, fun _ => ⟨h1, h2⟩⟩
    · exact ⟨fun _ => 0, fun h => absurd h hj⟩
  choose z hz using hz
  have hl := ConvAt.loop (a := 0) (b := b.dim - 2) (α := Unit) (σ := Mat) (body := fun u j _ (m : Mat) => do
      let v ← evalDerivWrtTau u b s tau (j + 1)
      return fun k j' => if j' = j then v k else m k j') (exact := fun j m => fun k j' => if j' = j then z j k else m k j') (x := ()) (s := Mat.zero)
    fun j _ hj m => by
      refine ConvAt.bind (ConvAt.comp (x := ((), m)) (f := fun _ : Unit × Mat => ()) (hz j hj).1 continuousAt_const) ?_
      refine ConvAt.pure (f := fun (q : (Unit × Mat) × Vec) k j' => if j' = j then q.2 k else q.1.2 k j') ?_
      refine continuousAt_pi.mpr fun k => continuousAt_pi.mpr fun j' => ?_
      split_ifs
      · fun_prop
      · fun_prop
  obtain ⟨M, hM⟩ : ∃ M : Mat, M = forLoop 0 (b.dim - 2) (fun j (m : Mat) => fun k j' => if j' = j then z j k else m k j') Mat.zero := ⟨_, rfl⟩
  rw [← hM] at hl
  have key : ConvAt (fun u (_ : Unit) => fillBuffersTau u b s tau) () (z0, M) := by
    unfold fillBuffersTau
    refine ConvAt.bind c0 (ConvAt.bind (ConvAt.comp (x := ((), z0)) (f := fun q : Unit × Vec => ((), Mat.zero)) hl continuousAt_const) ?_)
    exact ConvAt.pure (f := fun q : (Unit × Vec) × Mat => (q.1.2, q.2)) (by fun_prop)
  have hU : {q : Vec × Mat | BufNearT b δ s tau q} ∈ 𝓝 (z0, M) := by
    have h1 : ∀ᶠ q : Vec × Mat in 𝓝 (z0, M), ∀ k ∈ Finset.range b.dim, |q.1 k - b.evT s tau 0 k| < δ := by
      refine (Filter.eventually_all_finset _).mpr fun k hk => ?_
      have hcont : ContinuousAt (fun q : Vec × Mat => |q.1 k - b.evT s tau 0 k|) (z0, M) := by fun_prop
      refine hcont.eventually_lt continuousAt_const ?_
      change |z0 k - b.evT s tau 0 k| < δ
      rw [e0 k (Finset.mem_range.mp hk)]
      simpa using hδ
    have h2 : ∀ᶠ q : Vec × Mat in 𝓝 (z0, M), ∀ k ∈ Finset.range b.dim, ∀ j ∈ Finset.range (b.dim - 2), |q.2 k j - b.evT s tau (j + 1) k| < δ := by
      refine (Filter.eventually_all_finset _).mpr fun k hk => (Filter.eventually_all_finset _).mpr fun j hj => ?_
      have hcont : ContinuousAt (fun q : Vec × Mat => |q.2 k j - b.evT s tau (j + 1) k|) (z0, M) := by fun_prop
      refine hcont.eventually_lt continuousAt_const ?_
      change |M k j - b.evT s tau (j + 1) k| < δ
      rw [hM, columns_loop _ _ _ _ (Finset.mem_range.mp hj), (hz j (Finset.mem_range.mp hj)).2 k (Finset.mem_range.mp hk)]
      simpa using hδ
    filter_upwards [h1, h2] with q h1 h2
    exact ⟨fun k hk => (h1 k (Finset.mem_range.mpr hk)).le, fun k hk j hj => (h2 k (Finset.mem_range.mpr hk) j (Finset.mem_range.mpr hj)).le⟩
  have e : Tendsto (fun u : ℝ × ℝ => (u, ())) (𝓝 (0 : ℝ × ℝ)) (𝓝 ((0 : ℝ × ℝ), ())) := Continuous.tendsto (by fun_prop) _
  filter_upwards [e.eventually (key _ hU)] with u hu r hr
  obtain ⟨q, hq, rfl⟩ := hu r hr
  exact .inr ⟨q, hq, rfl⟩

/-! ## The derivative of the matrix -/

theorem derBlocks_eq {D c n idx : ℕ} (hi : idx < n) (l r : Vec × Mat) (m : Mat) :
    derBlocks D c n idx l r m = derP D c n idx ⟨fun _ => l.1, fun _ => l.2, fun _ => r.1, fun _ => r.2⟩ m := by
  unfold derBlocks derP
  by_cases h0 : idx = 0
  · rw [if_pos h0, if_pos h0]
    subst h0
    by_cases h1 : n = 1
    · rw [if_pos h1, if_pos h1]; rfl
    · rw [if_neg h1, if_neg h1]; rfl
  · rw [if_neg h0, if_neg h0]
    by_cases h1 : 0 < idx ∧ idx < n - 1
    · rw [if_pos h1, if_pos h1]; rfl
    · rw [if_neg h1, if_neg h1, if_pos (by omega)]; rfl

theorem overI_near {b : Basis} {h n c idx : ℕ} (hb : Usable b h) {tau : Vec} {δ : ℝ} (hδ : 0 ≤ δ) {l r : Vec × Mat}
    (hl : BufNearT b δ (-1) (tau idx) l) (hr : BufNearT b δ 1 (tau idx) r) (x : Cond n c h) (k : ℕ) :
    |overI idx ⟨fun _ => l.1, fun _ => l.2, fun _ => r.1, fun _ => r.2⟩ x (fun _ => 0) k - overI idx (bufsT b tau) x (fun _ => 0) k| ≤ δ := by
  have hd := hb.dim
  have h0 : ∀ k : ℕ, |(fun _ : ℕ => (0 : ℝ)) k - (fun _ : ℕ => (0 : ℝ)) k| ≤ δ := fun k => by simpa using hδ
  have hl' : ∀ j < b.dim - 2, ∀ k < 2 * h + 2, |l.2 k j - (bufsT b tau).dl idx k j| ≤ δ := fun j hj k hk => by
    have := hl.2 k (by omega) j hj
    simpa only [bufsT, if_pos hj] using this
  have hr' : ∀ j < b.dim - 2, ∀ k < 2 * h + 2, |r.2 k j - (bufsT b tau).dr idx k j| ≤ δ := fun j hj k hk => by
    have := hr.2 k (by omega) j hj
    simpa only [bufsT, if_pos hj] using this
  cases x with
  | start iv comp =>
    simp only [overI]
    by_cases e : iv.1 = idx
    · rw [if_pos e, if_pos e, e]
      exact upd_near (fun k hk => hl.1 k (by omega)) h0 k
    · rw [if_neg e, if_neg e]; exact h0 k
  | stop iv comp =>
    simp only [overI]
    by_cases e : iv.1 = idx
    · rw [if_pos e, if_pos e, e]
      exact upd_near (fun k hk => hr.1 k (by omega)) h0 k
    · rw [if_neg e, if_neg e]; exact h0 k
  | restL comp j =>
    simp only [overI]
    by_cases e : 0 = idx
    · rw [if_pos e, if_pos e, e]
      exact upd_near (fun k hk => hl' j (by have := j.2; omega) k hk) h0 k
    · rw [if_neg e, if_neg e]; exact h0 k
  | restR comp j =>
    simp only [overI]
    by_cases e : n - 1 = idx
    · rw [if_pos e, if_pos e, e]
      exact upd_near (fun k hk => hr' j (by have := j.2; omega) k hk) h0 k
    · rw [if_neg e, if_neg e]; exact h0 k
  | join iv comp j =>
    simp only [overI]
    by_cases e : iv.1 + 1 = idx
    · rw [if_pos e, if_pos e, e]
      refine upd_near (fun k hk => ?_) h0 k
      rw [← mul_sub, abs_mul]
      simpa using hl' j (by have := j.2; omega) k hk
    · rw [if_neg e, if_neg e]
      by_cases e : iv.1 = idx
      · rw [if_pos e, if_pos e, e]
        exact upd_near (fun k hk => hr' j (by have := j.2; omega) k hk) h0 k
      · rw [if_neg e, if_neg e]; exact h0 k

theorem fillDer_near {b : Basis} {h n c idx : ℕ} (hb : Usable b h) (hcl : Clear b (-1)) (hcr : Clear b 1) (hi : idx < n) {tau : List ℝ} (hl : tau.length = n)
    (ht : vecOf tau idx ≠ 0) {δ : ℝ} (hδ : 0 < δ) {D0 : Mat} (hD : ∀ x : Cond n c h, D0 (row n c h x) = overI idx (bufsT b (vecOf tau)) x fun _ => 0) :
    ∀ᶠ u in 𝓝 (0 : ℝ × ℝ), ∀ m0, CleanI n c h idx m0 → All (fillDer u b c n tau idx m0)
      (Out (fun _ => False) fun d => CleanI n c h idx d ∧ ∀ r < b.dim * c * n, ∀ k, |d r k - D0 r k| ≤ δ) := by
  filter_upwards [fillBuffersTau_near hb ht hcl hb.left hδ, fillBuffersTau_near hb ht hcr hb.right hδ] with u hu1 hu2 m0 hm
  unfold fillDer
  rw [rd_ok (show idx < tau.length by omega)]
  refine Out.bind (Out.lift (P := fun t => t = vecOf tau idx) rfl) fun t ht => ?_
  subst ht
  refine Out.bind hu1 fun l hl' => Out.bind hu2 fun r hr' => ?_
  have hrow : ∀ x : Cond n c h, derBlocks b.dim c n idx l r m0 (row n c h x) = overI idx ⟨fun _ => l.1, fun _ => l.2, fun _ => r.1, fun _ => r.2⟩ x fun _ => 0 :=
    fun x => by rw [derBlocks_eq hi, hb.dim]; exact derP_rows _ hi hm x
  refine Out.pure ⟨fun x => ⟨_, hrow x⟩, fun r hr k => ?_⟩
  rw [hb.dim] at hr
  obtain ⟨x, rfl⟩ := row_surj (n := n) (c := c) (h := h) (by omega) hr
  rw [hrow x, hD x]
  exact overI_near hb hδ.le hl' hr' x k

theorem fillDer_clean {u : ℝ × ℝ} {b : Basis} {h n c idx : ℕ} (hb : b.dim = 2 * h + 2) (hi : idx < n) {tau : List ℝ} {m0 d : Mat} (hm : CleanI n c h idx m0)
    (hr : fillDer u b c n tau idx m0 (.ok d)) : CleanI n c h idx d := by
  unfold fillDer at hr
  obtain ⟨e, -, hr⟩ | ⟨t, -, hr⟩ := hr
  · cases hr
  obtain ⟨e, -, hr⟩ | ⟨l, -, hr⟩ := hr
  · cases hr
  obtain ⟨e, -, hr⟩ | ⟨r, -, hr⟩ := hr
  · cases hr
  cases hr
  exact fun x => ⟨_, by rw [derBlocks_eq hi, hb]; exact derP_rows _ hi hm x⟩

/-! ## The product with the coefficients -/

theorem matVec_conv (n : ℕ) (d : Mat) (y : Vec) :
    ∃ z : Vec, ConvAt (fun u (q : Mat × Vec) => matVec u n q.1 q.2) (d, y) z ∧ ∀ k < n, z k = d.mulVec n y k := by
  have h := ConvAt.loop (a := 0) (b := n) (α := Mat × Vec) (σ := Vec) (body := fun u i q (r : Vec) => do
      let e ← dot u ((List.range n).map (q.1 i)) ((List.range n).map q.2)
      return setAt r i e) (exact := fun i r => setAt r i (Vec.dot n (d i) y)) (x := (d, y)) (s := fun _ => 0) fun i _ hi r => by
    refine ConvAt.bind (ConvAt.comp (F := fun u (q : Vec × Vec) => dot u ((List.range n).map q.1) ((List.range n).map q.2))
      (f := fun q : (Mat × Vec) × Vec => (q.1.1 i, q.1.2)) (dot2_conv n _ _) (ContinuousAt.prodMk ?_ (by fun_prop))) ?_
    · exact ((continuous_apply i).comp (continuous_fst.comp continuous_fst)).continuousAt
    · exact ConvAt.pure (f := fun q : ((Mat × Vec) × Vec) × ℝ => setAt q.1.2 i q.2) (setAt_continuousAt (by fun_prop) (by fun_prop))
  refine ⟨_, ConvAt.comp (x := (d, y)) (f := fun q : Mat × Vec => (q, fun _ => (0 : ℝ))) h (by fun_prop), fun k hk => ?_⟩
  rw [fill_loop (f := fun i => Vec.dot n (d i) y) hk]
  rfl

theorem matVec_congr {u : ℝ × ℝ} {n : ℕ} {d d' : Mat} {y y' : Vec} (hd : ∀ i < n, ∀ k < n, d i k = d' i k) (hy : ∀ k < n, y k = y' k) : matVec u n d y = matVec u n d' y' := by
  unfold matVec
  refine loop_congr (fun i _ hi r => ?_) _
  rw [List.map_congr_left (fun k hk => hd i hi k (List.mem_range.mp hk)), List.map_congr_left (fun k hk => hy k (List.mem_range.mp hk))]

theorem mat_nhds {U : Set Mat} {f : Mat} (hU : U ∈ 𝓝 f) : ∃ κ > 0, ∀ y : Mat, (∀ i k, |y i k - f i k| ≤ κ) → y ∈ U := by
  have hc : Continuous fun v : Vec => (fun i k => v (Nat.pair i k) : Mat) := by fun_prop
  have e : (fun i k => (fun p : ℕ => f p.unpair.1 p.unpair.2) (Nat.pair i k) : Mat) = f := by
    funext i k; simp
  have hU' : (fun v : Vec => (fun i k => v (Nat.pair i k) : Mat)) ⁻¹' U ∈ 𝓝 fun p : ℕ => f p.unpair.1 p.unpair.2 := hc.continuousAt (by rw [e]; exact hU)
  obtain ⟨κ, hκ, H⟩ := vec_nhds hU'
  refine ⟨κ, hκ, fun y hy => ?_⟩
  have := H (fun p => y p.unpair.1 p.unpair.2) fun p => hy _ _
  simpa using this

/-- The product tends to the exact one. -/
theorem matVec_near (n : ℕ) (D0 : Mat) (y0 : Vec) {ε : ℝ} (hε : 0 < ε) : ∃ κ > 0, ∀ᶠ u in 𝓝 (0 : ℝ × ℝ), ∀ (d : Mat) (y : Vec), (∀ r < n, ∀ k < n, |d r k - D0 r k| ≤ κ) →
    (∀ k < n, |y k - y0 k| ≤ κ) → All (matVec u n d y) (Out (fun _ => False) fun v => ∀ k < n, |v k - D0.mulVec n y0 k| ≤ ε) := by
  obtain ⟨z, hz, ez⟩ := matVec_conv n D0 y0
  have hU : {v : Vec | ∀ k < n, |v k - D0.mulVec n y0 k| ≤ ε} ∈ 𝓝 z := by
    have : ∀ᶠ v : Vec in 𝓝 z, ∀ k ∈ Finset.range n, |v k - D0.mulVec n y0 k| < ε := by
      refine (Filter.eventually_all_finset _).mpr fun k hk => ?_
      have hcont : ContinuousAt (fun v : Vec => |v k - D0.mulVec n y0 k|) z := (((continuous_apply k).sub continuous_const).abs).continuousAt
      refine hcont.eventually_lt continuousAt_const ?_
      rw [ez k (Finset.mem_range.mp hk)]
      simpa using hε
    filter_upwards [this] with v hv k hk
    exact (hv k (Finset.mem_range.mpr hk)).le
  have h := hz _ hU
  rw [nhds_prod_eq] at h
  obtain ⟨pu, hpu, pq, hpq, h⟩ := Filter.eventually_prod_iff.mp h
  rw [nhds_prod_eq] at hpq
  obtain ⟨pd, hpd, py, hpy, h'⟩ := Filter.eventually_prod_iff.mp hpq
  obtain ⟨κ1, hκ1, H1⟩ := mat_nhds hpd
  obtain ⟨κ2, hκ2, H2⟩ := vec_nhds hpy
  refine ⟨min κ1 κ2, lt_min hκ1 hκ2, hpu.mono fun u hu d y hd hy => ?_⟩
  rw [matVec_congr (d' := fun i k => if i < n ∧ k < n then d i k else D0 i k) (y' := fun k => if k < n then y k else y0 k)
    (fun i hi k hk => (if_pos ⟨hi, hk⟩).symm) fun k hk => (if_pos hk).symm]
  intro r hr
  obtain ⟨v, hv, rfl⟩ := h hu (h' (x := fun i k => if i < n ∧ k < n then d i k else D0 i k) (H1 _ fun i k => by
      by_cases hik : i < n ∧ k < n
      · simp only [if_pos hik]; exact (hd i hik.1 k hik.2).trans (min_le_left _ _)
      · simp only [if_neg hik, sub_self, abs_zero]; exact hκ1.le) (y := fun k => if k < n then y k else y0 k) (H2 _ fun k => by
      by_cases hk : k < n
      · simp only [if_pos hk]; exact (hy k hk).trans (min_le_right _ _)
      · simp only [if_neg hk, sub_self, abs_zero]; exact hκ2.le)) r hr
  exact .inr ⟨v, hv, rfl⟩

end GSplines.Rounded
