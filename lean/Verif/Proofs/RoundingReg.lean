import Verif.Proofs.RoundingInner
import Verif.Proofs.RoundingExact

/-! # Programs for every size of the errors: no access out of range, always an outcome, and more outcomes the larger the errors -/

namespace GSplines.Nd

open Filter Topology Rounded

variable {α β : Type}

/-- What holds for every program that only computes. -/
structure Reg (F : ℝ × ℝ → Nd α) : Prop where
  safe : ∀ u, All (F u) Safe
  tot : ∀ u : ℝ × ℝ, 0 ≤ u.1 → 0 ≤ u.2 → ∃ r, F u r
  sub : ∀ u : ℝ × ℝ, 0 ≤ u.1 → 0 ≤ u.2 → ∀ r, F 0 r → F u r

theorem Reg.pure (a : α) : Reg fun _ => (Pure.pure a : Nd α) := ⟨fun _ => safe_pure a, fun _ _ _ => ⟨_, rfl⟩, fun _ _ _ _ h => h⟩

theorem Reg.lift {x : Res α} (h : x ≠ .error .ub) : Reg fun _ => Nd.lift x :=
  ⟨fun _ r hr => by rw [show r = x from hr]; exact h, fun _ _ _ => ⟨_, rfl⟩, fun _ _ _ _ h => h⟩

theorem Reg.bind {F : ℝ × ℝ → Nd α} {G : ℝ × ℝ → α → Nd β} (h : Reg F) (hG : ∀ a, Reg fun u => G u a) : Reg fun u => F u >>= G u := by
  refine ⟨fun u => safe_bind (h.safe u) fun a => (hG a).safe u, fun u h1 h2 => ?_, fun u h1 h2 r hr => ?_⟩
  · obtain ⟨r, hr⟩ := h.tot u h1 h2
    cases r with
    | error e => exact ⟨.error e, .inl ⟨e, hr, rfl⟩⟩
    | ok a =>
      obtain ⟨r, hr'⟩ := (hG a).tot u h1 h2
      exact ⟨r, .inr ⟨a, hr, hr'⟩⟩
  · obtain ⟨e, he, rfl⟩ | ⟨a, ha, hr⟩ := hr
    · exact .inl ⟨e, h.sub u h1 h2 _ he, rfl⟩
    · exact .inr ⟨a, h.sub u h1 h2 _ ha, (hG a).sub u h1 h2 _ hr⟩

theorem Reg.near (x : ℝ) : Reg fun u => Nd.near u x := by
  refine ⟨fun u => safe_near u x, fun u h1 h2 => ⟨_, Has.near h1 h2 x⟩, fun u h1 h2 r hr => ?_⟩
  obtain ⟨y, rfl, hy⟩ := hr
  have h3 : 0 ≤ u.1 * |x| := mul_nonneg h1 (abs_nonneg x)
  refine ⟨y, rfl, hy.trans ?_⟩
  simp only [Prod.fst_zero, Prod.snd_zero, zero_mul, zero_add]
  linarith

theorem Reg.quot (x y : ℝ) : Reg fun u => Nd.quot u x y := Reg.bind (Reg.lift (by unfold fdiv; split_ifs <;> simp)) fun q => Reg.near q

theorem Reg.sum (l : List ℝ) : Reg fun u => Nd.sum u l := by
  refine ⟨fun u => safe_sum u l, fun u h1 h2 => ⟨_, Has.sum h1 h2 l⟩, fun u h1 h2 r hr => ?_⟩
  obtain ⟨y, rfl, hy⟩ := hr
  exact ⟨y, rfl, hy.mono h1 h2⟩

theorem Reg.foldlM {ι σ : Type} {l : List ι} {body : ℝ × ℝ → σ → ι → Nd σ} (h : ∀ i ∈ l, ∀ s, Reg fun u => body u s i) (s : σ) : Reg fun u => l.foldlM (body u) s := by
  induction l generalizing s with
  | nil => exact Reg.pure s
  | cons i l ih =>
    simp only [List.foldlM_cons]
    exact Reg.bind (h i (by simp) s) fun s' => ih (fun j hj => h j (by simp [hj])) s'

theorem Reg.loop {σ : Type} {a b : ℕ} {body : ℝ × ℝ → ℕ → σ → Nd σ} (h : ∀ i s, Reg fun u => body u i s) (s : σ) : Reg fun u => Nd.loop a b (body u) s :=
  Reg.foldlM (body := fun u st i => body u i st) (fun i _ s => h i s) s

theorem Reg.mapM {ι : Type} {l : List ι} {f : ℝ × ℝ → ι → Nd β} (h : ∀ a, Reg fun u => f u a) : Reg fun u => l.mapM (f u) := by
  induction l with
  | nil => simp only [List.mapM_nil]; exact Reg.pure _
  | cons a l ih =>
    simp only [List.mapM_cons]
    exact Reg.bind (h a) fun b => Reg.bind ih fun _ => Reg.pure _

theorem Reg.ite {c : Prop} [Decidable c] {F G : ℝ × ℝ → Nd α} (hF : Reg F) (hG : Reg G) : Reg fun u => if c then F u else G u := by
  by_cases h : c
  · simp only [if_pos h]; exact hF
  · simp only [if_neg h]; exact hG

/-- If the outcomes tend to a limit, the limit is one of them. -/
theorem Reg.has [TopologicalSpace α] [TopologicalSpace β] [T1Space β] {F : ℝ × ℝ → α → Nd β} {x : α} {z : β} (h : Reg fun u => F u x) (hc : ConvAt F x z) {u : ℝ × ℝ} (h1 : 0 ≤ u.1)
    (h2 : 0 ≤ u.2) : Has (F u x) z := by
  have hU : ∀ U ∈ 𝓝 z, All (F 0 x) fun r => ∃ b ∈ U, r = .ok b := fun U hU => (hc U hU).self_of_nhds
  obtain ⟨r, hr⟩ := h.tot 0 le_rfl le_rfl
  obtain ⟨b, -, rfl⟩ := hU _ univ_mem _ hr
  by_cases hb : z = b
  · rw [hb]; exact h.sub u h1 h2 _ hr
  · obtain ⟨b', hb', e⟩ := hU {b}ᶜ (isOpen_compl_singleton.mem_nhds (by simpa using hb)) _ hr
    cases e
    simp at hb'

end GSplines.Nd

namespace GSplines.Rounded

open Nd

/-- Along the structure of a program. -/
macro "reg" : tactic => `(tactic| repeat' (first
  | exact Reg.near _
  | exact Reg.quot _ _
  | exact Reg.pure _
  | exact Reg.sum _
  | assumption
  | refine Reg.bind ?_ fun _ => ?_
  | refine Reg.loop (fun _ _ => ?_) _
  | refine Reg.ite ?_ ?_
  | refine Reg.mapM fun _ => ?_))

theorem dot_reg (a b : List ℝ) : Reg fun u => dot u a b := by unfold dot; reg

theorem matMul_reg (n : ℕ) (a b : Mat) : Reg fun u => matMul u n a b := by
  unfold matMul
  exact Reg.loop (fun i m => Reg.loop (fun j m => Reg.bind (dot_reg _ _) fun _ => Reg.pure _) _) _

theorem fillMat_reg {n : ℕ} {f : ℝ × ℝ → ℕ → ℕ → Nd ℝ} (h : ∀ i j, Reg fun u => f u i j) : Reg fun u => fillMat n (f u) := by
  unfold fillMat
  exact Reg.loop (fun i m => Reg.loop (fun j m => Reg.bind (h i j) fun _ => Reg.pure _) _) _

theorem kQ_reg (a : ℝ) : Reg fun u => kQ u a := by unfold kQ; reg

theorem run_reg (t κ : ℝ) (e : Ex) : Reg fun u => e.run u t κ := by
  induction e with
  | tau => exact Reg.pure _
  | k => exact Reg.pure _
  | lit x => exact Reg.pure _
  | rlit x => exact Reg.near _
  | _ => simp only [Ex.run]; reg

theorem addBlock_reg (q : ℕ → ℕ → Ex) (a tau : ℝ) (m : Mat) : Reg fun u => addBlock u q a tau m := by
  unfold addBlock
  exact Reg.bind (kQ_reg a) fun k => Reg.bind (fillMat_reg fun i j => run_reg _ _ _) fun b => fillMat_reg fun i j => Reg.near _

theorem baryWeights_reg (n : ℕ) (x : Vec) : Reg fun u => baryWeights u n x := by unfold baryWeights baryStep; reg

theorem dmat1_reg (n : ℕ) (x : Vec) : Reg fun u => dmat1 u n x := by
  unfold dmat1
  refine Reg.bind (baryWeights_reg n x) fun bw => Reg.loop (fun i m => Reg.loop (fun j m => ?_) _) _
  unfold dmatEntry; reg

theorem dmat_reg (n : ℕ) (x : Vec) (deg : ℕ) : Reg fun u => dmat u n x deg := by
  unfold dmat
  refine Reg.ite (Reg.pure _) (Reg.ite (dmat1_reg n x) ?_)
  refine Reg.bind (dmat1_reg n x) fun _ => Reg.bind (dmat1_reg n x) fun _ => Reg.bind (baryWeights_reg n x) fun bw => Reg.bind (Reg.loop (fun k st => ?_) _) fun _ => Reg.pure _
  refine Reg.bind (Reg.loop (fun i m => Reg.loop (fun j m => ?_) _) _) fun _ => Reg.pure _
  unfold dmatEntryK; reg

theorem legendreDmat_reg (dim : ℕ) : Reg fun u => legendreDmat u dim := by
  unfold legendreDmat
  refine Reg.loop (fun i m => Reg.loop (fun j m => Reg.bind ?_ fun _ => Reg.pure _) _) _
  unfold legendreEntry lowerEntry second third fourth alpha gamma
  reg

theorem legendreL2_reg (dim : ℕ) : Reg fun u => legendreL2 u dim := by
  unfold legendreL2
  exact fillMat_reg fun i j => Reg.ite (Reg.quot _ _) (Reg.pure _)

theorem legendreBuffer_reg (dim k : ℕ) : Reg fun u => legendreBuffer u dim k := by
  unfold legendreBuffer
  exact Reg.ite (legendreL2_reg dim) (Reg.bind (legendreL2_reg dim) fun l2 => Reg.bind (legendreDmat_reg dim) fun dm => Reg.bind (Reg.loop (fun _ a => matMul_reg dim _ _) _) fun d =>
    Reg.bind (matMul_reg dim _ _) fun p => matMul_reg dim _ _)

theorem lagrangeBuffer_reg (n : ℕ) (x : Vec) (mem : LagMem) (k : ℕ) : Reg fun u => lagrangeBuffer u n x mem k := by
  unfold lagrangeBuffer
  exact Reg.ite (Reg.pure _) (Reg.bind (dmat_reg n x k) fun d => Reg.bind (matMul_reg n _ _) fun p => matMul_reg n _ _)

theorem sobScale_reg (tau : ℝ) (deg : ℕ) : Reg fun u => sobScale u tau deg := by unfold sobScale; reg

theorem sobScaleDtau_reg (tau : ℝ) (deg : ℕ) : Reg fun u => sobScaleDtau u tau deg := by unfold sobScaleDtau; reg

theorem addPoly_reg {n deg : ℕ} {buffer : ℝ × ℝ → Nd Mat} {scale : ℝ × ℝ → Nd ℝ} (hb : Reg buffer) (hs : Reg scale) (m : Mat) : Reg fun u => addPoly u n deg (buffer u) (scale u) m := by
  unfold addPoly addScaled
  exact Reg.ite (Reg.bind hb fun q => Reg.bind hs fun sc => fillMat_reg fun i j => Reg.bind (Reg.near _) fun p => Reg.near _) (Reg.pure _)

theorem addDerivMatrix_reg (b : Basis) (mem : LagMem) (tau : ℝ) (deg : ℕ) (m : Mat) : Reg fun u => addDerivMatrix u b mem tau deg m := by
  cases b with
  | legendre d => exact addPoly_reg (legendreBuffer_reg d deg) (sobScale_reg tau deg) m
  | lagrange x => exact addPoly_reg (lagrangeBuffer_reg _ _ mem deg) (sobScale_reg tau deg) m
  | b0101 a =>
    match deg with
    | 0 => exact addBlock_reg _ a tau m
    | 1 => exact addBlock_reg _ a tau m
    | 2 => exact addBlock_reg _ a tau m
    | 3 => exact addBlock_reg _ a tau m
    | k + 4 => exact Reg.lift (by simp)

theorem addDerivMatrixDtau_reg (b : Basis) (mem : LagMem) (tau : ℝ) (deg : ℕ) (m : Mat) : Reg fun u => addDerivMatrixDtau u b mem tau deg m := by
  cases b with
  | legendre d => exact addPoly_reg (legendreBuffer_reg d deg) (sobScaleDtau_reg tau deg) m
  | lagrange x => exact addPoly_reg (lagrangeBuffer_reg _ _ mem deg) (sobScaleDtau_reg tau deg) m
  | b0101 a =>
    match deg with
    | 0 => exact Reg.lift (by simp)
    | 1 => exact addBlock_reg _ a tau m
    | 2 => exact Reg.lift (by simp)
    | 3 => exact addBlock_reg _ a tau m
    | k + 4 => exact Reg.lift (by simp)

theorem weighted_reg {n : ℕ} {add : ℝ × ℝ → ℕ → Mat → Nd Mat} (h : ∀ k m, Reg fun u => add u k m) (ws : List (ℕ × ℝ)) : Reg fun u => weighted u n (add u) ws := by
  unfold weighted
  exact Reg.foldlM (fun w _ m => Reg.bind (h w.1 m) fun m => fillMat_reg fun i j => Reg.near _) _

theorem form_reg (n : ℕ) (m : Mat) (v1 v2 : Vec) : Reg fun u => form u n m v1 v2 := by
  unfold form
  exact Reg.bind (Reg.loop (fun j r => Reg.bind (dot_reg _ _) fun _ => Reg.pure _) _) fun r => dot_reg _ _

theorem addFormX_reg (b : Basis) (codim : ℕ) (m : Mat) (v1 v2 : Vec) (iv c : ℕ) (r : ℝ) : Reg fun u => addFormX u b codim m v1 v2 iv c r := by
  unfold addFormX
  exact Reg.bind (form_reg _ _ _ _) fun f => Reg.near _

theorem innerX_reg (b : Basis) (mem : LagMem) (ws : List (ℕ × ℝ)) (n codim : ℕ) (tau v1 v2 : Vec) : Reg fun u => innerX u b mem ws n codim tau v1 v2 := by
  unfold innerX
  exact Reg.loop (fun iv r => Reg.bind (weighted_reg (fun k m => addDerivMatrix_reg b mem _ k m) ws) fun m => Reg.loop (fun c r => addFormX_reg b codim m v1 v2 iv c r) r) 0

end GSplines.Rounded
