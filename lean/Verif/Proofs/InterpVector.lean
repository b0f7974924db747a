import Verif.Proofs.InterpSystem
import Verif.Proofs.GSpline

/-!
# The right hand side, the buffers and the systems that are solved
-/

namespace GSplines.Interp

open GSplines Spec Finset

/-! ## The right hand side -/

structure VecInv (D c h : ℕ) (w : Mat) (v0 : Vec) (iv : ℕ) (st : Vec × ℕ) : Prop where
  hv : st.2 = iv * (c * D) + 2 * c + 3 * (c * h)
  start : ∀ i ≤ iv, ∀ comp < c, st.1 (rowStart c D i + comp) = w i comp
  stop : ∀ i ≤ iv, ∀ comp < c, st.1 (i * (c * D) + c + c * h + comp) = w (i + 1) comp
  other : ∀ r, (∀ i ≤ iv, ∀ comp < c, r ≠ rowStart c D i + comp ∧ r ≠ i * (c * D) + c + c * h + comp) → st.1 r = v0 r

theorem putRow_in {c vc comp : ℕ} {w v : Vec} (h : comp < c) : putRow c vc w v (vc + comp) = w comp := by
  rw [putRow_apply, if_pos ⟨by omega, by omega⟩, Nat.add_sub_cancel_left]

theorem putRow_out {c vc r : ℕ} {w v : Vec} (h : r < vc ∨ vc + c ≤ r) : putRow c vc w v r = v r := by
  rw [putRow_apply, if_neg (by omega)]

theorem vecInv_first {D c h : ℕ} {w : Mat} {v0 : Vec} (hD : D = 2 * h + 2) :
    VecInv D c h w v0 0 (putRow c (0 + c + c * (D / 2 - 1)) (w 1) (putRow c 0 (w 0) v0), 0 + c + c * (D / 2 - 1) + c + c * (D - 2)) := by
  obtain ⟨e1, e2, e3, e4, e5⟩ := half_eq (c := c) hD
  refine ⟨by simp only; omega, ?_, ?_, ?_⟩
  · intro i hi comp hc
    have : i = 0 := by omega
    subst this
    simp only [rowStart, Nat.zero_mul, if_true, Nat.zero_add]
    rw [putRow_out (by omega)]
    have := putRow_in (vc := 0) (w := w 0) (v := v0) hc
    rwa [Nat.zero_add] at this
  · intro i hi comp hc
    have : i = 0 := by omega
    subst this
    simp only [Nat.zero_mul, Nat.zero_add]
    rw [← e3, putRow_in hc]
  · intro r hr
    simp only
    have hr1 : ¬ r < c := fun hlt => (hr 0 le_rfl r hlt).1 (by simp [rowStart])
    have hr2 : ¬ (c + c * h ≤ r ∧ r < c + c * h + c) := fun hlt => (hr 0 le_rfl (r - (c + c * h)) (by omega)).2 (by omega)
    rw [putRow_out (by omega), putRow_out (by omega)]

theorem vecInv_step {D c h : ℕ} {w : Mat} {v0 : Vec} (hD : D = 2 * h + 2) {iv : ℕ} {st : Vec × ℕ} (H : VecInv D c h w v0 iv st) :
    VecInv D c h w v0 (iv + 1)
      (putRow c (st.2 + c) (w (iv + 1 + 1)) (putRow c st.2 (w (iv + 1)) st.1), st.2 + c + c + c * (D - 2)) := by
  obtain ⟨e1, e2, e3, e4, e5⟩ := half_eq (c := c) hD
  have es : (iv + 1) * (c * D) = iv * (c * D) + c * D := by ring
  have hv := H.hv
  have er : rowStart c D (iv + 1) = st.2 := by unfold rowStart; rw [if_neg (by omega)]; omega
  have et : (iv + 1) * (c * D) + c + c * h = st.2 + c := by omega
  refine ⟨by simp only; omega, ?_, ?_, ?_⟩
  · intro i hi comp hc
    simp only
    rcases Nat.lt_or_ge iv i with hlt | hle
    · have : i = iv + 1 := by omega
      subst this
      rw [er, putRow_out (by omega), putRow_in hc]
    · have := rowStart_lt hD hle hc
      rw [putRow_out (by omega), putRow_out (by omega), H.start i hle comp hc]
  · intro i hi comp hc
    simp only
    rcases Nat.lt_or_ge iv i with hlt | hle
    · have : i = iv + 1 := by omega
      subst this
      rw [et, putRow_in hc]
    · have := Nat.mul_le_mul_right (c * D) hle
      rw [putRow_out (by omega), putRow_out (by omega), H.stop i hle comp hc]
  · intro r hr
    simp only
    have hr1 : ¬ (st.2 ≤ r ∧ r < st.2 + c) := fun hlt => (hr (iv + 1) le_rfl (r - st.2) (by omega)).1 (by omega)
    have hr2 : ¬ (st.2 + c ≤ r ∧ r < st.2 + c + c) := fun hlt => (hr (iv + 1) le_rfl (r - (st.2 + c)) (by omega)).2 (by omega)
    rw [putRow_out (by omega), putRow_out (by omega)]
    exact H.other r fun i hi comp hc => hr i (by omega) comp hc

/-- A condition on a value (not on a derivative). -/
def IsValue {n c h : ℕ} : Cond n c h → Prop
  | .start _ _ => True
  | .stop _ _ => True
  | _ => False

open Classical in
theorem fillVector_ok {n c h : ℕ} (hn : 0 < n) {w : Pts} (hw : n + 1 ≤ w.rows) (hw2 : c ≤ w.cols) (v : Vec) :
    ∃ v', fillVector (2 * h + 2) c n w v = .ok v' ∧
      ∀ x : Cond n c h, v' (row n c h x) = if IsValue x then x.target w.at' else v (row n c h x) := by
  obtain ⟨D, hD⟩ : ∃ D, D = 2 * h + 2 := ⟨_, rfl⟩
  obtain ⟨e1, e2, e3, e4, e5⟩ := half_eq (c := c) hD
  -- it is enough to know the value rows and the rows that stay
  suffices hs : ∃ v', fillVector (2 * h + 2) c n w v = .ok v' ∧
      (∀ i < n, ∀ comp < c, v' (rowStart c D i + comp) = w.at' i comp) ∧
      (∀ i < n, ∀ comp < c, v' (rowStop c D n i + comp) = w.at' (i + 1) comp) ∧
      ∀ r, (∀ i < n, ∀ comp < c, r ≠ rowStart c D i + comp ∧ r ≠ rowStop c D n i + comp) → v' r = v r by
    obtain ⟨v', h1, h2, h3, h4⟩ := hs
    subst hD
    refine ⟨v', h1, fun x => ?_⟩
    have key : ¬ IsValue x → v' (row n c h x) = v (row n c h x) := by
      intro hx
      refine h4 _ fun i hi comp hc => ⟨fun he => ?_, fun he => ?_⟩
      · have := row_injective hn (a₁ := x) (a₂ := .start ⟨i, hi⟩ ⟨comp, hc⟩) he
        rw [this] at hx; exact hx trivial
      · have := row_injective hn (a₁ := x) (a₂ := .stop ⟨i, hi⟩ ⟨comp, hc⟩) he
        rw [this] at hx; exact hx trivial
    cases x with
    | start iv comp => exact (h2 iv iv.2 comp comp.2).trans (by simp [IsValue, Cond.target])
    | stop iv comp => exact (h3 iv iv.2 comp comp.2).trans (by simp [IsValue, Cond.target])
    | restL comp j => rw [if_neg (by simp [IsValue])]; exact key (by simp [IsValue])
    | restR comp j => rw [if_neg (by simp [IsValue])]; exact key (by simp [IsValue])
    | join iv comp j => rw [if_neg (by simp [IsValue])]; exact key (by simp [IsValue])
  unfold fillVector
  rw [if_neg (by omega), ← hD]
  dsimp only
  have I0 := vecInv_first (w := w.at') (v0 := v) (c := c) hD
  by_cases h1 : n = 1
  · rw [if_pos h1]
    subst h1
    refine ⟨_, rfl, fun i hi comp hc => I0.start i (by omega) comp hc, fun i hi comp hc => ?_, fun r hr => I0.other r fun i hi comp hc => ?_⟩
    · have := I0.stop i (by omega) comp hc
      have er : rowStop c D 1 i + comp = i * (c * D) + c + c * h + comp := by unfold rowStop; rw [if_neg (by omega)]; omega
      rw [er]; exact this
    · have := hr i (by omega) comp hc
      have er : rowStop c D 1 i + comp = i * (c * D) + c + c * h + comp := by unfold rowStop; rw [if_neg (by omega)]; omega
      rwa [er] at this
  · rw [if_neg h1]
    have I := forLoop_ind (P := fun iv st => VecInv D c h w.at' v (iv - 1) st) (a := 1) (b := n - 1) (by omega)
      (fun iv (st : Vec × ℕ) => (putRow c (st.2 + c) (w.at' (iv + 1)) (putRow c st.2 (w.at' iv) st.1), st.2 + c + c + c * (D - 2)))
      (putRow c (0 + c + c * (D / 2 - 1)) (w.at' 1) (putRow c 0 (w.at' 0) v), 0 + c + c * (D / 2 - 1) + c + c * (D - 2)) I0
      (fun iv st h1 h2 H => by
        obtain ⟨q, rfl⟩ : ∃ q, iv = q + 1 := ⟨iv - 1, by omega⟩
        exact vecInv_step hD H)
    generalize hst : forLoop 1 (n - 1) (fun iv (st : Vec × ℕ) =>
      (putRow c (st.2 + c) (w.at' (iv + 1)) (putRow c st.2 (w.at' iv) st.1), st.2 + c + c + c * (D - 2)))
      (putRow c (0 + c + c * (D / 2 - 1)) (w.at' 1) (putRow c 0 (w.at' 0) v), 0 + c + c * (D / 2 - 1) + c + c * (D - 2)) = st at I
    obtain ⟨q, rfl⟩ : ∃ q, n = q + 2 := ⟨n - 2, by omega⟩
    rw [show q + 2 - 1 = q + 1 by omega] at hst I ⊢
    rw [show q + 1 - 1 = q by omega] at I
    have es : (q + 1) * (c * D) = q * (c * D) + c * D := by ring
    have hv := I.hv
    have er : rowStart c D (q + 1) = st.2 := by unfold rowStart; rw [if_neg (by omega)]; omega
    have et : rowStop c D (q + 2) (q + 1) = st.2 + c + c * (D / 2 - 1) := by unfold rowStop; rw [if_pos ⟨by omega, by omega⟩]; omega
    have et' : ∀ i ≤ q, rowStop c D (q + 2) i = i * (c * D) + c + c * h := by
      intro i hi; unfold rowStop; rw [if_neg (by omega)]; omega
    refine ⟨_, rfl, fun i hi comp hc => ?_, fun i hi comp hc => ?_, fun r hr => ?_⟩
    · rcases Nat.lt_or_ge q i with hlt | hle
      · have : i = q + 1 := by omega
        subst this
        rw [er, putRow_out (by omega), putRow_in hc]
      · have := rowStart_lt hD hle hc
        rw [putRow_out (by omega), putRow_out (by omega), I.start i hle comp hc]
    · rcases Nat.lt_or_ge q i with hlt | hle
      · have : i = q + 1 := by omega
        subst this
        rw [et, putRow_in hc]
      · have := Nat.mul_le_mul_right (c * D) hle
        rw [et' i hle, putRow_out (by omega), putRow_out (by omega), I.stop i hle comp hc]
    · have hr1 : ¬ (st.2 ≤ r ∧ r < st.2 + c) := fun hlt => (hr (q + 1) (by omega) (r - st.2) (by omega)).1 (by omega)
      have hr2 : ¬ (st.2 + c + c * (D / 2 - 1) ≤ r ∧ r < st.2 + c + c * (D / 2 - 1) + c) := fun hlt =>
        (hr (q + 1) (by omega) (r - (st.2 + c + c * (D / 2 - 1))) (by omega)).2 (by omega)
      rw [putRow_out (by omega), putRow_out (by omega)]
      refine I.other r fun i hi comp hc => ?_
      have := hr i (by omega) comp hc
      rwa [et' i hi] at this

/-! ## The buffers -/

theorem forLoopM_ok {σ : Type} {a b : ℕ} {body : ℕ → σ → Res σ} {f : ℕ → σ → σ} (s : σ)
    (h : ∀ i s, a ≤ i → i < b → body i s = .ok (f i s)) : forLoopM a b body s = .ok (forLoop a b f s) := by
  unfold forLoopM forLoop
  have : ∀ (l : List ℕ), (∀ i ∈ l, a ≤ i ∧ i < b) → ∀ s, l.foldlM (fun st i => body i st) s = .ok (l.foldl (fun st i => f i st) s) := by
    intro l
    induction l with
    | nil => intro _ s; rfl
    | cons i l ih =>
      intro hl s
      rw [List.foldlM_cons, h i s (hl i (by simp)).1 (hl i (by simp)).2]
      exact ih (fun j hj => hl j (by simp [hj])) _
  refine this _ (fun i hi => ?_) s
  rw [List.mem_range'_1] at hi
  omega

theorem buffers_ok {ev : ℕ → Res Vec} {E : ℕ → Vec} {dim : ℕ} (h : ∀ j ≤ dim - 2, ev j = .ok (E j)) :
    buffers ev dim = .ok (E 0, fun k j => if j < dim - 2 then E (j + 1) k else 0) := by
  unfold buffers
  rw [h 0 (by omega)]
  have h1 := forLoopM_ok (a := 0) (b := dim - 2) (body := fun j (m : Mat) => do
    let v ← ev (j + 1)
    return fun k j' => if j' = j then v k else m k j') (f := fun j m => fun k j' => if j' = j then E (j + 1) k else m k j') Mat.zero
    (fun i s _ hi => by rw [h (i + 1) (by omega)]; rfl)
  have h2 : forLoop 0 (dim - 2) (fun j (m : Mat) => fun k j' => if j' = j then E (j + 1) k else m k j') Mat.zero =
      fun k j => if j < dim - 2 then E (j + 1) k else 0 := by
    refine forLoop_ind (P := fun i (m : Mat) => m = fun k j => if j < i then E (j + 1) k else 0) (Nat.zero_le _) _ _ ?_ ?_
    · funext k j; simp [Mat.zero]
    · intro i s _ _ hs
      subst hs
      funext k j
      by_cases hji : j = i
      · subst hji; simp
      · simp only [if_neg hji]
        by_cases hlt : j < i
        · rw [if_pos hlt, if_pos (by omega)]
        · rw [if_neg hlt, if_neg (by omega)]
  change (do let d ← forLoopM 0 (dim - 2) _ Mat.zero; return (E 0, d)) = _
  rw [h1, h2]
  rfl

end GSplines.Interp

namespace GSplines.Basis

open Spec

/-- The vector computed by `eval_derivative_on_window`. -/
noncomputable def ev (b : Basis) (s tau : ℝ) (d : ℕ) : Vec :=
  match b.evalDerivOnWindow s tau d with
  | .ok v => v
  | .error _ => fun _ => 0

/-- The vector computed by `eval_derivative_wrt_tau_on_window`. -/
noncomputable def evT (b : Basis) (s tau : ℝ) (d : ℕ) : Vec :=
  match b.evalDerivWrtTauOnWindow s tau d with
  | .ok v => v
  | .error _ => fun _ => 0

theorem ev_of {b : Basis} {s tau : ℝ} {d : ℕ} {v : Vec} (h : b.evalDerivOnWindow s tau d = .ok v) : b.ev s tau d = v := by
  unfold ev; rw [h]

theorem evT_of {b : Basis} {s tau : ℝ} {d : ℕ} {v : Vec} (h : b.evalDerivWrtTauOnWindow s tau d = .ok v) : b.evT s tau d = v := by
  unfold evT; rw [h]

theorem tau_spec {b : Basis} (hb : b.Valid) (s tau : ℝ) (d : ℕ) (hd : b.OrderOk d) :
    (∀ x, b.evalDerivOnWindow s x d = .ok (b.ev s x d)) ∧ (tau ≠ 0 → b.evalDerivWrtTauOnWindow s tau d = .ok (b.evT s tau d) ∧
      ∀ i < b.dim, HasDerivAt (fun x => b.ev s x d i) (b.evT s tau d i) tau) := by
  cases b with
  | legendre n =>
    constructor
    · intro x
      obtain ⟨v, hv, -⟩ := Props.legendre_derivatives_aux n d hb hd s x
      have hv' : (Basis.legendre n).evalDerivOnWindow s x d = .ok v := hv
      rw [ev_of hv', hv']
    · intro ht
      obtain ⟨f, g, h1, h2, h3⟩ := Props.legendre_derivative_wrt_tau_aux n d hb hd s tau ht
      have h1' : ∀ x, (Basis.legendre n).evalDerivOnWindow s x d = .ok (f x) := h1
      have h2' : (Basis.legendre n).evalDerivWrtTauOnWindow s tau d = .ok g := h2
      refine ⟨by rw [evT_of h2', h2'], fun i hi => ?_⟩
      rw [evT_of h2', show (fun x => (Basis.legendre n).ev s x d i) = fun x => f x i from funext fun x => by rw [ev_of (h1' x)]]
      exact h3 i hi
  | lagrange x => exact ⟨fun _ => rfl, fun ht => ⟨rfl, fun i _ => Props.C27_lagrange_eval_derivative_wrt_tau x.length (vecOf x) s tau ht d i⟩⟩
  | b0101 a => exact ⟨fun _ => rfl, fun _ => ⟨rfl, fun i _ => Props.C29_basis0101_derivative_wrt_tau a s tau d i⟩⟩

theorem ev_left {b : Basis} (hb : b.Valid) {tau : ℝ} (ht : tau ≠ 0) {d : ℕ} (hd : b.OrderOk d) (hc : b.CleanAt (-1)) {k : ℕ} (hk : k < b.dim) :
    b.ev (-1) tau d k = iteratedDeriv d (basisFn b tau k) 0 := by
  have hw : window tau 0 = -1 := by simp [window]
  obtain ⟨v, h1, h2⟩ := evalDeriv_spec hb tau 0 ht d hd (by rw [hw]; exact hc)
  rw [hw] at h1
  rw [ev_of h1, h2 k hk]

theorem ev_right {b : Basis} (hb : b.Valid) {tau : ℝ} (ht : tau ≠ 0) {d : ℕ} (hd : b.OrderOk d) (hc : b.CleanAt 1) {k : ℕ} (hk : k < b.dim) :
    b.ev 1 tau d k = iteratedDeriv d (basisFn b tau k) tau := by
  have hw : window tau tau = 1 := by unfold window; field_simp; norm_num
  obtain ⟨v, h1, h2⟩ := evalDeriv_spec hb tau tau ht d hd (by rw [hw]; exact hc)
  rw [hw] at h1
  rw [ev_of h1, h2 k hk]

end GSplines.Basis
