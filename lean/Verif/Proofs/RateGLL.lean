import Verif.Proofs.RateList
import Verif.Proofs.RateDeriv
import Verif.Proofs.RoundingGLL
import Mathlib.Analysis.Calculus.ContDiff.Polynomial

/-! # Gauss-Lobatto points and weights: errors proportional to the rounding errors -/

namespace GSplines.Nd

open Spec

variable {α β γ : Type} [Gauge α] [Gauge β]

/-- Every outcome of the program started near the point is good, with a tolerance proportional to the errors. -/
def RateP (F : ℝ × ℝ → α → Nd γ) (x : α) (P : ℝ → Res γ → Prop) : Prop :=
  ∃ C ≥ (0 : ℝ), ∃ δ > (0 : ℝ), ∀ u, Small u δ → ∀ a, ∀ r ≥ (0 : ℝ), r ≤ δ → close r a x → ∀ e, C * (sz u + r) < e → All (F u a) (P e)

theorem RateP.bind {F : ℝ × ℝ → α → Nd β} {G : ℝ × ℝ → α → β → Nd γ} {x : α} {y : β} {P : ℝ → Res γ → Prop} (h1 : RateAt F x y)
    (h2 : RateP (fun u (q : α × β) => G u q.1 q.2) (x, y) P) : RateP (fun u a => F u a >>= G u a) x P := by
  obtain ⟨C, hC, δ, hδ, h1⟩ := h1
  obtain ⟨D, hD, η, hη, h2⟩ := h2
  have hm : 0 < min δ (min η (η / (3 * (C + 1)))) := lt_min hδ (lt_min hη (by positivity))
  refine ⟨D * (C + 2), by positivity, _, hm, fun u hu a r hr hr' hcl e he o ho => ?_⟩
  have l1 := min_le_left δ (min η (η / (3 * (C + 1))))
  have l2 := (min_le_right δ (min η (η / (3 * (C + 1))))).trans (min_le_left _ _)
  have l3 := (min_le_right δ (min η (η / (3 * (C + 1))))).trans (min_le_right _ _)
  have hs := sz_nonneg hu
  have hsz := sz_le hu
  have hsum : sz u + r ≤ η / (C + 1) := by
    have e3 : η / (C + 1) = 3 * (η / (3 * (C + 1))) := by field_simp
    rw [e3]; linarith
  have hbig : (C + 1) * (sz u + r) ≤ η := by
    have := mul_le_mul_of_nonneg_left hsum (by linarith : 0 ≤ C + 1)
    rwa [mul_div_cancel₀ _ (by linarith : C + 1 ≠ 0)] at this
  have key : ∀ b, close (C * (sz u + r)) b y → All (G u a b) (P e) := by
    intro b hb
    refine h2 u (small_mono l2 hu) (a, b) ((C + 1) * (sz u + r)) (mul_nonneg (by linarith) (by linarith)) hbig ⟨Gauge.mono' ?_ hcl, Gauge.mono' ?_ hb⟩ e ?_
    · nlinarith
    · nlinarith
    · refine lt_of_le_of_lt ?_ he
      have : sz u + (C + 1) * (sz u + r) ≤ (C + 2) * (sz u + r) := by nlinarith
      rw [mul_assoc]
      exact mul_le_mul_of_nonneg_left this hD
  rcases ho with ⟨er, h, -⟩ | ⟨b, h, ho⟩
  · obtain ⟨b, e', -⟩ := (h1 u (small_mono l1 hu) a _ h).1 r hr (hr'.trans l1) hcl
    cases e'
  · obtain ⟨b', e', hb⟩ := (h1 u (small_mono l1 hu) a _ h).1 r hr (hr'.trans l1) hcl
    cases e'
    exact key b hb o ho

theorem RateP.comp {F : ℝ × ℝ → β → Nd γ} {f : α → β} {x : α} {P : ℝ → Res γ → Prop} (h : RateP F (f x) P) (hf : LLip f x) : RateP (fun u a => F u (f a)) x P := by
  obtain ⟨C, hC, δ, hδ, hf⟩ := hf
  obtain ⟨D, hD, η, hη, h⟩ := h
  have hm : 0 < min δ (min η (η / (C + 1))) := lt_min hδ (lt_min hη (by positivity))
  refine ⟨D * (C + 1), by positivity, _, hm, fun u hu a r hr hr' hcl e he => ?_⟩
  have l1 := min_le_left δ (min η (η / (C + 1)))
  have l2 := (min_le_right δ (min η (η / (C + 1)))).trans (min_le_left _ _)
  have l3 := (min_le_right δ (min η (η / (C + 1)))).trans (min_le_right _ _)
  have hs := sz_nonneg hu
  have hbig : C * r ≤ η := by
    have := mul_le_mul_of_nonneg_left (hr'.trans l3) (by linarith : 0 ≤ C + 1)
    rw [mul_div_cancel₀ _ (by linarith : C + 1 ≠ 0)] at this
    nlinarith
  refine h u (small_mono l2 hu) (f a) (C * r) (by positivity) hbig (hf a x (Gauge.mono' (hr'.trans l1) hcl) (Gauge.refl' _ hδ.le) r hr hcl) e (lt_of_le_of_lt ?_ he)
  rw [mul_assoc]
  exact mul_le_mul_of_nonneg_left (by nlinarith) hD

theorem RateP.of_near {F G : ℝ × ℝ → α → Nd γ} {x : α} {P : ℝ → Res γ → Prop} {η : ℝ} (hη : 0 < η) (h : RateP G x P) (e : ∀ u a, close η a x → F u a = G u a) : RateP F x P := by
  obtain ⟨C, hC, δ, hδ, h⟩ := h
  refine ⟨C, hC, min δ η, lt_min hδ hη, fun u hu a r hr hr' hcl e' he => ?_⟩
  rw [e u a (Gauge.mono' (hr'.trans (min_le_right _ _)) hcl)]
  exact h u (small_mono (min_le_left _ _) hu) a r hr (hr'.trans (min_le_left _ _)) hcl e' he

theorem RateP.either {F G H : ℝ × ℝ → α → Nd γ} {x : α} {P : ℝ → Res γ → Prop} (h : RateP G x P) (h' : RateP H x P) (e : ∀ u a, F u a = G u a ∨ F u a = H u a) : RateP F x P := by
  obtain ⟨C, hC, δ, hδ, h⟩ := h
  obtain ⟨D, hD, η, hη, h'⟩ := h'
  refine ⟨max C D, le_max_of_le_left hC, min δ η, lt_min hδ hη, fun u hu a r hr hr' hcl e' he => ?_⟩
  have hs := sz_nonneg hu
  rcases e u a with e | e <;> rw [e]
  · exact h u (small_mono (min_le_left _ _) hu) a r hr (hr'.trans (min_le_left _ _)) hcl e' (lt_of_le_of_lt (mul_le_mul_of_nonneg_right (le_max_left _ _) (by linarith)) he)
  · exact h' u (small_mono (min_le_right _ _) hu) a r hr (hr'.trans (min_le_right _ _)) hcl e' (lt_of_le_of_lt (mul_le_mul_of_nonneg_right (le_max_right _ _) (by linarith)) he)

theorem RateP.of_rate [Gauge γ] {F : ℝ × ℝ → α → Nd γ} {x : α} {y : γ} {P : ℝ → Res γ → Prop} (h : RateAt F x y) {C δ : ℝ} (hC : 0 ≤ C) (hδ : 0 < δ)
    (hP : ∀ b, ∀ r ≥ (0 : ℝ), r ≤ δ → close r b y → ∀ e, C * r < e → P e (.ok b)) : RateP F x P := by
  have hp : RateP (fun _ (q : α × γ) => (Pure.pure q.2 : Nd γ)) (x, y) P := by
    refine ⟨C, hC, δ, hδ, fun u hu q r hr hr' hcl e he o ho => ?_⟩
    cases ho
    have hs := sz_nonneg hu
    exact hP q.2 r hr hr' hcl.2 e (lt_of_le_of_lt (mul_le_mul_of_nonneg_left (by linarith) hC) he)
  have := RateP.bind (G := fun _ _ b => (Pure.pure b : Nd γ)) h hp
  have e : (fun u a => F u a >>= fun b => (Pure.pure b : Nd γ)) = F := funext fun u => funext fun a => bind_pure (F u a)
  rwa [e] at this

end GSplines.Nd

namespace GSplines.Rounded

open Nd Polynomial Real GSplines.GLL Spec

/-! ## The evaluation of the polynomials -/

theorem bonnet_rate {α : Type} [Gauge α] {k : ℕ} (hk : k ≠ 0) {t a b : α → ℝ} {x : α} (ht : LLip t x) (ha : LLip a x) (hb : LLip b x) :
    RateAt (fun u q => bonnet u (t q) k (a q) (b q)) x ((2 * (k : ℝ) - 1) / k * t x * a x - ((k : ℝ) - 1) / k * b x) := by
  have hk' : (k : ℝ) ≠ 0 := by exact_mod_cast hk
  have h : RateAt (fun u (q : ℝ × ℝ × ℝ) => bonnet u q.1 k q.2.1 q.2.2) (t x, a x, b x) ((2 * (k : ℝ) - 1) / k * t x * a x - ((k : ℝ) - 1) / k * b x) := by
    unfold bonnet
    refine RateAt.bind (RateAt.quot (by fun_prop) (by fun_prop) hk') ?_
    refine RateAt.bind (RateAt.near (by fun_prop)) ?_
    refine RateAt.bind (RateAt.near (by fun_prop)) ?_
    refine RateAt.bind (RateAt.quot (by fun_prop) (by fun_prop) hk') ?_
    refine RateAt.bind (RateAt.near (by fun_prop)) ?_
    exact RateAt.near (by fun_prop)
  exact RateAt.comp (x := x) (f := fun q => (t q, a q, b q)) h (ht.prodMk (ha.prodMk hb))

theorem slope_rate {α : Type} [Gauge α] {k : ℕ} {a b : α → ℝ} {x : α} (ha : LLip a x) (hb : LLip b x) :
    RateAt (fun u q => slope u k (a q) (b q)) x (b x + (2 * (k : ℝ) - 1) * a x) := by
  have h : RateAt (fun u (q : ℝ × ℝ) => slope u k q.1 q.2) (a x, b x) (b x + (2 * (k : ℝ) - 1) * a x) := by
    unfold slope
    refine RateAt.bind (RateAt.near (by fun_prop)) ?_
    exact RateAt.near (by fun_prop)
  exact RateAt.comp (x := x) (f := fun q => (a q, b q)) h (ha.prodMk hb)

theorem qStep_rate {k : ℕ} (hk : k ≠ 0) (t : ℝ) (st : QVars) : RateAt (fun u (q : ℝ × QVars) => qStep u q.1 k q.2) (t, st) (qExact t k st) := by
  unfold qStep
  refine RateAt.bind (bonnet_rate hk (by fun_prop) (by fun_prop) (by fun_prop)) ?_
  refine RateAt.bind (slope_rate (by fun_prop) (by fun_prop)) ?_
  exact (RateAt.pure (f := fun q : ((ℝ × QVars) × ℝ) × ℝ => ((q.1.1.2.2.1, q.1.2, q.1.1.2.2.2.2.1, q.2, q.1.2) : QVars)) (by fun_prop)).congr rfl

theorem qAndEval_rate {n : ℕ} (hn : 2 ≤ n) (t : ℝ) :
    RateAt (fun u t => qAndEval u t n) t ((qPoly n).eval t, (2 * (n : ℝ) + 1) * (Spec.legendre n).eval t, (Spec.legendre n).eval t) := by
  have hex := GLL.qAndEval_spec t n hn
  unfold GLL.qAndEval at hex
  rw [if_neg (by omega)] at hex
  injection hex with hex
  unfold qAndEval
  simp only [if_neg (show ¬ n < 2 by omega)]
  have h := RateAt.foldlM (l := List.range' 2 (n + 1 - 2)) (body := fun u i t (s : QVars) => qStep u t i s) (exact := fun i s => qExact t i s) (x := t)
    (s := ((1, t, 0, 1, 0) : QVars)) fun i hi s => qStep_rate (by rw [List.mem_range'] at hi; omega) t s
  have e := tup_loop t 2 (n + 1) ⟨1, t, 0, 1, 0⟩
  unfold forLoop at e
  rw [show tup ⟨1, t, 0, 1, 0⟩ = ((1, t, 0, 1, 0) : QVars) from rfl] at e
  have h2 := RateAt.comp (x := t) (f := fun s : ℝ => (s, ((1, s, 0, 1, 0) : QVars))) h (by fun_prop)
  rw [e] at h2
  refine RateAt.bind h2 ?_
  refine RateAt.bind (bonnet_rate (by omega) (by fun_prop) (by fun_prop) (by fun_prop)) ?_
  refine RateAt.bind (slope_rate (by fun_prop) (by fun_prop)) ?_
  refine RateAt.bind (RateAt.near (by fun_prop)) ?_
  refine RateAt.bind (RateAt.near (by fun_prop)) ?_
  refine (RateAt.pure (f := fun q : (((((ℝ × QVars) × ℝ) × ℝ) × ℝ) × ℝ) => (q.1.2, q.2, q.1.1.1.1.2.2.2.2.2)) (by fun_prop)).congr ?_
  exact hex

theorem weight_rate {N : ℕ} (hN : 2 ≤ N) {x : ℝ} (hx : (Spec.legendre N).eval x ≠ 0) :
    RateAt (fun u x => weight u N x) x (2 / ((N : ℝ) * ((N : ℝ) + 1) * (Spec.legendre N).eval x ^ 2)) := by
  have h0 : (N : ℝ) * ((N : ℝ) + 1) * (Spec.legendre N).eval x ^ 2 ≠ 0 := by
    have : (0 : ℝ) < N := by exact_mod_cast (by omega : 0 < N)
    positivity
  unfold weight
  refine RateAt.bind (qAndEval_rate hN x) ?_
  refine RateAt.bind (RateAt.near (pow_llip (by fun_prop) 2)) ?_
  refine RateAt.bind (RateAt.near (by fun_prop)) ?_
  exact RateAt.quot (by fun_prop) (by fun_prop) h0

theorem guess_rate {N j : ℕ} (hN : N ≠ 0) : RateAt (fun u (_ : Unit) => guess u N j) () (GLL.guess N j) := by
  have hN' : (N : ℝ) ≠ 0 := by exact_mod_cast hN
  have hj : (j : ℝ) + 1 / 4 ≠ 0 := by positivity
  unfold guess GLL.guess
  refine RateAt.bind (RateAt.near (by fun_prop)) ?_
  refine RateAt.bind (RateAt.near (by fun_prop)) ?_
  refine RateAt.bind (RateAt.near (by fun_prop)) ?_
  refine RateAt.bind (RateAt.quot (by fun_prop) (by fun_prop) hN') ?_
  refine RateAt.bind (RateAt.near (by fun_prop)) ?_
  refine RateAt.bind (RateAt.quot (by fun_prop) (by fun_prop) (mul_ne_zero (mul_ne_zero (by norm_num) hN') pi_ne_zero)) ?_
  refine RateAt.bind (RateAt.quot (by fun_prop) (by fun_prop) hj) ?_
  refine RateAt.bind (RateAt.near (by fun_prop)) ?_
  refine RateAt.bind (RateAt.near (by fun_prop)) ?_
  refine RateAt.bind (RateAt.near (by fun_prop)) ?_
  exact (RateAt.pure (by fun_prop)).congr rfl

/-! ## Newton's method -/

theorem newton_rp {γ : Type} {N j : ℕ} (h : Win N j) {G : ℝ × ℝ → ℝ → Nd γ} {P : ℝ → Res γ → Prop} (k : ℕ) {x : ℝ}
    (hx : x ∈ Set.Icc (pt N j 0) (pt N j (π / 2))) (H : ∀ z, Stops N k x z → RateP G z P) : RateP (fun u x => newton u N k x >>= G u) x P := by
  have hN : 2 ≤ N := by have := h.three; omega
  induction k generalizing x with
  | zero =>
    have e : (fun u x => newton u N 0 x >>= G u) = G := funext fun u => funext fun x => LawfulMonad.pure_bind x (G u)
    rw [e]
    exact H x (.out x)
  | succ k ih =>
    have hP := nmap_cont h hx
    have h2 : (2 * (N : ℝ) + 1) * (Spec.legendre N).eval x ≠ 0 := mul_ne_zero (by positivity) hP
    unfold newton
    simp only [bind_assoc]
    refine RateP.bind (qAndEval_rate hN x) ?_
    refine RateP.bind (RateAt.quot (by fun_prop) (by fun_prop) h2) ?_
    refine RateP.bind (RateAt.near (by fun_prop)) ?_
    refine RateP.bind (RateAt.near (LLip.mul (LLip.const _ _) (LLip.abs (by fun_prop)))) ?_
    have e1 : x + -(qPoly N).eval x / ((2 * (N : ℝ) + 1) * (Spec.legendre N).eval x) = nmap N x := by unfold nmap hstep; ring
    have e2 : -(qPoly N).eval x / ((2 * (N : ℝ) + 1) * (Spec.legendre N).eval x) = nmap N x - x := by unfold nmap hstep; ring
    dsimp only
    rw [e1, e2]
    have A : |nmap N x - x| ≤ tol9 * |nmap N x| → RateP (fun u (q : (((ℝ × ℝ × ℝ × ℝ) × ℝ) × ℝ) × ℝ) => G u q.1.2)
        ((((x, (qPoly N).eval x, (2 * (N : ℝ) + 1) * (Spec.legendre N).eval x, (Spec.legendre N).eval x), nmap N x - x), nmap N x), tol9 * |nmap N x|) P :=
      fun ht => RateP.comp (f := fun q : (((ℝ × ℝ × ℝ × ℝ) × ℝ) × ℝ) × ℝ => q.1.2)
        (x := ((((x, (qPoly N).eval x, (2 * (N : ℝ) + 1) * (Spec.legendre N).eval x, (Spec.legendre N).eval x), nmap N x - x), nmap N x), tol9 * |nmap N x|))
        (H _ (.stop ht)) (by fun_prop)
    have B : tol9 * |nmap N x| ≤ |nmap N x - x| → RateP (fun u (q : (((ℝ × ℝ × ℝ × ℝ) × ℝ) × ℝ) × ℝ) => newton u N k q.1.2 >>= G u)
        ((((x, (qPoly N).eval x, (2 * (N : ℝ) + 1) * (Spec.legendre N).eval x, (Spec.legendre N).eval x), nmap N x - x), nmap N x), tol9 * |nmap N x|) P :=
      fun ht => RateP.comp (F := fun u y => newton u N k y >>= G u) (f := fun q : (((ℝ × ℝ × ℝ × ℝ) × ℝ) × ℝ) × ℝ => q.1.2)
        (x := ((((x, (qPoly N).eval x, (2 * (N : ℝ) + 1) * (Spec.legendre N).eval x, (Spec.legendre N).eval x), nmap N x - x), nmap N x), tol9 * |nmap N x|))
        (ih (mid_sub h (nmap_win h hx)) fun z hz => H z (.go ht hz)) (by fun_prop)
    have gap : ∀ (c q : (((ℝ × ℝ × ℝ × ℝ) × ℝ) × ℝ) × ℝ) (η : ℝ), close η q c → abs (|q.1.1.2| - |c.1.1.2|) ≤ η ∧ |q.2 - c.2| ≤ η := fun c q η h => by
      have h1 : |q.1.1.2 - c.1.1.2| ≤ η := h.1.1.2
      exact ⟨(abs_abs_sub_abs_le_abs_sub _ _).trans h1, h.2⟩
    rcases lt_trichotomy |nmap N x - x| (tol9 * |nmap N x|) with ht | ht | ht
    · refine RateP.of_near (η := (tol9 * |nmap N x| - |nmap N x - x|) / 3) (by linarith) (A ht.le) fun u q hq => ?_
      obtain ⟨g1, g2⟩ := gap _ _ _ hq
      dsimp only at g1 g2
      rw [if_pos (by have := abs_le.mp g1; have := abs_le.mp g2; linarith), LawfulMonad.pure_bind]
    · refine RateP.either (A ht.le) (B ht.ge) fun u q => ?_
      split_ifs
      · left; rw [LawfulMonad.pure_bind]
      · right; rfl
    · refine RateP.of_near (η := (|nmap N x - x| - tol9 * |nmap N x|) / 3) (by linarith) (B ht.le) fun u q hq => ?_
      obtain ⟨g1, g2⟩ := gap _ _ _ hq
      dsimp only at g1 g2
      rw [if_neg (by have := abs_le.mp g1; have := abs_le.mp g2; linarith)]

theorem legendre_smooth (N : ℕ) : ContDiff ℝ 1 fun x => (Spec.legendre N).eval x := by
  simpa using Polynomial.contDiff_aeval (𝕜 := ℝ) (Spec.legendre N) 1

/-- The weight as a function of the point. -/
theorem wt_llip (N : ℕ) {z : ℝ} (hN : 0 < N) (hP : (Spec.legendre N).eval z ≠ 0) : LLip (fun x => wt N x) z := by
  have hN0 : (0 : ℝ) < N := by exact_mod_cast hN
  have hd0 : (N : ℝ) * ((N : ℝ) + 1) * (Spec.legendre N).eval z ^ 2 ≠ 0 := by positivity
  have hc : ContDiffAt ℝ 1 (fun x => wt N x) z := by
    unfold wt
    exact contDiffAt_const.div (contDiffAt_const.mul ((legendre_smooth N).contDiffAt.pow 2)) hd0
  exact LLip.of_contDiffAt hc

theorem node_rate {N j : ℕ} (h : Win N j) {r : ℝ} (hr : r ∈ Set.Icc (pt N j (π / 20)) (pt N j (3 * π / 8))) (hr0 : (qPoly N).eval r = 0) :
    RateP (fun u (_ : Unit) => node u N j) () fun e o => ∃ q, o = .ok q ∧ NodeOk N j r e q.1 q.2 := by
  have hN : 2 ≤ N := by have := h.three; omega
  have hN0 : (0 : ℝ) < N := by exact_mod_cast (by omega : 0 < N)
  have htol : 0 < tol9 := by unfold tol9; positivity
  unfold node
  refine RateP.bind (guess_rate (by omega)) ?_
  refine RateP.comp (x := ((), GLL.guess N j)) (F := fun u x0 => newton u N 100 x0 >>= fun x => weight u N x >>= fun w => pure (x, w)) (f := fun q : Unit × ℝ => q.2) ?_
    (by fun_prop)
  refine newton_rp h 100 (guess_win h) fun z hz => ?_
  obtain ⟨hz1, hz2⟩ := stops_good h hr hr0 hz
  have hP := win_ne h hz1
  have hzabs : 0 < |z| := lt_of_lt_of_le (by have := nu_pos N; positivity) (pt_abs h hz1)
  have hw0 : 0 < wt N z := by unfold wt; positivity
  have c : RateAt (fun u x => weight u N x >>= fun w => pure (x, w)) z (z, wt N z) :=
    RateAt.bind (weight_rate hN hP) ((RateAt.pure (f := fun q : ℝ × ℝ => q) (by fun_prop)).congr rfl)
  obtain ⟨L, hL, δ, hδ, hl⟩ := wt_llip N (by omega) hP
  have hPl : LLip (fun x => (Spec.legendre N).eval x) z := LLip.of_contDiffAt (legendre_smooth N).contDiffAt
  obtain ⟨η, hη, hne⟩ := hPl.ne_zero hP
  refine RateP.of_rate c (C := max (1 + L) ((1 + tol9) / (|z| / 2))) (δ := min (min δ η) (min (|z| / 2) (wt N z / 2))) (le_max_of_le_left (by linarith))
    (lt_min (lt_min hδ hη) (lt_min (by linarith) (by linarith))) fun b s hs hs' hcl e he => ?_
  have k1 : |b.1 - z| ≤ s := hcl.1
  have k2 : |b.2 - wt N z| ≤ s := hcl.2
  have s1 : s ≤ δ := hs'.trans ((min_le_left _ _).trans (min_le_left _ _))
  have s2 : s ≤ η := hs'.trans ((min_le_left _ _).trans (min_le_right _ _))
  have s3 : s ≤ |z| / 2 := hs'.trans ((min_le_right _ _).trans (min_le_left _ _))
  have s4 : s ≤ wt N z / 2 := hs'.trans ((min_le_right _ _).trans (min_le_right _ _))
  have e1 : (1 + L) * s < e := lt_of_le_of_lt (mul_le_mul_of_nonneg_right (le_max_left _ _) hs) he
  have e2 : (1 + tol9) / (|z| / 2) * s < e := lt_of_le_of_lt (mul_le_mul_of_nonneg_right (le_max_right _ _) hs) he
  have e3 : s < e := by nlinarith
  have hb : |z| ≤ |b.1| + s := by
    have := abs_sub_abs_le_abs_sub z b.1
    rw [abs_sub_comm] at this; linarith
  refine ⟨b, rfl, ⟨z, hz1, hz2, lt_of_le_of_lt k1 e3, lt_of_le_of_lt k2 e3⟩, ?_, ?_, hne b.1 (k1.trans s2), by have := abs_le.mp k2; linarith⟩
  · have t1 := abs_sub_le b.1 z r
    have t2 : (1 + tol9) * s < e * (|z| / 2) := by
      have := mul_lt_mul_of_pos_right e2 (by linarith : 0 < |z| / 2)
      rwa [show (1 + tol9) / (|z| / 2) * s * (|z| / 2) = (1 + tol9) * s by field_simp] at this
    have t3 : e * (|z| / 2) ≤ e * |b.1| := mul_le_mul_of_nonneg_left (by linarith) (by linarith)
    have t4 : tol9 * |z| ≤ tol9 * (|b.1| + s) := mul_le_mul_of_nonneg_left hb htol.le
    nlinarith
  · change |b.2 - wt N b.1| < e
    have t1 := abs_sub_le b.2 (wt N z) (wt N b.1)
    have t2 : |wt N b.1 - wt N z| ≤ L * s := hl b.1 z (k1.trans s1) (by simpa [close] using hδ.le) s hs k1
    rw [abs_sub_comm] at t2
    nlinarith

/-! ## All points and weights -/

theorem pointsWeights_rate {n : ℕ} (hn : 2 ≤ n) {r : Vec} (hr : Arr n r) (hr0 : ∀ i < n, (qPoly (n - 1)).eval (r i) = 0) :
    ∃ C ≥ (0 : ℝ), ∃ δ > (0 : ℝ), ∀ u, Small u δ → ∀ ε, C * Nd.sz u < ε → ∀ jp jw, All (pointsWeights u n jp jw) (Out (fun _ => False) fun o => PwOk n r ε o.1 o.2) := by
  rcases Nat.eq_or_lt_of_le hn with rfl | hn3
  · refine ⟨0, le_rfl, 1, one_pos, fun u hu ε hε jp jw => ?_⟩
    rw [zero_mul] at hε
    unfold pointsWeights
    rw [if_neg (by norm_num), if_pos rfl]
    refine Out.pure ⟨by simp [setAt], fun i hi => ?_, fun i hi => ?_, fun h => by omega, fun j h1 h2 => by omega, ?_, fun h => by omega⟩
    · interval_cases i <;> simp [setAt]
    · interval_cases i <;> simp [setAt]
    · norm_num [setAt]
      exact hε
  have hN : 2 ≤ n - 1 := by omega
  have hN0 : (0 : ℝ) < ((n - 1 : ℕ) : ℝ) := by exact_mod_cast (by omega : 0 < n - 1)
  have near : ∀ {v : ℝ}, 0 < v → ∀ b, ∀ s ≥ (0 : ℝ), s ≤ v / 2 → close s b v → ∀ e, 1 * s < e → ∃ b', (.ok b : Res ℝ) = .ok b' ∧ |b' - v| < e ∧ 0 < b' := by
    intro v hv b s hs hs' hcl e he
    have k : |b - v| ≤ s := hcl
    exact ⟨b, rfl, by linarith, by have := abs_le.mp k; linarith⟩
  have a1 : RateP (fun u (_ : Unit) => quot u 2 (((n - 1 : ℕ) : ℝ) * (((n - 1 : ℕ) : ℝ) + 1))) ()
      fun e o => ∃ b, o = .ok b ∧ |b - 2 / (((n - 1 : ℕ) : ℝ) * (((n - 1 : ℕ) : ℝ) + 1))| < e ∧ 0 < b :=
    RateP.of_rate (RateAt.quot (α := Unit) (x := ()) (f := fun _ => 2) (g := fun _ => ((n - 1 : ℕ) : ℝ) * (((n - 1 : ℕ) : ℝ) + 1)) (by fun_prop) (by fun_prop) (by positivity))
      (C := 1) (by norm_num) (by positivity) (near (by positivity))
  have a2 : ∀ m ≤ n / 2, ∃ C ≥ (0 : ℝ), ∃ δ > (0 : ℝ), ∀ u, Small u δ → ∀ e, C * Nd.sz u < e → ∀ j, 1 ≤ j → j < m →
      All (node u (n - 1) j) fun o => ∃ q, o = .ok q ∧ NodeOk (n - 1) j (r j) e q.1 q.2 := by
    intro m
    induction m with
    | zero => exact fun _ => ⟨0, le_rfl, 1, one_pos, fun u _ e _ j _ h => absurd h (by omega)⟩
    | succ m ih =>
      intro hm
      obtain ⟨C, hC, δ, hδ, H⟩ := ih (by omega)
      rcases Nat.eq_zero_or_pos m with rfl | h1
      · exact ⟨0, le_rfl, 1, one_pos, fun u _ e _ j h h' => absurd h (by omega)⟩
      obtain ⟨D, hD, η, hη, H'⟩ := node_rate (⟨h1, by omega⟩ : Win (n - 1) m) (hr.win m h1 (by omega)) (hr0 m (by omega))
      refine ⟨max C D, le_max_of_le_left hC, min δ η, lt_min hδ hη, fun u hu e he j k1 k2 => ?_⟩
      have hs := sz_nonneg hu
      rcases Nat.lt_succ_iff_lt_or_eq.mp k2 with hlt | rfl
      · exact H u (small_mono (min_le_left _ _) hu) e (lt_of_le_of_lt (mul_le_mul_of_nonneg_right (le_max_left _ _) hs) he) j k1 hlt
      · exact H' u (small_mono (min_le_right _ _) hu) () 0 le_rfl hη.le trivial e
          (lt_of_le_of_lt (by rw [add_zero]; exact mul_le_mul_of_nonneg_right (le_max_right _ _) hs) he)
  have a3 : ∃ C ≥ (0 : ℝ), ∃ δ > (0 : ℝ), ∀ u, Small u δ → ∀ e, C * Nd.sz u < e → (n - 1) % 2 = 0 → All (weight u (n - 1) 0) fun o =>
      ∃ b, o = .ok b ∧ |b - 2 / (((n - 1 : ℕ) : ℝ) * (((n - 1 : ℕ) : ℝ) + 1) * (Spec.legendre (n - 1)).eval 0 ^ 2)| < e ∧ 0 < b := by
    by_cases hpar : (n - 1) % 2 = 0
    · have hP := legendre_even_ne (N := n - 1) (by omega) hpar
      obtain ⟨C, hC, δ, hδ, H⟩ := RateP.of_rate (P := fun e o => ∃ b, o = .ok b ∧ |b - 2 / (((n - 1 : ℕ) : ℝ) * (((n - 1 : ℕ) : ℝ) + 1) * (Spec.legendre (n - 1)).eval 0 ^ 2)| < e ∧ 0 < b)
        (weight_rate hN hP) (C := 1) (by norm_num) (by positivity) (near (by positivity))
      exact ⟨C, hC, δ, hδ, fun u hu e he _ => H u hu 0 0 le_rfl hδ.le (by simp [close]) e (by rwa [add_zero])⟩
    · exact ⟨0, le_rfl, 1, one_pos, fun u _ e _ h => absurd h hpar⟩
  obtain ⟨C1, hC1, δ1, hδ1, H1⟩ := a1
  obtain ⟨C2, hC2, δ2, hδ2, H2⟩ := a2 _ le_rfl
  obtain ⟨C3, hC3, δ3, hδ3, H3⟩ := a3
  refine ⟨C1 + C2 + C3, by positivity, min δ1 (min δ2 δ3), lt_min hδ1 (lt_min hδ2 hδ3), fun u hu ε hε jp jw => ?_⟩
  have hs := sz_nonneg hu
  have h1 := H1 u (small_mono (min_le_left _ _) hu) () 0 le_rfl hδ1.le trivial ε (by rw [add_zero]; nlinarith [mul_nonneg hC2 hs, mul_nonneg hC3 hs])
  have h2 := H2 u (small_mono ((min_le_right _ _).trans (min_le_left _ _)) hu) ε (by nlinarith [mul_nonneg hC1 hs, mul_nonneg hC3 hs])
  have h3 := H3 u (small_mono ((min_le_right _ _).trans (min_le_right _ _)) hu) ε (by nlinarith [mul_nonneg hC1 hs, mul_nonneg hC2 hs])
  refine All.mono (pointsWeights_out (E := fun _ => False) (P0 := fun w => |w - 2 / (((n - 1 : ℕ) : ℝ) * (((n - 1 : ℕ) : ℝ) + 1))| < ε ∧ 0 < w)
    (Q := fun j q => NodeOk (n - 1) j (r j) ε q.1 q.2)
    (Pm := fun w => |w - 2 / (((n - 1 : ℕ) : ℝ) * (((n - 1 : ℕ) : ℝ) + 1) * (Spec.legendre (n - 1)).eval 0 ^ 2)| < ε ∧ 0 < w) hn3 (fun o ho => ?_) (fun j k1 k2 o ho => ?_) (fun hp o ho => ?_) jp jw) ?_
  · obtain ⟨b, rfl, hb⟩ := h1 o ho
    exact .inr ⟨b, hb, rfl⟩
  · obtain ⟨q, rfl, hq⟩ := h2 j k1 k2 o ho
    exact .inr ⟨q, hq, rfl⟩
  · obtain ⟨b, rfl, hb⟩ := h3 hp o ho
    exact .inr ⟨b, hb, rfl⟩
  · rintro o (⟨_, h, _⟩ | ⟨q, ⟨w0, X, wm, k0, kX, km, rfl⟩, rfl⟩)
    · exact h.elim
    · obtain ⟨H, Hm⟩ := result_spec (hn3 : 3 ≤ n) jp jw w0 X wm
      refine .inr ⟨_, ⟨H.zero.1, fun i hi => (result_anti hn3 jp jw w0 X wm hi).1, fun i hi => (result_anti hn3 jp jw w0 X wm hi).2, fun h => (Hm h).1,
        fun j k1 k2 => ?_, ?_, fun h => ?_⟩, rfl⟩
      · rw [(H.entry j k1 k2).1, (H.entry j k1 k2).2.2.1]; exact kX j k1 k2
      · rw [H.zero.2.2.1]; exact k0
      · rw [(Hm h).2]; exact km (by omega)

end GSplines.Rounded
