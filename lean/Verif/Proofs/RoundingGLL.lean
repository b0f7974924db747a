import Verif.Model.RoundingGLL
import Verif.Proofs.RoundingFill
import Verif.Proofs.GLLError
import Verif.Proofs.RoundingExact
import Verif.Proofs.InterpVector

/-! # Gauss-Lobatto points and weights with rounding errors -/

namespace GSplines.Rounded

open Nd Filter Topology Polynomial Real GSplines.GLL

/-! ## The evaluation of the polynomials -/

theorem bonnet_conv {α : Type} [TopologicalSpace α] {k : ℕ} (hk : k ≠ 0) {t a b : α → ℝ} {x : α} (ht : ContinuousAt t x) (ha : ContinuousAt a x) (hb : ContinuousAt b x) :
    ConvAt (fun u q => bonnet u (t q) k (a q) (b q)) x ((2 * (k : ℝ) - 1) / k * t x * a x - ((k : ℝ) - 1) / k * b x) := by
  have hk' : (k : ℝ) ≠ 0 := by exact_mod_cast hk
  have h : ConvAt (fun u (q : ℝ × ℝ × ℝ) => bonnet u q.1 k q.2.1 q.2.2) (t x, a x, b x) ((2 * (k : ℝ) - 1) / k * t x * a x - ((k : ℝ) - 1) / k * b x) := by
    unfold bonnet
    refine ConvAt.bind (ConvAt.quot (by fun_prop) (by fun_prop) hk') ?_
    refine ConvAt.bind (ConvAt.near (by fun_prop)) ?_
    refine ConvAt.bind (ConvAt.near (by fun_prop)) ?_
    refine ConvAt.bind (ConvAt.quot (by fun_prop) (by fun_prop) hk') ?_
    refine ConvAt.bind (ConvAt.near (by fun_prop)) ?_
    exact ConvAt.near (by fun_prop)
  exact ConvAt.comp (x := x) (f := fun q => (t q, a q, b q)) h (ht.prodMk (ha.prodMk hb))

theorem slope_conv {α : Type} [TopologicalSpace α] {k : ℕ} {a b : α → ℝ} {x : α} (ha : ContinuousAt a x) (hb : ContinuousAt b x) :
    ConvAt (fun u q => slope u k (a q) (b q)) x (b x + (2 * (k : ℝ) - 1) * a x) := by
  have h : ConvAt (fun u (q : ℝ × ℝ) => slope u k q.1 q.2) (a x, b x) (b x + (2 * (k : ℝ) - 1) * a x) := by
    unfold slope
    refine ConvAt.bind (ConvAt.near (by fun_prop)) ?_
    exact ConvAt.near (by fun_prop)
  exact ConvAt.comp (x := x) (f := fun q => (a q, b q)) h (ha.prodMk hb)

/-- One turn of the exact loop on tuples. -/
noncomputable def qExact (t : ℝ) (k : ℕ) (st : QVars) : QVars :=
  let ln := (2 * (k : ℝ) - 1) / k * t * st.2.1 - ((k : ℝ) - 1) / k * st.1
  (st.2.1, ln, st.2.2.2.1, st.2.2.1 + (2 * (k : ℝ) - 1) * st.2.1, ln)

theorem qStep_conv {k : ℕ} (hk : k ≠ 0) (t : ℝ) (st : QVars) : ConvAt (fun u (q : ℝ × QVars) => qStep u q.1 k q.2) (t, st) (qExact t k st) := by
  unfold qStep
  refine ConvAt.bind (bonnet_conv hk (by fun_prop) (by fun_prop) (by fun_prop)) ?_
  refine ConvAt.bind (slope_conv (by fun_prop) (by fun_prop)) ?_
  exact (ConvAt.pure (f := fun q : ((ℝ × QVars) × ℝ) × ℝ => ((q.1.1.2.2.1, q.1.2, q.1.1.2.2.2.2.1, q.2, q.1.2) : QVars)) (by fun_prop)).congr rfl

/-- The tuple of a state. -/
def tup (s : QSt) : QVars := (s.lm2, s.lm1, s.pm2, s.pm1, s.ln)

theorem tup_loop (t : ℝ) (a b : ℕ) (s : QSt) : forLoop a b (qExact t) (tup s) = tup (forLoop a b (GLL.qStep t) s) := by
  unfold forLoop
  induction List.range' a (b - a) generalizing s with
  | nil => rfl
  | cons i l ih =>
    rw [List.foldl_cons, List.foldl_cons, ← ih]
    rfl

theorem qAndEval_conv {n : ℕ} (hn : 2 ≤ n) (t : ℝ) :
    ConvAt (fun u t => qAndEval u t n) t ((qPoly n).eval t, (2 * (n : ℝ) + 1) * (Spec.legendre n).eval t, (Spec.legendre n).eval t) := by
  have hex := GLL.qAndEval_spec t n hn
  unfold GLL.qAndEval at hex
  rw [if_neg (by omega)] at hex
  injection hex with hex
  unfold qAndEval
  simp only [if_neg (show ¬ n < 2 by omega)]
  have h := ConvAt.foldlM (l := List.range' 2 (n + 1 - 2)) (body := fun u i t (s : QVars) => qStep u t i s) (exact := fun i s => qExact t i s) (x := t)
    (s := ((1, t, 0, 1, 0) : QVars)) fun i hi s => qStep_conv (by rw [List.mem_range'] at hi; omega) t s
  have e := tup_loop t 2 (n + 1) ⟨1, t, 0, 1, 0⟩
  unfold forLoop at e
  rw [show tup ⟨1, t, 0, 1, 0⟩ = ((1, t, 0, 1, 0) : QVars) from rfl] at e
  have h2 := ConvAt.comp (x := t) (f := fun s : ℝ => (s, ((1, s, 0, 1, 0) : QVars))) h (by fun_prop)
  rw [e] at h2
  refine ConvAt.bind h2 ?_
  refine ConvAt.bind (bonnet_conv (by omega) (by fun_prop) (by fun_prop) (by fun_prop)) ?_
  refine ConvAt.bind (slope_conv (by fun_prop) (by fun_prop)) ?_
  refine ConvAt.bind (ConvAt.near (by fun_prop)) ?_
  refine ConvAt.bind (ConvAt.near (by fun_prop)) ?_
  refine (ConvAt.pure (f := fun q : (((((ℝ × QVars) × ℝ) × ℝ) × ℝ) × ℝ) => (q.1.2, q.2, q.1.1.1.1.2.2.2.2.2)) (by fun_prop)).congr ?_
  exact hex

theorem weight_conv {N : ℕ} (hN : 2 ≤ N) {x : ℝ} (hx : (Spec.legendre N).eval x ≠ 0) :
    ConvAt (fun u x => weight u N x) x (2 / ((N : ℝ) * ((N : ℝ) + 1) * (Spec.legendre N).eval x ^ 2)) := by
  have h0 : (N : ℝ) * ((N : ℝ) + 1) * (Spec.legendre N).eval x ^ 2 ≠ 0 := by
    have : (0 : ℝ) < N := by exact_mod_cast (by omega : 0 < N)
    positivity
  unfold weight
  refine ConvAt.bind (qAndEval_conv hN x) ?_
  refine ConvAt.bind (ConvAt.near (by fun_prop)) ?_
  refine ConvAt.bind (ConvAt.near (by fun_prop)) ?_
  exact ConvAt.quot (by fun_prop) (by fun_prop) h0

theorem guess_conv {N j : ℕ} (hN : N ≠ 0) : ConvAt (fun u (_ : Unit) => guess u N j) () (GLL.guess N j) := by
  have hN' : (N : ℝ) ≠ 0 := by exact_mod_cast hN
  have hj : (j : ℝ) + 1 / 4 ≠ 0 := by positivity
  unfold guess GLL.guess
  refine ConvAt.bind (ConvAt.near (by fun_prop)) ?_
  refine ConvAt.bind (ConvAt.near (by fun_prop)) ?_
  refine ConvAt.bind (ConvAt.near (by fun_prop)) ?_
  refine ConvAt.bind (ConvAt.quot (by fun_prop) (by fun_prop) hN') ?_
  refine ConvAt.bind (ConvAt.near (by fun_prop)) ?_
  refine ConvAt.bind (ConvAt.quot (by fun_prop) (by fun_prop) (mul_ne_zero (mul_ne_zero (by norm_num) hN') pi_ne_zero)) ?_
  refine ConvAt.bind (ConvAt.quot (by fun_prop) (by fun_prop) hj) ?_
  refine ConvAt.bind (ConvAt.near (by fun_prop)) ?_
  refine ConvAt.bind (ConvAt.near (by fun_prop)) ?_
  refine ConvAt.bind (ConvAt.near (Real.continuous_cos.continuousAt.comp (by fun_prop))) ?_
  exact (ConvAt.pure (by fun_prop)).congr rfl

/-! ## Newton's method -/

/-- The points where Newton's method may stop when the test of convergence may go either way on the boundary. -/
inductive Stops (N : ℕ) : ℕ → ℝ → ℝ → Prop
  | out (x : ℝ) : Stops N 0 x x
  | stop {k : ℕ} {x : ℝ} : |nmap N x - x| ≤ tol9 * |nmap N x| → Stops N (k + 1) x (nmap N x)
  | go {k : ℕ} {x z : ℝ} : tol9 * |nmap N x| ≤ |nmap N x - x| → Stops N k (nmap N x) z → Stops N (k + 1) x z

theorem nmap_cont {N j : ℕ} (h : Win N j) {x : ℝ} (hx : x ∈ Set.Icc (pt N j 0) (pt N j (π / 2))) : (Spec.legendre N).eval x ≠ 0 := by
  obtain ⟨u, hu, rfl⟩ := exists_pt N j (by have := pi_pos; linarith) hx
  exact (win_step h hu.1 hu.2).1

theorem newton_ev {γ : Type} {N j : ℕ} (h : Win N j) {G : ℝ × ℝ → ℝ → Nd γ} {P : Res γ → Prop} (k : ℕ) {x : ℝ}
    (hx : x ∈ Set.Icc (pt N j 0) (pt N j (π / 2))) (H : ∀ z, Stops N k x z → Ev G z P) : Ev (fun u x => newton u N k x >>= G u) x P := by
  have hN : 2 ≤ N := by have := h.three; omega
  induction k generalizing x with
  | zero =>
    have e : (fun u x => newton u N 0 x >>= G u) = G := funext fun u => funext fun x => LawfulMonad.pure_bind x (G u)
    rw [e]
    exact H x (.out x)
  | succ k ih =>
    have hP := nmap_cont h hx
    have h2 : (2 * (N : ℝ) + 1) * (Spec.legendre N).eval x ≠ 0 := mul_ne_zero (by positivity) hP
    unfold newton
    simp only [bind_assoc]
    refine Ev.bind (qAndEval_conv hN x) ?_
    refine Ev.bind (ConvAt.quot (by fun_prop) (by fun_prop) h2) ?_
    refine Ev.bind (ConvAt.near (by fun_prop)) ?_
    refine Ev.bind (ConvAt.near (by fun_prop)) ?_
    have e1 : x + -(qPoly N).eval x / ((2 * (N : ℝ) + 1) * (Spec.legendre N).eval x) = nmap N x := by unfold nmap hstep; ring
    have e2 : -(qPoly N).eval x / ((2 * (N : ℝ) + 1) * (Spec.legendre N).eval x) = nmap N x - x := by unfold nmap hstep; ring
    dsimp only
    rw [e1, e2]
    have A : |nmap N x - x| ≤ tol9 * |nmap N x| → Ev (fun u (q : (((ℝ × ℝ × ℝ × ℝ) × ℝ) × ℝ) × ℝ) => G u q.1.2)
        ((((x, (qPoly N).eval x, (2 * (N : ℝ) + 1) * (Spec.legendre N).eval x, (Spec.legendre N).eval x), nmap N x - x), nmap N x), tol9 * |nmap N x|) P :=
      fun ht => Ev.comp (f := fun q : (((ℝ × ℝ × ℝ × ℝ) × ℝ) × ℝ) × ℝ => q.1.2)
        (x := ((((x, (qPoly N).eval x, (2 * (N : ℝ) + 1) * (Spec.legendre N).eval x, (Spec.legendre N).eval x), nmap N x - x), nmap N x), tol9 * |nmap N x|))
        (H _ (.stop ht)) (by fun_prop)
    have B : tol9 * |nmap N x| ≤ |nmap N x - x| → Ev (fun u (q : (((ℝ × ℝ × ℝ × ℝ) × ℝ) × ℝ) × ℝ) => newton u N k q.1.2 >>= G u)
        ((((x, (qPoly N).eval x, (2 * (N : ℝ) + 1) * (Spec.legendre N).eval x, (Spec.legendre N).eval x), nmap N x - x), nmap N x), tol9 * |nmap N x|) P :=
      fun ht => Ev.comp (F := fun u y => newton u N k y >>= G u) (f := fun q : (((ℝ × ℝ × ℝ × ℝ) × ℝ) × ℝ) × ℝ => q.1.2)
        (x := ((((x, (qPoly N).eval x, (2 * (N : ℝ) + 1) * (Spec.legendre N).eval x, (Spec.legendre N).eval x), nmap N x - x), nmap N x), tol9 * |nmap N x|))
        (ih (mid_sub h (nmap_win h hx)) fun z hz => H z (.go ht hz)) (by fun_prop)
    have t1 : Tendsto (fun q : (ℝ × ℝ) × ((((ℝ × ℝ × ℝ × ℝ) × ℝ) × ℝ) × ℝ) => |q.2.1.1.2|)
        (𝓝 ((0 : ℝ × ℝ), ((((x, (qPoly N).eval x, (2 * (N : ℝ) + 1) * (Spec.legendre N).eval x, (Spec.legendre N).eval x), nmap N x - x), nmap N x), tol9 * |nmap N x|)))
        (𝓝 |nmap N x - x|) := Continuous.tendsto' (by fun_prop) _ _ rfl
    have t2 : Tendsto (fun q : (ℝ × ℝ) × ((((ℝ × ℝ × ℝ × ℝ) × ℝ) × ℝ) × ℝ) => q.2.2)
        (𝓝 ((0 : ℝ × ℝ), ((((x, (qPoly N).eval x, (2 * (N : ℝ) + 1) * (Spec.legendre N).eval x, (Spec.legendre N).eval x), nmap N x - x), nmap N x), tol9 * |nmap N x|)))
        (𝓝 (tol9 * |nmap N x|)) := Continuous.tendsto' (by fun_prop) _ _ rfl
    rcases lt_trichotomy |nmap N x - x| (tol9 * |nmap N x|) with ht | ht | ht
    · filter_upwards [A ht.le, t1.eventually_lt t2 ht] with q hq hlt
      rw [if_pos hlt, LawfulMonad.pure_bind]
      exact hq
    · filter_upwards [A ht.le, B ht.ge] with q hq hq'
      split_ifs
      · rw [LawfulMonad.pure_bind]; exact hq
      · exact hq'
    · filter_upwards [B ht.le, t2.eventually_lt t1 ht] with q hq hlt
      rw [if_neg (by linarith)]
      exact hq

theorem stops_mid {N j : ℕ} (h : Win N j) (k : ℕ) {x d y : ℝ} (hx : x ∈ Set.Icc (pt N j (π / 20)) (pt N j (3 * π / 8))) (hd : |nmap N x - x| ≤ d)
    (hs : Stops N (k + 1) x y) : ∃ z ∈ Set.Icc (pt N j (π / 20)) (pt N j (3 * π / 8)), y = nmap N z ∧
      (|nmap N z - z| ≤ tol9 * |nmap N z| ∨ |nmap N z - z| ≤ (19 / 25) ^ k * d) := by
  induction k generalizing x d with
  | zero =>
    cases hs with
    | stop ht => exact ⟨x, hx, rfl, .inl ht⟩
    | go ht hs => cases hs; exact ⟨x, hx, rfl, .inr (by rw [pow_zero, one_mul]; exact hd)⟩
  | succ k ih =>
    cases hs with
    | stop ht => exact ⟨x, hx, rfl, .inl ht⟩
    | go ht hs =>
      have hm := nmap_win h (mid_sub h hx)
      obtain ⟨z, hz, e, hor⟩ := ih hm (d := 19 / 25 * d) ((nmap_contr h hm hx).trans (mul_le_mul_of_nonneg_left hd (by norm_num))) hs
      refine ⟨z, hz, e, hor.imp_right fun hle => hle.trans (le_of_eq ?_)⟩
      rw [pow_succ]; ring

theorem stops_good {N j : ℕ} (h : Win N j) {r y : ℝ} (hr : r ∈ Set.Icc (pt N j (π / 20)) (pt N j (3 * π / 8))) (hr0 : (qPoly N).eval r = 0)
    (hs : Stops N 100 (GLL.guess N j) y) : y ∈ Set.Icc (pt N j (π / 20)) (pt N j (3 * π / 8)) ∧ |y - r| ≤ tol9 * |y| := by
  have hfix : nmap N r = r := by unfold nmap hstep; rw [hr0, zero_div, sub_zero]
  have near : ∀ z ∈ Set.Icc (pt N j 0) (pt N j (π / 2)), |nmap N z - r| ≤ |nmap N z - z| := by
    intro z hz
    have ha := nmap_anti h
    rcases le_total z r with hle | hle
    · have := ha hz (mid_sub h hr) hle
      rw [hfix] at this
      rw [abs_of_nonneg (by linarith), abs_of_nonneg (by linarith)]; linarith
    · have := ha (mid_sub h hr) hz hle
      rw [hfix] at this
      rw [abs_of_nonpos (by linarith), abs_of_nonpos (by linarith)]; linarith
  have hg := guess_win h
  have hg1 := nmap_win h hg
  cases hs with
  | stop ht => exact ⟨hg1, (near _ hg).trans ht⟩
  | go ht hs =>
    obtain ⟨z, hz, rfl, hor⟩ := stops_mid h 98 hg1 (pt_width h (nmap_win h (mid_sub h hg1)) hg1) hs
    have hz1 := nmap_win h (mid_sub h hz)
    refine ⟨hz1, (near _ (mid_sub h hz)).trans ?_⟩
    rcases hor with h1 | h1
    · exact h1
    · refine h1.trans ?_
      have h2 := pt_abs h hz1
      have h3 : 0 < 1 / nu N := by have := nu_pos N; positivity
      have h4 : ((19 : ℝ) / 25) ^ 98 * 2 ≤ tol9 * (3 / 4) := by unfold tol9; norm_num
      calc ((19 : ℝ) / 25) ^ 98 * (2 * (1 / nu N)) = (((19 : ℝ) / 25) ^ 98 * 2) * (1 / nu N) := by ring
        _ ≤ tol9 * (3 / 4) * (1 / nu N) := mul_le_mul_of_nonneg_right h4 h3.le
        _ = tol9 * (3 / 4 * (1 / nu N)) := by ring
        _ ≤ tol9 * |nmap N z| := mul_le_mul_of_nonneg_left h2 (by unfold tol9; positivity)

/-- What is wanted of a computed point of the left half and its weight. -/
structure NodeOk (N j : ℕ) (r ε x w : ℝ) : Prop where
  win : ∃ z ∈ Set.Icc (pt N j (π / 20)) (pt N j (3 * π / 8)), |z - r| ≤ tol9 * |z| ∧ |x - z| < ε ∧ |w - wt N z| < ε
  acc : |x - r| < (tol9 + ε) * |x|
  wt : |w - 2 / ((N : ℝ) * ((N : ℝ) + 1) * (Spec.legendre N).eval x ^ 2)| < ε
  ne : (Spec.legendre N).eval x ≠ 0
  pos : 0 < w

theorem node_near {N j : ℕ} (h : Win N j) {r : ℝ} (hr : r ∈ Set.Icc (pt N j (π / 20)) (pt N j (3 * π / 8))) (hr0 : (qPoly N).eval r = 0) {ε : ℝ} (hε : 0 < ε) :
    ∀ᶠ u in 𝓝 (0 : ℝ × ℝ), All (node u N j) fun o => ∃ q, o = .ok q ∧ NodeOk N j r ε q.1 q.2 := by
  have hN : 2 ≤ N := by have := h.three; omega
  have hN0 : (0 : ℝ) < N := by exact_mod_cast (by omega : 0 < N)
  have H : Ev (fun u (_ : Unit) => node u N j) () fun o => ∃ q, o = .ok q ∧ NodeOk N j r ε q.1 q.2 := by
    unfold node
    refine Ev.bind (guess_conv (by omega)) ?_
    refine Ev.comp (x := ((), GLL.guess N j)) (F := fun u x0 => newton u N 100 x0 >>= fun x => weight u N x >>= fun w => pure (x, w)) (f := fun q : Unit × ℝ => q.2) ?_
      (by fun_prop)
    refine newton_ev h 100 (guess_win h) fun z hz => ?_
    obtain ⟨hz1, hz2⟩ := stops_good h hr hr0 hz
    have hP := win_ne h hz1
    have hzabs : 0 < |z| := lt_of_lt_of_le (by have := nu_pos N; positivity) (pt_abs h hz1)
    have c : ConvAt (fun u x => weight u N x >>= fun w => pure (x, w)) z (z, 2 / ((N : ℝ) * ((N : ℝ) + 1) * (Spec.legendre N).eval z ^ 2)) :=
      ConvAt.bind (weight_conv hN hP) ((ConvAt.pure (f := fun q : ℝ × ℝ => q) (by fun_prop)).congr rfl)
    have cl : Continuous fun q : ℝ × ℝ => (Spec.legendre N).eval q.1 := (Spec.legendre N).continuous.comp continuous_fst
    have hd0 : (N : ℝ) * ((N : ℝ) + 1) * (Spec.legendre N).eval z ^ 2 ≠ 0 := by positivity
    have m1 : ∀ᶠ q in 𝓝 (z, 2 / ((N : ℝ) * ((N : ℝ) + 1) * (Spec.legendre N).eval z ^ 2)), |q.1 - z| < ε :=
      (Continuous.tendsto (f := fun q : ℝ × ℝ => |q.1 - z|) (by fun_prop) (z, 2 / ((N : ℝ) * ((N : ℝ) + 1) * (Spec.legendre N).eval z ^ 2))).eventually_lt
        tendsto_const_nhds (by simpa using hε)
    have m2 : ∀ᶠ q in 𝓝 (z, 2 / ((N : ℝ) * ((N : ℝ) + 1) * (Spec.legendre N).eval z ^ 2)), |q.1 - r| < (tol9 + ε) * |q.1| :=
      (Continuous.tendsto (f := fun q : ℝ × ℝ => |q.1 - r|) (by fun_prop) (z, 2 / ((N : ℝ) * ((N : ℝ) + 1) * (Spec.legendre N).eval z ^ 2))).eventually_lt
        (Continuous.tendsto (f := fun q : ℝ × ℝ => (tol9 + ε) * |q.1|) (by fun_prop) _) (by dsimp only; nlinarith)
    have m4 : ∀ᶠ q in 𝓝 (z, 2 / ((N : ℝ) * ((N : ℝ) + 1) * (Spec.legendre N).eval z ^ 2)), (Spec.legendre N).eval q.1 ≠ 0 :=
      (cl.tendsto _).eventually_ne hP
    have m5 : ∀ᶠ q in 𝓝 (z, 2 / ((N : ℝ) * ((N : ℝ) + 1) * (Spec.legendre N).eval z ^ 2)), 0 < q.2 :=
      (tendsto_const_nhds (x := (0 : ℝ))).eventually_lt (Continuous.tendsto (f := fun q : ℝ × ℝ => q.2) (by fun_prop) _) (by dsimp only; positivity)
    have m3 : ∀ᶠ q in 𝓝 (z, 2 / ((N : ℝ) * ((N : ℝ) + 1) * (Spec.legendre N).eval z ^ 2)),
        |q.2 - 2 / ((N : ℝ) * ((N : ℝ) + 1) * (Spec.legendre N).eval q.1 ^ 2)| < ε := by
      have hc : ContinuousAt (fun q : ℝ × ℝ => |q.2 - 2 / ((N : ℝ) * ((N : ℝ) + 1) * (Spec.legendre N).eval q.1 ^ 2)|)
          (z, 2 / ((N : ℝ) * ((N : ℝ) + 1) * (Spec.legendre N).eval z ^ 2)) :=
        (continuousAt_snd.sub (continuousAt_const.div (continuousAt_const.mul (cl.continuousAt.pow 2)) hd0)).abs
      exact hc.tendsto.eventually_lt tendsto_const_nhds (by simpa using hε)
    have m6 : ∀ᶠ q in 𝓝 (z, 2 / ((N : ℝ) * ((N : ℝ) + 1) * (Spec.legendre N).eval z ^ 2)), |q.2 - wt N z| < ε :=
      (Continuous.tendsto (f := fun q : ℝ × ℝ => |q.2 - wt N z|) (by fun_prop) (z, 2 / ((N : ℝ) * ((N : ℝ) + 1) * (Spec.legendre N).eval z ^ 2))).eventually_lt
        tendsto_const_nhds (by unfold wt; simpa using hε)
    have := c _ (m1.and (m2.and (m3.and (m4.and (m5.and m6)))))
    refine this.mono fun q hq o ho => ?_
    obtain ⟨b, ⟨k1, k2, k3, k4, k5, k6⟩, rfl⟩ := hq o ho
    exact ⟨b, rfl, ⟨z, hz1, hz2, k1, k6⟩, k2, k3, k4, k5⟩
  have e : Tendsto (fun u : ℝ × ℝ => (u, ())) (𝓝 0) (𝓝 ((0 : ℝ × ℝ), ())) := Continuous.tendsto' (by fun_prop) _ _ rfl
  exact e.eventually H

/-! ## All points and weights -/

/-- What is wanted of the vectors. -/
structure PwOk (n : ℕ) (r : Vec) (ε : ℝ) (p w : Vec) : Prop where
  first : p 0 = -1
  anti : ∀ i < n, p (n - 1 - i) = -p i
  symm : ∀ i < n, w (n - 1 - i) = w i
  mid : n % 2 = 1 → p (n / 2) = 0
  left : ∀ j, 1 ≤ j → j < n / 2 → NodeOk (n - 1) j (r j) ε (p j) (w j)
  w0 : |w 0 - 2 / (((n - 1 : ℕ) : ℝ) * (((n - 1 : ℕ) : ℝ) + 1))| < ε ∧ 0 < w 0
  wmid : n % 2 = 1 → |w (n / 2) - 2 / (((n - 1 : ℕ) : ℝ) * (((n - 1 : ℕ) : ℝ) + 1) * (Spec.legendre (n - 1)).eval 0 ^ 2)| < ε ∧ 0 < w (n / 2)

/-- The vectors before pass `k` of the loop. -/
structure Filled (N k : ℕ) (w0 : ℝ) (X : ℕ → ℝ × ℝ) (st : Vec × Vec) : Prop where
  zero : st.1 0 = -1 ∧ st.1 N = 1 ∧ st.2 0 = w0 ∧ st.2 N = w0
  entry : ∀ j, 1 ≤ j → j < k → st.1 j = (X j).1 ∧ st.1 (N - j) = -(X j).1 ∧ st.2 j = (X j).2 ∧ st.2 (N - j) = (X j).2

/-- The assignments of one pass. -/
def put (N j : ℕ) (q : ℝ × ℝ) (st : Vec × Vec) : Vec × Vec := (setAt (setAt st.1 j q.1) (N - j) (-q.1), setAt (setAt st.2 j q.2) (N - j) q.2)

theorem filled_loop {N k : ℕ} (hk : 1 ≤ k) (hkN : 2 * k ≤ N + 1) (jp jw : Vec) (w0 : ℝ) (X : ℕ → ℝ × ℝ) :
    Filled N k w0 X (forLoop 1 k (fun j => put N j (X j)) (setAt (setAt jp 0 (-1)) N 1, setAt (setAt jw 0 w0) N w0)) := by
  refine forLoop_ind (fun k st => Filled N k w0 X st) hk _ _ ⟨⟨?_, ?_, ?_, ?_⟩, fun j h1 h2 => by omega⟩ fun i st h1 h2 H => ⟨?_, fun j h3 h4 => ?_⟩
  · dsimp only; rw [setAt_ne _ _ (by omega), setAt_self]
  · dsimp only; rw [setAt_self]
  · dsimp only; rw [setAt_ne _ _ (by omega), setAt_self]
  · dsimp only; rw [setAt_self]
  · unfold put
    dsimp only
    rw [setAt_ne _ _ (by omega), setAt_ne _ _ (by omega), setAt_ne _ _ (by omega), setAt_ne _ _ (by omega), setAt_ne _ _ (by omega), setAt_ne _ _ (by omega),
      setAt_ne _ _ (by omega), setAt_ne _ _ (by omega)]
    exact H.zero
  · unfold put
    dsimp only
    rcases Nat.lt_succ_iff_lt_or_eq.mp h4 with hlt | rfl
    · rw [setAt_ne _ _ (by omega), setAt_ne _ _ (by omega), setAt_ne _ _ (by omega), setAt_ne _ _ (by omega), setAt_ne _ _ (by omega), setAt_ne _ _ (by omega),
        setAt_ne _ _ (by omega), setAt_ne _ _ (by omega)]
      exact H.entry j h3 hlt
    · rw [setAt_self, setAt_self, setAt_ne _ _ (by omega), setAt_self, setAt_ne _ _ (by omega), setAt_self]
      exact ⟨rfl, rfl, rfl, rfl⟩

/-- The vectors that the program returns when the weights of the end points are `w0`, the points and weights of the loop `X` and the weight of the middle `wm`. -/
def result (n : ℕ) (jp jw : Vec) (w0 : ℝ) (X : ℕ → ℝ × ℝ) (wm : ℝ) : Vec × Vec :=
  let st := forLoop 1 (n / 2) (fun j => put (n - 1) j (X j)) (setAt (setAt jp 0 (-1)) (n - 1) 1, setAt (setAt jw 0 w0) (n - 1) w0)
  if (n - 1) % 2 = 0 then (setAt st.1 ((n - 1) / 2) 0, setAt st.2 ((n - 1) / 2) wm) else st

/-- The entries of the returned vectors. -/
theorem result_spec {n : ℕ} (hn : 3 ≤ n) (jp jw : Vec) (w0 : ℝ) (X : ℕ → ℝ × ℝ) (wm : ℝ) :
    Filled (n - 1) (n / 2) w0 X (result n jp jw w0 X wm) ∧ (n % 2 = 1 → (result n jp jw w0 X wm).1 (n / 2) = 0 ∧ (result n jp jw w0 X wm).2 (n / 2) = wm) := by
  have H := filled_loop (N := n - 1) (k := n / 2) (by omega) (by omega) jp jw w0 X
  unfold result
  dsimp only
  by_cases hpar : (n - 1) % 2 = 0
  · rw [if_pos hpar]
    refine ⟨⟨?_, fun j h1 h2 => ?_⟩, fun h => ?_⟩
    · dsimp only
      rw [setAt_ne _ _ (by omega), setAt_ne _ _ (by omega), setAt_ne _ _ (by omega), setAt_ne _ _ (by omega)]
      exact H.zero
    · dsimp only
      rw [setAt_ne _ _ (by omega), setAt_ne _ _ (by omega), setAt_ne _ _ (by omega), setAt_ne _ _ (by omega)]
      exact H.entry j h1 h2
    · dsimp only
      rw [show n / 2 = (n - 1) / 2 by omega, setAt_self, setAt_self]
      exact ⟨rfl, rfl⟩
  · rw [if_neg hpar]
    exact ⟨H, fun h => by omega⟩

theorem index_cases {n i : ℕ} (hi : i < n) : i < n / 2 ∨ (¬ i < n / 2 ∧ n - 1 - i < n / 2) ∨ (n % 2 = 1 ∧ i = n / 2) := by omega

theorem result_anti {n : ℕ} (hn : 3 ≤ n) (jp jw : Vec) (w0 : ℝ) (X : ℕ → ℝ × ℝ) (wm : ℝ) {i : ℕ} (hi : i < n) :
    (result n jp jw w0 X wm).1 (n - 1 - i) = -(result n jp jw w0 X wm).1 i ∧ (result n jp jw w0 X wm).2 (n - 1 - i) = (result n jp jw w0 X wm).2 i := by
  obtain ⟨H, Hm⟩ := result_spec hn jp jw w0 X wm
  have left : ∀ j < n / 2, (result n jp jw w0 X wm).1 (n - 1 - j) = -(result n jp jw w0 X wm).1 j ∧ (result n jp jw w0 X wm).2 (n - 1 - j) = (result n jp jw w0 X wm).2 j := by
    intro j hj
    rcases Nat.eq_zero_or_pos j with rfl | h1
    · obtain ⟨a, b, c, d⟩ := H.zero
      rw [Nat.sub_zero, a, b, c, d]; norm_num
    · obtain ⟨a, b, c, d⟩ := H.entry j h1 hj
      rw [a, b, c, d]; exact ⟨rfl, rfl⟩
  rcases index_cases hi with h | ⟨h, h'⟩ | ⟨h, rfl⟩
  · exact left i h
  · obtain ⟨a, b⟩ := left _ h'
    rw [show n - 1 - (n - 1 - i) = i by omega] at a b
    exact ⟨by rw [a, neg_neg], b.symm⟩
  · rw [show n - 1 - n / 2 = n / 2 by omega, (Hm h).1]; simp

/-- Every outcome consists of entries that were computed. -/
theorem pointsWeights_out {u : ℝ × ℝ} {E : Err → Prop} {n : ℕ} (hn : 3 ≤ n) {P0 Pm : ℝ → Prop} {Q : ℕ → ℝ × ℝ → Prop}
    (h0 : All (quot u 2 (((n - 1 : ℕ) : ℝ) * (((n - 1 : ℕ) : ℝ) + 1))) (Out E P0)) (hq : ∀ j, 1 ≤ j → j < n / 2 → All (node u (n - 1) j) (Out E (Q j)))
    (hm : (n - 1) % 2 = 0 → All (weight u (n - 1) 0) (Out E Pm)) (jp jw : Vec) :
    All (pointsWeights u n jp jw) (Out E fun o => ∃ w0 X wm, P0 w0 ∧ (∀ j, 1 ≤ j → j < n / 2 → Q j (X j)) ∧ ((n - 1) % 2 = 0 → Pm wm) ∧ o = result n jp jw w0 X wm) := by
  unfold pointsWeights
  rw [if_neg (by omega), if_neg (by omega)]
  dsimp only
  refine Out.bind h0 fun w0 hw0 => ?_
  refine Out.bind (loop_choice (f := fun j q st => put (n - 1) j q st) (Good := Q) (fun j s h1 h2 => ?_) _) ?_
  · unfold pwStep
    exact Out.bind (hq j h1 h2) fun q hq => Out.pure ⟨q, hq, rfl⟩
  · rintro st ⟨X, hX, rfl⟩
    unfold middleNode
    by_cases hpar : (n - 1) % 2 = 0
    · rw [if_pos hpar]
      refine Out.bind (hm hpar) fun wm hwm => Out.pure ⟨w0, X, wm, hw0, hX, fun _ => hwm, ?_⟩
      unfold result
      rw [if_pos hpar]
    · rw [if_neg hpar]
      refine Out.pure ⟨w0, X, 0, hw0, hX, fun h => absurd h hpar, ?_⟩
      unfold result
      rw [if_neg hpar]

theorem pointsWeights_near {n : ℕ} (hn : 2 ≤ n) {r : Vec} (hr : Arr n r) (hr0 : ∀ i < n, (qPoly (n - 1)).eval (r i) = 0) {ε : ℝ} (hε : 0 < ε) :
    ∀ᶠ u in 𝓝 (0 : ℝ × ℝ), ∀ jp jw, All (pointsWeights u n jp jw) (Out (fun _ => False) fun o => PwOk n r ε o.1 o.2) := by
  rcases Nat.eq_or_lt_of_le hn with rfl | hn3
  · refine Eventually.of_forall fun u jp jw => ?_
    unfold pointsWeights
    rw [if_neg (by norm_num), if_pos rfl]
    refine Out.pure ⟨by simp [setAt], fun i hi => ?_, fun i hi => ?_, fun h => by omega, fun j h1 h2 => by omega, ?_, fun h => by omega⟩
    · interval_cases i <;> simp [setAt]
    · interval_cases i <;> simp [setAt]
    · norm_num [setAt]
      exact hε
  have hN : 2 ≤ n - 1 := by omega
  have hN0 : (0 : ℝ) < ((n - 1 : ℕ) : ℝ) := by exact_mod_cast (by omega : 0 < n - 1)
  have e : Tendsto (fun u : ℝ × ℝ => (u, ())) (𝓝 0) (𝓝 ((0 : ℝ × ℝ), ())) := Continuous.tendsto' (by fun_prop) _ _ rfl
  have e0 : Tendsto (fun u : ℝ × ℝ => (u, (0 : ℝ))) (𝓝 0) (𝓝 ((0 : ℝ × ℝ), 0)) := Continuous.tendsto' (by fun_prop) _ _ rfl
  have near : ∀ {v : ℝ}, 0 < v → {x : ℝ | |x - v| < ε ∧ 0 < x} ∈ 𝓝 v := fun {v} hv =>
    ((Continuous.tendsto (f := fun x : ℝ => |x - v|) (by fun_prop) v).eventually_lt tendsto_const_nhds (by simpa using hε)).and (lt_mem_nhds hv)
  have a1 := e.eventually (ConvAt.quot (α := Unit) (x := ()) (f := fun _ => 2) (g := fun _ => ((n - 1 : ℕ) : ℝ) * (((n - 1 : ℕ) : ℝ) + 1)) (by fun_prop) (by fun_prop)
    (by positivity) _ (near (by positivity)))
  have a2 : ∀ᶠ u in 𝓝 (0 : ℝ × ℝ), ∀ j ∈ Finset.range (n / 2), 1 ≤ j → All (node u (n - 1) j) fun o => ∃ q, o = .ok q ∧ NodeOk (n - 1) j (r j) ε q.1 q.2 := by
    refine (Filter.eventually_all_finset _).mpr fun j hj => ?_
    rw [Finset.mem_range] at hj
    by_cases h1 : 1 ≤ j
    · filter_upwards [node_near (⟨h1, by omega⟩ : Win (n - 1) j) (hr.win j h1 hj) (hr0 j (by omega)) hε] with u hu _
      exact hu
    · exact Eventually.of_forall fun u h => absurd h h1
  have a3 : ∀ᶠ u in 𝓝 (0 : ℝ × ℝ), (n - 1) % 2 = 0 → All (weight u (n - 1) 0) (Out (fun _ => False) fun w =>
      |w - 2 / (((n - 1 : ℕ) : ℝ) * (((n - 1 : ℕ) : ℝ) + 1) * (Spec.legendre (n - 1)).eval 0 ^ 2)| < ε ∧ 0 < w) := by
    by_cases hpar : (n - 1) % 2 = 0
    · have hP := legendre_even_ne (N := n - 1) (by omega) hpar
      filter_upwards [e0.eventually (weight_conv hN hP _ (near (by positivity)))] with u hu _ o ho
      obtain ⟨b, hb, rfl⟩ := hu o ho
      exact .inr ⟨b, hb, rfl⟩
    · exact Eventually.of_forall fun u h => absurd h hpar
  filter_upwards [a1, a2, a3] with u h1 h2 h3 jp jw
  refine All.mono (pointsWeights_out (E := fun _ => False) (P0 := fun w => |w - 2 / (((n - 1 : ℕ) : ℝ) * (((n - 1 : ℕ) : ℝ) + 1))| < ε ∧ 0 < w)
    (Q := fun j q => NodeOk (n - 1) j (r j) ε q.1 q.2) hn3 (fun o ho => ?_) (fun j k1 k2 o ho => ?_) h3 jp jw) ?_
  · obtain ⟨b, hb, rfl⟩ := h1 o ho
    exact .inr ⟨b, hb, rfl⟩
  · obtain ⟨q, rfl, hq⟩ := h2 j (Finset.mem_range.mpr k2) k1 o ho
    exact .inr ⟨q, hq, rfl⟩
  · rintro o (⟨_, h, _⟩ | ⟨q, ⟨w0, X, wm, k0, kX, km, rfl⟩, rfl⟩)
    · exact h.elim
    · obtain ⟨H, Hm⟩ := result_spec (hn3 : 3 ≤ n) jp jw w0 X wm
      refine .inr ⟨_, ⟨H.zero.1, fun i hi => (result_anti hn3 jp jw w0 X wm hi).1, fun i hi => (result_anti hn3 jp jw w0 X wm hi).2, fun h => (Hm h).1,
        fun j k1 k2 => ?_, ?_, fun h => ?_⟩, rfl⟩
      · rw [(H.entry j k1 k2).1, (H.entry j k1 k2).2.2.1]; exact kX j k1 k2
      · rw [H.zero.2.2.1]; exact k0
      · rw [(Hm h).2]; exact km (by omega)

/-- A vector from its left half. -/
def ext (n : ℕ) (l : Vec) : Vec := fun i => if i < n / 2 then l i else if n - 1 - i < n / 2 then -l (n - 1 - i) else 0

theorem ext_left {n : ℕ} {l : Vec} {i : ℕ} (hi : i < n / 2) : ext n l i = l i := if_pos hi

theorem ext_right {n : ℕ} {l : Vec} {i : ℕ} (hi : ¬ i < n / 2) (hi' : n - 1 - i < n / 2) : ext n l i = -l (n - 1 - i) := by
  unfold ext; rw [if_neg hi, if_pos hi']

theorem ext_mid {n : ℕ} {l : Vec} (h : n % 2 = 1) : ext n l (n / 2) = 0 := by
  unfold ext; rw [if_neg (by omega), if_neg (by omega)]

theorem ext_anti {n : ℕ} {l : Vec} {i : ℕ} (hi : i < n) : ext n l (n - 1 - i) = -ext n l i := by
  rcases index_cases hi with h | ⟨h, h'⟩ | ⟨h, rfl⟩
  · rw [ext_left h, ext_right (by omega) (by omega), show n - 1 - (n - 1 - i) = i by omega]
  · rw [ext_left h', ext_right h h', neg_neg]
  · rw [show n - 1 - n / 2 = n / 2 by omega, ext_mid h, neg_zero]

theorem ext_arr {n : ℕ} (hn : 2 ≤ n) {l : Vec} (h0 : l 0 = -1)
    (hw : ∀ j, 1 ≤ j → j < n / 2 → l j ∈ Set.Icc (pt (n - 1) j (π / 20)) (pt (n - 1) j (3 * π / 8))) : Arr n (ext n l) :=
  ⟨hn, by rw [ext_left (by omega), h0], fun i hi => ext_anti hi, fun j h1 h2 => by rw [ext_left h2]; exact hw j h1 h2, fun h => ext_mid h⟩

theorem wt_neg (N : ℕ) (x : ℝ) : wt N (-x) = wt N x := by unfold wt; rw [legendre_sq_neg]

/-- All entries of the computed vectors, compared with an exact arrangement of points. -/
theorem PwOk.arr {n : ℕ} (hn : 2 ≤ n) {r p w : Vec} {ε : ℝ} (hε : 0 < ε) (hr : Arr n r) (h : PwOk n r ε p w) :
    ∃ z, Arr n z ∧ (∀ i < n, |z i - r i| ≤ tol9 * |z i|) ∧ ∀ i < n, |p i - z i| ≤ ε ∧ |w i - wt (n - 1) (z i)| ≤ ε ∧ |p i - r i| ≤ (tol9 + ε) * |p i| ∧
      |w i - wt (n - 1) (p i)| ≤ ε ∧ 0 < w i := by
  have htol : 0 < tol9 := by unfold tol9; positivity
  have hch : ∀ j, ∃ z, (1 ≤ j → j < n / 2 → z ∈ Set.Icc (pt (n - 1) j (π / 20)) (pt (n - 1) j (3 * π / 8)) ∧ |z - r j| ≤ tol9 * |z| ∧ |p j - z| < ε ∧
      |w j - wt (n - 1) z| < ε) ∧ (j = 0 → z = -1) := by
    intro j
    rcases Nat.eq_zero_or_pos j with rfl | h1
    · exact ⟨-1, fun h => by omega, fun _ => rfl⟩
    · by_cases h2 : j < n / 2
      · obtain ⟨z, hz⟩ := (h.left j h1 h2).win
        exact ⟨z, fun _ _ => hz, fun h => by omega⟩
      · exact ⟨0, fun _ h => absurd h h2, fun h => by omega⟩
  choose l hl hl0 using hch
  have hA : Arr n (ext n l) := ext_arr hn (hl0 0 rfl) fun j h1 h2 => (hl j h1 h2).1
  have w1 : wt (n - 1) (-1) = 2 / (((n - 1 : ℕ) : ℝ) * (((n - 1 : ℕ) : ℝ) + 1)) := by
    rw [wt_neg]; unfold wt; rw [Legendre.legendre_eval_one]; norm_num
  have left : ∀ i < n / 2, |l i - r i| ≤ tol9 * |l i| ∧ |p i - l i| ≤ ε ∧ |w i - wt (n - 1) (l i)| ≤ ε ∧ |p i - r i| ≤ (tol9 + ε) * |p i| ∧
      |w i - wt (n - 1) (p i)| ≤ ε ∧ 0 < w i := by
    intro i hi
    rcases Nat.eq_zero_or_pos i with rfl | h1
    · rw [hl0 0 rfl, h.first, hr.first, w1]
      refine ⟨by simp; positivity, by simpa using hε.le, h.w0.1.le, by simp; positivity, h.w0.1.le, h.w0.2⟩
    · obtain ⟨-, a, b, c⟩ := hl i h1 hi
      have d := h.left i h1 hi
      exact ⟨a, b.le, c.le, d.acc.le, d.wt.le, d.pos⟩
  refine ⟨ext n l, hA, fun i hi => ?_, fun i hi => ?_⟩
  · rcases index_cases hi with k | ⟨k, k'⟩ | ⟨k, rfl⟩
    · rw [ext_left k]; exact (left i k).1
    · have := (left _ k').1
      rw [ext_right k k', abs_neg]
      rw [hr.anti i hi] at this
      rwa [show -l (n - 1 - i) - r i = -(l (n - 1 - i) - -r i) by ring, abs_neg]
    · rw [ext_mid k, hr.mid k]; simp
  · rcases index_cases hi with k | ⟨k, k'⟩ | ⟨k, rfl⟩
    · rw [ext_left k]; exact (left i k).2
    · obtain ⟨-, a, b, c, d, e⟩ := left _ k'
      rw [h.anti i hi] at a c d
      rw [h.symm i hi] at b d e
      rw [hr.anti i hi, abs_neg] at c
      rw [wt_neg] at d
      rw [ext_right k k', wt_neg]
      refine ⟨?_, b, ?_, d, e⟩
      · rwa [show p i - -l (n - 1 - i) = -(-p i - l (n - 1 - i)) by ring, abs_neg]
      · rwa [show p i - r i = -(-p i - -r i) by ring, abs_neg]
    · rw [ext_mid k, h.mid k, hr.mid k]
      obtain ⟨a, b⟩ := h.wmid k
      exact ⟨by simpa using hε.le, a.le, by simp, a.le, b⟩

/-! ## The exact run is among the possible ones -/

section Exact

variable {u : ℝ × ℝ} (h1 : 0 ≤ u.1) (h2 : 0 ≤ u.2)

include h1 h2

theorem bonnet_has (t : ℝ) {k : ℕ} (hk : k ≠ 0) (a b : ℝ) : Has (bonnet u t k a b) ((2 * (k : ℝ) - 1) / k * t * a - ((k : ℝ) - 1) / k * b) := by
  have hk' : (k : ℝ) ≠ 0 := by exact_mod_cast hk
  exact .bind (.quot h1 h2 _ hk') (.bind (.near h1 h2 _) (.bind (.near h1 h2 _) (.bind (.quot h1 h2 _ hk') (.bind (.near h1 h2 _) (.near h1 h2 _)))))

theorem slope_has (k : ℕ) (a b : ℝ) : Has (slope u k a b) (b + (2 * (k : ℝ) - 1) * a) := .bind (.near h1 h2 _) (.near h1 h2 _)

theorem qAndEval_has {n : ℕ} (hn : 2 ≤ n) (t : ℝ) :
    Has (qAndEval u t n) ((qPoly n).eval t, (2 * (n : ℝ) + 1) * (Spec.legendre n).eval t, (Spec.legendre n).eval t) := by
  have hex := GLL.qAndEval_spec t n hn
  unfold GLL.qAndEval at hex
  rw [if_neg (by omega)] at hex
  injection hex with hex
  change (_, _, _) = ((qPoly n).eval t, _, _) at hex
  rw [← hex]
  unfold qAndEval
  rw [if_neg (by omega)]
  refine .bind (a := tup (forLoop 2 (n + 1) (GLL.qStep t) ⟨1, t, 0, 1, 0⟩)) ?_ ?_
  · rw [← tup_loop]
    refine Has.loop (fun i hi _ s => ?_) _
    exact .bind (bonnet_has h1 h2 t (by omega) _ _) (.bind (slope_has h1 h2 _ _ _) (.pure _))
  · exact .bind (bonnet_has h1 h2 t (by omega) _ _) (.bind (slope_has h1 h2 _ _ _) (.bind (.near h1 h2 _) (.bind (.near h1 h2 _) (.pure _))))

theorem newton_has {N : ℕ} (hN : 2 ≤ N) (k : ℕ) {x y : ℝ} (h : GLL.newton N k x = .ok y) : Has (newton u N k x) y := by
  induction k generalizing x with
  | zero => unfold GLL.newton at h; cases h; exact .pure _
  | succ k ih =>
    unfold GLL.newton at h
    rw [GLL.qAndEval_spec _ N hN, GLL.ok_bind] at h
    dsimp only at h
    by_cases h0 : (2 * (N : ℝ) + 1) * (Spec.legendre N).eval x = 0
    · rw [if_pos h0] at h; cases h
    rw [if_neg h0] at h
    unfold newton
    refine .bind (qAndEval_has h1 h2 hN x) (.bind (.quot h1 h2 _ h0) (.bind (.near h1 h2 _) (.bind (.near h1 h2 _) ?_)))
    dsimp only
    unfold qPoly
    split_ifs at h with ht
    · cases h
      rw [if_pos ht]
      exact .pure _
    · rw [if_neg ht]
      exact ih h

theorem guess_has {N : ℕ} (hN : N ≠ 0) (j : ℕ) : Has (guess u N j) (GLL.guess N j) := by
  have hN' : (N : ℝ) ≠ 0 := by exact_mod_cast hN
  have hj : (j : ℝ) + 1 / 4 ≠ 0 := by positivity
  unfold guess GLL.guess
  exact .bind (.near h1 h2 _) (.bind (.near h1 h2 _) (.bind (.near h1 h2 _) (.bind (.quot h1 h2 _ hN') (.bind (.near h1 h2 _) (.bind
    (.quot h1 h2 _ (mul_ne_zero (mul_ne_zero (by norm_num) hN') pi_ne_zero)) (.bind (.quot h1 h2 _ hj) (.bind (.near h1 h2 _) (.bind (.near h1 h2 _)
      (.bind (.near h1 h2 _) (.pure _))))))))))

theorem weight_has {N : ℕ} (hN : 2 ≤ N) {x w : ℝ} (h : GLL.weight N x = .ok w) : Has (weight u N x) w := by
  obtain ⟨hP, rfl⟩ := weight_spec hN h
  have h0 : (N : ℝ) * ((N : ℝ) + 1) * (Spec.legendre N).eval x ^ 2 ≠ 0 := by
    have : (0 : ℝ) < N := by exact_mod_cast (by omega : 0 < N)
    positivity
  exact .bind (qAndEval_has h1 h2 hN x) (.bind (.near h1 h2 _) (.bind (.near h1 h2 _) (.quot h1 h2 _ h0)))

omit h1 h2 in
theorem loop_has {σ : Type} {a b : ℕ} {body : ℕ → σ → Nd σ} {ex : ℕ → σ → Res σ} (H : ∀ i, a ≤ i → i < b → ∀ s s', ex i s = .ok s' → Has (body i s) s') {s s' : σ}
    (h : forLoopM a b ex s = .ok s') : Has (Nd.loop a b body s) s' := by
  unfold forLoopM at h
  unfold Nd.loop
  have key : ∀ l : List ℕ, (∀ i ∈ l, a ≤ i ∧ i < b) → ∀ s, l.foldlM (fun st i => ex i st) s = .ok s' → Has (l.foldlM (fun st i => body i st) s) s' := by
    intro l
    induction l with
    | nil => intro _ s h; cases h; exact .pure _
    | cons i l ih =>
      intro hl s h
      rw [List.foldlM_cons] at h ⊢
      cases hb : ex i s with
      | error e => rw [hb] at h; cases h
      | ok s1 =>
        rw [hb] at h
        exact .bind (H i (hl i (by simp)).1 (hl i (by simp)).2 s s1 hb) (ih (fun j hj => hl j (by simp [hj])) s1 h)
  exact key _ (fun i hi => by rw [List.mem_range'_1] at hi; omega) s h

theorem pointsWeights_has {n : ℕ} {jp jw : Vec} {o : Vec × Vec} (h : GLL.pointsWeights n jp jw = .ok o) : Has (pointsWeights u n jp jw) o := by
  unfold GLL.pointsWeights at h
  unfold pointsWeights
  by_cases h3 : n < 2
  · rw [if_pos h3] at h; cases h
  rw [if_neg h3] at h ⊢
  by_cases h4 : n = 2
  · rw [if_pos h4] at h ⊢; cases h; exact .pure _
  rw [if_neg h4] at h ⊢
  dsimp only at h ⊢
  have hN : 2 ≤ n - 1 := by omega
  have hN0 : (0 : ℝ) < ((n - 1 : ℕ) : ℝ) := by exact_mod_cast (by omega : 0 < n - 1)
  refine .bind (.quot h1 h2 _ (by positivity)) ?_
  cases hl : forLoopM 1 (n / 2) (GLL.pwStep (n - 1)) (setAt (setAt jp 0 (-1)) (n - 1) 1, setAt (setAt jw 0 (2 / (((n - 1 : ℕ) : ℝ) * (((n - 1 : ℕ) : ℝ) + 1)))) (n - 1)
      (2 / (((n - 1 : ℕ) : ℝ) * (((n - 1 : ℕ) : ℝ) + 1)))) with
  | error e => rw [hl] at h; cases h
  | ok st =>
    rw [hl, GLL.ok_bind] at h
    refine .bind (loop_has (fun j k1 k2 s s' hs => ?_) hl) ?_
    · unfold GLL.pwStep at hs
      cases hx : GLL.newton (n - 1) 100 (GLL.guess (n - 1) j) with
      | error e => rw [hx] at hs; cases hs
      | ok x =>
        rw [hx, GLL.ok_bind] at hs
        dsimp only at hs
        cases hw : GLL.weight (n - 1) x with
        | error e => rw [hw] at hs; cases hs
        | ok w =>
          rw [hw, GLL.ok_bind] at hs
          cases hs
          exact .bind (.bind (guess_has h1 h2 (by omega) j) (.bind (newton_has h1 h2 hN 100 hx) (.bind (weight_has h1 h2 hN hw) (.pure (x, w))))) (.pure _)
    · unfold middleNode
      by_cases hpar : (n - 1) % 2 = 0
      · rw [if_pos hpar] at h ⊢
        cases hw : GLL.weight (n - 1) 0 with
        | error e => rw [hw] at h; cases h
        | ok w =>
          rw [hw, GLL.ok_bind] at h
          cases h
          exact .bind (weight_has h1 h2 hN hw) (.pure _)
      · rw [if_neg hpar] at h ⊢
        cases h
        exact .pure _

end Exact

/-! ## Nothing uninitialised is read -/

theorem safe_bonnet (u : ℝ × ℝ) (t : ℝ) (k : ℕ) (a b : ℝ) : All (bonnet u t k a b) Safe :=
  safe_bind (safe_quot _ _ _) fun _ => safe_bind (safe_near _ _) fun _ => safe_bind (safe_near _ _) fun _ => safe_bind (safe_quot _ _ _) fun _ =>
    safe_bind (safe_near _ _) fun _ => safe_near _ _

theorem safe_slope (u : ℝ × ℝ) (k : ℕ) (a b : ℝ) : All (slope u k a b) Safe := safe_bind (safe_near _ _) fun _ => safe_near _ _

theorem safe_qAndEval (u : ℝ × ℝ) (t : ℝ) {n : ℕ} (hn : 2 ≤ n) : All (qAndEval u t n) Safe := by
  unfold qAndEval
  rw [if_neg (by omega)]
  refine safe_bind (safe_loop (fun i s => safe_bind (safe_bonnet _ _ _ _ _) fun _ => safe_bind (safe_slope _ _ _ _) fun _ => safe_pure _) _) fun st => ?_
  exact safe_bind (safe_bonnet _ _ _ _ _) fun _ => safe_bind (safe_slope _ _ _ _) fun _ => safe_bind (safe_near _ _) fun _ => safe_bind (safe_near _ _) fun _ => safe_pure _

theorem safe_newton (u : ℝ × ℝ) {N : ℕ} (hN : 2 ≤ N) (k : ℕ) (x : ℝ) : All (newton u N k x) Safe := by
  induction k generalizing x with
  | zero => exact safe_pure _
  | succ k ih =>
    unfold newton
    refine safe_bind (safe_qAndEval u x hN) fun r => safe_bind (safe_quot _ _ _) fun d => safe_bind (safe_near _ _) fun y => safe_bind (safe_near _ _) fun b => ?_
    split_ifs
    · exact safe_pure _
    · exact ih y

theorem safe_weight (u : ℝ × ℝ) {N : ℕ} (hN : 2 ≤ N) (x : ℝ) : All (weight u N x) Safe :=
  safe_bind (safe_qAndEval u x hN) fun _ => safe_bind (safe_near _ _) fun _ => safe_bind (safe_near _ _) fun _ => safe_quot _ _ _

theorem safe_guess (u : ℝ × ℝ) (N j : ℕ) : All (guess u N j) Safe :=
  safe_bind (safe_near _ _) fun _ => safe_bind (safe_near _ _) fun _ => safe_bind (safe_near _ _) fun _ => safe_bind (safe_quot _ _ _) fun _ =>
    safe_bind (safe_near _ _) fun _ => safe_bind (safe_quot _ _ _) fun _ => safe_bind (safe_quot _ _ _) fun _ => safe_bind (safe_near _ _) fun _ =>
      safe_bind (safe_near _ _) fun _ => safe_bind (safe_near _ _) fun _ => safe_pure _

theorem out_of_safe {α : Type} {p : Nd α} (h : All p Safe) : All p (Out (fun e => e ≠ .ub) fun _ => True) := by
  intro r hr
  cases r with
  | error e => exact .inl ⟨e, fun he => h _ hr (by rw [he]), rfl⟩
  | ok a => exact .inr ⟨a, trivial, rfl⟩

/-- For any rounding errors: no undefined behaviour, and the entries are those of some arrangement. -/
theorem pointsWeights_any (u : ℝ × ℝ) {n : ℕ} (hn : 3 ≤ n) (jp jw : Vec) :
    All (pointsWeights u n jp jw) (Out (fun e => e ≠ .ub) fun o => ∃ w0 X wm, o = result n jp jw w0 X wm) := by
  have hN : 2 ≤ n - 1 := by omega
  refine All.mono (pointsWeights_out (P0 := fun _ => True) (Pm := fun _ => True) (Q := fun _ _ => True) hn (out_of_safe (safe_quot _ _ _)) (fun j _ _ => out_of_safe ?_)
    (fun _ => out_of_safe (safe_weight u hN 0)) jp jw) ?_
  · exact safe_bind (safe_guess _ _ _) fun _ => safe_bind (safe_newton u hN _ _) fun _ => safe_bind (safe_weight u hN _) fun _ => safe_pure _
  · rintro o (h | ⟨q, ⟨w0, X, wm, -, -, -, rfl⟩, rfl⟩)
    · exact .inl h
    · exact .inr ⟨_, ⟨w0, X, wm, rfl⟩, rfl⟩

theorem trivial_out {α : Type} (p : Nd α) : All p (Out (fun _ => True) fun a => p (.ok a)) := by
  intro r hr
  cases r with
  | error e => exact .inl ⟨e, trivial, rfl⟩
  | ok a => exact .inr ⟨a, hr, rfl⟩

/-- The entries that are returned do not depend on the previous contents of the memory. -/
theorem pointsWeights_memory {u : ℝ × ℝ} {n : ℕ} (hn : 2 ≤ n) {jp jw : Vec} (jp' jw' : Vec) {o : Vec × Vec} (h : pointsWeights u n jp jw (.ok o)) :
    ∃ o', pointsWeights u n jp' jw' (.ok o') ∧ ∀ i < n, o.1 i = o'.1 i ∧ o.2 i = o'.2 i := by
  rcases Nat.eq_or_lt_of_le hn with rfl | hn3
  · unfold pointsWeights at h ⊢
    rw [if_neg (by norm_num), if_pos rfl] at h ⊢
    cases h
    refine ⟨_, rfl, fun i hi => ?_⟩
    interval_cases i <;> simp [setAt]
  rcases pointsWeights_out (E := fun _ => True) hn3 (trivial_out _) (fun j _ _ => trivial_out (node u (n - 1) j)) (fun _ => trivial_out _) jp jw _ h with ⟨e, -, he⟩ | ⟨a, ⟨w0, X, wm, k0, kX, km, rfl⟩, ha⟩
  · cases he
  injection ha with ha
  subst ha
  refine ⟨result n jp' jw' w0 X wm, ?_, fun i hi => ?_⟩
  · unfold pointsWeights
    rw [if_neg (by omega), if_neg (by omega)]
    refine Has.bind k0 (Has.bind (Has.loop (exact := fun j => put (n - 1) j (X j)) (fun j c1 c2 st => Has.bind (kX j c1 c2) (Has.pure _)) _) ?_)
    unfold middleNode result
    by_cases hpar : (n - 1) % 2 = 0
    · rw [if_pos hpar, if_pos hpar]
      exact Has.bind (km hpar) (Has.pure _)
    · rw [if_neg hpar, if_neg hpar]
      exact Has.pure _
  · obtain ⟨H, Hm⟩ := result_spec hn3 jp jw w0 X wm
    obtain ⟨H', Hm'⟩ := result_spec hn3 jp' jw' w0 X wm
    rcases index_cases hi with k | ⟨k, k'⟩ | ⟨k, rfl⟩
    · rcases Nat.eq_zero_or_pos i with rfl | c1
      · rw [H.zero.1, H'.zero.1, H.zero.2.2.1, H'.zero.2.2.1]; exact ⟨rfl, rfl⟩
      · rw [(H.entry i c1 k).1, (H'.entry i c1 k).1, (H.entry i c1 k).2.2.1, (H'.entry i c1 k).2.2.1]; exact ⟨rfl, rfl⟩
    · obtain ⟨j, rfl⟩ : ∃ j, i = n - 1 - j := ⟨n - 1 - i, by omega⟩
      rw [show n - 1 - (n - 1 - j) = j by omega] at k'
      rcases Nat.eq_zero_or_pos j with rfl | c1
      · rw [Nat.sub_zero, H.zero.2.1, H'.zero.2.1, H.zero.2.2.2, H'.zero.2.2.2]; exact ⟨rfl, rfl⟩
      · rw [(H.entry j c1 k').2.1, (H'.entry j c1 k').2.1, (H.entry j c1 k').2.2.2, (H'.entry j c1 k').2.2.2]; exact ⟨rfl, rfl⟩
    · rw [(Hm k).1, (Hm' k).1, (Hm k).2, (Hm' k).2]; exact ⟨rfl, rfl⟩

end GSplines.Rounded
