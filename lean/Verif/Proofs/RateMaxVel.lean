import Verif.Proofs.RateScaling
import Verif.Proofs.RateSplineOps
import Verif.Proofs.Tools

/-! # Scaling to bounds of velocity and acceleration: errors proportional to the rounding errors -/

namespace GSplines.Tools

theorem le_maxCoeff {l : List ℝ} {x : ℝ} (h : x ∈ l) : x ≤ maxCoeff l := by
  by_contra hc
  exact lt_irrefl _ ((maxCoeff_lt (List.ne_nil_of_mem h) x).mp (not_le.mp hc) x h)

theorem exists_maxCoeff {l : List ℝ} (h : l ≠ []) : ∃ x ∈ l, maxCoeff l = x := by
  by_contra hc
  push Not at hc
  exact lt_irrefl _ ((maxCoeff_lt h (maxCoeff l)).mpr fun x hx => lt_of_le_of_ne (le_maxCoeff hx) (hc x hx).symm)

theorem maxAbs_near {l l0 : List ℝ} {η : ℝ} (hne : l0 ≠ []) (h : List.Forall₂ (fun x y => |x - y| ≤ η) l l0) : |maxAbs l - maxAbs l0| ≤ η := by
  have hl := h.length_eq
  have hne' : l ≠ [] := by
    intro e
    rw [e] at hl
    exact hne (List.length_eq_zero_iff.mp hl.symm)
  have hF := (List.forall₂_iff_get.mp h).2
  rw [abs_le]
  constructor
  · obtain ⟨y, hy, e⟩ := exists_maxAbs hne
    obtain ⟨i, hi, rfl⟩ := List.getElem_of_mem hy
    have h1 := hF i (by omega) hi
    have h2 := le_maxAbs (List.getElem_mem (l := l) (n := i) (by omega))
    have h3 := abs_sub_abs_le_abs_sub l0[i] (l[i]'(by omega))
    rw [abs_sub_comm] at h3
    have h1' : |(l[i]'(by omega)) - l0[i]| ≤ η := h1
    linarith
  · obtain ⟨y, hy, e⟩ := exists_maxAbs hne'
    obtain ⟨i, hi, rfl⟩ := List.getElem_of_mem hy
    have h1 := hF i hi (by omega)
    have h2 := le_maxAbs (List.getElem_mem (l := l0) (n := i) (by omega))
    have h3 := abs_sub_abs_le_abs_sub l[i] (l0[i]'(by omega))
    have h1' : |l[i] - (l0[i]'(by omega))| ≤ η := h1
    linarith

end GSplines.Tools

namespace GSplines.Rounded

open Nd Spec

theorem all_mapM2 {ι κ β : Type} {f : ι → Nd β} {R : ι → κ → Prop} {P : κ → β → Prop} :
    ∀ {l : List ι} {l0 : List κ}, List.Forall₂ R l l0 → (∀ a b, b ∈ l0 → R a b → All (f a) fun o => ∃ y, o = .ok y ∧ P b y) →
      All (l.mapM f) fun o => ∃ ys, o = .ok ys ∧ List.Forall₂ P l0 ys := by
  intro l l0 hF
  induction hF with
  | nil =>
    intro _ o ho
    rw [List.mapM_nil] at ho
    exact ⟨[], ho, .nil⟩
  | @cons a b l l0 hab hF ih =>
    intro h o ho
    rw [List.mapM_cons] at ho
    rcases ho with ⟨e, he, -⟩ | ⟨y, hy, ho⟩
    · obtain ⟨_, h', _⟩ := h a b (by simp) hab _ he; cases h'
    obtain ⟨_, h', hP⟩ := h a b (by simp) hab _ hy
    cases h'
    have ih := ih fun a b hb => h a b (by simp [hb])
    rcases ho with ⟨e, he, -⟩ | ⟨ys, hys, ho⟩
    · obtain ⟨_, h', _⟩ := ih _ he; cases h'
    obtain ⟨_, h', hPs⟩ := ih _ hys
    cases h'
    exact ⟨y :: ys, ho, .cons hP hPs⟩

/-- `linSpaced` with the direction given. -/
noncomputable def linSpacedB (flip : Bool) (u : ℝ × ℝ) (n : ℕ) (low high : ℝ) : Nd (List ℝ) :=
  if n = 1 then return [high]
  else do
    let d ← near u (high - low)
    let step ← quot u d ((n : ℝ) - 1)
    (List.range n).mapM fun i : ℕ =>
      if flip then
        if i = 0 then return low
        else do
          let p ← near u (((n : ℝ) - 1 - i) * step)
          near u (high - p)
      else if i + 1 = n then return high
      else do
        let p ← near u ((i : ℝ) * step)
        near u (low + p)

theorem linSpacedB_rate (flip : Bool) (n : ℕ) (a b : ℝ) : RateAt (fun u (e : ℝ) => linSpacedB flip u (n + 1) a e) b (GSpline.linSpaced (n + 1) a b) := by
  unfold linSpacedB GSpline.linSpaced
  by_cases hn : n = 0
  · subst hn
    simp only [zero_add, if_true, List.range_one, List.map_cons, List.map_nil]
    exact (RateAt.pure (f := fun e : ℝ => [e]) (LLip.cons (by fun_prop) (LLip.const _ _))).congr rfl
  · have hn1 : n + 1 ≠ 1 := by omega
    have hn0 : ((n + 1 : ℕ) : ℝ) - 1 ≠ 0 := by
      push_cast
      rw [add_sub_cancel_right]
      exact_mod_cast hn
    simp only [if_neg hn1]
    refine RateAt.bind (RateAt.near (f := fun e : ℝ => e - a) (by fun_prop)) ?_
    refine RateAt.bind (RateAt.quot (f := fun q : ℝ × ℝ => q.2) (g := fun _ => ((n + 1 : ℕ) : ℝ) - 1) (by fun_prop) (by fun_prop) hn0) ?_
    refine RateAt.mapM (α := (ℝ × ℝ) × ℝ) (β := ℝ) (z := fun i : ℕ => a + (i : ℝ) * ((b - a) / (((n + 1 : ℕ) : ℝ) - 1))) _ fun i hi => ?_
    have e1 : b = a + (((n + 1 : ℕ) : ℝ) - 1) * ((b - a) / (((n + 1 : ℕ) : ℝ) - 1)) := by
      rw [mul_div_cancel₀ _ hn0]; ring
    cases flip with
    | true =>
      simp only [if_true]
      by_cases hi0 : i = 0
      · simp only [if_pos hi0]
        exact (RateAt.pure (LLip.const a _)).congr (by rw [hi0]; simp)
      · simp only [if_neg hi0]
        refine RateAt.bind (RateAt.near (by fun_prop)) ?_
        refine (RateAt.near (f := fun q : ((ℝ × ℝ) × ℝ) × ℝ => q.1.1.1 - q.2) (by fun_prop)).congr ?_
        nlinarith [e1]
    | false =>
      simp only [Bool.false_eq_true, if_false]
      by_cases hi0 : i + 1 = n + 1
      · simp only [if_pos hi0]
        refine (RateAt.pure (f := fun q : (ℝ × ℝ) × ℝ => q.1.1) (by fun_prop)).congr ?_
        have : (i : ℝ) = ((n + 1 : ℕ) : ℝ) - 1 := by
          rw [← hi0]; push_cast; ring
        rw [this]
        exact e1
      · simp only [if_neg hi0]
        refine RateAt.bind (RateAt.near (by fun_prop)) ?_
        exact (RateAt.near (by fun_prop)).congr rfl

theorem linSpaced_near (n : ℕ) (a b : ℝ) : ∃ C ≥ (0 : ℝ), ∃ δ > (0 : ℝ), ∀ u, Small u δ → ∀ κ, 0 ≤ κ → κ ≤ δ → ∀ e, |e - b| ≤ κ →
    All (linSpaced u (n + 1) a e) fun o => ∃ ts, o = .ok ts ∧ List.Forall₂ (fun t s => |t - s| ≤ C * (Nd.sz u + κ)) ts (GSpline.linSpaced (n + 1) a b) := by
  obtain ⟨C, hC, δ, hδ, H⟩ := linSpacedB_rate true n a b
  obtain ⟨D, hD, η, hη, H'⟩ := linSpacedB_rate false n a b
  refine ⟨max C D, le_max_of_le_left hC, min δ η, lt_min hδ hη, fun u hu κ hκ hκδ e he o ho => ?_⟩
  have hS : 0 ≤ Nd.sz u + κ := add_nonneg (sz_nonneg hu) hκ
  by_cases hf : |e| < |a|
  · have ho' : linSpacedB true u (n + 1) a e o := by
      unfold linSpaced at ho
      simp only [if_pos hf] at ho
      exact ho
    obtain ⟨ts, h1, h2⟩ := (H u (small_mono (min_le_left _ _) hu) e o ho').1 κ hκ (hκδ.trans (min_le_left _ _)) he
    have h2 : List.Forall₂ (close (C * (Nd.sz u + κ))) ts (GSpline.linSpaced (n + 1) a b) := h2
    exact ⟨ts, h1, h2.imp fun t s h => le_trans h (mul_le_mul_of_nonneg_right (le_max_left _ _) hS)⟩
  · have ho' : linSpacedB false u (n + 1) a e o := by
      unfold linSpaced at ho
      simp only [if_neg hf] at ho
      exact ho
    obtain ⟨ts, h1, h2⟩ := (H' u (small_mono (min_le_right _ _) hu) e o ho').1 κ hκ (hκδ.trans (min_le_right _ _)) he
    have h2 : List.Forall₂ (close (D * (Nd.sz u + κ))) ts (GSpline.linSpaced (n + 1) a b) := h2
    exact ⟨ts, h1, h2.imp fun t s h => le_trans h (mul_le_mul_of_nonneg_right (le_max_right _ _) hS)⟩

/-! ## The factor -/

theorem LLip.sqrt' {α : Type} [Gauge α] {f : α → ℝ} {x : α} (hf : LLip f x) (h0 : f x ≠ 0) : LLip (fun a => √(f a)) x :=
  LLip.comp (g := fun y : ℝ => √y) (LLip.of_contDiffAt (Real.contDiffAt_sqrt h0)) hf

/-- One ratio of the acceleration: near the exact one, or small if the exact one is zero. -/
theorem root_rate {q0 ab F : ℝ} (hq0 : 0 ≤ q0) (hab : 0 < ab) (hF : 0 < F) :
    ∃ C ≥ (0 : ℝ), ∃ δ > (0 : ℝ), ∀ u, Small u δ → ∀ η, 0 ≤ η → η ≤ δ → ∀ q, 0 ≤ q → |q - q0| ≤ η → All (quotPos u q ab >>= fun x => root u x) fun o =>
      ∃ y, o = .ok y ∧ (|y - √(q0 / ab)| ≤ C * (Nd.sz u + η) ∨ (q0 = 0 ∧ y ≤ F)) := by
  have sub : ∀ u q, 0 ≤ q → ∀ o, (quotPos u q ab >>= fun x => root u x) o → (quot u q ab >>= fun x => near u (√x)) o := by
    intro u q hq o ho
    rcases ho with ⟨e, he, h⟩ | ⟨x, hx, ho⟩
    · exact .inl ⟨e, he.1, h⟩
    · have := hx.2 x rfl (div_nonneg hq hab.le)
      unfold root at ho
      rw [if_neg (not_lt.mpr this)] at ho
      exact .inr ⟨x, hx.1, ho⟩
  rcases eq_or_lt_of_le hq0 with h0 | h0
  · -- zero
    have hd : 0 < min 1 (min (F / 2) (F ^ 2 / 16 / (2 / ab + 1))) := lt_min one_pos (lt_min (by linarith) (by positivity))
    refine ⟨0, le_rfl, _, hd, fun u hu η hη hηδ q hq hqq o ho => ?_⟩
    have d1 := min_le_left 1 (min (F / 2) (F ^ 2 / 16 / (2 / ab + 1)))
    have d2 := (min_le_right 1 (min (F / 2) (F ^ 2 / 16 / (2 / ab + 1)))).trans (min_le_left _ _)
    have d3 := (min_le_right 1 (min (F / 2) (F ^ 2 / 16 / (2 / ab + 1)))).trans (min_le_right _ _)
    generalize hdd : min 1 (min (F / 2) (F ^ 2 / 16 / (2 / ab + 1))) = d at *
    have ho := sub u q hq o ho
    rcases ho with ⟨e, he, -⟩ | ⟨x, hx, ho⟩
    · rcases he with ⟨e', he, -⟩ | ⟨z, -, ⟨_, h, _⟩⟩
      · simp [lift, fdiv, hab.ne'] at he
      · cases h
    obtain ⟨y, rfl, hy⟩ := ho
    rcases hx with ⟨e', -, h⟩ | ⟨z, hz, ⟨_, h, hx⟩⟩
    · cases h
    cases h
    have hz' : z = q / ab := by simpa [lift, fdiv, hab.ne'] using hz
    subst hz'
    refine ⟨y, rfl, .inr ⟨h0.symm, ?_⟩⟩
    rw [← h0, sub_zero, abs_of_nonneg hq] at hqq
    have hqd : q ≤ d := hqq.trans hηδ
    have hqa : 0 ≤ q / ab := by positivity
    rw [abs_of_nonneg hqa] at hx
    have hx' : x ≤ (2 / ab + 1) * d := by
      have h1 := (abs_le.mp hx).2
      have h2 : u.1 * (q / ab) ≤ 1 * (q / ab) := mul_le_mul_of_nonneg_right (hu.2.1.trans d1) hqa
      have h3 : q / ab ≤ d / ab := by gcongr
      have h4 : (2 / ab + 1) * d = d / ab + d / ab + d := by ring
      rw [h4]
      linarith [hu.2.2.2]
    have hx2 : x ≤ (F / 4) ^ 2 := by
      have : (2 / ab + 1) * d ≤ F ^ 2 / 16 := by
        rw [le_div_iff₀ (by positivity)] at d3
        linarith
      nlinarith
    have hs : √x ≤ F / 4 := Real.sqrt_le_iff.mpr ⟨by positivity, hx2⟩
    have hs0 := Real.sqrt_nonneg x
    rw [abs_of_nonneg hs0] at hy
    have h1 := (abs_le.mp hy).2
    have h2 : u.1 * √x ≤ 1 * √x := mul_le_mul_of_nonneg_right (hu.2.1.trans d1) hs0
    linarith [hu.2.2.2]
  · have hne : q0 / ab ≠ 0 := (div_pos h0 hab).ne'
    have hR : RateAt (fun u (q : ℝ) => quot u q ab >>= fun x => near u (√x)) q0 (√(q0 / ab)) := by
      refine RateAt.bind (RateAt.quot (by fun_prop) (by fun_prop) hab.ne') ?_
      exact (RateAt.near (f := fun p : ℝ × ℝ => √p.2) (LLip.sqrt' (by fun_prop) hne)).congr rfl
    obtain ⟨C, hC, δ, hδ, H⟩ := hR
    refine ⟨C, hC, δ, hδ, fun u hu η hη hηδ q hq hqq o ho => ?_⟩
    obtain ⟨y, e, hy⟩ := (H u hu q o (sub u q hq o ho)).1 η hη hηδ hqq
    exact ⟨y, e, .inl hy⟩

/-- Constants for finitely many components. -/
theorem common_consts {P : ℕ → ℝ → ℝ → Prop} (n : ℕ) (hmono : ∀ c C C' δ δ', C ≤ C' → δ' ≤ δ → P c C δ → P c C' δ') (h : ∀ c < n, ∃ C ≥ (0 : ℝ), ∃ δ > (0 : ℝ), P c C δ) :
    ∃ C ≥ (0 : ℝ), ∃ δ > (0 : ℝ), ∀ c < n, P c C δ := by
  induction n with
  | zero => exact ⟨0, le_rfl, 1, one_pos, fun c hc => absurd hc (Nat.not_lt_zero c)⟩
  | succ n ih =>
    obtain ⟨C, hC, δ, hδ, H⟩ := ih fun c hc => h c (by omega)
    obtain ⟨D, hD, η, hη, H'⟩ := h n (by omega)
    refine ⟨max C D, le_max_of_le_left hC, min δ η, lt_min hδ hη, fun c hc => ?_⟩
    rcases Nat.lt_succ_iff_lt_or_eq.mp hc with h1 | rfl
    · exact hmono c _ _ _ _ (le_max_left _ _) (min_le_left _ _) (H c h1)
    · exact hmono c _ _ _ _ (le_max_right _ _) (min_le_right _ _) H'

theorem forall2_refl {n : ℕ} : List.Forall₂ (fun a b : ℕ => a = b) (List.range n) (List.range n) := List.forall₂_same.mpr fun _ _ => rfl

theorem forall2_range {n : ℕ} {ys : List ℝ} {P : ℕ → ℝ → Prop} (h : List.Forall₂ P (List.range n) ys) : ys.length = n ∧ ∀ c (_ : c < n), ∃ y ∈ ys, P c y := by
  have hl := h.length_eq
  rw [List.length_range] at hl
  refine ⟨hl.symm, fun c hc => ?_⟩
  have := (List.forall₂_iff_get.mp h).2 c (by simpa using hc) (by omega)
  exact ⟨ys[c]'(by omega), List.getElem_mem _, by simpa using this⟩

theorem forall2_mem {n : ℕ} {ys : List ℝ} {P : ℕ → ℝ → Prop} (h : List.Forall₂ P (List.range n) ys) {y : ℝ} (hy : y ∈ ys) : ∃ c < n, P c y := by
  have hl := h.length_eq
  rw [List.length_range] at hl
  obtain ⟨c, hc, rfl⟩ := List.getElem_of_mem hy
  have := (List.forall₂_iff_get.mp h).2 c (by simp; omega) hc
  exact ⟨c, by omega, by simpa using this⟩

/-- The exact factor. -/
noncomputable def factor0 (codim : ℕ) (Mv Ma : ℕ → ℝ) (vb ab : List ℝ) : ℝ :=
  max (Tools.maxCoeff ((List.range codim).map fun c => Mv c / vecOf vb c)) (Tools.maxCoeff ((List.range codim).map fun c => √(Ma c / vecOf ab c)))

theorem factor_rate {codim : ℕ} (hcod : 0 < codim) {Mv Ma : ℕ → ℝ} {vb ab : List ℝ} (hvp : ∀ c < codim, 0 < vecOf vb c) (hap : ∀ c < codim, 0 < vecOf ab c)
    (hMa : ∀ c < codim, 0 ≤ Ma c) (hf : 0 < factor0 codim Mv Ma vb ab) :
    ∃ C ≥ (0 : ℝ), ∃ δ > (0 : ℝ), ∀ u, Small u δ → ∀ η, 0 ≤ η → η ≤ δ → ∀ vel acc, (∀ c < codim, |Tools.maxAbs (GSpline.column vel c) - Mv c| ≤ η) →
      (∀ c < codim, 0 ≤ Tools.maxAbs (GSpline.column acc c) ∧ |Tools.maxAbs (GSpline.column acc c) - Ma c| ≤ η) →
      All (scaleFactor u codim vel acc vb ab) fun o => ∃ f, o = .ok f ∧ |f - factor0 codim Mv Ma vb ab| ≤ C * (Nd.sz u + η) := by
  set F := factor0 codim Mv Ma vb ab with hFdef
  obtain ⟨C, hC, δ1, hδ1, H1⟩ := common_consts (P := fun c C δ => ∀ u, Small u δ → ∀ η, 0 ≤ η → η ≤ δ → ∀ q, |q - Mv c| ≤ η →
      All (quot u q (vecOf vb c)) fun o => ∃ y, o = .ok y ∧ |y - Mv c / vecOf vb c| ≤ C * (Nd.sz u + η)) codim
    (fun c C C' δ δ' hC hδ H u hu η hη hηδ q hq o ho => by
      obtain ⟨y, e, hy⟩ := H u (small_mono hδ hu) η hη (hηδ.trans hδ) q hq o ho
      exact ⟨y, e, hy.trans (mul_le_mul_of_nonneg_right hC (add_nonneg (sz_nonneg hu) hη))⟩)
    (fun c hc => by
      obtain ⟨C, hC, δ, hδ, H⟩ := RateAt.quot (f := fun q : ℝ => q) (g := fun _ => vecOf vb c) (x := Mv c) (by fun_prop) (by fun_prop) (hvp c hc).ne'
      exact ⟨C, hC, δ, hδ, fun u hu η hη hηδ q hq o ho => (H u hu q o ho).1 η hη hηδ hq⟩)
  obtain ⟨D, hD, δ2, hδ2, H2⟩ := common_consts (P := fun c C δ => ∀ u, Small u δ → ∀ η, 0 ≤ η → η ≤ δ → ∀ q, 0 ≤ q → |q - Ma c| ≤ η →
      All (quotPos u q (vecOf ab c) >>= fun x => root u x) fun o => ∃ y, o = .ok y ∧ (|y - √(Ma c / vecOf ab c)| ≤ C * (Nd.sz u + η) ∨ (Ma c = 0 ∧ y ≤ F))) codim
    (fun c C C' δ δ' hC hδ H u hu η hη hηδ q hq0 hq o ho => by
      obtain ⟨y, e, hy⟩ := H u (small_mono hδ hu) η hη (hηδ.trans hδ) q hq0 hq o ho
      exact ⟨y, e, hy.imp_left fun hy => hy.trans (mul_le_mul_of_nonneg_right hC (add_nonneg (sz_nonneg hu) hη))⟩)
    (fun c hc => root_rate (hMa c hc) (hap c hc) hf)
  refine ⟨C + D, by positivity, min δ1 δ2, lt_min hδ1 hδ2, fun u hu η hη hηδ vel acc hvel hacc o ho => ?_⟩
  have hs := sz_nonneg hu
  have hS : 0 ≤ Nd.sz u + η := by positivity
  have a1 := all_mapM2 (f := fun c => quot u (Tools.maxAbs (GSpline.column vel c)) (vecOf vb c)) (P := fun c y => |y - Mv c / vecOf vb c| ≤ C * (Nd.sz u + η)) (forall2_refl (n := codim))
    (fun a b hb hab o ho => by
      subst hab
      have hc := List.mem_range.mp hb
      exact H1 a hc u (small_mono (min_le_left _ _) hu) η hη (hηδ.trans (min_le_left _ _)) _ (hvel a hc) o ho)
  have a2 := all_mapM2 (f := fun c => quotPos u (Tools.maxAbs (GSpline.column acc c)) (vecOf ab c) >>= fun x => root u x)
    (P := fun c y => |y - √(Ma c / vecOf ab c)| ≤ D * (Nd.sz u + η) ∨ (Ma c = 0 ∧ y ≤ F)) (forall2_refl (n := codim))
    (fun a b hb hab o ho => by
      subst hab
      have hc := List.mem_range.mp hb
      exact H2 a hc u (small_mono (min_le_right _ _) hu) η hη (hηδ.trans (min_le_right _ _)) _ (hacc a hc).1 (hacc a hc).2 o ho)
  unfold scaleFactor at ho
  rcases ho with ⟨e, he, -⟩ | ⟨rv, hrv, ho⟩
  · obtain ⟨_, h, _⟩ := a1 _ he; cases h
  obtain ⟨_, h, hrv⟩ := a1 _ hrv
  cases h
  rcases ho with ⟨e, he, -⟩ | ⟨ra, hra, ho⟩
  · obtain ⟨_, h, _⟩ := a2 _ he; cases h
  obtain ⟨_, h, hra⟩ := a2 _ hra
  cases h
  refine ⟨_, ho, ?_⟩
  obtain ⟨lv, ev⟩ := forall2_range hrv
  obtain ⟨la, ea⟩ := forall2_range hra
  have hnv : rv ≠ [] := by rintro rfl; simp at lv; omega
  have hna : ra ≠ [] := by rintro rfl; simp at la; omega
  have hr : ((List.range codim).map fun c => Mv c / vecOf vb c) ≠ [] := by simp; omega
  have hr' : ((List.range codim).map fun c => √(Ma c / vecOf ab c)) ≠ [] := by simp; omega
  have Fv : ∀ c < codim, Mv c / vecOf vb c ≤ F := fun c hc =>
    (Tools.le_maxCoeff (l := (List.range codim).map fun c => Mv c / vecOf vb c) (List.mem_map.mpr ⟨c, List.mem_range.mpr hc, rfl⟩)).trans (le_max_left _ _)
  have Fa : ∀ c < codim, √(Ma c / vecOf ab c) ≤ F := fun c hc =>
    (Tools.le_maxCoeff (l := (List.range codim).map fun c => √(Ma c / vecOf ab c)) (List.mem_map.mpr ⟨c, List.mem_range.mpr hc, rfl⟩)).trans (le_max_right _ _)
  have b1 : C * (Nd.sz u + η) ≤ (C + D) * (Nd.sz u + η) := mul_le_mul_of_nonneg_right (by linarith) hS
  have b2 : D * (Nd.sz u + η) ≤ (C + D) * (Nd.sz u + η) := mul_le_mul_of_nonneg_right (by linarith) hS
  have b0 : 0 ≤ (C + D) * (Nd.sz u + η) := by positivity
  rw [abs_le]
  constructor
  · -- from below
    rcases max_choice (Tools.maxCoeff ((List.range codim).map fun c => Mv c / vecOf vb c)) (Tools.maxCoeff ((List.range codim).map fun c => √(Ma c / vecOf ab c))) with hm | hm
    · obtain ⟨x, hx, e⟩ := Tools.exists_maxCoeff hr
      obtain ⟨c, hc, rfl⟩ := List.mem_map.mp hx
      obtain ⟨y, hy, h⟩ := ev c (List.mem_range.mp hc)
      have h1 := (abs_le.mp h).1
      have h2 := (Tools.le_maxCoeff hy).trans (le_max_left _ (Tools.maxCoeff ra))
      have h3 : F = Mv c / vecOf vb c := by rw [hFdef]; unfold factor0; rw [hm, e]
      linarith
    · obtain ⟨x, hx, e⟩ := Tools.exists_maxCoeff hr'
      obtain ⟨c, hc, rfl⟩ := List.mem_map.mp hx
      have h3 : F = √(Ma c / vecOf ab c) := by rw [hFdef]; unfold factor0; rw [hm, e]
      obtain ⟨y, hy, h | ⟨h, -⟩⟩ := ea c (List.mem_range.mp hc)
      · have h1 := (abs_le.mp h).1
        have h2 := (Tools.le_maxCoeff hy).trans (le_max_right (Tools.maxCoeff rv) _)
        linarith
      · rw [h, zero_div, Real.sqrt_zero] at h3
        exact absurd h3 hf.ne'
  · -- from above
    rcases max_choice (Tools.maxCoeff rv) (Tools.maxCoeff ra) with hm | hm
    · obtain ⟨y, hy, e⟩ := Tools.exists_maxCoeff hnv
      obtain ⟨c, hc, h⟩ := forall2_mem hrv hy
      have h1 := (abs_le.mp h).2
      rw [hm, e]
      linarith [Fv c hc]
    · obtain ⟨y, hy, e⟩ := Tools.exists_maxCoeff hna
      obtain ⟨c, hc, h | ⟨-, h⟩⟩ := forall2_mem hra hy
      · have h1 := (abs_le.mp h).2
        rw [hm, e]
        linarith [Fa c hc]
      · rw [hm, e]
        linarith

/-! ## The scaled spline -/

/-- GSpline.hpp:336-362 as a function of the factor: lengths, end and parameter. -/
noncomputable def scaleCore (u : ℝ × ℝ) (b : Basis) (a0 p : ℝ) (tau : List ℝ) (f : ℝ) : Nd ((List ℝ × ℝ) × ℝ) := do
  let tau ← (List.range tau.length).mapM fun k => near u (vecOf tau k * f)
  let sum ← Nd.sum u tau
  let stop ← near u (a0 + sum)
  let p ← scaledPar u b p f
  return ((tau, stop), p)

theorem scaleCore_rate {g : GSpline} (hb : g.basis.Valid) (hpos : ∀ a, g.basis = .b0101 a → 0 < a) {f : ℝ} (hf : 0 < f) :
    RateAt (fun u f => scaleCore u g.basis g.dom.1 (par g.basis) g.tau f) f (((g.tau.map (· * f)), g.dom.1 + (g.tau.map (· * f)).sum), par (GSpline.scaledBasis g.basis f)) := by
  have e : (List.range g.tau.length).map (fun k => vecOf g.tau k * f) = g.tau.map (· * f) := by
    conv_rhs => rw [← range_map_vecOf g.tau]
    rw [List.map_map]
    rfl
  unfold scaleCore
  refine RateAt.bind ((RateAt.mapM (z := fun k => vecOf g.tau k * f) _ fun k _ => (RateAt.near (f := fun f : ℝ => vecOf g.tau k * f) (by fun_prop)).congr rfl).congr e) ?_
  refine RateAt.bind (RateAt.comp (x := (f, g.tau.map (· * f))) (f := fun q : ℝ × List ℝ => q.2) (RateAt.sumList _) (by fun_prop)) ?_
  refine RateAt.bind (RateAt.near (by fun_prop)) ?_
  refine RateAt.bind (RateAt.comp (x := (((f, g.tau.map (· * f)), (g.tau.map (· * f)).sum), g.dom.1 + (g.tau.map (· * f)).sum))
    (f := fun q : ((ℝ × List ℝ) × ℝ) × ℝ => (par g.basis, q.1.1.1)) (scaledPar_rate hb hpos hf.ne') (by fun_prop)) ?_
  exact (RateAt.pure (by fun_prop)).congr rfl

theorem scaleBy_near {g : GSpline} (hb : g.basis.Valid) (hpos : ∀ a, g.basis = .b0101 a → 0 < a) (hcon : Consistent g) (hp : Positive g) {f : ℝ} (hf : 0 < f) :
    ∃ C ≥ (0 : ℝ), ∃ δ > (0 : ℝ), ∀ u, Small u δ → ∀ η, 0 ≤ η → η ≤ δ → ∀ f', |f' - f| ≤ η → ∀ (x : List ℝ) (e : ℝ), x.length = g.coeffs.length →
      (∀ k < x.length, |vecOf x k - vecOf g.coeffs k| ≤ η) → ∀ o, scaleBy u { g with dom := (g.dom.1, e), coeffs := x } f' o →
      ∃ s, o = .ok s ∧ NearSpline (C * (Nd.sz u + η)) s (g.scaled f (g.dom.1 + f * g.tau.sum)) ∧ |s.dom.2 - (g.dom.1 + f * g.tau.sum)| ≤ C * (Nd.sz u + η) ∧ s.coeffs = x := by
  obtain ⟨C, hC, δ, hδ, H⟩ := scaleCore_rate hb hpos hf
  have hsum : 0 < g.tau.sum := List.sum_pos _ hp.2 hp.1
  have hee : (g.tau.map (· * f)).sum = f * g.tau.sum := by rw [GSpline.sum_map_mul]; ring
  rw [hee] at H
  set T := f * g.tau.sum with hTdef
  have hT : 0 < T := mul_pos hf hsum
  have hm : 0 < min δ (T / (3 * C + 1)) := lt_min hδ (by positivity)
  have l1 : min δ (T / (3 * C + 1)) ≤ δ := min_le_left _ _
  refine ⟨C + 1, by linarith, _, hm, fun u hu η hη hηm f' hf' x e hxl hx o ho => ?_⟩
  have hs := sz_nonneg hu
  have hCT : C * (Nd.sz u + η) ≤ T := by
    have h1 := sz_le hu
    have h2 : (3 * C + 1) * min δ (T / (3 * C + 1)) ≤ T := by
      have := mul_le_mul_of_nonneg_left (min_le_right δ (T / (3 * C + 1))) (show (0 : ℝ) ≤ 3 * C + 1 by positivity)
      rwa [mul_div_cancel₀ _ (by positivity : 3 * C + 1 ≠ 0)] at this
    have h3 : C * (Nd.sz u + η) ≤ C * (3 * min δ (T / (3 * C + 1))) := mul_le_mul_of_nonneg_left (by linarith) hC
    linarith
  have hsub : ∃ o', scaleCore u g.basis g.dom.1 (par g.basis) g.tau f' o' ∧
      ∀ v, o' = .ok v → o = GSpline.make (g.dom.1, v.1.2) g.codim g.tau.length (withPar g.basis v.2) x v.1.1 := by
    unfold scaleBy at ho
    dsimp only at ho
    have e1 : (g.tau.map (· * f')).mapM (near u) = (List.range g.tau.length).mapM fun k => near u (vecOf g.tau k * f') := by
      conv_lhs => rw [← range_map_vecOf g.tau]
      rw [List.map_map]
      simp only [List.mapM_map]
      rfl
    rw [e1] at ho
    unfold scaleCore
    rcases ho with ⟨e, he, rfl⟩ | ⟨tau, htau, ho⟩
    · exact ⟨.error e, .inl ⟨e, he, rfl⟩, fun v h => by cases h⟩
    rcases ho with ⟨e, ⟨_, h, _⟩, -⟩ | ⟨sum, hsum, ho⟩
    · cases h
    rcases ho with ⟨e, ⟨_, h, _⟩, -⟩ | ⟨stop, hstop, ho⟩
    · cases h
    have key : ∀ o1, scaledBasis u g.basis f' o1 → ∃ o2, scaledPar u g.basis (par g.basis) f' o2 ∧ (∀ e, o1 = .error e → o2 = .error e) ∧ ∀ b, o1 = .ok b → ∃ p, o2 = .ok p ∧ b = withPar g.basis p := by
      intro o1 h1
      cases hg : g.basis with
      | legendre d =>
        rw [hg] at h1
        exact ⟨.ok 0, rfl, fun e h => (by rw [h1] at h; cases h), fun b h => ⟨_, rfl, by rw [h1] at h; cases h; rfl⟩⟩
      | lagrange x =>
        rw [hg] at h1
        exact ⟨.ok 0, rfl, fun e h => (by rw [h1] at h; cases h), fun b h => ⟨_, rfl, by rw [h1] at h; cases h; rfl⟩⟩
      | b0101 a =>
        rw [hg] at h1 hb
        simp only [scaledBasis, if_pos (show 0 ≤ a ∧ a < 1 from hb)] at h1
        rcases h1 with ⟨e, he, rfl⟩ | ⟨p, hp, h1⟩
        · exact ⟨.error e, he, fun e' h => (by cases h; rfl), fun b h => by cases h⟩
        · exact ⟨.ok p, hp, fun e h => (by rw [h1] at h; cases h), fun b h => ⟨p, rfl, by rw [h1] at h; cases h; rfl⟩⟩
    rcases ho with ⟨e, he, rfl⟩ | ⟨b, hbb, ho⟩
    · obtain ⟨o2, h2, h3, -⟩ := key _ he
      rw [h3 e rfl] at h2
      exact ⟨.error e, .inr ⟨tau, htau, .inr ⟨sum, hsum, .inr ⟨stop, hstop, .inl ⟨e, h2, rfl⟩⟩⟩⟩, fun v h => by cases h⟩
    · obtain ⟨o2, h2, -, h4⟩ := key _ hbb
      obtain ⟨p, rfl, rfl⟩ := h4 b rfl
      exact ⟨.ok ((tau, stop), p), .inr ⟨tau, htau, .inr ⟨sum, hsum, .inr ⟨stop, hstop, .inr ⟨p, h2, rfl⟩⟩⟩⟩, fun v h => by cases h; exact ho⟩
  obtain ⟨o', ho', hmk⟩ := hsub
  obtain ⟨⟨⟨tau, stop⟩, p⟩, rfl, ⟨c1, c2⟩, c3⟩ := (H u (small_mono l1 hu) _ o' ho').1 η hη (hηm.trans l1) hf'
  have c2' : |stop - (g.dom.1 + T)| ≤ C * (Nd.sz u + η) := c2
  have c3' : |p - par (GSpline.scaledBasis g.basis f)| ≤ C * (Nd.sz u + η) := c3
  have hF : List.Forall₂ (close (C * (Nd.sz u + η))) tau (g.tau.map (· * f)) := c1
  have hlt := hF.length_eq
  have hmk := hmk _ rfl
  unfold GSpline.make at hmk
  have hstop : g.dom.1 ≤ stop := by have := (abs_le.mp c2').1; linarith
  rw [if_pos hstop, if_neg (by
    rw [not_not, withPar_dim, hxl]
    exact hcon)] at hmk
  have hn : 0 ≤ C * (Nd.sz u + η) := by positivity
  have hC1 : C * (Nd.sz u + η) ≤ (C + 1) * (Nd.sz u + η) := mul_le_mul_of_nonneg_right (by linarith) (by positivity)
  have hη1 : η ≤ (C + 1) * (Nd.sz u + η) := by linarith
  refine ⟨_, hmk, ⟨rfl, rfl, hlt, fun i hi => le_trans ?_ hC1, hxl, fun k hk => ?_, ?_⟩, c2'.trans hC1, rfl⟩
  · have hi' : i < tau.length := lt_of_lt_of_eq hi hlt.symm
    have := (List.forall₂_iff_get.mp hF).2 i hi' hi
    change |vecOf tau i - vecOf (g.tau.map (· * f)) i| ≤ _
    unfold vecOf
    rw [List.getD_eq_getElem?_getD, List.getElem?_eq_getElem hi', List.getD_eq_getElem?_getD, List.getElem?_eq_getElem (show i < (g.tau.map (· * f)).length from hi)]
    exact this
  · exact (hx k (by rw [hxl]; exact hk)).trans hη1
  · cases hg : g.basis with
    | b0101 a =>
      rw [hg] at c3'
      exact .inr ⟨_, p, by simp only [GSpline.scaled, hg]; rfl, by simp only [hg]; rfl, c3'.trans hC1⟩
    | legendre d => exact .inl (by simp only [GSpline.scaled, hg]; rfl)
    | lagrange x => exact .inl (by simp only [GSpline.scaled, hg]; rfl)

end GSplines.Rounded
