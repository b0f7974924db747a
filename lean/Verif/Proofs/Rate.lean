import Verif.Proofs.RoundingEval
import Mathlib.Analysis.Calculus.ContDiff.RCLike
import Mathlib.Analysis.SpecialFunctions.ExpDeriv

/-! # Rounded programs: outcomes whose distance from the exact one is proportional to the rounding errors -/

namespace GSplines.Nd

open Spec

/-- Distances. -/
class Gauge (α : Type) where
  /-- The two points are at most `r` apart. -/
  close : ℝ → α → α → Prop
  refl' : ∀ {r : ℝ} (a : α), 0 ≤ r → close r a a
  symm' : ∀ {r : ℝ} {a b : α}, close r a b → close r b a
  mono' : ∀ {r s : ℝ} {a b : α}, r ≤ s → close r a b → close s a b
  trans' : ∀ {r s : ℝ} {a b c : α}, close r a b → close s b c → close (r + s) a c

export Gauge (close)

instance : Gauge ℝ where
  close r a b := |a - b| ≤ r
  refl' a h := by simpa using h
  symm' h := by rwa [abs_sub_comm]
  mono' h h' := h'.trans h
  trans' {r s a b c} h h' := (abs_sub_le a b c).trans (add_le_add h h')

instance : Gauge Unit where
  close _ _ _ := True
  refl' _ _ := trivial
  symm' _ := trivial
  mono' _ _ := trivial
  trans' _ _ := trivial

instance {α β : Type} [Gauge α] [Gauge β] : Gauge (α × β) where
  close r a b := close r a.1 b.1 ∧ close r a.2 b.2
  refl' _ h := ⟨Gauge.refl' _ h, Gauge.refl' _ h⟩
  symm' h := ⟨Gauge.symm' h.1, Gauge.symm' h.2⟩
  mono' h h' := ⟨Gauge.mono' h h'.1, Gauge.mono' h h'.2⟩
  trans' h h' := ⟨Gauge.trans' h.1 h'.1, Gauge.trans' h.2 h'.2⟩

instance {ι β : Type} [Gauge β] : Gauge (ι → β) where
  close r a b := ∀ i, close r (a i) (b i)
  refl' _ h _ := Gauge.refl' _ h
  symm' h i := Gauge.symm' (h i)
  mono' h h' i := Gauge.mono' h (h' i)
  trans' h h' i := Gauge.trans' (h i) (h' i)

instance {β : Type} [Gauge β] : Gauge (List β) where
  close r a b := List.Forall₂ (close r) a b
  refl' a h := List.forall₂_same.mpr fun x _ => Gauge.refl' _ h
  symm' h := List.Forall₂.flip (h.imp fun _ _ h => Gauge.symm' h)
  mono' h h' := h'.imp fun _ _ h'' => Gauge.mono' h h''
  trans' {r s a b c} h h' := by
    induction h generalizing c with
    | nil => cases h'; exact .nil
    | cons h1 _ ih => cases h' with | cons h2 h3 => exact .cons (Gauge.trans' h1 h2) (ih h3)

variable {α β γ : Type} [Gauge α] [Gauge β] [Gauge γ]

/-- The function is Lipschitz near the point. -/
@[fun_prop]
def LLip (f : α → β) (x : α) : Prop :=
  ∃ C ≥ (0 : ℝ), ∃ δ > (0 : ℝ), ∀ a a', close δ a x → close δ a' x → ∀ r ≥ (0 : ℝ), close r a a' → close (C * r) (f a) (f a')

omit [Gauge β] in
@[fun_prop]
theorem LLip.id (x : α) : LLip (fun a : α => a) x := ⟨1, by norm_num, 1, by norm_num, fun a a' _ _ r _ h => by rwa [one_mul]⟩

@[fun_prop]
theorem LLip.const (b : β) (x : α) : LLip (fun _ : α => b) x := ⟨0, le_rfl, 1, by norm_num, fun a a' _ _ r _ _ => Gauge.refl' _ (by simp)⟩

@[fun_prop]
theorem LLip.comp {g : β → γ} {f : α → β} {x : α} (hg : LLip g (f x)) (hf : LLip f x) : LLip (fun a => g (f a)) x := by
  obtain ⟨C, hC, δ, hδ, h⟩ := hf
  obtain ⟨D, hD, η, hη, h'⟩ := hg
  have hm : 0 < min δ (η / (C + 1)) := lt_min hδ (by positivity)
  refine ⟨D * C, by positivity, min δ (η / (C + 1)), hm, fun a a' ha ha' r hr hc => ?_⟩
  have e : C * min δ (η / (C + 1)) ≤ η := by
    have h1 : C * min δ (η / (C + 1)) ≤ (C + 1) * (η / (C + 1)) := mul_le_mul (by linarith) (min_le_right _ _) hm.le (by linarith)
    rwa [mul_div_cancel₀ _ (by linarith : C + 1 ≠ 0)] at h1
  have i1 := Gauge.mono' (min_le_left _ _) ha
  have i2 := Gauge.mono' (min_le_left _ _) ha'
  have i3 : close δ x x := Gauge.refl' _ hδ.le
  rw [mul_assoc]
  exact h' _ _ (Gauge.mono' e (h a x i1 i3 _ hm.le ha)) (Gauge.mono' e (h a' x i2 i3 _ hm.le ha')) _ (by positivity) (h a a' i1 i2 r hr hc)

@[fun_prop]
theorem LLip.prodMk {f : α → β} {g : α → γ} {x : α} (hf : LLip f x) (hg : LLip g x) : LLip (fun a => (f a, g a)) x := by
  obtain ⟨C, hC, δ, hδ, h⟩ := hf
  obtain ⟨D, hD, η, hη, h'⟩ := hg
  refine ⟨max C D, le_max_of_le_left hC, min δ η, lt_min hδ hη, fun a a' ha ha' r hr hc => ⟨?_, ?_⟩⟩
  · exact Gauge.mono' (mul_le_mul_of_nonneg_right (le_max_left _ _) hr) (h a a' (Gauge.mono' (min_le_left _ _) ha) (Gauge.mono' (min_le_left _ _) ha') r hr hc)
  · exact Gauge.mono' (mul_le_mul_of_nonneg_right (le_max_right _ _) hr) (h' a a' (Gauge.mono' (min_le_right _ _) ha) (Gauge.mono' (min_le_right _ _) ha') r hr hc)

theorem LLip.fst' (x : α × β) : LLip (fun q : α × β => q.1) x := ⟨1, by norm_num, 1, by norm_num, fun a a' _ _ r _ h => by rw [one_mul]; exact h.1⟩

theorem LLip.snd' (x : α × β) : LLip (fun q : α × β => q.2) x := ⟨1, by norm_num, 1, by norm_num, fun a a' _ _ r _ h => by rw [one_mul]; exact h.2⟩

@[fun_prop]
theorem LLip.fst {f : α → β × γ} {x : α} (hf : LLip f x) : LLip (fun a => (f a).1) x := LLip.comp (g := fun q : β × γ => q.1) (LLip.fst' _) hf

@[fun_prop]
theorem LLip.snd {f : α → β × γ} {x : α} (hf : LLip f x) : LLip (fun a => (f a).2) x := LLip.comp (g := fun q : β × γ => q.2) (LLip.snd' _) hf

@[fun_prop]
theorem LLip.apply {ι : Type} (i : ι) (v : ι → β) : LLip (fun v : ι → β => v i) v := ⟨1, by norm_num, 1, by norm_num, fun a a' _ _ r _ h => by rw [one_mul]; exact h i⟩

/-- Lipschitz functions of finitely many numbers. -/
theorem LLip.of_bound {f : α → β} {x : α} {C δ : ℝ} (hC : 0 ≤ C) (hδ : 0 < δ)
    (h : ∀ a a', close δ a x → close δ a' x → ∀ r ≥ (0 : ℝ), close r a a' → close (C * r) (f a) (f a')) : LLip f x := ⟨C, hC, δ, hδ, h⟩

@[fun_prop]
theorem LLip.add {f g : α → ℝ} {x : α} (hf : LLip f x) (hg : LLip g x) : LLip (fun a => f a + g a) x := by
  refine LLip.comp (g := fun q : ℝ × ℝ => q.1 + q.2) (LLip.of_bound (C := 2) (δ := 1) (by norm_num) (by norm_num) ?_) (LLip.prodMk hf hg)
  intro a a' _ _ r hr h
  have h1 : |a.1 - a'.1| ≤ r := h.1
  have h2 : |a.2 - a'.2| ≤ r := h.2
  change |a.1 + a.2 - (a'.1 + a'.2)| ≤ 2 * r
  rw [show a.1 + a.2 - (a'.1 + a'.2) = (a.1 - a'.1) + (a.2 - a'.2) by ring]
  exact (abs_add_le _ _).trans (by linarith)

@[fun_prop]
theorem LLip.neg {f : α → ℝ} {x : α} (hf : LLip f x) : LLip (fun a => -f a) x := by
  refine LLip.comp (g := fun q : ℝ => -q) (LLip.of_bound (C := 1) (δ := 1) (by norm_num) (by norm_num) ?_) hf
  intro a a' _ _ r hr h
  have h1 : |a - a'| ≤ r := h
  change |-a - -a'| ≤ 1 * r
  rw [show -a - -a' = -(a - a') by ring, abs_neg, one_mul]
  exact h1

@[fun_prop]
theorem LLip.sub {f g : α → ℝ} {x : α} (hf : LLip f x) (hg : LLip g x) : LLip (fun a => f a - g a) x := by
  have := hf.add hg.neg
  simpa only [← sub_eq_add_neg] using this

@[fun_prop]
theorem LLip.mul {f g : α → ℝ} {x : α} (hf : LLip f x) (hg : LLip g x) : LLip (fun a => f a * g a) x := by
  refine LLip.comp (g := fun q : ℝ × ℝ => q.1 * q.2) (LLip.of_bound (C := |f x| + |g x| + 2) (δ := 1) (by positivity) (by norm_num) ?_) (LLip.prodMk hf hg)
  intro a a' ha ha' r hr h
  have h1 : |a.1 - a'.1| ≤ r := h.1
  have h2 : |a.2 - a'.2| ≤ r := h.2
  have h3 : |a.2 - g x| ≤ 1 := ha.2
  have h4 : |a'.1 - f x| ≤ 1 := ha'.1
  change |a.1 * a.2 - a'.1 * a'.2| ≤ (|f x| + |g x| + 2) * r
  rw [show a.1 * a.2 - a'.1 * a'.2 = (a.1 - a'.1) * a.2 + a'.1 * (a.2 - a'.2) by ring]
  have b1 : |a.2| ≤ |g x| + 1 := by
    have := abs_add_le (a.2 - g x) (g x)
    rw [sub_add_cancel] at this
    linarith
  have b2 : |a'.1| ≤ |f x| + 1 := by
    have := abs_add_le (a'.1 - f x) (f x)
    rw [sub_add_cancel] at this
    linarith
  refine (abs_add_le _ _).trans ?_
  rw [abs_mul, abs_mul]
  have c1 := mul_le_mul h1 b1 (abs_nonneg _) hr
  have c2 := mul_le_mul b2 h2 (abs_nonneg _) (by positivity)
  linarith

/-- Functions of one number with a continuous derivative. -/
theorem LLip.of_contDiffAt {φ : ℝ → ℝ} {y : ℝ} (h : ContDiffAt ℝ 1 φ y) : LLip φ y := by
  obtain ⟨K, t, ht, hK⟩ := h.exists_lipschitzOnWith
  obtain ⟨ε, hε, hb⟩ := Metric.mem_nhds_iff.mp ht
  refine ⟨K, K.2, ε / 2, by linarith, fun a a' ha ha' r hr hc => ?_⟩
  have m : ∀ b : ℝ, close (ε / 2) b y → b ∈ t := fun b hb' => hb (by rw [Metric.mem_ball, Real.dist_eq]; exact lt_of_le_of_lt hb' (by linarith))
  have := hK.dist_le_mul a (m a ha) a' (m a' ha')
  rw [Real.dist_eq, Real.dist_eq] at this
  exact this.trans (mul_le_mul_of_nonneg_left hc K.2)

@[fun_prop]
theorem LLip.exp {f : α → ℝ} {x : α} (hf : LLip f x) : LLip (fun a => Real.exp (f a)) x := LLip.comp (g := Real.exp) (LLip.of_contDiffAt Real.contDiff_exp.contDiffAt) hf

@[fun_prop]
theorem LLip.cos {f : α → ℝ} {x : α} (hf : LLip f x) : LLip (fun a => Real.cos (f a)) x := LLip.comp (g := Real.cos) (LLip.of_contDiffAt Real.contDiff_cos.contDiffAt) hf

@[fun_prop]
theorem LLip.sin {f : α → ℝ} {x : α} (hf : LLip f x) : LLip (fun a => Real.sin (f a)) x := LLip.comp (g := Real.sin) (LLip.of_contDiffAt Real.contDiff_sin.contDiffAt) hf

theorem LLip.inv {f : α → ℝ} {x : α} (hf : LLip f x) (h0 : f x ≠ 0) : LLip (fun a => (f a)⁻¹) x :=
  LLip.comp (g := fun y : ℝ => y⁻¹) (LLip.of_contDiffAt (contDiffAt_inv ℝ h0)) hf

theorem LLip.div {f g : α → ℝ} {x : α} (hf : LLip f x) (hg : LLip g x) (h0 : g x ≠ 0) : LLip (fun a => f a / g a) x := by
  have := hf.mul (hg.inv h0)
  simpa only [← div_eq_mul_inv] using this

@[fun_prop]
theorem LLip.div_const {f : α → ℝ} {x : α} (hf : LLip f x) (c : ℝ) : LLip (fun a => f a / c) x := by
  have : LLip (fun a => f a * c⁻¹) x := by fun_prop
  simpa only [← div_eq_mul_inv] using this

theorem LLip.rpow {f : α → ℝ} {x : α} (hf : LLip f x) (h0 : f x ≠ 0) (p : ℝ) : LLip (fun a => f a ^ p) x :=
  LLip.comp (g := fun y : ℝ => y ^ p) (LLip.of_contDiffAt (Real.contDiffAt_rpow_const_of_ne h0)) hf

@[fun_prop]
theorem LLip.setAt {i : ℕ} {f : α → Vec} {g : α → ℝ} {x : α} (hf : LLip f x) (hg : LLip g x) : LLip (fun a => GSplines.setAt (f a) i (g a)) x := by
  refine LLip.comp (g := fun q : Vec × ℝ => GSplines.setAt q.1 i q.2) (LLip.of_bound (C := 1) (δ := 1) (by norm_num) (by norm_num) ?_) (LLip.prodMk hf hg)
  intro a a' _ _ r hr h k
  rw [one_mul]
  unfold GSplines.setAt
  split_ifs
  · exact h.2
  · exact h.1 k

theorem LLip.pi {n : ℕ} {f : α → Vec} {x : α} (h : ∀ k < n, LLip (fun a => f a k) x) (h0 : ∀ a k, n ≤ k → f a k = 0) : LLip f x := by
  induction n generalizing f with
  | zero =>
    have : f = fun _ => fun _ => 0 := by funext a k; exact h0 a k (Nat.zero_le _)
    rw [this]
    exact LLip.const _ _
  | succ n ih =>
    have e : f = fun a => GSplines.setAt (fun k => if k < n then f a k else 0) n (f a n) := by
      funext a k
      simp only [GSplines.setAt]
      split_ifs with h1 h2
      · rw [h1]
      · rfl
      · exact h0 a k (by omega)
    rw [e]
    have hn := h n (by omega)
    have ih' := ih (f := fun a k => if k < n then f a k else 0) (fun k hk => by simpa only [if_pos hk] using h k (by omega)) (fun a k hk => if_neg (by omega))
    exact LLip.setAt ih' hn

/-! ## Rates -/

/-- The size of the rounding errors. -/
def sz (u : ℝ × ℝ) : ℝ := u.1 + u.2

/-- For small errors and inputs near `x` all outcomes succeed, the distance from `y` is proportional to the errors, and the distance of any two outcomes is proportional
to their errors. -/
def RateAt (F : ℝ × ℝ → α → Nd β) (x : α) (y : β) : Prop :=
  ∃ C ≥ (0 : ℝ), ∃ δ > (0 : ℝ), ∀ u, Small u δ → ∀ a o, F u a o →
    (∀ r ≥ (0 : ℝ), r ≤ δ → close r a x → ∃ b, o = .ok b ∧ close (C * (sz u + r)) b y) ∧
    ∀ u' a' b b', Small u' δ → close δ a x → close δ a' x → ∀ r ≥ (0 : ℝ), close r a a' → o = .ok b → F u' a' (.ok b') → close (C * (sz u + sz u' + r)) b b'

theorem small_mono {u : ℝ × ℝ} {d e : ℝ} (h : d ≤ e) (hu : Small u d) : Small u e := ⟨hu.1, hu.2.1.trans h, hu.2.2.1, hu.2.2.2.trans h⟩

theorem sz_nonneg {u : ℝ × ℝ} {d : ℝ} (hu : Small u d) : 0 ≤ sz u := add_nonneg hu.1 hu.2.2.1

theorem sz_le {u : ℝ × ℝ} {d : ℝ} (hu : Small u d) : sz u ≤ 2 * d := by unfold sz; linarith [hu.2.1, hu.2.2.2]

theorem RateAt.congr {F : ℝ × ℝ → α → Nd β} {x : α} {z z' : β} (h : RateAt F x z) (e : z = z') : RateAt F x z' := e ▸ h

theorem RateAt.of_sub {F G : ℝ × ℝ → α → Nd β} {x : α} {z : β} (h : RateAt G x z) (e : ∀ u a o, F u a o → G u a o) : RateAt F x z := by
  obtain ⟨C, hC, δ, hδ, h⟩ := h
  exact ⟨C, hC, δ, hδ, fun u hu a o ho => ⟨(h u hu a o (e _ _ _ ho)).1, fun u' a' b b' hu' h1 h2 r hr h3 h4 h5 => (h u hu a o (e _ _ _ ho)).2 u' a' b b' hu' h1 h2 r hr h3 h4 (e _ _ _ h5)⟩⟩

theorem RateAt.pure {f : α → β} {x : α} (hf : LLip f x) : RateAt (fun _ a => Pure.pure (f a)) x (f x) := by
  obtain ⟨C, hC, δ, hδ, h⟩ := hf
  have hx : close δ x x := Gauge.refl' _ hδ.le
  refine ⟨C, hC, δ, hδ, fun u hu a o ho => ⟨fun r hr hr' hc => ⟨_, ho, ?_⟩, fun u' a' b b' hu' ha ha' r hr hc e h' => ?_⟩⟩
  · exact Gauge.mono' (mul_le_mul_of_nonneg_left (by linarith [sz_nonneg hu]) hC) (h a x (Gauge.mono' hr' hc) hx r hr hc)
  · have e1 : o = .ok (f a) := ho
    have e2 : (.ok b' : Res β) = .ok (f a') := h'
    rw [e] at e1
    cases e1
    cases e2
    exact Gauge.mono' (mul_le_mul_of_nonneg_left (by linarith [sz_nonneg hu, sz_nonneg hu']) hC) (h a a' ha ha' r hr hc)

theorem RateAt.bind {F : ℝ × ℝ → α → Nd β} {G : ℝ × ℝ → α → β → Nd γ} {x : α} {y : β} {z : γ} (h1 : RateAt F x y)
    (h2 : RateAt (fun u (q : α × β) => G u q.1 q.2) (x, y) z) : RateAt (fun u a => F u a >>= G u a) x z := by
  obtain ⟨C, hC, δ, hδ, h1⟩ := h1
  obtain ⟨D, hD, η, hη, h2⟩ := h2
  have hm : 0 < min δ (min η (η / (3 * C + 1))) := lt_min hδ (lt_min hη (by positivity))
  set ε := min δ (min η (η / (3 * C + 1))) with hε
  have e1 : ε ≤ δ := min_le_left _ _
  have e2 : ε ≤ η := (min_le_right _ _).trans (min_le_left _ _)
  have e3 : C * (3 * ε) ≤ η := by
    have h : (3 * C + 1) * ε ≤ (3 * C + 1) * (η / (3 * C + 1)) := mul_le_mul_of_nonneg_left ((min_le_right _ _).trans (min_le_right _ _)) (by positivity)
    rw [mul_div_cancel₀ _ (by positivity : 3 * C + 1 ≠ 0)] at h
    linarith
  have near : ∀ u, Small u ε → ∀ a b, close ε a x → F u a (.ok b) → close η b y := by
    intro u hu a b ha hb
    obtain ⟨b', e, hb'⟩ := (h1 u (small_mono e1 hu) a _ hb).1 ε hm.le e1 ha
    cases e
    exact Gauge.mono' ((mul_le_mul_of_nonneg_left (by linarith [sz_le hu]) hC).trans e3) hb'
  refine ⟨D * (C + 1), by positivity, ε, hm, fun u hu a o ho => ⟨fun r hr hr' hc => ?_, fun u' a' c c' hu' ha ha' r hr hc e h' => ?_⟩⟩
  · have hs := sz_nonneg hu
    rcases ho with ⟨e, he, rfl⟩ | ⟨b, hb, ho⟩
    · obtain ⟨_, h, _⟩ := (h1 u (small_mono e1 hu) a _ he).1 r hr (hr'.trans e1) hc
      cases h
    · obtain ⟨b', e, hb'⟩ := (h1 u (small_mono e1 hu) a _ hb).1 r hr (hr'.trans e1) hc
      cases e
      have hmax : (0 : ℝ) ≤ max r (C * (sz u + r)) := le_max_of_le_left hr
      have hle : max r (C * (sz u + r)) ≤ η := max_le (hr'.trans e2) ((mul_le_mul_of_nonneg_left (by linarith [sz_le hu]) hC).trans e3)
      obtain ⟨c, ec, hc'⟩ := (h2 u (small_mono e2 hu) (a, b) o ho).1 (max r (C * (sz u + r))) hmax hle ⟨Gauge.mono' (le_max_left _ _) hc, Gauge.mono' (le_max_right _ _) hb'⟩
      refine ⟨c, ec, Gauge.mono' ?_ hc'⟩
      rw [mul_assoc]
      refine mul_le_mul_of_nonneg_left ?_ hD
      have : max r (C * (sz u + r)) ≤ r + C * (sz u + r) := max_le (by linarith [mul_nonneg hC (add_nonneg hs hr)]) (by linarith)
      linarith
  · have hs := sz_nonneg hu
    have hs' := sz_nonneg hu'
    rcases ho with ⟨e', he, rfl⟩ | ⟨b, hb, ho⟩
    · cases e
    rcases h' with ⟨e', he', h'⟩ | ⟨b', hb', ho'⟩
    · cases h'
    have k1 := (h1 u (small_mono e1 hu) a _ hb).2 u' a' b b' (small_mono e1 hu') (Gauge.mono' e1 ha) (Gauge.mono' e1 ha') r hr hc rfl hb'
    have k2 := (h2 u (small_mono e2 hu) (a, b) o ho).2 u' (a', b') c c' (small_mono e2 hu') ⟨Gauge.mono' e2 ha, near u hu a b ha hb⟩ ⟨Gauge.mono' e2 ha', near u' hu' a' b' ha' hb'⟩
      (max r (C * (sz u + sz u' + r))) (le_max_of_le_left hr) ⟨Gauge.mono' (le_max_left _ _) hc, Gauge.mono' (le_max_right _ _) k1⟩ e ho'
    refine Gauge.mono' ?_ k2
    rw [mul_assoc]
    refine mul_le_mul_of_nonneg_left ?_ hD
    have : max r (C * (sz u + sz u' + r)) ≤ r + C * (sz u + sz u' + r) := max_le (by linarith [mul_nonneg hC (add_nonneg (add_nonneg hs hs') hr)]) (by linarith)
    linarith

/-- A program with one outcome for each input and precision, up to an error that is proportional to the rounding errors. -/
theorem RateAt.of_exact {F : ℝ × ℝ → α → Nd β} {f : α → β} {x : α} (hf : LLip f x) {M η : ℝ} (hM : 0 ≤ M) (hη : 0 < η)
    (h : ∀ u, Small u η → ∀ a, close η a x → ∀ o, F u a o → ∃ b, o = .ok b ∧ close (M * sz u) b (f a)) : RateAt F x (f x) := by
  obtain ⟨C, hC, δ, hδ, hf⟩ := hf
  have hx : close δ x x := Gauge.refl' _ hδ.le
  have hm : 0 < min δ η := lt_min hδ hη
  refine ⟨max M C, le_max_of_le_left hM, min δ η, hm, fun u hu a o ho => ⟨fun r hr hr' hc => ?_, fun u' a' b b' hu' ha ha' r hr hc e h' => ?_⟩⟩
  · obtain ⟨b, e, hb⟩ := h u (small_mono (min_le_right _ _) hu) a (Gauge.mono' (hr'.trans (min_le_right _ _)) hc) o ho
    refine ⟨b, e, Gauge.mono' ?_ (Gauge.trans' hb (hf a x (Gauge.mono' (hr'.trans (min_le_left _ _)) hc) hx r hr hc))⟩
    rw [mul_add]
    exact add_le_add (mul_le_mul_of_nonneg_right (le_max_left _ _) (sz_nonneg hu)) (mul_le_mul_of_nonneg_right (le_max_right _ _) hr)
  · obtain ⟨b₁, e₁, hb⟩ := h u (small_mono (min_le_right _ _) hu) a (Gauge.mono' (min_le_right _ _) ha) o ho
    rw [e] at e₁
    cases e₁
    obtain ⟨b₂, e₂, hb'⟩ := h u' (small_mono (min_le_right _ _) hu') a' (Gauge.mono' (min_le_right _ _) ha') _ h'
    cases e₂
    refine Gauge.mono' ?_ (Gauge.trans' (Gauge.trans' hb (hf a a' (Gauge.mono' (min_le_left _ _) ha) (Gauge.mono' (min_le_left _ _) ha') r hr hc)) (Gauge.symm' hb'))
    have a1 := mul_le_mul_of_nonneg_right (le_max_left M C) (sz_nonneg hu)
    have a2 := mul_le_mul_of_nonneg_right (le_max_left M C) (sz_nonneg hu')
    have a3 := mul_le_mul_of_nonneg_right (le_max_right M C) hr
    linarith

/-- A locally Lipschitz number is bounded near the point. -/
theorem LLip.bounded {f : α → ℝ} {x : α} (hf : LLip f x) : ∃ M ≥ (0 : ℝ), ∃ δ > (0 : ℝ), ∀ a, close δ a x → |f a| ≤ M := by
  obtain ⟨C, hC, δ, hδ, h⟩ := hf
  refine ⟨|f x| + C * δ, by positivity, δ, hδ, fun a ha => ?_⟩
  have h1 : |f a - f x| ≤ C * δ := h a x ha (Gauge.refl' _ hδ.le) δ hδ.le ha
  have := abs_add_le (f a - f x) (f x)
  rw [sub_add_cancel] at this
  linarith

theorem near_le {u : ℝ × ℝ} {d x y M : ℝ} (hu : Small u d) (h : |y - x| ≤ u.1 * |x| + u.2) (hx : |x| ≤ M) (hM : 0 ≤ M) : |y - x| ≤ (M + 1) * sz u := by
  refine h.trans ?_
  have := mul_le_mul_of_nonneg_left hx hu.1
  unfold sz
  nlinarith [hu.1, hu.2.2.1, mul_nonneg hM hu.2.2.1]

theorem RateAt.near {f : α → ℝ} {x : α} (hf : LLip f x) : RateAt (fun u a => near u (f a)) x (f x) := by
  obtain ⟨M, hM, δ, hδ, hb⟩ := hf.bounded
  refine RateAt.of_exact hf (M := M + 1) (by linarith) hδ fun u hu a ha o ho => ?_
  obtain ⟨y, rfl, hy⟩ := ho
  exact ⟨y, rfl, near_le hu hy (hb a ha) hM⟩

theorem LLip.ne_zero {g : α → ℝ} {x : α} (hg : LLip g x) (h0 : g x ≠ 0) : ∃ δ > (0 : ℝ), ∀ a, close δ a x → g a ≠ 0 := by
  obtain ⟨C, hC, δ, hδ, h⟩ := hg
  have hp := abs_pos.mpr h0
  have hm : 0 < min δ (|g x| / (C + 1) / 2) := lt_min hδ (by positivity)
  refine ⟨_, hm, fun a ha e => ?_⟩
  have h1 : |g a - g x| ≤ C * min δ (|g x| / (C + 1) / 2) := h a x (Gauge.mono' (min_le_left _ _) ha) (Gauge.refl' _ hδ.le) _ hm.le ha
  rw [e, zero_sub, abs_neg] at h1
  have h2 : C * min δ (|g x| / (C + 1) / 2) ≤ (C + 1) * (|g x| / (C + 1) / 2) := mul_le_mul (by linarith) (min_le_right _ _) hm.le (by linarith)
  have h3 : (C + 1) * (|g x| / (C + 1) / 2) = |g x| / 2 := by field_simp
  linarith

theorem RateAt.quot {f g : α → ℝ} {x : α} (hf : LLip f x) (hg : LLip g x) (h0 : g x ≠ 0) : RateAt (fun u a => quot u (f a) (g a)) x (f x / g x) := by
  have hd := hf.div hg h0
  obtain ⟨M, hM, δ, hδ, hb⟩ := hd.bounded
  obtain ⟨η, hη, hne⟩ := hg.ne_zero h0
  refine RateAt.of_exact hd (M := M + 1) (by linarith) (lt_min hδ hη) fun u hu a ha o ho => ?_
  have hn := hne a (Gauge.mono' (min_le_right _ _) ha)
  rcases ho with ⟨e, he, -⟩ | ⟨q, hq, ho⟩
  · unfold lift fdiv at he
    rw [if_neg hn] at he
    cases he
  · unfold lift fdiv at hq
    rw [if_neg hn] at hq
    cases hq
    obtain ⟨y, rfl, hy⟩ := ho
    exact ⟨y, rfl, near_le hu hy (hb a (Gauge.mono' (min_le_left _ _) ha)) hM⟩

theorem RateAt.comp {F : ℝ × ℝ → β → Nd γ} {f : α → β} {x : α} {z : γ} (h : RateAt F (f x) z) (hf : LLip f x) : RateAt (fun u a => F u (f a)) x z := by
  have h1 : RateAt (fun u a => Pure.pure (f a) >>= fun b => F u b) x z := RateAt.bind (G := fun u _ b => F u b) (RateAt.pure hf) (by
    obtain ⟨C, hC, δ, hδ, h⟩ := h
    exact ⟨C, hC, δ, hδ, fun u hu q o ho => ⟨fun r hr hr' hc => (h u hu q.2 o ho).1 r hr hr' hc.2,
      fun u' q' b b' hu' hq hq' r hr hc e ho' => (h u hu q.2 o ho).2 u' q'.2 b b' hu' hq.2 hq'.2 r hr hc.2 e ho'⟩⟩)
  simpa only [LawfulMonad.pure_bind] using h1

theorem RateAt.foldlM {σ : Type} [Gauge σ] {l : List ℕ} {body : ℝ × ℝ → ℕ → α → σ → Nd σ} {exact : ℕ → σ → σ} {x : α} {s : σ}
    (h : ∀ i ∈ l, ∀ s, RateAt (fun u (q : α × σ) => body u i q.1 q.2) (x, s) (exact i s)) :
    RateAt (fun u (q : α × σ) => l.foldlM (fun st i => body u i q.1 st) q.2) (x, s) (l.foldl (fun st i => exact i st) s) := by
  induction l generalizing s with
  | nil => exact RateAt.pure (f := fun q : α × σ => q.2) (LLip.snd' _)
  | cons i l ih =>
    simp only [List.foldlM_cons, List.foldl_cons]
    refine RateAt.bind (h i (by simp) s) ?_
    exact RateAt.comp (x := ((x, s), exact i s)) (f := fun q : (α × σ) × σ => (q.1.1, q.2)) (ih (s := exact i s) fun j hj => h j (by simp [hj])) (by fun_prop)

theorem RateAt.loop {σ : Type} [Gauge σ] {a b : ℕ} {body : ℝ × ℝ → ℕ → α → σ → Nd σ} {exact : ℕ → σ → σ} {x : α} {s : σ}
    (h : ∀ i, a ≤ i → i < b → ∀ s, RateAt (fun u (q : α × σ) => body u i q.1 q.2) (x, s) (exact i s)) :
    RateAt (fun u (q : α × σ) => Nd.loop a b (fun i => body u i q.1) q.2) (x, s) (forLoop a b exact s) := by
  refine RateAt.foldlM fun i hi s => h i ?_ ?_ s
  · have := List.mem_range'.mp hi; omega
  · have := List.mem_range'.mp hi; omega

theorem LLip.abs {f : α → ℝ} {x : α} (hf : LLip f x) : LLip (fun a => |f a|) x := by
  refine LLip.comp (g := fun q : ℝ => |q|) (LLip.of_bound (C := 1) (δ := 1) (by norm_num) (by norm_num) ?_) hf
  intro a a' _ _ r hr h
  rw [one_mul]
  exact (abs_abs_sub_abs_le a a').trans h

theorem LLip.sum {n : ℕ} {f : ℕ → α → ℝ} {x : α} (hf : ∀ k < n, LLip (f k) x) : LLip (fun a => ∑ k ∈ Finset.range n, f k a) x := by
  induction n with
  | zero => simpa using LLip.const (0 : ℝ) x
  | succ n ih =>
    simp only [Finset.sum_range_succ]
    exact (ih fun k hk => hf k (by omega)).add (hf n (by omega))

theorem sumErr_le {u : ℝ × ℝ} (hu : Small u 1) (n : ℕ) {M : ℝ} (hM : 0 ≤ M) : sumErr u n M ≤ ((2 : ℝ) ^ n * n * (M + 1)) * sz u := by
  have h0 := hu.1
  have h2 := hu.2.2.1
  have p : (1 + u.1) ^ n ≤ 2 ^ n := pow_le_pow_left₀ (by linarith) (by linarith [hu.2.1]) n
  have q : (1 + u.1) ^ n - 1 ≤ 2 ^ n * n * u.1 := by
    induction n with
    | zero => simp
    | succ n ih =>
      have p' : (1 + u.1) ^ n ≤ 2 ^ n := pow_le_pow_left₀ (by linarith) (by linarith [hu.2.1]) n
      have i := ih p'
      have e : (1 + u.1) ^ (n + 1) - 1 = ((1 + u.1) ^ n - 1) + (1 + u.1) ^ n * u.1 := by ring
      rw [e]
      have a := mul_le_mul_of_nonneg_right p' h0
      have b : (2 : ℝ) ^ (n + 1) * ((n + 1 : ℕ) : ℝ) * u.1 = 2 * (2 ^ n * n * u.1) + 2 * (2 ^ n * u.1) := by push_cast; ring
      have c : 0 ≤ (2 : ℝ) ^ n * n * u.1 := by positivity
      have d : 0 ≤ (2 : ℝ) ^ n * u.1 := by positivity
      linarith
  unfold sumErr sz
  have a1 := mul_le_mul_of_nonneg_right q hM
  have a2 : (n : ℝ) * (1 + u.1) ^ n * u.2 ≤ n * 2 ^ n * u.2 := mul_le_mul_of_nonneg_right (mul_le_mul_of_nonneg_left p (Nat.cast_nonneg _)) h2
  have a3 : 0 ≤ (2 : ℝ) ^ n * n * u.1 := by positivity
  have a4 : 0 ≤ (2 : ℝ) ^ n * n * u.2 * M := by positivity
  nlinarith

theorem RateAt.sum {n : ℕ} {f : ℕ → α → ℝ} {x : α} (hf : ∀ k < n, LLip (f k) x) :
    RateAt (fun u a => Nd.sum u ((List.range n).map fun k => f k a)) x (∑ k ∈ Finset.range n, f k x) := by
  have e : ∀ g : ℕ → ℝ, ((List.range n).map g).sum = ∑ k ∈ Finset.range n, g k := fun g => rfl
  obtain ⟨M, hM, δ, hδ, hb⟩ := (LLip.sum (f := fun k a => |f k a|) fun k hk => (hf k hk).abs).bounded
  refine RateAt.of_exact (LLip.sum hf) (M := (2 : ℝ) ^ (n - 1) * ((n - 1 : ℕ) : ℝ) * (M + 1)) (by positivity) (lt_min hδ one_pos) fun u hu a ha o ho => ?_
  obtain ⟨y, rfl, hy⟩ := ho
  refine ⟨y, rfl, ?_⟩
  have h1 := hy.bound hu.1 hu.2.2.1
  rw [List.map_map, List.length_map, List.length_range, e, e] at h1
  simp only [Function.comp_def] at h1
  have h2 := hb a (Gauge.mono' (min_le_left _ _) ha)
  have h3 := (le_abs_self _).trans h2
  have h4 : (0 : ℝ) ≤ ∑ k ∈ Finset.range n, |f k a| := Finset.sum_nonneg fun _ _ => abs_nonneg _
  refine h1.trans ((sumErr_le (small_mono (min_le_right _ _) hu) _ h4).trans ?_)
  exact mul_le_mul_of_nonneg_right (mul_le_mul_of_nonneg_left (by linarith) (by positivity)) (sz_nonneg hu)

theorem RateAt.nears {n : ℕ} {f : α → Vec} {x : α} (hf : ∀ k < n, LLip (fun a => f a k) x) :
    RateAt (fun u a => Nd.nears u n (f a)) x fun k => if k < n then f x k else 0 := by
  have hl : LLip (fun a k => if k < n then f a k else 0) x := LLip.pi (n := n) (fun k hk => by simpa only [if_pos hk] using hf k hk) fun a k hk => if_neg (by omega)
  obtain ⟨M, hM, δ, hδ, hb⟩ := (LLip.sum (f := fun k a => |f a k|) fun k hk => (hf k hk).abs).bounded
  refine RateAt.of_exact (f := fun a k => if k < n then f a k else 0) hl (M := M + 1) (by linarith) hδ fun u hu a ha o ho => ?_
  obtain ⟨v, rfl, h1, h2⟩ := ho
  refine ⟨v, rfl, fun k => ?_⟩
  change |v k - if k < n then f a k else 0| ≤ _
  by_cases hk : k < n
  · rw [if_pos hk]
    refine near_le hu (h1 k hk) ?_ hM
    have h3 := (le_abs_self _).trans (hb a ha)
    exact (Finset.single_le_sum (f := fun k => |f a k|) (fun _ _ => abs_nonneg _) (Finset.mem_range.mpr hk)).trans h3
  · rw [if_neg hk, h2 k (by omega), sub_zero, abs_zero]
    exact mul_nonneg (by linarith) (sz_nonneg hu)

/-! ## Decisions -/

/-- For small errors and inputs near the point all outcomes satisfy the predicate. -/
def EvG (F : ℝ × ℝ → α → Nd γ) (x : α) (P : Res γ → Prop) : Prop := ∃ δ > (0 : ℝ), ∀ u, Small u δ → ∀ a, close δ a x → All (F u a) P

omit [Gauge β] in
theorem RateAt.bind_of {F : ℝ × ℝ → α → Nd β} {G : ℝ × ℝ → α → β → Nd γ} {x : α} {o : β} {z : γ}
    (hF : EvG F x fun r => r = .ok o) (hG : RateAt (fun u a => G u a o) x z) : RateAt (fun u a => F u a >>= G u a) x z := by
  obtain ⟨η, hη, hF⟩ := hF
  obtain ⟨C, hC, δ, hδ, h⟩ := hG
  have l := min_le_left δ η
  have l' := min_le_right δ η
  have key : ∀ u, Small u (min δ η) → ∀ a, close (min δ η) a x → ∀ r, (F u a >>= G u a) r → G u a o r := by
    intro u hu a ha r hr
    rcases hr with ⟨e, he, rfl⟩ | ⟨b, hb, h⟩
    · cases hF u (small_mono l' hu) a (Gauge.mono' l' ha) _ he
    · cases hF u (small_mono l' hu) a (Gauge.mono' l' ha) _ hb
      exact h
  refine ⟨C, hC, min δ η, lt_min hδ hη, fun u hu a r hr => ⟨fun s hs hs' hc => ?_, fun u' a' b b' hu' ha ha' s hs hc e hr' => ?_⟩⟩
  · exact (h u (small_mono l hu) a r (key u hu a (Gauge.mono' hs' hc) r hr)).1 s hs (hs'.trans l) hc
  · exact (h u (small_mono l hu) a r (key u hu a ha r hr)).2 u' a' b b' (small_mono l hu') (Gauge.mono' l ha) (Gauge.mono' l ha') s hs hc e (key u' hu' a' ha' _ hr')

omit [Gauge γ] in
theorem EvG.of_ev {F : ℝ × ℝ → ℝ → Nd γ} {x : ℝ} {P : Res γ → Prop} (h : Ev F x P) : EvG F x P := by
  obtain ⟨ε, hε, hb⟩ := Metric.eventually_nhds_iff.mp h
  refine ⟨ε / 2, by linarith, fun u hu a ha => hb (y := (u, a)) ?_⟩
  have ha' : |a - x| ≤ ε / 2 := ha
  rw [Prod.dist_eq, Prod.dist_eq, Real.dist_eq, Real.dist_eq, Real.dist_eq]
  simp only [Prod.fst_zero, Prod.snd_zero, sub_zero]
  rw [abs_of_nonneg hu.1, abs_of_nonneg hu.2.2.1]
  exact max_lt (max_lt (by linarith [hu.2.1]) (by linarith [hu.2.2.2])) (by linarith)

omit [Gauge γ] in
theorem EvG.fst {F : ℝ × ℝ → α → Nd γ} {x : α} {y : β} {P : Res γ → Prop} (h : EvG F x P) : EvG (fun u (q : α × β) => F u q.1) (x, y) P := by
  obtain ⟨δ, hδ, h⟩ := h
  exact ⟨δ, hδ, fun u hu q hq => h u hu q.1 hq.1⟩

end GSplines.Nd
