import Verif.Model.Rounding
import Verif.Proofs.GSpline
import Mathlib.Topology.Algebra.Order.Field
import Mathlib.Analysis.SpecialFunctions.Pow.Continuity

/-! # Rounded programs: outcomes, and their convergence as the precision grows -/

namespace GSplines.Nd

open Filter Topology

/-! ## Outcomes -/

variable {α β γ : Type}

theorem pure_iff {a : α} {r : Res α} : (pure a : Nd α) r ↔ r = .ok a := Iff.rfl

theorem bind_iff {p : Nd α} {f : α → Nd β} {r : Res β} : (p >>= f) r ↔ (∃ e, p (.error e) ∧ r = .error e) ∨ ∃ a, p (.ok a) ∧ f a r := Iff.rfl

instance : LawfulMonad Nd := LawfulMonad.mk' Nd
  (id_map := fun p => by
    funext r
    refine propext ⟨?_, fun h => ?_⟩
    · rintro (⟨e, h, rfl⟩ | ⟨a, h, rfl⟩) <;> exact h
    · cases r with
      | error e => exact .inl ⟨e, h, rfl⟩
      | ok a => exact .inr ⟨a, h, rfl⟩)
  (pure_bind := fun a f => by
    funext r
    refine propext ⟨?_, fun h => .inr ⟨a, rfl, h⟩⟩
    rintro (⟨e, h, rfl⟩ | ⟨b, h, h2⟩)
    · cases h
    · cases h; exact h2)
  (bind_assoc := fun p f g => by
    funext r
    refine propext ⟨?_, ?_⟩
    · rintro (⟨e, ⟨e', h, h'⟩ | ⟨a, h, h'⟩, rfl⟩ | ⟨b, ⟨e', h, h'⟩ | ⟨a, h, h'⟩, h2⟩)
      · cases h'; exact .inl ⟨e, h, rfl⟩
      · exact .inr ⟨a, h, .inl ⟨e, h', rfl⟩⟩
      · cases h'
      · exact .inr ⟨a, h, .inr ⟨b, h', h2⟩⟩
    · rintro (⟨e, h, rfl⟩ | ⟨a, h, ⟨e, h', rfl⟩ | ⟨b, h', h2⟩⟩)
      · exact .inl ⟨e, .inl ⟨e, h, rfl⟩, rfl⟩
      · exact .inl ⟨e, .inr ⟨a, h, h'⟩, rfl⟩
      · exact .inr ⟨b, .inr ⟨a, h, h'⟩, h2⟩)

theorem near_iff {u : ℝ × ℝ} {x : ℝ} {r : Res ℝ} : near u x r ↔ ∃ y, r = .ok y ∧ |y - x| ≤ u.1 * |x| + u.2 := Iff.rfl

/-- Every outcome of the program satisfies the predicate. -/
def All (p : Nd α) (P : Res α → Prop) : Prop := ∀ r, p r → P r

theorem All.pure {a : α} {P : Res α → Prop} (h : P (.ok a)) : All (Pure.pure a) P := by
  rintro r rfl; exact h

theorem All.bind {p : Nd α} {f : α → Nd β} {P : Res α → Prop} {Q : Res β → Prop} (h : All p P) (he : ∀ e, P (.error e) → Q (.error e))
    (hf : ∀ a, P (.ok a) → All (f a) Q) : All (p >>= f) Q := by
  rintro r (⟨e, h1, rfl⟩ | ⟨a, h1, h2⟩)
  · exact he e (h _ h1)
  · exact hf a (h _ h1) r h2

theorem All.mono {p : Nd α} {P Q : Res α → Prop} (h : All p P) (hq : ∀ r, P r → Q r) : All p Q := fun r hr => hq r (h r hr)

/-- The outcome is not undefined behaviour. -/
def Safe (r : Res α) : Prop := r ≠ .error .ub

theorem safe_pure (a : α) : All (Pure.pure a : Nd α) Safe := All.pure (by simp [Safe])

theorem safe_bind {p : Nd α} {f : α → Nd β} (h : All p Safe) (hf : ∀ a, All (f a) Safe) : All (p >>= f) Safe :=
  All.bind h (fun e he => by simpa [Safe] using he) fun a _ => hf a

theorem safe_near (u : ℝ × ℝ) (x : ℝ) : All (near u x) Safe := by
  rintro r ⟨y, rfl, -⟩; simp [Safe]

theorem safe_quot (u : ℝ × ℝ) (x y : ℝ) : All (quot u x y) Safe := by
  refine safe_bind ?_ fun _ => safe_near _ _
  rintro r rfl
  unfold fdiv Safe
  split_ifs <;> simp

theorem safe_sum (u : ℝ × ℝ) (l : List ℝ) : All (sum u l) Safe := by
  rintro r ⟨y, rfl, -⟩; simp [Safe]

theorem safe_foldlM {σ : Type} {l : List ℕ} {body : ℕ → σ → Nd σ} (h : ∀ i ∈ l, ∀ s, All (body i s) Safe) (s : σ) :
    All (l.foldlM (fun st i => body i st) s) Safe := by
  induction l generalizing s with
  | nil => exact safe_pure s
  | cons i l ih =>
    rw [List.foldlM_cons]
    exact safe_bind (h i (by simp) s) fun s' => ih (fun j hj => h j (by simp [hj])) s'

theorem safe_loop {σ : Type} {a b : ℕ} {body : ℕ → σ → Nd σ} (h : ∀ i s, All (body i s) Safe) (s : σ) : All (loop a b body s) Safe :=
  safe_foldlM (fun i _ => h i) s

theorem safe_mapM {l : List α} {f : α → Nd β} (h : ∀ a ∈ l, All (f a) Safe) : All (l.mapM f) Safe := by
  induction l with
  | nil => exact safe_pure _
  | cons a l ih =>
    rw [List.mapM_cons]
    exact safe_bind (h a (by simp)) fun b => safe_bind (ih fun c hc => h c (by simp [hc])) fun _ => safe_pure _

/-! ## Convergence -/

/-- As the errors of the operations tend to zero and the input to `x`, all outcomes tend to `z`. -/
def ConvAt [TopologicalSpace α] [TopologicalSpace β] (F : ℝ × ℝ → α → Nd β) (x : α) (z : β) : Prop :=
  ∀ U ∈ 𝓝 z, ∀ᶠ q in 𝓝 ((0 : ℝ × ℝ), x), ∀ r, F q.1 q.2 r → ∃ b ∈ U, r = .ok b

variable [TopologicalSpace α] [TopologicalSpace β] [TopologicalSpace γ]

theorem ConvAt.pure {f : α → β} {x : α} (hf : ContinuousAt f x) : ConvAt (fun _ a => Pure.pure (f a)) x (f x) := by
  intro U hU
  have : ∀ᶠ q in 𝓝 ((0 : ℝ × ℝ), x), f q.2 ∈ U := by
    have h2 : Tendsto (fun q : (ℝ × ℝ) × α => q.2) (𝓝 ((0 : ℝ × ℝ), x)) (𝓝 x) := continuous_snd.tendsto _
    exact (hf.tendsto.comp h2) hU
  filter_upwards [this] with q hq r hr
  exact ⟨_, hq, hr⟩

/-- Eventually all outcomes satisfy the predicate. -/
def Ev (F : ℝ × ℝ → α → Nd γ) (x : α) (P : Res γ → Prop) : Prop := ∀ᶠ q in 𝓝 ((0 : ℝ × ℝ), x), All (F q.1 q.2) P

omit [TopologicalSpace γ] in
theorem Ev.bind {F : ℝ × ℝ → α → Nd β} {G : ℝ × ℝ → α → β → Nd γ} {x : α} {y : β} {P : Res γ → Prop} (h1 : ConvAt F x y)
    (h3 : Ev (fun u (q : α × β) => G u q.1 q.2) (x, y) P) : Ev (fun u a => F u a >>= G u a) x P := by
  have e : Tendsto (fun q : ((ℝ × ℝ) × α) × β => (q.1.1, (q.1.2, q.2))) (𝓝 (((0 : ℝ × ℝ), x), y)) (𝓝 ((0 : ℝ × ℝ), (x, y))) :=
    (Continuous.tendsto (by fun_prop) (((0 : ℝ × ℝ), x), y))
  have h3' := e.eventually h3
  rw [nhds_prod_eq (x := ((0 : ℝ × ℝ), x))] at h3'
  obtain ⟨p, hp, V, hV, h4⟩ := (eventually_prod_iff.mp h3')
  obtain ⟨W, hW, h5⟩ := hV.exists_mem
  have h6 := h1 W hW
  filter_upwards [hp, h6] with q hq hq6 r hr
  rcases hr with ⟨e, he, rfl⟩ | ⟨b, hb, hr⟩
  · obtain ⟨b, -, hb⟩ := hq6 _ he
    cases hb
  · obtain ⟨b', hb', e⟩ := hq6 _ hb
    cases e
    exact h4 hq (h5 b hb') r hr

omit [TopologicalSpace γ] in
theorem Ev.comp {F : ℝ × ℝ → β → Nd γ} {f : α → β} {x : α} {P : Res γ → Prop} (h : Ev F (f x) P) (hf : ContinuousAt f x) : Ev (fun u a => F u (f a)) x P := by
  have h1 : Tendsto (fun q : (ℝ × ℝ) × α => (q.1, f q.2)) (𝓝 ((0 : ℝ × ℝ), x)) (𝓝 ((0 : ℝ × ℝ), f x)) := by
    rw [nhds_prod_eq (x := (0 : ℝ × ℝ)), nhds_prod_eq (x := (0 : ℝ × ℝ))]
    exact (tendsto_fst).prodMk (hf.tendsto.comp tendsto_snd)
  exact h1.eventually h

theorem ConvAt.bind {F : ℝ × ℝ → α → Nd β} {G : ℝ × ℝ → α → β → Nd γ} {x : α} {y : β} {z : γ} (h1 : ConvAt F x y)
    (h2 : ConvAt (fun u (q : α × β) => G u q.1 q.2) (x, y) z) : ConvAt (fun u a => F u a >>= G u a) x z :=
  fun U hU => Ev.bind h1 (h2 U hU)

theorem ConvAt.congr {F : ℝ × ℝ → α → Nd β} {x : α} {z z' : β} (h : ConvAt F x z) (e : z = z') : ConvAt F x z' := e ▸ h

theorem ConvAt.near {f : α → ℝ} {x : α} (hf : ContinuousAt f x) : ConvAt (fun u a => near u (f a)) x (f x) := by
  intro U hU
  obtain ⟨ε, hε, hball⟩ := Metric.mem_nhds_iff.mp hU
  have h2 : Tendsto (fun q : (ℝ × ℝ) × α => f q.2) (𝓝 ((0 : ℝ × ℝ), x)) (𝓝 (f x)) := hf.tendsto.comp (continuous_snd.tendsto _)
  have h1 : Tendsto (fun q : (ℝ × ℝ) × α => q.1) (𝓝 ((0 : ℝ × ℝ), x)) (𝓝 0) := continuous_fst.tendsto _
  have h3 : Tendsto (fun q : (ℝ × ℝ) × α => q.1.1 * |f q.2| + q.1.2 + |f q.2 - f x|) (𝓝 ((0 : ℝ × ℝ), x)) (𝓝 ((0 : ℝ × ℝ).1 * |f x| + (0 : ℝ × ℝ).2 + |f x - f x|)) :=
    (((continuous_fst.tendsto _).comp h1).mul h2.abs |>.add ((continuous_snd.tendsto _).comp h1)).add (h2.sub_const _).abs
  have h4 : (0 : ℝ × ℝ).1 * |f x| + (0 : ℝ × ℝ).2 + |f x - f x| = 0 := by simp
  rw [h4] at h3
  filter_upwards [h3.eventually (gt_mem_nhds hε)] with q hq r hr
  obtain ⟨y, rfl, hy⟩ := hr
  refine ⟨y, hball ?_, rfl⟩
  rw [Metric.mem_ball, Real.dist_eq]
  have := abs_sub_le y (f q.2) (f x)
  linarith

theorem ConvAt.quot {f g : α → ℝ} {x : α} (hf : ContinuousAt f x) (hg : ContinuousAt g x) (h0 : g x ≠ 0) :
    ConvAt (fun u a => quot u (f a) (g a)) x (f x / g x) := by
  have h1 := ConvAt.near (f := fun a => f a / g a) (hf.div hg h0)
  intro U hU
  have h2 : ∀ᶠ q in 𝓝 ((0 : ℝ × ℝ), x), g q.2 ≠ 0 := by
    have : Tendsto (fun q : (ℝ × ℝ) × α => g q.2) (𝓝 ((0 : ℝ × ℝ), x)) (𝓝 (g x)) := hg.tendsto.comp (continuous_snd.tendsto _)
    exact this.eventually_ne h0
  filter_upwards [h1 U hU, h2] with q h3 h4 r hr
  rcases hr with ⟨e, he, rfl⟩ | ⟨b, hb, hr⟩
  · unfold lift fdiv at he
    rw [if_neg h4] at he
    cases he
  · unfold lift fdiv at hb
    rw [if_neg h4] at hb
    cases hb
    exact h3 r hr

/-- Precomposition. -/
theorem ConvAt.comp {F : ℝ × ℝ → β → Nd γ} {f : α → β} {x : α} {z : γ} (h : ConvAt F (f x) z) (hf : ContinuousAt f x) : ConvAt (fun u a => F u (f a)) x z := by
  intro U hU
  have h1 : Tendsto (fun q : (ℝ × ℝ) × α => (q.1, f q.2)) (𝓝 ((0 : ℝ × ℝ), x)) (𝓝 ((0 : ℝ × ℝ), f x)) := by
    rw [nhds_prod_eq (x := (0 : ℝ × ℝ)), nhds_prod_eq (x := (0 : ℝ × ℝ))]
    exact (tendsto_fst).prodMk (hf.tendsto.comp tendsto_snd)
  exact h1.eventually (h U hU)

theorem ConvAt.foldlM {σ : Type} [TopologicalSpace σ] {l : List ℕ} {body : ℝ × ℝ → ℕ → α → σ → Nd σ} {exact : ℕ → σ → σ} {x : α} {s : σ}
    (h : ∀ i ∈ l, ∀ s, ConvAt (fun u (q : α × σ) => body u i q.1 q.2) (x, s) (exact i s)) :
    ConvAt (fun u (q : α × σ) => l.foldlM (fun st i => body u i q.1 st) q.2) (x, s) (l.foldl (fun st i => exact i st) s) := by
  induction l generalizing s with
  | nil => exact ConvAt.pure (f := fun q : α × σ => q.2) continuousAt_snd
  | cons i l ih =>
    simp only [List.foldlM_cons, List.foldl_cons]
    refine ConvAt.bind (h i (by simp) s) ?_
    exact ConvAt.comp (x := ((x, s), exact i s)) (f := fun q : (α × σ) × σ => (q.1.1, q.2)) (ih (s := exact i s) fun j hj => h j (by simp [hj])) (by fun_prop)

/-- A Boolean that is decided in the limit. -/
theorem Ev.of_forall {F : ℝ × ℝ → α → Nd γ} {x : α} {P : Res γ → Prop} (h : ∀ u a, All (F u a) P) : Ev F x P := Eventually.of_forall fun q => h q.1 q.2

/-! ## Sums -/

theorem abs_sum_le (l : List ℝ) : |l.sum| ≤ (l.map abs).sum := by
  induction l with
  | nil => simp
  | cons a l ih => rw [List.sum_cons, List.map_cons, List.sum_cons]; exact (abs_add_le _ _).trans (by linarith)

/-- The bound of the error of a sum. -/
noncomputable def sumErr (u : ℝ × ℝ) (n : ℕ) (M : ℝ) : ℝ := ((1 + u.1) ^ n - 1) * M + n * (1 + u.1) ^ n * u.2

theorem SumOf.bound {u : ℝ × ℝ} (h1 : 0 ≤ u.1) (h2 : 0 ≤ u.2) {l : List ℝ} {r : ℝ} (h : SumOf u l r) :
    |r - l.sum| ≤ sumErr u (l.length - 1) (l.map abs).sum := by
  induction h with
  | nil => simp [sumErr]
  | one x => simp [sumErr]
  | @split l l₁ l₂ a b r hp n1 n2 _ _ hr ih1 ih2 =>
    have e1 : l.sum = l₁.sum + l₂.sum := by rw [hp.sum_eq, List.sum_append]
    have e2 : (l.map abs).sum = (l₁.map abs).sum + (l₂.map abs).sum := by rw [(hp.map abs).sum_eq, List.map_append, List.sum_append]
    have e3 : l.length = l₁.length + l₂.length := by rw [hp.length_eq, List.length_append]
    have l1 := List.length_pos_of_ne_nil n1
    have l2 := List.length_pos_of_ne_nil n2
    set M1 := (l₁.map abs).sum
    set M2 := (l₂.map abs).sum
    have hM1 : 0 ≤ M1 := List.sum_nonneg (by simp)
    have hM2 : 0 ≤ M2 := List.sum_nonneg (by simp)
    have hS : |l₁.sum + l₂.sum| ≤ M1 + M2 := by
      refine (abs_add_le _ _).trans (add_le_add ?_ ?_)
      · exact abs_sum_le _
      · exact abs_sum_le _
    set m := l₁.length + l₂.length - 2
    have hm : l.length - 1 = m + 1 := by omega
    have g : ∀ k, k ≤ m → (1 + u.1) ^ k ≤ (1 + u.1) ^ m := fun k hk => pow_le_pow_right₀ (by linarith) hk
    have gm : 1 ≤ (1 + u.1) ^ m := one_le_pow₀ (by linarith)
    have b1 : sumErr u (l₁.length - 1) M1 ≤ ((1 + u.1) ^ m - 1) * M1 + (l₁.length - 1 : ℕ) * (1 + u.1) ^ m * u.2 := by
      unfold sumErr
      refine add_le_add (mul_le_mul_of_nonneg_right (by linarith [g (l₁.length - 1) (by omega)]) hM1) ?_
      exact mul_le_mul_of_nonneg_right (mul_le_mul_of_nonneg_left (g _ (by omega)) (Nat.cast_nonneg _)) h2
    have b2 : sumErr u (l₂.length - 1) M2 ≤ ((1 + u.1) ^ m - 1) * M2 + (l₂.length - 1 : ℕ) * (1 + u.1) ^ m * u.2 := by
      unfold sumErr
      refine add_le_add (mul_le_mul_of_nonneg_right (by linarith [g (l₂.length - 1) (by omega)]) hM2) ?_
      exact mul_le_mul_of_nonneg_right (mul_le_mul_of_nonneg_left (g _ (by omega)) (Nat.cast_nonneg _)) h2
    have hcast : ((l₁.length - 1 : ℕ) : ℝ) + ((l₂.length - 1 : ℕ) : ℝ) = (m : ℝ) := by
      rw [← Nat.cast_add]; congr 1; omega
    set E := ((1 + u.1) ^ m - 1) * (M1 + M2) + m * (1 + u.1) ^ m * u.2
    have hE : |a + b - (l₁.sum + l₂.sum)| ≤ E := by
      have : |a + b - (l₁.sum + l₂.sum)| ≤ |a - l₁.sum| + |b - l₂.sum| := by
        rw [show a + b - (l₁.sum + l₂.sum) = (a - l₁.sum) + (b - l₂.sum) by ring]
        exact abs_add_le _ _
      have e : E = ((1 + u.1) ^ m - 1) * M1 + (l₁.length - 1 : ℕ) * (1 + u.1) ^ m * u.2 + (((1 + u.1) ^ m - 1) * M2 + (l₂.length - 1 : ℕ) * (1 + u.1) ^ m * u.2) := by
        simp only [E]; rw [← hcast]; ring
      linarith
    have hab : |a + b| ≤ M1 + M2 + E := by
      have : |a + b| ≤ |a + b - (l₁.sum + l₂.sum)| + |l₁.sum + l₂.sum| := by
        have := abs_add_le (a + b - (l₁.sum + l₂.sum)) (l₁.sum + l₂.sum)
        rwa [sub_add_cancel] at this
      linarith
    have htot : |r - l.sum| ≤ u.1 * (M1 + M2 + E) + u.2 + E := by
      have h3 := abs_sub_le r (a + b) (l₁.sum + l₂.sum)
      have h4 := mul_le_mul_of_nonneg_left hab h1
      rw [e1]
      linarith
    refine htot.trans ?_
    rw [hm, e2]
    unfold sumErr
    have hu : u.2 ≤ (1 + u.1) ^ (m + 1) * u.2 := le_mul_of_one_le_left h2 (one_le_pow₀ (by linarith))
    have e4 : ((1 + u.1) ^ (m + 1) - 1) * (M1 + M2) + ((m + 1 : ℕ) : ℝ) * (1 + u.1) ^ (m + 1) * u.2 =
        u.1 * (M1 + M2 + E) + E + (1 + u.1) ^ (m + 1) * u.2 := by
      simp only [E]; push_cast; ring
    rw [e4]
    linarith

/-- Larger errors allow more outcomes. -/
theorem SumOf.mono {u v : ℝ × ℝ} (h1 : u.1 ≤ v.1) (h2 : u.2 ≤ v.2) {l : List ℝ} {r : ℝ} (h : SumOf u l r) : SumOf v l r := by
  induction h with
  | nil => exact .nil
  | one x => exact .one x
  | split hp n1 n2 _ _ hr ih1 ih2 => exact .split hp n1 n2 ih1 ih2 (hr.trans (add_le_add (mul_le_mul_of_nonneg_right h1 (abs_nonneg _)) h2))

theorem sumErr_tendsto {n : ℕ} {f : α → ℝ} {x : α} (hf : ContinuousAt f x) :
    Tendsto (fun q : (ℝ × ℝ) × α => sumErr (|q.1.1|, |q.1.2|) n (f q.2)) (𝓝 ((0 : ℝ × ℝ), x)) (𝓝 0) := by
  have h2 : Tendsto (fun q : (ℝ × ℝ) × α => f q.2) (𝓝 ((0 : ℝ × ℝ), x)) (𝓝 (f x)) := hf.tendsto.comp (continuous_snd.tendsto _)
  have a1 : Tendsto (fun q : (ℝ × ℝ) × α => |q.1.1|) (𝓝 ((0 : ℝ × ℝ), x)) (𝓝 0) := by
    have : Continuous fun q : (ℝ × ℝ) × α => |q.1.1| := by fun_prop
    simpa using this.tendsto ((0 : ℝ × ℝ), x)
  have a2 : Tendsto (fun q : (ℝ × ℝ) × α => |q.1.2|) (𝓝 ((0 : ℝ × ℝ), x)) (𝓝 0) := by
    have : Continuous fun q : (ℝ × ℝ) × α => |q.1.2| := by fun_prop
    simpa using this.tendsto ((0 : ℝ × ℝ), x)
  have a3 : Tendsto (fun q : (ℝ × ℝ) × α => (1 + |q.1.1|) ^ n) (𝓝 ((0 : ℝ × ℝ), x)) (𝓝 1) := by
    simpa using ((tendsto_const_nhds (x := (1 : ℝ))).add a1).pow n
  have := ((a3.sub_const 1).mul h2).add ((a3.const_mul (n : ℝ)).mul a2)
  simpa [sumErr] using this

/-- The sum of a list whose entries are continuous. -/
theorem ConvAt.sum {n : ℕ} {f : ℕ → α → ℝ} {x : α} (hf : ∀ k < n, ContinuousAt (f k) x) :
    ConvAt (fun u a => Nd.sum u ((List.range n).map fun k => f k a)) x (∑ k ∈ Finset.range n, f k x) := by
  have e : ∀ g : ℕ → ℝ, ((List.range n).map g).sum = ∑ k ∈ Finset.range n, g k := fun g => rfl
  have hs : ContinuousAt (fun a => ∑ k ∈ Finset.range n, f k a) x := tendsto_finset_sum _ fun k hk => hf k (Finset.mem_range.mp hk)
  have hM : ContinuousAt (fun a => ∑ k ∈ Finset.range n, |f k a|) x := tendsto_finset_sum _ fun k hk => (hf k (Finset.mem_range.mp hk)).abs
  intro U hU
  obtain ⟨ε, hε, hball⟩ := Metric.mem_nhds_iff.mp hU
  have h1 := sumErr_tendsto (n := n - 1) hM
  have h2 : Tendsto (fun q : (ℝ × ℝ) × α => |(∑ k ∈ Finset.range n, f k q.2) - ∑ k ∈ Finset.range n, f k x|) (𝓝 ((0 : ℝ × ℝ), x)) (𝓝 0) := by
    have h3 : Tendsto (fun q : (ℝ × ℝ) × α => ∑ k ∈ Finset.range n, f k q.2) (𝓝 ((0 : ℝ × ℝ), x)) (𝓝 (∑ k ∈ Finset.range n, f k x)) :=
      hs.tendsto.comp (continuous_snd.tendsto _)
    simpa using (h3.sub_const (∑ k ∈ Finset.range n, f k x)).abs
  have h3 := h1.add h2
  rw [add_zero] at h3
  filter_upwards [h3.eventually (gt_mem_nhds hε)] with q hq r hr
  obtain ⟨y, rfl, hy⟩ := hr
  refine ⟨y, hball ?_, rfl⟩
  rw [Metric.mem_ball, Real.dist_eq]
  have hb := (hy.mono (v := (|q.1.1|, |q.1.2|)) (le_abs_self _) (le_abs_self _)).bound (abs_nonneg _) (abs_nonneg _)
  rw [List.map_map, List.length_map, List.length_range, e, e] at hb
  have := abs_sub_le y (∑ k ∈ Finset.range n, f k q.2) (∑ k ∈ Finset.range n, f k x)
  simp only [Function.comp_def] at hb
  linarith

/-! ## Lists of results -/

theorem All.mapM {ι : Type} {l : List ι} {f : ι → Nd γ} {P : ι → γ → Prop} (h : ∀ a ∈ l, All (f a) fun r => ∃ b, r = .ok b ∧ P a b) :
    All (l.mapM f) fun r => ∃ bs, r = .ok bs ∧ List.Forall₂ P l bs := by
  induction l with
  | nil => rw [List.mapM_nil]; exact All.pure ⟨[], rfl, .nil⟩
  | cons a l ih =>
    rw [List.mapM_cons]
    refine All.bind (h a (by simp)) (by rintro e ⟨b, h, -⟩; cases h) ?_
    rintro b ⟨b', hb, hP⟩
    cases hb
    refine All.bind (ih fun c hc => h c (by simp [hc])) (by rintro e ⟨b, h, -⟩; cases h) ?_
    rintro bs ⟨bs', hb, hPs⟩
    cases hb
    exact All.pure ⟨_, rfl, .cons hP hPs⟩

/-! ## Vectors -/

theorem ConvAt.pi {F : ℝ × ℝ → α → Nd Vec} {x : α} {z : Vec} (h : ∀ k, ∀ U ∈ 𝓝 (z k), ∀ᶠ q in 𝓝 ((0 : ℝ × ℝ), x), All (F q.1 q.2) fun r => ∃ v : Vec, r = .ok v ∧ v k ∈ U) :
    ConvAt F x z := by
  intro U hU
  rw [nhds_pi, Filter.mem_pi'] at hU
  obtain ⟨I, t, ht, hsub⟩ := hU
  have h0 := h 0 Set.univ univ_mem
  have h1 : ∀ᶠ q in 𝓝 ((0 : ℝ × ℝ), x), ∀ k ∈ I, All (F q.1 q.2) fun r => ∃ v : Vec, r = .ok v ∧ v k ∈ t k :=
    (Filter.eventually_all_finset I).mpr fun k _ => h k (t k) (ht k)
  filter_upwards [h0, h1] with q hq0 hq r hr
  obtain ⟨v, rfl, -⟩ := hq0 r hr
  refine ⟨v, hsub fun k hk => ?_, rfl⟩
  obtain ⟨v', e, hv⟩ := hq k (by simpa using hk) _ hr
  cases e
  exact hv

/-- A vector of rounded numbers. -/
def nears (u : ℝ × ℝ) (n : ℕ) (f : Vec) : Nd Vec := fun r => ∃ v : Vec, r = .ok v ∧ (∀ k < n, |v k - f k| ≤ u.1 * |f k| + u.2) ∧ ∀ k, n ≤ k → v k = 0

theorem ConvAt.nears {n : ℕ} {f : α → Vec} {x : α} (hf : ∀ k < n, ContinuousAt (fun a => f a k) x) :
    ConvAt (fun u a => Nd.nears u n (f a)) x fun k => if k < n then f x k else 0 := by
  refine ConvAt.pi fun k U hU => ?_
  by_cases hk : k < n
  · rw [if_pos hk] at hU
    filter_upwards [ConvAt.near (hf k hk) U hU] with q hq r hr
    obtain ⟨v, rfl, h1, -⟩ := hr
    obtain ⟨b, hb, e⟩ := hq (.ok (v k)) ⟨v k, rfl, h1 k hk⟩
    cases e
    exact ⟨v, rfl, hb⟩
  · rw [if_neg hk] at hU
    refine Eventually.of_forall fun q r hr => ?_
    obtain ⟨v, rfl, -, h2⟩ := hr
    exact ⟨v, rfl, by rw [h2 k (by omega)]; exact mem_of_mem_nhds hU⟩

theorem setAt_continuous {i : ℕ} : Continuous fun q : Vec × ℝ => setAt q.1 i q.2 := by
  refine continuous_pi fun k => ?_
  unfold setAt
  by_cases h : k = i
  · simp only [if_pos h]; fun_prop
  · simp only [if_neg h]; fun_prop

theorem setAt_continuousAt {i : ℕ} {f : α → Vec} {g : α → ℝ} {x : α} (hf : ContinuousAt f x) (hg : ContinuousAt g x) : ContinuousAt (fun a => setAt (f a) i (g a)) x :=
  (setAt_continuous (i := i)).continuousAt.comp (hf.prodMk hg)

end GSplines.Nd

namespace GSplines.Rounded

open Nd Filter Topology

theorem dot_sub {u : ℝ × ℝ} {a b : List ℝ} {n : ℕ} (hl : (List.zipWith (· * ·) a b).length = n) {r : Res ℝ} (h : dot u a b r) :
    (nears u n (vecOf (List.zipWith (· * ·) a b)) >>= fun v => Nd.sum u ((List.range n).map v)) r := by
  rcases h with ⟨e, h, rfl⟩ | ⟨p, hp, h⟩
  · obtain ⟨bs, hb, -⟩ := All.mapM (P := fun _ _ => True) (f := near u) (l := List.zipWith (· * ·) a b) (fun x _ r hr => by obtain ⟨y, rfl, -⟩ := hr; exact ⟨y, rfl, trivial⟩) _ h
    cases hb
  · obtain ⟨bs, hb, hF⟩ := All.mapM (P := fun x y => |y - x| ≤ u.1 * |x| + u.2) (f := near u) (l := List.zipWith (· * ·) a b) (fun x _ r hr => hr) _ hp
    cases hb
    have hlen := hF.length_eq
    refine .inr ⟨vecOf p, ⟨vecOf p, rfl, fun k hk => ?_, fun k hk => ?_⟩, ?_⟩
    · have h1 : k < (List.zipWith (· * ·) a b).length := by omega
      have h2 : k < p.length := by omega
      have := (List.forall₂_iff_get.mp hF).2 k h1 h2
      unfold vecOf
      rw [List.getD_eq_getElem?_getD, List.getD_eq_getElem?_getD, List.getElem?_eq_getElem h1, List.getElem?_eq_getElem h2]
      exact this
    · unfold vecOf
      rw [List.getD_eq_getElem?_getD, List.getElem?_eq_none (by omega)]
      rfl
    · have : (List.range n).map (vecOf p) = p := by
        refine List.ext_getElem (by simp; omega) fun k h1 h2 => ?_
        simp only [List.getElem_map, List.getElem_range]
        unfold vecOf
        rw [List.getD_eq_getElem?_getD, List.getElem?_eq_getElem h2]
        rfl
      change Nd.sum u ((List.range n).map (vecOf p)) r
      rw [this]
      exact h

/-- The scalar product. -/
theorem dot_conv {n : ℕ} {seg : List ℝ} (hs : seg.length = n) (buf : Vec) :
    ConvAt (fun u (b : Vec) => dot u seg ((List.range n).map b)) buf (Vec.dot n (vecOf seg) buf) := by
  have e : ∀ b : Vec, ∀ k < n, vecOf (List.zipWith (· * ·) seg ((List.range n).map b)) k = vecOf seg k * b k := by
    intro b k hk
    unfold vecOf
    rw [List.getD_eq_getElem?_getD, List.getD_eq_getElem?_getD, List.getElem?_eq_getElem (by simp; omega), List.getElem?_eq_getElem (by omega)]
    simp
  have h := ConvAt.bind (F := fun u (b : Vec) => nears u n fun k => vecOf seg k * b k) (G := fun u _ v => Nd.sum u ((List.range n).map v)) (x := buf)
    (ConvAt.nears (f := fun (b : Vec) k => vecOf seg k * b k) fun k _ => (continuous_const.mul (continuous_apply k)).continuousAt)
    (ConvAt.sum (n := n) (f := fun k (q : Vec × Vec) => q.2 k) fun k _ => by fun_prop)
  have h' := h.congr (z' := Vec.dot n (vecOf seg) buf) (by
    unfold Vec.dot
    exact Finset.sum_congr rfl fun k hk => if_pos (Finset.mem_range.mp hk))
  intro U hU
  filter_upwards [h' U hU] with q hq r hr
  refine hq r ?_
  rcases dot_sub (n := n) (by simp [hs]) hr with ⟨e', ⟨v, hv, -⟩, rfl⟩ | ⟨v, ⟨v', hv, h1, h2⟩, h3⟩
  · cases hv
  · cases hv
    exact .inr ⟨v, ⟨v, rfl, fun k hk => by have := h1 k hk; rwa [e q.2 k hk] at this, h2⟩, h3⟩

theorem legendreBody_conv (i : ℕ) (s : ℝ) (b : Vec) : ConvAt (fun u (q : ℝ × Vec) => legendreBody u q.1 i q.2) (s, b) (Legendre.recBody s i b) := by
  unfold legendreBody
  refine ConvAt.bind (ConvAt.quot (by fun_prop) (by fun_prop) (by positivity)) ?_
  refine ConvAt.bind (ConvAt.near (by fun_prop)) ?_
  refine ConvAt.bind (ConvAt.near (by fun_prop)) ?_
  refine ConvAt.bind (ConvAt.near (by fun_prop)) ?_
  refine ConvAt.bind (ConvAt.near (by fun_prop)) ?_
  refine ConvAt.bind (ConvAt.near (by fun_prop)) ?_
  exact (ConvAt.pure (setAt_continuousAt (by fun_prop) (by fun_prop))).congr rfl

theorem legendre_conv {d : ℕ} (hd : 2 ≤ d) (s : ℝ) : ConvAt (fun u s => legendre u d s) s (Legendre.values d s) := by
  unfold legendre
  simp only [if_neg (show ¬ d < 2 by omega)]
  have h := ConvAt.foldlM (l := List.range' 1 (d - 1 - 1)) (body := fun u i s b => legendreBody u s i b) (exact := fun i b => Legendre.recBody s i b) (x := s)
    (s := setAt (setAt (fun _ => 0) 0 1) 1 s) fun i _ b => legendreBody_conv i s b
  exact ConvAt.comp (f := fun s : ℝ => (s, setAt (setAt (fun _ => (0 : ℝ)) 0 1) 1 s)) h (continuousAt_id.prodMk (setAt_continuousAt (by fun_prop) (by fun_prop)))

theorem vec6_continuousAt {α : Type} [TopologicalSpace α] {a b c d e f : α → ℝ} {x : α} (ha : ContinuousAt a x) (hb : ContinuousAt b x) (hc : ContinuousAt c x)
    (hd : ContinuousAt d x) (he : ContinuousAt e x) (hf : ContinuousAt f x) : ContinuousAt (fun q => B0101.vec6 (a q) (b q) (c q) (d q) (e q) (f q)) x := by
  refine continuousAt_pi.mpr fun i => ?_
  match i with
  | 0 => exact ha
  | 1 => exact hb
  | 2 => exact hc
  | 3 => exact hd
  | 4 => exact he
  | 5 => exact hf
  | n + 6 => exact continuousAt_const

theorem b0101_conv {a : ℝ} (h1 : a < 1) (tau s : ℝ) : ConvAt (fun u s => b0101 u a s tau) s (B0101.evalOnWindow a s tau) := by
  have hd : (0 : ℝ) < 1 - a := by linarith
  unfold b0101
  refine ConvAt.bind (ConvAt.near (by fun_prop)) ?_
  refine ConvAt.bind (ConvAt.near (by fun_prop)) ?_
  refine ConvAt.bind (ConvAt.near (by fun_prop)) ?_
  refine ConvAt.bind (ConvAt.near (by fun_prop)) ?_
  refine ConvAt.bind (ConvAt.near (by fun_prop)) ?_
  refine ConvAt.bind (ConvAt.near (ContinuousAt.rpow (by fun_prop) (by fun_prop) (.inl (ne_of_gt hd)))) ?_
  refine ConvAt.bind (ConvAt.quot (by fun_prop) (by fun_prop) (ne_of_gt (Real.rpow_pos_of_pos hd _))) ?_
  refine ConvAt.bind (ConvAt.near (by fun_prop)) ?_
  refine ConvAt.bind (ConvAt.near (by fun_prop)) ?_
  refine ConvAt.bind (ConvAt.near (by fun_prop)) ?_
  refine ConvAt.bind (ConvAt.near (by fun_prop)) ?_
  refine ConvAt.bind (ConvAt.near (by fun_prop)) ?_
  refine ConvAt.bind (ConvAt.near (by fun_prop)) ?_
  refine ConvAt.bind (ConvAt.near (by fun_prop)) ?_
  refine ConvAt.bind (ConvAt.quot (by fun_prop) (by fun_prop) (Real.exp_ne_zero _)) ?_
  refine ConvAt.bind (ConvAt.quot (by fun_prop) (by fun_prop) (Real.exp_ne_zero _)) ?_
  exact (ConvAt.pure (vec6_continuousAt (by fun_prop) (by fun_prop) (by fun_prop) (by fun_prop) (by fun_prop) (by fun_prop))).congr rfl

theorem ConvAt.loop {α σ : Type} [TopologicalSpace α] [TopologicalSpace σ] {a b : ℕ} {body : ℝ × ℝ → ℕ → α → σ → Nd σ} {exact : ℕ → σ → σ} {x : α} {s : σ}
    (h : ∀ i, a ≤ i → i < b → ∀ s, ConvAt (fun u (q : α × σ) => body u i q.1 q.2) (x, s) (exact i s)) :
    ConvAt (fun u (q : α × σ) => Nd.loop a b (fun i => body u i q.1) q.2) (x, s) (forLoop a b exact s) := by
  refine ConvAt.foldlM fun i hi s => h i ?_ ?_ s
  · have := List.mem_range'.mp hi; omega
  · have := List.mem_range'.mp hi; omega

/-- A first part whose outcome is decided in the limit. -/
theorem ConvAt.bind_of {α β γ : Type} [TopologicalSpace α] [TopologicalSpace γ] {F : ℝ × ℝ → α → Nd β} {G : ℝ × ℝ → α → β → Nd γ} {x : α} {o : β} {z : γ}
    (hF : Ev F x fun r => r = .ok o) (hG : ConvAt (fun u a => G u a o) x z) : ConvAt (fun u a => F u a >>= G u a) x z := by
  intro U hU
  filter_upwards [hF, hG U hU] with q h1 h2 r hr
  rcases hr with ⟨e, h, rfl⟩ | ⟨b, hb, h⟩
  · cases h1 _ h
  · cases h1 _ hb
    exact h2 _ h

theorem almostEqual_conv (s y : ℝ) (h : s = y ∨ tol9 * (1 + |s|) < |s - y|) : Ev (fun u s => almostEqual u s y tol9) s fun r => r = .ok (decide (s = y)) := by
  have ht : 0 < tol9 := Props.tol9_pos
  unfold almostEqual
  refine Ev.bind (ConvAt.near (by fun_prop)) ?_
  have hd0 : ContinuousAt (fun q : ℝ × ℝ => |q.2|) (s, s - y) := by fun_prop
  have hs0 : ContinuousAt (fun q : ℝ × ℝ => tol9 * |q.1|) (s, s - y) := by fun_prop
  have conv : Tendsto (fun q : (ℝ × ℝ) × (ℝ × ℝ) => q.2) (𝓝 ((0 : ℝ × ℝ), (s, s - y))) (𝓝 (s, s - y)) := by
    rw [nhds_prod_eq (x := (0 : ℝ × ℝ))]; exact tendsto_snd
  have neA := ConvAt.near (x := (s, s - y)) (f := fun q : ℝ × ℝ => tol9 * |q.1|) hs0
  have neB := ConvAt.near (x := (s, s - y)) (f := fun _ : ℝ × ℝ => tol9 * |y|) continuousAt_const
  rcases h with rfl | h
  · have e1 : ∀ᶠ q in 𝓝 ((0 : ℝ × ℝ), (s, s - s)), |q.2.2| < tol9 := conv.eventually (hd0.eventually_lt continuousAt_const (by simpa using ht))
    by_cases hy : |s| < tol9
    · filter_upwards [e1] with q h1 r hr
      rw [if_pos (.inr hy)] at hr
      rw [show r = _ from hr]; simp [h1]
    · push Not at hy
      have hy0 : 0 < tol9 * |s| := by nlinarith
      have e2 : ∀ᶠ q in 𝓝 ((0 : ℝ × ℝ), (s, s - s)), |q.2.2| < tol9 * |s| / 2 := conv.eventually (hd0.eventually_lt continuousAt_const (by simpa using hy0))
      filter_upwards [e1, e2, neA _ (Ioi_mem_nhds (show tol9 * |s| / 2 < tol9 * |s| by linarith)), neB _ (Ioi_mem_nhds (show tol9 * |s| / 2 < tol9 * |s| by linarith))] with q h1 h2 h3 h4 r hr
      split_ifs at hr with hb
      · rw [show r = _ from hr]; simp [h1]
      · rcases hr with ⟨e, he, -⟩ | ⟨ea, hea, hr⟩
        · obtain ⟨_, _, h⟩ := h3 _ he; cases h
        rcases hr with ⟨e, he, -⟩ | ⟨eb, heb, hr⟩
        · obtain ⟨_, _, h⟩ := h4 _ he; cases h
        obtain ⟨_, h3, h⟩ := h3 _ hea; cases h
        obtain ⟨_, h4, h⟩ := h4 _ heb; cases h
        rw [show r = _ from hr]
        simp only [Set.mem_Ioi] at h3 h4
        simp [h2.trans h3, h2.trans h4]
  · have hne : s ≠ y := by rintro rfl; simp at h; nlinarith [abs_nonneg s]
    have h1 : tol9 < |s - y| := by nlinarith [abs_nonneg s]
    have h2 : tol9 * |s| < |s - y| := by nlinarith [abs_nonneg s]
    obtain ⟨m, hm1, hm2⟩ := exists_between h2
    have e1 : ∀ᶠ q in 𝓝 ((0 : ℝ × ℝ), (s, s - y)), tol9 < |q.2.2| := conv.eventually (continuousAt_const.eventually_lt hd0 h1)
    have e2 : ∀ᶠ q in 𝓝 ((0 : ℝ × ℝ), (s, s - y)), m < |q.2.2| := conv.eventually (continuousAt_const.eventually_lt hd0 hm2)
    filter_upwards [e1, e2, neA _ (Iio_mem_nhds hm1), neB _ univ_mem] with q h1 h2 h3 h4 r hr
    split_ifs at hr with hb
    · rw [show r = _ from hr]; simp [h1.le, hne]
    · rcases hr with ⟨e, he, -⟩ | ⟨ea, hea, hr⟩
      · obtain ⟨_, _, h⟩ := h3 _ he; cases h
      rcases hr with ⟨e, he, -⟩ | ⟨eb, heb, hr⟩
      · obtain ⟨_, _, h⟩ := h4 _ he; cases h
      obtain ⟨_, h3, h⟩ := h3 _ hea; cases h
      rw [show r = _ from hr]
      simp only [Set.mem_Iio] at h3
      simp [hne, (h3.trans h2).le.not_gt]

theorem findNode_conv (x : Vec) (s : ℝ) (l : List ℕ) (h : ∀ j ∈ l, s = x j ∨ tol9 * (1 + |s|) < |s - x j|) :
    Ev (fun u s => findNode u x s l) s fun r => r = .ok (l.find? fun j => decide (s = x j)) := by
  induction l with
  | nil => exact Eventually.of_forall fun q r hr => hr
  | cons j js ih =>
    have h1 := almostEqual_conv s (x j) (h j (by simp))
    have h2 := ih fun k hk => h k (by simp [hk])
    filter_upwards [h1, h2] with q h1 h2 r hr
    unfold findNode at hr
    rcases hr with ⟨e, he, -⟩ | ⟨b, hb, hr⟩
    · cases h1 _ he
    · cases h1 _ hb
      by_cases hs : s = x j
      · simp only [hs, decide_true, if_true] at hr
        rw [List.find?_cons_of_pos (by simpa using hs)]
        exact hr
      · simp only [hs, decide_false, Bool.false_eq_true, if_false] at hr
        rw [List.find?_cons_of_neg (by simpa using hs)]
        exact h2 r hr

theorem baryStep_conv (x : Vec) (j k : ℕ) (r : Vec) : ConvAt (fun u (q : Unit × Vec) => baryStep u x j k q.2) ((), r)
    (setAt (setAt r k (r k * (x k - x j))) j (setAt r k (r k * (x k - x j)) j * (x j - x k))) := by
  unfold baryStep
  refine ConvAt.bind (ConvAt.near (by fun_prop)) ?_
  refine ConvAt.bind (ConvAt.near (by fun_prop)) ?_
  refine ConvAt.bind (ConvAt.near (by fun_prop)) ?_
  have e : ∀ q : ((( Unit × Vec) × ℝ) × ℝ) × ℝ, ContinuousAt (fun q : (((Unit × Vec) × ℝ) × ℝ) × ℝ => setAt q.1.1.1.2 k q.1.2 j) q := fun q =>
    (continuous_apply j).continuousAt.comp (setAt_continuousAt (by fun_prop) (by fun_prop))
  refine ConvAt.bind (ConvAt.near ((e _).mul (by fun_prop))) ?_
  exact (ConvAt.pure (setAt_continuousAt (setAt_continuousAt (by fun_prop) (by fun_prop)) (by fun_prop))).congr rfl

/-- The exact weights, as the loop writes them. -/
noncomputable def exactW (n : ℕ) (x : Vec) : Vec := forLoop 0 n (fun k w => setAt w k (1 / Lagrange.baryProducts n x k)) fun _ => 0

theorem fill_loop {n : ℕ} {f : Vec} {k : ℕ} (hk : k < n) : forLoop 0 n (fun k w => setAt w k (f k)) (fun _ => (0 : ℝ)) k = f k := by
  have := forLoop_ind (fun J (w : Vec) => ∀ k < J, w k = f k) (Nat.zero_le n) (fun k w => setAt w k (f k)) (fun _ => (0 : ℝ)) (fun k hk => by omega)
    fun i st _ _ hP k hk => by
      unfold setAt
      split_ifs with h
      · rw [h]
      · exact hP k (by omega)
  exact this k hk

theorem exactW_eq {n : ℕ} {x : Vec} {k : ℕ} (hk : k < n) : exactW n x k = Lagrange.baryWeights n x k := fill_loop (f := fun k => 1 / Lagrange.baryProducts n x k) hk

theorem products_ne_zero {n : ℕ} {x : Vec} (h : Lagrange.Distinct n x) {k : ℕ} (hk : k < n) : Lagrange.baryProducts n x k ≠ 0 := by
  have := Lagrange.baryWeights_ne_zero h hk
  unfold Lagrange.baryWeights at this
  intro e
  rw [e] at this
  simp at this

theorem baryWeights_conv {α : Type} [TopologicalSpace α] {n : ℕ} {x : Vec} (h : Lagrange.Distinct n x) (a : α) :
    ConvAt (fun u (_ : α) => baryWeights u n x) a (exactW n x) := by
  have h1 := ConvAt.loop (a := 1) (b := n) (α := Unit) (σ := Vec) (body := fun u j _ r => Nd.loop 0 j (fun k r => baryStep u x j k r) r)
    (exact := fun j r => forLoop 0 j (fun k r => setAt (setAt r k (r k * (x k - x j))) j (setAt r k (r k * (x k - x j)) j * (x j - x k))) r) (x := ()) (s := fun _ => 1)
    fun j _ _ s => ConvAt.loop (a := 0) (b := j) (α := Unit) (body := fun u k _ r => baryStep u x j k r) fun k _ _ r => baryStep_conv x j k r
  have h1' : ConvAt (fun u (_ : α) => Nd.loop 1 n (fun j r => Nd.loop 0 j (fun k r => baryStep u x j k r) r) fun _ => 1) a (Lagrange.baryProducts n x) :=
    ConvAt.comp (f := fun _ : α => ((), fun _ => (1 : ℝ))) h1 continuousAt_const
  unfold baryWeights
  refine ConvAt.bind h1' ?_
  have h2 := ConvAt.loop (a := 0) (b := n) (α := α × Vec) (σ := Vec) (body := fun u k q (w : Vec) => do
      let q ← quot u 1 (q.2 k)
      return setAt w k q) (exact := fun k w => setAt w k (1 / Lagrange.baryProducts n x k)) (x := (a, Lagrange.baryProducts n x)) (s := fun _ => 0)
    fun k _ hk s => ConvAt.bind (ConvAt.quot (by fun_prop) (by fun_prop) (products_ne_zero h hk)) ((ConvAt.pure (setAt_continuousAt (by fun_prop) (by fun_prop))).congr rfl)
  exact ConvAt.comp (x := (a, Lagrange.baryProducts n x)) (f := fun q : α × Vec => (q, fun _ => (0 : ℝ))) h2 (by fun_prop)

/-- The state after the first loop of the barycentric formula. -/
theorem book_loop {n : ℕ} {x : Vec} (h : Lagrange.Distinct n x) {s : ℝ} (hs : ∀ j < n, s ≠ x j) {st : Vec × ℝ}
    (hst : forLoop 0 n (fun j (st : Vec × ℝ) => (setAt st.1 j (exactW n x j / (s - x j)), st.2 + exactW n x j / (s - x j))) ((fun _ => 0), 0) = st) :
    (∀ j < n, st.1 j / st.2 = (_root_.Lagrange.basis (Finset.range n) x j).eval s) ∧ ∀ j < n, st.2 ≠ 0 := by
  have key := forLoop_ind (fun J (st : Vec × ℝ) => J ≤ n → (∀ j < J, st.1 j = Lagrange.baryWeights n x j / (s - x j)) ∧ st.2 = ∑ j ∈ Finset.range J, Lagrange.baryWeights n x j / (s - x j))
    (Nat.zero_le n) (fun j st => (setAt st.1 j (exactW n x j / (s - x j)), st.2 + exactW n x j / (s - x j))) ((fun _ => 0), 0) (fun _ => ⟨fun j hj => by omega, by simp⟩)
    (fun i st _ hi hP _ => by
      obtain ⟨p1, p2⟩ := hP (by omega)
      refine ⟨fun j hj => ?_, ?_⟩
      · simp only [setAt]
        split_ifs with e
        · rw [e, exactW_eq hi]
        · exact p1 j (by omega)
      · simp only
        rw [Finset.sum_range_succ, p2, exactW_eq hi])
  obtain ⟨k1, k2⟩ := key le_rfl
  rw [hst] at k1 k2
  refine ⟨fun j hj => ?_, ?_⟩
  · rw [k1 j hj, k2]
    exact Lagrange.bary_eq_card h hs hj
  · intro j hj e
    have := Finset.sum_congr rfl fun j hj => Lagrange.bary_eq_card h hs (Finset.mem_range.mp hj)
    rw [← k2, e] at this
    simp only [div_zero, Finset.sum_const_zero] at this
    have h' := congrArg (Polynomial.eval s) (_root_.Lagrange.sum_basis (s := Finset.range n) (v := x) h ⟨j, Finset.mem_range.mpr hj⟩)
    rw [Polynomial.eval_finsetSum, ← this] at h'
    simp at h'

theorem baryFormula_conv {n : ℕ} {x : Vec} (h : Lagrange.Distinct n x) {s : ℝ} (hs : ∀ j < n, s ≠ x j) :
    ∃ v : Vec, ConvAt (fun u (q : ℝ × Vec) => baryFormula u n x q.2 q.1) (s, exactW n x) v ∧ ∀ j < n, v j = (_root_.Lagrange.basis (Finset.range n) x j).eval s := by
  have h1 := ConvAt.loop (a := 0) (b := n) (α := ℝ × Vec) (σ := Vec × ℝ) (body := fun u j q st => do
      let d ← near u (q.1 - x j)
      let t ← quot u (q.2 j) d
      let sb ← near u (st.2 + t)
      return (setAt st.1 j t, sb)) (exact := fun j st => (setAt st.1 j (exactW n x j / (s - x j)), st.2 + exactW n x j / (s - x j))) (x := (s, exactW n x)) (s := ((fun _ => 0), 0))
    fun j _ hj st => by
      refine ConvAt.bind (ConvAt.near (by fun_prop)) ?_
      refine ConvAt.bind (ConvAt.quot (by fun_prop) (by fun_prop) (sub_ne_zero.mpr (hs j hj))) ?_
      refine ConvAt.bind (ConvAt.near (by fun_prop)) ?_
      exact (ConvAt.pure (ContinuousAt.prodMk (setAt_continuousAt (by fun_prop) (by fun_prop)) (by fun_prop))).congr rfl
  generalize hst : forLoop 0 n (fun j (st : Vec × ℝ) => (setAt st.1 j (exactW n x j / (s - x j)), st.2 + exactW n x j / (s - x j))) ((fun _ => 0), 0) = st at h1
  obtain ⟨k1, hne⟩ := book_loop h hs hst
  have h2 := ConvAt.loop (a := 0) (b := n) (α := (ℝ × Vec) × (Vec × ℝ)) (σ := Vec) (body := fun u j q (v : Vec) => do
      let q ← quot u (q.2.1 j) q.2.2
      return setAt v j q) (exact := fun j v => setAt v j (st.1 j / st.2)) (x := ((s, exactW n x), st)) (s := fun _ => 0)
    fun j _ hj v => ConvAt.bind (ConvAt.quot (by fun_prop) (by fun_prop) (hne j hj)) ((ConvAt.pure (setAt_continuousAt (by fun_prop) (by fun_prop))).congr rfl)
  refine ⟨forLoop 0 n (fun j v => setAt v j (st.1 j / st.2)) fun _ => 0, ?_, fun j hj => ?_⟩
  · unfold baryFormula
    refine ConvAt.bind (ConvAt.comp (x := (s, exactW n x)) (f := fun q : ℝ × Vec => (q, (((fun _ => 0), 0) : Vec × ℝ))) h1 (by fun_prop)) ?_
    exact ConvAt.comp (x := ((s, exactW n x), st)) (f := fun q : (ℝ × Vec) × (Vec × ℝ) => (q, fun _ => (0 : ℝ))) h2 (by fun_prop)
  · rw [fill_loop (f := fun j => st.1 j / st.2) hj, k1 j hj]

theorem lagrange_conv {n : ℕ} {x : Vec} (h : Lagrange.Distinct n x) {s : ℝ} (hs : ∀ j < n, s = x j ∨ tol9 * (1 + |s|) < |s - x j|) :
    ∃ v : Vec, ConvAt (fun u (q : ℝ × Vec) => lagrange u n x q.2 q.1) (s, exactW n x) v ∧ ∀ j < n, v j = (_root_.Lagrange.basis (Finset.range n) x j).eval s := by
  have hf := Ev.comp (x := (s, exactW n x)) (f := fun q : ℝ × Vec => q.1) (findNode_conv x s (List.range n) fun j hj => hs j (List.mem_range.mp hj)) (by fun_prop)
  unfold lagrange
  cases hfind : (List.range n).find? fun j => decide (s = x j) with
  | some j0 =>
    rw [hfind] at hf
    have hsx : s = x j0 := by simpa using List.find?_some hfind
    have hj0 : j0 < n := by simpa using List.mem_of_find?_eq_some hfind
    refine ⟨_, ConvAt.bind_of hf (ConvAt.pure (f := fun _ : ℝ × Vec => setAt (fun _ => 0) j0 1) continuousAt_const), fun j hj => ?_⟩
    simp only [setAt]
    rw [hsx]
    split_ifs with hjj
    · subst hjj
      exact (_root_.Lagrange.eval_basis_self h (Finset.mem_range.mpr hj0)).symm
    · exact (_root_.Lagrange.eval_basis_of_ne hjj (Finset.mem_range.mpr hj0)).symm
  | none =>
    rw [hfind] at hf
    have hne : ∀ k < n, s ≠ x k := fun k hk e => by simpa [e] using List.find?_eq_none.mp hfind k (by simpa using hk)
    obtain ⟨v, hv, hv'⟩ := baryFormula_conv h hne
    exact ⟨v, ConvAt.bind_of hf hv, hv'⟩

end GSplines.Rounded
