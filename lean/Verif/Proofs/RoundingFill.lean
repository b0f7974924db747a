import Verif.Proofs.RoundingDeriv

/-!
# The interpolation matrix with rounded arithmetic
-/

namespace GSplines

namespace Nd

/-- Each outcome is a value with `P` or an error with `E`. -/
def Out {α : Type} (E : Err → Prop) (P : α → Prop) (r : Res α) : Prop := (∃ e, E e ∧ r = .error e) ∨ ∃ a, P a ∧ r = .ok a

theorem Out.bind {α β : Type} {E : Err → Prop} {P : α → Prop} {Q : β → Prop} {p : Nd α} {f : α → Nd β} (h : All p (Out E P)) (hf : ∀ a, P a → All (f a) (Out E Q)) :
    All (p >>= f) (Out E Q) := by
  refine All.bind h (fun e he => ?_) fun a ha => ?_
  · rcases he with ⟨e', h1, h2⟩ | ⟨a, -, h2⟩
    · cases h2; exact .inl ⟨_, h1, rfl⟩
    · cases h2
  · rcases ha with ⟨e', -, h2⟩ | ⟨a, h1, h2⟩
    · cases h2
    · cases h2; exact hf _ h1

theorem Out.pure {α : Type} {E : Err → Prop} {P : α → Prop} {a : α} (h : P a) : All (Pure.pure a) (Out E P) := All.pure (.inr ⟨a, h, rfl⟩)

theorem Out.lift {α : Type} {E : Err → Prop} {P : α → Prop} {a : α} (h : P a) : All (Nd.lift (.ok a)) (Out E P) := by
  rintro r rfl; exact .inr ⟨a, h, rfl⟩

/-- A loop whose body has a choice in each turn. -/
theorem loop_choice {σ β : Type} [Inhabited β] {E : Err → Prop} {body : ℕ → σ → Nd σ} {f : ℕ → β → σ → σ} {Good : ℕ → β → Prop} {a b : ℕ}
    (H : ∀ i s, a ≤ i → i < b → All (body i s) (Out E fun s' => ∃ x, Good i x ∧ s' = f i x s)) (s : σ) :
    All (Nd.loop a b body s) (Out E fun s' => ∃ X : ℕ → β, (∀ i, a ≤ i → i < b → Good i (X i)) ∧ s' = forLoop a b (fun i => f i (X i)) s) := by
  unfold Nd.loop forLoop
  have key : ∀ (l : List ℕ), l.Nodup → (∀ i ∈ l, a ≤ i ∧ i < b) → ∀ s, All (l.foldlM (fun st i => body i st) s)
      (Out E fun s' => ∃ X : ℕ → β, (∀ i ∈ l, Good i (X i)) ∧ s' = l.foldl (fun st i => f i (X i) st) s) := by
    intro l
    induction l with
    | nil => exact fun _ _ s => Out.pure ⟨fun _ => default, by simp, rfl⟩
    | cons i l ih =>
      intro hn hl s
      rw [List.foldlM_cons]
      refine Out.bind (H i s (hl i (by simp)).1 (hl i (by simp)).2) ?_
      rintro s' ⟨x, hx, rfl⟩
      refine All.mono (ih (List.nodup_cons.mp hn).2 (fun j hj => hl j (by simp [hj])) _) ?_
      rintro r (h | ⟨q, ⟨X, hX, rfl⟩, rfl⟩)
      · exact .inl h
      · have hi := (List.nodup_cons.mp hn).1
        refine .inr ⟨_, ⟨fun j => if j = i then x else X j, fun j hj => ?_, ?_⟩, rfl⟩
        · by_cases e : j = i
          · subst e; simpa using hx
          · simpa [e] using hX j (by simpa [e] using hj)
        · rw [List.foldl_cons]
          simp only [if_true]
          refine List.foldl_ext _ _ _ fun st j hj => ?_
          rw [if_neg (fun e : j = i => hi (by rw [← e]; exact hj))]
  refine All.mono (key _ (List.nodup_range' (h := by norm_num)) (fun i hi => by rw [List.mem_range'_1] at hi; omega) s) ?_
  rintro r (h | ⟨q, ⟨X, hX, rfl⟩, rfl⟩)
  · exact .inl h
  · exact .inr ⟨_, ⟨X, fun i h1 h2 => hX i (by rw [List.mem_range'_1]; omega), rfl⟩, rfl⟩

end Nd

namespace Rounded

open Nd Spec Interp Topology Filter

/-- The step for a middle interval, given its buffers. -/
def midX (D c : ℕ) (X : (Vec × Mat) × (Vec × Mat)) (st : Mat × ℕ × ℕ) : Mat × ℕ × ℕ :=
  (contBlock D c (st.2.1 + c * (D - 2) + c + c) st.2.2 false X.2.2 (posBlock D c (st.2.1 + c * (D - 2) + c) st.2.2 X.2.1
    (posBlock D c (st.2.1 + c * (D - 2)) st.2.2 X.1.1 (contBlock D c st.2.1 st.2.2 true X.1.2 st.1))), st.2.1 + c * (D - 2) + c + c, st.2.2 + c * D)

theorem fillMatrix_out {E : Err → Prop} {G : ℝ → ℕ → Vec × Mat → Prop} {u : ℝ × ℝ} {b : Basis} {c n : ℕ} {tau : List ℝ}
    (H : ∀ iv < n, ∀ s, s = -1 ∨ s = 1 → All (fillBuffers u b s (vecOf tau iv)) (Out E (G s iv))) (hn : 0 < n) (hl : tau.length = n) (m : Mat) :
    All (fillMatrix u b c n tau m) (Out E fun m' => ∃ B : Bufs, (∀ iv < n, G (-1) iv (B.pl iv, B.dl iv) ∧ G 1 iv (B.pr iv, B.dr iv)) ∧ m' = fillP b.dim c n B m) := by
  unfold fillMatrix
  rw [if_neg (not_not.mpr hl), rd_ok (show 0 < tau.length by omega)]
  refine Out.bind (Out.lift (P := fun t => t = vecOf tau 0) rfl) fun t ht => ?_
  subst ht
  refine Out.bind (H 0 hn (-1) (.inl rfl)) fun l0 hl0 => ?_
  refine Out.bind (H 0 hn 1 (.inr rfl)) fun r0 hr0 => ?_
  unfold fillP
  by_cases h1 : n = 1
  · simp only [if_pos h1]
    refine Out.pure ⟨⟨fun _ => l0.1, fun _ => l0.2, fun _ => r0.1, fun _ => r0.2⟩, fun iv hiv => ?_, rfl⟩
    obtain rfl : iv = 0 := by omega
    exact ⟨hl0, hr0⟩
  · simp only [if_neg h1]
    refine Out.bind (loop_choice (β := (Vec × Mat) × (Vec × Mat)) (E := E) (f := fun _ => midX b.dim c)
      (Good := fun iv X => G (-1) iv X.1 ∧ G 1 iv X.2) (fun iv st h1 h2 => ?_) _) ?_
    · unfold middle
      rw [rd_ok (show iv < tau.length by omega)]
      refine Out.bind (Out.lift (P := fun t => t = vecOf tau iv) rfl) fun t ht => ?_
      subst ht
      refine Out.bind (H iv (by omega) (-1) (.inl rfl)) fun l hl' => ?_
      refine Out.bind (H iv (by omega) 1 (.inr rfl)) fun r hr' => ?_
      exact Out.pure ⟨(l, r), ⟨hl', hr'⟩, rfl⟩
    · rintro st ⟨X, hX, rfl⟩
      unfold final
      rw [rd_ok (show n - 1 < tau.length by omega)]
      refine Out.bind (Out.lift (P := fun t => t = vecOf tau (n - 1)) rfl) fun t ht => ?_
      subst ht
      refine Out.bind (H (n - 1) (by omega) (-1) (.inl rfl)) fun l hl' => ?_
      refine Out.bind (H (n - 1) (by omega) 1 (.inr rfl)) fun r hr' => ?_
      have hn1 : n - 1 ≠ 0 := by omega
      refine Out.pure ⟨⟨fun iv => if iv = 0 then l0.1 else if iv = n - 1 then l.1 else (X iv).1.1, fun iv => if iv = 0 then l0.2 else if iv = n - 1 then l.2 else (X iv).1.2,
        fun iv => if iv = 0 then r0.1 else if iv = n - 1 then r.1 else (X iv).2.1, fun iv => if iv = 0 then r0.2 else if iv = n - 1 then r.2 else (X iv).2.2⟩, fun iv hiv => ?_, ?_⟩
      · by_cases e0 : iv = 0
        · subst e0; simp only [if_true]; exact ⟨hl0, hr0⟩
        · by_cases e1 : iv = n - 1
          · subst e1; simp only [if_neg hn1, if_true]; exact ⟨hl', hr'⟩
          · simp only [if_neg e0, if_neg e1]; exact hX iv (by omega) (by omega)
      · obtain ⟨B, hB⟩ : ∃ B : Bufs, B = ⟨fun iv => if iv = 0 then l0.1 else if iv = n - 1 then l.1 else (X iv).1.1,
          fun iv => if iv = 0 then l0.2 else if iv = n - 1 then l.2 else (X iv).1.2, fun iv => if iv = 0 then r0.1 else if iv = n - 1 then r.1 else (X iv).2.1,
          fun iv => if iv = 0 then r0.2 else if iv = n - 1 then r.2 else (X iv).2.2⟩ := ⟨_, rfl⟩
        have b0 : B.pl 0 = l0.1 ∧ B.dl 0 = l0.2 ∧ B.pr 0 = r0.1 ∧ B.dr 0 = r0.2 := by subst hB; exact ⟨rfl, rfl, rfl, rfl⟩
        have b1 : B.pl (n - 1) = l.1 ∧ B.dl (n - 1) = l.2 ∧ B.pr (n - 1) = r.1 ∧ B.dr (n - 1) = r.2 := by subst hB; simp [hn1]
        have b2 : ∀ iv, 1 ≤ iv → iv < n - 1 → ((B.pl iv, B.dl iv), (B.pr iv, B.dr iv)) = X iv := fun iv h2 h3 => by
          subst hB; simp [show iv ≠ 0 by omega, show iv ≠ n - 1 by omega]
        rw [← hB]
        rw [forLoop_congr (f := fun iv (st : Mat × ℕ × ℕ) => (midM b.dim c st.2.1 st.2.2 iv B st.1, st.2.1 + c * (b.dim - 2) + c + c, st.2.2 + c * b.dim))
          (g := fun iv => midX b.dim c (X iv)) (fun iv st h2 h3 => by rw [← b2 iv h2 h3]; rfl)]
        unfold finM firstM
        rw [b0.1, b0.2.1, b0.2.2.1, b0.2.2.2, b1.1, b1.2.1, b1.2.2.1, b1.2.2.2]

/-- The buffers hold the exact values up to `δ`. -/
def BufNear (b : Basis) (δ s tau : ℝ) (q : Vec × Mat) : Prop :=
  (∀ k < b.dim, |q.1 k - b.ev s tau 0 k| ≤ δ) ∧ ∀ k < b.dim, ∀ j < b.dim - 2, |q.2 k j - b.ev s tau (j + 1) k| ≤ δ

theorem columns_loop (N : ℕ) (z : ℕ → Vec) (k j : ℕ) (hj : j < N) :
    forLoop 0 N (fun j (m : Mat) => fun k j' => if j' = j then z j k else m k j') Mat.zero k j = z j k := by
  have := forLoop_ind (fun J (m : Mat) => ∀ k, ∀ j < J, m k j = z j k) (Nat.zero_le N) (fun j (m : Mat) => fun k j' => if j' = j then z j k else m k j') Mat.zero
    (fun k j hj => by omega) fun i m _ _ hP k j hj => by
      by_cases e : j = i
      · subst e; simp
      · simp only [if_neg e]; exact hP k j (by omega)
  exact this k j hj

theorem fillBuffers_near {b : Basis} {h : ℕ} (hb : Usable b h) {s tau : ℝ} (ht : tau ≠ 0) (hc : Clear b s) (hc' : b.CleanAt s) {δ : ℝ} (hδ : 0 < δ) :
    ∀ᶠ u in 𝓝 (0 : ℝ × ℝ), All (fillBuffers u b s tau) (Out (fun _ => False) (BufNear b δ s tau)) := by
  obtain ⟨z0, c0, e0⟩ := evalDeriv_conv hb.valid ht (hb.order (Nat.zero_le _)) hc hc'
  have hz : ∀ j, ∃ z : Vec, j < b.dim - 2 → ConvAt (fun u (_ : Unit) => evalDerivOnWindow u b s tau (j + 1)) () z ∧ ∀ k < b.dim, z k = b.ev s tau (j + 1) k := by
    intro j
    by_cases hj : j < b.dim - 2
    · obtain ⟨z, h1, h2⟩ := evalDeriv_conv hb.valid ht (hb.order (show j + 1 ≤ b.dim - 2 by omega)) hc hc'
      exact ⟨z, fun _ => ⟨h1, h2⟩⟩
    · exact ⟨fun _ => 0, fun h => absurd h hj⟩
  choose z hz using hz
  have hl := ConvAt.loop (a := 0) (b := b.dim - 2) (α := Unit) (σ := Mat) (body := fun u j _ (m : Mat) => do
      let v ← evalDerivOnWindow u b s tau (j + 1)
      return fun k j' => if j' = j then v k else m k j') (exact := fun j m => fun k j' => if j' = j then z j k else m k j') (x := ()) (s := Mat.zero)
    fun j _ hj m => by
      refine ConvAt.bind (ConvAt.comp (x := ((), m)) (f := fun _ : Unit × Mat => ()) (hz j hj).1 continuousAt_const) ?_
      refine ConvAt.pure (f := fun (q : (Unit × Mat) × Vec) k j' => if j' = j then q.2 k else q.1.2 k j') ?_
      refine continuousAt_pi.mpr fun k => continuousAt_pi.mpr fun j' => ?_
      split_ifs
      · fun_prop
      · fun_prop
  have key : ConvAt (fun u (_ : Unit) => fillBuffers u b s tau) () (z0, forLoop 0 (b.dim - 2) (fun j (m : Mat) => fun k j' => if j' = j then z j k else m k j') Mat.zero) := by
    unfold fillBuffers
    refine ConvAt.bind c0 (ConvAt.bind (ConvAt.comp (x := ((), z0)) (f := fun q : Unit × Vec => ((), Mat.zero)) hl continuousAt_const) ?_)
    exact ConvAt.pure (f := fun q : (Unit × Vec) × Mat => (q.1.2, q.2)) (by fun_prop)
  have hU : {q : Vec × Mat | BufNear b δ s tau q} ∈ 𝓝 (z0, forLoop 0 (b.dim - 2) (fun j (m : Mat) => fun k j' => if j' = j then z j k else m k j') Mat.zero) := by
    have h1 : ∀ᶠ q : Vec × Mat in 𝓝 (z0, forLoop 0 (b.dim - 2) (fun j (m : Mat) => fun k j' => if j' = j then z j k else m k j') Mat.zero),
        ∀ k ∈ Finset.range b.dim, |q.1 k - b.ev s tau 0 k| < δ := by
      refine (Filter.eventually_all_finset _).mpr fun k hk => ?_
      have hcont : ContinuousAt (fun q : Vec × Mat => |q.1 k - b.ev s tau 0 k|) (z0, forLoop 0 (b.dim - 2) (fun j (m : Mat) => fun k j' => if j' = j then z j k else m k j') Mat.zero) := by
        fun_prop
      refine hcont.eventually_lt continuousAt_const ?_
      change |z0 k - b.ev s tau 0 k| < δ
      rw [e0 k (Finset.mem_range.mp hk)]
      simpa using hδ
    have h2 : ∀ᶠ q : Vec × Mat in 𝓝 (z0, forLoop 0 (b.dim - 2) (fun j (m : Mat) => fun k j' => if j' = j then z j k else m k j') Mat.zero),
        ∀ k ∈ Finset.range b.dim, ∀ j ∈ Finset.range (b.dim - 2), |q.2 k j - b.ev s tau (j + 1) k| < δ := by
      refine (Filter.eventually_all_finset _).mpr fun k hk => (Filter.eventually_all_finset _).mpr fun j hj => ?_
      have hcont : ContinuousAt (fun q : Vec × Mat => |q.2 k j - b.ev s tau (j + 1) k|) (z0, forLoop 0 (b.dim - 2) (fun j (m : Mat) => fun k j' => if j' = j then z j k else m k j') Mat.zero) := by
        fun_prop
      refine hcont.eventually_lt continuousAt_const ?_
      change |forLoop 0 (b.dim - 2) (fun j (m : Mat) => fun k j' => if j' = j then z j k else m k j') Mat.zero k j - b.ev s tau (j + 1) k| < δ
      rw [columns_loop _ _ _ _ (Finset.mem_range.mp hj), (hz j (Finset.mem_range.mp hj)).2 k (Finset.mem_range.mp hk)]
      simpa using hδ
    filter_upwards [h1, h2] with q h1 h2
    exact ⟨fun k hk => (h1 k (Finset.mem_range.mpr hk)).le, fun k hk j hj => (h2 k (Finset.mem_range.mpr hk) j (Finset.mem_range.mpr hj)).le⟩
  have e : Tendsto (fun u : ℝ × ℝ => (u, ())) (𝓝 (0 : ℝ × ℝ)) (𝓝 ((0 : ℝ × ℝ), ())) := Continuous.tendsto (by fun_prop) _
  filter_upwards [e.eventually (key _ hU)] with u hu r hr
  obtain ⟨q, hq, rfl⟩ := hu r hr
  exact .inr ⟨q, hq, rfl⟩

theorem upd_near {a len : ℕ} {F G f g : ℕ → ℝ} {δ : ℝ} (h : ∀ k < len, |F k - G k| ≤ δ) (h' : ∀ k, |f k - g k| ≤ δ) (k : ℕ) :
    |upd a len F f k - upd a len G g k| ≤ δ := by
  unfold upd
  split_ifs with hk
  · exact h _ (by omega)
  · exact h' k

theorem over_near {b : Basis} {h n c : ℕ} (hb : Usable b h) (hn : 0 < n) {tau : Vec} {δ : ℝ} (hδ : 0 ≤ δ) {B : Bufs}
    (hB : ∀ iv < n, BufNear b δ (-1) (tau iv) (B.pl iv, B.dl iv) ∧ BufNear b δ 1 (tau iv) (B.pr iv, B.dr iv)) (x : Cond n c h) (k : ℕ) :
    |over B x (fun _ => 0) k - over (bufs b tau) x (fun _ => 0) k| ≤ δ := by
  have hd := hb.dim
  have h0 : ∀ k : ℕ, |(fun _ : ℕ => (0 : ℝ)) k - (fun _ : ℕ => (0 : ℝ)) k| ≤ δ := fun k => by simpa using hδ
  have hl : ∀ iv < n, ∀ j < b.dim - 2, ∀ k < 2 * h + 2, |B.dl iv k j - (bufs b tau).dl iv k j| ≤ δ := fun iv hiv j hj k hk => by
    have := (hB iv hiv).1.2 k (by omega) j hj
    simpa only [bufs, if_pos hj] using this
  have hr : ∀ iv < n, ∀ j < b.dim - 2, ∀ k < 2 * h + 2, |B.dr iv k j - (bufs b tau).dr iv k j| ≤ δ := fun iv hiv j hj k hk => by
    have := (hB iv hiv).2.2 k (by omega) j hj
    simpa only [bufs, if_pos hj] using this
  cases x with
  | start iv comp => exact upd_near (fun k hk => (hB iv iv.2).1.1 k (by omega)) h0 k
  | stop iv comp => exact upd_near (fun k hk => (hB iv iv.2).2.1 k (by omega)) h0 k
  | restL comp j => exact upd_near (fun k hk => hl 0 hn j (by have := j.2; omega) k hk) h0 k
  | restR comp j => exact upd_near (fun k hk => hr (n - 1) (by omega) j (by have := j.2; omega) k hk) h0 k
  | join iv comp j =>
    have := iv.2
    have := j.2
    have h1 := fun k => upd_near (a := iv * (c * (2 * h + 2)) + (2 * h + 2) * comp) (fun k hk => hr iv (by omega) j (by omega) k hk) h0 k
    simp only [over]
    refine upd_near (fun k hk => ?_) h1 k
    rw [← mul_sub, abs_mul]
    simpa using hl (iv + 1) (by omega) j (by omega) k hk

/-- The matrix with rounding: still clean, and its entries tend to those of the system. -/
theorem fillMatrix_near {b : Basis} {h n c : ℕ} (hb : Usable b h) (hcl : Clear b (-1)) (hcr : Clear b 1) (hn : 0 < n) {tau : List ℝ} (hl : tau.length = n)
    (ht : ∀ i < n, vecOf tau i ≠ 0) {A : Mat} (S : System b h n c (vecOf tau) A) {δ : ℝ} (hδ : 0 < δ) :
    ∀ᶠ u in 𝓝 (0 : ℝ × ℝ), ∀ m0, Clean n c h m0 → All (fillMatrix u b c n tau m0)
      (Out (fun _ => False) fun m => Clean n c h m ∧ ∀ r < b.dim * c * n, ∀ k, |m r k - A r k| ≤ δ) := by
  have h1 : ∀ s, s = -1 ∨ s = 1 → ∀ᶠ u in 𝓝 (0 : ℝ × ℝ), ∀ iv ∈ Finset.range n, All (fillBuffers u b s (vecOf tau iv)) (Out (fun _ => False) (BufNear b δ s (vecOf tau iv))) := by
    intro s hs
    refine (Filter.eventually_all_finset _).mpr fun iv hiv => fillBuffers_near hb (ht iv (Finset.mem_range.mp hiv)) ?_ ?_ hδ
    · rcases hs with rfl | rfl
      · exact hcl
      · exact hcr
    · rcases hs with rfl | rfl
      · exact hb.left
      · exact hb.right
  filter_upwards [h1 (-1) (.inl rfl), h1 1 (.inr rfl)] with u hu1 hu2 m0 hm
  refine All.mono (fillMatrix_out (E := fun _ => False) (G := fun s iv => BufNear b δ s (vecOf tau iv)) (fun iv hiv s hs => ?_) hn hl m0) ?_
  · rcases hs with rfl | rfl
    · exact hu1 iv (Finset.mem_range.mpr hiv)
    · exact hu2 iv (Finset.mem_range.mpr hiv)
  rintro r (⟨e, h, -⟩ | ⟨m, ⟨B, hB, rfl⟩, rfl⟩)
  · exact h.elim
  have hrow : ∀ x : Cond n c h, fillP b.dim c n B m0 (row n c h x) = over B x fun _ => 0 := fun x => by rw [hb.dim]; exact fillP_rows B hn hm x
  refine .inr ⟨_, ⟨fun x => ⟨B, hrow x⟩, fun r hr k => ?_⟩, rfl⟩
  rw [hb.dim] at hr
  obtain ⟨x, rfl⟩ := row_surj (n := n) (c := c) (h := h) hn hr
  rw [hrow x, S.rows x]
  exact over_near hb hn hδ.le hB x k

/-- A matrix near one that can be inverted: it can be inverted as well, and solutions of the one system with a small backward error are near the exact solutions of the
other, for all right hand sides up to a given size. The distance is proportional to the error of the matrix and the backward error. -/
theorem perturbed_rate {N : ℕ} {A inv : Mat} (hinv : ∀ i < N, ∀ j < N, ∑ k ∈ Finset.range N, inv i k * A k j = if i = j then 1 else 0)
    (hinv' : ∀ i < N, ∀ j < N, ∑ k ∈ Finset.range N, A i k * inv k j = if i = j then 1 else 0) {V : ℝ} (hV0 : 0 ≤ V) :
    ∃ D ≥ (0 : ℝ), ∃ δ₀ > (0 : ℝ), ∀ δ, 0 ≤ δ → δ ≤ δ₀ → ∀ m : Mat, (∀ r < N, ∀ k < N, |m r k - A r k| ≤ δ) → ∀ η, 0 ≤ η → η ≤ δ →
      WellConditioned η N m ∧ ∀ y0 v, (∀ r < N, |v r| ≤ V) → Solves N A y0 v → ∀ y, BackwardError η N m y v → ∀ k < N, |y k - y0 k| ≤ D * δ := by
  rcases Nat.eq_zero_or_pos N with rfl | hN
  · exact ⟨0, le_rfl, 1, one_pos, fun δ _ _ m _ η _ _ => ⟨⟨Mat.zero, by simp, by simp⟩, by simp⟩⟩
  obtain ⟨K, hK⟩ : ∃ K, K = ∑ i ∈ Finset.range N, ∑ r ∈ Finset.range N, |inv i r| := ⟨_, rfl⟩
  obtain ⟨M, hM⟩ : ∃ M, M = ∑ i ∈ Finset.range N, ∑ r ∈ Finset.range N, |A i r| := ⟨_, rfl⟩
  have hK0 : 0 ≤ K := by rw [hK]; exact Finset.sum_nonneg fun i _ => Finset.sum_nonneg fun r _ => abs_nonneg _
  have hM0 : 0 < M := by
    rw [hM]
    refine lt_of_le_of_ne (Finset.sum_nonneg fun i _ => Finset.sum_nonneg fun r _ => abs_nonneg _) fun e => ?_
    have hz : ∀ i < N, ∀ j < N, A i j = 0 := fun i hi j hj => by
      have h1 := (Finset.sum_eq_zero_iff_of_nonneg fun i _ => Finset.sum_nonneg fun r _ => abs_nonneg _).mp e.symm i (Finset.mem_range.mpr hi)
      have h2 := (Finset.sum_eq_zero_iff_of_nonneg fun r _ => abs_nonneg _).mp h1 j (Finset.mem_range.mpr hj)
      exact abs_eq_zero.mp h2
    have := hinv 0 hN 0 hN
    rw [Finset.sum_eq_zero fun k hk => by rw [hz k (Finset.mem_range.mp hk) 0 hN, mul_zero]] at this
    simp at this
  -- the backward error for `A`
  obtain ⟨L, hL⟩ : ∃ L, L = 1 + (N * N + 1) / M := ⟨_, rfl⟩
  have hL1 : 1 ≤ L := by rw [hL]; have : (0 : ℝ) ≤ (N * N + 1) / M := by positivity
                         linarith
  have hMm : ∀ δ (m : Mat), (∀ r < N, ∀ k < N, |m r k - A r k| ≤ δ) → ∑ r ∈ Finset.range N, ∑ k ∈ Finset.range N, |m r k| ≤ M + N * N * δ := by
      intro δ m hm
      have : ∀ r ∈ Finset.range N, ∑ k ∈ Finset.range N, |m r k| ≤ ∑ k ∈ Finset.range N, (|A r k| + δ) := fun r hr => Finset.sum_le_sum fun k hk => by
        have h4 := hm r (Finset.mem_range.mp hr) k (Finset.mem_range.mp hk)
        have h5 := abs_sub_abs_le_abs_sub (m r k) (A r k)
        linarith
      refine (Finset.sum_le_sum this).trans (le_of_eq ?_)
      simp only [Finset.sum_add_distrib, Finset.sum_const, Finset.card_range, nsmul_eq_mul]
      rw [hM]; ring
  have conv : ∀ δ, 0 ≤ δ → δ ≤ 1 → ∀ m : Mat, (∀ r < N, ∀ k < N, |m r k - A r k| ≤ δ) → ∀ η, 0 ≤ η → η ≤ δ → ∀ y v, BackwardError η N m y v →
      BackwardError (δ * L) N A y v := by
    intro δ hδ hδ1 m hm η hη hηδ y v h r hr
    obtain ⟨Y, hY⟩ : ∃ Y, Y = ∑ k ∈ Finset.range N, |y k| := ⟨_, rfl⟩
    obtain ⟨W, hW⟩ : ∃ W, W = ∑ r ∈ Finset.range N, |v r| := ⟨_, rfl⟩
    have hY0 : 0 ≤ Y := by rw [hY]; exact Finset.sum_nonneg fun i _ => abs_nonneg _
    have hW0 : 0 ≤ W := by rw [hW]; exact Finset.sum_nonneg fun i _ => abs_nonneg _
    have h1 := h r hr
    have h2 : |∑ k ∈ Finset.range N, (A r k - m r k) * y k| ≤ δ * Y := by
      refine (Finset.abs_sum_le_sum_abs _ _).trans ?_
      rw [hY, Finset.mul_sum]
      refine Finset.sum_le_sum fun k hk => ?_
      rw [abs_mul, abs_sub_comm]
      exact mul_le_mul_of_nonneg_right (hm r hr k (Finset.mem_range.mp hk)) (abs_nonneg _)
    have h3 := hMm δ m hm
    rw [← hY, ← hW] at h1
    rw [← hY, ← hW, ← hM]
    have e : ∑ k ∈ Finset.range N, A r k * y k - v r = (∑ k ∈ Finset.range N, m r k * y k - v r) + ∑ k ∈ Finset.range N, (A r k - m r k) * y k := by
      simp only [sub_mul, Finset.sum_sub_distrib]; ring
    rw [e]
    refine (abs_add_le _ _).trans ?_
    have h6 : η * ((∑ r ∈ Finset.range N, ∑ k ∈ Finset.range N, |m r k|) * Y + W) ≤ δ * ((M + N * N) * Y + W) := by
      refine mul_le_mul hηδ ?_ (by positivity) hδ
      have : M + N * N * δ ≤ M + N * N := by
        have : (N : ℝ) * N * δ ≤ N * N * 1 := mul_le_mul_of_nonneg_left hδ1 (by positivity)
        linarith
      have := mul_le_mul_of_nonneg_right (h3.trans this) hY0
      linarith
    have h7 : δ * L * (M * Y + W) = δ * ((M + N * N + 1) * Y) + δ * L * W := by
      rw [hL]; field_simp; ring
    have h8 : δ * W ≤ δ * L * W := by
      have := mul_le_mul_of_nonneg_right (mul_le_mul_of_nonneg_left hL1 hδ) hW0
      linarith
    rw [h7]
    nlinarith [h1, h2, h6, h8]
  obtain ⟨C, hC⟩ : ∃ C, C = 2 * (N * K * (M * (N * K) + N)) := ⟨_, rfl⟩
  have hC0 : 0 ≤ C := by rw [hC]; positivity
  obtain ⟨T, hT⟩ : ∃ T, T = 1 / (2 * (N * K * M) + 1) := ⟨_, rfl⟩
  have hT0 : 0 < T := by rw [hT]; positivity
  obtain ⟨P, hP⟩ : ∃ P, P = (M + N * N) * (N * (N * (K + C * T))) := ⟨_, rfl⟩
  have hP0 : 0 ≤ P := by rw [hP]; positivity
  refine ⟨C * (L * V), by positivity, min (1 / (P + 1)) (T / L), by positivity, fun δ hδ0 hδ m hm η hη hηδ => ?_⟩
  have d0 : δ * (P + 1) ≤ 1 := by
    have : δ ≤ 1 / (P + 1) := hδ.trans (min_le_left _ _)
    rwa [le_div_iff₀ (by positivity)] at this
  have d1 : δ ≤ 1 := by nlinarith
  have d2 : δ * L ≤ T := by
    have : δ ≤ T / L := hδ.trans (min_le_right _ _)
    rwa [le_div_iff₀ (by linarith)] at this
  have d3 : C * (δ * L * V) ≤ C * (L * V) * δ := le_of_eq (by ring)
  have d2' := d2
  rw [hT] at d2
  refine ⟨?_, fun y0 v hV h0 y h k hk => ?_⟩
  · obtain ⟨im, him⟩ : Invertible N m := invertible_of_injective fun y hy k hk => by
      have hz : BackwardError 0 N m y fun _ => 0 := fun r hr => by rw [hy r hr]; simp
      have := (Residual.backward_error hinv hK hM (y0 := fun _ => 0) (fun r hr => by simp) (conv δ hδ0 d1 m hm 0 le_rfl hδ0 y _ hz)
        (by positivity) d2 (V := 0) (fun r hr => by simp) hk).2
      simpa using this
    have hcol : ∀ i < N, ∀ j < N, |im i j| ≤ K + C * T := by
      intro i hi j hj
      have hz : BackwardError 0 N m (fun k => im k j) fun r => if r = j then 1 else 0 := fun r hr => by rw [(him r hr j hj).2]; simp
      have := Residual.backward_error hinv hK hM (y0 := fun k => inv k j) (fun r hr => hinv' r hr j hj) (conv δ hδ0 d1 m hm 0 le_rfl hδ0 _ _ hz)
        (by positivity) d2 (V := 1) (fun r hr => by split_ifs <;> simp) hi
      rw [← hC] at this
      have h1 := abs_sub_abs_le_abs_sub (im i j) (inv i j)
      have h2 : C * (δ * L * 1) ≤ C * T := mul_le_mul_of_nonneg_left (by linarith) hC0
      linarith [this.1, this.2]
    refine ⟨im, him, ?_⟩
    have hKm : ∑ r ∈ Finset.range N, ∑ k ∈ Finset.range N, |im r k| ≤ N * (N * (K + C * T)) := by
      refine (Finset.sum_le_sum fun r hr => Finset.sum_le_sum fun k hk => hcol r (Finset.mem_range.mp hr) k (Finset.mem_range.mp hk)).trans (le_of_eq ?_)
      simp only [Finset.sum_const, Finset.card_range, nsmul_eq_mul]
    have hMm' : ∑ r ∈ Finset.range N, ∑ k ∈ Finset.range N, |m r k| ≤ M + N * N := by
      refine (hMm δ m hm).trans ?_
      have : (N : ℝ) * N * δ ≤ N * N * 1 := mul_le_mul_of_nonneg_left d1 (by positivity)
      linarith
    have h5 : (∑ r ∈ Finset.range N, ∑ k ∈ Finset.range N, |m r k|) * ∑ r ∈ Finset.range N, ∑ k ∈ Finset.range N, |im r k| ≤ P := by
      rw [hP]
      exact mul_le_mul hMm' hKm (Finset.sum_nonneg fun i _ => Finset.sum_nonneg fun r _ => abs_nonneg _) (by positivity)
    have h6 := mul_le_mul hηδ h5 (mul_nonneg (Finset.sum_nonneg fun i _ => Finset.sum_nonneg fun r _ => abs_nonneg _)
      (Finset.sum_nonneg fun i _ => Finset.sum_nonneg fun r _ => abs_nonneg _)) hδ0
    nlinarith
  · have := (Residual.backward_error hinv hK hM h0 (conv δ hδ0 d1 m hm η hη hηδ y _ h) (by positivity) d2 (V := V) hV hk).2
    rw [← hC] at this
    exact this.trans d3

theorem perturbed_all {N : ℕ} {A inv : Mat} (hinv : ∀ i < N, ∀ j < N, ∑ k ∈ Finset.range N, inv i k * A k j = if i = j then 1 else 0)
    (hinv' : ∀ i < N, ∀ j < N, ∑ k ∈ Finset.range N, A i k * inv k j = if i = j then 1 else 0) {V : ℝ} (hV0 : 0 ≤ V)
    {ε : ℝ} (hε : 0 < ε) : ∃ δ > 0, ∀ m : Mat, (∀ r < N, ∀ k < N, |m r k - A r k| ≤ δ) → ∀ η, 0 ≤ η → η ≤ δ →
      WellConditioned η N m ∧ ∀ y0 v, (∀ r < N, |v r| ≤ V) → Solves N A y0 v → ∀ y, BackwardError η N m y v → ∀ k < N, |y k - y0 k| ≤ ε := by
  obtain ⟨D, hD, δ, hδ, H⟩ := perturbed_rate hinv hinv' hV0
  have hm : 0 < min δ (ε / (D + 1)) := lt_min hδ (by positivity)
  refine ⟨_, hm, fun m hm' η hη hηδ => ?_⟩
  obtain ⟨h1, h2⟩ := H _ hm.le (min_le_left _ _) m hm' η hη hηδ
  refine ⟨h1, fun y0 v hv h0 y hy k hk => (h2 y0 v hv h0 y hy k hk).trans ?_⟩
  have : (D + 1) * min δ (ε / (D + 1)) ≤ (D + 1) * (ε / (D + 1)) := mul_le_mul_of_nonneg_left (min_le_right _ _) (by positivity)
  rw [mul_div_cancel₀ _ (by positivity : D + 1 ≠ 0)] at this
  linarith

theorem perturbed {N : ℕ} {A inv : Mat} (hinv : ∀ i < N, ∀ j < N, ∑ k ∈ Finset.range N, inv i k * A k j = if i = j then 1 else 0)
    (hinv' : ∀ i < N, ∀ j < N, ∑ k ∈ Finset.range N, A i k * inv k j = if i = j then 1 else 0) {y0 v : ℕ → ℝ} (h0 : Solves N A y0 v)
    {ε : ℝ} (hε : 0 < ε) : ∃ δ > 0, ∀ m : Mat, (∀ r < N, ∀ k < N, |m r k - A r k| ≤ δ) → ∀ η, 0 ≤ η → η ≤ δ →
      WellConditioned η N m ∧ ∀ y, BackwardError η N m y v → ∀ k < N, |y k - y0 k| ≤ ε := by
  obtain ⟨δ, hδ, H⟩ := perturbed_all hinv hinv' (V := ∑ r ∈ Finset.range N, |v r|) (Finset.sum_nonneg fun i _ => abs_nonneg _) hε
  exact ⟨δ, hδ, fun m hm η h1 h2 => ⟨(H m hm η h1 h2).1, (H m hm η h1 h2).2 y0 v
    (fun r hr => Finset.single_le_sum (f := fun r => |v r|) (fun r _ => abs_nonneg _) (Finset.mem_range.mpr hr)) h0⟩⟩

end Rounded

end GSplines
