import Verif.Proofs.RateList
import Verif.Proofs.RoundingFnExact
import Verif.Spec.RateFn

/-! # Evaluation of expressions: errors proportional to the rounding errors -/

namespace GSplines.Nd

open Spec

variable {α β : Type} [Gauge α] [Gauge β]

/-- `RateAt` with given constants. -/
def RateWith (C δ : ℝ) (F : ℝ × ℝ → α → Nd β) (x : α) (y : β) : Prop :=
  ∀ u, Small u δ → ∀ a o, F u a o →
    (∀ r ≥ (0 : ℝ), r ≤ δ → close r a x → ∃ b, o = .ok b ∧ close (C * (sz u + r)) b y) ∧
    ∀ u' a' b b', Small u' δ → close δ a x → close δ a' x → ∀ r ≥ (0 : ℝ), close r a a' → o = .ok b → F u' a' (.ok b') → close (C * (sz u + sz u' + r)) b b'

theorem RateWith.mono {C C' δ δ' : ℝ} (hC : C ≤ C') (hδ : δ' ≤ δ) {F : ℝ × ℝ → α → Nd β} {x : α} {y : β} (h : RateWith C δ F x y) : RateWith C' δ' F x y := by
  intro u hu a o ho
  have hs := sz_nonneg hu
  obtain ⟨h1, h2⟩ := h u (small_mono hδ hu) a o ho
  refine ⟨fun r hr hr' hcl => ?_, fun u' a' b b' hu' ha ha' r hr hcl hb hb' => ?_⟩
  · obtain ⟨b, e, hb⟩ := h1 r hr (hr'.trans hδ) hcl
    exact ⟨b, e, Gauge.mono' (mul_le_mul_of_nonneg_right hC (by linarith)) hb⟩
  · have hs' := sz_nonneg hu'
    exact Gauge.mono' (mul_le_mul_of_nonneg_right hC (by linarith)) (h2 u' a' b b' (small_mono hδ hu') (Gauge.mono' hδ ha) (Gauge.mono' hδ ha') r hr hcl hb hb')

theorem RateAt.common {ι : Type} {G : ι → ℝ × ℝ → α → Nd β} {x : α} {z : β} (l : List ι) (h : ∀ i ∈ l, RateAt (G i) x z) :
    ∃ C ≥ (0 : ℝ), ∃ δ > (0 : ℝ), ∀ i ∈ l, RateWith C δ (G i) x z := by
  induction l with
  | nil => exact ⟨0, le_rfl, 1, one_pos, fun i hi => absurd hi (by simp)⟩
  | cons i l ih =>
    obtain ⟨C, hC, δ, hδ, h1⟩ := ih fun j hj => h j (by simp [hj])
    obtain ⟨D, hD, η, hη, h2⟩ := h i (by simp)
    refine ⟨max C D, le_max_of_le_left hC, min δ η, lt_min hδ hη, fun j hj => ?_⟩
    rcases List.mem_cons.mp hj with rfl | hj
    · exact RateWith.mono (le_max_right _ _) (min_le_right _ _) h2
    · exact RateWith.mono (le_max_left _ _) (min_le_left _ _) (h1 j hj)

/-- A program that runs one of several others, depending on the side of `p` on which the argument is, up to an error. Two of them which have the same exact outcome at `p`
are separated by `p`. -/
theorem RateAt.switch {ι : Type} {F : ℝ × ℝ → ℝ → Nd β} {G : ι → ℝ × ℝ → ℝ → Nd β} {φ : ℝ → ℝ} {x p : ℝ} {z : β} (hφ : ∀ a b, |φ a - φ b| ≤ |a - b|) (hp : φ x = p)
    (l : List ι) (A B : ι → Prop) {D η : ℝ} (hD : 0 ≤ D) (hη : 0 < η) (h : ∀ i ∈ l, RateAt (G i) p z)
    (hF : ∀ u, Small u η → ∀ t, |t - x| ≤ η → ∀ o, F u t o → ∃ i ∈ l, (A i → φ t ≤ p + D * sz u) ∧ (B i → p - D * sz u ≤ φ t) ∧ G i u (φ t) o)
    (hs : ∀ i ∈ l, ∀ j ∈ l, i = j ∨ (A i ∧ B j) ∨ (A j ∧ B i)) : RateAt F x z := by
  obtain ⟨C, hC, δ, hδ, H⟩ := RateAt.common l h
  refine ⟨C * (2 + 2 * D), by positivity, min δ η, lt_min hδ hη, fun u hu t o ho => ⟨fun r hr hr' hcl => ?_, fun u' t' b b' hu' ht ht' r hr hcl hb hb' => ?_⟩⟩
  · have hcl' : |t - x| ≤ r := hcl
    obtain ⟨i, hi, -, -, hG⟩ := hF u (small_mono (min_le_right _ _) hu) t (hcl'.trans (hr'.trans (min_le_right _ _))) o ho
    have : close r (φ t) p := by rw [← hp]; exact (hφ t x).trans hcl'
    obtain ⟨b, e, hb⟩ := (H i hi u (small_mono (min_le_left _ _) hu) (φ t) o hG).1 r hr (hr'.trans (min_le_left _ _)) this
    refine ⟨b, e, Gauge.mono' (mul_le_mul_of_nonneg_right ?_ (add_nonneg (sz_nonneg hu) hr)) hb⟩
    nlinarith [mul_nonneg hC hD]
  · subst hb
    have ht1 : |t - x| ≤ min δ η := ht
    have ht2 : |t' - x| ≤ min δ η := ht'
    have hcl' : |t - t'| ≤ r := hcl
    obtain ⟨i, hi, i1, i2, hG⟩ := hF u (small_mono (min_le_right _ _) hu) t (ht1.trans (min_le_right _ _)) _ ho
    obtain ⟨j, hj, j1, j2, hG'⟩ := hF u' (small_mono (min_le_right _ _) hu') t' (ht2.trans (min_le_right _ _)) _ hb'
    have n1 : |φ t - p| ≤ δ := by rw [← hp]; exact (hφ t x).trans (ht1.trans (min_le_left _ _))
    have n2 : |φ t' - p| ≤ δ := by rw [← hp]; exact (hφ t' x).trans (ht2.trans (min_le_left _ _))
    have n3 : |φ t - φ t'| ≤ r := (hφ t t').trans hcl'
    have s1 := sz_nonneg hu
    have s2 := sz_nonneg hu'
    have hCD := mul_nonneg hC hD
    by_cases hij : i = j
    · subst hij
      refine Gauge.mono' (mul_le_mul_of_nonneg_right ?_ (by linarith)) ((H i hi u (small_mono (min_le_left _ _) hu) (φ t) _ hG).2 u' (φ t') b b' (small_mono (min_le_left _ _) hu') n1 n2 r hr n3 rfl hG')
      nlinarith
    · obtain ⟨c, e, hc⟩ := (H i hi u (small_mono (min_le_left _ _) hu) (φ t) _ hG).1 _ (abs_nonneg _) n1 (le_refl |φ t - p|)
      obtain ⟨c', e', hc'⟩ := (H j hj u' (small_mono (min_le_left _ _) hu') (φ t') _ hG').1 _ (abs_nonneg _) n2 (le_refl |φ t' - p|)
      cases e
      cases e'
      have key : |φ t - p| ≤ D * sz u + D * sz u' + r ∧ |φ t' - p| ≤ D * sz u + D * sz u' + r := by
        have d1 := mul_nonneg hD s1
        have d2 := mul_nonneg hD s2
        obtain ⟨m1, m2⟩ := abs_le.mp n3
        rcases (hs i hi j hj).resolve_left hij with ⟨a, b⟩ | ⟨a, b⟩
        · have := i1 a
          have := j2 b
          exact ⟨abs_le.mpr ⟨by linarith, by linarith⟩, abs_le.mpr ⟨by linarith, by linarith⟩⟩
        · have := j1 a
          have := i2 b
          exact ⟨abs_le.mpr ⟨by linarith, by linarith⟩, abs_le.mpr ⟨by linarith, by linarith⟩⟩
      refine Gauge.mono' ?_ (Gauge.trans' hc (Gauge.symm' hc'))
      have := mul_le_mul_of_nonneg_left key.1 hC
      have := mul_le_mul_of_nonneg_left key.2 hC
      nlinarith [mul_nonneg hC hr, mul_nonneg hC s1, mul_nonneg hC s2, mul_nonneg hCD hr]

end GSplines.Nd

namespace GSplines.Rounded

open Nd Spec Fn

/-- The rounded values of `f` near `t` differ from its value at `t` in proportion to the errors. -/
def Rv (f : Fn) (t : ℝ) : Prop := RateAt (fun u t => row u f f.codim t) t (vals f t)

theorem scalar_rate {F : ℝ × ℝ → ℝ → Nd ℝ} {t z : ℝ} (h : RateAt F t z) : RateAt (fun u t => scalar (F u t) 1) t [z] := by
  unfold scalar
  simp only [if_true]
  exact RateAt.bind h (RateAt.pure (x := (t, z)) (f := fun q : ℝ × ℝ => [q.2]) (LLip.cons (by fun_prop) (LLip.const _ _)))

theorem rv_scalar {f : Fn} {F : ℝ × ℝ → ℝ → Nd ℝ} {g : ℝ → ℝ} {t : ℝ} (hc : f.codim = 1) (hr : ∀ u t, row u f 1 t = scalar (F u t) 1) (hv : val f 0 = g) (h : RateAt F t (g t)) : Rv f t := by
  unfold Rv
  rw [vals_one hc, hc, hv]
  simp only [hr]
  exact scalar_rate h

theorem horner_rate (a : List ℝ) (t : ℝ) : RateAt (fun u t => horner u a t) t (Fn.horner a t) := by
  unfold horner Fn.horner
  generalize a.getLastD 0 = z
  induction a.dropLast with
  | nil => exact RateAt.pure (f := fun _ => z) (LLip.const _ _)
  | cons c l ih =>
    simp only [List.foldr_cons]
    refine RateAt.bind ih ?_
    refine RateAt.bind (RateAt.near (by fun_prop)) ?_
    exact RateAt.near (by fun_prop)

theorem rv_poly (d : ℝ × ℝ) {a : List ℝ} (ha : a ≠ []) (t : ℝ) : Rv (.poly d a) t := by
  by_cases h1 : a.length = 1
  · unfold Rv
    rw [vals_one rfl, (val_poly d ha).2]
    obtain ⟨x, rfl⟩ := List.length_eq_one_iff.mp h1
    change RateAt (fun u t => row u (.poly d [x]) 1 t) t _
    simp only [row, polyRow, if_neg ha, List.length_singleton, if_true]
    exact RateAt.pure (f := fun _ => [x]) (LLip.const _ _)
  · refine rv_scalar rfl (fun u t => ?_) (val_poly d ha).2 (horner_rate a t)
    rw [row, polyRow, if_neg ha, if_neg h1]

theorem rv_const (d : ℝ × ℝ) (v : List ℝ) (t : ℝ) : Rv (.const d v) t := by
  unfold Rv
  have h1 : vals (.const d v) t = v := by
    unfold vals
    conv_rhs => rw [eq_map_range (r := v) rfl]
    exact List.map_congr_left fun k hk => by rw [(val_const d v).2 k (List.mem_range.mp hk)]
  rw [h1]
  change RateAt (fun u t => row u (.const d v) v.length t) t v
  simp only [row, if_true]
  exact RateAt.comp (f := fun _ : ℝ => v) (RateAt.mapNear v) (LLip.const _ _)

theorem rv_user (d : ℝ × ℝ) (c : ℕ) (F : ℕ → ℝ → ℕ → ℝ) {t : ℝ} (h : ∀ k < c, LLip (fun s => F 0 s k) t) : Rv (.user d c F) t := by
  unfold Rv
  have h1 : vals (.user d c F) t = (List.range c).map (F 0 t) := by
    unfold vals
    exact List.map_congr_left fun k hk => by rw [(val_user d c F).2 k (List.mem_range.mp hk)]
  rw [h1]
  change RateAt (fun u t => row u (.user d c F) c t) t _
  simp only [row, if_true]
  exact RateAt.comp (f := fun t => (List.range c).map (F 0 t)) (RateAt.mapNear _) (LLip.mapList _ fun k hk => h k (by simpa using hk))

theorem rv_dot (d : ℝ × ℝ) {f g : Fn} {t : ℝ} (hf : f.Tot) (hg : g.Tot) (hc : f.codim = g.codim) (h1 : Rv f t) (h2 : Rv g t) : Rv (.dot d f g) t := by
  unfold Rv
  rw [vals_one rfl, (val_dot d hf hg hc).2]
  change RateAt (fun u t => row u (.dot d f g) 1 t) t _
  simp only [row, hc, and_self, if_true]
  have h1' : RateAt (fun u t => row u f g.codim t) t (vals f t) := by rw [← hc]; exact h1
  refine RateAt.bind h1' ?_
  refine RateAt.bind (RateAt.comp (x := (t, vals f t)) (f := fun q : ℝ × List ℝ => q.1) h2 (by fun_prop)) ?_
  refine RateAt.bind (RateAt.comp (x := ((t, vals f t), vals g t)) (f := fun q : (ℝ × List ℝ) × List ℝ => (q.1.2, q.2)) (dotList_rate _ _) (by fun_prop)) ?_
  refine (RateAt.pure (f := fun q : ((ℝ × List ℝ) × List ℝ) × ℝ => [q.2]) (LLip.cons (by fun_prop) (LLip.const _ _))).congr ?_
  congr 1
  unfold vals
  rw [hc, zip_range]
  rfl

theorem rv_cols {f : Fn} {t : ℝ} {c : ℕ} (h : Rv f t) (hc : f.codim = c) : RateAt (fun u t => row u f c t) t ((List.range c).map fun k => val f k t) := by
  subst hc; exact h

theorem sumRow_rate {f : Fn} {t : ℝ} {c : ℕ} (h : Rv f t) (hc : f.codim = c) (F : ℕ → ℝ) :
    RateAt (fun u (q : ℝ × List ℝ) => sumRow u c c q.1 q.2 (elt u f)) (t, (List.range c).map F) ((List.range c).map fun k => F k + val f k t) := by
  unfold sumRow
  simp only [if_true]
  refine RateAt.bind (RateAt.comp (x := (t, (List.range c).map F)) (f := fun q : ℝ × List ℝ => q.1) (rv_cols h hc) (by fun_prop)) ?_
  rw [← zip_range c F (fun k => val f k t) (· + ·)]
  exact RateAt.comp (x := ((t, (List.range c).map F), (List.range c).map fun k => val f k t)) (f := fun q : (ℝ × List ℝ) × List ℝ => List.zipWith (· + ·) q.1.2 q.2)
    (RateAt.mapNear _) (LLip.zipWith (LLip.snd (LLip.fst' _)) (LLip.snd' _) add_llip)

theorem sumFold_rate {t : ℝ} {c : ℕ} : ∀ (l : List Fn) (F : ℕ → ℝ), (∀ a ∈ l, Rv a t) → (∀ a ∈ l, a.codim = c) →
    RateAt (fun u (q : ℝ × List ℝ) => (l.map (elt u)).foldlM (sumRow u c c q.1) q.2) (t, (List.range c).map F)
      ((List.range c).map fun k => F k + (l.map fun a => val a k t).sum) := by
  intro l
  induction l with
  | nil =>
    intro F _ _
    simp only [List.map_nil, List.foldlM_nil, List.sum_nil, add_zero]
    exact RateAt.pure (f := fun q : ℝ × List ℝ => q.2) (LLip.snd' _)
  | cons a l ih =>
    intro F h hc
    simp only [List.map_cons, List.foldlM_cons, List.sum_cons, ← add_assoc]
    refine RateAt.bind (sumRow_rate (h a (by simp)) (hc a (by simp)) F) ?_
    exact RateAt.comp (x := ((t, (List.range c).map F), (List.range c).map fun k => F k + val a k t)) (f := fun q : (ℝ × List ℝ) × List ℝ => (q.1.1, q.2))
      (ih _ (fun b hb => h b (by simp [hb])) (fun b hb => hc b (by simp [hb]))) (by fun_prop)

theorem rv_sum (d : ℝ × ℝ) {c : ℕ} {l : List Fn} {t : ℝ} (hne : l ≠ []) (ht : ∀ a ∈ l, a.Tot) (hc : ∀ a ∈ l, a.codim = c) (h : ∀ a ∈ l, Rv a t) :
    Rv (.expr d c .sum l) t := by
  unfold Rv
  have h1 : vals (.expr d c .sum l) t = (List.range c).map fun k => 0 + (l.map fun a => val a k t).sum := by
    unfold vals
    exact List.map_congr_left fun k hk => by rw [(val_sum d hne ht hc).2 k (List.mem_range.mp hk), zero_add]
  rw [h1]
  change RateAt (fun u t => row u (.expr d c .sum l) c t) t _
  simp only [row_expr, evalTy]
  cases l with
  | nil => exact absurd rfl hne
  | cons a l =>
    simp only [evalSum, List.map_cons, show ∀ u, (elt u a).codim = c from fun u => hc a (by simp)]
    have h2 := sumFold_rate (a :: l) (fun _ => 0) h hc
    have h3 : (List.range c).map (fun _ => (0 : ℝ)) = List.replicate c 0 := by simp
    rw [h3] at h2
    exact RateAt.comp (f := fun t : ℝ => (t, List.replicate c (0 : ℝ))) h2 (by fun_prop)

theorem mulRow_rate {f : Fn} {t : ℝ} (h : Rv f t) (hc : f.codim = 1) (l : List ℝ) :
    RateAt (fun u (q : ℝ × List ℝ) => mulRow u q.1 q.2 (elt u f)) (t, l) (l.map fun x => x * val f 0 t) := by
  unfold mulRow
  refine RateAt.bind (RateAt.comp (x := (t, l)) (f := fun q : ℝ × List ℝ => q.1) (rv_cols h hc) (by fun_prop)) ?_
  refine RateAt.comp (x := ((t, l), [val f 0 t])) (f := fun q : (ℝ × List ℝ) × List ℝ => q.1.2.map (· * q.2.headD 0)) (RateAt.mapNear _) ?_
  exact LLip.mapOp (op := fun x y => x * y) (LLip.snd (LLip.fst' _)) (LLip.headD (LLip.snd' _)) mul_llip

theorem mulFold_rate {t : ℝ} : ∀ (l : List Fn) (r : List ℝ), (∀ a ∈ l, Rv a t) → (∀ a ∈ l, a.codim = 1) →
    RateAt (fun u (q : ℝ × List ℝ) => (l.map (elt u)).foldlM (mulRow u q.1) q.2) (t, r) (r.map fun x => x * (l.map fun a => val a 0 t).prod) := by
  intro l
  induction l with
  | nil =>
    intro r _ _
    simp only [List.map_nil, List.foldlM_nil, List.prod_nil, mul_one, List.map_id']
    exact RateAt.pure (f := fun q : ℝ × List ℝ => q.2) (LLip.snd' _)
  | cons a l ih =>
    intro r h hc
    simp only [List.map_cons, List.foldlM_cons, List.prod_cons]
    refine RateAt.bind (mulRow_rate (h a (by simp)) (hc a (by simp)) r) ?_
    refine (RateAt.comp (x := ((t, r), r.map fun x => x * val a 0 t)) (f := fun q : (ℝ × List ℝ) × List ℝ => (q.1.1, q.2))
      (ih _ (fun b hb => h b (by simp [hb])) (fun b hb => hc b (by simp [hb]))) (by fun_prop)).congr ?_
    rw [List.map_map]
    exact List.map_congr_left fun x _ => by simp [mul_assoc]

theorem rv_mul (d : ℝ × ℝ) {a : Fn} {l : List Fn} {t : ℝ} (ha : a.Tot) (ht : ∀ b ∈ l, b.Tot) (hc : ∀ b ∈ l, b.codim = 1) (h1 : Rv a t) (h : ∀ b ∈ l, Rv b t) :
    Rv (.expr d a.codim .mul (a :: l)) t := by
  unfold Rv
  have h2 : vals (.expr d a.codim .mul (a :: l)) t = (vals a t).map fun x => x * (l.map fun b => val b 0 t).prod := by
    unfold vals
    rw [List.map_map]
    exact List.map_congr_left fun k hk => by rw [(val_mul d ha ht hc).2 k (List.mem_range.mp hk)]; rfl
  rw [h2]
  change RateAt (fun u t => row u (.expr d a.codim .mul (a :: l)) a.codim t) t _
  simp only [row_expr, evalTy, evalMul, List.map_cons]
  exact RateAt.bind h1 (mulFold_rate l _ h hc)

theorem compFold_rate {z : Fn} : ∀ (init : List Fn) (t : ℝ), (∀ a ∈ init, a.codim = 1) → (∀ pre a post, init ++ [z] = pre ++ a :: post → Rv a (through pre t)) →
    RateAt (fun u t => evalComp ((init ++ [z]).map (elt u)) z.codim t) t (vals z (through init t)) := by
  intro init
  induction init with
  | nil => intro t _ h; exact h [] z [] rfl
  | cons a init ih =>
    intro t hc h
    have h1 := h [] a (init ++ [z]) rfl
    have h2 := ih (val a 0 t) (fun b hb => hc b (by simp [hb])) fun pre b post e => by
      have := h (a :: pre) b post (by rw [List.cons_append, e]; rfl)
      exact this
    have hne : ∃ e es, init ++ [z] = e :: es := by cases init <;> exact ⟨_, _, rfl⟩
    obtain ⟨e, es, he⟩ := hne
    rw [he] at h2
    simp only [List.cons_append, he, List.map_cons, evalComp]
    refine RateAt.bind (rv_cols h1 (hc a (by simp))) ?_
    refine RateAt.comp (x := (t, [val a 0 t])) (F := fun u s => evalComp ((e :: es).map (elt u)) z.codim s) (f := fun q : ℝ × List ℝ => q.2.headD 0) h2 ?_
    exact LLip.headD (LLip.snd' _)

theorem rv_comp (d : ℝ × ℝ) {init : List Fn} {z : Fn} {t : ℝ} (hz : z.Tot) (ht : ∀ b ∈ init, b.Tot) (hc : ∀ b ∈ init, b.codim = 1)
    (h : ∀ pre a post, init ++ [z] = pre ++ a :: post → Rv a (through pre t)) : Rv (.expr d z.codim .comp (init ++ [z])) t := by
  unfold Rv
  have h2 : vals (.expr d z.codim .comp (init ++ [z])) t = vals z (through init t) := by
    unfold vals
    exact List.map_congr_left fun k hk => by rw [(val_comp d hz ht hc).2 k (List.mem_range.mp hk)]
  rw [h2]
  change RateAt (fun u t => row u (.expr d z.codim .comp (init ++ [z])) z.codim t) t _
  simp only [row_expr, evalTy]
  exact compFold_rate init t hc h

theorem rv_neg (d : ℝ × ℝ) {a : Fn} {t : ℝ} (ht : a.Tot) (h : Rv a t) : Rv (.expr d a.codim .neg [a]) t := by
  unfold Rv
  have h2 : vals (.expr d a.codim .neg [a]) t = (vals a t).map (· * -1) := by
    unfold vals
    rw [List.map_map]
    exact List.map_congr_left fun k hk => by rw [(val_neg d ht).2 k (List.mem_range.mp hk)]; simp
  rw [h2]
  change RateAt (fun u t => row u (.expr d a.codim .neg [a]) a.codim t) t _
  simp only [row_expr, evalTy, evalNeg, List.map_cons, List.map_nil]
  refine RateAt.bind h ?_
  refine RateAt.comp (x := (t, vals a t)) (f := fun q : ℝ × List ℝ => q.2.map (· * -1)) (RateAt.mapNear _) ?_
  exact LLip.mapOp (op := fun x y => x * y) (LLip.snd' _) (LLip.const (-1 : ℝ) _) mul_llip

theorem rv_unique (d : ℝ × ℝ) {a : Fn} {t : ℝ} (h : Rv a t) : Rv (.expr d a.codim .unique [a]) t := by
  unfold Rv
  have h2 : vals (.expr d a.codim .unique [a]) t = vals a t := by
    unfold vals
    rw [val_unique]; rfl
  rw [h2]
  change RateAt (fun u t => row u (.expr d a.codim .unique [a]) a.codim t) t _
  simp only [row_expr, evalTy, evalUnique, List.map_cons, List.map_nil]
  exact h

open Classical in
theorem rv_gspl {g : GSpline} (hb : g.basis.Valid) (hcon : Consistent g) (hp : Positive g) {t : ℝ}
    (hc : ∀ i, Touches g t i → Clear g.basis (window (vecOf g.tau i) (t - brk g i)))
    (hj : ∀ i j, Touches g t i → Touches g t j → ∀ c < g.codim, curve g i c t = curve g j c t) : Rv (.gspl g) t := by
  obtain ⟨k, hk⟩ := GSpline.located_exists hp t
  have htk := touches_of_located hp hk
  obtain ⟨η, hη, hI⟩ := EvG.of_ev (F := fun u t => Rounded.getInterval u g t) (P := fun r => ∃ i, r = .ok i ∧ Touches g t i) (Rounded.getInterval_at hp t)
  obtain ⟨D, hD, κ, hκ, hG⟩ := Rounded.getInterval_rate hp
  have hv : ∀ i, Touches g t i → ((List.range g.codim).map fun c => curve g i c t) = vals (.gspl g) t := by
    intro i hi
    refine List.map_congr_left fun c hcm => ?_
    have hcc : c < g.codim := List.mem_range.mp hcm
    rw [val_gspl hb hcon hp hk (Props.clean_of_clear (hc k htk)) hcc, hj i k hi htk c hcc]
  refine RateAt.switch (G := fun i u t => pieceValue u g i t) (φ := id) (fun a b => le_refl _) rfl ((List.range g.tau.length).filter fun i => Touches g t i)
    (fun i => i + 1 < g.tau.length ∧ t = brk g (i + 1)) (fun i => 0 < i ∧ t = brk g i) hD (lt_min hη hκ) (fun i hi => ?_) (fun u hu t' ht' o ho => ?_) fun i hi j hj => ?_
  · have hti : Touches g t i := by simpa using (List.mem_filter.mp hi).2
    exact (pieceValue_rate hb hcon hp hti.1 (hc i hti)).congr (hv i hti)
  · change row u (.gspl g) g.codim t' o at ho
    rw [row, if_pos (by rfl), value_eq] at ho
    have hI' := hI u (small_mono (min_le_left _ _) hu) t' (ht'.trans (min_le_left _ _))
    rcases ho with ⟨e, he, -⟩ | ⟨i, hi, ho⟩
    · obtain ⟨_, h, _⟩ := hI' _ he; cases h
    obtain ⟨_, h', hti⟩ := hI' _ hi
    cases h'
    obtain ⟨_, h', -, hg1, hg2⟩ := hG u (small_mono (min_le_right _ _) hu) t' _ hi
    cases h'
    refine ⟨i, List.mem_filter.mpr ⟨List.mem_range.mpr hti.1, by simpa using hti⟩, fun ⟨a1, a2⟩ => ?_, fun ⟨a1, a2⟩ => ?_, ho⟩
    · rw [a2]; exact hg2.resolve_right (by omega)
    · have := hg1.resolve_right (by omega)
      rw [a2]; change brk g i - D * sz u ≤ t'; linarith
  · have hti : Touches g t i := by simpa using (List.mem_filter.mp hi).2
    have htj : Touches g t j := by simpa using (List.mem_filter.mp hj).2
    have key : ∀ i k, i < k → Touches g t i → Touches g t k → k = i + 1 ∧ t = brk g k := by
      intro i k hik hi hk
      have h1 : t ≤ brk g (i + 1) := hi.2.2.resolve_right (by have := hk.1; omega)
      have h2 : brk g k ≤ t := hk.2.1.resolve_right (by omega)
      have h3 : k = i + 1 := by
        by_contra h
        have a := GSpline.brk_lt_succ hp (i := i + 1) (by have := hk.1; omega)
        have b := GSpline.brk_mono hp (i := i + 1 + 1) (j := k) (by omega) (by have := hk.1; omega)
        linarith
      subst h3
      exact ⟨rfl, le_antisymm h1 h2⟩
    rcases lt_trichotomy i j with h | h | h
    · obtain ⟨rfl, e⟩ := key i j h hti htj
      exact .inr (.inl ⟨⟨htj.1, e⟩, by omega, e⟩)
    · exact .inl h
    · obtain ⟨rfl, e⟩ := key j i h htj hti
      exact .inr (.inr ⟨⟨hti.1, e⟩, by omega, e⟩)

theorem clamp_close (d : ℝ × ℝ) (a b : ℝ) : |clamp d a - clamp d b| ≤ |a - b| := by
  unfold clamp
  refine (abs_max_sub_max_le_max _ _ _ _).trans ?_
  rw [sub_self, abs_zero]
  refine max_le (abs_nonneg _) ((abs_min_sub_min_le_max _ _ _ _).trans ?_)
  rw [sub_self, abs_zero]
  exact max_le (abs_nonneg _) le_rfl

open Classical in
theorem rv_concat (d : ℝ × ℝ) {c : ℕ} {l : List Fn} (hp : Pieces l d.1 d.2) (hc : ∀ x ∈ l, x.codim = c) {t : ℝ}
    (h : ∀ a ∈ l, a.dom.1 ≤ clamp d t → clamp d t ≤ a.dom.2 → Rv a (clamp d t))
    (hj : ∀ a ∈ l, ∀ b ∈ l, a.dom.2 = clamp d t → b.dom.1 = clamp d t → ∀ k < c, val a k (clamp d t) = val b k (clamp d t)) : Rv (.expr d c .concat l) t := by
  obtain ⟨b, hb, b1, b2, b3, -⟩ := evalConcat_pick hc hp t
  have hv : ∀ a ∈ l, a.dom.1 ≤ clamp d t → clamp d t ≤ a.dom.2 → vals a (clamp d t) = vals (.expr d c .concat l) t := by
    intro a ha a1 a2
    unfold vals
    rw [hc a ha]
    refine List.map_congr_left fun k hk => ?_
    have hk' : k < c := List.mem_range.mp hk
    rw [val_concat_clamp d hp hc hb b3]
    rcases pieces_meet hp a ha b hb a1 a2 b1 b2 with rfl | ⟨x, y⟩ | ⟨x, y⟩
    · rfl
    · exact hj a ha b hb x y k hk'
    · exact (hj b hb a ha x y k hk').symm
  -- the pieces that are not near
  have far : ∃ η > (0 : ℝ), ∀ a ∈ l, ∀ s, |s - clamp d t| ≤ η → a.dom.1 ≤ s → s ≤ a.dom.2 → a.dom.1 ≤ clamp d t ∧ clamp d t ≤ a.dom.2 := by
    generalize clamp d t = p
    clear * -
    induction l with
    | nil => exact ⟨1, one_pos, fun a ha => absurd ha (by simp)⟩
    | cons e l ih =>
      obtain ⟨η, hη, ih⟩ := ih
      have : ∃ κ > (0 : ℝ), ∀ s, |s - p| ≤ κ → e.dom.1 ≤ s → s ≤ e.dom.2 → e.dom.1 ≤ p ∧ p ≤ e.dom.2 := by
        by_cases h1 : e.dom.1 ≤ p
        · by_cases h2 : p ≤ e.dom.2
          · exact ⟨1, one_pos, fun s _ _ _ => ⟨h1, h2⟩⟩
          · rw [not_le] at h2
            refine ⟨(p - e.dom.2) / 2, by linarith, fun s hs _ h => ?_⟩
            have := (abs_le.mp hs).1
            linarith
        · rw [not_le] at h1
          refine ⟨(e.dom.1 - p) / 2, by linarith, fun s hs h _ => ?_⟩
          have := (abs_le.mp hs).2
          linarith
      obtain ⟨κ, hκ, h⟩ := this
      refine ⟨min κ η, lt_min hκ hη, fun a ha s hs => ?_⟩
      rcases List.mem_cons.mp ha with rfl | ha
      · exact h s (hs.trans (min_le_left _ _))
      · exact ih a ha s (hs.trans (min_le_right _ _))
  obtain ⟨η, hη, far⟩ := far
  refine RateAt.switch (G := fun a u t => row u a c t) (φ := clamp d) (clamp_close d) rfl (l.filter fun a => a.dom.1 ≤ clamp d t ∧ clamp d t ≤ a.dom.2)
    (fun a => a.dom.2 = clamp d t) (fun a => a.dom.1 = clamp d t) (D := 0) le_rfl hη (fun a ha => ?_) (fun u hu t' ht' o ho => ?_) fun a ha b hb => ?_
  · obtain ⟨ha, h12⟩ := List.mem_filter.mp ha
    rw [decide_eq_true_eq] at h12
    have := h a ha h12.1 h12.2
    unfold Rv at this
    rw [hc a ha] at this
    exact this.congr (hv a ha h12.1 h12.2)
  · change row u (.expr d c .concat l) c t' o at ho
    obtain ⟨a, ha, a1, a2, -, a4⟩ := evalConcat_pick hc hp t'
    rw [row_expr, evalTy, a4] at ho
    refine ⟨a, List.mem_filter.mpr ⟨ha, ?_⟩, fun e => ?_, fun e => ?_, ho⟩
    · rw [decide_eq_true_eq]
      exact far a ha _ ((clamp_close d t' t).trans ht') a1 a2
    · rw [zero_mul, add_zero, ← e]; exact a2
    · rw [zero_mul, sub_zero, ← e]; exact a1
  · obtain ⟨ha, a12⟩ := List.mem_filter.mp ha
    obtain ⟨hb, b12⟩ := List.mem_filter.mp hb
    rw [decide_eq_true_eq] at a12 b12
    rcases pieces_meet hp a ha b hb a12.1 a12.2 b12.1 b12.2 with rfl | ⟨x, y⟩ | ⟨x, y⟩
    · exact .inl rfl
    · exact .inr (.inl ⟨x, y⟩)
    · exact .inr (.inr ⟨x, y⟩)

theorem llip_of_user {φ : ℝ → ℝ} {t : ℝ} (h : ∃ L, ∃ δ > 0, ∀ s s', |s - t| ≤ δ → |s' - t| ≤ δ → |φ s - φ s'| ≤ L * |s - s'|) : LLip φ t := by
  obtain ⟨L, δ, hδ, h⟩ := h
  refine ⟨|L|, abs_nonneg _, δ, hδ, fun a a' ha ha' r hr hcl => ?_⟩
  have hcl' : |a - a'| ≤ r := hcl
  exact (h a a' ha ha').trans ((mul_le_mul_of_nonneg_right (le_abs_self L) (abs_nonneg _)).trans (mul_le_mul_of_nonneg_left hcl' (abs_nonneg _)))

/-- The errors of rounded evaluation are proportional to the rounding errors. -/
theorem rv_of_good {f : Fn} (hg : Good f) : ∀ {t : ℝ}, Calm f t → Rv f t := by
  induction hg with
  | const d v => intro t _; exact rv_const d v t
  | dil d c => intro t _; exact rv_scalar rfl (fun u t => by rw [row]) (val_dil d c).2 (RateAt.near (f := fun t => c * t) (by fun_prop))
  | ident d => intro t _; exact rv_scalar rfl (fun u t => by rw [row]) (val_ident d).2 (RateAt.pure (f := fun t => t) (by fun_prop))
  | exp d => intro t _; exact rv_scalar rfl (fun u t => by rw [row]) (val_exp d).2 (RateAt.near (by fun_prop))
  | cos d => intro t _; exact rv_scalar rfl (fun u t => by rw [row]) (val_cos d).2 (RateAt.near (by fun_prop))
  | sin d => intro t _; exact rv_scalar rfl (fun u t => by rw [row]) (val_sin d).2 (RateAt.near (by fun_prop))
  | poly d a ha => intro t _; exact rv_poly d ha t
  | user d c F => intro t hs; cases hs with | user _ _ _ _ h => exact rv_user d c F fun k hk => llip_of_user (h k hk)
  | gspl g hb hcon hp _ => intro t hs; cases hs with | gspl _ _ h1 h2 => exact rv_gspl hb hcon hp h1 h2
  | dot d f g hf hg hc _ _ ihf ihg => intro t hs; cases hs with | dot _ _ _ _ h1 h2 => exact rv_dot d (tot_of_good hf) (tot_of_good hg) hc (ihf h1) (ihg h2)
  | expr d c ty args ha hsh ih =>
    intro t hs
    have hto : ∀ a ∈ args, a.Tot := fun a h => tot_of_good (ha a h)
    cases hs with
    | sum _ _ _ _ h =>
      obtain ⟨⟨a, rest, rfl, -⟩, hc⟩ := hsh
      exact rv_sum d (by simp) hto hc fun a h' => ih a h' (h a h')
    | mul _ _ _ _ h =>
      obtain ⟨a, rest, rfl, -, rfl, hc⟩ := hsh
      exact rv_mul d (hto a (by simp)) (fun b hb => hto b (by simp [hb])) hc (ih a (by simp) (h a (by simp))) fun b hb => ih b (by simp [hb]) (h b (by simp [hb]))
    | comp _ _ _ _ h =>
      obtain ⟨-, init, z, rfl, rfl, hc⟩ := hsh
      exact rv_comp d (hto z (by simp)) (fun b hb => hto b (by simp [hb])) hc fun pre a post e => ih a (by rw [e]; simp) (h pre a post e)
    | concat _ _ _ _ h hj =>
      exact rv_concat d hsh.1 hsh.2 (fun a h' a1 a2 => ih a h' (h a h' a1 a2)) hj
    | unique _ _ _ _ h =>
      obtain ⟨a, rfl, -, rfl⟩ := hsh
      exact rv_unique d (ih a (by simp) (h a (by simp)))
    | neg _ _ _ _ h =>
      obtain ⟨a, rfl, -, rfl⟩ := hsh
      exact rv_neg d (hto a (by simp)) (ih a (by simp) (h a (by simp)))

end GSplines.Rounded
