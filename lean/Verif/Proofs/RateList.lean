import Verif.Proofs.RateSpline
import Verif.Proofs.RoundingList

/-! # Rounded programs on lists: errors proportional to the rounding errors -/

namespace GSplines.Nd

open Spec

variable {α β γ : Type} [Gauge α] [Gauge β] [Gauge γ]

/-- Only the outcomes near the point matter. -/
theorem RateAt.of_near {F G : ℝ × ℝ → α → Nd β} {x : α} {z : β} {η : ℝ} (hη : 0 < η) (h : RateAt G x z) (e : ∀ u a o, close η a x → F u a o → G u a o) : RateAt F x z := by
  obtain ⟨C, hC, δ, hδ, h⟩ := h
  refine ⟨C, hC, min δ η, lt_min hδ hη, fun u hu a o ho => ⟨fun r hr hr' hcl => ?_, fun u' a' b b' hu' ha ha' r hr hcl hb hb' => ?_⟩⟩
  · have ha : close η a x := Gauge.mono' (hr'.trans (min_le_right _ _)) hcl
    exact (h u (small_mono (min_le_left _ _) hu) a o (e u a o ha ho)).1 r hr (hr'.trans (min_le_left _ _)) hcl
  · have h1 : close η a x := Gauge.mono' (min_le_right _ _) ha
    have h2 : close η a' x := Gauge.mono' (min_le_right _ _) ha'
    exact (h u (small_mono (min_le_left _ _) hu) a o (e u a o h1 ho)).2 u' a' b b' (small_mono (min_le_left _ _) hu') (Gauge.mono' (min_le_left _ _) ha)
      (Gauge.mono' (min_le_left _ _) ha') r hr hcl hb (e u' a' _ h2 hb')

theorem LLip.of_near {f g : α → β} {x : α} {η : ℝ} (hη : 0 < η) (h : LLip g x) (e : ∀ a, close η a x → f a = g a) : LLip f x := by
  obtain ⟨C, hC, δ, hδ, h⟩ := h
  refine ⟨C, hC, min δ η, lt_min hδ hη, fun a a' ha ha' r hr hcl => ?_⟩
  rw [e a (Gauge.mono' (min_le_right _ _) ha), e a' (Gauge.mono' (min_le_right _ _) ha')]
  exact h a a' (Gauge.mono' (min_le_left _ _) ha) (Gauge.mono' (min_le_left _ _) ha') r hr hcl

theorem close_length {r : ℝ} {a b : List β} (h : close r a b) : a.length = b.length := List.Forall₂.length_eq (R := close r) h

theorem close_vecOf {r : ℝ} (hr : 0 ≤ r) {a b : List ℝ} (h : close r a b) (k : ℕ) : |vecOf a k - vecOf b k| ≤ r := by
  have hF : List.Forall₂ (close r) a b := h
  induction hF generalizing k with
  | nil => simpa [vecOf] using hr
  | cons h1 h2 ih =>
    cases k with
    | zero => exact h1
    | succ k => exact ih h2 k

theorem LLip.vecOf {f : α → List ℝ} {x : α} (hf : LLip f x) (k : ℕ) : LLip (fun a => GSplines.vecOf (f a) k) x :=
  LLip.comp (g := fun l : List ℝ => GSplines.vecOf l k) (LLip.of_bound (C := 1) (δ := 1) (by norm_num) (by norm_num) fun a a' _ _ r hr h => by rw [one_mul]; exact close_vecOf hr h k) hf

theorem headD_eq (l : List ℝ) : l.headD 0 = GSplines.vecOf l 0 := by cases l <;> rfl

theorem LLip.headD {f : α → List ℝ} {x : α} (hf : LLip f x) : LLip (fun a => (f a).headD 0) x := by
  simp only [headD_eq]
  exact hf.vecOf 0

theorem LLip.mapList {ι : Type} {F : α → ι → β} {x : α} (l : List ι) (h : ∀ k ∈ l, LLip (fun a => F a k) x) : LLip (fun a => l.map (F a)) x := by
  induction l with
  | nil => exact LLip.const _ _
  | cons k l ih =>
    simp only [List.map_cons]
    exact LLip.cons (h k (by simp)) (ih fun j hj => h j (by simp [hj]))

theorem list_range {n : ℕ} {l : List ℝ} (h : l.length = n) : l = (List.range n).map (GSplines.vecOf l) := by
  subst h
  apply List.ext_getElem
  · simp
  · intro i h1 h2
    simp [GSplines.vecOf, List.getElem?_eq_getElem h1]

/-- A list whose length does not change. -/
theorem LLip.length {f : α → List ℝ} {x : α} (hf : LLip f x) : ∃ η > (0 : ℝ), ∀ a, close η a x → (f a).length = (f x).length := by
  obtain ⟨C, -, δ, hδ, h⟩ := hf
  exact ⟨δ, hδ, fun a ha => close_length (h a x ha (Gauge.refl' x hδ.le) δ hδ.le ha)⟩

theorem LLip.zipWith {op : ℝ → ℝ → ℝ} {f g : α → List ℝ} {x : α} (hf : LLip f x) (hg : LLip g x)
    (ho : ∀ y z, LLip (fun p : ℝ × ℝ => op p.1 p.2) (y, z)) : LLip (fun a => List.zipWith op (f a) (g a)) x := by
  obtain ⟨η, hη, h1⟩ := hf.length
  obtain ⟨κ, hκ, h2⟩ := hg.length
  refine LLip.of_near (g := fun a => (List.range (min (f x).length (g x).length)).map fun k => op (GSplines.vecOf (f a) k) (GSplines.vecOf (g a) k)) (lt_min hη hκ)
    (LLip.mapList _ fun k _ => LLip.comp (g := fun p : ℝ × ℝ => op p.1 p.2) (f := fun a => (GSplines.vecOf (f a) k, GSplines.vecOf (g a) k)) (ho _ _) (LLip.prodMk (hf.vecOf k) (hg.vecOf k))) fun a ha => ?_
  have e1 := h1 a (Gauge.mono' (min_le_left _ _) ha)
  have e2 := h2 a (Gauge.mono' (min_le_right _ _) ha)
  apply List.ext_getElem
  · simp [e1, e2]
  · intro i h3 h4
    simp only [List.length_zipWith] at h3
    simp only [List.getElem_zipWith, List.getElem_map, List.getElem_range, GSplines.vecOf]
    rw [List.getD_eq_getElem?_getD, List.getD_eq_getElem?_getD, List.getElem?_eq_getElem (by omega), List.getElem?_eq_getElem (by omega)]
    rfl

theorem LLip.mapOp {op : ℝ → β → ℝ} {f : α → List ℝ} {g : α → β} {x : α} (hf : LLip f x) (hg : LLip g x)
    (ho : ∀ y z, LLip (fun p : ℝ × β => op p.1 p.2) (y, z)) : LLip (fun a => (f a).map fun y => op y (g a)) x := by
  obtain ⟨η, hη, h1⟩ := hf.length
  refine LLip.of_near (g := fun a => (List.range (f x).length).map fun k => op (GSplines.vecOf (f a) k) (g a)) hη
    (LLip.mapList _ fun k _ => LLip.comp (g := fun p : ℝ × β => op p.1 p.2) (f := fun a => (GSplines.vecOf (f a) k, g a)) (ho _ _) (LLip.prodMk (hf.vecOf k) hg)) fun a ha => ?_
  have e1 := h1 a ha
  conv_lhs => rw [list_range e1]
  rw [List.map_map]
  rfl

theorem RateAt.mapNear (l : List ℝ) : RateAt (fun u (l : List ℝ) => l.mapM (Nd.near u)) l l := by
  refine RateAt.of_near (G := fun u (a : List ℝ) => (List.range l.length).mapM fun k => Nd.near u (GSplines.vecOf a k)) (η := 1) one_pos
    ((RateAt.mapM (List.range l.length) fun k _ => RateAt.near (f := fun a : List ℝ => GSplines.vecOf a k) ((LLip.id l).vecOf k)).congr (list_range rfl).symm) ?_
  intro u a o ha ho
  have e : (List.range l.length).mapM (fun k => Nd.near u (GSplines.vecOf a k)) = a.mapM (Nd.near u) := by
    conv_rhs => rw [list_range (close_length ha)]
    rw [List.mapM_map]
    rfl
  rw [e]
  exact ho

theorem RateAt.sumList (l : List ℝ) : RateAt (fun u (l : List ℝ) => Nd.sum u l) l l.sum := by
  refine RateAt.of_near (G := fun u (a : List ℝ) => Nd.sum u ((List.range l.length).map (GSplines.vecOf a))) (η := 1) one_pos
    ((RateAt.sum (n := l.length) (f := fun k (a : List ℝ) => GSplines.vecOf a k) fun k _ => (LLip.id l).vecOf k).congr ?_) ?_
  · conv_rhs => rw [list_range (l := l) rfl]
    rfl
  · intro u a o ha ho
    rw [← list_range (close_length ha)]
    exact ho

end GSplines.Nd

namespace GSplines.Rounded

open Nd Spec

theorem mul_llip (y z : ℝ) : LLip (fun p : ℝ × ℝ => p.1 * p.2) (y, z) := by fun_prop

theorem add_llip (y z : ℝ) : LLip (fun p : ℝ × ℝ => p.1 + p.2) (y, z) := by fun_prop

/-- The scalar product of two rows. -/
theorem dotList_rate (a b : List ℝ) : RateAt (fun u (p : List ℝ × List ℝ) => dot u p.1 p.2) (a, b) (List.zipWith (· * ·) a b).sum := by
  unfold dot
  refine RateAt.bind (RateAt.comp (x := (a, b)) (f := fun p : List ℝ × List ℝ => List.zipWith (· * ·) p.1 p.2) (RateAt.mapNear _)
    (LLip.zipWith (LLip.fst' _) (LLip.snd' _) mul_llip)) ?_
  exact RateAt.comp (x := ((a, b), List.zipWith (· * ·) a b)) (f := fun p : (List ℝ × List ℝ) × List ℝ => p.2) (RateAt.sumList _) (LLip.snd' _)

end GSplines.Rounded
