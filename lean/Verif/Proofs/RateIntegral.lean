import Verif.Proofs.RateFn
import Verif.Proofs.RateGLL
import Verif.Proofs.RoundingIntegral
import Verif.Props.GLLNodes

/-! # The integral: errors proportional to the rounding errors -/

namespace GSplines.Nd

/-- A program applied to all entries of a list. -/
theorem RateAt.mapVar {β : Type} [Gauge β] {F : ℝ × ℝ → ℝ → Nd β} {z : ℝ → β} (l : List ℝ) (h : ∀ t ∈ l, RateAt F t (z t)) : RateAt (fun u (l : List ℝ) => l.mapM (F u)) l (l.map z) := by
  have e : ∀ {l' : List ℝ} {γ : Type} (g : ℝ → γ), l'.length = l.length → l'.map g = (List.range l.length).map fun k => g (vecOf l' k) := by
    intro l' γ g hl
    conv_lhs => rw [list_range hl]
    rw [List.map_map]; rfl
  have h1 : RateAt (fun u (l' : List ℝ) => (List.range l.length).mapM fun k => F u (vecOf l' k)) l ((List.range l.length).map fun k => z (vecOf l k)) := by
    refine RateAt.mapM (F := fun u k (l' : List ℝ) => F u (vecOf l' k)) _ fun k hk => ?_
    have hk := List.mem_range.mp hk
    refine RateAt.comp (F := F) (f := fun l' : List ℝ => vecOf l' k) (h _ ?_) (LLip.vecOf (LLip.id _) k)
    have : vecOf l k = l[k] := by
      unfold vecOf
      rw [List.getD_eq_getElem?_getD, List.getElem?_eq_getElem hk]; rfl
    rw [this]
    exact List.getElem_mem hk
  rw [e z rfl]
  refine RateAt.of_near (η := 1) one_pos h1 fun u l' o hcl ho => ?_
  have hl : l'.length = l.length := close_length hcl
  rw [list_range hl, List.mapM_map] at ho
  exact ho

end GSplines.Nd

namespace GSplines.Rounded

open Nd Spec Fn

theorem gridPoint_rate (q : ℝ × ℝ × ℝ) : RateAt (fun u (q : ℝ × ℝ × ℝ) => gridPoint u q.1 q.2.1 q.2.2) q ((q.2.2 + 1) * q.1 / 2 + q.2.1) := by
  unfold gridPoint
  refine RateAt.bind (RateAt.near (f := fun q : ℝ × ℝ × ℝ => q.2.2 + 1) (by fun_prop)) ?_
  refine RateAt.bind (RateAt.near (f := fun p : (ℝ × ℝ × ℝ) × ℝ => p.2 * p.1.1) (by fun_prop)) ?_
  refine RateAt.bind (RateAt.near (f := fun p : ((ℝ × ℝ × ℝ) × ℝ) × ℝ => p.2 / 2) (by fun_prop)) ?_
  exact RateAt.near (f := fun p : (((ℝ × ℝ × ℝ) × ℝ) × ℝ) × ℝ => p.2 + p.1.1.1.2.1) (by fun_prop)

theorem pts_rate (n : ℕ) (len left : ℝ) (p : Vec) :
    RateAt (fun u (q : ℝ × ℝ × Vec) => (List.range n).mapM fun k => gridPoint u q.1 q.2.1 (q.2.2 k)) (len, left, p) (pts n len left p) := by
  refine RateAt.mapM (F := fun u k (q : ℝ × ℝ × Vec) => gridPoint u q.1 q.2.1 (q.2.2 k)) (z := fun k => (p k + 1) * len / 2 + left) _ fun k _ => ?_
  exact RateAt.comp (x := (len, left, p)) (f := fun q : ℝ × ℝ × Vec => (q.1, q.2.1, q.2.2 k)) (gridPoint_rate _) (by fun_prop)

theorem close_getD {β : Type} [Gauge β] (d : β) {r : ℝ} (hr : 0 ≤ r) {a b : List β} (h : close r a b) (k : ℕ) : close r (a.getD k d) (b.getD k d) := by
  have hF : List.Forall₂ (close r) a b := h
  induction hF generalizing k with
  | nil => exact Gauge.refl' _ hr
  | cons h1 h2 ih =>
    cases k with
    | zero => exact h1
    | succ k => exact ih h2 k

theorem zip_llip (w : Vec) (v : List (List ℝ)) (l : List ℕ) :
    LLip (fun p : List (List ℝ) × Vec => List.zipWith (fun row k => row.headD 0 * p.2 k) p.1 l) (v, w) := by
  have h : LLip (fun p : List (List ℝ) × Vec => (List.range (min v.length l.length)).map fun i => (p.1.getD i []).headD 0 * p.2 (l.getD i 0)) (v, w) := by
    refine LLip.mapList (F := fun (p : List (List ℝ) × Vec) i => (p.1.getD i []).headD 0 * p.2 (l.getD i 0)) _ fun i _ => ?_
    refine LLip.mul (LLip.headD ?_) (by fun_prop)
    exact LLip.of_bound (C := 1) (δ := 1) (by norm_num) one_pos fun a a' _ _ r hr hcl => by rw [one_mul]; exact close_getD [] hr hcl.1 i
  refine LLip.of_near (η := 1) one_pos h fun p hcl => ?_
  have hl : p.1.length = v.length := close_length hcl.1
  refine List.ext_getElem (by simp [hl]) fun i h1 h2 => ?_
  have h3 : i < p.1.length := by simp at h1; omega
  have h4 : i < l.length := by simp at h1; omega
  simp [List.getD_eq_getElem?_getD, List.getElem?_eq_getElem h3, List.getElem?_eq_getElem h4]

variable {f : Fn}

theorem step_rate (hg : Good f) (hc : f.codim = 1) {n iv : ℕ} {p w : Vec} {len : ℝ} (hs : ∀ t ∈ pts n len (f.dom.1 + iv * len) p, Calm f t) (r : ℝ) :
    RateAt (fun u (q : ((Vec × Vec) × ℝ) × ℝ) => integralStep u f n q.1.2 q.1.1.1 q.1.1.2 iv q.2) (((p, w), len), r) (cell f n len p w iv r) := by
  unfold integralStep
  refine RateAt.bind (RateAt.near (f := fun q : ((Vec × Vec) × ℝ) × ℝ => iv * q.1.2) (by fun_prop)) ?_
  refine RateAt.bind (RateAt.near (f := fun q : (((Vec × Vec) × ℝ) × ℝ) × ℝ => f.dom.1 + q.2) (by fun_prop)) ?_
  refine RateAt.bind (RateAt.comp (x := (((((p, w), len), r), iv * len), f.dom.1 + iv * len)) (f := fun q : ((((Vec × Vec) × ℝ) × ℝ) × ℝ) × ℝ => (q.1.1.1.2, q.2, q.1.1.1.1.1)) (pts_rate n len (f.dom.1 + iv * len) p) (by fun_prop)) ?_
  refine RateAt.bind (RateAt.comp (f := fun q : (((((Vec × Vec) × ℝ) × ℝ) × ℝ) × ℝ) × List ℝ => q.2)
    (RateAt.mapVar (F := fun u t => row u f 1 t) (z := vals f) (pts n len (f.dom.1 + iv * len) p) fun t ht => by
      have := rv_of_good hg (hs t ht)
      unfold Rv at this
      rwa [hc] at this) (by fun_prop)) ?_
  refine RateAt.bind (RateAt.comp (f := fun q : ((((((Vec × Vec) × ℝ) × ℝ) × ℝ) × ℝ) × List ℝ) × List (List ℝ) =>
    List.zipWith (fun row k => row.headD 0 * q.1.1.1.1.1.1.2 k) q.2 (List.range n)) (RateAt.mapNear _) ?_) ?_
  · refine LLip.comp (x := (((((((p, w), len), r), iv * len), f.dom.1 + iv * len), pts n len (f.dom.1 + iv * len) p), (pts n len (f.dom.1 + iv * len) p).map (vals f)))
      (f := fun q : ((((((Vec × Vec) × ℝ) × ℝ) × ℝ) × ℝ) × List ℝ) × List (List ℝ) => (q.2, q.1.1.1.1.1.1.2))
      (g := fun p : List (List ℝ) × Vec => List.zipWith (fun row k => row.headD 0 * p.2 k) p.1 (List.range n)) (zip_llip _ _ _) (by fun_prop)
  refine RateAt.bind (RateAt.comp (f := fun q : (((((((Vec × Vec) × ℝ) × ℝ) × ℝ) × ℝ) × List ℝ) × List (List ℝ)) × List ℝ => q.2) (RateAt.sumList _) (by fun_prop)) ?_
  refine RateAt.bind (RateAt.near (f := fun q : ((((((((Vec × Vec) × ℝ) × ℝ) × ℝ) × ℝ) × List ℝ) × List (List ℝ)) × List ℝ) × ℝ => q.2 * q.1.1.1.1.1.1.1.2) (by fun_prop)) ?_
  refine RateAt.bind (RateAt.near (f := fun q : (((((((((Vec × Vec) × ℝ) × ℝ) × ℝ) × ℝ) × List ℝ) × List (List ℝ)) × List ℝ) × ℝ) × ℝ => q.2 / 2) (by fun_prop)) ?_
  exact RateAt.near (f := fun q : ((((((((((Vec × Vec) × ℝ) × ℝ) × ℝ) × ℝ) × List ℝ) × List (List ℝ)) × List ℝ) × ℝ) × ℝ) × ℝ => q.1.1.1.1.1.1.1.1.2 + q.2) (by fun_prop)

theorem given_rate (hg : Good f) (hc : f.codim = 1) {n k : ℕ} (hk : 0 < k) {p w : Vec} (hs : ∀ iv < k, ∀ j < n, Calm f (Spec.gridPoint f.dom k iv (p j))) :
    RateAt (fun u pw => given u f n k pw) (p, w) (quadrature (val f 0) f.dom n k p w) := by
  have hk0 : (k : ℝ) ≠ 0 := by exact_mod_cast hk.ne'
  unfold given
  simp only [if_neg hk.ne']
  refine RateAt.bind (RateAt.near (f := fun _ : Vec × Vec => f.dom.2 - f.dom.1) (LLip.const _ _)) ?_
  refine RateAt.bind (RateAt.quot (f := fun q : (Vec × Vec) × ℝ => q.2) (g := fun _ => (k : ℝ)) (by fun_prop) (LLip.const _ _) hk0) ?_
  rw [← loop_cell hc]
  have h := RateAt.loop (a := 0) (b := k) (s := 0) (x := ((p, w), (f.dom.2 - f.dom.1) / k)) (body := fun u iv (q : (Vec × Vec) × ℝ) r => integralStep u f n q.2 q.1.1 q.1.2 iv r)
    (exact := cell f n ((f.dom.2 - f.dom.1) / k) p w) fun iv _ hiv r => step_rate hg hc (fun t ht => by
      rw [pts_grid] at ht
      obtain ⟨j, hj, rfl⟩ := List.mem_map.mp ht
      exact hs iv hiv j (List.mem_range.mp hj)) r
  exact RateAt.comp (x := (((p, w), f.dom.2 - f.dom.1), (f.dom.2 - f.dom.1) / (k : ℝ))) (f := fun q : ((Vec × Vec) × ℝ) × ℝ => ((q.1.1, q.2), (0 : ℝ))) h (by fun_prop)

/-- A vector from its first entries. -/
def pad {n : ℕ} (x : Fin n → ℝ) : Vec := fun i => if h : i < n then x ⟨i, h⟩ else 0

theorem pad_close {n : ℕ} {r : ℝ} {x y : Fin n → ℝ} (h : dist x y ≤ r) : close r (pad x) (pad y) := by
  have hr : 0 ≤ r := dist_nonneg.trans h
  intro i
  unfold pad
  by_cases hi : i < n
  · simp only [hi, dite_true]
    exact (dist_le_pi_dist x y ⟨i, hi⟩).trans h
  · simp only [hi, dite_false]
    exact Gauge.refl' _ hr

theorem given_uniform (hg : Good f) (hc : f.codim = 1) {n k : ℕ} (hk : 0 < k) (hd : f.dom.1 ≤ f.dom.2) (hs : ∀ t, f.dom.1 ≤ t → t ≤ f.dom.2 → Calm f t) (B : ℝ) :
    ∃ C ≥ (0 : ℝ), ∃ δ > (0 : ℝ), ∀ pw : Vec × Vec, (∀ i < n, pw.1 i ∈ Set.Icc (-1 : ℝ) 1 ∧ |pw.2 i| ≤ B) → ∀ u, Small u δ →
      All (given u f n k pw) fun o => ∃ v, o = .ok v ∧ |v - quadrature (val f 0) f.dom n k pw.1 pw.2| ≤ C * Nd.sz u := by
  have hK : IsCompact ((Set.univ.pi fun _ : Fin n => Set.Icc (-1 : ℝ) 1) ×ˢ (Set.univ.pi fun _ : Fin n => Set.Icc (-B) B)) :=
    (isCompact_univ_pi fun _ => isCompact_Icc).prod (isCompact_univ_pi fun _ => isCompact_Icc)
  have main : ∃ C ≥ (0 : ℝ), ∃ δ > (0 : ℝ), ∀ q ∈ ((Set.univ.pi fun _ : Fin n => Set.Icc (-1 : ℝ) 1) ×ˢ (Set.univ.pi fun _ : Fin n => Set.Icc (-B) B)), ∀ u, Small u δ →
      All (given u f n k (pad q.1, pad q.2)) fun o => ∃ v, o = .ok v ∧ |v - quadrature (val f 0) f.dom n k (pad q.1) (pad q.2)| ≤ C * Nd.sz u := by
    refine hK.induction_on (p := fun S => ∃ C ≥ (0 : ℝ), ∃ δ > (0 : ℝ), ∀ q ∈ S, ∀ u, Small u δ →
      All (given u f n k (pad q.1, pad q.2)) fun o => ∃ v, o = .ok v ∧ |v - quadrature (val f 0) f.dom n k (pad q.1) (pad q.2)| ≤ C * Nd.sz u) ?_ ?_ ?_ ?_
    · exact ⟨0, le_rfl, 1, one_pos, fun t ht => absurd ht (Set.notMem_empty t)⟩
    · rintro S T hST ⟨C, hC, δ, hδ, h⟩
      exact ⟨C, hC, δ, hδ, fun t ht => h t (hST ht)⟩
    · rintro S T ⟨C, hC, δ, hδ, h⟩ ⟨D, hD, η, hη, h'⟩
      refine ⟨max C D, le_max_of_le_left hC, min δ η, lt_min hδ hη, fun t ht u hu r hr => ?_⟩
      have hn := sz_nonneg hu
      rcases ht with ht | ht
      · obtain ⟨v, a1, a2⟩ := h t ht u (Nd.small_mono (min_le_left _ _) hu) r hr
        exact ⟨v, a1, a2.trans (mul_le_mul_of_nonneg_right (le_max_left _ _) hn)⟩
      · obtain ⟨v, a1, a2⟩ := h' t ht u (Nd.small_mono (min_le_right _ _) hu) r hr
        exact ⟨v, a1, a2.trans (mul_le_mul_of_nonneg_right (le_max_right _ _) hn)⟩
    · intro q hq
      obtain ⟨C, hC, δ, hδ, h⟩ := given_rate hg hc (n := n) hk (p := pad q.1) (w := pad q.2) fun iv hiv j hj => by
        have hm : pad q.1 j ∈ Set.Icc (-1 : ℝ) 1 := by
          unfold pad
          rw [dif_pos hj]
          exact hq.1 _ trivial
        obtain ⟨-, -, a, b⟩ := Props.gridPoint_mem hd hiv hm
        exact hs _ a b
      refine ⟨Metric.closedBall q δ, mem_nhdsWithin_of_mem_nhds (Metric.closedBall_mem_nhds q hδ), C, hC, δ, hδ, fun q' hq' u hu o ho => ?_⟩
      rw [Metric.mem_closedBall, Prod.dist_eq, max_le_iff] at hq'
      have hcl : close δ (pad q'.1, pad q'.2) (pad q.1, pad q.2) := ⟨pad_close hq'.1, pad_close hq'.2⟩
      obtain ⟨h1, h2⟩ := h u hu _ o ho
      obtain ⟨v, e, -⟩ := h1 δ hδ.le le_rfl hcl
      have h0 : Small (0 : ℝ × ℝ) δ := ⟨le_rfl, hδ.le, le_rfl, hδ.le⟩
      have hex := given_has (u := 0) le_rfl le_rfl hg hc n k (pad q'.1, pad q'.2)
      have := h2 0 _ v _ h0 hcl hcl 0 le_rfl (Gauge.refl' _ le_rfl) e hex
      have e0 : Nd.sz (0 : ℝ × ℝ) = 0 := by simp [Nd.sz]
      rw [e0, add_zero, add_zero] at this
      exact ⟨v, e, this⟩
  obtain ⟨C, hC, δ, hδ, h⟩ := main
  refine ⟨C, hC, δ, hδ, fun pw hpw u hu o ho => ?_⟩
  have hb : ∀ i < n, pw.1 i = pad (fun j : Fin n => pw.1 j) i ∧ pw.2 i = pad (fun j : Fin n => pw.2 j) i := fun i hi => by unfold pad; simp [hi]
  rw [given_congr u n k (pw' := (pad (fun j : Fin n => pw.1 j), pad (fun j : Fin n => pw.2 j))) hb] at ho
  obtain ⟨v, e, hv⟩ := h (fun j => pw.1 j, fun j => pw.2 j) ⟨fun j _ => (hpw j j.2).1, fun j _ => abs_le.mp (hpw j j.2).2⟩ u hu o ho
  refine ⟨v, e, ?_⟩
  have eq : quadrature (val f 0) f.dom n k pw.1 pw.2 = quadrature (val f 0) f.dom n k (pad fun j : Fin n => pw.1 j) (pad fun j : Fin n => pw.2 j) := by
    unfold quadrature
    refine Finset.sum_congr rfl fun iv _ => ?_
    congr 1
    refine Finset.sum_congr rfl fun j hj => ?_
    obtain ⟨e1, e2⟩ := hb j (Finset.mem_range.mp hj)
    rw [← e1, ← e2]
  rw [eq]
  exact hv

end GSplines.Rounded
