import Verif.Model.PathIntegral
import Verif.Props.Integral

/-!
# C65: the integral of the squared norm of a path along a change of the parameter
-/

namespace GSplines.Props

open GSplines Spec Finset Fn Colloc

/-- **C65.** `integral(diffeo, path)` throws if the first function is not scalar. Otherwise it returns a value exactly if both functions can be evaluated at the points
needed, and then it is the ten point quadrature of `|path(diffeo(t))|²` over the domain of the first function. -/
theorem C65_path_integral (diffeo path : Fn) (hd : Built diffeo) (hp : Built path) (jp jw p w : Vec) (hpw : GLL.pointsWeights 10 jp jw = .ok (p, w)) :
    (diffeo.codim ≠ 1 → pathIntegral diffeo path jp jw = .error .invalidArgument) ∧
    (diffeo.codim = 1 → ∀ v, pathIntegral diffeo path jp jw = .ok v ↔
      (∀ j < 10, ∃ s row, diffeo.call [gridPoint diffeo.dom 1 0 (p j)] = .ok [[s]] ∧ path.call [s] = .ok [row]) ∧
      v = quadrature (fun t => ∑ c ∈ range path.codim, val path c (val diffeo 0 t) ^ 2) diffeo.dom 10 1 p w) := by
  obtain ⟨r, hr, hrc, hrd, hrv⟩ := (C08_dot_value path path ⟨false, false⟩).2 rfl
  have hrb : Built r := .dot _ hp hp hr
  have hw : diffeo.wrap.codim = diffeo.codim := rfl
  obtain ⟨c1, c2⟩ := C04_compose_partial ⟨true, true⟩ r diffeo.wrap hrb (.wrap hd)
  refine ⟨fun h => ?_, fun h v => ?_⟩
  · unfold pathIntegral
    rw [hr]
    show (compose ⟨true, true⟩ r diffeo.wrap).bind _ = _
    rw [c1 (by rw [hw]; exact h)]
    rfl
  · obtain ⟨c, hc, -, hcc, hcd, hcv⟩ := c2 (by rw [hw]; exact h)
    have hpi : pathIntegral diffeo path jp jw = c.integral 10 1 jp jw := by
      unfold pathIntegral
      rw [hr]
      show (compose ⟨true, true⟩ r diffeo.wrap).bind _ = _
      rw [hc]
      rfl
    have hdom : c.dom = diffeo.dom := hcd (by simp)
    have hcall : ∀ t, c.call [t] = (do let y ← diffeo.call [t]; r.call (y.map fun row => row.headD 0)) := by
      intro t
      rw [hcv]
      congr 1
      unfold call
      rw [run_wrap]
      rfl
    have hone : ∀ t, (∃ x, c.call [t] = .ok [[x]]) ↔ ∃ s row, diffeo.call [t] = .ok [[s]] ∧ path.call [s] = .ok [row] := by
      intro t
      rw [hcall]
      constructor
      · rintro ⟨x, hx⟩
        obtain ⟨y, hy, hx⟩ := bind_ok.mp hx
        have := val_one h hy
        subst this
        obtain ⟨a, b, ha, -, -⟩ := (hrv _ _).mp hx
        simp only [List.map_cons, List.map_nil, List.headD_cons] at ha
        obtain ⟨l1, -⟩ := C10_shape path _ _ ha
        match a, l1 with
        | [row], _ => exact ⟨_, row, hy, ha⟩
      · rintro ⟨s, row, h1, h2⟩
        refine ⟨_, bind_ok.mpr ⟨_, h1, (hrv _ _).mpr ⟨_, _, h2, h2, rfl⟩⟩⟩
    have hval : ∀ t, (∃ s row, diffeo.call [t] = .ok [[s]] ∧ path.call [s] = .ok [row]) → val c 0 t = ∑ k ∈ range path.codim, val path k (val diffeo 0 t) ^ 2 := by
      rintro t ⟨s, row, h1, h2⟩
      have h3 : val diffeo 0 t = s := by rw [val_of_call h1]; rfl
      have h4 : c.call [t] = .ok [[(List.zipWith (· * ·) row row).sum]] := by
        rw [hcall]
        exact bind_ok.mpr ⟨_, h1, (hrv _ _).mpr ⟨_, _, h2, h2, rfl⟩⟩
      rw [val_of_call h4, h3]
      obtain ⟨-, l2⟩ := C10_shape path _ _ h2
      have hl := l2 row (by simp)
      simp only [val_of_call h2, ← hl]
      show (List.zipWith (· * ·) row row).sum = _
      clear h2 h4 l2 hl
      induction row with
      | nil => simp
      | cons a row ih =>
        rw [List.zipWith_cons_cons, List.sum_cons, List.length_cons, sum_range_succ', ih, add_comm, sq]
        congr 1
    rw [hpi, (C43_integral c 10 1 jp jw).2 (hcc.trans hrc) v]
    constructor
    · rintro ⟨p', w', e, hev, hv⟩
      rw [hpw] at e
      cases e
      rw [hdom] at hev hv
      have hall : ∀ j < 10, ∃ s row, diffeo.call [gridPoint diffeo.dom 1 0 (p j)] = .ok [[s]] ∧ path.call [s] = .ok [row] := fun j hj => (hone _).mp (hev 0 (by norm_num) j hj)
      refine ⟨hall, hv.trans ?_⟩
      unfold quadrature
      simp only [range_one, sum_singleton]
      congr 1
      refine sum_congr rfl fun j hj => ?_
      rw [hval _ (by simpa using hall j (mem_range.mp hj))]
    · rintro ⟨hall, hv⟩
      refine ⟨p, w, hpw, ?_, ?_⟩
      · rw [hdom]
        intro iv hiv j hj
        have : iv = 0 := by omega
        subst this
        exact (hone _).mpr (hall j hj)
      · rw [hdom, hv]
        unfold quadrature
        simp only [range_one, sum_singleton]
        congr 1
        refine sum_congr rfl fun j hj => ?_
        rw [hval _ (by simpa using hall j (mem_range.mp hj))]

/-- The path `(1, 2)` with the parameter `3 t` on `[0, 2]`: both can be evaluated everywhere. -/
example (jp jw p w : Vec) (hpw : GLL.pointsWeights 10 jp jw = .ok (p, w)) (hw : ∑ j ∈ range 10, w j = 2) :
    pathIntegral (.dil (0, 2) 3) (.const (0, 6) [1, 2]) jp jw = .ok 10 := by
  have h := (C65_path_integral (.dil (0, 2) 3) (.const (0, 6) [1, 2]) (.dil _ _) (.const _ _ (by simp)) jp jw p w hpw).2 rfl 10
  rw [h]
  refine ⟨fun j _ => ⟨_, _, (C07_values (0, 2) 3 [] [1] (by simp) _).2.1, (C07_values (0, 6) 3 [1, 2] [1] (by simp) _).1⟩, ?_⟩
  have hv : ∀ s, val (Fn.const (0, 6) [1, 2]) 0 s = 1 ∧ val (Fn.const (0, 6) [1, 2]) 1 s = 2 := fun s => by
    have := (C07_values (0, 6) 3 [1, 2] [1] (by simp) s).1
    rw [val_of_call this, val_of_call this]; simp
  unfold quadrature
  simp only [range_one, sum_singleton, show (Fn.const (0, 6) [1, 2]).codim = 2 from rfl, sum_range_succ, hv] at hw ⊢
  simp only [show (Fn.dil (0, 2) 3).dom = (0, 2) from rfl, range_zero, sum_empty, zero_add] at hw ⊢
  norm_num
  linarith

end GSplines.Props
