import Verif.Model.Random
import Verif.Props.Optimisers

/-!
# C62: random splines
-/

namespace GSplines.Props

open GSplines.Spec GSplines.Optim

/-- The ranges of the random numbers: `uniform_int_distribution(2, 10)`, and `Random` of Eigen in `[-1, 1]`. -/
structure Draw.InRange (d : Draw) : Prop where
  n : 2 ≤ d.n ∧ d.n ≤ 10
  size : d.lengths.length = d.n
  lengths : ∀ r ∈ d.lengths, -1 ≤ r ∧ r ≤ 1
  points : ∀ i j, -1 ≤ d.points i j ∧ d.points i j ≤ 1

/-- **C62**, partial: whatever numbers are drawn, for every basis that can interpolate and every domain whose right end is at least `1e-8`, the result exists, has the
requested number of components and kind and dimension of basis, and passes through way points in the box `[-3, 3]`; its domain is `[0, right end]`, which is the
requested domain if and only if that starts at 0. For a smaller right end `std::invalid_argument` is thrown. Missing: domains that do not start at 0, see
`C62_domain_false`. -/
theorem C62_random_gspline_partial (lu : LU) (hlu : LUContract lu) (junk : Vec) (draw : Draw) (hd : Draw.InRange draw) (dom : ℝ × ℝ) (codim : ℕ) (b : Basis)
    (hb : Interpolable b) :
    (dom.2 < 1 / 10 ^ 8 → randomGspline lu junk draw dom codim b = .error .invalidArgument) ∧
    (1 / 10 ^ 8 ≤ dom.2 → ∃ g, randomGspline lu junk draw dom codim b = .ok g ∧ g.dom = (0, dom.2) ∧ (g.dom = dom ↔ dom.1 = 0) ∧ g.codim = codim ∧
      g.basis.name = b.name ∧ g.basis.dim = b.dim ∧ g.tau.length = draw.n ∧ Meets g (fun i j => 3 * draw.points i j) ∧
      ∀ i j, -3 ≤ 3 * draw.points i j ∧ 3 * draw.points i j ≤ 3) := by
  set w : Pts := ⟨draw.n + 1, codim, fun i j => 3 * draw.points i j⟩ with hw
  set x : List ℝ := draw.lengths.map fun r => 2 + r / 2 with hx
  have hxl : x.length = draw.n := by rw [hx, List.length_map, hd.size]
  have hxt : ∀ t ∈ x, 1 / 10 ^ 6 ≤ t := by
    intro t ht
    rw [hx, List.mem_map] at ht
    obtain ⟨r, hr, rfl⟩ := ht
    have := (hd.lengths r hr).1
    have : (1 : ℝ) / 10 ^ 6 ≤ 1 := by norm_num
    linarith
  have hne : x ≠ [] := by rintro e; rw [e] at hxl; simp at hxl; have := hd.n.1; omega
  have h2 := hd.n.1
  obtain ⟨s, h1, h3, -⟩ := interpolate_new hlu (w := w) (by rw [hw]; simp; omega) hb junk
  obtain ⟨s', g, g1, g2, g3, g4, g5, g6, g7⟩ := h3 x (by rw [hxl]; rfl) hxt
  have hrun : ∀ T, (interpolateFn lu junk x w b >>= fun r => r.linearScaling T) = g.linearScaling T := by
    intro T
    unfold interpolateFn
    rw [if_neg (by rw [hw]; simp), h1, Interp.ok_bind, g1]
    rfl
  have hpos : 0 < x.sum := pos_sum hne hxt
  have hl : g.domainLength = x.sum := by unfold GSpline.domainLength; rw [g2]; simp
  constructor
  · intro h
    unfold randomGspline
    simp only
    rw [hrun]
    unfold GSpline.linearScaling
    rw [if_pos h]
  · intro h
    have hT : 0 < dom.2 := lt_of_lt_of_le (by norm_num) h
    have hr : g.linearScaling dom.2 = .ok (g.scaled (dom.2 / x.sum) (g.dom.1 + dom.2)) := by
      unfold GSpline.linearScaling
      rw [if_neg (not_lt.mpr h), hl, if_neg (by rintro (h | h); exacts [hpos.ne' h, h (GSpline.scalingFinite_of_valid (g5 ▸ hb.valid) (div_pos hT hpos).ne')])]
      exact GSpline.make_ok (by simp; exact hT.le) (by rw [GSpline.scaledBasis_dim]; exact g6)
    have hdom : (g.scaled (dom.2 / x.sum) (g.dom.1 + dom.2)).dom = (0, dom.2) := by simp [GSpline.scaled, g2]
    refine ⟨g.scaled (dom.2 / x.sum) (g.dom.1 + dom.2), ?_, hdom, ?_, g4, ?_, ?_, ?_, ?_, fun i j => ?_⟩
    · unfold randomGspline
      simp only
      rw [hrun, hr]
    · rw [hdom]
      exact ⟨fun e => by rw [← e], fun e => by rw [← e]⟩
    · simp only [GSpline.scaled, g5]
      cases b <;> rfl
    · simp only [GSpline.scaled, g5, GSpline.scaledBasis_dim]
    · simp only [GSpline.scaled, List.length_map, g3, hxl]
    · have := GSpline.meets_scaled (GSpline.paramOk_of_valid (by rw [g5]; exact hb.valid)) g6 (by rw [g3]; exact hne) (div_pos hT hpos) g7
      rw [g2] at this ⊢
      simp only [sub_zero, zero_add] at this ⊢
      rwa [div_mul_cancel₀ _ hpos.ne'] at this
    · obtain ⟨q1, q2⟩ := hd.points i j
      constructor <;> linarith

/-- **C62**, partial: the same without a basis: splines of quintics. Missing: domains that do not start at 0, see `C62_domain_false`. -/
theorem C62_default_basis_partial (lu : LU) (hlu : LUContract lu) (junk : Vec) (draw : Draw) (hd : Draw.InRange draw) (dom : ℝ × ℝ) (codim : ℕ) :
    (dom.2 < 1 / 10 ^ 8 → randomGspline2 lu junk draw dom codim = .error .invalidArgument) ∧
    (1 / 10 ^ 8 ≤ dom.2 → ∃ g, randomGspline2 lu junk draw dom codim = .ok g ∧ g.dom = (0, dom.2) ∧ (g.dom = dom ↔ dom.1 = 0) ∧ g.codim = codim ∧
      g.basis = .legendre 6 ∧ g.tau.length = draw.n ∧ Meets g (fun i j => 3 * draw.points i j) ∧
      ∀ i j, -3 ≤ 3 * draw.points i j ∧ 3 * draw.points i j ≤ 3) := by
  obtain ⟨h1, h2⟩ := C62_random_gspline_partial lu hlu junk draw hd dom codim (.legendre 6) (interpolable_legendre (by norm_num) (by norm_num))
  refine ⟨h1, fun h => ?_⟩
  obtain ⟨g, g1, g2, g3, g4, g5, g6, g7, g8, g9⟩ := h2 h
  refine ⟨g, g1, g2, g3, g4, ?_, g7, g8, g9⟩
  cases hb : g.basis with
  | legendre d => rw [hb] at g6; exact congrArg _ g6
  | lagrange p => rw [hb] at g5; exact absurd g5 (by simp [Basis.name])
  | b0101 a => rw [hb] at g5; exact absurd g5 (by simp [Basis.name])

/-- **C62** (where it fails): for every domain that does not start at 0 and whatever is drawn, the result is not defined on the requested domain. -/
theorem C62_domain_false (lu : LU) (hlu : LUContract lu) (junk : Vec) (draw : Draw) (hd : Draw.InRange draw) (dom : ℝ × ℝ) (hne : dom.1 ≠ 0) (codim : ℕ) (b : Basis)
    (hb : Interpolable b) (g : GSpline) (h : randomGspline lu junk draw dom codim b = .ok g) : g.dom ≠ dom := by
  obtain ⟨h1, h2⟩ := C62_random_gspline_partial lu hlu junk draw hd dom codim b hb
  by_cases hT : dom.2 < 1 / 10 ^ 8
  · rw [h1 hT] at h; cases h
  · obtain ⟨g', g1, -, g3, -⟩ := h2 (not_lt.mp hT)
    rw [h] at g1
    cases g1
    exact fun e => hne (g3.mp e)

/-- C62: two intervals, on the domain `[1, 2]`: the call returns a spline on `[0, 2]`. -/
example (junk : Vec) : ∃ g, randomGspline2 exactLU junk ⟨2, [0, 1], fun _ _ => 1 / 2⟩ (1, 2) 3 = .ok g ∧ g.dom = (0, 2) ∧ g.codim = 3 := by
  obtain ⟨g, h1, h2, -, h3, -⟩ := (C62_random_gspline_partial exactLU exactLU_contract junk ⟨2, [0, 1], fun _ _ => 1 / 2⟩
    ⟨by norm_num, rfl, by norm_num, by intro i j; norm_num⟩ (1, 2) 3 (.legendre 6) (interpolable_legendre (by norm_num) (by norm_num))).2 (by norm_num)
  exact ⟨g, h1, h2, h3⟩

end GSplines.Props
