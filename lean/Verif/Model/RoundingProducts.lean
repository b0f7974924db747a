import Verif.Model.Integral
import Verif.Model.RoundingFn

/-!
# src/FunctionalAnalysis/Sobolev.cpp:97-153 with rounded operations

Simplified: the coefficients of the derivatives of polynomials and splines, of which the integrand is built, are computed without rounding errors (there are none in derivatives of order
zero, and no arithmetic on doubles in those of other functions). The points, the weights, the evaluation of the integrand and the sums are rounded.
-/

namespace GSplines.Rounded

open GSplines Nd

/-- Sobolev.cpp:97-111 `sobolev_semi_inner_product`: the integrand is built, then integrated. -/
noncomputable def semiInner (u : ℝ × ℝ) (f g : Fn) (terms : List (ℕ × ℝ)) (n k : ℕ) (jp jw : Vec) : Nd ℝ := do
  let s ← lift (terms.foldlM (Fn.semiStep f g) (Fn.zero f.dom 1))
  integral u s n k jp jw

/-- Sobolev.cpp:113-118 `sobolev_semi_norm`. -/
noncomputable def semiNorm (u : ℝ × ℝ) (f : Fn) (terms : List (ℕ × ℝ)) (n k : ℕ) (jp jw : Vec) : Nd ℝ := semiInner u f f terms n k jp jw

/-- Sobolev.cpp:120-131 `sobolev_inner_product`. -/
noncomputable def sobolevInner (u : ℝ × ℝ) (f g : Fn) (deg n k : ℕ) (jp jw : Vec) : Nd ℝ := semiInner u f g (Fn.allOrders deg) n k jp jw

/-- Sobolev.cpp:133-142 `sobolev_norm`. -/
noncomputable def sobolevNorm (u : ℝ × ℝ) (f : Fn) (deg n k : ℕ) (jp jw : Vec) : Nd ℝ := semiNorm u f (Fn.allOrders deg) n k jp jw

/-- Sobolev.cpp:144-147 `l2_norm`. -/
noncomputable def l2Norm (u : ℝ × ℝ) (f : Fn) (n k : ℕ) (jp jw : Vec) : Nd ℝ := sobolevNorm u f 0 n k jp jw

/-- Sobolev.cpp:149-153 `l2_inner_product`. -/
noncomputable def l2Inner (u : ℝ × ℝ) (f g : Fn) (n k : ℕ) (jp jw : Vec) : Nd ℝ := sobolevInner u f g 0 n k jp jw

end GSplines.Rounded
