import Verif.Model.Fn
import Verif.Model.GLL

/-!
# src/FunctionalAnalysis/Integral.cpp and src/FunctionalAnalysis/Sobolev.cpp:97-153

The reference points and weights are computed in freshly allocated vectors, whose contents are `jp` and `jw`.
-/

namespace GSplines.Fn

open GSplines

/-- Integral.cpp:21-30: the sum over one interval; the buffer of the values has one column. -/
noncomputable def integralStep (f : Fn) (n : ℕ) (len : ℝ) (p w : Vec) (iv : ℕ) (r : ℝ) : Res ℝ := do
  let left := f.dom.1 + iv * len
  let v ← f.run 1 ((List.range n).map fun k => (p k + 1) * len / 2 + left)
  return r + (List.zipWith (fun row k => row.headD 0 * w k) v (List.range n)).sum * len / 2

/-- Integral.cpp:7-32 `integral`. With zero intervals the length is not a number, but it is not used. -/
noncomputable def integral (f : Fn) (n k : ℕ) (jp jw : Vec) : Res ℝ :=
  if f.codim ≠ 1 then .error .assertFail
  else do
    let (p, w) ← GLL.pointsWeights n jp jw
    forLoopM 0 k (integralStep f n ((f.dom.2 - f.dom.1) / k) p w) 0

/-- FunctionExpression.cpp:36-42: the zero function. -/
def zero (d : ℝ × ℝ) (c : ℕ) : Fn := expr d c .unique [const d (List.replicate c 0)]

/-- Sobolev.cpp:105-108: one term is added to the integrand; `derivate` returns temporary objects. -/
noncomputable def semiStep (f g s : Fn) (p : ℕ × ℝ) : Res Fn := do
  let a ← f.derivate p.1
  let b ← g.derivate p.1
  let d ← dotOp ⟨true, true⟩ a b
  let t ← smul p.2 d
  return addInPlace s t

/-- Sobolev.cpp:97-111 `sobolev_semi_inner_product`. -/
noncomputable def semiInner (f g : Fn) (terms : List (ℕ × ℝ)) (n k : ℕ) (jp jw : Vec) : Res ℝ := do
  let s ← terms.foldlM (semiStep f g) (zero f.dom 1)
  s.integral n k jp jw

/-- Sobolev.cpp:113-118 `sobolev_semi_norm`. -/
noncomputable def semiNorm (f : Fn) (terms : List (ℕ × ℝ)) (n k : ℕ) (jp jw : Vec) : Res ℝ := semiInner f f terms n k jp jw

/-- Sobolev.cpp:125-128, 136-139: all orders up to `deg`, with weight one. -/
def allOrders (deg : ℕ) : List (ℕ × ℝ) := (List.range (deg + 1)).map fun i => (i, 1)

/-- Sobolev.cpp:120-131 `sobolev_inner_product`. -/
noncomputable def sobolevInner (f g : Fn) (deg n k : ℕ) (jp jw : Vec) : Res ℝ := semiInner f g (allOrders deg) n k jp jw

/-- Sobolev.cpp:133-142 `sobolev_norm`. -/
noncomputable def sobolevNorm (f : Fn) (deg n k : ℕ) (jp jw : Vec) : Res ℝ := semiNorm f (allOrders deg) n k jp jw

/-- Sobolev.cpp:144-147 `l2_norm`. -/
noncomputable def l2Norm (f : Fn) (n k : ℕ) (jp jw : Vec) : Res ℝ := sobolevNorm f 0 n k jp jw

/-- Sobolev.cpp:149-153 `l2_inner_product`. -/
noncomputable def l2Inner (f g : Fn) (n k : ℕ) (jp jw : Vec) : Res ℝ := sobolevInner f g 0 n k jp jw

end GSplines.Fn
