import Verif.Model.Integral

/-!
# src/Collocation/GaussLobattoLagrange.cpp:199-203
-/

namespace GSplines.Colloc

open GSplines Fn

/-- GaussLobattoLagrange.cpp:199-203 `integral(diffeo, path)`. Both arguments are lvalues, so `dot` does not swap them; the object and the argument of `compose` are
temporary. The defaults are ten points and one interval (Integral.hpp:9-10). -/
noncomputable def pathIntegral (diffeo path : Fn) (jp jw : Vec) : Res ℝ := do
  let d ← dotOp ⟨false, false⟩ path path
  let c ← compose ⟨true, true⟩ d diffeo.wrap
  c.integral 10 1 jp jw

end GSplines.Colloc
