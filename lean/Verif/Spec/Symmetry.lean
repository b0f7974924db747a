import Verif.Spec.Interp
import Verif.Proofs.BasisSpec

/-!
# Observing a spline

What a user sees of a spline is what a call at an instant returns.
-/

namespace GSplines.Spec

open GSplines

/-- The instant is not so close to a Lagrange node that the code takes it for the node (always true for Legendre and Basis0101, see C26). -/
def Away (g : GSpline) (t : ℝ) : Prop := ∀ i, Located g t i → g.basis.CleanAt (window (vecOf g.tau i) (t - brk g i))

/-- The call at `t` returns the vector with components `x 0, x 1, …`. -/
def Gives (g : GSpline) (t : ℝ) (x : ℕ → ℝ) : Prop := ∃ v, g.value t = .ok v ∧ v.length = g.codim ∧ ∀ c < g.codim, v[c]? = some (x c)

/-- The way points in the opposite order. -/
def Pts.reverse (w : Pts) : Pts := ⟨w.rows, w.cols, fun i c => w.at' (w.rows - 1 - i) c⟩

/-- The way points with one more, before way point `j`. -/
def Pts.insert (w : Pts) (j : ℕ) (p : ℕ → ℝ) : Pts :=
  ⟨w.rows + 1, w.cols, fun i c => if i < j then w.at' i c else if i = j then p c else w.at' (i - 1) c⟩

end GSplines.Spec
