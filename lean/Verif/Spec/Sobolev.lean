import Verif.Model.Sobolev
import Verif.Spec.Interp
import Mathlib.MeasureTheory.Integral.IntervalIntegral.Basic

/-!
# Specification of the Sobolev cost of a spline
-/

namespace GSplines.Spec

open GSplines Finset

/-- The integral over the domain of the squared euclidean norm of the derivative of order `k`. -/
noncomputable def energy (g : GSpline) (k : ℕ) : ℝ :=
  ∑ i ∈ range g.tau.length, ∑ c ∈ range g.codim, ∫ t in (brk g i)..(brk g (i + 1)), iteratedDeriv k (curve g i c) t ^ 2

/-- The sum over the list of pairs (order, weight) of the weight times the energy of the order. -/
noncomputable def sobolevCost (g : GSpline) (weights : List (ℕ × ℝ)) : ℝ := (weights.map fun p => p.2 * energy g p.1).sum

/-- The weights that the code applies: each weight is multiplied by all weights that follow it in the list. -/
def effective : List (ℕ × ℝ) → List (ℕ × ℝ)
  | [] => []
  | p :: ps => (p.1, p.2 * (ps.map Prod.snd).prod) :: effective ps

/-- Orders for which the Sobolev matrix of the basis is right (see C24, C31 and C56). -/
def RightOrder : Basis → ℕ → Prop
  | .legendre d, k => k = 0 ∨ d ≤ k
  | .lagrange x, k => x.length ≤ k
  | .b0101 _, k => k = 0 ∨ k = 1 ∨ k = 3

/-- The states of a `SobolevNorm` object: it is constructed, and then used any number of times in any order. -/
inductive SReach (lu : LU) (w : Pts) (b : Basis) (weights : List (ℕ × ℝ)) (mem : LagMem) : Sobolev → Prop
  | make {junk : Vec} {s : Sobolev} : Sobolev.make w b weights mem junk = .ok s → SReach lu w b weights mem s
  | cost {s s' : Sobolev} {tau : List ℝ} {v : ℝ} : SReach lu w b weights mem s → s.cost lu tau = .ok (s', v) → SReach lu w b weights mem s'
  | grad {s s' : Sobolev} {tau buff out : List ℝ} :
      SReach lu w b weights mem s → s.grad lu tau buff = .ok (s', out) → SReach lu w b weights mem s'

end GSplines.Spec
