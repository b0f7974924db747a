import Verif.Model.Refs

/-!
# Specification of the matrices returned by reference
-/

namespace GSplines.Spec

open GSplines Refs

/-- The matrix that a call on a new object returns. -/
noncomputable def answer (b : Basis) : Req → Res Mat
  | .block d => .ok (b.derivMatrixImpl d)
  | .cont n codim order tau => (b.continuityMatrix n codim order tau fun _ => none).2
  | .dmat n codim order tau => (b.gsplineDerivativeMatrix n codim order tau fun _ => none).2

/-- The order of the derivatives in a request. -/
def derivOrder : Req → ℕ
  | .block d => d
  | .cont _ _ k _ => k
  | .dmat _ _ k _ => k

/-- The requests are for the same matrix but for the interval lengths. -/
def SameSizes : Req → Req → Prop
  | .block d, .block d' => d = d'
  | .cont n c k _, .cont n' c' k' _ => n = n' ∧ c = c' ∧ k = k'
  | .dmat n c k _, .dmat n' c' k' _ => n = n' ∧ c = c' ∧ k = k'
  | _, _ => False

/-- The rule for the capacity of a `std::vector`: it makes room for at least one more entry. -/
def Grows (grow : ℕ → ℕ) : Prop := ∀ c, c < grow c

end GSplines.Spec
