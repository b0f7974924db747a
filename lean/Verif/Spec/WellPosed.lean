import Verif.Spec.Residual

/-!
# Interpolation problems that differ by little
-/

namespace GSplines.Spec

open GSplines

/-- As many intervals, and every length changed by at most `δ`. -/
def NearLengths (δ : ℝ) (tau tau' : List ℝ) : Prop := tau'.length = tau.length ∧ ∀ i < tau.length, |vecOf tau' i - vecOf tau i| ≤ δ

/-- As many way points with as many components, and every component changed by at most `δ`. -/
def NearPts (δ : ℝ) (w w' : Pts) : Prop := w'.rows = w.rows ∧ w'.cols = w.cols ∧ ∀ i < w.rows, ∀ c < w.cols, |w'.at' i c - w.at' i c| ≤ δ

end GSplines.Spec
