import Verif.Model.GSpline

/-! # Specification: the instants at which a spline is sampled -/

namespace GSplines.Spec

/-- `n` segments of a domain of length `L` for steps of about `dt`: the integer part of `L / dt`, or one less when `L / dt` is an integer, which rounding can miss. -/
def SegmentCount (L dt : ℝ) (n : ℕ) : Prop := n = ⌊L / dt⌋₊ ∨ (n : ℝ) + 1 = L / dt

/-- `s` is one of the `n + 1` equally spaced instants of the domain of `g`; the end if there is only one. -/
def IsSample (g : GSpline) (n : ℕ) (s : ℝ) : Prop := (n = 0 ∧ s = g.dom.2) ∨ (n ≠ 0 ∧ ∃ i ≤ n, s = g.dom.1 + (i : ℝ) * ((g.dom.2 - g.dom.1) / n))

end GSplines.Spec
