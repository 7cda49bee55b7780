import Mathlib.Analysis.SpecialFunctions.Sqrt
import Mathlib.Analysis.Complex.Basic

/-! Medians and spreads of finite samples, independent of the modelled code. -/

namespace Verif.Spec

/-- `m` is the median of `l` in the order `le`: half the sum of the two middle values of the sorted list (which coincide for an odd number). -/
def IsMedian {α : Type} [DivisionRing α] (le : α → α → Prop) (l : List α) (m : α) : Prop :=
  ∃ (s : List α) (a b : α), s.Perm l ∧ s.Pairwise le ∧ s[(s.length - 1) / 2]? = some a ∧ s[s.length / 2]? = some b ∧ m = (a + b) / 2

/-- Real parts first, then imaginary parts. -/
def LexLe (a b : ℂ) : Prop := a.re < b.re ∨ (a.re = b.re ∧ a.im ≤ b.im)

/-- Standard deviation of a finite sample around its mean. -/
noncomputable def stdDev (l : List ℝ) : ℝ := √((l.map fun x => (x - l.sum / l.length) ^ 2).sum / l.length)

end Verif.Spec
