import Mathlib.Analysis.Real.Sqrt
import Verif.Spec.Run

/-!
Quantities named in the statements about whole runs.
-/

namespace Verif.Spec

/-- Mean squared deviation from the mean. -/
noncomputable def popVariance {n : ℕ} (y : Fin n → ℝ) : ℝ := (∑ i, (y i - (∑ j, y j) / n) ^ 2) / n

/-- In each of the consecutive blocks of `d` draws there is one different from 0. -/
def Blocks (d : ℕ) (f : ℕ → ℝ) : Prop := ∀ k, ∃ i < d, f (k * d + i) ≠ 0

end Verif.Spec
