import Verif.Spec.Chains

/-!
What the first lines of the run functions should compute from the values, and the sizes for which rounding does not spoil it.
-/

namespace Verif.Spec

open scoped BigOperators

/-- Mean square of the values. -/
noncomputable def meanSquare {n : ℕ} (y : Fin n → ℝ) : ℝ := (∑ i, y i ^ 2) / n

/-- Values of moderate size: at most `2^39` of them (about `5e11`), and a mean square between `2^-300` and `2^300`. -/
structure ModerateValues {n : ℕ} (y : Fin n → ℝ) : Prop where
  one : 1 ≤ n
  max : n ≤ 2 ^ 39
  lo : 2 ^ (-300 : ℤ) ≤ meanSquare y
  hi : meanSquare y ≤ 2 ^ (300 : ℤ)

/-- Standard deviations of the first proposal, parameter by parameter, for values with variance `V`: `V √(2/n)` for the first (a standard
deviation), `√(V/n)` for the third (the mean), `0.01` for the others. -/
noncomputable def firstScale (V : ℝ) (n : ℕ) (i : ℕ) : ℝ := if i = 0 then V * √(2 / n) else if i = 2 then √(V / n) else 0.01

end Verif.Spec
