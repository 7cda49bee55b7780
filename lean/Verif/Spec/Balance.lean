import Mathlib.Analysis.SpecialFunctions.Log.Basic
import Mathlib.Analysis.SpecialFunctions.Pow.Real
import Mathlib.Analysis.Real.Pi.Bounds

/-!
Detailed balance of Metropolis-Hastings moves, independent of the modelled code.
-/

namespace Verif.Spec

/-- Metropolis-Hastings acceptance probability at temperature `T` from a state with log-density `lx` to one with log-density `ly`;
`back` and `forth` are the log proposal densities. -/
noncomputable def accProb (T lx ly back forth : ℝ) : ℝ := min 1 (Real.exp ((ly - lx) / T + back - forth))

/-- Probability of exchanging the states of two chains at temperatures `T1`, `T2` with log-densities `a`, `b`: the Metropolis ratio of
the product of tempered densities `exp(a/T1) exp(b/T2)`. -/
noncomputable def swapSpec (T1 T2 a b : ℝ) : ℝ := min 1 (Real.exp ((b / T1 + a / T2) - (a / T1 + b / T2)))

/-- Normal density at `y` with mean `x`. -/
noncomputable def normalDens (sd x y : ℝ) : ℝ := Real.exp (-(y - x) ^ 2 / (2 * sd ^ 2)) / (sd * √(2 * Real.pi))

/-- Density of a scaled Student distribution centred at `x`, with normalising constant `c`. -/
noncomputable def studentDens (c dof scale x y : ℝ) : ℝ := c * (1 + ((y - x) / scale) ^ 2 / dof) ^ (-(dof + 1) / 2)

/-- Log-normal density at `y` of `exp(log x + sd z)`. -/
noncomputable def logNormalDens (sd x y : ℝ) : ℝ :=
  Real.exp (-(Real.log y - Real.log x) ^ 2 / (2 * sd ^ 2)) / (y * sd * √(2 * Real.pi))

end Verif.Spec
