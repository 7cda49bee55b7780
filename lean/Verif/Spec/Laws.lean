import Mathlib.Probability.Distributions.Gamma
import Mathlib.Probability.Distributions.Exponential
import Mathlib.Probability.Distributions.Gaussian.Real
import Verif.Model.Random

/-!
Laws of random numbers: what the Boost distribution objects are documented to draw, what it means that a generator draws from a density,
and the densities named in the comments of `src/random.cpp`.
-/

namespace Verif.Spec

open MeasureTheory ProbabilityTheory
open scoped ENNReal

/-- The unnormalised density of Student's law with `n` degrees of freedom. -/
noncomputable def studentShape (n x : ℝ) : ℝ := (1 + x ^ 2 / n) ^ (-(n + 1) / 2)

/-- The law of a draw from a Boost distribution object, as documented by Boost. -/
noncomputable def libLaw : Model.Lib → Measure ℝ
  | .exponential l => expMeasure l
  | .normal m s => gaussianReal m (s ^ 2).toNNReal
  | .lognormal m s => (gaussianReal m (s ^ 2).toNNReal).map Real.exp
  | .uniform a b => (ENNReal.ofReal (b - a))⁻¹ • volume.restrict (Set.Ico a b)
  | .studentT n => volume.withDensity fun x => (∫⁻ t, ENNReal.ofReal (studentShape n t))⁻¹ * ENNReal.ofReal (studentShape n x)
  | .chiSquared n => gammaMeasure (n / 2) (1 / 2)
  | .gamma a b => gammaMeasure a (1 / b)

/-- The generator returns a number with probability one, and its law has a density proportional to `f`: the law `ν` is a probability measure
with density `c f`, and for every measurable set the probability that the generator returns a number in the set is what `ν` gives it. -/
def Draws (g : Model.Gen) (f : ℝ → ℝ) : Prop :=
  ∃ (ν : Measure ℝ) (c : ℝ≥0∞), IsProbabilityMeasure ν ∧ (ν = volume.withDensity fun x => c * ENNReal.ofReal (f x)) ∧
    ∀ A, MeasurableSet A → libLaw g.lib {z | ∃ v ∈ A, g.out z = .ok v} = ν A

/-- `exp`: `p(x|lambda) = lambda * exp(-lambda * x)` for positive `x` (`src/random.cpp` line 60). -/
noncomputable def expDensity (l x : ℝ) : ℝ := if 0 < x then l * Real.exp (-l * x) else 0

/-- `normal`: mean `m` and standard deviation `s` (`src/random.cpp` lines 73-74). -/
noncomputable def normalDensity (m s x : ℝ) : ℝ := Real.exp (-(x - m) ^ 2 / (2 * s ^ 2))

/-- `lognormal`: `(1 / (x * frac_sigma)) * exp(-0.5 * (log(x) - geomean)^2 / frac_sigma^2)` (`src/random.cpp` lines 110-111). -/
noncomputable def lognormalDensity (m s x : ℝ) : ℝ :=
  if 0 < x then 1 / (x * s) * Real.exp (-0.5 * (Real.log x - m) ^ 2 / s ^ 2) else 0

/-- `uniform`: constant between the bounds (`src/random.cpp` line 120). -/
noncomputable def uniformDensity (a b x : ℝ) : ℝ := if a < x ∧ x < b then 1 else 0

/-- `powerlaw`: `x^slope, lower < x < upper` (`src/random.cpp` line 139). -/
noncomputable def powerDensity (lower upper slope x : ℝ) : ℝ := if lower < x ∧ x < upper then x ^ slope else 0

/-- `tdist`: `(1 + (x - mean)^2 / (dof * scale^2))^(-(n+1)/2)` (`src/random.cpp` line 156), where `n` is `dof`. -/
noncomputable def tDensity (dof mean scale x : ℝ) : ℝ := (1 + (x - mean) ^ 2 / (dof * scale ^ 2)) ^ (-(dof + 1) / 2)

/-- `chisqr`: the chi-squared density. -/
noncomputable def chiDensity (dof x : ℝ) : ℝ := if 0 < x then x ^ (dof / 2 - 1) * Real.exp (-x / 2) else 0

/-- The scaled inverse chi-squared density (Gelman et al., Bayesian Data Analysis, Appendix A). -/
noncomputable def scaledInvChiDensity (dof ssqr x : ℝ) : ℝ :=
  if 0 < x then x ^ (-(1 + dof / 2)) * Real.exp (-dof * ssqr / (2 * x)) else 0

/-- The density in the comment on `scaled_inverse_chisqr`: `1 / x^(1 + dof/2) * exp(-dof * ssqr / (dof * x))` (`src/random.cpp` line 178). -/
noncomputable def scaledInvChiComment (dof ssqr x : ℝ) : ℝ :=
  if 0 < x then 1 / x ^ (1 + dof / 2) * Real.exp (-dof * ssqr / (dof * x)) else 0

/-- `gamma`: `x^(alpha-1) exp(-x / beta)` (`src/random.cpp` line 191). -/
noncomputable def gammaDensity (a b x : ℝ) : ℝ := if 0 < x then x ^ (a - 1) * Real.exp (-x / b) else 0

/-- `invgamma`: `x^(-alpha-1) exp(-beta / x)` (`src/random.cpp` line 203). -/
noncomputable def invgammaDensity (a b x : ℝ) : ℝ := if 0 < x then x ^ (-a - 1) * Real.exp (-b / x) else 0

/-- `normal(covar)`: `1 / |covar|^{1/2} exp(-0.5 x^T covar^{-1} x)` (`src/random.cpp` line 86). -/
noncomputable def multinormalDensity {d : ℕ} (S : Matrix (Fin d) (Fin d) ℝ) (x : Fin d → ℝ) : ℝ :=
  1 / √S.det * Real.exp (-0.5 * x ⬝ᵥ S⁻¹.mulVec x)

end Verif.Spec
