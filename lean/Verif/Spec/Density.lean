import Verif.Spec.Gauss
import Mathlib.Probability.Distributions.Gaussian.Multivariate

/-! The law of measurements, and densities (C82). -/

namespace Verif.Spec

open MeasureTheory ProbabilityTheory

variable {n : ℕ}

/-- Law of the measurements at times `t` of a Gaussian process with mean `μ` and autocovariance `r`, each with an independent
Gaussian error of standard deviation `e`: mean plus process plus error. -/
noncomputable def dataLaw (r : ℝ → ℝ) (μ : ℝ) (t e : Fin n → ℝ) : Measure (Fin n → ℝ) :=
  ((multivariateGaussian (0 : EuclideanSpace ℝ (Fin n)) (obsCov r t 0)).prod (Measure.pi fun i => gaussianReal 0 (e i ^ 2).toNNReal)).map
    fun q i => μ + q.1.ofLp i + q.2 i

/-- `f` is the continuous positive density of `ν` with respect to Lebesgue measure. -/
structure IsDensity (ν : Measure (Fin n → ℝ)) (f : (Fin n → ℝ) → ℝ) : Prop where
  cont : Continuous f
  pos : ∀ y, 0 < f y
  law : ν = volume.withDensity fun y => ENNReal.ofReal (f y)

/-- Density of the logit of a variable uniform on an interval: the logistic density. -/
noncomputable def logisticDensity (x : ℝ) : ℝ := Real.exp (-x) / (1 + Real.exp (-x)) ^ 2

end Verif.Spec
