import Mathlib.Analysis.SpecialFunctions.Log.Basic
import Mathlib.Analysis.SpecialFunctions.Pow.NNReal

/-! Parameter vectors used in C86. -/

namespace Verif.Spec

/-- CARMA(2,1) parameters with standard deviation `σ`, error scale `s`, mean `μ`, autoregressive roots `-a ± ib` (so the quadratic factor
is `z² + 2a z + a² + b²`) and moving-average root `-√(a² + b²)`. -/
noncomputable def wave (σ s μ a b : ℝ) : List ℝ :=
  [σ, s, μ, Real.log (a ^ 2 + b ^ 2), Real.log (2 * a), Real.log √(a ^ 2 + b ^ 2)]

end Verif.Spec
