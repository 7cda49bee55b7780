import Mathlib.Analysis.SpecialFunctions.Integrals.Basic

/-!
Bounded power-law distribution and the scale density of the stretch move, independent of the modelled code.
-/

namespace Verif.Spec

/-- Distribution function at `x` of the density proportional to `s ^ slope` on `[lower, upper]`. -/
noncomputable def powerCdf (lower upper slope x : ℝ) : ℝ :=
  (∫ s in lower..x, s ^ slope) / ∫ s in lower..upper, s ^ slope

/-- Density of the stretch factor, on `[1/a, a]`. -/
noncomputable def stretchDens (a z : ℝ) : ℝ := z ^ (-(1 / 2) : ℝ) / ∫ s in (1 / a)..a, s ^ (-(1 / 2) : ℝ)

end Verif.Spec
