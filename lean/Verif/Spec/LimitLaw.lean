import Verif.Spec.Settle

/-!
The law with the target density, and the joint law of independent chains at several temperatures.
-/

namespace Verif.Spec

open MeasureTheory

variable {d : ℕ}

/-- The probability law whose density is proportional to the target density to the power `1/T`. -/
noncomputable def posterior (G : LogTarget d) (T : ℝ) : Measure (Fin d → ℝ) := (mass G T)⁻¹ • (volume : Measure (Fin d → ℝ)).withDensity (tempered G T)

/-- The temperatures of `nw` walkers: from 1 to 100 in equal ratios; 100 for a single walker. -/
noncomputable def ladder (nw : ℕ) (i : Fin nw) : ℝ := if nw = 1 then 100 else (100 : ℝ) ^ ((i : ℝ) / ((nw : ℝ) - 1))

/-- Independent chains, chain `i` with the posterior at temperature `T i`. -/
noncomputable def independent {N : ℕ} (G : LogTarget d) (T : Fin N → ℝ) : Measure (Fin N → Fin d → ℝ) := Measure.pi fun i => posterior G (T i)

end Verif.Spec
