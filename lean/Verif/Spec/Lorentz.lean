import Mathlib.Analysis.Complex.Basic
import Mathlib.Analysis.Real.Pi.Bounds

/-!
Roots of a process whose power spectrum is a sum of Lorentzians, independent of the modelled code.
-/

namespace Verif.Spec

/-- The pair of roots of a Lorentzian of width `w` centred at `c`: `-2 pi w -+ 2 pi i c`. -/
noncomputable def lorPair (w c : ℝ) : List ℂ :=
  [⟨-(2 * Real.pi * w), -(2 * Real.pi * c)⟩, ⟨-(2 * Real.pi * w), 2 * Real.pi * c⟩]

/-- The `p` roots for widths `w` and centroids `c`: `p/2` pairs and, for odd `p`, a Lorentzian centred at zero. -/
noncomputable def lorRoots (p : ℕ) (w c : ℕ → ℝ) : List ℂ :=
  ((List.range (p / 2)).flatMap fun k => lorPair (w k) (c k)) ++
    if p % 2 = 1 then [((-(2 * Real.pi * w (p / 2)) : ℝ) : ℂ)] else []

end Verif.Spec
