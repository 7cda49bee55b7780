import Mathlib.Analysis.Complex.Norm
import Mathlib.Analysis.Real.Pi.Bounds
import Mathlib.Analysis.SpecialFunctions.Exp
import Verif.Spec.Param

/-! Specification of the prior bounds of the models, independent of the modelled code. -/

namespace Verif.Spec

/-- Smallest distance between two of the times. -/
def IsMinGap {n : ℕ} (t : Fin n → ℝ) (d : ℝ) : Prop := IsLeast {x | ∃ i j : Fin n, i < j ∧ x = t j - t i} d

/-- Total time span. -/
def IsSpan {n : ℕ} (t : Fin n → ℝ) (d : ℝ) : Prop := IsGreatest {x | ∃ i j : Fin n, x = t j - t i} d

/-- Bounds on the standard deviation and on the scale of the measurement errors. -/
structure ScaleBounds (sd : ℝ) (θ : List ℝ) : Prop where
  sd_lo : 0 ≤ at0 θ 0
  sd_hi : at0 θ 0 ≤ sd
  err_lo : 0.5 ≤ at0 θ 1
  err_hi : at0 θ 1 ≤ 2

/-- Prior bounds of the CAR(1) model. -/
structure Car1Bounds (sd fmax fmin : ℝ) (θ : List ℝ) : Prop extends ScaleBounds sd θ where
  lo : fmin ≤ Real.exp (at0 θ 3)
  hi : Real.exp (at0 θ 3) ≤ fmax

/-- Prior bounds of the CARp model and its variants, in terms of the autoregressive roots. -/
structure CarpBounds (sd fmax fmin : ℝ) (roots : List ℂ) (θ : List ℝ) : Prop extends ScaleBounds sd θ where
  cent : ∀ r ∈ roots, |r.im| / (2 * Real.pi) < fmax
  width : ∀ r ∈ roots, fmin < -r.re / (2 * Real.pi) ∧ -r.re / (2 * Real.pi) < fmax
  sep : roots.Pairwise fun a b => a + b = 0 ∨ 1e-4 < ‖a - b‖ / ‖a + b‖
  order : ∀ i a b, roots[i]? = some a → roots[i+1]? = some b →
    |b.im| / (2 * Real.pi) ≤ |a.im| / (2 * Real.pi) + 1e-8

/-- Sample variance, normalised by `n - 1`. -/
noncomputable def sampleVar {n : ℕ} (y : Fin n → ℝ) : ℝ := (∑ i, (y i - (∑ j, y j) / n) ^ 2) / ((n : ℝ) - 1)

end Verif.Spec
