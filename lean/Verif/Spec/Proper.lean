import Verif.Spec.Stationary

/-!
Total mass of a density; a density is proper when it can be normalised.
-/

namespace Verif.Spec

open MeasureTheory
open scoped ENNReal

/-- Total mass of the target density to the power `1/T`. -/
noncomputable def mass {d : ℕ} (G : LogTarget d) (T : ℝ) : ℝ≥0∞ := ∫⁻ x, tempered G T x

/-- The density to the power `1/T` can be normalised to a probability density. -/
def IsProper {d : ℕ} (G : LogTarget d) (T : ℝ) : Prop := 0 < mass G T ∧ mass G T < ∞

open scoped Classical in
/-- Fewer than `2T` measurements are without error, or two of the measurements without error have different values. -/
def ErrorsApart {n : ℕ} (y e : Fin n → ℝ) (T : ℝ) : Prop :=
  ((Finset.univ.filter fun i => e i = 0).card : ℝ) < 2 * T ∨ ∃ i j, e i = 0 ∧ e j = 0 ∧ y i ≠ y j

/-- The object computes the logarithm of the density `G`: evaluation returns, with a value that is not finite where the density is 0. -/
def Evaluates {μ : Type} [Verif.Model.Target μ] {d : ℕ} (o : μ) (G : LogTarget d) : Prop :=
  ∀ x : Fin d → ℝ, ∃ o' v, Verif.Model.Target.ld o (List.ofFn x) = .ok (o', v) ∧ Agrees v (G x)

end Verif.Spec
