import Verif.Spec.Proper

/-!
Means under a normalised density, and averages over the recorded values of a sampler.
-/

namespace Verif.Spec

open MeasureTheory Verif.Model Filter Topology
open scoped ENNReal

variable {μ : Type} {d : ℕ}

/-- Mean of `f` under the density proportional to the target density to the power `1/T`. -/
noncomputable def postMean (G : LogTarget d) (T : ℝ) (f : (Fin d → ℝ) → ℝ) : ℝ := (∫ x, f x * (tempered G T x).toReal) / (mass G T).toReal

/-- That mean exists. -/
def HasMean (G : LogTarget d) (T : ℝ) (f : (Fin d → ℝ) → ℝ) : Prop := Integrable fun x => f x * (tempered G T x).toReal

/-- The sampler with other proposal draws and uniform draws to come. -/
def reseed (u : Samp μ d) (w : (ℕ → ℝ) × (ℕ → ℝ)) : Samp μ d := { u with rng := { u.rng with stud := w.1, unif := w.2 } }

/-- The sweeps after `u` go on for ever, and the averages of `f` over the values of chain 0 after every `thin` sweeps tend to `m`. -/
def AveragesTo [Target μ] (thin : ℕ) (u : Samp μ d) (f : (Fin d → ℝ) → ℝ) (m : ℝ) : Prop :=
  ∃ y : ℕ → Fin d → ℝ, (∀ k, ∃ u' c, Sweeps u (thin * (k + 1)) u' ∧ u'.chains[0]? = some c ∧ c.value = List.ofFn (y k)) ∧
    Tendsto (fun n : ℕ => (∑ k ∈ Finset.range n, f (y k)) / n) atTop (𝓝 m)

end Verif.Spec
