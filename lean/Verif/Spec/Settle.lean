import Verif.Spec.Average

/-!
Whether a sampler settles: shares of the sweeps, limiting laws, laws kept by the sweeps.
-/

namespace Verif.Spec

open MeasureTheory Verif.Model Filter Topology

variable {μ : Type} {d : ℕ}

open scoped Classical in
/-- The sweeps after `u` go on for ever, and the share of the times, `thin` sweeps apart, at which the values of all chains have property `D`
tends to `m`. -/
def ShareTo [Target μ] (thin : ℕ) (u : Samp μ d) (D : List ℝ → Prop) (m : ℝ) : Prop :=
  ∃ v : ℕ → List (List ℝ), (∀ k, ∃ u', Sweeps u (thin * (k + 1)) u' ∧ u'.chains.map Par.value = v k) ∧
    Tendsto (fun n : ℕ => (((Finset.range n).filter fun k => ∀ θ ∈ v k, D θ).card : ℝ) / n) atTop (𝓝 m)

/-- The random numbers `w` for which `k` sweeps after `u` return with values of the `N` chains in `A`. -/
def EndsIn [Target μ] {N : ℕ} (u : Samp μ d) (k : ℕ) (A : Set (Fin N → Fin d → ℝ)) : Set ((ℕ → ℝ) × (ℕ → ℝ)) :=
  {w | ∃ u' x, Sweeps (reseed u w) k u' ∧ u'.chains.map Par.value = List.ofFn (fun i => List.ofFn (x i)) ∧ x ∈ A}

/-- Further sweeps of the machine `t` leave the law `L` of the chains unchanged, the random numbers to come being independent of the chains:
as `KeepsLaw`, for any law of the chains. -/
def KeepsChains [Target μ] {N : ℕ} (G : LogTarget d) (L : Measure (Fin N → Fin d → ℝ)) (ν : Measure ℝ) [IsProbabilityMeasure ν] (t : Samp μ d) :
    Prop :=
  ∀ n, ∃ Φ : McState N d → McState N d,
    MeasurePreserving Φ (L.prod ((drawsOf ν).prod (drawsOf unifLaw))) (L.prod ((drawsOf ν).prod (drawsOf unifLaw))) ∧
    ∀ u z, SameMachine t u → Shows G u z → ∃ u', Sweeps u n u' ∧ Shows G u' (Φ z)

end Verif.Spec
