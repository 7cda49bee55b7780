import Verif.Spec.Run
import Mathlib.Probability.ProductMeasure
import Mathlib.MeasureTheory.Measure.WithDensity
import Mathlib.Dynamics.Ergodic.MeasurePreserving
import Mathlib.MeasureTheory.Measure.Lebesgue.Basic

/-!
The measure parallel tempering should leave unchanged: independent chains, chain `i` with the target density to the power `1/T i`, and
sequences of independent random numbers still to come.
-/

namespace Verif.Spec

open MeasureTheory Verif.Model
open scoped ENNReal

variable {d N : ℕ}

/-- The logarithm of a target density on `d` parameters; `none` where the density is 0. -/
abbrev LogTarget (d : ℕ) := (Fin d → ℝ) → Option ℝ

/-- The target density to the power `1/T`. -/
noncomputable def tempered (G : LogTarget d) (T : ℝ) (x : Fin d → ℝ) : ℝ≥0∞ :=
  match G x with
  | some l => ENNReal.ofReal (Real.exp (l / T))
  | none => 0

/-- The (unnormalised) joint law of the chains. -/
noncomputable def chainLaw (G : LogTarget d) (T : Fin N → ℝ) : Measure (Fin N → Fin d → ℝ) :=
  volume.withDensity fun x => ∏ i, tempered G (T i) (x i)

/-- The law of an infinite sequence of independent draws from `ν`. -/
noncomputable def drawsOf (ν : Measure ℝ) [IsProbabilityMeasure ν] : Measure (ℕ → ℝ) := Measure.infinitePi fun _ : ℕ => ν

/-- The uniform law on [0,1). -/
noncomputable def unifLaw : Measure ℝ := volume.restrict (Set.Ico 0 1)

instance : IsProbabilityMeasure unifLaw := ⟨by simp [unifLaw]⟩

/-- Values of the chains, proposal draws still to come, uniform draws still to come. -/
abbrev McState (N d : ℕ) := (Fin N → Fin d → ℝ) × (ℕ → ℝ) × (ℕ → ℝ)

/-- The joint law of chains and draws; `ν` is the law of the proposal draws. -/
noncomputable def mcLaw (G : LogTarget d) (T : Fin N → ℝ) (ν : Measure ℝ) [IsProbabilityMeasure ν] : Measure (McState N d) :=
  (chainLaw G T).prod ((drawsOf ν).prod (drawsOf unifLaw))

/-- A stored log-density is that of the target: not finite where the density is 0. -/
def Agrees (v : Dbl) : Option ℝ → Prop
  | some l => v = .fin l
  | none => ¬ v.isFin

variable {μ : Type}

/-- What a sampler shows: values, log-densities, random numbers to come. -/
structure Shows (G : LogTarget d) (s : Samp μ d) (z : McState N d) : Prop where
  length : s.chains.length = N
  value : ∀ (i : Fin N) c, s.chains[(i : ℕ)]? = some c → c.value = List.ofFn (z.1 i)
  logpost : ∀ (i : Fin N) c, s.chains[(i : ℕ)]? = some c → Agrees c.logpost (G (z.1 i))
  stud : s.rng.stud = z.2.1
  unif : s.rng.unif = z.2.2

/-- `u` is `s` with, possibly, other values and log-densities of the chains and other random numbers. -/
structure SameMachine (s u : Samp μ d) : Prop where
  obj : u.chains.map Par.obj = s.chains.map Par.obj
  temp : u.chains.map Par.temp = s.chains.map Par.temp
  steps : u.steps = s.steps

/-- Further sweeps of the machine `t` leave the joint law of chains and draws unchanged: `n` sweeps from any values, log-densities and
random numbers return, and what the sampler then shows is a measure preserving function of what it showed. -/
def KeepsLaw [Target μ] (G : LogTarget d) (T : Fin N → ℝ) (ν : Measure ℝ) [IsProbabilityMeasure ν] (t : Samp μ d) : Prop :=
  ∀ n, ∃ Φ : McState N d → McState N d, MeasurePreserving Φ (mcLaw G T ν) (mcLaw G T ν) ∧
    ∀ u z, SameMachine t u → Shows G u z → ∃ u', Sweeps u n u' ∧ Shows G u' (Φ z)

end Verif.Spec
