import Verif.Model.Sampler

/-!
Outcomes of Monte Carlo steps on the chains.
-/

namespace Verif.Spec

open Verif.Model

variable {μ : Type} {d : ℕ}

/-- One step of a RAM object, on any parameter object and random numbers. -/
def RamStep (μ : Type) [Target μ] {d : ℕ} (a a' : Ram d) : Prop :=
  ∃ (s s' : Par μ) (r r' : Rng), a.doStep s r = .ok (a', s', r')

/-- The log-density function of a target whose object may change inside: on all objects satisfying `inv`, evaluation gives `f` and keeps
`inv`, and so do the starting-value functions. -/
structure HistoryFree (μ : Type) [Target μ] (inv : μ → Prop) (f : List ℝ → Res Dbl) : Prop where
  ld : ∀ o θ o' v, inv o → Target.ld o θ = .ok (o', v) → inv o' ∧ f θ = .ok v
  start : ∀ fuel o r o' θ r', inv o → Target.start fuel o r = .ok (o', θ, r') → inv o'
  setStart : ∀ fuel o init r o' θ r', inv o → Target.setStart fuel o init r = .ok (o', θ, r') → inv o'

/-- A move of a chain to `θ`: rejected, or accepted with finite old and new log-densities; `f` is the log-density. Only the model object
(the filter inside it) may change otherwise. -/
inductive Moved (f : List ℝ → Res Dbl) (s : Par μ) (θ : List ℝ) : Par μ → Prop
  | reject (o : μ) : Moved f s θ { s with obj := o }
  | accept (o : μ) (lp : Dbl) : f θ = .ok lp → lp.isFin → s.logpost.isFin →
      Moved f s θ { s with obj := o, value := θ, logpost := lp }

/-- Outcome of an exchange of chain `i` with the chain before it: nothing, or values and log-densities swapped, all else (temperatures,
labels, samples) staying in place. -/
inductive Exchanged (ps : List (Par μ)) (i : ℕ) : List (Par μ) → Prop
  | keep : Exchanged ps i ps
  | swap (o : μ) (this other : Par μ) : 0 < i → ps[i]? = some this → ps[i - 1]? = some other →
      Exchanged ps i ((ps.set i { this with obj := o, value := other.value, logpost := other.logpost }).set (i - 1)
        { other with value := this.value, logpost := this.logpost })

/-- One step of the sampler on the list of chains. -/
inductive ChainStep (f : List ℝ → Res Dbl) (d : ℕ) (ps : List (Par μ)) : List (Par μ) → Prop
  | move (i : ℕ) (s s' : Par μ) (θ : List ℝ) : ps[i]? = some s → s.value.length = d → θ.length = d → Moved f s θ s' →
      ChainStep f d ps (ps.set i s')
  | exch (i : ℕ) (ps' : List (Par μ)) : Exchanged ps i ps' → ChainStep f d ps ps'

end Verif.Spec
