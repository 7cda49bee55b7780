import Verif.Model.Sampler

/-!
Sweeps over the step stack of a sampler.
-/

namespace Verif.Spec

open Verif.Model

variable {μ : Type} [Target μ] {d : ℕ}

/-- The first `k` steps of the stack, executed in order. -/
inductive Done (s : Samp μ d) : ℕ → Samp μ d → Prop
  | none : Done s 0 s
  | next {k : ℕ} {t u : Samp μ d} : Done s k t → t.doStep k = .ok u → Done s (k + 1) u

/-- `n` sweeps, each executing every step of the stack once in order. -/
inductive Sweeps (s : Samp μ d) : ℕ → Samp μ d → Prop
  | none : Sweeps s 0 s
  | next {n : ℕ} {t u : Samp μ d} : Sweeps s n t → Done t s.steps.length u → Sweeps s (n + 1) u

omit [Target μ] in
/-- Two samplers differ at most in the recorded samples. -/
structure SameState (s t : Samp μ d) : Prop where
  obj : t.chains.map Par.obj = s.chains.map Par.obj
  value : t.chains.map Par.value = s.chains.map Par.value
  logpost : t.chains.map Par.logpost = s.chains.map Par.logpost
  temp : t.chains.map Par.temp = s.chains.map Par.temp
  label : t.chains.map Par.label = s.chains.map Par.label
  track : t.chains.map Par.track = s.chains.map Par.track
  steps : t.steps = s.steps
  tracked : t.tracked = s.tracked
  rng : t.rng = s.rng

/-- A state of a run of the sampler `s` after `n` sweeps: sample vectors sized, starting values given to the chain of every step
(`startLoop`), then `n` sweeps. -/
def RunState (fuel : ℕ) (s : Samp μ d) (init : List ℝ) (n : ℕ) (t : Samp μ d) : Prop :=
  ∃ s0 s1 init', SameState s s0 ∧ (init' = none ∨ init' = some init) ∧ s0.startLoop fuel init' s0.steps.length = .ok s1 ∧
    Sweeps s1 n t

/-- The order of the steps of a run with chains `0..m`, as (is it a RAM step, chain): from the hottest chain down to chain 1 a RAM
step and an exchange with the next cooler chain; last a RAM step of chain 0. -/
def stepOrder : ℕ → List (Bool × ℕ)
  | 0 => [(true, 0)]
  | m + 1 => (true, m + 1) :: (false, m + 1) :: stepOrder m

omit [Target μ] in
/-- Kind and chain of a step. -/
def stepKind : StepSt d → Bool × ℕ
  | .ram i _ => (true, i)
  | .exch e => (false, e.idx)

end Verif.Spec
