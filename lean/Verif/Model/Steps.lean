import Verif.Model.Param
import Mathlib.LinearAlgebra.Matrix.Notation
import Mathlib.Analysis.SpecialFunctions.Pow.Real
import Mathlib.Data.Matrix.Mul

/-!
Model of the MCMC steps: `AdaptiveMetro` (`src/include/steps.hpp` lines 218-288, `src/steps.cpp`), `ExchangeStep`
(`src/include/steps.hpp` lines 292-396) and `MetropStep` (lines 119-211). Counters are natural numbers (no overflow).
-/

namespace Verif.Model

open scoped Classical

/-! ### rank-1 Cholesky update -/

/-- One pass of the loop of `CholUpdateR1` (`src/steps.cpp` lines 118-129) for row `k`. `sqrt` of a negative number and a zero
divisor that is used give Inf/NaN. In the last row nothing uses `c` and `s`. -/
noncomputable def cholRow {d : ℕ} (sign : ℝ) (k : Fin d) (Lv : Matrix (Fin d) (Fin d) ℝ × (Fin d → ℝ)) :
    Res (Matrix (Fin d) (Fin d) ℝ × (Fin d → ℝ)) := do
  let L := Lv.1
  let v := Lv.2
  let x := L k k * L k k + sign * v k * v k
  if x < 0 then .error .nonfinite
  let r := √x
  if (k : ℕ) + 1 < d then
    let c ← dv r (L k k)
    let s ← dv (v k) (L k k)
    if c = 0 then .error .nonfinite
    let L' : Matrix (Fin d) (Fin d) ℝ := Matrix.of fun i j =>
      if i = k then (if j = k then r else if k < j then (L k j + sign * s * v j) / c else L k j) else L i j
    return (L', fun j => if k < j then c * v j - s * L' k j else v j)
  else
    return (Matrix.of fun i j => if i = k ∧ j = k then r else L i j, v)

/-- The loop of `CholUpdateR1` over the first `m` rows. -/
noncomputable def cholLoop {d : ℕ} (sign : ℝ) (Lv : Matrix (Fin d) (Fin d) ℝ × (Fin d → ℝ)) :
    ℕ → Res (Matrix (Fin d) (Fin d) ℝ × (Fin d → ℝ))
  | 0 => .ok Lv
  | m + 1 => do
      let Lv ← cholLoop sign Lv m
      if h : m < d then cholRow sign ⟨m, h⟩ Lv else .error .bounds

/-- `CholUpdateR1(L, v, downdate)` (`src/steps.cpp` lines 111-131). -/
noncomputable def cholUpdateR1 {d : ℕ} (L : Matrix (Fin d) (Fin d) ℝ) (v : Fin d → ℝ) (downdate : Bool) :
    Res (Matrix (Fin d) (Fin d) ℝ) := do
  let (L, _) ← cholLoop (if downdate then -1 else 1) (L, v) d
  return L

/-! ### RAM step -/

/-- Members of `AdaptiveMetro` (`src/include/steps.hpp` lines 275-287) for a `d` by `d` proposal matrix. -/
structure Ram (d : ℕ) where
  chol : Matrix (Fin d) (Fin d) ℝ
  gamma : ℝ
  target : ℝ
  niter : ℕ
  naccept : ℕ
  maxiter : ℕ
  alpha : Dbl

/-- Result of `AdaptiveMetro::Accept`. -/
structure Accepted (μ : Type) (d : ℕ) where
  ok : Bool
  par : Par μ
  ram : Ram d
  rng : Rng

variable {μ : Type} [Target μ] {d : ℕ}

/-- `AdaptiveMetro::Accept` (`src/steps.cpp` lines 36-56). Evaluating the log-density changes the filter inside the parameter
object. -/
noncomputable def Ram.accept (a : Ram d) (s : Par μ) (θ : List ℝ) (r : Rng) : Res (Accepted μ d) := do
  let (obj, lp) ← Target.ld s.obj θ
  let s := { s with obj := obj }
  let alpha := Dbl.div (lp.sub s.logpost) (.fin s.temp)
  if ¬ alpha.isFin then
    return ⟨false, s, { a with alpha := .fin 0 }, r⟩
  else
    let (u, r) := r.nextU
    let alpha := Dbl.min alpha.exp (.fin 1)
    if (Dbl.fin u).lt alpha then
      return ⟨true, s, { a with alpha := alpha, naccept := a.naccept + 1 }, r⟩
    else
      return ⟨false, s, { a with alpha := alpha }, r⟩

/-- `min(1, n_rows / pow(niter_, gamma_))` (`src/steps.cpp` line 87). -/
noncomputable def Ram.stepSize (a : Ram d) : Dbl :=
  Dbl.min (.fin 1) (Dbl.div (.fin d) (.fin ((a.niter : ℝ) ^ a.gamma)))

/-- Euclidean norm (`arma::norm(v, 2)`, `src/steps.cpp` line 89). -/
noncomputable def norm2 (u : Fin d → ℝ) : ℝ := √(∑ i, u i ^ 2)

/-- The adaptation of the proposal factor (`src/steps.cpp` lines 82-99): `u` is the unscaled draw, `w` the scaled proposal. -/
noncomputable def Ram.adapt (a : Ram d) (u w : Fin d → ℝ) : Res (Ram d) := do
  match a.alpha with
  | .fin alpha =>
    if a.niter < a.maxiter then
      let step ← (match a.stepSize with
        | .fin x => .ok x
        | _ => .error .nonfinite : Res ℝ)
      let f ← dv (√(step * |alpha - a.target|)) (norm2 u)
      let L ← cholUpdateR1 a.chol (fun i => f * w i) (decide (alpha < a.target))
      return { a with chol := L }
    else return a
  | _ => return a

/-- `AdaptiveMetro::DoStep` (`src/steps.cpp` lines 60-107) with `StudentProposal::Draw(0)` (`src/proposals.cpp` lines 26-28,
scale 1) as the source of the unit proposal. The matrix product is rejected by Armadillo if the sizes differ. -/
noncomputable def Ram.doStep (a : Ram d) (s : Par μ) (r : Rng) : Res (Ram d × Par μ × Rng) := do
  if s.value.length ≠ d then .error .bounds
  let u : Fin d → ℝ := fun i => r.stud i
  let r := { r with stud := Rng.skip d r.stud }
  let w : Fin d → ℝ := fun j => ∑ i, a.chol i j * u i
  let θ := List.ofFn fun i : Fin d => s.value.getD i 0 + w i
  let res ← a.accept s θ r
  let s ← if res.ok then res.par.save θ else pure res.par
  let a ← res.ram.adapt u w
  return ({ a with niter := a.niter + 1 }, s, res.rng)

/-! ### exchange step -/

/-- Members of `ExchangeStep` (`src/include/steps.hpp` lines 388-395). `reportIter` is signed in C++ (default -1); the value is
compared with a counter only. -/
structure Exch where
  idx : ℕ
  reportIter : ℤ
  niter : ℕ
  naccept : ℕ
  alpha : Dbl

/-- Acceptance probability of a swap (`src/include/steps.hpp` lines 330-338). -/
noncomputable def swapProb (tThis tOther : ℝ) (this other : Dbl) : Dbl :=
  let alpha := ((Dbl.div (.fin 1) (.fin tThis)).mul (other.sub this)).add
    ((Dbl.div (.fin 1) (.fin tOther)).mul (this.sub other))
  let alpha := Dbl.min alpha.exp (.fin 1)
  if alpha.isFin then alpha else .fin 0

/-- `ExchangeStep::DoStep` (`src/include/steps.hpp` lines 318-362) on the ensemble `ps`; `Report` prints and zeroes the two
counters. `ensemble_[i]` is unchecked. -/
noncomputable def Exch.doStep (e : Exch) (ps : List (Par μ)) (r : Rng) : Res (Exch × List (Par μ) × Rng) := do
  let this ← rdU ps e.idx
  let j ← (if e.idx = 0 then .error .ub else .ok (e.idx - 1) : Res ℕ)
  let other ← rdU ps j
  let alpha := swapProb this.temp other.temp this.logpost other.logpost
  let (u, r) := r.nextU
  let (ps, acc) ← (if (Dbl.fin u).lt alpha then do
      let this' ← this.save other.value
      let other' ← other.saveStale this.value
      let this' := this'.setLogDensity other.logpost
      let other' := other'.setLogDensity this.logpost
      pure ((ps.set e.idx this').set j other', e.naccept + 1)
    else pure (ps, e.naccept) : Res (List (Par μ) × ℕ))
  let report := decide (((e.niter : ℤ) + 1) = e.reportIter)
  return ({ e with
    niter := if report then 0 else e.niter + 1, naccept := if report then 0 else acc, alpha := alpha }, ps, r)

/-! ### plain Metropolis-Hastings step -/

/-- A `Proposal` object (`src/include/proposals.hpp` lines 25-31): a draw, which may use random numbers and change the object, and
a log-density. -/
class Proposer (π : Type) where
  draw : π → List ℝ → Rng → Res (π × List ℝ × Rng)
  ld : π → List ℝ → List ℝ → Dbl

/-- Members of `MetropStep` (`src/include/steps.hpp` lines 203-210). -/
structure Metro (π : Type) where
  prop : π
  reportIter : ℤ
  niter : ℕ
  naccept : ℕ
  alpha : Dbl

/-- The acceptance ratio of `MetropStep::Accept` on the log scale (`src/include/steps.hpp` lines 141-143). -/
noncomputable def metroLog (temp : ℝ) (new old qBack qForth : Dbl) : Dbl :=
  (((new.div (.fin temp)).sub (old.div (.fin temp))).add qBack).sub qForth

/-- `MetropStep::DoStep` and `Accept` (`src/include/steps.hpp` lines 138-178). -/
noncomputable def Metro.doStep {π : Type} [Proposer π] (m : Metro π) (s : Par μ) (r : Rng) :
    Res (Metro π × Par μ × Rng) := do
  let (prop, θ, r) ← Proposer.draw m.prop s.value r
  let (obj, lp) ← Target.ld s.obj θ
  let s := { s with obj := obj }
  let alpha := metroLog s.temp lp s.logpost (Proposer.ld prop s.value θ) (Proposer.ld prop θ s.value)
  let (acc, alpha, r) := (if ¬ alpha.isFin then (false, alpha, r)
    else
      let alpha := Dbl.min alpha.exp (.fin 1)
      (decide ((Dbl.fin r.nextU.1).lt alpha), alpha, r.nextU.2) : Bool × Dbl × Rng)
  let s ← if acc then s.save θ else pure s
  let n := if acc then m.naccept + 1 else m.naccept
  let report := decide (((m.niter : ℤ) + 1) = m.reportIter)
  return ({ m with
    prop := prop, alpha := alpha, niter := if report then 0 else m.niter + 1, naccept := if report then 0 else n }, s, r)

/-- `GibbsStep::DoStep` (`src/include/steps.hpp` lines 84-86) given the draw of `RandomPosterior`. -/
def gibbsStep (s : Par μ) (draw : List ℝ) : Res (Par μ) := s.save draw

end Verif.Model
