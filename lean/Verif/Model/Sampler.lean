import Verif.Model.Steps
import Verif.Model.Start

/-!
Model of `Sampler` (`src/samplers.cpp` lines 24-124, `src/include/samplers.hpp` lines 98-143) and of the two run functions
(`src/carmcmc.cpp`). Timers, progress display and messages are dropped. Iteration counts are natural numbers.
-/

namespace Verif.Model

open scoped Classical

/-- A step in the sampler's step stack. Steps hold references to chains of the ensemble, here their index. -/
inductive StepSt (d : ℕ) where
  | ram (chain : ℕ) (a : Ram d)
  | exch (e : Exch)

/-- Index of the parameter a step points to (`GetParPointer`, `src/include/steps.hpp` lines 272-274, 383-385). -/
def StepSt.chain {d : ℕ} : StepSt d → ℕ
  | .ram i _ => i
  | .exch e => e.idx

/-- Everything the sampler works on: the ensemble of parameters, the step stack, the map from tracked labels to parameters, the
generator. -/
structure Samp (μ : Type) (d : ℕ) where
  chains : List (Par μ)
  steps : List (StepSt d)
  tracked : List (String × ℕ)
  rng : Rng

namespace Samp
variable {μ : Type} [Target μ] {d : ℕ}

omit [Target μ] in
/-- `p_tracked_parameters_[label] = pointer`: replaces the entry of a label already present. -/
def insertTracked (l : List (String × ℕ)) (label : String) (i : ℕ) : List (String × ℕ) :=
  (label, i) :: l.filter fun x => x.1 ≠ label

omit [Target μ] in
/-- `Sampler::AddStep` (`src/samplers.cpp` lines 24-34). -/
def addStep (s : Samp μ d) (st : StepSt d) : Res (Samp μ d) := do
  let par ← rdU s.chains st.chain
  let s := { s with steps := s.steps ++ [st] }
  return if par.track then { s with tracked := insertTracked s.tracked par.label st.chain } else s

/-- Execute step number `k` of the stack (`src/samplers.cpp` lines 42-43, 50-51). -/
noncomputable def doStep (s : Samp μ d) (k : ℕ) : Res (Samp μ d) := do
  let st ← rdU s.steps k
  match st with
  | .ram i a => do
      let par ← rdU s.chains i
      let (a, par, rng) ← a.doStep par s.rng
      return { s with chains := s.chains.set i par, steps := s.steps.set k (.ram i a), rng := rng }
  | .exch e => do
      let (e, chains, rng) ← e.doStep s.chains s.rng
      return { s with chains := chains, steps := s.steps.set k (.exch e), rng := rng }

/-- The first `m` steps of the stack in order. -/
noncomputable def stepLoop (s : Samp μ d) : ℕ → Res (Samp μ d)
  | 0 => .ok s
  | m + 1 => do
      let s ← stepLoop s m
      s.doStep m

/-- One sweep over the step stack. -/
noncomputable def sweep (s : Samp μ d) : Res (Samp μ d) := s.stepLoop s.steps.length

/-- `Sampler::Iterate` (`src/samplers.cpp` lines 37-54). -/
noncomputable def iterate (s : Samp μ d) (n : ℕ) : Res (Samp μ d) := iter sweep n s

omit [Target μ] in
/-- `SetSampleSize` on every tracked parameter (`src/samplers.cpp` lines 63-66). -/
def setSizes (s : Samp μ d) (n : ℕ) : List (String × ℕ) → Res (Samp μ d)
  | [] => .ok s
  | (_, i) :: l => do
      let s ← setSizes s n l
      let par ← rdU s.chains i
      return { s with chains := s.chains.set i (par.setSampleSize n) }

omit [Target μ] in
/-- `Sampler::SaveValues` (`src/samplers.cpp` lines 118-124). -/
def saveValues (s : Samp μ d) (k : ℕ) : List (String × ℕ) → Res (Samp μ d)
  | [] => .ok s
  | (_, i) :: l => do
      let s ← saveValues s k l
      let par ← rdU s.chains i
      let par ← par.addToSample k
      return { s with chains := s.chains.set i par }

/-- Starting value of the parameter of step `k` (`src/samplers.cpp` lines 82-93). -/
noncomputable def startOne (fuel : ℕ) (init : Option (List ℝ)) (s : Samp μ d) (k : ℕ) : Res (Samp μ d) := do
  let st ← rdU s.steps k
  let par ← rdU s.chains st.chain
  let (obj, θ, rng) ← (match init with
    | some i => Target.setStart fuel par.obj i s.rng
    | none => Target.start fuel par.obj s.rng)
  let par ← { par with obj := obj }.save θ
  return { s with chains := s.chains.set st.chain par, rng := rng }

/-- Starting values for the first `m` steps. -/
noncomputable def startLoop (fuel : ℕ) (init : Option (List ℝ)) (s : Samp μ d) : ℕ → Res (Samp μ d)
  | 0 => .ok s
  | m + 1 => do
      let s ← startLoop fuel init s m
      startOne fuel init s m

/-- The sampling loop after `k` recorded samples out of the total: iterate `thin` times, record (`src/samplers.cpp`
lines 101-108). -/
noncomputable def sampleLoop (thin : ℕ) (s : Samp μ d) : ℕ → Res (Samp μ d)
  | 0 => .ok s
  | k + 1 => do
      let s ← sampleLoop thin s k
      let s ← s.iterate thin
      s.saveValues k s.tracked

/-- `Sampler::Run` (`src/samplers.cpp` lines 57-115). `steps_[0]` is unchecked. -/
noncomputable def run (fuel : ℕ) (s : Samp μ d) (sampleSize burnin thin : ℕ) (init : List ℝ) : Res (Samp μ d) := do
  let s ← s.setSizes sampleSize s.tracked
  let st ← rdU s.steps 0
  let par ← rdU s.chains st.chain
  let init := if init.length = par.value.length then some init else none
  let s ← s.startLoop fuel init s.steps.length
  let s ← s.iterate burnin
  s.sampleLoop thin sampleSize

end Samp

/-! ### the run functions -/

/-- Variance of `y` with divisor `n` (`src/carmcmc.cpp` lines 35-38, 85-88): 0/0 for empty data. -/
noncomputable def popVar (y : List ℝ) : Res ℝ := do
  let mean ← dv y.sum y.length
  let sq ← dv (y.map fun x => x * x).sum y.length
  return sq - mean * mean

/-- Initial proposal covariance (`src/carmcmc.cpp` lines 50-54, 132-136): diagonal. -/
noncomputable def propCovar (d : ℕ) (var : ℝ) (n : ℕ) : Matrix (Fin d) (Fin d) ℝ :=
  Matrix.diagonal fun i =>
    if (i : ℕ) = 0 then 2 * var * var / n else if (i : ℕ) = 2 then var / n else 1 * 0.01 * 0.01

/-- `arma::chol` of a diagonal matrix: element-wise square roots; a diagonal entry that is not positive is rejected with
`std::runtime_error` (`src/steps.cpp` line 32). -/
noncomputable def cholDiag {d : ℕ} (A : Matrix (Fin d) (Fin d) ℝ) : Res (Matrix (Fin d) (Fin d) ℝ) :=
  if ∃ i, A i i ≤ 0 then .error .runtime else .ok (Matrix.diagonal fun i => √(A i i))

/-- Constructor of `AdaptiveMetro` (`src/steps.cpp` lines 24-33). -/
noncomputable def Ram.new {d : ℕ} (covar : Matrix (Fin d) (Fin d) ℝ) (target : ℝ) (maxiter : ℕ) : Res (Ram d) := do
  let L ← cholDiag covar
  return { chol := L, gamma := 2 / 3, target := target, niter := 0, naccept := 0, maxiter := maxiter, alpha := .nan }

/-- A parameter object right after construction: `value_.set_size(n)` leaves the elements uninitialised (here 0). -/
def Par.new {μ : Type} (obj : μ) (n : ℕ) (temp : ℝ) (label : String) (track : Bool) : Par μ :=
  { obj := obj, value := List.replicate n 0, logpost := .nan, temp := temp, label := label, track := track, samples := [],
    logposts := [] }

/-- `RunCar1Sampler` (`src/carmcmc.cpp` lines 30-77): builds the sampler. The square root of a negative rounding error cannot
occur over the reals; with rounded arithmetic see `Verif/Model/FRun.lean`. -/
noncomputable def car1Sampler (srt : List ℝ → List ℕ) (burnin : ℕ) (time y yerr : List ℝ) (r : Rng) :
    Res (Samp Car1 4) := do
  let var ← popVar y
  let maxStdev := 10 * √var
  let obj ← Car1.new srt time y yerr
  let b ← obj.b.setPrior maxStdev
  let par := Par.new { obj with b := b } 4 1 "CAR(1)" true
  let a ← Ram.new (propCovar 4 var y.length) 0.25 burnin
  ({ chains := [par], steps := [], tracked := [], rng := r } : Samp Car1 4).addStep (.ram 0 a)

/-- `RunCar1Sampler` (`src/carmcmc.cpp` lines 30-77): returns the final parameter object. -/
noncomputable def runCar1Sampler (fuel : ℕ) (srt : List ℝ → List ℕ) (sampleSize burnin : ℕ) (time y yerr : List ℝ)
    (thin : ℕ) (init : List ℝ) (r : Rng) : Res (Par Car1) := do
  let s ← car1Sampler srt burnin time y yerr r
  let s ← s.run fuel sampleSize burnin thin init
  rdU s.chains 0

/-- `arma::exp(arma::linspace(0, log(100), n))(i)` (`src/carmcmc.cpp` lines 92-95). Armadillo's `linspace` with one element returns the
end point. -/
noncomputable def temperature (n i : ℕ) : ℝ :=
  if n = 1 then Real.exp (Real.log 100)
  else Real.exp (i * (Real.log 100 / (n - 1 : ℕ)))

/-- Kind of object put into the ensemble (`src/carmcmc.cpp` lines 102-112). -/
def runKind (q : ℕ) (zcarma : Bool) : Kind :=
  if zcarma then .zcar else if q = 0 then .carp else .carma q

/-- Label given to the parameter (`src/carmcmc.cpp` lines 104-111). -/
def runLabel (q : ℕ) (zcarma : Bool) : String :=
  if zcarma then "ZCAR(p) Parameters" else if q = 0 then "CAR(p) Parameters" else "CARMA(p,q) Parameters"

/-- Number of parameters used for the proposal covariance (`src/carmcmc.cpp` lines 127-130). -/
def nParams (p q : ℕ) (zcarma : Bool) : ℕ := if zcarma then 3 + p else 3 + p + q

/-- The ensemble (`src/carmcmc.cpp` lines 98-116), chains `0..m-1`. -/
noncomputable def ensemble (srt : List ℝ → List ℕ) (time y yerr : List ℝ) (p q n : ℕ) (zcarma : Bool) (maxStdev : ℝ) :
    ℕ → Res (List (Par (CarP p)))
  | 0 => .ok []
  | m + 1 => do
      let l ← ensemble srt time y yerr p q n zcarma maxStdev m
      let obj ← CarP.new (runKind q zcarma) p srt time y yerr
      let b ← obj.b.setPrior maxStdev
      return l ++ [Par.new { obj with b := b } (CarP.thetaLen p (runKind q zcarma)) (temperature n m) (runLabel q zcarma) false]

/-- The steps of the tempered chains, from chain `m` down to chain 1: a RAM step, then an exchange with the next cooler chain
(`src/carmcmc.cpp` lines 147-152). -/
noncomputable def temperedSteps {μ : Type} {d : ℕ} (covar : Matrix (Fin d) (Fin d) ℝ) (burnin : ℕ) (report : ℤ) :
    ℕ → Samp μ d → Res (Samp μ d)
  | 0, s => .ok s
  | m + 1, s => do
      let a ← Ram.new covar 0.25 burnin
      let s ← s.addStep (.ram (m + 1) a)
      let s ← s.addStep (.exch { idx := m + 1, reportIter := report, niter := 0, naccept := 0, alpha := .nan })
      temperedSteps covar burnin report m s

/-- `RunCarmaSampler` up to the call of `Run` (`src/carmcmc.cpp` lines 79-157). `assert(p > 1)` is compiled out with `NDEBUG` and is not
modelled. `CarEnsemble[0]` on an empty ensemble is undefined behaviour. -/
noncomputable def carmaSampler (srt : List ℝ → List ℕ) (sampleSize burnin : ℕ) (time y yerr : List ℝ) (p q nwalkers : ℕ)
    (zcarma : Bool) (thin : ℕ) (r : Rng) : Res (Samp (CarP p) (nParams p q zcarma)) := do
  let var ← popVar y
  let maxStdev := 10 * √var
  let chains ← ensemble srt time y yerr p q nwalkers zcarma maxStdev nwalkers
  let covar := propCovar (nParams p q zcarma) var y.length
  let report : ℤ := burnin + thin * sampleSize
  let s ← temperedSteps covar burnin report (nwalkers - 1)
    ({ chains := chains, steps := [], tracked := [], rng := r } : Samp (CarP p) (nParams p q zcarma))
  let par ← rdU s.chains 0
  let s := { s with chains := s.chains.set 0 (par.setTracking true) }
  let a ← Ram.new covar 0.25 burnin
  s.addStep (.ram 0 a)

/-- `RunCarmaSampler` (`src/carmcmc.cpp` lines 79-177): returns (a copy of) chain 0. -/
noncomputable def runCarmaSampler (fuel : ℕ) (srt : List ℝ → List ℕ) (sampleSize burnin : ℕ) (time y yerr : List ℝ)
    (p q nwalkers : ℕ) (zcarma : Bool) (thin : ℕ) (init : List ℝ) (r : Rng) : Res (Par (CarP p)) := do
  let s ← carmaSampler srt sampleSize burnin time y yerr p q nwalkers zcarma thin r
  let s ← s.run fuel sampleSize burnin thin init
  rdU s.chains 0

end Verif.Model
