import Verif.Model.Sampler

/-!
The sampler once more with the `int` counters of the code, what its steps print, and the `int` arguments of the run functions
(`src/steps.cpp`, `src/include/steps.hpp`, `src/samplers.cpp`, `src/carmcmc.cpp`). `int` has 32 bits; overflow of a signed sum or product is
undefined behaviour. Messages that carry no number computed by the sampler, the progress display and failure to allocate memory are dropped.
The orders `p` and `q` are natural numbers.
-/

namespace Verif.Model

open scoped Classical

/-- Value of an `int` expression. -/
def int32 (z : ℤ) : Res ℤ := if -2147483648 ≤ z ∧ z ≤ 2147483647 then .ok z else .error .ub

/-- A line printed by a step (`src/steps.cpp` line 105; `Report`, `src/include/steps.hpp` lines 365-370). -/
inductive Line where
  | ram (rate : ℝ)
  | exch (rate : ℝ)

/-- Members of `AdaptiveMetro` (`src/include/steps.hpp` lines 275-287). -/
structure RamI (d : ℕ) where
  chol : Matrix (Fin d) (Fin d) ℝ
  gamma : ℝ
  target : ℝ
  niter : ℤ
  naccept : ℤ
  maxiter : ℤ
  alpha : Dbl

/-- Constructor of `AdaptiveMetro` (`src/steps.cpp` lines 24-33). -/
noncomputable def RamI.new {d : ℕ} (covar : Matrix (Fin d) (Fin d) ℝ) (target : ℝ) (maxiter : ℤ) : Res (RamI d) := do
  let L ← cholDiag covar
  return { chol := L, gamma := 2 / 3, target := target, niter := 0, naccept := 0, maxiter := maxiter, alpha := .nan }

/-- Result of `AdaptiveMetro::Accept`. -/
structure AcceptedI (μ : Type) (d : ℕ) where
  ok : Bool
  par : Par μ
  ram : RamI d
  rng : Rng

variable {μ : Type} [Target μ] {d : ℕ}

/-- `AdaptiveMetro::Accept` (`src/steps.cpp` lines 36-56). -/
noncomputable def RamI.accept (a : RamI d) (s : Par μ) (θ : List ℝ) (r : Rng) : Res (AcceptedI μ d) := do
  let (obj, lp) ← Target.ld s.obj θ
  let s := { s with obj := obj }
  let alpha := Dbl.div (lp.sub s.logpost) (.fin s.temp)
  if ¬ alpha.isFin then
    return ⟨false, s, { a with alpha := .fin 0 }, r⟩
  else
    let (u, r) := r.nextU
    let alpha := Dbl.min alpha.exp (.fin 1)
    if (Dbl.fin u).lt alpha then
      let n ← int32 (a.naccept + 1)
      return ⟨true, s, { a with alpha := alpha, naccept := n }, r⟩
    else
      return ⟨false, s, { a with alpha := alpha }, r⟩

/-- `min(1, n_rows / pow(niter_, gamma_))` (`src/steps.cpp` line 87). -/
noncomputable def RamI.stepSize (a : RamI d) : Dbl :=
  Dbl.min (.fin 1) (Dbl.div (.fin d) (.fin ((a.niter : ℝ) ^ a.gamma)))

/-- The adaptation of the proposal factor (`src/steps.cpp` lines 82-99). -/
noncomputable def RamI.adapt (a : RamI d) (u w : Fin d → ℝ) : Res (RamI d) := do
  match a.alpha with
  | .fin alpha =>
    if a.niter < a.maxiter then
      let step ← (match a.stepSize with
        | .fin x => .ok x
        | _ => .error .nonfinite : Res ℝ)
      let f ← dv (√(step * |alpha - a.target|)) (norm2 u)
      let L ← cholUpdateR1 a.chol (fun i => f * w i) (decide (alpha < a.target))
      return { a with chol := L }
    else return a
  | _ => return a

/-- `AdaptiveMetro::DoStep` (`src/steps.cpp` lines 60-107), with the line it prints (lines 103-106). -/
noncomputable def RamI.doStep (a : RamI d) (s : Par μ) (r : Rng) : Res (RamI d × Par μ × Rng × List Line) := do
  if s.value.length ≠ d then .error .bounds
  let u : Fin d → ℝ := fun i => r.stud i
  let r := { r with stud := Rng.skip d r.stud }
  let w : Fin d → ℝ := fun j => ∑ i, a.chol i j * u i
  let θ := List.ofFn fun i : Fin d => s.value.getD i 0 + w i
  let res ← a.accept s θ r
  let s ← if res.ok then res.par.save θ else pure res.par
  let a ← res.ram.adapt u w
  let n ← int32 (a.niter + 1)
  return ({ a with niter := n }, s, res.rng, if n = a.maxiter then [.ram (a.naccept / n)] else [])

/-- Members of `ExchangeStep` (`src/include/steps.hpp` lines 388-395). -/
structure ExchI where
  idx : ℕ
  reportIter : ℤ
  niter : ℤ
  naccept : ℤ
  alpha : Dbl

/-- `ExchangeStep::DoStep` and `Report` (`src/include/steps.hpp` lines 318-370). -/
noncomputable def ExchI.doStep (e : ExchI) (ps : List (Par μ)) (r : Rng) : Res (ExchI × List (Par μ) × Rng × List Line) := do
  let this ← rdU ps e.idx
  let j ← (if e.idx = 0 then .error .ub else .ok (e.idx - 1) : Res ℕ)
  let other ← rdU ps j
  let alpha := swapProb this.temp other.temp this.logpost other.logpost
  let (u, r) := r.nextU
  let (ps, acc) ← (if (Dbl.fin u).lt alpha then do
      let this' ← this.save other.value
      let other' ← other.saveStale this.value
      let this' := this'.setLogDensity other.logpost
      let other' := other'.setLogDensity this.logpost
      let n ← int32 (e.naccept + 1)
      pure ((ps.set e.idx this').set j other', n)
    else pure (ps, e.naccept) : Res (List (Par μ) × ℤ))
  let n ← int32 (e.niter + 1)
  if n = e.reportIter then
    return ({ e with niter := 0, naccept := 0, alpha := alpha }, ps, r, [.exch (acc / n)])
  else
    return ({ e with niter := n, naccept := acc, alpha := alpha }, ps, r, [])

/-- A step in the sampler's step stack. -/
inductive StepI (d : ℕ) where
  | ram (chain : ℕ) (a : RamI d)
  | exch (e : ExchI)

/-- Index of the parameter a step points to. -/
def StepI.chain {d : ℕ} : StepI d → ℕ
  | .ram i _ => i
  | .exch e => e.idx

/-- The sampler with everything its steps have printed so far. -/
structure SampI (μ : Type) (d : ℕ) where
  chains : List (Par μ)
  steps : List (StepI d)
  tracked : List (String × ℕ)
  rng : Rng
  out : List Line

namespace SampI

omit [Target μ] in
/-- `Sampler::AddStep` (`src/samplers.cpp` lines 24-34). -/
def addStep (s : SampI μ d) (st : StepI d) : Res (SampI μ d) := do
  let par ← rdU s.chains st.chain
  let s := { s with steps := s.steps ++ [st] }
  return if par.track then { s with tracked := Samp.insertTracked s.tracked par.label st.chain } else s

/-- Execute step number `k` of the stack (`src/samplers.cpp` lines 42-43, 50-51). -/
noncomputable def doStep (s : SampI μ d) (k : ℕ) : Res (SampI μ d) := do
  let st ← rdU s.steps k
  match st with
  | .ram i a => do
      let par ← rdU s.chains i
      let (a, par, rng, l) ← a.doStep par s.rng
      return { s with chains := s.chains.set i par, steps := s.steps.set k (.ram i a), rng := rng, out := s.out ++ l }
  | .exch e => do
      let (e, chains, rng, l) ← e.doStep s.chains s.rng
      return { s with chains := chains, steps := s.steps.set k (.exch e), rng := rng, out := s.out ++ l }

/-- The first `m` steps of the stack in order. -/
noncomputable def stepLoop (s : SampI μ d) : ℕ → Res (SampI μ d)
  | 0 => .ok s
  | m + 1 => do
      let s ← stepLoop s m
      s.doStep m

/-- One sweep over the step stack. -/
noncomputable def sweep (s : SampI μ d) : Res (SampI μ d) := s.stepLoop s.steps.length

/-- `Sampler::Iterate` (`src/samplers.cpp` lines 37-54): no pass for a negative number. -/
noncomputable def iterate (s : SampI μ d) (n : ℤ) : Res (SampI μ d) := iter sweep n.toNat s

omit [Target μ] in
/-- `SetSampleSize` on every tracked parameter (`src/samplers.cpp` lines 63-66). `resize` to a negative size throws `std::length_error`, a
`std::logic_error`. -/
def setSizes (s : SampI μ d) (n : ℤ) : List (String × ℕ) → Res (SampI μ d)
  | [] => .ok s
  | (_, i) :: l => do
      let s ← setSizes s n l
      let par ← rdU s.chains i
      if n < 0 then .error .bounds
      return { s with chains := s.chains.set i (par.setSampleSize n.toNat) }

omit [Target μ] in
/-- `Sampler::SaveValues` (`src/samplers.cpp` lines 118-124). -/
def saveValues (s : SampI μ d) (k : ℕ) : List (String × ℕ) → Res (SampI μ d)
  | [] => .ok s
  | (_, i) :: l => do
      let s ← saveValues s k l
      let par ← rdU s.chains i
      let par ← par.addToSample k
      return { s with chains := s.chains.set i par }

/-- Starting value of the parameter of step `k` (`src/samplers.cpp` lines 82-93). -/
noncomputable def startOne (fuel : ℕ) (init : Option (List ℝ)) (s : SampI μ d) (k : ℕ) : Res (SampI μ d) := do
  let st ← rdU s.steps k
  let par ← rdU s.chains st.chain
  let (obj, θ, rng) ← (match init with
    | some i => Target.setStart fuel par.obj i s.rng
    | none => Target.start fuel par.obj s.rng)
  let par ← { par with obj := obj }.save θ
  return { s with chains := s.chains.set st.chain par, rng := rng }

/-- Starting values for the first `m` steps. -/
noncomputable def startLoop (fuel : ℕ) (init : Option (List ℝ)) (s : SampI μ d) : ℕ → Res (SampI μ d)
  | 0 => .ok s
  | m + 1 => do
      let s ← startLoop fuel init s m
      startOne fuel init s m

/-- The sampling loop after `k` recorded samples out of the total (`src/samplers.cpp` lines 101-108). -/
noncomputable def sampleLoop (thin : ℤ) (s : SampI μ d) : ℕ → Res (SampI μ d)
  | 0 => .ok s
  | k + 1 => do
      let s ← sampleLoop thin s k
      let s ← s.iterate thin
      s.saveValues k s.tracked

/-- `Sampler::Run` (`src/samplers.cpp` lines 57-115). -/
noncomputable def run (fuel : ℕ) (s : SampI μ d) (sampleSize burnin thin : ℤ) (init : List ℝ) : Res (SampI μ d) := do
  let s ← s.setSizes sampleSize s.tracked
  let st ← rdU s.steps 0
  let par ← rdU s.chains st.chain
  let init := if init.length = par.value.length then some init else none
  let s ← s.startLoop fuel init s.steps.length
  let s ← s.iterate burnin
  s.sampleLoop thin sampleSize.toNat

end SampI

/-- `RunCar1Sampler` (`src/carmcmc.cpp` lines 30-77) up to the call of `Run`. `report_iter` (line 43) is computed and not used. -/
noncomputable def car1SamplerI (srt : List ℝ → List ℕ) (sampleSize burnin : ℤ) (time y yerr : List ℝ) (thin : ℤ) (r : Rng) :
    Res (SampI Car1 4) := do
  let var ← popVar y
  let maxStdev := 10 * √var
  let _ ← int32 (burnin + (← int32 (thin * sampleSize)))
  let obj ← Car1.new srt time y yerr
  let b ← obj.b.setPrior maxStdev
  let par := Par.new { obj with b := b } 4 1 "CAR(1)" true
  let a ← RamI.new (propCovar 4 var y.length) 0.25 burnin
  ({ chains := [par], steps := [], tracked := [], rng := r, out := [] } : SampI Car1 4).addStep (.ram 0 a)

/-- `RunCar1Sampler` (`src/carmcmc.cpp` lines 30-77): the final parameter object and what was printed. -/
noncomputable def runCar1SamplerI (fuel : ℕ) (srt : List ℝ → List ℕ) (sampleSize burnin : ℤ) (time y yerr : List ℝ)
    (thin : ℤ) (init : List ℝ) (r : Rng) : Res (Par Car1 × List Line) := do
  let s ← car1SamplerI srt sampleSize burnin time y yerr thin r
  let s ← s.run fuel sampleSize burnin thin init
  let c ← rdU s.chains 0
  return (c, s.out)

/-- The steps of the tempered chains (`src/carmcmc.cpp` lines 147-152). -/
noncomputable def temperedStepsI {μ : Type} {d : ℕ} (covar : Matrix (Fin d) (Fin d) ℝ) (burnin report : ℤ) :
    ℕ → SampI μ d → Res (SampI μ d)
  | 0, s => .ok s
  | m + 1, s => do
      let a ← RamI.new covar 0.25 burnin
      let s ← s.addStep (.ram (m + 1) a)
      let s ← s.addStep (.exch { idx := m + 1, reportIter := report, niter := 0, naccept := 0, alpha := .nan })
      temperedStepsI covar burnin report m s

/-- `RunCarmaSampler` (`src/carmcmc.cpp` lines 79-157) up to the call of `Run`. A negative number of walkers, converted to the unsigned
number of elements of `linspace` (line 94), is rejected by Armadillo. -/
noncomputable def carmaSamplerI (srt : List ℝ → List ℕ) (sampleSize burnin : ℤ) (time y yerr : List ℝ) (p q : ℕ) (nwalkers : ℤ)
    (zcarma : Bool) (thin : ℤ) (r : Rng) : Res (SampI (CarP p) (nParams p q zcarma)) := do
  let var ← popVar y
  let maxStdev := 10 * √var
  if nwalkers < 0 then .error .bounds
  let chains ← ensemble srt time y yerr p q nwalkers.toNat zcarma maxStdev nwalkers.toNat
  let report ← int32 (burnin + (← int32 (thin * sampleSize)))
  let covar := propCovar (nParams p q zcarma) var y.length
  let s ← temperedStepsI covar burnin report (nwalkers.toNat - 1)
    ({ chains := chains, steps := [], tracked := [], rng := r, out := [] } : SampI (CarP p) (nParams p q zcarma))
  let par ← rdU s.chains 0
  let s := { s with chains := s.chains.set 0 (par.setTracking true) }
  let a ← RamI.new covar 0.25 burnin
  s.addStep (.ram 0 a)

/-- `RunCarmaSampler` (`src/carmcmc.cpp` lines 79-177): chain 0 and what was printed. -/
noncomputable def runCarmaSamplerI (fuel : ℕ) (srt : List ℝ → List ℕ) (sampleSize burnin : ℤ) (time y yerr : List ℝ)
    (p q : ℕ) (nwalkers : ℤ) (zcarma : Bool) (thin : ℤ) (init : List ℝ) (r : Rng) : Res (Par (CarP p) × List Line) := do
  let s ← carmaSamplerI srt sampleSize burnin time y yerr p q nwalkers zcarma thin r
  let s ← s.run fuel sampleSize burnin thin init
  let c ← rdU s.chains 0
  return (c, s.out)

end Verif.Model
