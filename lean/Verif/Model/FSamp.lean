import Verif.Model.FRun

/-!
The sampler with machine numbers: `AdaptiveMetro`, `CholUpdateR1`, `ExchangeStep`, `Sampler` and `RunCar1Sampler` once more, as in
`Verif/Model/Steps.lean` and `Verif/Model/Sampler.lean`, but with rounded arithmetic and without an outcome of its own for Inf and NaN: a
calculation that meets them goes on with them, as the C++ does.

Left out: counters that are only printed, labels (the run functions track one parameter), messages. Iteration counts are natural numbers.
-/

namespace Verif.Model

open scoped Classical

/-- Machine arithmetic of the sampler: the operations of `Arith`, `pow`, one element of a matrix-vector product (BLAS may add in any order),
and the Euclidean norm (`arma::norm`, which has its own way of avoiding overflow). -/
structure Mach where
  A : Arith
  pow : Dbl → Dbl → Dbl
  dot : List Dbl → List Dbl → Dbl
  norm : List Dbl → Dbl

/-- Numbers still to come from the generators: uniform, Student t, and what `StartingValue` makes of its draws: the vector it proposes, and the
variance it draws beside it in the CARMA classes. The arithmetic that makes them is not modelled here: they may be anything. -/
structure FRng where
  unif : ℕ → Dbl
  stud : ℕ → Dbl
  prior : ℕ → List Dbl
  yvar : ℕ → Dbl

/-- Drop the first `k` elements of a stream. -/
def FRng.skip {α : Type} (k : ℕ) (f : ℕ → α) : ℕ → α := fun i => f (i + k)

/-- The virtual methods of `Parameter<arma::vec>` (`src/include/parameters.hpp` lines 104-126, 130-133), and the log-density that
`CARMA_Base::Save` computes from whatever the filter holds. -/
class FTarget (μ : Type) where
  ld : Arith → μ → List Dbl → Res (μ × Dbl)
  start : Arith → μ → FRng → Res (μ × List Dbl × FRng)
  setStart : Arith → μ → List Dbl → FRng → Res (μ × List Dbl × FRng)
  staleLd : Arith → μ → List Dbl → Res Dbl

/-- Members of `BaseParameter` and `Parameter<arma::vec>` (`src/include/parameters.hpp` lines 85-91, 166-168). -/
structure FPar (μ : Type) where
  obj : μ
  value : List Dbl
  logpost : Dbl
  temp : Dbl
  samples : List (List Dbl)
  logposts : List Dbl

namespace FPar
variable {μ : Type} [FTarget μ] (A : Arith)

/-- `Parameter::Save` (`src/include/parameters.hpp` lines 130-133). -/
def save (s : FPar μ) (θ : List Dbl) : Res (FPar μ) := do
  let (obj, lp) ← FTarget.ld A s.obj θ
  return { s with obj := obj, value := θ, logpost := lp }

/-- `CARMA_Base::Save` (`src/include/carpack.hpp` lines 90-108), reached through `CARp&` in the exchange step. -/
def saveStale (s : FPar μ) (θ : List Dbl) : Res (FPar μ) := do
  let lp ← FTarget.staleLd A s.obj θ
  return { s with value := θ, logpost := lp }

omit [FTarget μ] in
/-- `SetSampleSize` (`src/include/parameters.hpp` lines 136-139) on empty vectors: the elements are value-initialised. -/
def setSampleSize (s : FPar μ) (n : ℕ) : FPar μ :=
  { s with samples := s.samples.take n ++ List.replicate (n - s.samples.length) [],
           logposts := s.logposts.take n ++ List.replicate (n - s.logposts.length) (.fin 0) }

omit [FTarget μ] in
/-- `AddToSample(current_iter)` (`src/include/parameters.hpp` lines 142-147): unchecked writes. -/
def addToSample (s : FPar μ) (k : ℕ) : Res (FPar μ) := do
  let samples ← wrU s.samples k s.value
  let logposts ← wrU s.logposts k s.logpost
  return { s with samples := samples, logposts := logposts }

end FPar

/-! ### rank-1 Cholesky update -/

/-- One pass of the loop of `CholUpdateR1` (`src/steps.cpp` lines 118-129) for row `k`. -/
noncomputable def fcholRow (A : Arith) {d : ℕ} (sign : Dbl) (Lv : (Fin d → Fin d → Dbl) × (Fin d → Dbl)) (k : Fin d) :
    (Fin d → Fin d → Dbl) × (Fin d → Dbl) :=
  let L := Lv.1
  let v := Lv.2
  let r := A.sqrt (A.add (A.mul (L k k) (L k k)) (A.mul (A.mul sign (v k)) (v k)))
  let c := A.div r (L k k)
  let s := A.div (v k) (L k k)
  let L' : Fin d → Fin d → Dbl := fun i j =>
    if i = k then (if j = k then r else if k < j then A.div (A.add (L k j) (A.mul (A.mul sign s) (v j))) c else L k j) else L i j
  (L', fun j => if k < j then A.sub (A.mul c (v j)) (A.mul s (L' k j)) else v j)

/-- `CholUpdateR1(L, v, downdate)` (`src/steps.cpp` lines 111-131). -/
noncomputable def fcholUpdateR1 (A : Arith) {d : ℕ} (L : Fin d → Fin d → Dbl) (v : Fin d → Dbl) (downdate : Bool) : Fin d → Fin d → Dbl :=
  ((List.finRange d).foldl (fcholRow A (if downdate then .fin (-1) else .fin 1)) (L, v)).1

/-! ### RAM step -/

/-- Members of `AdaptiveMetro` (`src/include/steps.hpp` lines 277-287). -/
structure FRam (d : ℕ) where
  chol : Fin d → Fin d → Dbl
  gamma : Dbl
  target : Dbl
  niter : ℕ
  maxiter : ℕ
  alpha : Dbl

section
variable {μ : Type} [FTarget μ] (M : Mach) {d : ℕ}

/-- `AdaptiveMetro::Accept` (`src/steps.cpp` lines 36-56): the decision, the parameter object after the evaluation, `alpha_`, the generator. -/
noncomputable def FRam.accept (s : FPar μ) (θ : List Dbl) (r : FRng) : Res (Bool × FPar μ × Dbl × FRng) := do
  let (obj, lp) ← FTarget.ld M.A s.obj θ
  let s := { s with obj := obj }
  let alpha := M.A.div (M.A.sub lp s.logpost) s.temp
  if ¬ alpha.isFin then
    return (false, s, .fin 0, r)
  else
    let alpha := Dbl.min (M.A.exp alpha) (.fin 1)
    return (decide ((r.unif 0).lt alpha), s, alpha, { r with unif := FRng.skip 1 r.unif })

/-- The adaptation of the proposal factor (`src/steps.cpp` lines 82-99): `u` is the unscaled draw, `w` the scaled proposal. -/
noncomputable def FRam.adapt (a : FRam d) (u w : Fin d → Dbl) : FRam d :=
  if a.niter < a.maxiter ∧ a.alpha.isFin then
    let step := Dbl.min (.fin 1) (M.A.div (.fin d) (M.pow (.fin a.niter) a.gamma))
    let f := M.A.div (M.A.sqrt (M.A.mul step (M.A.sub a.alpha a.target).abs)) (M.norm (List.ofFn u))
    { a with chol := fcholUpdateR1 M.A a.chol (fun i => M.A.mul f (w i)) (decide (a.alpha.lt a.target)) }
  else a

/-- `chol_factor_.t() * unit_proposal` (`src/steps.cpp` line 72). -/
noncomputable def FRam.scaled (a : FRam d) (u : Fin d → Dbl) (j : Fin d) : Dbl := M.dot (List.ofFn fun i => a.chol i j) (List.ofFn u)

/-- `AdaptiveMetro::DoStep` (`src/steps.cpp` lines 60-107). The matrix product is rejected by Armadillo if the sizes differ. -/
noncomputable def FRam.doStep (a : FRam d) (s : FPar μ) (r : FRng) : Res (FRam d × FPar μ × FRng) := do
  if s.value.length ≠ d then .error .bounds
  let u : Fin d → Dbl := fun i => r.stud i
  let r := { r with stud := FRng.skip d r.stud }
  let w := a.scaled M u
  let θ := List.ofFn fun i : Fin d => M.A.add (s.value.getD i .nan) (w i)
  let (ok, s, alpha, r) ← FRam.accept M s θ r
  let s ← if ok then s.save M.A θ else pure s
  let a := ({ a with alpha := alpha } : FRam d).adapt M u w
  return ({ a with niter := a.niter + 1 }, s, r)

/-! ### exchange step -/

/-- Acceptance probability of a swap (`src/include/steps.hpp` lines 330-338). -/
noncomputable def fswapProb (A : Arith) (tThis tOther this other : Dbl) : Dbl :=
  let alpha := A.add (A.mul (A.div (.fin 1) tThis) (A.sub other this)) (A.mul (A.div (.fin 1) tOther) (A.sub this other))
  let alpha := Dbl.min (A.exp alpha) (.fin 1)
  if alpha.isFin then alpha else .fin 0

/-- `ExchangeStep::DoStep` (`src/include/steps.hpp` lines 318-362) of chain `i` with chain `i - 1`. `ensemble_[i]` is unchecked. -/
noncomputable def fexchange (A : Arith) (i : ℕ) (ps : List (FPar μ)) (r : FRng) : Res (List (FPar μ) × FRng) := do
  let this ← rdU ps i
  let j ← (if i = 0 then .error .ub else .ok (i - 1) : Res ℕ)
  let other ← rdU ps j
  let alpha := fswapProb A this.temp other.temp this.logpost other.logpost
  let r' := { r with unif := FRng.skip 1 r.unif }
  if (r.unif 0).lt alpha then
    let this' ← this.save A other.value
    let other' ← other.saveStale A this.value
    return ((ps.set i { this' with logpost := other.logpost }).set j { other' with logpost := this.logpost }, r')
  else return (ps, r')

/-! ### sampler -/

end

/-- A step in the sampler's step stack; the number is the index of the chain. -/
inductive FStep (d : ℕ) where
  | ram (chain : ℕ) (a : FRam d)
  | exch (chain : ℕ)

/-- Index of the parameter a step points to. -/
def FStep.chain {d : ℕ} : FStep d → ℕ
  | .ram i _ => i
  | .exch i => i

/-- The ensemble of parameters, the step stack, the index of the tracked parameter, the generator. -/
structure FSamp (μ : Type) (d : ℕ) where
  chains : List (FPar μ)
  steps : List (FStep d)
  tracked : ℕ
  rng : FRng

namespace FSamp
variable {μ : Type} [FTarget μ] (M : Mach) {d : ℕ}

/-- Execute step number `k` of the stack (`src/samplers.cpp` lines 42-43, 50-51). -/
noncomputable def doStep (s : FSamp μ d) (k : ℕ) : Res (FSamp μ d) := do
  let st ← rdU s.steps k
  match st with
  | .ram i a => do
      let par ← rdU s.chains i
      let (a, par, rng) ← a.doStep M par s.rng
      return { s with chains := s.chains.set i par, steps := s.steps.set k (.ram i a), rng := rng }
  | .exch i => do
      let (chains, rng) ← fexchange M.A i s.chains s.rng
      return { s with chains := chains, rng := rng }

/-- The first `m` steps of the stack in order. -/
noncomputable def stepLoop (s : FSamp μ d) : ℕ → Res (FSamp μ d)
  | 0 => .ok s
  | m + 1 => do
      let s ← stepLoop s m
      s.doStep M m

/-- One sweep over the step stack. -/
noncomputable def sweep (s : FSamp μ d) : Res (FSamp μ d) := s.stepLoop M s.steps.length

/-- `Sampler::Iterate` (`src/samplers.cpp` lines 37-54). -/
noncomputable def iterate (s : FSamp μ d) (n : ℕ) : Res (FSamp μ d) := iter (sweep M) n s

/-- Starting value of the parameter of step `k` (`src/samplers.cpp` lines 82-93). -/
noncomputable def startOne (A : Arith) (init : Option (List Dbl)) (s : FSamp μ d) (k : ℕ) : Res (FSamp μ d) := do
  let st ← rdU s.steps k
  let par ← rdU s.chains st.chain
  let (obj, θ, rng) ← (match init with
    | some i => FTarget.setStart A par.obj i s.rng
    | none => FTarget.start A par.obj s.rng)
  let par ← { par with obj := obj }.save A θ
  return { s with chains := s.chains.set st.chain par, rng := rng }

/-- Starting values for the first `m` steps. -/
noncomputable def startLoop (A : Arith) (init : Option (List Dbl)) (s : FSamp μ d) : ℕ → Res (FSamp μ d)
  | 0 => .ok s
  | m + 1 => do
      let s ← startLoop A init s m
      startOne A init s m

omit [FTarget μ] in
/-- `Sampler::SaveValues` (`src/samplers.cpp` lines 118-124) for the one tracked parameter. -/
def saveValues (s : FSamp μ d) (k : ℕ) : Res (FSamp μ d) := do
  let par ← rdU s.chains s.tracked
  let par ← par.addToSample k
  return { s with chains := s.chains.set s.tracked par }

/-- The sampling loop after `k` recorded samples (`src/samplers.cpp` lines 101-108). -/
noncomputable def sampleLoop (thin : ℕ) (s : FSamp μ d) : ℕ → Res (FSamp μ d)
  | 0 => .ok s
  | k + 1 => do
      let s ← sampleLoop thin s k
      let s ← s.iterate M thin
      s.saveValues k

/-- `Sampler::Run` (`src/samplers.cpp` lines 57-115). `steps_[0]` is unchecked. -/
noncomputable def run (s : FSamp μ d) (sampleSize burnin thin : ℕ) (init : List Dbl) : Res (FSamp μ d) := do
  let par ← rdU s.chains s.tracked
  let s := { s with chains := s.chains.set s.tracked (par.setSampleSize sampleSize) }
  let st ← rdU s.steps 0
  let par ← rdU s.chains st.chain
  let init := if init.length = par.value.length then some init else none
  let s ← s.startLoop M.A init s.steps.length
  let s ← s.iterate M burnin
  s.sampleLoop M thin sampleSize

end FSamp

/-! ### CAR(1) -/

namespace FCar1
variable (A : Arith)

/-- The last lines of `StartingValue` and `SetStartingValue` (`src/carpack.cpp` lines 58, 71-78 and 97-110): the filter runs with the starting
values. -/
noncomputable def startFilter (s : FCar1) (θ : List Dbl) : Res FCar1 := do
  let sd ← rd θ 0
  let scale ← rd θ 1
  let mu ← rd θ 2
  let lo ← rd θ 3
  let sigma := A.mul sd (A.sqrt (A.mul (.fin 2) (A.exp lo)))
  let kf ← FKF1.filter A { s.kf with omega := A.exp lo, sigsqr := A.mul sigma sigma, yerr := s.yerr.map fun x => A.mul (A.sqrt scale) x,
                                     y := s.y.map fun x => A.sub x mu }
  return { s with kf := kf }

/-- `CAR1::StartingValue` (`src/carpack.cpp` lines 38-81); the four numbers it draws are given. -/
noncomputable def start (s : FCar1) (r : FRng) : Res (FCar1 × List Dbl × FRng) := do
  let θ := r.prior 0
  let s ← s.startFilter A θ
  return (s, θ, { r with prior := FRng.skip 1 r.prior })

/-- `CAR1::SetStartingValue` (`src/carpack.cpp` lines 83-113). -/
noncomputable def setStart (s : FCar1) (init : List Dbl) (r : FRng) : Res (FCar1 × List Dbl × FRng) := do
  if init.length ≠ 4 then s.start A r
  else
    let (s, lp) ← FCar1.logDensity A s init
    if ¬ lp.isFin then s.start A r
    else
      let s ← s.startFilter A init
      return (s, init, r)

/-- The log-posterior computed by `CARMA_Base::Save` (`src/include/carpack.hpp` lines 100-106). -/
noncomputable def staleDensity (s : FCar1) (θ : List Dbl) : Res Dbl := do
  let mu ← rd θ 2
  let ll ← likLoop A s.y s.kf.mean s.kf.var mu s.time.length
  let lp ← logPrior A θ
  return A.add ll lp

end FCar1

noncomputable instance : FTarget FCar1 where
  ld := FCar1.logDensity
  start := FCar1.start
  setStart := FCar1.setStart
  staleLd := FCar1.staleDensity

/-- Constructor of `AdaptiveMetro` (`src/steps.cpp` lines 24-33), given the diagonal of the factor. -/
noncomputable def FRam.new (A : Arith) (d : ℕ) (l : List Dbl) (target : Dbl) (maxiter : ℕ) : FRam d where
  chol := fun i j => if i = j then l.getD i .nan else .fin 0
  gamma := A.div (.fin 2) (.fin 3)
  target := target
  niter := 0
  maxiter := maxiter
  alpha := .nan

/-- `RunCar1Sampler` (`src/carmcmc.cpp` lines 30-77) with machine numbers. The temperature is 1 (`src/include/parameters.hpp` lines 36-37). -/
noncomputable def frunCar1 (M : Mach) (srt : List Dbl → List ℕ) (sampleSize burnin : ℕ) (time y yerr : List Dbl) (thin : ℕ) (init : List Dbl)
    (r : FRng) : Res (FPar FCar1) := do
  let obj ← FCar1.new M.A srt time y yerr (FRun.maxStdev M.A y)
  let l ← FRun.chol M.A (FRun.covar M.A 4 y)
  let par : FPar FCar1 := { obj := obj, value := List.replicate 4 (.fin 0), logpost := .nan, temp := .fin 1, samples := [], logposts := [] }
  let s : FSamp FCar1 4 := { chains := [par], steps := [.ram 0 (FRam.new M.A 4 l (.fin 0.25) burnin)], tracked := 0, rng := r }
  let s ← s.run M sampleSize burnin thin init
  rdU s.chains 0

end Verif.Model
