import Verif.Model.FSamp
import Verif.Model.FCarma
import Verif.Model.Sampler

/-!
`StartingValue` and `SetStartingValue` of the CARp, CARMA, ZCAR and ZCARMA classes, and `RunCarmaSampler`, with machine numbers.

As in `Verif/Model/FSamp.lean` the arithmetic that makes a proposal out of random draws is left out: a pass of the search in `StartingValue` finds
the vector `prior 0` and the variance `yvar 0`, which may be anything. The next pass finds the next ones.
-/

namespace Verif.Model

open scoped Classical

namespace FCarP
variable (C : CArith) {p : ℕ}

/-- The moving-average coefficients the filter has when `StartingValue` or `SetStartingValue` runs it (`src/carpack.cpp` lines 210-211, 254-255, 460-462,
503-505, 628-630, 668-670): `CARp` and `ZCAR` do not call `SetMA`. -/
def startMA (s : FCarP p) (ma : List Dbl) : List Dbl :=
  match s.kind with
  | .carp => s.kf.ma
  | .zcar => s.kf.ma
  | _ => ma

/-- The call of `Filter()` outside `LogDensity` (`src/carpack.cpp` lines 209-218, 253-262, 459-468, 502-509, 627-636, 667-674). Nothing catches its exceptions. -/
noncomputable def startFilter (s : FCarP p) (θ : List Dbl) (roots : List CD) (ma : List Dbl) (sigsqr : Dbl) : Res (FCarP p) := do
  let scale ← rd θ 1
  let mu ← rd θ 2
  let yerr := s.yerr.map fun x => C.r.mul (C.r.sqrt scale) x
  let ycent := s.y.map fun x => C.r.sub x mu
  let kf ← FKFp.filter C (FKFp.zeroed p { s.kf.b with sigsqr := sigsqr, yerr := yerr, y := ycent } (vecOf p roots) (s.startMA ma) s.kf.innov)
  return { s with kf := kf }

/-- One pass of the loop of `StartingValue` that proposes `θ` and the variance `yvar` (`src/carpack.cpp` lines 182-227, 422-474, 592-641), and the
log-density it finds. `CARMA` gives up a pass whose driving variance is not finite; here its log-density is NaN. -/
noncomputable def startPass (s : FCarP p) (θ : List Dbl) (yvar : Dbl) : Res (FCarP p × Dbl) := do
  let ma ← s.extractMA C θ
  let roots ← rootsFrom C θ 3 p
  let sigsqr := C.r.div yvar (variance C (vecOf p roots) ma)
  if CarP.skipsBad s.kind ∧ ¬ sigsqr.isFin then return (s, .nan)
  let s ← s.startFilter C θ roots ma sigsqr
  s.logDensity C θ

/-- `StartingValue` (`src/carpack.cpp` lines 175-231, 416-477, 586-644): passes until the log-density is finite. The C++ loop has no bound; the model gives up with
`timeout` after `fuel` passes. -/
noncomputable def start : ℕ → FCarP p → FRng → Res (FCarP p × List Dbl × FRng)
  | 0, _, _ => .error .timeout
  | fuel + 1, s, r => do
      let (s, lp) ← s.startPass C (r.prior 0) (r.yvar 0)
      let r' := { r with prior := FRng.skip 1 r.prior, yvar := FRng.skip 1 r.yvar }
      if lp.isFin then return (s, r.prior 0, r') else start fuel s r'

/-- `SetStartingValue` (`src/carpack.cpp` lines 234-265, 479-512, 646-678). -/
noncomputable def setStart (fuel : ℕ) (s : FCarP p) (init : List Dbl) (r : FRng) : Res (FCarP p × List Dbl × FRng) := do
  if init.length ≠ CarP.thetaLen p s.kind then s.start C fuel r
  else
    let (s, lp) ← s.logDensity C init
    if ¬ lp.isFin then s.start C fuel r
    else
      let s0 ← rd init 0
      let roots ← rootsFrom C init 3 p
      let ma ← s.extractMA C init
      let s ← s.startFilter C init roots ma (C.r.div (C.r.mul s0 s0) (variance C (vecOf p roots) ma))
      return (s, init, r)

/-- The log-posterior computed by `CARMA_Base::Save` (`src/include/carpack.hpp` lines 100-106). -/
noncomputable def staleDensity (s : FCarP p) (θ : List Dbl) : Res Dbl := do
  let mu ← rd θ 2
  let ll ← FCar1.likLoop C.r s.y s.kf.b.mean s.kf.b.var mu s.time.length
  let lp ← s.logPrior C θ
  return C.r.add ll lp

end FCarP

/-- A parameter object of the ensemble, with the library it is compiled with and the number of passes after which the model gives up the search for a
starting value. -/
structure FWalk (C : CArith) (p fuel : ℕ) where
  o : FCarP p

/-- The object in the sampler; real arithmetic is that of the sampler. -/
noncomputable instance {C : CArith} {p fuel : ℕ} : FTarget (FWalk C p fuel) where
  ld A w θ := do
    let (o, v) ← w.o.logDensity { C with r := A } θ
    return (⟨o⟩, v)
  start A w r := do
    let (o, θ, r) ← w.o.start { C with r := A } fuel r
    return (⟨o⟩, θ, r)
  setStart A w i r := do
    let (o, θ, r) ← w.o.setStart { C with r := A } fuel i r
    return (⟨o⟩, θ, r)
  staleLd A w θ := w.o.staleDensity { C with r := A } θ

/-- `arma::exp(arma::linspace(0, log(100), n))(i)` (`src/carmcmc.cpp` lines 92-95); `linspace` as in Armadillo: multiples of the rounded step, the last
element is the end point. -/
noncomputable def ftemperature (A : Arith) (n i : ℕ) : Dbl :=
  if i + 1 = n then A.exp (A.log (.fin 100))
  else A.exp (A.add (.fin 0) (A.mul (A.rnd i) (A.div (A.sub (A.log (.fin 100)) (.fin 0)) (A.rnd (n - 1 : ℕ)))))

/-- The ensemble (`src/carmcmc.cpp` lines 98-116): every chain has an object of its own; the elements of `value_` are uninitialised (here 0). -/
noncomputable def fensemble (C : CArith) (fuel : ℕ) (srt : List Dbl → List ℕ) (time y yerr : List Dbl) (p : ℕ) (kind : Kind) (B : Dbl) (n : ℕ) :
    ℕ → Res (List (FPar (FWalk C p fuel)))
  | 0 => .ok []
  | m + 1 => do
      let l ← fensemble C fuel srt time y yerr p kind B n m
      let obj ← FCarP.new C kind p srt time y yerr B
      return l ++ [{ obj := ⟨obj⟩, value := List.replicate (CarP.thetaLen p kind) (.fin 0), logpost := .nan, temp := ftemperature C.r n m,
                     samples := [], logposts := [] }]

/-- The steps of the tempered chains, from chain `m` down to chain 1 (`src/carmcmc.cpp` lines 147-152). -/
def fsteps {d : ℕ} (a : FRam d) : ℕ → List (FStep d)
  | 0 => []
  | m + 1 => .ram (m + 1) a :: .exch (m + 1) :: fsteps a m

/-- `RunCarmaSampler` (`src/carmcmc.cpp` lines 79-177) with machine numbers: returns (a copy of) chain 0. `CarEnsemble[0]` on an empty ensemble is undefined
behaviour. `assert(p > 1)` is not modelled. -/
noncomputable def frunCarma (C : CArith) (M : Mach) (fuel : ℕ) (srt : List Dbl → List ℕ) (sampleSize burnin : ℕ) (time y yerr : List Dbl)
    (p q nwalkers : ℕ) (zcarma : Bool) (thin : ℕ) (init : List Dbl) (r : FRng) : Res (FPar (FWalk C p fuel)) := do
  let chains ← fensemble C fuel srt time y yerr p (runKind q zcarma) (FRun.maxStdev M.A y) nwalkers nwalkers
  let l ← FRun.chol M.A (FRun.covar M.A (nParams p q zcarma) y)
  let a := FRam.new M.A (nParams p q zcarma) l (.fin 0.25) burnin
  let _ ← rdU chains 0
  let s : FSamp (FWalk C p fuel) (nParams p q zcarma) :=
    { chains := chains, steps := fsteps a (nwalkers - 1) ++ [.ram 0 a], tracked := 0, rng := r }
  let s ← s.run M sampleSize burnin thin init
  rdU s.chains 0

end Verif.Model
