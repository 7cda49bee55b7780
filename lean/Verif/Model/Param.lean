import Verif.Model.CarPack
import Verif.Model.Rng

/-!
Model of the parameter base classes (`src/include/parameters.hpp` lines 32-169) as instantiated by the CARMA models.
-/

namespace Verif.Model

/-- The virtual methods of `Parameter<arma::vec>` (`src/include/parameters.hpp` lines 104-126, 130-133): `LogDensity`,
`StartingValue`, `SetStartingValue`, and the `Save` that a call through the static type `CARp&` reaches, reduced to the
log-density it computes. `fuel` bounds the number of passes of loops without a bound of their own. -/
class Target (μ : Type) where
  ld : μ → List ℝ → Res (μ × Dbl)
  start : ℕ → μ → Rng → Res (μ × List ℝ × Rng)
  setStart : ℕ → μ → List ℝ → Rng → Res (μ × List ℝ × Rng)
  staleLd : μ → List ℝ → Res Dbl

/-- Members of `BaseParameter` and `Parameter<arma::vec>` (`src/include/parameters.hpp` lines 84-91, 165-168) together with the
concrete model object. `log_posterior_` is indeterminate until the first `Save`. -/
structure Par (μ : Type) where
  obj : μ
  value : List ℝ
  logpost : Dbl
  temp : ℝ
  label : String
  track : Bool
  samples : List (List ℝ)
  logposts : List Dbl

namespace Par
variable {μ : Type} [Target μ]

/-- `Parameter::Save` (`src/include/parameters.hpp` lines 130-133). `CARMA_Base::Save` (`src/include/carpack.hpp` lines 90-108)
takes its argument by reference and therefore does not override it: this version is what every call through `Parameter&`
reaches (`src/steps.cpp` line 77, `src/include/steps.hpp` line 343, `src/samplers.cpp` lines 85, 87). -/
def save (s : Par μ) (θ : List ℝ) : Res (Par μ) := do
  let (obj, lp) ← Target.ld s.obj θ
  return { s with obj := obj, value := θ, logpost := lp }

/-- `CARMA_Base::Save` (`src/include/carpack.hpp` lines 90-108), reached through `CARp&` in the exchange step
(`src/include/steps.hpp` line 344): recomputes the log-posterior from whatever the filter holds. -/
def saveStale (s : Par μ) (θ : List ℝ) : Res (Par μ) := do
  let lp ← Target.staleLd s.obj θ
  return { s with value := θ, logpost := lp }

omit [Target μ] in
/-- `SetLogDensity` (`src/include/parameters.hpp` lines 48-50). -/
def setLogDensity (s : Par μ) (lp : Dbl) : Par μ := { s with logpost := lp }

omit [Target μ] in
/-- `SetTracking` (`src/include/parameters.hpp` lines 68-70). -/
def setTracking (s : Par μ) (b : Bool) : Par μ := { s with track := b }

omit [Target μ] in
/-- `std::vector::resize`: new elements are value-initialised. -/
def _root_.Verif.Model.resize {α : Type} (l : List α) (n : ℕ) (a : α) : List α :=
  l.take n ++ List.replicate (n - l.length) a

omit [Target μ] in
/-- `SetSampleSize` (`src/include/parameters.hpp` lines 136-139). -/
def setSampleSize (s : Par μ) (n : ℕ) : Par μ :=
  { s with samples := resize s.samples n [], logposts := resize s.logposts n (.fin 0) }

omit [Target μ] in
/-- `AddToSample(current_iter)` (`src/include/parameters.hpp` lines 142-147): unchecked writes. -/
def addToSample (s : Par μ) (k : ℕ) : Res (Par μ) := do
  let samples ← wrU s.samples k s.value
  let logposts ← wrU s.logposts k s.logpost
  return { s with samples := samples, logposts := logposts }

end Par

section
variable {μ σ : Type} [Kalman σ] [CarModel μ σ]

/-- The log-posterior computed by `CARMA_Base::Save` (`src/include/carpack.hpp` lines 100-106) from the filter's current
`mean` and `var`. -/
noncomputable def staleDensity (s : μ) (θ : List ℝ) : Res Dbl := do
  let mu ← rd θ 2
  let b := CarModel.base s
  let k := Kalman.base (CarModel.kf s)
  let ll ← likLoop b.y k.mean k.var mu b.time.length
  let lp ← CarModel.logPrior s θ
  return ll.add lp

end

end Verif.Model
