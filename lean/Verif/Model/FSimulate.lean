import Verif.Model.FPredict

/-!
`KalmanFilter::Simulate` for a CAR(1) filter with machine numbers. Conventions as in `Verif/Model/Float.lean`.
-/

namespace Verif.Model

open scoped Classical

namespace FKF1
variable (A : Arith)

/-- `RandGen.normal(mu, sigma)` fed with the standard normal draw `z` (`src/random.cpp` lines 76-81). Boost returns the standard
variate times `sigma` plus `mu`; the parameter object takes any `sigma`, NaN included, without a check. -/
noncomputable def drawNormal (mu sigma z : Dbl) : Dbl := A.add (A.mul z sigma) mu

/-- Body of the loop of `Simulate`: predict at `t`, draw, find the place (`while (time_(i) < t)`), insert the drawn value as an
error-free observation (`src/include/kfilter.hpp` lines 150-173). -/
noncomputable def simStep (s : FKF1) (t z : Dbl) : Res (FKF1 × Dbl) := do
  let (s, (mu, v)) ← predict A s t
  let ysim := drawNormal A mu (A.sqrt v) z
  let idx ← find s.time t
  let time ← insertRow s.time idx t
  let dt ← diffs A time
  let y ← insertRow s.y idx ysim
  let yerr ← insertRow s.yerr idx (.fin 0)
  return ({ s with
    time := time, dt := dt, y := y, yerr := yerr,
    mean := List.replicate time.length (.fin 0), var := List.replicate time.length (.fin 0) }, ysim)

/-- The loop of `Simulate` over the sorted times; `zs k` is the `k`-th standard normal draw. -/
noncomputable def simLoop (s : FKF1) : List Dbl → (ℕ → Dbl) → Res (FKF1 × List Dbl)
  | [], _ => .ok (s, [])
  | t :: ts, zs => do
      let (s, x) ← simStep A s t (zs 0)
      let (s, xs) ← simLoop s ts (fun k => zs (k + 1))
      return (s, x :: xs)

/-- `arma::sort`: ascending; a NaN is rejected with `std::logic_error`. -/
noncomputable def sortTimes (l : List Dbl) : Res (List Dbl) :=
  if Dbl.nan ∈ l then .error .bounds else .ok (l.mergeSort fun a b => decide ¬ b.lt a)

/-- `KalmanFilter::Simulate(time)` (`src/include/kfilter.hpp` lines 135-186). -/
noncomputable def simulate (s : FKF1) (times : List Dbl) (zs : ℕ → Dbl) : Res (FKF1 × List Dbl) := do
  let sorted ← sortTimes times
  let (s', xs) ← simLoop A s sorted zs
  let dt ← diffs A s.time
  return ({ s' with
    time := s.time, dt := dt, y := s.y, yerr := s.yerr,
    mean := List.replicate s.time.length (.fin 0), var := List.replicate s.time.length (.fin 0) }, xs)

end FKF1
end Verif.Model
