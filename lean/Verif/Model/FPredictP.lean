import Verif.Model.FCarma
import Verif.Model.FSimulate

/-!
`KalmanFilterp::Predict` and `KalmanFilter::Simulate` for a CARMA filter with machine numbers. Conventions as in `Verif/Model/FCarma.lean`.

The members `state_const_` and `state_slope_`, which only `InitializeCoefs` and `UpdateCoefs` use and which `InitializeCoefs` sets before
`UpdateCoefs` reads them, are not members of the object `FKFp`; they are handed from one function to the next as a pair.
-/

namespace Verif.Model

open scoped Classical

namespace FKFp
variable (C : CArith) {p : ℕ}

/-- Constructors of `KalmanFilterp` taking data and parameters (`src/include/kfilter.hpp` lines 271-291 and 303-334). Moving-average
coefficients are padded with zeros up to `p_` (`resize`, lines 277-280 and 318-321). The constructors leave `innovation_` indeterminate; `Reset` sets it
before any use. -/
noncomputable def new (srt : List Dbl → List ℕ) (time y yerr : List Dbl) (sigsqr : Dbl) (omega : Fin p → CD) (ma : List Dbl) : Res (FKFp p) := do
  let b ← FKF1.newData C.r srt time y yerr
  return zeroed p { b with sigsqr := sigsqr } omega (ma ++ List.replicate (p - ma.length) (.fin 0)) .nan

/-- `PredictionVar_ * rotated_ma_coefs_.t() / v` (`src/kfilter.cpp` lines 244, 292, 318). -/
noncomputable def gainOf (R : Fin p → CD) (P : Fin p → Fin p → CD) (v : Dbl) : Fin p → CD := fun k =>
  C.cdiv (C.mulVec p P (fun l => (R l).conj) k) (CD.ofReal v)

/-- `PredictionVar_ -= v * (kalman_gain_ * kalman_gain_.t())` (`src/kfilter.cpp` lines 246, 297, 323). -/
noncomputable def measVar (P : Fin p → Fin p → CD) (v : Dbl) (g : Fin p → CD) : Fin p → Fin p → CD := fun k l =>
  C.csub (P k l) (C.cmul (CD.ofReal v) (C.cmul (g k) (g l).conj))

/-- `arma::exp(omega_ * dt)` (`src/kfilter.cpp` lines 248, 300, 325). -/
noncomputable def rhoOf (omega : Fin p → CD) (dt : Dbl) : Fin p → CD := fun k => C.cexp (C.cmul (omega k) (CD.ofReal dt))

/-- `(rho_ * rho_.t()) % (PredictionVar_ - StateVar_) + StateVar_` (`src/kfilter.cpp` lines 250, 304, 329). -/
noncomputable def timeVar (rho : Fin p → CD) (P V : Fin p → Fin p → CD) : Fin p → Fin p → CD := fun k l =>
  C.cadd (C.cmul (C.cmul (rho k) (rho l).conj) (C.csub (P k l) (V k l))) (V k l)

/-- The members `state_const_` and `state_slope_` (`src/include/kfilter.hpp` lines 386-387). -/
abbrev Coefs (p : ℕ) := (Fin p → CD) × (Fin p → CD)

/-- `KalmanFilterp::InitializeCoefs(time, itime, ymean, yvar)` (`src/kfilter.cpp` lines 290-312). -/
noncomputable def initCoefs (s : FKFp p) (time : Dbl) (itime : ℕ) (ymean yvar : Dbl) : Res (FKFp p × Coefs p) := do
  let gain := gainOf C s.rotma s.PredVar yvar
  let sconst : Fin p → CD := fun k => C.csub (s.state k) (C.cmul (gain k) (CD.ofReal ymean))
  let P := measVar C s.PredVar yvar gain
  let ti ← rd s.b.time itime
  let rho := rhoOf C s.omega (C.r.sub ti time).abs
  let sconst : Fin p → CD := fun k => C.cmul (rho k) (sconst k)
  let sslope : Fin p → CD := fun k => C.cmul (rho k) (gain k)
  let P := timeVar C rho P s.StateVar
  let ei ← rd s.b.yerr itime
  let var ← wr s.b.var itime (C.r.add (C.form p s.rotma P).1 (C.r.mul ei ei))
  return ({ s with
    PredVar := P,
    b := { s.b with yconst := (C.dot p s.rotma sconst).1, yslope := (C.dot p s.rotma sslope).1, var := var, cur := itime + 1 } },
    (sconst, sslope))

/-- `KalmanFilterp::UpdateCoefs()` (`src/kfilter.cpp` lines 316-337). -/
noncomputable def updateCoefs (s : FKFp p) (cs : Coefs p) : Res (FKFp p × Coefs p) := do
  let c := s.b.cur
  let c1 ← prevIdx c
  let vprev ← rd s.b.var c1
  let gain := gainOf C s.rotma s.PredVar vprev
  let yprev ← rd s.b.y c1
  let sconst : Fin p → CD := fun k => C.cadd (cs.1 k) (C.cmul (gain k) (CD.ofReal (C.r.sub yprev s.b.yconst)))
  let sslope : Fin p → CD := fun k => C.csub (cs.2 k) (C.cmul (gain k) (CD.ofReal s.b.yslope))
  let P := measVar C s.PredVar vprev gain
  let dt ← rd s.b.dt c1
  let rho := rhoOf C s.omega dt
  let sconst : Fin p → CD := fun k => C.cmul (rho k) (sconst k)
  let sslope : Fin p → CD := fun k => C.cmul (rho k) (sslope k)
  let P := timeVar C rho P s.StateVar
  let ec ← rd s.b.yerr c
  let var ← wr s.b.var c (C.r.add (C.form p s.rotma P).1 (C.r.mul ec ec))
  return ({ s with
    PredVar := P,
    b := { s.b with yconst := (C.dot p s.rotma sconst).1, yslope := (C.dot p s.rotma sslope).1, var := var, cur := c + 1 } },
    (sconst, sslope))

/-- First part of `Predict`: state, mean and variance at `time` given the points before `ip` (`src/kfilter.cpp` lines 238-255). -/
noncomputable def predictPast (s : FKFp p) (time : Dbl) (ip : ℕ) : Res (FKFp p × (Dbl × Dbl)) := do
  if ip = 0 then
    return (s, (.fin 0, (C.form p s.rotma s.StateVar).1))
  else
    let vprev ← rd s.b.var (ip - 1)
    let gain := gainOf C s.rotma s.PredVar vprev
    let state : Fin p → CD := fun k => C.cadd (s.state k) (C.cmul (gain k) (CD.ofReal s.innov))
    let P := measVar C s.PredVar vprev gain
    let tprev ← rd s.b.time (ip - 1)
    let rho := rhoOf C s.omega (C.r.sub time tprev).abs
    let state : Fin p → CD := fun k => C.cmul (rho k) (state k)
    let P := timeVar C rho P s.StateVar
    return ({ s with state := state, PredVar := P }, ((C.dot p s.rotma state).1, (C.form p s.rotma P).1))

/-- Add the contribution of observation `i` to `yprecision` and `ypredict_mean` (`src/kfilter.cpp` lines 272-273 and 277-278). -/
noncomputable def accum (s : FKFp p) (i : ℕ) (acc : Dbl × Dbl) : Res (Dbl × Dbl) := do
  let vi ← rd s.b.var i
  let yi ← rd s.b.y i
  return (C.r.add acc.1 (C.r.div (C.r.mul s.b.yslope s.b.yslope) vi),
    C.r.add acc.2 (C.r.div (C.r.mul s.b.yslope (C.r.sub yi s.b.yconst)) vi))

/-- The loop `for (i=ipredict+1; i<n; i++)` of `Predict` run `k` times from `i` (`src/kfilter.cpp` lines 275-279). -/
noncomputable def coefLoop : ℕ → ℕ → FKFp p → Coefs p → Dbl × Dbl → Res (FKFp p × (Dbl × Dbl))
  | 0, _, s, _, acc => .ok (s, acc)
  | k + 1, i, s, cs, acc => do
      let (s, cs) ← updateCoefs C s cs
      let acc ← accum C s i acc
      coefLoop k (i + 1) s cs acc

/-- `KalmanFilterp::Predict(time)` (`src/kfilter.cpp` lines 218-286). -/
noncomputable def predict (s : FKFp p) (time : Dbl) : Res (FKFp p × (Dbl × Dbl)) := do
  let ip ← FKF1.find s.b.time time
  let s ← reset C s
  let s ← iter (update C) (ip - 1) s
  let (s, (m, v)) ← predictPast C s time ip
  if ip = s.b.time.length then
    return (s, (m, v))
  else
    let yprecision := C.r.div (.fin 1) v
    let m := C.r.mul m yprecision
    let (s, cs) ← initCoefs C s time ip (C.r.div m yprecision) v
    let acc ← accum C s ip (yprecision, m)
    let (s, acc) ← coefLoop C (s.b.time.length - (ip + 1)) (ip + 1) s cs acc
    let pv := C.r.div (.fin 1) acc.1
    return (s, (C.r.mul acc.2 pv, pv))

/-- Body of the loop of `Simulate`: predict at `t`, draw, find the place, insert the drawn value as an error-free observation
(`src/include/kfilter.hpp` lines 150-173). -/
noncomputable def simStep (s : FKFp p) (t z : Dbl) : Res (FKFp p × Dbl) := do
  let (s, (mu, v)) ← predict C s t
  let ysim := FKF1.drawNormal C.r mu (C.r.sqrt v) z
  let idx ← FKF1.find s.b.time t
  let time ← insertRow s.b.time idx t
  let dt ← FKF1.diffs C.r time
  let y ← insertRow s.b.y idx ysim
  let yerr ← insertRow s.b.yerr idx (.fin 0)
  return ({ s with b := { s.b with
    time := time, dt := dt, y := y, yerr := yerr,
    mean := List.replicate time.length (.fin 0), var := List.replicate time.length (.fin 0) } }, ysim)

/-- The loop of `Simulate` over the sorted times; `zs k` is the `k`-th standard normal draw. -/
noncomputable def simLoop (s : FKFp p) : List Dbl → (ℕ → Dbl) → Res (FKFp p × List Dbl)
  | [], _ => .ok (s, [])
  | t :: ts, zs => do
      let (s, x) ← simStep C s t (zs 0)
      let (s, xs) ← simLoop s ts (fun k => zs (k + 1))
      return (s, x :: xs)

/-- `KalmanFilter::Simulate(time)` (`src/include/kfilter.hpp` lines 135-186, 367-372). -/
noncomputable def simulate (s : FKFp p) (times : List Dbl) (zs : ℕ → Dbl) : Res (FKFp p × List Dbl) := do
  let sorted ← FKF1.sortTimes times
  let (s', xs) ← simLoop C s sorted zs
  let dt ← FKF1.diffs C.r s.b.time
  return ({ s' with b := { s'.b with
    time := s.b.time, dt := dt, y := s.b.y, yerr := s.b.yerr,
    mean := List.replicate s.b.time.length (.fin 0), var := List.replicate s.b.time.length (.fin 0) } }, xs)

end FKFp
end Verif.Model
