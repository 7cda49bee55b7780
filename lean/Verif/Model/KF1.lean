import Verif.Model.KFilter
import Mathlib.Analysis.SpecialFunctions.Exp

/-!
Model of `KalmanFilter1` (`src/kfilter.cpp` lines 18-135, `src/include/kfilter.hpp` lines 211-260).
-/

namespace Verif.Model

open scoped Classical

/-- `current_index_ - 1`: the member is unsigned, so 0 wraps around and the following access is out of bounds. -/
def prevIdx (c : ℕ) : Res ℕ := if c = 0 then .error .bounds else .ok (c - 1)

/-- Object of class `KalmanFilter1`: base members plus `omega_` (`src/include/kfilter.hpp` line 198). -/
structure KF1 where
  b : KFBase
  omega : ℝ

namespace KF1

/-- Constructors of `KalmanFilter1` taking data and parameters (`src/include/kfilter.hpp` lines 216-221 and
233-245). -/
noncomputable def new (srt : List ℝ → List ℕ) (time y yerr : List ℝ) (sigsqr omega : ℝ) : Res KF1 := do
  let b ← (KFBase.raw time y yerr sigsqr).init srt
  return { b := b, omega := omega }

/-- Constructors of `KalmanFilter1` taking data only (`src/include/kfilter.hpp` lines 215 and 222-232);
the uninitialised parameters are given the value 0 and are always set before use by `CARMA_Base::LogDensity`. -/
noncomputable def newData (srt : List ℝ → List ℕ) (time y yerr : List ℝ) : Res KF1 :=
  new srt time y yerr 0 0

/-- `KalmanFilter1::Reset()` (`src/kfilter.cpp` lines 19-26). -/
noncomputable def reset (s : KF1) : Res KF1 := do
  let mean ← wr s.b.mean 0 0
  let q ← dv s.b.sigsqr (2 * s.omega)
  let e0 ← rd s.b.yerr 0
  let var ← wr s.b.var 0 (q + e0 * e0)
  return { s with b := { s.b with mean := mean, var := var, yconst := 0, yslope := 0, cur := 1 } }

/-- `KalmanFilter1::Update()` (`src/kfilter.cpp` lines 29-48). -/
noncomputable def update (s : KF1) : Res KF1 := do
  let c := s.b.cur
  let c1 ← prevIdx c
  let dt ← rd s.b.dt c1
  let rho := Real.exp (-1 * s.omega * dt)
  let vprev ← rd s.b.var c1
  let eprev ← rd s.b.yerr c1
  let previous_var := vprev - eprev * eprev
  let var_ratio ← dv previous_var vprev
  let mprev ← rd s.b.mean c1
  let yprev ← rd s.b.y c1
  let mean ← wr s.b.mean c (rho * mprev + rho * var_ratio * (yprev - mprev))
  let q ← dv s.b.sigsqr (2 * s.omega)
  let var ← wr s.b.var c (q * (1 - rho * rho) + rho * rho * previous_var * (1 - var_ratio))
  let ec ← rd s.b.yerr c
  let vc ← rd var c
  let var ← wr var c (vc + ec * ec)
  return { s with b := { s.b with mean := mean, var := var, cur := c + 1 } }

/-- `KalmanFilter1::InitializeCoefs(time, itime, ymean, yvar)` (`src/kfilter.cpp` lines 51-56). -/
noncomputable def initCoefs (s : KF1) (time : ℝ) (itime : ℕ) : Res KF1 := do
  let ti ← rd s.b.time itime
  let yslope := Real.exp (-|ti - time| * s.omega)
  let q ← dv s.b.sigsqr (2 * s.omega)
  let ei ← rd s.b.yerr itime
  let var ← wrU s.b.var itime (q * (1 - yslope * yslope) + ei * ei)
  return { s with b := { s.b with yconst := 0, yslope := yslope, var := var, cur := itime + 1 } }

/-- `KalmanFilter1::UpdateCoefs()` (`src/kfilter.cpp` lines 59-69). -/
noncomputable def updateCoefs (s : KF1) : Res KF1 := do
  let c := s.b.cur
  let c1 ← prevIdx c
  let dt ← rd s.b.dt c1
  let rho := Real.exp (-1 * dt * s.omega)
  let vprev ← rd s.b.var c1
  let eprev ← rd s.b.yerr c1
  let previous_var := vprev - eprev * eprev
  let var_ratio ← dv previous_var vprev
  let yslope := s.b.yslope * (rho * (1 - var_ratio))
  let yprev ← rdU s.b.y c1
  let yconst := s.b.yconst * rho * (1 - var_ratio) + rho * var_ratio * yprev
  let q ← dv s.b.sigsqr (2 * s.omega)
  let ec ← rd s.b.yerr c
  let var ← wr s.b.var c
    (q * (1 - rho * rho) + rho * rho * previous_var * (1 - var_ratio) + ec * ec)
  return { s with b := { s.b with yconst := yconst, yslope := yslope, var := var, cur := c + 1 } }

/-- First part of `KalmanFilter1::Predict`: mean and variance at `time` given the points before `ip`
(`src/kfilter.cpp` lines 92-105). -/
noncomputable def predictPast (s : KF1) (time : ℝ) (ip : ℕ) : Res (ℝ × ℝ) := do
  let q ← dv s.b.sigsqr (2 * s.omega)
  if ip = 0 then
    return (0, q)
  else
    let tprev ← rdU s.b.time (ip - 1)
    let dt := time - tprev
    let rho := Real.exp (-dt * s.omega)
    let vprev ← rd s.b.var (ip - 1)
    let eprev ← rd s.b.yerr (ip - 1)
    let previous_var := vprev - eprev * eprev
    let var_ratio ← dv previous_var vprev
    let mprev ← rd s.b.mean (ip - 1)
    let yprev ← rd s.b.y (ip - 1)
    return (rho * mprev + rho * var_ratio * (yprev - mprev),
      q * (1 - rho * rho) + rho * rho * previous_var * (1 - var_ratio))

/-- Accumulate the contribution of observation `i` to (precision, precision-weighted mean)
(`src/kfilter.cpp` lines 121-122 and 126-127). -/
noncomputable def accum (s : KF1) (i : ℕ) (acc : ℝ × ℝ) : Res (ℝ × ℝ) := do
  let vi ← rd s.b.var i
  let yi ← rd s.b.y i
  let a ← dv (s.b.yslope * s.b.yslope) vi
  let c ← dv (s.b.yslope * (yi - s.b.yconst)) vi
  return (acc.1 + a, acc.2 + c)

/-- The loop `for (i=ipredict+1; i<n; i++)` of `Predict` run `k` times from `i` (`src/kfilter.cpp` lines 124-128). -/
noncomputable def coefLoop : ℕ → ℕ → KF1 → ℝ × ℝ → Res (KF1 × (ℝ × ℝ))
  | 0, _, s, acc => .ok (s, acc)
  | k + 1, i, s, acc => do
      let s ← updateCoefs s
      let acc ← accum s i acc
      coefLoop k (i + 1) s acc

/-- `KalmanFilter1::Predict(time)` (`src/kfilter.cpp` lines 72-135). -/
noncomputable def predict (s : KF1) (time : ℝ) : Res (KF1 × (ℝ × ℝ)) := do
  let ip ← findIdx s.b.time time
  let s ← reset s
  let s ← iter update (ip - 1) s
  let (m, v) ← predictPast s time ip
  if ip = s.b.time.length then
    return (s, (m, v))
  else
    let yprecision ← dv 1 v
    let s ← initCoefs s time ip
    let acc ← accum s ip (yprecision, m * yprecision)
    let (s, acc) ← coefLoop (s.b.time.length - (ip + 1)) (ip + 1) s acc
    let pv ← dv 1 acc.1
    return (s, (acc.2 * pv, pv))

noncomputable instance : Kalman KF1 where
  base s := s.b
  setBase s b := { s with b := b }
  reset := reset
  update := update
  predict := predict

end KF1
end Verif.Model
