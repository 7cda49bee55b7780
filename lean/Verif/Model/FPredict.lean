import Verif.Model.Float

/-!
`KalmanFilter1::Predict` with machine numbers: every operation rounds, and a division by zero gives the infinity or NaN that the
C++ gives. Conventions as in `Verif/Model/Float.lean`.
-/

namespace Verif.Model

open scoped Classical

namespace FKF1
variable (A : Arith)

/-- Constructors of `KalmanFilter1` taking data and parameters (`src/include/kfilter.hpp` lines 216-221 and 233-245). -/
noncomputable def new (srt : List Dbl → List ℕ) (time y yerr : List Dbl) (sigsqr omega : Dbl) : Res FKF1 := do
  let s ← newData A srt time y yerr
  return { s with sigsqr := sigsqr, omega := omega }

/-- Number of leading elements `< t`: where `while (t > l(i)) { i++; if (i == n) break; }` stops (`src/kfilter.cpp` lines 76-84). -/
noncomputable def scan (t : Dbl) : List Dbl → ℕ
  | [] => 0
  | a :: l => if t.gt a then scan t l + 1 else 0

/-- The search loop itself: the first comparison reads `l(0)`. -/
noncomputable def find (l : List Dbl) (t : Dbl) : Res ℕ :=
  if l = [] then .error .bounds else .ok (scan t l)

/-- `KalmanFilter1::InitializeCoefs(time, itime, ymean, yvar)` (`src/kfilter.cpp` lines 51-56). -/
noncomputable def initCoefs (s : FKF1) (time : Dbl) (itime : ℕ) : Res FKF1 := do
  let ti ← rd s.time itime
  let yslope := A.exp (A.mul (A.sub ti time).abs.neg s.omega)
  let q := A.div s.sigsqr (A.mul (.fin 2) s.omega)
  let ei ← rd s.yerr itime
  let var ← wrU s.var itime (A.add (A.mul q (A.sub (.fin 1) (A.mul yslope yslope))) (A.mul ei ei))
  return { s with yconst := .fin 0, yslope := yslope, var := var, cur := itime + 1 }

/-- `KalmanFilter1::UpdateCoefs()` (`src/kfilter.cpp` lines 59-69). -/
noncomputable def updateCoefs (s : FKF1) : Res FKF1 := do
  let c := s.cur
  let c1 ← prevIdx c
  let dt ← rd s.dt c1
  let rho := A.exp (A.mul (A.mul (.fin (-1)) dt) s.omega)
  let vprev ← rd s.var c1
  let eprev ← rd s.yerr c1
  let previous_var := A.sub vprev (A.mul eprev eprev)
  let var_ratio := A.div previous_var vprev
  let yslope := A.mul s.yslope (A.mul rho (A.sub (.fin 1) var_ratio))
  let yprev ← rdU s.y c1
  let yconst := A.add (A.mul (A.mul s.yconst rho) (A.sub (.fin 1) var_ratio)) (A.mul (A.mul rho var_ratio) yprev)
  let q := A.div s.sigsqr (A.mul (.fin 2) s.omega)
  let ec ← rd s.yerr c
  let var ← wr s.var c (A.add (A.add (A.mul q (A.sub (.fin 1) (A.mul rho rho)))
    (A.mul (A.mul (A.mul rho rho) previous_var) (A.sub (.fin 1) var_ratio))) (A.mul ec ec))
  return { s with yconst := yconst, yslope := yslope, var := var, cur := c + 1 }

/-- First part of `Predict`: mean and variance at `time` given the points before `ip` (`src/kfilter.cpp` lines 92-105). -/
noncomputable def predictPast (s : FKF1) (time : Dbl) (ip : ℕ) : Res (Dbl × Dbl) := do
  let q := A.div s.sigsqr (A.mul (.fin 2) s.omega)
  if ip = 0 then
    return (.fin 0, q)
  else
    let tprev ← rdU s.time (ip - 1)
    let dt := A.sub time tprev
    let rho := A.exp (A.mul dt.neg s.omega)
    let vprev ← rd s.var (ip - 1)
    let eprev ← rd s.yerr (ip - 1)
    let previous_var := A.sub vprev (A.mul eprev eprev)
    let var_ratio := A.div previous_var vprev
    let mprev ← rd s.mean (ip - 1)
    let yprev ← rd s.y (ip - 1)
    return (A.add (A.mul rho mprev) (A.mul (A.mul rho var_ratio) (A.sub yprev mprev)),
      A.add (A.mul q (A.sub (.fin 1) (A.mul rho rho)))
        (A.mul (A.mul (A.mul rho rho) previous_var) (A.sub (.fin 1) var_ratio)))

/-- Add the contribution of observation `i` to `yprecision` and `ypredict_mean` (`src/kfilter.cpp` lines 121-122 and 126-127). -/
noncomputable def accum (s : FKF1) (i : ℕ) (acc : Dbl × Dbl) : Res (Dbl × Dbl) := do
  let vi ← rd s.var i
  let yi ← rd s.y i
  return (A.add acc.1 (A.div (A.mul s.yslope s.yslope) vi),
    A.add acc.2 (A.div (A.mul s.yslope (A.sub yi s.yconst)) vi))

/-- The loop `for (i=ipredict+1; i<n; i++)` of `Predict` run `k` times from `i` (`src/kfilter.cpp` lines 124-128). -/
noncomputable def coefLoop : ℕ → ℕ → FKF1 → Dbl × Dbl → Res (FKF1 × (Dbl × Dbl))
  | 0, _, s, acc => .ok (s, acc)
  | k + 1, i, s, acc => do
      let s ← updateCoefs A s
      let acc ← accum A s i acc
      coefLoop k (i + 1) s acc

/-- `KalmanFilter1::Predict(time)` (`src/kfilter.cpp` lines 72-135). -/
noncomputable def predict (s : FKF1) (time : Dbl) : Res (FKF1 × (Dbl × Dbl)) := do
  let ip ← find s.time time
  let s ← reset A s
  let s ← iter (update A) (ip - 1) s
  let (m, v) ← predictPast A s time ip
  if ip = s.time.length then
    return (s, (m, v))
  else
    let yprecision := A.div (.fin 1) v
    let s ← initCoefs A s time ip
    let acc ← accum A s ip (yprecision, A.mul m yprecision)
    let (s, acc) ← coefLoop A (s.time.length - (ip + 1)) (ip + 1) s acc
    let pv := A.div (.fin 1) acc.1
    return (s, (A.mul acc.2 pv, pv))

end FKF1
end Verif.Model
