import Verif.Model.KF1
import Mathlib.Analysis.SpecialFunctions.Exp
import Mathlib.LinearAlgebra.Matrix.NonsingularInverse
import Mathlib.LinearAlgebra.Matrix.ConjTranspose
import Mathlib.Analysis.Complex.Basic

/-!
Model of `KalmanFilterp` (`src/kfilter.cpp` lines 137-337, `src/include/kfilter.hpp` lines 266-389).
`arma::cx_vec` of length `p_` is `Fin p → ℂ`, `arma::cx_mat` is `Matrix (Fin p) (Fin p) ℂ`.
-/

namespace Verif.Model

open scoped Classical
open Matrix

/-- Object of class `KalmanFilterp` whose `p_` is `p` (`src/include/kfilter.hpp` lines 374-388).
`pset` records whether `p_` has been initialised: the constructors taking data only leave it indeterminate. -/
structure KFp (p : ℕ) where
  b : KFBase
  omega : Fin p → ℂ
  ma : List ℝ
  pset : Bool
  state : Fin p → ℂ
  StateVar : Matrix (Fin p) (Fin p) ℂ
  rotma : Fin p → ℂ
  PredVar : Matrix (Fin p) (Fin p) ℂ
  gain : Fin p → ℂ
  rho : Fin p → ℂ
  innov : ℝ
  sconst : Fin p → ℂ
  sslope : Fin p → ℂ

namespace KFp

/-- All state arrays zeroed (`src/include/kfilter.hpp` lines 283-290, 324-331, 349-356). -/
def zeroed (p : ℕ) (b : KFBase) (omega : Fin p → ℂ) (ma : List ℝ) (innov : ℝ) : KFp p :=
  { b := b, omega := omega, ma := ma, pset := true, state := 0, StateVar := 0, rotma := 0, PredVar := 0,
    gain := 0, rho := 0, innov := innov, sconst := 0, sslope := 0 }

/-- `ma_coefs.resize(p_)` when shorter than `p_`: pads with zeros (`src/include/kfilter.hpp` lines 277-280,
318-321). -/
def padMA (p : ℕ) (ma : List ℝ) : List ℝ := ma ++ List.replicate (p - ma.length) 0

/-- Constructors of `KalmanFilterp` taking data and parameters (`src/include/kfilter.hpp` lines 271-291 and
303-334). -/
noncomputable def new {p : ℕ} (srt : List ℝ → List ℕ) (time y yerr : List ℝ) (sigsqr : ℝ) (omega : Fin p → ℂ)
    (ma : List ℝ) : Res (KFp p) := do
  let b ← (KFBase.raw time y yerr sigsqr).init srt
  return zeroed p b omega (padMA p ma) 0

/-- Constructors taking data only (`src/include/kfilter.hpp` lines 270 and 292-302). The Armadillo version runs
`init()` twice (once in the base class, once in its own body). `p_` stays indeterminate (`pset = false`): no method may be
called before `SetOmega`; the type index `p` is the order that `SetOmega` will set. -/
noncomputable def newData (p : ℕ) (srt : List ℝ → List ℕ) (time y yerr : List ℝ) : Res (KFp p) := do
  let b ← (KFBase.raw time y yerr 0).init srt
  let b ← b.init srt
  return { zeroed p b (fun _ => 0) [] 0 with pset := false }

/-- `SetOmega` (`src/include/kfilter.hpp` lines 345-357). -/
def setOmega {p p' : ℕ} (s : KFp p) (omega : Fin p' → ℂ) : KFp p' := zeroed p' s.b omega s.ma s.innov

/-- `SetMA` (`src/include/kfilter.hpp` lines 337-339). -/
def setMA {p : ℕ} (s : KFp p) (ma : List ℝ) : KFp p := { s with ma := ma }

variable {p : ℕ}

/-- The matrix of eigenvectors: row `i` holds the `i`-th powers of `omega` (`src/kfilter.cpp` lines 144-149). -/
def eigenMat (omega : Fin p → ℂ) : Matrix (Fin p) (Fin p) ℂ := Matrix.of fun i k => omega k ^ (i : ℕ)

/-- `Rvector` (`src/kfilter.cpp` lines 152-153). -/
def rvec (p : ℕ) : Fin p → ℂ := fun i => if (i : ℕ) + 1 = p then 1 else 0

/-- `arma::solve(EigenMat, Rvector)` (`src/kfilter.cpp` line 158): the unique solution, or a `runtime_error` when the
matrix is singular. -/
noncomputable def jvec (omega : Fin p → ℂ) : Res (Fin p → ℂ) :=
  if (eigenMat omega).det = 0 then .error .runtime else .ok ((eigenMat omega)⁻¹ *ᵥ rvec p)

/-- `ma_coefs_ * EigenMat` (`src/kfilter.cpp` line 162): the row vector must have `p_` elements. -/
noncomputable def rotate (omega : Fin p → ℂ) (ma : List ℝ) : Res (Fin p → ℂ) :=
  if ma.length = p then .ok ((fun i : Fin p => ((ma.getD i 0 : ℝ) : ℂ)) ᵥ* eigenMat omega)
  else .error .bounds

/-- Stationary state covariance: upper triangle then `symmatu`, which mirrors it with conjugation
(`src/kfilter.cpp` lines 165-172). A vanishing denominator gives Inf/NaN. -/
noncomputable def stateVar (sigsqr : ℝ) (omega J : Fin p → ℂ) : Res (Matrix (Fin p) (Fin p) ℂ) :=
  let upper : Fin p → Fin p → ℂ := fun i j => -(sigsqr : ℂ) * J i * star (J j) / (omega i + star (omega j))
  if ∃ i j : Fin p, i ≤ j ∧ omega i + star (omega j) = 0 then .error .nonfinite
  else .ok (Matrix.of fun i j => if i ≤ j then upper i j else star (upper j i))

/-- `real(as_scalar(b * P * b.t()))` (`src/kfilter.cpp` lines 181, 209, 241, 254, 309, 334). -/
noncomputable def quad (b : Fin p → ℂ) (P : Matrix (Fin p) (Fin p) ℂ) : ℝ := (b ⬝ᵥ (P *ᵥ star b)).re

/-- `PredictionVar_ * rotated_ma_coefs_.t() / v` (`src/kfilter.cpp` lines 191, 244, 292, 318). -/
noncomputable def gainOf (b : Fin p → ℂ) (P : Matrix (Fin p) (Fin p) ℂ) (v : ℝ) : Res (Fin p → ℂ) :=
  if v = 0 then .error .nonfinite else .ok fun k => (P *ᵥ star b) k / (v : ℂ)

/-- `PredictionVar_ -= v * (gain * gain.t())` (`src/kfilter.cpp` lines 197, 246, 297, 323). -/
def measVar (P : Matrix (Fin p) (Fin p) ℂ) (v : ℝ) (g : Fin p → ℂ) : Matrix (Fin p) (Fin p) ℂ :=
  Matrix.of fun k l => P k l - (v : ℂ) * (g k * star (g l))

/-- `arma::exp(omega_ * dt)` (`src/kfilter.cpp` lines 200, 248, 300, 325). -/
noncomputable def rhoOf (omega : Fin p → ℂ) (dt : ℝ) : Fin p → ℂ := fun k => Complex.exp (omega k * (dt : ℂ))

/-- `(rho * rho.t()) % (P - V) + V` (`src/kfilter.cpp` lines 204, 250, 304, 329). -/
def timeVar (rho : Fin p → ℂ) (P V : Matrix (Fin p) (Fin p) ℂ) : Matrix (Fin p) (Fin p) ℂ :=
  Matrix.of fun k l => rho k * star (rho l) * (P k l - V k l) + V k l

/-- `KalmanFilterp::Reset()` (`src/kfilter.cpp` lines 138-186). `EigenMat.row(1)` does not exist for `p_ < 2`. -/
noncomputable def reset (s : KFp p) : Res (KFp p) := do
  if s.pset = false then .error .ub
  if p < 2 then .error .bounds
  let J ← jvec s.omega
  let rotma ← rotate s.omega s.ma
  let V ← stateVar s.b.sigsqr s.omega J
  let mean ← wr s.b.mean 0 0
  let e0 ← rd s.b.yerr 0
  let var ← wr s.b.var 0 (quad rotma V)
  let v0 ← rd var 0
  let var ← wr var 0 (v0 + e0 * e0)
  let y0 ← rd s.b.y 0
  return { s with
    rotma := rotma, StateVar := V, PredVar := V, state := 0, innov := y0,
    b := { s.b with mean := mean, var := var, cur := 1 } }

/-- `KalmanFilterp::Update()` (`src/kfilter.cpp` lines 189-215). -/
noncomputable def update (s : KFp p) : Res (KFp p) := do
  let c := s.b.cur
  let c1 ← prevIdx c
  let vprev ← rd s.b.var c1
  let gain ← gainOf s.rotma s.PredVar vprev
  let state := fun k => s.state k + gain k * (s.innov : ℂ)
  let P := measVar s.PredVar vprev gain
  let dt ← rd s.b.dt c1
  let rho := rhoOf s.omega dt
  let state := fun k => rho k * state k
  let P := timeVar rho P s.StateVar
  let mean ← wr s.b.mean c (s.rotma ⬝ᵥ state).re
  let var ← wr s.b.var c (quad s.rotma P)
  let vc ← rd var c
  let ec ← rd s.b.yerr c
  let var ← wr var c (vc + ec * ec)
  let yc ← rd s.b.y c
  let mc ← rd mean c
  return { s with
    gain := gain, state := state, PredVar := P, rho := rho, innov := yc - mc,
    b := { s.b with mean := mean, var := var, cur := c + 1 } }

/-- `KalmanFilterp::InitializeCoefs(time, itime, ymean, yvar)` (`src/kfilter.cpp` lines 290-312). -/
noncomputable def initCoefs (s : KFp p) (time : ℝ) (itime : ℕ) (ymean yvar : ℝ) : Res (KFp p) := do
  let gain ← gainOf s.rotma s.PredVar yvar
  let sconst := fun k => s.state k - gain k * (ymean : ℂ)
  let P := measVar s.PredVar yvar gain
  let ti ← rd s.b.time itime
  let rho := rhoOf s.omega |ti - time|
  let sconst := fun k => rho k * sconst k
  let sslope := fun k => rho k * gain k
  let P := timeVar rho P s.StateVar
  let ei ← rd s.b.yerr itime
  let var ← wr s.b.var itime (quad s.rotma P + ei * ei)
  return { s with
    gain := gain, sconst := sconst, sslope := sslope, PredVar := P, rho := rho,
    b := { s.b with
      yconst := (s.rotma ⬝ᵥ sconst).re, yslope := (s.rotma ⬝ᵥ sslope).re, var := var, cur := itime + 1 } }

/-- `KalmanFilterp::UpdateCoefs()` (`src/kfilter.cpp` lines 316-337). -/
noncomputable def updateCoefs (s : KFp p) : Res (KFp p) := do
  let c := s.b.cur
  let c1 ← prevIdx c
  let vprev ← rd s.b.var c1
  let gain ← gainOf s.rotma s.PredVar vprev
  let yprev ← rd s.b.y c1
  let sconst := fun k => s.sconst k + gain k * ((yprev - s.b.yconst : ℝ) : ℂ)
  let sslope := fun k => s.sslope k - gain k * (s.b.yslope : ℂ)
  let P := measVar s.PredVar vprev gain
  let dt ← rd s.b.dt c1
  let rho := rhoOf s.omega dt
  let sconst := fun k => rho k * sconst k
  let sslope := fun k => rho k * sslope k
  let P := timeVar rho P s.StateVar
  let ec ← rd s.b.yerr c
  let var ← wr s.b.var c (quad s.rotma P + ec * ec)
  return { s with
    gain := gain, sconst := sconst, sslope := sslope, PredVar := P, rho := rho,
    b := { s.b with
      yconst := (s.rotma ⬝ᵥ sconst).re, yslope := (s.rotma ⬝ᵥ sslope).re, var := var, cur := c + 1 } }

/-- First part of `KalmanFilterp::Predict`: state, mean and variance at `time` given the points before `ip`
(`src/kfilter.cpp` lines 238-255). -/
noncomputable def predictPast (s : KFp p) (time : ℝ) (ip : ℕ) : Res (KFp p × (ℝ × ℝ)) := do
  if ip = 0 then
    return (s, (0, quad s.rotma s.StateVar))
  else
    let vprev ← rd s.b.var (ip - 1)
    let gain ← gainOf s.rotma s.PredVar vprev
    let state := fun k => s.state k + gain k * (s.innov : ℂ)
    let P := measVar s.PredVar vprev gain
    let tprev ← rd s.b.time (ip - 1)
    let rho := rhoOf s.omega |time - tprev|
    let state := fun k => rho k * state k
    let P := timeVar rho P s.StateVar
    return ({ s with gain := gain, state := state, PredVar := P, rho := rho },
      ((s.rotma ⬝ᵥ state).re, quad s.rotma P))

/-- Accumulate the contribution of observation `i` to (precision, precision-weighted mean)
(`src/kfilter.cpp` lines 272-273 and 277-278). -/
noncomputable def accum (s : KFp p) (i : ℕ) (acc : ℝ × ℝ) : Res (ℝ × ℝ) := do
  let vi ← rd s.b.var i
  let yi ← rd s.b.y i
  let a ← dv (s.b.yslope * s.b.yslope) vi
  let c ← dv (s.b.yslope * (yi - s.b.yconst)) vi
  return (acc.1 + a, acc.2 + c)

/-- The loop `for (i=ipredict+1; i<n; i++)` of `Predict` run `k` times from `i` (`src/kfilter.cpp` lines 275-279). -/
noncomputable def coefLoop : ℕ → ℕ → KFp p → ℝ × ℝ → Res (KFp p × (ℝ × ℝ))
  | 0, _, s, acc => .ok (s, acc)
  | k + 1, i, s, acc => do
      let s ← updateCoefs s
      let acc ← accum s i acc
      coefLoop k (i + 1) s acc

/-- `KalmanFilterp::Predict(time)` (`src/kfilter.cpp` lines 218-286). -/
noncomputable def predict (s : KFp p) (time : ℝ) : Res (KFp p × (ℝ × ℝ)) := do
  let ip ← findIdx s.b.time time
  let s ← reset s
  let s ← iter update (ip - 1) s
  let (s, (m, v)) ← predictPast s time ip
  if ip = s.b.time.length then
    return (s, (m, v))
  else
    let yprecision ← dv 1 v
    let m := m * yprecision
    let ymean ← dv m yprecision
    let s ← initCoefs s time ip ymean v
    let acc ← accum s ip (yprecision, m)
    let (s, acc) ← coefLoop (s.b.time.length - (ip + 1)) (ip + 1) s acc
    let pv ← dv 1 acc.1
    return (s, (acc.2 * pv, pv))

noncomputable instance : Kalman (KFp p) where
  base s := s.b
  setBase s b := { s with b := b }
  reset := reset
  update := update
  predict := predict

end KFp
end Verif.Model
