import Verif.Model.CarPack

/-!
The CAR(1) filter and log-density once more, this time with machine numbers: every value is a `Dbl` (a finite number, an
infinity or NaN) and every arithmetic operation rounds its exact result. What the rounding is and what the library functions
`exp`, `log`, `sqrt` return is a parameter, `Arith`; `Verif/Spec/Binary64.lean` says what is assumed of it.

Unlike `Verif/Model/KF1.lean`, a division by zero is not an outcome of its own here: it gives the infinity or NaN that the
C++ gives, and the calculation goes on with it. Each operation is rounded by itself (no fused multiply-add, no extended
precision). Zero is unsigned.
-/

namespace Verif.Model

open scoped Classical

/-- Machine arithmetic: how an exact result is rounded, and the library functions the filter uses. -/
structure Arith where
  rnd : ℝ → Dbl
  exp : Dbl → Dbl
  log : Dbl → Dbl
  sqrt : Dbl → Dbl

namespace Arith

/-- Exact arithmetic: nothing is rounded. -/
noncomputable def exact : Arith where
  rnd := .fin
  exp := Dbl.exp
  log := Dbl.log
  sqrt
    | .fin x => if x < 0 then .nan else .fin √x
    | .pinf => .pinf
    | _ => .nan

/-- Round a finite result; infinities and NaN stay. -/
def fl (A : Arith) : Dbl → Dbl
  | .fin x => A.rnd x
  | d => d

/-- The four operations, rounded. -/
noncomputable def add (A : Arith) (a b : Dbl) : Dbl := A.fl (a.add b)
@[inherit_doc add]
noncomputable def sub (A : Arith) (a b : Dbl) : Dbl := A.fl (a.sub b)
@[inherit_doc add]
noncomputable def mul (A : Arith) (a b : Dbl) : Dbl := A.fl (a.mul b)
@[inherit_doc add]
noncomputable def div (A : Arith) (a b : Dbl) : Dbl := A.fl (a.div b)

end Arith

/-- `fabs`, `std::abs`; the absolute value of a double is a double. -/
noncomputable def Dbl.abs : Dbl → Dbl
  | .fin x => .fin |x|
  | .nan => .nan
  | _ => .pinf

/-- Object of class `KalmanFilter1` (`src/include/kfilter.hpp` lines 31-32 and 192-201). -/
structure FKF1 where
  mean : List Dbl
  var : List Dbl
  time : List Dbl
  dt : List Dbl
  y : List Dbl
  yerr : List Dbl
  sigsqr : Dbl
  omega : Dbl
  cur : ℕ
  yconst : Dbl
  yslope : Dbl

namespace FKF1
variable (A : Arith)

/-- `time_(span(1,n-1)) - time_(span(0,n-2))`: `src/include/kfilter.hpp` lines 45, 56, 70. Armadillo rejects the spans when
`n < 2`. -/
noncomputable def diffs (t : List Dbl) : Res (List Dbl) :=
  if t.length < 2 then .error .bounds else .ok (List.zipWith (fun b a => A.sub b a) t.tail t)

/-- First half of `init()`: sort when some time difference is negative (`src/include/kfilter.hpp` lines 44-57). -/
noncomputable def initSort (srt : List Dbl → List ℕ) (s : FKF1) : Res FKF1 := do
  let dt ← diffs A s.time
  if ∃ d ∈ dt, d.lt (.fin 0) then
    let idx := srt s.time
    let time ← gather s.time idx
    let y ← gather s.y idx
    let yerr ← gather s.yerr idx
    let dt ← diffs A time
    return { s with time := time, y := y, yerr := yerr, dt := dt }
  else
    return { s with dt := dt }

/-- Second half of `init()`: drop points whose time equals the preceding one, then size `mean` and `var`
(`src/include/kfilter.hpp` lines 59-75). -/
noncomputable def initDedup (s : FKF1) : Res FKF1 := do
  let s ← (if (∀ d ∈ s.dt, ¬ d.lt (.fin 0)) ∧ ∃ d ∈ s.dt, d = .fin 0 then do
      let idx := 0 :: ((List.range s.dt.length).filter (fun i => s.dt.getD i (.fin 0) ≠ .fin 0)).map (1 + ·)
      let time ← gather s.time idx
      let y ← gather s.y idx
      let yerr ← gather s.yerr idx
      let dt ← diffs A time
      return { s with time := time, y := y, yerr := yerr, dt := dt }
    else return s : Res FKF1)
  return { s with mean := List.replicate s.time.length (.fin 0), var := List.replicate s.time.length (.fin 0) }

/-- Constructor of `KalmanFilter1` taking data only (`src/include/kfilter.hpp` lines 215 and 222-232); the uninitialised
parameters are given the value NaN and are always set before use. -/
noncomputable def newData (srt : List Dbl → List ℕ) (time y yerr : List Dbl) : Res FKF1 :=
  initSort A srt { mean := [], var := [], time := time, dt := [], y := y, yerr := yerr, sigsqr := .nan, omega := .nan,
                   cur := 0, yconst := .nan, yslope := .nan } >>= initDedup A

/-- `KalmanFilter1::Reset()` (`src/kfilter.cpp` lines 19-26). -/
noncomputable def reset (s : FKF1) : Res FKF1 := do
  let mean ← wr s.mean 0 (.fin 0)
  let q := A.div s.sigsqr (A.mul (.fin 2) s.omega)
  let e0 ← rd s.yerr 0
  let var ← wr s.var 0 (A.add q (A.mul e0 e0))
  return { s with mean := mean, var := var, yconst := .fin 0, yslope := .fin 0, cur := 1 }

/-- `KalmanFilter1::Update()` (`src/kfilter.cpp` lines 29-48). -/
noncomputable def update (s : FKF1) : Res FKF1 := do
  let c := s.cur
  let c1 ← prevIdx c
  let dt ← rd s.dt c1
  let rho := A.exp (A.mul (A.mul (.fin (-1)) s.omega) dt)
  let vprev ← rd s.var c1
  let eprev ← rd s.yerr c1
  let previous_var := A.sub vprev (A.mul eprev eprev)
  let var_ratio := A.div previous_var vprev
  let mprev ← rd s.mean c1
  let yprev ← rd s.y c1
  let mean ← wr s.mean c
    (A.add (A.mul rho mprev) (A.mul (A.mul rho var_ratio) (A.sub yprev mprev)))
  let q := A.div s.sigsqr (A.mul (.fin 2) s.omega)
  let var ← wr s.var c
    (A.add (A.mul q (A.sub (.fin 1) (A.mul rho rho)))
      (A.mul (A.mul (A.mul rho rho) previous_var) (A.sub (.fin 1) var_ratio)))
  let ec ← rd s.yerr c
  let vc ← rd var c
  let var ← wr var c (A.add vc (A.mul ec ec))
  return { s with mean := mean, var := var, cur := c + 1 }

/-- `KalmanFilter::Filter()` (`src/include/kfilter.hpp` lines 126-132). -/
noncomputable def filter (s : FKF1) : Res FKF1 := do
  let s ← reset A s
  iter (update A) (s.time.length - 1) s

end FKF1

/-- Object of class `CAR1`: the members of `CARMA_Base` used by `LogDensity` and the filter
(`src/include/carpack.hpp` lines 236-247, 251-279). -/
structure FCar1 where
  time : List Dbl
  y : List Dbl
  yerr : List Dbl
  maxStdev : Dbl
  maxFreq : Dbl
  minFreq : Dbl
  kf : FKF1

namespace FCar1
variable (A : Arith)

/-- `v.min()`, `v.max()` of a nonempty vector; the empty vector is rejected by Armadillo. -/
noncomputable def vecMin : List Dbl → Res Dbl
  | [] => .error .bounds
  | a :: l => .ok (l.foldl Dbl.min a)
@[inherit_doc vecMin]
noncomputable def vecMax : List Dbl → Res Dbl
  | [] => .error .bounds
  | a :: l => .ok (l.foldl Dbl.max a)

/-- Constructors of `CARMA_Base` and `CAR1` with `SetPrior` (`src/include/carpack.hpp` lines 56-72, 201-207, 256-262). The
value `10.0 * sqrt(arma::var(y_))` handed to `SetPrior` comes from Armadillo and is an argument here. -/
noncomputable def new (srt : List Dbl → List ℕ) (time y yerr : List Dbl) (maxStdev : Dbl) : Res FCar1 := do
  let dt ← FKF1.diffs A time
  let dmin ← vecMin dt
  let tmax ← vecMax time
  let tmin ← vecMin time
  let kf ← FKF1.newData A srt time y yerr
  return { time := time, y := y, yerr := yerr, maxStdev := maxStdev, maxFreq := A.div (.fin 1) dmin,
           minFreq := A.div (.fin 1) (A.sub tmax tmin), kf := kf }

/-- `CAR1::CheckPriorBounds` (`src/carpack.cpp` lines 116-130). -/
noncomputable def checkPrior (s : FCar1) (θ : List Dbl) : Res Bool := do
  let ysigma ← rd θ 0
  let scale ← rd θ 1
  let lo ← rd θ 3
  let omega := A.exp lo
  return decide ¬ (omega.gt s.maxFreq ∨ omega.lt s.minFreq ∨ ysigma.gt s.maxStdev ∨ ysigma.lt (.fin 0) ∨
    scale.lt (.fin 0.5) ∨ scale.gt (.fin 2))

/-- `CARMA_Base::LogPrior` (`src/include/carpack.hpp` lines 118-126) with `measerr_dof_ = 50`:
`-0.5 * measerr_dof_ / measerr_scale - (1.0 + measerr_dof_ / 2.0) * log(measerr_scale)`. -/
noncomputable def logPrior (θ : List Dbl) : Res Dbl := do
  let s ← rd θ 1
  return A.sub (A.div (A.mul (.fin (-0.5)) (.fin 50)) s) (A.mul (A.add (.fin 1) (A.div (.fin 50) (.fin 2))) (A.log s))

/-- Sum over the first `k` observations (`src/include/carpack.hpp` lines 167-171). -/
noncomputable def likLoop (y mean var : List Dbl) (mu : Dbl) : ℕ → Res Dbl
  | 0 => .ok (.fin 0)
  | k + 1 => do
      let acc ← likLoop y mean var mu k
      let yk ← rd y k
      let mk ← rd mean k
      let vk ← rd var k
      let ycent := A.sub (A.sub yk mk) mu
      return A.add acc (A.sub (A.mul (.fin (-0.5)) (A.log vk))
        (A.div (A.mul (A.mul (.fin 0.5) ycent) ycent) vk))

/-- `CARMA_Base::LogDensity` for a `CAR1` object (`src/include/carpack.hpp` lines 131-176), with `ExtractAR` and
`ExtractSigsqr` (lines 265-275) and the setters. The filter of a CAR(1) process throws no `runtime_error`. -/
noncomputable def logDensity (s : FCar1) (θ : List Dbl) : Res (FCar1 × Dbl) := do
  let ok ← checkPrior A s θ
  if ok = false then return (s, .ninf)
  let lo ← rd θ 3
  let s0 ← rd θ 0
  let omega := A.exp lo
  let sigsqr := A.mul (A.mul (A.mul (.fin 2) s0) s0) (A.exp lo)
  let scale ← rd θ 1
  let mu ← rd θ 2
  let yerr := s.yerr.map fun x => A.mul (A.sqrt scale) x
  let ycent := s.y.map fun x => A.sub x mu
  let kf ← FKF1.filter A { s.kf with sigsqr := sigsqr, omega := omega, yerr := yerr, y := ycent }
  let ll ← likLoop A s.y kf.mean kf.var mu s.time.length
  let lp ← logPrior A θ
  return ({ s with kf := kf }, A.add ll lp)

end FCar1
end Verif.Model
