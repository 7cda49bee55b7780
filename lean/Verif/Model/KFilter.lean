import Verif.Model.Fault
import Mathlib.Analysis.SpecialFunctions.Pow.Real
import Mathlib.Data.List.Sort

/-!
Model of the template base class `KalmanFilter<OmegaType>` (`src/include/kfilter.hpp`, lines 27-202).
-/

namespace Verif.Model

open scoped Classical

/-- Data members of `KalmanFilter<OmegaType>` other than `omega_`
(`src/include/kfilter.hpp` lines 31-32 and 192-201). Vectors are lists of reals; `double` is modelled by `ℝ`. -/
structure KFBase where
  mean : List ℝ
  var : List ℝ
  time : List ℝ
  dt : List ℝ
  y : List ℝ
  yerr : List ℝ
  sigsqr : ℝ
  cur : ℕ
  yconst : ℝ
  yslope : ℝ

/-- `time_(span(1,n-1)) - time_(span(0,n-2))`: `src/include/kfilter.hpp` lines 45, 56, 70, 166, 176.
Armadillo rejects the spans when `n < 2`. -/
noncomputable def diffs (t : List ℝ) : Res (List ℝ) :=
  if t.length < 2 then .error .bounds else .ok (List.zipWith (fun b a => b - a) t.tail t)

/-- `v.elem(indices)`: checked gather (`src/include/kfilter.hpp` lines 53-55, 65-67). -/
def gather {α : Type} (l : List α) (idx : List ℕ) : Res (List α) := idx.mapM (rd l)

/-- What the model assumes of `arma::sort_index` (external): it returns the positions of `l` in an order that makes
the values nondecreasing. Armadillo does not promise stability, so nothing is said about ties. -/
def IsSortIndex (srt : List ℝ → List ℕ) : Prop :=
  ∀ l, (srt l).Perm (List.range l.length) ∧ ((srt l).map (fun i => l.getD i 0)).Pairwise (· ≤ ·)

/-- `0` followed by `1 + find(dt_ != 0)`: `src/include/kfilter.hpp` lines 62-64. -/
noncomputable def uniqueIdx (dt : List ℝ) : List ℕ :=
  0 :: ((List.range dt.length).filter (fun i => dt.getD i 0 ≠ 0)).map (1 + ·)

/-- First half of `init()`: sort when some time difference is negative
(`src/include/kfilter.hpp` lines 44-57). The message printed to `cout` is dropped. -/
noncomputable def initSort (srt : List ℝ → List ℕ) (s : KFBase) : Res KFBase := do
  let dt ← diffs s.time
  if ∃ d ∈ dt, d < 0 then
    let idx := srt s.time
    let time ← gather s.time idx
    let y ← gather s.y idx
    let yerr ← gather s.yerr idx
    let dt ← diffs time
    return { s with time := time, y := y, yerr := yerr, dt := dt }
  else
    return { s with dt := dt }

/-- Second half of `init()`: drop points whose time equals the preceding one, then size `mean` and `var`
(`src/include/kfilter.hpp` lines 59-75). The test `dt_.min() == 0` is written as "no difference is negative and
some difference is zero". -/
noncomputable def initDedup (s : KFBase) : Res KFBase := do
  let s ← (if (∀ d ∈ s.dt, 0 ≤ d) ∧ ∃ d ∈ s.dt, d = 0 then do
      let idx := uniqueIdx s.dt
      let time ← gather s.time idx
      let y ← gather s.y idx
      let yerr ← gather s.yerr idx
      let dt ← diffs time
      return { s with time := time, y := y, yerr := yerr, dt := dt }
    else return s : Res KFBase)
  return { s with mean := List.replicate s.time.length 0, var := List.replicate s.time.length 0 }

/-- `KalmanFilter::init()` (`src/include/kfilter.hpp` lines 43-76). -/
noncomputable def KFBase.init (srt : List ℝ → List ℕ) (s : KFBase) : Res KFBase :=
  initSort srt s >>= initDedup

/-- Member values before `init()` runs: the constructors store the three vectors
(`src/include/kfilter.hpp` lines 36-40, 228-230). Uninitialised scalar members are given the value 0; every method that
reads them is preceded by a write. -/
def KFBase.raw (time y yerr : List ℝ) (sigsqr : ℝ) : KFBase :=
  { mean := [], var := [], time := time, dt := [], y := y, yerr := yerr, sigsqr := sigsqr, cur := 0,
    yconst := 0, yslope := 0 }

/-- `SetTimeSeries`, `SetTimeSeriesErr`, `SetTime`, `SetSigsqr` (`src/include/kfilter.hpp` lines 79-101). -/
def KFBase.setTime (s : KFBase) (t : List ℝ) : KFBase := { s with time := t }
@[inherit_doc KFBase.setTime]
def KFBase.setTimeSeries (s : KFBase) (y : List ℝ) : KFBase := { s with y := y }
@[inherit_doc KFBase.setTime]
def KFBase.setTimeSeriesErr (s : KFBase) (e : List ℝ) : KFBase := { s with yerr := e }
@[inherit_doc KFBase.setTime]
def KFBase.setSigsqr (s : KFBase) (v : ℝ) : KFBase := { s with sigsqr := v }

/-- Number of leading elements `< t`, i.e. the value of `i` when
`while (l(i) < t) { i++; if (i == n) break; }` stops (`src/kfilter.cpp` lines 76-84, 220-228,
`src/include/kfilter.hpp` lines 156-161). -/
noncomputable def scanLt (t : ℝ) : List ℝ → ℕ
  | [] => 0
  | a :: l => if a < t then scanLt t l + 1 else 0

/-- The search loop itself: the first comparison reads `l(0)`, a bounds error on an empty vector. -/
noncomputable def findIdx (l : List ℝ) (t : ℝ) : Res ℕ :=
  if l = [] then .error .bounds else .ok (scanLt t l)

/-- `v.insert_rows(idx, x)` with a single row (`src/include/kfilter.hpp` lines 165-169): `idx > n` is rejected. -/
def insertRow {α : Type} (l : List α) (idx : ℕ) (x : α) : Res (List α) :=
  if idx ≤ l.length then .ok (l.insertIdx idx x) else .error .bounds

/-- A concrete filter class: the virtual methods `Reset`, `Update`, `Predict` and access to the base part. -/
class Kalman (σ : Type) where
  base : σ → KFBase
  setBase : σ → KFBase → σ
  reset : σ → Res σ
  update : σ → Res σ
  predict : σ → ℝ → Res (σ × (ℝ × ℝ))

variable {σ : Type} [Kalman σ]

/-- `KalmanFilter::Filter()` (`src/include/kfilter.hpp` lines 126-132). -/
def Kalman.filter (s : σ) : Res σ := do
  let s ← Kalman.reset s
  iter Kalman.update ((Kalman.base s).time.length - 1) s

/-- `RandGen.normal(mu, sigma)` fed with the standard normal draw `z`; `sqrt` of a negative variance is NaN
(`src/include/kfilter.hpp` line 154). -/
noncomputable def drawNormal (mu var z : ℝ) : Res ℝ :=
  if var < 0 then .error .nonfinite else .ok (mu + Real.sqrt var * z)

/-- Body of the loop of `Simulate`: predict at `t`, draw, insert the drawn value as an error-free observation
(`src/include/kfilter.hpp` lines 151-171). -/
noncomputable def Kalman.simStep (s : σ) (t z : ℝ) : Res (σ × ℝ) := do
  let (s, (mu, v)) ← Kalman.predict s t
  let ysim ← drawNormal mu v z
  let b := Kalman.base s
  let idx ← findIdx b.time t
  let time ← insertRow b.time idx t
  let dt ← diffs time
  let y ← insertRow b.y idx ysim
  let yerr ← insertRow b.yerr idx 0
  return (Kalman.setBase s { b with
    time := time, dt := dt, y := y, yerr := yerr,
    mean := List.replicate time.length 0, var := List.replicate time.length 0 }, ysim)

/-- The loop of `Simulate` over the sorted request times; `zs k` is the `k`-th standard normal draw. -/
noncomputable def Kalman.simLoop (s : σ) : List ℝ → (ℕ → ℝ) → Res (σ × List ℝ)
  | [], _ => .ok (s, [])
  | t :: ts, zs => do
      let (s, x) ← Kalman.simStep s t (zs 0)
      let (s, xs) ← Kalman.simLoop s ts (fun k => zs (k+1))
      return (s, x :: xs)

/-- `KalmanFilter::Simulate(time)` (`src/include/kfilter.hpp` lines 135-184). `arma::sort` on reals is
`List.mergeSort`; the normal draws are an arbitrary stream. -/
noncomputable def Kalman.simulate (s : σ) (times : List ℝ) (zs : ℕ → ℝ) : Res (σ × List ℝ) := do
  let b0 := Kalman.base s
  let sorted := times.mergeSort (fun a b => decide (a ≤ b))
  let (s, xs) ← Kalman.simLoop s sorted zs
  let dt ← diffs b0.time
  return (Kalman.setBase s { Kalman.base s with
    time := b0.time, dt := dt, y := b0.y, yerr := b0.yerr,
    mean := List.replicate b0.time.length 0, var := List.replicate b0.time.length 0 }, xs)

end Verif.Model
