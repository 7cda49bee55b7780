import Verif.Model.Dbl
import Verif.Model.KFp
import Mathlib.Data.Nat.Choose.Basic
import Mathlib.Analysis.SpecialFunctions.Trigonometric.Basic

/-!
Model of the CARMA parameter classes (`src/include/carpack.hpp`, `src/carpack.cpp`): extraction of the model parameters
from `theta`, prior bounds, log-prior, log-density. Starting values are in `Verif/Model/Start.lean`.

`theta` is a list of finite reals, read with bounds checks.
-/

namespace Verif.Model

open scoped Classical

/-! ### free functions -/

/-- `logit` (`src/carpack.cpp` line 704) for an argument in (0,1). -/
noncomputable def logit (x : ℝ) : ℝ := Real.log (x / (1 - x))

/-- `inv_logit` (`src/carpack.cpp` line 705). -/
noncomputable def invLogit (x : ℝ) : ℝ := Real.exp x / (1 + Real.exp x)

/-- `std::abs((a - b) / (a + b))` (`src/carpack.cpp` lines 719-720): NaN for 0/0, Inf for a nonzero number over 0. -/
noncomputable def fracDiff (a b : ℂ) : Dbl :=
  if a + b = 0 then (if a - b = 0 then .nan else .pinf) else .fin ‖(a - b) / (a + b)‖

/-- Inner loop over `j` for one `i` (`src/carpack.cpp` lines 717-725). -/
noncomputable def uniqueInner (a : ℂ) : List ℂ → Dbl → Dbl
  | [], m => m
  | b :: l, m => uniqueInner a l (if Dbl.lt (fracDiff a b) m then fracDiff a b else m)

/-- Outer loop over `i` (`src/carpack.cpp` lines 716-726). -/
noncomputable def uniqueOuter : List ℂ → Dbl → Dbl
  | [], m => m
  | a :: l, m => uniqueOuter l (uniqueInner a l m)

/-- `unique_roots` (`src/carpack.cpp` lines 709-732). -/
noncomputable def uniqueRoots (roots : List ℂ) (tol : ℝ) : Bool :=
  decide (Dbl.gt (uniqueOuter roots (.fin (100 * tol))) (.fin tol))

/-- One pass of the recursion of `polycoefs` (`src/carpack.cpp` line 751). Armadillo evaluates the overlapping right-hand
side before storing it. -/
noncomputable def polyStep (r : ℂ) (i : ℕ) (c : List ℂ) : List ℂ :=
  (List.range c.length).map fun j =>
    if 1 ≤ j ∧ j ≤ i + 1 then c.getD j 0 - r * c.getD (j - 1) 0 else c.getD j 0

/-- The loop of `polycoefs` over the roots from position `i` on (`src/carpack.cpp` lines 749-752). -/
noncomputable def polyLoop : List ℂ → ℕ → List ℂ → List ℂ
  | [], _, c => c
  | r :: rs, i, c => polyLoop rs (i + 1) (polyStep r i c)

/-- `polycoefs` (`src/carpack.cpp` lines 742-756). -/
noncomputable def polycoefs (roots : List ℂ) : List ℝ :=
  (polyLoop roots 0 (1 :: List.replicate roots.length 0)).map Complex.re

/-! ### roots and moving-average coefficients -/

/-- The two roots of `s^2 + q2 s + q1` (`src/carpack.cpp` lines 149-162 and 534-547). -/
noncomputable def quadPair (q1 q2 : ℝ) : List ℂ :=
  let d := q2 * q2 - 4 * q1
  if 0 < d then [⟨-0.5 * (q2 + √d), 0⟩, ⟨-0.5 * (q2 - √d), 0⟩]
  else [⟨-0.5 * q2, -0.5 * √(-d)⟩, ⟨-0.5 * q2, -(-0.5 * √(-d))⟩]

/-- The loop over quadratic factors, run `k` times, reading `theta` from position `off` on (`src/carpack.cpp` lines 143-163
with `off = 3`, lines 528-548 with `off = 3 + p_`). -/
noncomputable def rootLoop (θ : List ℝ) (off : ℕ) : ℕ → Res (List ℂ)
  | 0 => .ok []
  | k + 1 => do
      let l ← rootLoop θ off k
      let a ← rd θ (off + 2 * k)
      let b ← rd θ (off + 2 * k + 1)
      return l ++ quadPair (Real.exp a) (Real.exp b)

/-- All `m` roots: the loop, then one real root if `m` is odd (`src/carpack.cpp` lines 139-171 and 524-554). -/
noncomputable def rootsFrom (θ : List ℝ) (off m : ℕ) : Res (List ℂ) := do
  let l ← rootLoop θ off (m / 2)
  if m % 2 = 1 then
    let a ← rd θ (off + m - 1)
    return l ++ [((-Real.exp a : ℝ) : ℂ)]
  else
    return l

/-- `CARp::ARRoots` (`src/carpack.cpp` lines 137-172). -/
noncomputable def arRoots (p : ℕ) (θ : List ℝ) : Res (List ℂ) := rootsFrom θ 3 p

/-- A complex vector of `p` elements as a function. -/
def vecOf (p : ℕ) (l : List ℂ) : Fin p → ℂ := fun k => l.getD k 0

/-- Denominator of the term of root `k` (`src/carpack.cpp` lines 385-393). -/
noncomputable def varDenom {p : ℕ} (roots : Fin p → ℂ) (k : Fin p) : ℂ :=
  -2 * ((roots k).re : ℂ) * ∏ l, if l ≠ k then (roots l - roots k) * (star (roots l) + roots k) else 1

/-- `ma_sum1`, `ma_sum2` (`src/carpack.cpp` lines 395-401). -/
noncomputable def maSum (ma : List ℝ) (z : ℂ) : ℂ := ∑ l ∈ Finset.range ma.length, (ma.getD l 0 : ℂ) * z ^ l

/-- `CARp::Variance` (`src/carpack.cpp` lines 377-409). A vanishing denominator gives Inf or NaN. -/
noncomputable def variance {p : ℕ} (roots : Fin p → ℂ) (ma : List ℝ) (sigma dt : ℝ) : Res ℝ :=
  if ∃ k, varDenom roots k = 0 then .error .nonfinite
  else .ok (sigma * sigma *
    (∑ k, maSum ma (roots k) * maSum ma (-roots k) * Complex.exp (roots k * dt) / varDenom roots k).re)

/-- `CARMA::ExtractMA` (`src/carpack.cpp` lines 522-580). Writing `ma_coefs(i)`, `i <= q_`, is out of bounds if
`q_ >= p_`. -/
noncomputable def carmaMA (p q : ℕ) (θ : List ℝ) : Res (List ℝ) := do
  let roots ← rootsFrom θ (3 + p) q
  let c := polycoefs roots
  let cq ← rd c q
  let c ← c.mapM fun x => dv x cq
  if p ≤ q then .error .bounds
  return (List.range p).map fun i => if i ≤ q then c.getD (q - i) 0 else 0

/-- Coefficients of `(1 + s/kappa)^(p-1)` (`src/carpack.cpp` lines 692-697, `src/include/carpack.hpp` lines 353-357).
`pow(±inf, i)` is infinite, so the quotient is 0; `kappa = 0` or NaN gives Inf/NaN. The first write is out of bounds for
`p_ = 0`. -/
noncomputable def zMA (p : ℕ) (kappa : Dbl) : Res (List ℝ) :=
  if p = 0 then .error .bounds
  else match kappa with
    | .fin k => if k = 0 ∧ 1 < p then .error .nonfinite
        else .ok ((List.range p).map fun i => if i = 0 then 1 else ((p - 1).choose i : ℝ) / k ^ i)
    | .nan => if 1 < p then .error .nonfinite else .ok [1]
    | _ => .ok ((List.range p).map fun i => if i = 0 then 1 else 0)

/-! ### objects -/

/-- Members of `CARMA_Base` and of its base class `Parameter` other than the filter
(`src/include/carpack.hpp` lines 236-247; `src/include/parameters.hpp` lines 84-91, 165-168). `measerr_dof_` is the
constant 50 set in the constructor. -/
structure CarBase where
  time : List ℝ
  y : List ℝ
  yerr : List ℝ
  maxStdev : ℝ
  maxFreq : Dbl
  minFreq : Dbl
  ignorePrior : Bool

/-- `arma::mean`. -/
noncomputable def armaMean (l : List ℝ) : ℝ := l.sum / l.length

/-- `arma::var`: normalised by `n - 1`; 0 for fewer than two elements. -/
noncomputable def armaVar (l : List ℝ) : ℝ := (l.map fun x => (x - armaMean l) ^ 2).sum / (l.length - 1 : ℝ)

/-- `v.min()`, `v.max()` of a nonempty vector; the empty vector is rejected by Armadillo. -/
noncomputable def armaMin : List ℝ → Res ℝ
  | [] => .error .bounds
  | a :: l => .ok (l.foldl min a)
@[inherit_doc armaMin]
noncomputable def armaMax : List ℝ → Res ℝ
  | [] => .error .bounds
  | a :: l => .ok (l.foldl max a)

/-- `SetPrior` (`src/include/carpack.hpp` lines 201-207). -/
noncomputable def CarBase.setPrior (b : CarBase) (maxStdev : ℝ) : Res CarBase := do
  let dt ← diffs b.time
  let dmin ← armaMin dt
  let tmax ← armaMax b.time
  let tmin ← armaMin b.time
  return { b with
    maxStdev := maxStdev, maxFreq := Dbl.div (.fin 1) (.fin dmin), minFreq := Dbl.div (.fin 1) (.fin (tmax - tmin)) }

/-- Constructor of `CARMA_Base` (`src/include/carpack.hpp` lines 56-72). -/
noncomputable def CarBase.new (time y yerr : List ℝ) : Res CarBase :=
  CarBase.setPrior { time := time, y := y, yerr := yerr, maxStdev := 0, maxFreq := .nan, minFreq := .nan,
                     ignorePrior := false } (10 * √(armaVar y))

/-- `SetMLE` (`src/include/carpack.hpp` line 233). -/
def CarBase.setMLE (b : CarBase) (x : Bool) : CarBase := { b with ignorePrior := x }

/-- The virtual methods of a concrete model class that `CARMA_Base::LogDensity` calls. `μ` is the type of objects, `σ` of
its filter. `setParams` is `SetSigsqr`, `SetOmega`, `SetMA` (`src/include/carpack.hpp` lines 147-149) with the values
extracted from `theta` (lines 140-142); its flag says that the extracted variance is not finite, in which case 0 is stored
in the filter (a simplification: C++ stores Inf or NaN). -/
class CarModel (μ : Type) (σ : outParam Type) [Kalman σ] where
  base : μ → CarBase
  setBase : μ → CarBase → μ
  kf : μ → σ
  setKf : μ → σ → μ
  checkPrior : μ → List ℝ → Res Bool
  setParams : μ → List ℝ → Res (σ × Bool)
  logPrior : μ → List ℝ → Res Dbl

/-- Sum over the first `k` observations (`src/include/carpack.hpp` lines 167-171). -/
noncomputable def likLoop (y mean var : List ℝ) (mu : ℝ) : ℕ → Res Dbl
  | 0 => .ok (.fin 0)
  | k + 1 => do
      let acc ← likLoop y mean var mu k
      let yk ← rd y k
      let mk ← rd mean k
      let vk ← rd var k
      let ycent := yk - mk - mu
      return acc.add ((Dbl.mul (.fin (-0.5)) (Dbl.log (.fin vk))).sub
        (Dbl.div (.fin (0.5 * ycent * ycent)) (.fin vk)))

section
variable {μ σ : Type} [Kalman σ] [CarModel μ σ]

/-- `CARMA_Base::LogDensity` (`src/include/carpack.hpp` lines 131-176), returning the object with its filter updated and the
value. A `runtime_error` thrown by `Filter()` is caught and gives `-inf`; an Armadillo bounds error (`logic_error`) is not
caught. When a quantity handed to the filter is not finite (variance, or the square root of a negative `measerr_scale`), or
when the filter divides by a zero variance, the sum is NaN. The prior check repeated in the `catch` block only prints. -/
noncomputable def logDensity (s : μ) (θ : List ℝ) : Res (μ × Dbl) := do
  let b := CarModel.base s
  let ok ← CarModel.checkPrior s θ
  if ok = false then return (s, .ninf)
  let (kf, bad) ← CarModel.setParams s θ
  let scale ← rd θ 1
  let mu ← rd θ 2
  let yerr := b.yerr.map fun x => √scale * x
  let ycent := b.y.map fun x => x - mu
  let kf := Kalman.setBase kf (((Kalman.base kf).setTimeSeriesErr yerr).setTimeSeries ycent)
  match Kalman.filter kf with
  | .error .runtime => return (CarModel.setKf s kf, .ninf)
  | .error .nonfinite => do
      let _ ← likLoop b.y (Kalman.base kf).mean (Kalman.base kf).var mu b.time.length
      let _ ← CarModel.logPrior s θ
      return (CarModel.setKf s kf, .nan)
  | .error f => .error f
  | .ok kf => do
      let ll ← likLoop b.y (Kalman.base kf).mean (Kalman.base kf).var mu b.time.length
      let lp ← CarModel.logPrior s θ
      return (CarModel.setKf s kf, if bad ∨ scale < 0 then .nan else ll.add lp)

end

/-- `CARMA_Base::LogPrior` (`src/include/carpack.hpp` lines 118-126) with `measerr_dof_ = 50`. -/
noncomputable def baseLogPrior (θ : List ℝ) : Res Dbl := do
  let s ← rd θ 1
  return (Dbl.div (.fin (-0.5 * 50)) (.fin s)).sub (Dbl.mul (.fin (1 + 50 / 2)) (Dbl.log (.fin s)))

/-! ### CAR(1) -/

/-- Object of class `CAR1` (`src/include/carpack.hpp` lines 251-279). -/
structure Car1 where
  b : CarBase
  kf : KF1

/-- Constructor of `CAR1` (`src/include/carpack.hpp` lines 256-262). -/
noncomputable def Car1.new (srt : List ℝ → List ℕ) (time y yerr : List ℝ) : Res Car1 := do
  let b ← CarBase.new time y yerr
  let kf ← KF1.newData srt time y yerr
  return { b := b, kf := kf }

/-- `CAR1::CheckPriorBounds` (`src/carpack.cpp` lines 116-130). -/
noncomputable def Car1.checkPrior (b : CarBase) (θ : List ℝ) : Res Bool := do
  let ysigma ← rd θ 0
  let scale ← rd θ 1
  let lo ← rd θ 3
  let omega := Dbl.fin (Real.exp lo)
  return decide ¬ (omega.gt b.maxFreq ∨ omega.lt b.minFreq ∨ ysigma > b.maxStdev ∨ ysigma < 0 ∨
    scale < 0.5 ∨ scale > 2)

/-- `CAR1::ExtractAR`, `CAR1::ExtractSigsqr` and the setters (`src/include/carpack.hpp` lines 265-275). `SetMA` does
nothing for `KalmanFilter1`. -/
noncomputable def Car1.setParams (kf : KF1) (θ : List ℝ) : Res (KF1 × Bool) := do
  let lo ← rd θ 3
  let s0 ← rd θ 0
  return ({ kf with omega := Real.exp lo, b := kf.b.setSigsqr (2 * s0 * s0 * Real.exp lo) }, false)

noncomputable instance : CarModel Car1 KF1 where
  base s := s.b
  setBase s b := { s with b := b }
  kf s := s.kf
  setKf s k := { s with kf := k }
  checkPrior s := Car1.checkPrior s.b
  setParams s := Car1.setParams s.kf
  logPrior _ := baseLogPrior

/-! ### CARp and its subclasses -/

/-- Which subclass of `CARp` an object belongs to. -/
inductive Kind where
  | carp
  | zcar
  | carma (q : ℕ)
  | zcarma
  deriving DecidableEq

/-- Object of class `CARp` or one of its subclasses (`src/include/carpack.hpp` lines 285-461). `maCoefs` is the private member
`CARp::ma_coefs_`; `zma` the member of the same name of `ZCAR`, which hides it. `kappaLow`, `kappaHigh` are used by
`ZCARMA` only. -/
structure CarP (p : ℕ) where
  b : CarBase
  kf : KFp p
  kind : Kind
  maCoefs : List ℝ
  orderLor : Bool
  zma : List ℝ
  kappaLow : Dbl
  kappaHigh : Dbl

namespace CarP
variable {p : ℕ}

/-- Constructor of `CARp` (`src/include/carpack.hpp` lines 289-298). -/
noncomputable def newCarp (p : ℕ) (srt : List ℝ → List ℕ) (time y yerr : List ℝ) : Res (CarP p) := do
  let b ← CarBase.new time y yerr
  let kf ← KFp.newData p srt time y yerr
  if p = 0 then .error .bounds
  let ma := 1 :: List.replicate (p - 1) 0
  return { b := b, kf := kf.setMA ma, kind := .carp, maCoefs := ma, orderLor := true, zma := [], kappaLow := .nan,
           kappaHigh := .nan }

/-- Constructor of `ZCAR` (`src/include/carpack.hpp` lines 346-359). -/
noncomputable def newZcar (p : ℕ) (srt : List ℝ → List ℕ) (time y yerr : List ℝ) : Res (CarP p) := do
  let s ← newCarp p srt time y yerr
  let dt ← diffs time
  let dmin ← armaMin dt
  let ma ← zMA p (Dbl.div (.fin 1) (.fin dmin))
  return { s with kind := .zcar, zma := ma, kf := s.kf.setMA ma }

/-- Constructor of `CARMA` (`src/include/carpack.hpp` lines 374-379). `BOOST_ASSERT_MSG(q < p)` is a no-op in builds with
`NDEBUG`; `ExtractMA` then fails with a bounds error. -/
noncomputable def newCarma (p q : ℕ) (srt : List ℝ → List ℕ) (time y yerr : List ℝ) : Res (CarP p) := do
  let s ← newCarp p srt time y yerr
  return { s with kind := .carma q }

/-- Median as computed by Armadillo: middle element, or mean of the two middle elements, of the sorted vector. -/
noncomputable def _root_.Verif.Model.armaMedian (l : List ℝ) : Res ℝ :=
  if l = [] then .error .bounds
  else
    let s := l.mergeSort (fun a b => decide (a ≤ b))
    let n := l.length
    .ok (if n % 2 = 1 then s.getD (n / 2) 0 else (s.getD (n / 2 - 1) 0 + s.getD (n / 2) 0) / 2)

/-- Constructor of `ZCARMA` (`src/include/carpack.hpp` lines 410-420). -/
noncomputable def newZcarma (p : ℕ) (srt : List ℝ → List ℕ) (time y yerr : List ℝ) : Res (CarP p) := do
  let s ← newCarp p srt time y yerr
  let dt ← diffs time
  let dmin ← armaMin dt
  let tmax ← armaMax time
  let tmin ← armaMin time
  let med ← armaMedian dt
  return { s with
    kind := .zcarma, kappaHigh := Dbl.div (.fin 1) (.fin dmin),
    kappaLow := Dbl.max (Dbl.div (.fin 1) (.fin (tmax - tmin))) (Dbl.div (.fin 1) (.fin (10 * med))) }

/-- Construct any kind of object. -/
noncomputable def new (kind : Kind) (p : ℕ) (srt : List ℝ → List ℕ) (time y yerr : List ℝ) : Res (CarP p) :=
  match kind with
  | .carp => newCarp p srt time y yerr
  | .zcar => newZcar p srt time y yerr
  | .carma q => newCarma p q srt time y yerr
  | .zcarma => newZcarma p srt time y yerr

/-- `SetKappaBounds` (`src/include/carpack.hpp` lines 438-441). -/
def setKappaBounds (s : CarP p) (lo hi : ℝ) : CarP p := { s with kappaLow := .fin lo, kappaHigh := .fin hi }

/-- `ZCARMA::ExtractMA` (`src/carpack.cpp` lines 687-698). -/
noncomputable def zcarmaMA (p : ℕ) (lo hi : Dbl) (θ : List ℝ) : Res (List ℝ) := do
  let x ← rd θ (3 + p)
  zMA p (((hi.sub lo).mul (.fin (invLogit x))).add lo)

/-- `ExtractMA`: overridden by `CARMA` and `ZCARMA`; `ZCAR` inherits the version of `CARp`, which reads
`CARp::ma_coefs_` (`src/include/carpack.hpp` lines 314, 389, 429). -/
noncomputable def extractMA (s : CarP p) (θ : List ℝ) : Res (List ℝ) :=
  match s.kind with
  | .carp => .ok s.maCoefs
  | .zcar => .ok s.maCoefs
  | .carma q => carmaMA p q θ
  | .zcarma => zcarmaMA p s.kappaLow s.kappaHigh θ

/-- `ExtractSigsqr` (`src/include/carpack.hpp` lines 316-319, 391-395, 431-435): `theta(0)^2 / Variance(roots, ma, 1)`. The
versions of `CARMA` and `ZCARMA` call `ExtractMA` again. -/
noncomputable def extractSigsqr (s : CarP p) (θ : List ℝ) : Res ℝ := do
  let roots ← arRoots p θ
  let ma ← s.extractMA θ
  let s0 ← rd θ 0
  let v ← variance (vecOf p roots) ma 1 0
  dv (s0 * s0) v

/-- Extraction and setters of lines 140-149 of `src/include/carpack.hpp`. -/
noncomputable def setParams (s : CarP p) (θ : List ℝ) : Res (KFp p × Bool) := do
  let roots ← arRoots p θ
  let ma ← s.extractMA θ
  match s.extractSigsqr θ with
  | .ok v =>
      let kf := { s.kf with b := s.kf.b.setSigsqr v }
      return ((kf.setOmega (vecOf p roots)).setMA ma, false)
  | .error .nonfinite =>
      let kf := { s.kf with b := s.kf.b.setSigsqr 0 }
      return ((kf.setOmega (vecOf p roots)).setMA ma, true)
  | .error f => .error f

/-- Lorentzian centroids and widths of the roots (`src/carpack.cpp` lines 322-323). -/
noncomputable def cents (roots : List ℂ) : List ℝ := roots.map fun r => |r.im| / 2 / Real.pi
@[inherit_doc cents]
noncomputable def widths (roots : List ℂ) : List ℝ := roots.map fun r => -r.re / 2 / Real.pi

/-- Some centroid exceeds its predecessor by more than 1e-8 (`src/carpack.cpp` lines 355-361). -/
noncomputable def unordered : List ℝ → Bool
  | a :: b :: l => decide (b - a > 1e-8) || unordered (b :: l)
  | _ => false

/-- `CARp::CheckPriorBounds` (`src/carpack.cpp` lines 314-374). -/
noncomputable def checkPrior (b : CarBase) (p : ℕ) (orderLor : Bool) (θ : List ℝ) : Res Bool := do
  if b.ignorePrior then return true
  let ysigma ← rd θ 0
  let scale ← rd θ 1
  let roots ← arRoots p θ
  let c := cents roots
  let w := widths roots
  let n1 := (c.filter fun x => (Dbl.fin x).lt b.maxFreq).length
  let n2 := (w.filter fun x => (Dbl.fin x).lt b.maxFreq).length
  let n3 := (w.filter fun x => (Dbl.fin x).gt b.minFreq).length
  let ok := uniqueRoots roots 1e-4
  let ok := if n1 ≠ c.length ∨ n2 ≠ w.length ∨ n3 ≠ w.length ∨ ysigma > b.maxStdev ∨ ysigma < 0 ∨ scale < 0.5 ∨ scale > 2
    then false else ok
  return if orderLor && unordered c then false else ok

/-- `LogPrior`: `ZCARMA` overrides it and adds the log-density of `logit` of a uniform variable
(`src/include/carpack.hpp` lines 118-126, 444-456). -/
noncomputable def logPrior (s : CarP p) (θ : List ℝ) : Res Dbl :=
  match s.kind with
  | .zcarma => do
      let l ← baseLogPrior θ
      let x ← rd θ (p + 3)
      return l.add (.fin (-x - 2 * Real.log (1 + Real.exp (-x))))
  | _ => baseLogPrior θ

end CarP

noncomputable instance {p : ℕ} : CarModel (CarP p) (KFp p) where
  base s := s.b
  setBase s b := { s with b := b }
  kf s := s.kf
  setKf s k := { s with kf := k }
  checkPrior s := CarP.checkPrior s.b p s.orderLor
  setParams s := s.setParams
  logPrior s := s.logPrior

end Verif.Model
