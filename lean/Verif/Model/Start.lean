import Verif.Model.Param

/-!
Model of the starting values (`src/carpack.cpp` lines 38-113, 175-311, 416-519, 586-684).

A quantity that is not finite inside these functions ends the model with `nonfinite`, except where the code itself goes on:
a non-finite driving variance, and Inf/NaN produced inside `Filter()`.
-/

namespace Verif.Model

open scoped Classical

/-- `log` of a number that must be positive for the result to be finite. -/
noncomputable def logR (x : ℝ) : Res ℝ := if 0 < x then .ok (Real.log x) else .error .nonfinite

/-- A double that must be finite for what follows to be finite. -/
def finR : Dbl → Res ℝ
  | .fin x => .ok x
  | _ => .error .nonfinite

/-- `RandGen.scaled_inverse_chisqr(dof, ssqr)` fed with the chi-squared draw `c` (`src/random.cpp` lines 180-186). -/
noncomputable def scaledInvChi2 (dof : ℕ) (ssqr c : ℝ) : Res ℝ := do
  let q ← dv ssqr c
  return q * dof

/-- Draw of the measurement error scale: prior draw, then cut off at 1.99 and 0.51
(`src/carpack.cpp` lines 63-65, 201-203, 451-453, 619-621). -/
noncomputable def startScale (r : Rng) : Res (ℝ × Rng) := do
  let (c, r) := r.nextC
  let m ← scaledInvChi2 50 1 c
  return (max (min m 1.99) 0.51, r)

/-- `sqrt` of a number that must not be negative for the result to be finite. -/
noncomputable def sqrtR (x : ℝ) : Res ℝ := if x < 0 then .error .nonfinite else .ok √x

section
variable {μ σ : Type} [Kalman σ] [CarModel μ σ]

/-- Hand scaled errors and centred values to the filter and run it, going on after Inf/NaN inside the filter; exceptions
escape (`src/carpack.cpp` lines 74-78, 106-110, 212-218, 258-262, 463-469, 505-509, 631-637, 671-675). -/
noncomputable def runFilter (b : CarBase) (kf : σ) (scale mu : ℝ) : Res σ := do
  let rs ← sqrtR scale
  let kf := Kalman.setBase kf
    (((Kalman.base kf).setTimeSeriesErr (b.yerr.map fun x => rs * x)).setTimeSeries (b.y.map fun x => x - mu))
  match Kalman.filter kf with
  | .ok kf => return kf
  | .error .nonfinite => return kf
  | .error f => .error f

end

/-! ### CAR(1) -/

/-- `CAR1::StartingValue` (`src/carpack.cpp` lines 38-81). `std::min(log_omega_start, max_freq_)` compares a logarithm with a
frequency, as the code does. -/
noncomputable def Car1.start (s : Car1) (r : Rng) : Res (Car1 × List ℝ × Rng) := do
  let (c, r) := r.nextC
  let v ← scaledInvChi2 (s.b.y.length - 1) (armaVar s.b.y) c
  let sd ← sqrtR v
  let (z, r) := r.nextN
  let mu := armaMean s.b.y + sd / s.b.y.length * z
  let dt ← diffs s.b.time
  let med ← armaMedian dt
  let (u, r) := r.nextU
  let l ← logR (med * (1 + (50 - 1) * u))
  let lo ← finR (Dbl.min (.fin (-1 * l)) s.b.maxFreq)
  let sigma := sd * √(2 * Real.exp lo)
  let (scale, r) ← startScale r
  let kf := { s.kf with omega := Real.exp lo, b := s.kf.b.setSigsqr (sigma * sigma) }
  let kf ← runFilter s.b kf scale mu
  return ({ s with kf := kf }, [sd, scale, mu, lo], r)

/-- `CAR1::SetStartingValue` (`src/carpack.cpp` lines 83-113). -/
noncomputable def Car1.setStart (s : Car1) (init : List ℝ) (r : Rng) : Res (Car1 × List ℝ × Rng) := do
  if init.length ≠ 4 then s.start r
  else
    let (s, lp) ← logDensity s init
    if ¬ lp.isFin then s.start r
    else
      let sd ← rdU init 0
      let scale ← rdU init 1
      let mu ← rdU init 2
      let lo ← rdU init 3
      let sigma := sd * √(2 * Real.exp lo)
      let kf := { s.kf with omega := Real.exp lo, b := s.kf.b.setSigsqr (sigma * sigma) }
      let kf ← runFilter s.b kf scale mu
      return ({ s with kf := kf }, init, r)

noncomputable instance : Target Car1 where
  ld := logDensity
  start _ := Car1.start
  setStart _ := Car1.setStart
  staleLd := staleDensity

/-! ### CARp and subclasses -/

namespace CarP
variable {p : ℕ}

/-- The quadratic terms of `StartingAR`, run `k` times (`src/carpack.cpp` lines 297-304). -/
noncomputable def logaLoop (cent width : List ℝ) : ℕ → Res (List ℝ)
  | 0 => .ok []
  | k + 1 => do
      let l ← logaLoop cent width k
      let w ← rd width k
      let c ← rd cent k
      let re := -2 * Real.pi * w
      let im := 2 * Real.pi * c
      let q1 ← logR (re * re + im * im)
      let q2 ← logR (-2 * re)
      return l ++ [q1, q2]

/-- Conversion of Lorentzian centroids and widths to the logarithms of the coefficients of the quadratic factors
(`src/carpack.cpp` lines 294-310). -/
noncomputable def logaOf (p : ℕ) (cent width : List ℝ) : Res (List ℝ) := do
  let l ← logaLoop cent width (p / 2)
  if p % 2 = 1 then
    let w ← rd width (p / 2)
    let x ← logR (-(-2 * Real.pi * w))
    return l ++ [x]
  else
    return l

/-- The Lorentzian parameters drawn by `StartingAR` (`src/carpack.cpp` lines 269-292). -/
noncomputable def lorentz (p : ℕ) (b : CarBase) (r : Rng) : Res (List ℝ × List ℝ × Rng) := do
  let tmax ← armaMax b.time
  let tmin ← armaMin b.time
  let minFreq ← dv 1 (tmax - tmin)
  let maxFreq ← finR b.maxFreq
  let ratio ← dv maxFreq minFreq
  let lr ← logR ratio
  let lm ← logR minFreq
  let (u, r) := r.vecU ((p + 1) / 2)
  let cent := (u.map fun x => Real.exp (lr * x + lm)).mergeSort (fun a b => decide (b ≤ a))
  let (u, r) := r.vecU ((p + 1) / 2)
  let width := u.map fun x => Real.exp (lr * x + lm)
  if p % 2 = 1 then
    let cent ← wr cent (p / 2) 0
    let i ← prevIdx (p / 2)
    let c ← rd cent i
    let lc ← logR c
    let (u, r) := r.nextU
    let width ← wr width (p / 2) (Real.exp (lm + (lc - lm) * u))
    return (cent, width, r)
  else
    return (cent, width, r)

/-- `CARp::StartingAR` (`src/carpack.cpp` lines 268-311). -/
noncomputable def startAR (p : ℕ) (b : CarBase) (r : Rng) : Res (List ℝ × Rng) := do
  let (cent, width, r) ← lorentz p b r
  let l ← logaOf p cent width
  return (l, r)

/-- The extra parameters drawn by the subclasses: nothing for `CARp` and `ZCAR`, `StartingMA` for `CARMA`
(`src/carpack.cpp` lines 515-519; the assignment to `theta(span(p+3,end))` at line 435 is out of bounds for `q_ = 0`), logit of
a uniform draw for `ZCARMA` (lines 602, 681-684). `none` stands for the draw 0, whose logit is -inf: the log-density is then NaN
and the pass is repeated (that its `Filter()` call might throw before is not modelled). -/
noncomputable def startExtra (kind : Kind) (r : Rng) : Res (Option (List ℝ) × Rng) :=
  match kind with
  | .carp => .ok (some [], r)
  | .zcar => .ok (some [], r)
  | .carma q =>
      if q = 0 then .error .bounds
      else
        let (z, r) := r.vecN q
        .ok (some (z.map fun x => |x|), r)
  | .zcarma =>
      let (u, r) := r.nextU
      if u ≤ 0 then .ok (none, r) else .ok (some [logit u], r)

/-- Whether the class skips the rest of the pass when the driving variance is not finite (`src/carpack.cpp` lines 444-447: only
`CARMA` does). -/
def skipsBad : Kind → Bool
  | .carma _ => true
  | _ => false

/-- The filter of the object given the parameters (`src/carpack.cpp` lines 210-211, 460-462, 628-630): `CARp` and `ZCAR` do not
call `SetMA`. A non-finite variance is stored as 0, as in `setParams`. -/
noncomputable def startKf (s : CarP p) (roots : List ℂ) (ma : List ℝ) (sigsqr : ℝ) : KFp p :=
  let kf := KFp.setOmega { s.kf with b := s.kf.b.setSigsqr sigsqr } (vecOf p roots)
  match s.kind with
  | .carp => kf
  | .zcar => kf
  | _ => kf.setMA ma

/-- Rest of one pass once the driving variance is known: draw the measurement error scale, set and run the filter, evaluate the
log-density (`src/carpack.cpp` lines 199-221, 448-473, 616-640). -/
noncomputable def startTail (s : CarP p) (loga extra : List ℝ) (ma : List ℝ) (sd mu sigsqr : ℝ) (r : Rng) :
    Res (CarP p × List ℝ × Dbl × Rng) := do
  let (scale, r) ← startScale r
  let θ := sd :: scale :: mu :: (loga ++ extra)
  let roots ← arRoots p θ
  let kf ← runFilter s.b (s.startKf roots ma sigsqr) scale mu
  let (s, lp) ← logDensity { s with kf := kf } θ
  return (s, θ, lp, r)

/-- One pass of the loop of `StartingValue` (`src/carpack.cpp` lines 182-227, 422-474, 592-641). The result carries the value of
`theta` and whether its log-density is finite. While the extra parameters and the variance are computed the first three
elements of `theta` still hold the values of the previous pass (or are uninitialised); they are not read, and are written as 0
here. -/
noncomputable def startPass (s : CarP p) (r : Rng) : Res (CarP p × List ℝ × Dbl × Rng) := do
  let (loga, r) ← startAR p s.b r
  let (extra, r) ← startExtra s.kind r
  match extra with
  | none => return (s, [], .nan, r)
  | some extra =>
    let θ0 := 0 :: 0 :: 0 :: (loga ++ extra)
    let ma ← s.extractMA θ0
    let (c, r) := r.nextC
    let yvar ← scaledInvChi2 (s.b.y.length - 1) (armaVar s.b.y) c
    let sd ← sqrtR yvar
    let (z, r) := r.nextN
    let mu := armaMean s.b.y + sd / s.b.y.length * z
    let roots ← arRoots p θ0
    let sig : Res ℝ := (do
      let v ← variance (vecOf p roots) ma 1 0
      dv yvar v)
    match sig with
    | .ok sigsqr => s.startTail loga extra ma sd mu sigsqr r
    | .error .nonfinite =>
        if skipsBad s.kind then return (s, [], .nan, r)
        else s.startTail loga extra ma sd mu 0 r
    | .error f => .error f

/-- The loop of `StartingValue`: passes until the log-density is finite. The C++ loop has no bound; the model gives up with
`timeout` after `fuel` passes. -/
noncomputable def start : ℕ → CarP p → Rng → Res (CarP p × List ℝ × Rng)
  | 0, _, _ => .error .timeout
  | fuel + 1, s, r => do
      let (s, θ, lp, r) ← s.startPass r
      if lp.isFin then return (s, θ, r) else start fuel s r

/-- Length of `theta` expected by `SetStartingValue` (`src/carpack.cpp` lines 236, 481, 648). -/
def thetaLen (p : ℕ) : Kind → ℕ
  | .carp => p + 3
  | .zcar => p + 3
  | .carma q => p + q + 3
  | .zcarma => p + 4

/-- `SetStartingValue` (`src/carpack.cpp` lines 233-265, 479-512, 646-678). -/
noncomputable def setStart (fuel : ℕ) (s : CarP p) (init : List ℝ) (r : Rng) : Res (CarP p × List ℝ × Rng) := do
  if init.length ≠ thetaLen p s.kind then start fuel s r
  else
    let (s, lp) ← logDensity s init
    if ¬ lp.isFin then start fuel s r
    else
      let scale ← rd init 1
      let mu ← rd init 2
      let s0 ← rd init 0
      let roots ← arRoots p init
      let ma ← s.extractMA init
      let sig : Res ℝ := (do
        let v ← variance (vecOf p roots) ma 1 0
        dv (s0 * s0) v)
      let sigsqr ← (match sig with
        | .ok x => .ok x
        | .error .nonfinite => .ok 0
        | .error f => .error f : Res ℝ)
      let kf ← runFilter s.b (s.startKf roots ma sigsqr) scale mu
      return ({ s with kf := kf }, init, r)

end CarP

noncomputable instance {p : ℕ} : Target (CarP p) where
  ld := logDensity
  start := CarP.start
  setStart := CarP.setStart
  staleLd := staleDensity

end Verif.Model
