import Verif.Model.FStart
import Verif.Model.FCarmaRun

/-!
The parameters that `StartingValue` of `CARp`, `CARMA`, `ZCAR` and `ZCARMA` proposes in a pass (`src/carpack.cpp` lines 175-227, 268-311, 416-474, 515-519,
586-641, 681-684), with machine numbers. `Verif/Model/FCarmaRun.lean` takes them as given; here they are computed. What Armadillo computes from vectors and
what the Boost and Armadillo generators draw are parameters.
-/

namespace Verif.Model

open scoped Classical

/-- The numbers drawn by one pass: `lorentz_cent.randu()` and `lorentz_width.randu()`; what `RandGen.uniform(lo, hi)` returns for the bounds it is called with;
`ma_quad.randn()` of `CARMA::StartingMA`; the uniform draw of `ZCARMA::StartingKappa`; chi-squared with `y_.n_elem - 1` degrees of freedom, standard normal, and
chi-squared with `measerr_dof_ = 50` degrees of freedom. -/
structure PassDraws where
  cent : List Dbl
  width : List Dbl
  low : Dbl → Dbl → Dbl
  ma : List Dbl
  kappa : Dbl
  chi : Dbl
  norm : Dbl
  chi50 : Dbl

namespace FCarP
variable (A : Arith) {p : ℕ}

/-- `log(max_freq_ / min_freq) * u + log(min_freq)`, and its exponential, for every element of a vector (`src/carpack.cpp` lines 275-276, 283-285). -/
noncomputable def freqs (lr lm : Dbl) (u : List Dbl) : List Dbl := u.map fun x => A.exp (A.add (A.mul lr x) lm)

/-- The Lorentzian centroids and widths drawn by `StartingAR` (`src/carpack.cpp` lines 269-292). `arma::sort` rejects a vector with a NaN. The uniform
distribution of Boost requires bounds in order: the outcome is undefined behaviour for others. -/
noncomputable def lorentzDraws (s : FCarP p) (d : PassDraws) : Res (List Dbl × List Dbl) := do
  let tmax ← FCar1.vecMax s.time
  let tmin ← FCar1.vecMin s.time
  let minFreq := A.div (.fin 1) (A.sub tmax tmin)
  let lr := A.log (A.div s.maxFreq minFreq)
  let lm := A.log minFreq
  let cent := freqs A lr lm d.cent
  if .nan ∈ cent then .error .bounds
  let cent := cent.mergeSort (fun a b => decide ¬ a.lt b)
  let width := freqs A lr lm d.width
  if p % 2 = 1 then
    let cent ← wr cent (p / 2) (.fin 0)
    let i ← prevIdx (p / 2)
    let c ← rd cent i
    let hi := A.log c
    if hi.lt lm ∨ lm = .nan ∨ hi = .nan then .error .ub
    let width ← wr width (p / 2) (A.exp (d.low lm hi))
    return (cent, width)
  else
    return (cent, width)

/-- The quadratic terms of `StartingAR`, run `k` times (`src/carpack.cpp` lines 297-304). -/
noncomputable def logaTerms (cent width : List Dbl) : ℕ → Res (List Dbl)
  | 0 => .ok []
  | k + 1 => do
      let l ← logaTerms cent width k
      let w ← rd width k
      let c ← rd cent k
      let re := A.mul (A.mul (.fin (-2)) (A.rnd Real.pi)) w
      let im := A.mul (A.mul (.fin 2) (A.rnd Real.pi)) c
      let q1 := A.add (A.mul re re) (A.mul im im)
      let q2 := A.mul (.fin (-2)) re
      return l ++ [A.log q1, A.log q2]

/-- Conversion of Lorentzian centroids and widths to the logarithms of the coefficients of the quadratic factors (`src/carpack.cpp` lines 294-310). -/
noncomputable def logaFrom (p : ℕ) (cent width : List Dbl) : Res (List Dbl) := do
  let l ← logaTerms A cent width (p / 2)
  if p % 2 = 1 then
    let w ← rd width (p / 2)
    return l ++ [A.log (A.mul (A.mul (.fin (-2)) (A.rnd Real.pi)) w).neg]
  else
    return l

/-- `CARp::StartingAR` (`src/carpack.cpp` lines 268-311). -/
noncomputable def startAR (s : FCarP p) (d : PassDraws) : Res (List Dbl) := do
  let (cent, width) ← s.lorentzDraws A d
  logaFrom A p cent width

/-- `logit` (`src/carpack.cpp` line 704). -/
noncomputable def logit (x : Dbl) : Dbl := A.log (A.div x (A.sub (.fin 1) x))

/-- The parameters of the subclasses: nothing for `CARp` and `ZCAR`; `StartingMA` for `CARMA` (`src/carpack.cpp` lines 435, 515-519; the assignment to
`theta(span(p+3,end))` is out of bounds for `q_ = 0`); the logit of a uniform draw for `ZCARMA` (lines 602, 681-684). -/
noncomputable def startExtra (s : FCarP p) (d : PassDraws) : Res (List Dbl) :=
  match s.kind with
  | .carp => .ok []
  | .zcar => .ok []
  | .carma q => if q = 0 then .error .bounds else .ok (d.ma.map Dbl.abs)
  | .zcarma => .ok [logit A d.kappa]

/-- What a pass of `StartingValue` proposes: the vector `theta` and the variance `yvar` (`src/carpack.cpp` lines 182-207, 422-457, 592-625). `CARMA` leaves the pass
before the last draw if the driving variance is not finite; nothing of the vector is used then. The number of observations is taken to fit `int`. -/
noncomputable def drawPass (lib : StartLib) (s : FCarP p) (d : PassDraws) : Res (List Dbl × Dbl) := do
  let loga ← s.startAR A d
  let extra ← s.startExtra A d
  let yvar := FCar1.scaledInvChi A (s.y.length - 1) (lib.var s.y) d.chi
  let mu := A.add (A.mul d.norm (A.div (A.sqrt yvar) (A.rnd s.y.length))) (lib.mean s.y)
  let scale := FCar1.scaledInvChi A 50 (.fin 1) d.chi50
  let scale := Dbl.min scale (A.rnd 1.99)
  let scale := Dbl.max scale (A.rnd 0.51)
  return (A.sqrt yvar :: scale :: mu :: (loga ++ extra), yvar)

end FCarP

/-- The passes' proposals as a stream; the vector of a pass that does not get as far is empty. (The search of `Verif/Model/FCarmaRun.lean` is meant for streams
without such a pass.) -/
noncomputable def passRng (A : Arith) (lib : StartLib) {p : ℕ} (s : FCarP p) (ds : ℕ → PassDraws) (r : FRng) : FRng :=
  { r with
    prior := fun k => match s.drawPass A lib (ds k) with | .ok (θ, _) => θ | .error _ => []
    yvar := fun k => match s.drawPass A lib (ds k) with | .ok (_, v) => v | .error _ => .nan }

/-- `RunCarmaSampler` (`src/carmcmc.cpp` lines 79-177) as in `frunCarma`, with the proposals of the search computed from the draws `ds` of its passes. The object is
built once more to compute them. -/
noncomputable def frunCarmaFrom (C : CArith) (M : Mach) (lib : StartLib) (fuel : ℕ) (srt : List Dbl → List ℕ) (sampleSize burnin : ℕ) (time y yerr : List Dbl)
    (p q nwalkers : ℕ) (zcarma : Bool) (thin : ℕ) (init : List Dbl) (ds : ℕ → PassDraws) (r : FRng) : Res (FPar (FWalk C p fuel)) := do
  let obj ← FCarP.new C (runKind q zcarma) p srt time y yerr (FRun.maxStdev M.A y)
  frunCarma C M fuel srt sampleSize burnin time y yerr p q nwalkers zcarma thin init (passRng C.r lib obj ds r)

end Verif.Model
