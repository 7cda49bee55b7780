import Verif.Model.FSamp

/-!
`CAR1::StartingValue` (`src/carpack.cpp` lines 38-81) with machine numbers. `Verif/Model/FSamp.lean` takes the four numbers it returns as
given; here they are computed. What Armadillo computes from vectors and what the Boost distributions draw are parameters.
-/

namespace Verif.Model

open scoped Classical

/-- `arma::var`, `arma::mean`, `arma::median`. -/
structure StartLib where
  var : List Dbl → Dbl
  mean : List Dbl → Dbl
  median : List Dbl → Dbl

/-- The numbers drawn by one call of `StartingValue`: chi-squared with `y_.n_elem - 1` degrees of freedom, standard normal (which Boost multiplies by
the standard deviation and then adds to the mean), uniform between 1 and 50, and chi-squared with `measerr_dof_ = 50` degrees of freedom. -/
structure StartDraws where
  chi : Dbl
  norm : Dbl
  unif : Dbl
  chi50 : Dbl

namespace FCar1
variable (A : Arith)

/-- `RandGen.scaled_inverse_chisqr(dof, ssqr)` fed with the chi-squared draw `c` (`src/random.cpp` lines 180-186). -/
noncomputable def scaledInvChi (dof : ℕ) (ssqr c : Dbl) : Dbl := A.mul (A.div ssqr c) (A.rnd dof)

/-- The vector `theta` of `CAR1::StartingValue` (`src/carpack.cpp` lines 40-69). The decimal constants are rounded by the compiler. The number of
observations is converted to `int` for the degrees of freedom; it is taken to fit. -/
noncomputable def drawStart (lib : StartLib) (s : FCar1) (d : StartDraws) : Res (List Dbl) := do
  let sd := A.sqrt (scaledInvChi A (s.y.length - 1) (lib.var s.y) d.chi)
  let mu := A.add (A.mul d.norm (A.div sd (A.rnd s.y.length))) (lib.mean s.y)
  let dt ← FKF1.diffs A s.time
  let lo := A.mul (.fin (-1)) (A.log (A.mul (lib.median dt) d.unif))
  let lo := Dbl.min lo s.maxFreq
  let scale := scaledInvChi A 50 (.fin 1) d.chi50
  let scale := Dbl.min scale (A.rnd 1.99)
  let scale := Dbl.max scale (A.rnd 0.51)
  return [sd, scale, mu, lo]

/-- `CAR1::StartingValue` (`src/carpack.cpp` lines 38-81). -/
noncomputable def startingValue (lib : StartLib) (s : FCar1) (d : StartDraws) : Res (FCar1 × List Dbl) := do
  let θ ← s.drawStart A lib d
  let s ← s.startFilter A θ
  return (s, θ)

end FCar1

/-- `RunCar1Sampler` (`src/carmcmc.cpp` lines 30-77) as in `frunCar1`, with the starting value computed from the draws `d` (of which nothing is used if
the user's starting values are taken). The object is built once more to compute it. -/
noncomputable def frunCar1From (M : Mach) (lib : StartLib) (srt : List Dbl → List ℕ) (sampleSize burnin : ℕ) (time y yerr : List Dbl) (thin : ℕ)
    (init : List Dbl) (d : StartDraws) (r : FRng) : Res (FPar FCar1) := do
  let obj ← FCar1.new M.A srt time y yerr (FRun.maxStdev M.A y)
  let θ ← obj.drawStart M.A lib d
  frunCar1 M srt sampleSize burnin time y yerr thin init { r with prior := fun _ => θ }

end Verif.Model
