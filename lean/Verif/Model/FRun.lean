import Verif.Model.Float

/-!
The first lines of the run functions with machine numbers: the variance of the values, the bound of the prior on the standard deviation,
and the Cholesky factor of the first proposal covariance.
-/

namespace Verif.Model.FRun

open scoped Classical

variable (A : Arith)

/-- `std::accumulate(y.begin(), y.end(), 0.0)` (`src/carmcmc.cpp` lines 35, 85). -/
noncomputable def sum (y : List Dbl) : Dbl := y.foldl (fun acc x => A.add acc x) (.fin 0)

/-- `std::inner_product(y.begin(), y.end(), y.begin(), 0.0)` (`src/carmcmc.cpp` lines 37, 87). -/
noncomputable def sqSum (y : List Dbl) : Dbl := y.foldl (fun acc x => A.add acc (A.mul x x)) (.fin 0)

/-- `mean` and `var` (`src/carmcmc.cpp` lines 36-38, 86-88). `y.size()` is converted to `double`. -/
noncomputable def mean (y : List Dbl) : Dbl := A.div (sum A y) (A.rnd y.length)
@[inherit_doc mean]
noncomputable def var (y : List Dbl) : Dbl := A.sub (A.div (sqSum A y) (A.rnd y.length)) (A.mul (mean A y) (mean A y))

/-- `10.0 * std::sqrt(var)` (`src/carmcmc.cpp` lines 40, 89). -/
noncomputable def maxStdev (y : List Dbl) : Dbl := A.mul (.fin 10) (A.sqrt (var A y))

/-- Diagonal of the first proposal covariance with `d` parameters (`src/carmcmc.cpp` lines 50-54, 132-136). -/
noncomputable def covar (d : ℕ) (y : List Dbl) : List Dbl :=
  (List.range d).map fun i =>
    if i = 0 then A.div (A.mul (A.mul (.fin 2) (var A y)) (var A y)) (A.rnd y.length)
    else if i = 2 then A.div (var A y) (A.rnd y.length)
    else A.mul (A.mul (.fin 1) (A.rnd 0.01)) (A.rnd 0.01)

/-- `arma::chol` of a diagonal matrix (`src/steps.cpp` line 32): LAPACK rejects a diagonal element that is not greater than zero (also NaN), and
Armadillo then throws `std::runtime_error`; otherwise the factor has the square roots on its diagonal. -/
noncomputable def chol (l : List Dbl) : Res (List Dbl) :=
  if ∃ a ∈ l, ¬ (Dbl.fin 0).lt a then .error .runtime else .ok (l.map A.sqrt)

/-- What `RunCar1Sampler` (`d = 4`) and `RunCarmaSampler` (`d = nparams`) compute from the values before the first iteration
(`src/carmcmc.cpp` lines 35-69, 85-157 and `src/steps.cpp` lines 24-33): the bound handed to `SetPrior` and the diagonal of the factor in the
first `AdaptiveMetro`. Only this part is repeated here; the rest of the run functions is in `Verif/Model/Sampler.lean`, over the reals. -/
noncomputable def setup (d : ℕ) (y : List Dbl) : Res (Dbl × List Dbl) := do
  let l ← chol A (covar A d y)
  return (maxStdev A y, l)

end Verif.Model.FRun
