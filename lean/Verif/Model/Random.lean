import Verif.Model.Proposals
import Verif.Model.Start

/-!
Model of the generators of `RandomGenerator` (`src/random.cpp`, `src/include/random.hpp`). A call sets the parameters of one Boost distribution
object, draws one number from it and transforms the number. The model keeps these three parts apart: the distribution object with its
parameters, and the transformation. What a Boost distribution object draws is not part of the code; its law is stated in
`Verif/Spec/Laws.lean`. Saving and recovering the seed is in `Verif/Model/Prompt.lean`. `uniform_integer`
(`src/include/random.hpp` line 60) is declared but has no definition;
`mtdist`, `beta` and `weibull` (`src/random.cpp` lines 214-230) are stubs that draw nothing. `uniform(int, int)` (lines 129-134) only passes its
arguments on.
-/

namespace Verif.Model

/-- The Boost distribution objects (`src/include/random.hpp` lines 67-74) with the parameters given to `param`. -/
inductive Lib where
  /-- rate -/
  | exponential (l : ℝ)
  /-- mean and standard deviation -/
  | normal (m s : ℝ)
  /-- mean and standard deviation of the logarithm -/
  | lognormal (m s : ℝ)
  /-- bounds -/
  | uniform (a b : ℝ)
  /-- degrees of freedom -/
  | studentT (n : ℝ)
  /-- degrees of freedom -/
  | chiSquared (n : ℝ)
  /-- shape and scale -/
  | gamma (a b : ℝ)

/-- A generator that makes one draw: the distribution it draws from and what it returns for the drawn number. -/
structure Gen where
  lib : Lib
  out : ℝ → Res ℝ

namespace Gen

/-- `exp(lambda)` (`src/random.cpp` lines 62-71). -/
def exp (lambda : ℝ) : Gen := ⟨.exponential lambda, fun z => .ok z⟩

/-- `normal(mu, sigma)` (`src/random.cpp` lines 76-81). -/
def normal (mu sigma : ℝ) : Gen := ⟨.normal mu sigma, fun z => .ok z⟩

/-- `lognormal(logmean, frac_sigma)` (`src/random.cpp` lines 113-118). -/
def lognormal (logmean fracSigma : ℝ) : Gen := ⟨.lognormal logmean fracSigma, fun z => .ok z⟩

/-- `uniform(lowbound, upbound)` (`src/random.cpp` lines 121-126). -/
def uniform (lowbound upbound : ℝ) : Gen := ⟨.uniform lowbound upbound, fun z => .ok z⟩

/-- `powerlaw(lower, upper, slope)` (`src/random.cpp` lines 141-151). -/
noncomputable def powerlaw (lower upper slope : ℝ) : Gen := ⟨(uniform 0 1).lib, Model.powerlaw lower upper slope⟩

/-- `tdist(dof, mean, scale)` (`src/random.cpp` lines 158-164). -/
noncomputable def tdist (dof mean scale : ℝ) : Gen := ⟨.studentT dof, fun z => .ok (mean + scale * z)⟩

/-- `chisqr(dof)` (`src/random.cpp` lines 168-173). -/
def chisqr (dof : ℕ) : Gen := ⟨.chiSquared dof, fun z => .ok z⟩

/-- `scaled_inverse_chisqr(dof, ssqr)` (`src/random.cpp` lines 180-186). -/
noncomputable def scaledInverseChisqr (dof : ℕ) (ssqr : ℝ) : Gen := ⟨.chiSquared dof, scaledInvChi2 dof ssqr⟩

/-- `gamma(alpha, beta)` (`src/random.cpp` lines 193-198). -/
def gamma (alpha beta : ℝ) : Gen := ⟨.gamma alpha beta, fun z => .ok z⟩

/-- `invgamma(alpha, beta)` (`src/random.cpp` lines 205-210); division by a zero `beta` is in the hypotheses of the theorems. -/
noncomputable def invgamma (alpha beta : ℝ) : Gen := ⟨.gamma alpha (1 / beta), fun z => dv 1 z⟩

end Gen

/-- `normal(covar)` (`src/random.cpp` lines 88-105) for the standard normal draws `z`; `chol` stands for `arma::chol`. -/
noncomputable def normalVec {d : ℕ} (chol : Matrix (Fin d) (Fin d) ℝ → Res (Matrix (Fin d) (Fin d) ℝ))
    (covar : Matrix (Fin d) (Fin d) ℝ) (z : Fin d → ℝ) : Res (Fin d → ℝ) := do
  let R ← chol covar
  return R.transpose.mulVec z

end Verif.Model
