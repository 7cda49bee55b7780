import Verif.Spec.Param
import Verif.Model.CarPack

/-! Specification of the moving-average polynomial and log-prior of each kind of model, as functions of `theta`. The only thing
taken from the model is the enumeration `Kind` of the classes. -/

namespace Verif.Spec

open Verif.Model Polynomial

/-- Log-density (up to a constant) of the scaled inverse chi-square prior with 50 degrees of freedom of the error scale. -/
noncomputable def logPriorSpec (θ : List ℝ) : ℝ := -25 / at0 θ 1 - 26 * Real.log (at0 θ 1)

/-- What the log-prior of a model kind adds: for ZCARMA the log-density of the logit of a uniform variable. -/
noncomputable def logitPrior (kind : Kind) (p : ℕ) (θ : List ℝ) : ℝ :=
  match kind with
  | .zcarma => -at0 θ (p + 3) - 2 * Real.log (1 + Real.exp (-at0 θ (p + 3)))
  | _ => 0

/-- Moving-average polynomial of a model kind at `z`; `lo`, `hi` are the bounds of `kappa` (ZCARMA). For ZCAR this is not
the documented polynomial: see C20. -/
noncomputable def maPolySpec (kind : Kind) (p : ℕ) (lo hi : ℝ) (θ : List ℝ) (z : ℂ) : ℂ :=
  match kind with
  | .carp => 1
  | .zcar => 1
  | .carma q => ((factorPoly (at0 θ) (p + 3) q).map Complex.ofRealHom).eval z /
      (((factorPoly (at0 θ) (p + 3) q).eval 0 : ℝ) : ℂ)
  | .zcarma => (1 + z / ((lo + (hi - lo) / (1 + Real.exp (-at0 θ (p + 3))) : ℝ) : ℂ)) ^ (p - 1)

/-- Number of parameters of a model kind. -/
def npar (p : ℕ) : Kind → ℕ
  | .carp => p + 3
  | .zcar => p + 3
  | .carma q => p + q + 3
  | .zcarma => p + 4

/-- `q < p` for CARMA; no condition for the other kinds. -/
def OrderOk (p : ℕ) : Kind → Prop
  | .carma q => q < p
  | _ => True

end Verif.Spec
