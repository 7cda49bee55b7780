import Verif.Spec.Gauss
import Mathlib.Probability.Distributions.Gaussian.Multivariate
import Mathlib.Probability.ProductMeasure

/-! The joint law of the process at several times, given noisy measurements (C81). -/

namespace Verif.Spec

open MeasureTheory ProbabilityTheory

variable {n m : ℕ}

/-- Conditional covariance of the error-free process at two times given all observations. -/
noncomputable def predCov (r : ℝ → ℝ) (t e : Fin n → ℝ) (x x' : ℝ) : ℝ :=
  r |x - x'| - (fun j => r |x - t j|) ⬝ᵥ ((obsCov r t e)⁻¹.mulVec fun j => r |x' - t j|)

/-- The Gaussian law with the conditional means and covariances of the process at the times `x`. -/
noncomputable def condLaw (r : ℝ → ℝ) (t e y : Fin n → ℝ) (x : Fin m → ℝ) : Measure (EuclideanSpace ℝ (Fin m)) :=
  multivariateGaussian (WithLp.toLp 2 fun i => predMean r t e y (x i)) (Matrix.of fun i j => predCov r t e (x i) (x j))

/-- Covariance matrix of the measurements (times `t`, errors `e`) together with the process itself at the times `x`. -/
def jointCov (r : ℝ → ℝ) (t e : Fin n → ℝ) (x : Fin m → ℝ) : Matrix (Fin n ⊕ Fin m) (Fin n ⊕ Fin m) ℝ :=
  Matrix.fromBlocks (obsCov r t e) (Matrix.of fun i j => r |t i - x j|) (Matrix.of fun i j => r |x i - t j|)
    (Matrix.of fun i j => r |x i - x j|)

/-- An endless sequence of independent standard normal draws. -/
noncomputable def normalDraws : Measure (ℕ → ℝ) := Measure.infinitePi fun _ => gaussianReal 0 1

/-- `S` (data, stream of normal draws) returns the values of the process at the times `x` drawn from their joint law given
the data: for every data the values are Gaussian with the conditional means and covariances, and if the data are
themselves a realization of the process with errors then data and values together have the law of the process. The
result type is left open: `ok` embeds a list of values into it. -/
def DrawsProcess {R : Type} (ok : List ℝ → R) (S : (Fin n → ℝ) → (ℕ → ℝ) → R) (r : ℝ → ℝ) (t e : Fin n → ℝ) (x : Fin m → ℝ) : Prop :=
  ∃ V : (Fin n → ℝ) → (ℕ → ℝ) → Fin m → ℝ, Measurable (fun q : (Fin n → ℝ) × (ℕ → ℝ) => V q.1 q.2) ∧
    (∀ y zs, S y zs = ok (List.ofFn (V y zs))) ∧
    (Matrix.of fun i j => predCov r t e (x i) (x j)).PosDef ∧
    (∀ y, normalDraws.map (fun zs => WithLp.toLp 2 (V y zs)) = condLaw r t e y x) ∧
    (jointCov r t e x).PosDef ∧
    ((multivariateGaussian (0 : EuclideanSpace ℝ (Fin n)) (obsCov r t e)).prod normalDraws).map
      (fun q => (WithLp.toLp 2 (Sum.elim q.1.ofLp (V q.1.ofLp q.2)) : EuclideanSpace ℝ (Fin n ⊕ Fin m)))
      = multivariateGaussian 0 (jointCov r t e x)

end Verif.Spec
