import Verif.Spec.Gauss

/-!
Specification of standardized residuals and of the sample autocorrelation function, independent of the modelled code.
-/

namespace Verif.Spec

open Matrix

/-- `W` turns a vector with covariance `K` into white noise of unit variance, using for each entry the present and past entries only,
and keeping the sign of the present one. There is exactly one such matrix when `K` is positive definite: the inverse of the Cholesky factor. -/
structure Whitens {n : ℕ} (K W : Matrix (Fin n) (Fin n) ℝ) : Prop where
  causal : ∀ i j, i < j → W i j = 0
  pos : ∀ i, 0 < W i i
  white : W * K * Wᵀ = 1

/-- Sample autocorrelation at lag `k` of a series taken to have mean zero. -/
noncomputable def sampleAcf {n : ℕ} (x : Fin n → ℝ) (k : ℕ) : ℝ :=
  (∑ i : Fin n, ∑ j : Fin n, if (j : ℕ) = i + k then x i * x j else 0) / ∑ i, x i ^ 2

end Verif.Spec
