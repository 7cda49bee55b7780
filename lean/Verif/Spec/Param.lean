import Mathlib.Algebra.Polynomial.Basic
import Mathlib.Algebra.Polynomial.Eval.Defs
import Mathlib.Analysis.SpecialFunctions.Exp

/-!
Specification of the polynomial parametrisation: `m` numbers of `theta` starting at position `off` stand for the monic
polynomial of degree `m` that is the product of the quadratic factors `s² + exp(theta(off+2i+1)) s + exp(theta(off+2i))`
and, for odd `m`, of `s + exp(theta(off+m-1))`.
-/

namespace Verif.Spec

open Polynomial Finset

/-- One quadratic factor. -/
noncomputable def quadFactor (a b : ℝ) : ℝ[X] := X ^ 2 + C (Real.exp b) * X + C (Real.exp a)

/-- The product of the factors. -/
noncomputable def factorPoly (θ : ℕ → ℝ) (off m : ℕ) : ℝ[X] :=
  (∏ i ∈ range (m / 2), quadFactor (θ (off + 2 * i)) (θ (off + 2 * i + 1))) *
    if m % 2 = 1 then X + C (Real.exp (θ (off + m - 1))) else 1

/-- A list read as a function, 0 outside. -/
def at0 (θ : List ℝ) : ℕ → ℝ := fun i => θ.getD i 0

end Verif.Spec
