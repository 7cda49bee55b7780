import Verif.Spec.Post
import Verif.Spec.Prior

/-!
Specification of a change of units and origin of the data and of the corresponding change of the parameters.
-/

namespace Verif.Spec

open Verif.Model

/-- The data `t', y', e'` are the data `t, y, e` with times `c t + a`, values `k y + m` and errors `k e`, in the order of increasing new
time (`c` and `k` may be negative). -/
structure Rescaled {n : ℕ} (c a k m : ℝ) (t y e t' y' e' : Fin n → ℝ) (σ : Equiv.Perm (Fin n)) : Prop where
  time : ∀ i, t' i = c * t (σ i) + a
  val : ∀ i, y' i = k * y (σ i) + m
  err : ∀ i, |e' i| = |k| * |e (σ i)|

/-- Powers of inverse time of the `j`-th of the `m` numbers that stand for a polynomial of degree `m`: 2 for the constant coefficient
of a quadratic factor, 1 for its linear coefficient and for the constant of a linear factor. -/
def factorDim (m j : ℕ) : ℕ := if j + 1 < m ∧ j % 2 = 0 then 2 else 1

/-- Powers of inverse time of the exponential of parameter `i`. -/
def timeDim (p : ℕ) (kind : Kind) (i : ℕ) : ℕ :=
  if i < 3 then 0 else if i < p + 3 then factorDim p (i - 3)
  else match kind with
    | .carma q => if i < p + q + 3 then factorDim q (i - (p + 3)) else 0
    | _ => 0

/-- The parameters in the new units: standard deviation, mean, and the logarithms of the coefficients. -/
noncomputable def inUnits (p : ℕ) (kind : Kind) (c k m : ℝ) (θ : List ℝ) : List ℝ :=
  θ.mapIdx fun i x => if i = 0 then |k| * x else if i = 2 then k * x + m else x - timeDim p kind i * Real.log |c|

/-- Each centroid exceeds its predecessor by at most `tol`. -/
def CentOrder (tol : ℝ) (roots : List ℂ) : Prop :=
  ∀ i a b, roots[i]? = some a → roots[i+1]? = some b → |b.im| / (2 * Real.pi) ≤ |a.im| / (2 * Real.pi) + tol

/-- The prior bounds without the condition on the order of the centroids. -/
structure LooseBounds (sd fmax fmin : ℝ) (roots : List ℂ) (θ : List ℝ) : Prop extends ScaleBounds sd θ where
  cent : ∀ r ∈ roots, |r.im| / (2 * Real.pi) < fmax
  width : ∀ r ∈ roots, fmin < -r.re / (2 * Real.pi) ∧ -r.re / (2 * Real.pi) < fmax
  sep : roots.Pairwise fun a b => a + b = 0 ∨ 1e-4 < ‖a - b‖ / ‖a + b‖

end Verif.Spec
