import Verif.Spec.Units
import Verif.Spec.PostTarget

/-!
Specification: when two parameter vectors describe the same model, and the exchange of quadratic factors.
-/

namespace Verif.Spec

open Verif.Model

/-- Two parameter vectors describe the same model: same standard deviation, error scale and mean, same autoregressive polynomial, same
moving-average polynomial. -/
structure SameModel (p : ℕ) (kind : Kind) (θ θ' : List ℝ) : Prop where
  scale : ∀ i < 3, at0 θ' i = at0 θ i
  ar : factorPoly (at0 θ') 3 p = factorPoly (at0 θ) 3 p
  ma : match kind with
    | .carma q => factorPoly (at0 θ') (p + 3) q = factorPoly (at0 θ) (p + 3) q
    | .zcarma => at0 θ' (p + 3) = at0 θ (p + 3)
    | _ => True

/-- `theta` with the `i`-th of the `m / 2` quadratic factors stored from position `off` on replaced by the `π i`-th. -/
def permFactors (off m : ℕ) (π : Equiv.Perm (Fin (m / 2))) (θ : List ℝ) : List ℝ :=
  θ.mapIdx fun j x => if h : off ≤ j ∧ (j - off) / 2 < m / 2 then at0 θ (off + 2 * π ⟨(j - off) / 2, h.2⟩ + (j - off) % 2) else x

/-- Any two autoregressive roots are either the two roots of a complex conjugate pair or have centroids that differ by more than `tol`. -/
def Apart (tol : ℝ) (roots : List ℂ) : Prop :=
  roots.Pairwise fun a b => b = star a ∧ a.im ≠ 0 ∨ tol < |(|a.im| / (2 * Real.pi) - |b.im| / (2 * Real.pi))|

end Verif.Spec
