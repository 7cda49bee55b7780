import Verif.Spec.Labels

/-!
Specification: the conditions under which the posterior of CARp, ZCAR and CARMA tells models apart.
-/

namespace Verif.Spec

open Verif.Model Polynomial

/-- No root of the polynomial oscillates as fast as the Nyquist frequency of the spacing `Δ`. -/
def BelowNyquist (Δ : ℝ) (P : ℝ[X]) : Prop := ∀ z : ℂ, aeval z P = 0 → |z.im| * Δ < Real.pi

/-- The moving-average polynomial up to a constant factor. -/
noncomputable def movingPoly (p : ℕ) (kind : Kind) (θ : List ℝ) : ℝ[X] :=
  match kind with
  | .carma q => factorPoly (at0 θ) (p + 3) q
  | _ => 1

/-- Among the differences of the times are `Δ, 2Δ, …, mΔ`. -/
def HasLags {n : ℕ} (t : Fin n → ℝ) (Δ : ℝ) (m : ℕ) : Prop := ∀ j : ℕ, 1 ≤ j → j ≤ m → ∃ i i', t i' - t i = j * Δ

/-- Parameters of CARMA(2,1) with autoregressive roots `-a` and `-r` and moving-average root `-r`. -/
noncomputable def cancelling (σ s μ a r : ℝ) : List ℝ := [σ, s, μ, Real.log (a * r), Real.log (a + r), Real.log r]

end Verif.Spec
