import Verif.Spec.Stationary
import Verif.Spec.Prior
import Verif.Spec.Gauss
import Verif.Spec.Carma
import Verif.Spec.Post

/-!
The posterior densities of the CAR(1) and CARMA(p,q) models as functions of the parameter vector.
-/

namespace Verif.Spec

open Verif.Model
open scoped Classical

variable {n : ℕ}

/-- Logarithm of the posterior density of the CAR(1) model; density 0 outside the prior bounds, and where an error-free observation meets
a process of variance 0. -/
noncomputable def car1Target (t y e : Fin n → ℝ) (sd fmax fmin : ℝ) : LogTarget 4 := fun x =>
  if Car1Bounds sd fmax fmin (List.ofFn x) ∧ (x 0 ≠ 0 ∨ ∀ i, e i ≠ 0) then
    some (logGauss (obsCov (fun d => x 0 ^ 2 * Real.exp (-Real.exp (x 3) * d)) t fun i => √(x 1) * e i) (fun i => y i - x 2) +
      logPriorSpec (List.ofFn x))
  else none

/-- The `k`-th autoregressive root: `exp(theta(3+2j))` and `exp(theta(3+2j+1))` are the coefficients of the `j`-th quadratic factor, whose
two roots are numbers `2j` and `2j+1`; for odd `p` the last root is real. -/
noncomputable def arRootSpec (p : ℕ) (θ : ℕ → ℝ) (k : ℕ) : ℂ :=
  if k < 2 * (p / 2) then
    let a := Real.exp (θ (3 + 2 * (k / 2)))
    let b := Real.exp (θ (3 + 2 * (k / 2) + 1))
    let s : ℝ := if k % 2 = 0 then 1 else -1
    if 0 < b ^ 2 - 4 * a then ⟨-(b + s * √(b ^ 2 - 4 * a)) / 2, 0⟩ else ⟨-b / 2, -s * √(4 * a - b ^ 2) / 2⟩
  else ((-Real.exp (θ (3 + p - 1)) : ℝ) : ℂ)

/-- Impulse response of the process with autoregressive roots `ω` and moving-average polynomial `β`. -/
noncomputable def response {p : ℕ} (ω : Fin p → ℂ) (β : ℂ → ℂ) (s : ℝ) : ℂ :=
  ∑ k, β (ω k) / arDeriv ω k * Complex.exp (ω k * s)

/-- Its autocovariance for driving noise of intensity 1. -/
noncomputable def responseAcf {p : ℕ} (ω : Fin p → ℂ) (β : ℂ → ℂ) (d : ℝ) : ℝ :=
  ∫ s in Set.Ioi (0:ℝ), (response ω β s * response ω β (s + d)).re

/-- Logarithm of the posterior density of the CARMA model of a kind; `lo`, `hi` are used for ZCARMA only. -/
noncomputable def carmaTarget {m : ℕ} (kind : Kind) (p : ℕ) (t y e : Fin n → ℝ) (sd fmax fmin lo hi : ℝ) : LogTarget m := fun x =>
  let θ := List.ofFn x
  let ω : Fin p → ℂ := fun k => arRootSpec p (at0 θ) k
  let β := maPolySpec kind p lo hi θ
  if CarpBounds sd fmax fmin (List.ofFn ω) θ ∧ (at0 θ 0 ≠ 0 ∨ ∀ i, e i ≠ 0) then
    some (logGauss (obsCov (fun d => at0 θ 0 ^ 2 * (responseAcf ω β d / responseAcf ω β 0)) t fun i => √(at0 θ 1) * e i)
      (fun i => y i - at0 θ 2) + (logPriorSpec θ + logitPrior kind p θ))
  else none

end Verif.Spec
