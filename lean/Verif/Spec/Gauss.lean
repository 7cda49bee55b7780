import Mathlib.LinearAlgebra.Matrix.NonsingularInverse
import Mathlib.Data.Real.Basic
import Mathlib.Data.Real.Star
import Mathlib.Analysis.SpecialFunctions.Log.Basic
import Mathlib.Analysis.SpecialFunctions.Exp
import Mathlib.Analysis.SpecialFunctions.Pow.Real

/-!
Specification of Gaussian time series, independent of the modelled code.

A zero-mean stationary process with autocovariance function `r` is observed at times `t i` with independent
measurement errors of standard deviation `e i`.
-/

namespace Verif.Spec

open Matrix

/-- Covariance matrix of the observations. -/
def obsCov {n : ℕ} (r : ℝ → ℝ) (t e : Fin n → ℝ) : Matrix (Fin n) (Fin n) ℝ :=
  Matrix.of fun i j => r |t i - t j| + if i = j then e i ^ 2 else 0

/-- Conditional mean, given observations `y` with covariance `K`, of a jointly Gaussian zero-mean variable whose
covariance with observation `j` is `k j`. -/
noncomputable def condMean {n : ℕ} (K : Matrix (Fin n) (Fin n) ℝ) (k y : Fin n → ℝ) : ℝ := k ⬝ᵥ (K⁻¹ *ᵥ y)

/-- Conditional variance of such a variable, whose own variance is `k0`. -/
noncomputable def condVar {n : ℕ} (K : Matrix (Fin n) (Fin n) ℝ) (k : Fin n → ℝ) (k0 : ℝ) : ℝ :=
  k0 - k ⬝ᵥ (K⁻¹ *ᵥ k)

/-- Conditional mean of observation `i` given the earlier observations. -/
noncomputable def stepMean {n : ℕ} (r : ℝ → ℝ) (t e y : Fin n → ℝ) (i : Fin n) : ℝ :=
  let c : Fin i → Fin n := Fin.castLE i.2.le
  condMean (obsCov r (t ∘ c) (e ∘ c)) (fun j => r |t i - t (c j)|) (y ∘ c)

/-- Conditional variance of observation `i` (including its own measurement error) given the earlier ones. -/
noncomputable def stepVar {n : ℕ} (r : ℝ → ℝ) (t e : Fin n → ℝ) (i : Fin n) : ℝ :=
  let c : Fin i → Fin n := Fin.castLE i.2.le
  condVar (obsCov r (t ∘ c) (e ∘ c)) (fun j => r |t i - t (c j)|) (r 0 + e i ^ 2)

/-- Conditional mean of the error-free process at time `x` given all observations. -/
noncomputable def predMean {n : ℕ} (r : ℝ → ℝ) (t e y : Fin n → ℝ) (x : ℝ) : ℝ :=
  condMean (obsCov r t e) (fun j => r |x - t j|) y

/-- Conditional variance of the error-free process at time `x` given all observations. -/
noncomputable def predVar {n : ℕ} (r : ℝ → ℝ) (t e : Fin n → ℝ) (x : ℝ) : ℝ :=
  condVar (obsCov r t e) (fun j => r |x - t j|) (r 0)

/-- An observation: time, value, error standard deviation. -/
structure Obs where
  time : ℝ
  val : ℝ
  err : ℝ

/-- `predMean` for a list of observations. -/
noncomputable def predMeanL (r : ℝ → ℝ) (obs : List Obs) (x : ℝ) : ℝ :=
  predMean r (fun i : Fin obs.length => (obs.get i).time) (fun i => (obs.get i).err) (fun i => (obs.get i).val) x

/-- `predVar` for a list of observations. -/
noncomputable def predVarL (r : ℝ → ℝ) (obs : List Obs) (x : ℝ) : ℝ :=
  predVar r (fun i : Fin obs.length => (obs.get i).time) (fun i => (obs.get i).err) x

/-- Sequential simulation: the value at each requested time is (conditional mean) + (conditional standard deviation)
times the next standard normal draw, conditionally on the observations and on the values drawn so far, which count as
error-free observations. -/
noncomputable def simSpec (r : ℝ → ℝ) : List Obs → List ℝ → (ℕ → ℝ) → List ℝ
  | _, [], _ => []
  | obs, t :: ts, z =>
    let x := predMeanL r obs t + Real.sqrt (predVarL r obs t) * z 0
    x :: simSpec r (obs ++ [⟨t, x, 0⟩]) ts (fun k => z (k + 1))

/-- Logarithm of the density at `y` of the zero-mean Gaussian law with covariance `K`, without the constant
`-n/2 log(2π)`. -/
noncomputable def logGauss {n : ℕ} (K : Matrix (Fin n) (Fin n) ℝ) (y : Fin n → ℝ) : ℝ :=
  -(1 / 2) * Real.log K.det - (1 / 2) * (y ⬝ᵥ (K⁻¹ *ᵥ y))

/-- Autocovariance of the CAR(1) (Ornstein-Uhlenbeck) process with driving variance `sigsqr` and rate `omega`. -/
noncomputable def car1Acf (sigsqr omega : ℝ) (d : ℝ) : ℝ := sigsqr / (2 * omega) * Real.exp (-omega * d)

end Verif.Spec
