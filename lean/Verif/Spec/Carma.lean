import Mathlib.MeasureTheory.Integral.Bochner.Set
import Mathlib.Analysis.SpecialFunctions.ImproperIntegrals

/-!
Specification of the CARMA process, independent of the modelled code.

The CARMA process solves `α(D) y = β(D) ε` where `α(s) = ∏ (s - ω k)`, `β(s) = ∑ β_i s^i` and `ε` is white noise of
intensity `sigsqr`. Its impulse response is `h = β(D) u` where `u` is the Green function of `α(D)`, and its
autocovariance is `sigsqr ∫ h(s) h(s + d) ds`.
-/

namespace Verif.Spec

open Finset

variable {p : ℕ}

/-- `α'(ω k) = ∏_{l ≠ k} (ω k - ω l)`. -/
noncomputable def arDeriv (ω : Fin p → ℂ) (k : Fin p) : ℂ := ∏ l ∈ univ.erase k, (ω k - ω l)

/-- `β(z) = ∑ β_i z^i`. -/
noncomputable def maEval (β : List ℝ) (z : ℂ) : ℂ := ∑ i ∈ range β.length, (β.getD i 0 : ℂ) * z ^ i

/-- Impulse response `h(s) = ∑_k β(ω k)/α'(ω k) exp(ω k s)`. -/
noncomputable def impulse (ω : Fin p → ℂ) (β : List ℝ) (s : ℝ) : ℂ :=
  ∑ k, maEval β (ω k) / arDeriv ω k * Complex.exp (ω k * s)

/-- Autocovariance at lag `d` of the CARMA process. -/
noncomputable def carmaAcf (sigsqr : ℝ) (ω : Fin p → ℂ) (β : List ℝ) (d : ℝ) : ℝ :=
  sigsqr * ∫ s in Set.Ioi (0:ℝ), (impulse ω β s * impulse ω β (s + d)).re

/-- Admissible autoregressive roots: pairwise different, in the open left half plane, closed under conjugation. -/
structure Admissible (ω : Fin p → ℂ) : Prop where
  inj : Function.Injective ω
  stable : ∀ k, (ω k).re < 0
  conj : ∀ k, ∃ l, ω l = star (ω k)

end Verif.Spec
