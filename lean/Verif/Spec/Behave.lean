import Verif.Spec.Gauss
import Mathlib.Topology.Order.Basic

/-! Laws that predictions of a stationary process from noisy measurements must obey (C80). The result type is left open:
`ok` embeds a pair (mean, variance) into it. -/

namespace Verif.Spec

open Filter Topology

/-- A predictor: times, values, errors and the requested time are mapped to a result. -/
abbrev Predictor (R : Type) := (n : ℕ) → (Fin n → ℝ) → (Fin n → ℝ) → (Fin n → ℝ) → ℝ → R

/-- The laws for a process with autocovariance `r`. -/
structure PredictLaws {R : Type} (ok : ℝ × ℝ → R) (P : Predictor R) (r : ℝ → ℝ) : Prop where
  /-- The variance is positive, at most the variance of the process, and at most what any single measurement gives. -/
  bounds : ∀ {n : ℕ}, 2 ≤ n → ∀ {t : Fin n → ℝ}, StrictMono t → ∀ (y e : Fin n → ℝ) (x : ℝ), (∀ i, t i = x → e i ≠ 0) →
    ∃ m w, P n t y e x = ok (m, w) ∧ 0 < w ∧ w ≤ r 0 ∧ (∀ j, w ≤ r 0 - r |x - t j| ^ 2 / (r 0 + e j ^ 2)) ∧
      ∀ j, t j = x → w < e j ^ 2
  /-- Leaving out measurements, whatever their values, does not decrease the variance. -/
  less : ∀ {n k : ℕ}, 2 ≤ k → ∀ {t : Fin n → ℝ}, StrictMono t → ∀ {f : Fin k → Fin n}, StrictMono f →
    ∀ (y e : Fin n → ℝ) (x : ℝ), (∀ i, t i = x → e i ≠ 0) →
    ∃ m w m' w', P n t y e x = ok (m, w) ∧ P k (t ∘ f) (y ∘ f) (e ∘ f) x = ok (m', w') ∧ w ≤ w'
  /-- Larger errors do not decrease the variance. -/
  worse : ∀ {n : ℕ}, 2 ≤ n → ∀ {t : Fin n → ℝ}, StrictMono t → ∀ (y y' : Fin n → ℝ) {e e' : Fin n → ℝ}, (∀ i, |e i| ≤ |e' i|) →
    ∀ x, (∀ i, t i = x → e i ≠ 0) → ∃ m w m' w', P n t y e x = ok (m, w) ∧ P n t y' e' x = ok (m', w') ∧ w ≤ w'
  /-- The prediction is a continuous function of the requested time, returns to the mean and variance of the process far
  from the data on both sides, and tends to the measured value with variance 0 at an error-free measurement. -/
  cont : ∀ {n : ℕ}, 2 ≤ n → ∀ {t : Fin n → ℝ}, StrictMono t → ∀ y e : Fin n → ℝ, ∃ g : ℝ → ℝ × ℝ, Continuous g ∧
    (∀ x, (∀ i, t i = x → e i ≠ 0) → P n t y e x = ok (g x)) ∧
    Tendsto g atTop (𝓝 (0, r 0)) ∧ Tendsto g atBot (𝓝 (0, r 0)) ∧ ∀ i, e i = 0 → g (t i) = (y i, 0)

end Verif.Spec
