import Verif.Model.PyTrial
import Verif.Spec.Post
import Verif.Spec.Carma
import Verif.Spec.Chains
import Verif.Spec.Gauss
import Verif.Spec.Prior

/-!
What is asked of the optimiser, and what a trial of `get_mle` is to return.
-/

namespace Verif.Spec

open Verif.Model

/-- The point has a coordinate for each entry of the bounds, inside those that are given. -/
structure InBox (box : List (Option (ℝ × ℝ))) (x : List ℝ) : Prop where
  length : x.length = box.length
  mem : ∀ (j : ℕ) lo hi, box[j]? = some (some (lo, hi)) → lo ≤ at0 x j ∧ at0 x j ≤ hi

/-- The optimiser is used as intended: started inside the bounds on a function that has a value (a number or infinity) everywhere inside, it
returns a point inside the bounds with its value, not above the value at the start. Nothing is asked about how close it comes to the minimum. -/
def Lawful (opt : Py.Minimise) : Prop :=
  ∀ (f : List ℝ → Res Dbl) (x0 : List ℝ) (box : List (Option (ℝ × ℝ))) (v0 : Dbl), InBox box x0 →
    (∀ x, InBox box x → ∃ v, f x = .ok v ∧ v ≠ .nan) → f x0 = .ok v0 →
      ∃ m, opt f x0 box = .ok m ∧ InBox box m.x ∧ f m.x = .ok m.fn ∧ ¬ v0.lt m.fn

/-- Log-likelihood of the CAR(1) parameters `θ`: the Gaussian log-density of the observations, noise included. -/
noncomputable def car1Loglik {n : ℕ} (t y e : Fin n → ℝ) (θ : List ℝ) : ℝ :=
  logGauss (obsCov (fun d => at0 θ 0 ^ 2 * Real.exp (-Real.exp (at0 θ 3) * d)) t fun i => √(at0 θ 1) * e i) fun i => y i - at0 θ 2

/-- `x` lies in the search region of a CAR(1) trial: standard deviation within a factor of ten of that of the data, error scale between 0.9 and
1.1, inverse correlation time between one over the length of the series and 0.9 over the smallest time step. -/
structure Car1Search {n : ℕ} (t y : Fin n → ℝ) (x : List ℝ) : Prop where
  length : x.length = 4
  sd : √(popVariance y) / 10 ≤ at0 x 0 ∧ at0 x 0 ≤ 10 * √(popVariance y)
  scale : 0.9 ≤ at0 x 1 ∧ at0 x 1 ≤ 1.1
  rate : ∀ dmin span, IsMinGap t dmin → IsSpan t span → 1 / span ≤ Real.exp (at0 x 3) ∧ Real.exp (at0 x 3) ≤ 0.9 / dmin

/-- `v` is minus the log-likelihood minus the log-prior of the error scale of the CARMA(p,q) parameters `θ` with AR roots `roots`. -/
def CarmaObjective {n : ℕ} (t y e : Fin n → ℝ) (p q : ℕ) (roots : List ℂ) (θ : List ℝ) (v : ℝ) : Prop :=
  ∃ (ω : Fin p → ℂ) (ma : List ℝ), List.ofFn ω = roots ∧ Admissible ω ∧ ma.length = p ∧
    (∀ z, maEval ma z = maPolySpec (runKind q false) p 1 1 θ z) ∧
    v = -(logGauss (obsCov (fun d => at0 θ 0 ^ 2 * (carmaAcf 1 ω ma d / carmaAcf 1 ω ma 0)) t fun i => √(at0 θ 1) * e i)
      (fun i => y i - at0 θ 2)) - logPriorSpec θ

end Verif.Spec
