import Verif.Model.PyModel
import Verif.Model.PyRun

/-!
One trial of `CarmaModel.get_mle`: `_get_mle_single` (`carma_pack.py:195-252`).
-/

namespace Verif.Model.Py

/-- `scipy.optimize.minimize(f, x0, method="L-BFGS-B", bounds=box)`: outside the model, a parameter. -/
abbrev Minimise := (List ℝ → Res Dbl) → List ℝ → List (Option (ℝ × ℝ)) → Res Mle

/-- `_carma_loglik` (`carma_pack.py:255-260`) for a given C++ object. The calls of the optimiser all use the same object, which `getLogDensity`
changes; by C15 the values do not depend on the calls before, so the object at the start is used for all. -/
noncomputable def objective {μ σ : Type} [Kalman σ] [CarModel μ σ] (o : μ) (θ : List ℝ) : Res Dbl :=
  (logDensity (σ := σ) o θ).map fun x => x.2.neg

/-- `_get_mle_single((p, q, time, y, ysig))` (`carma_pack.py:195-252`): a run of one sample after 25 burn-in iterations (with ten chains if
`p > 1`), the recorded sample moved into the bounds, and the optimiser. `SetMLE(True)` is called for `p > 1` only. `u j` is the draw of numpy
used for entry `j`. -/
noncomputable def mleTrial (fuel : ℕ) (srt : List ℝ → List ℕ) (time y ysig : List ℝ) (p q : ℕ) (opt : Minimise) (u : ℕ → ℝ) (r : Rng) : Res Mle :=
  if p = 1 then do
    let c ← runCar1Sampler fuel srt 1 25 time y ysig 1 [] r
    let samples ← getSamples c
    let sample ← rd samples 0
    let x0 ← mleStart time y p q sample u
    let box ← mleBox time y p q
    opt (objective c.obj) x0 box
  else do
    let c ← runCarmaSampler fuel srt 1 25 time y ysig p q 10 false 1 [] r
    let samples ← getSamples c
    let sample ← rd samples 0
    let x0 ← mleStart time y p q sample u
    let box ← mleBox time y p q
    opt (objective ({ c.obj with b := c.obj.b.setMLE true } : CarP p)) x0 box

end Verif.Model.Py
