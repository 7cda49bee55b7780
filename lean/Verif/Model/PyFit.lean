import Verif.Model.PySample

/-!
Model of `CarmaSample.assess_fit` (`src/carmcmc/carma_pack.py:687-770`, inherited by `Car1Sample`): the numbers that are drawn. The
drawing itself, the histogram of the residuals and the calls that set labels and limits are left out. `plt.acorr` is the documented
behaviour of matplotlib: it raises `ValueError` unless `1 <= maxlags < len(x)`.
-/

namespace Verif.Model.Py

open Verif.Model

open scoped Classical

/-- `np.linspace(a, b, num)`. -/
noncomputable def linspace (a b : ℝ) (num : ℕ) : List ℝ :=
  if num = 1 then [a] else (List.range num).map fun k : ℕ => a + k * ((b - a) / ((num : ℝ) - 1))

/-- `self.time.min()`; numpy raises on an empty array. -/
noncomputable def arrMin (l : List ℝ) : Res ℝ :=
  match l with
  | [] => .error .runtime
  | x :: l => .ok (l.foldl min x)

/-- `self.time.max()`. -/
noncomputable def arrMax (l : List ℝ) : Res ℝ :=
  match l with
  | [] => .error .runtime
  | x :: l => .ok (l.foldl max x)

/-- `time_predict` (`carma_pack.py:704`). -/
noncomputable def fitGrid (time : List ℝ) (nplot : ℕ) : Res (List ℝ) := do
  let a ← arrMin time
  let b ← arrMax time
  return linspace (1.001 * a) b nplot

/-- One standardized residual `(y - mu - kmean) / sqrt(kvar)`: a variance that is not positive gives NaN or Inf. -/
noncomputable def resid1 (mu y m v : ℝ) : Res ℝ := do
  let s ← sqrt v
  dv (y - mu - m) s

/-- `standardized_residuals` (`carma_pack.py:719-723`); arrays of different lengths do not broadcast. -/
noncomputable def residuals {σ : Type} [Kalman σ] (fm : Res (σ × ℝ)) (y : List ℝ) : Res (List ℝ) := do
  let (kf, mu) ← fm
  let kf ← Kalman.filter kf
  let m := (Kalman.base kf).mean
  let v := (Kalman.base kf).var
  if m.length ≠ y.length ∨ v.length ≠ y.length then .error .runtime
  else (List.range y.length).mapM fun i => resid1 mu (y.getD i 0) (m.getD i 0) (v.getD i 0)

/-- Entry of `np.correlate(x, x, 'full')` at lag `k`. -/
noncomputable def lagProd (x : List ℝ) (k : ℕ) : ℝ := ∑ i ∈ Finset.range (x.length - k), x.getD (i + k) 0 * x.getD i 0

/-- `plt.acorr(x, maxlags)`: correlations at lags `-maxlags .. maxlags`, divided by `sqrt(dot(x, x) * dot(x, x))`. -/
noncomputable def acorr (x : List ℝ) (maxlags : ℕ) : Res (List ℝ) :=
  if maxlags ≥ x.length ∨ maxlags < 1 then .error .runtime
  else (List.range (2 * maxlags + 1)).mapM fun j =>
    dv (lagProd x (if j ≤ maxlags then maxlags - j else j - maxlags)) √(lagProd x 0 * lagProd x 0)

/-- What `assess_fit` draws. -/
structure FitPlot where
  grid : List ℝ
  mean : List ℝ
  low : List ℝ
  high : List ℝ
  resid : List ℝ
  acf : List ℝ
  acfSq : List ℝ
  noise : ℝ

/-- `assess_fit` (`carma_pack.py:702-762`). The filter is built twice from the same sample. -/
noncomputable def assessFit {σ : Type} [Kalman σ] (fm : Res (σ × ℝ)) (time y : List ℝ) (nplot : ℕ) : Res FitPlot := do
  let grid ← fitGrid time nplot
  let pr ← predictAll fm grid
  let sd ← pr.mapM fun x => sqrt x.2
  let res ← residuals fm y
  let noise ← dv 1.96 √(time.length : ℝ)
  let acf ← acorr res 50
  let sq := res.map fun r => r ^ 2
  let mean ← dv sq.sum sq.length
  let acfSq ← acorr (sq.map fun s => s - mean) 50
  return { grid := grid, mean := pr.map fun x => x.1, low := List.zipWith (fun x s => x.1 - s) pr sd, high := List.zipWith (fun x s => x.1 + s) pr sd, resid := res, acf := acf, acfSq := acfSq, noise := noise }

end Verif.Model.Py
