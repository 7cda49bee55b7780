import Verif.Model.KFp

/-!
Model of the numerical functions at module level of `src/carmcmc/carma_pack.py` (lines 1038-1259). Python indexing errors are
`bounds`; numpy divisions by zero and square roots of negative numbers, which give Inf or NaN with a warning, are `nonfinite`.
The `try: len(..) <= len(..)` statements have no effect and are dropped.
-/

namespace Verif.Model.Py

open Verif.Model

open scoped Classical

/-- The loop of `get_ar_roots` over the first `k` centroids (lines 1049-1053), before the factor `-2 pi`. -/
noncomputable def rootLoop (width cent : List ℝ) : ℕ → Res (List ℂ)
  | 0 => .ok []
  | k + 1 => do
      let l ← rootLoop width cent k
      let w ← rd width k
      let c ← rd cent k
      if c > 1e-10 then return l ++ [⟨w, c⟩, star ⟨w, c⟩] else return l ++ [⟨w, c⟩]

/-- `get_ar_roots(qpo_width, qpo_centroid)` (lines 1038-1059). -/
noncomputable def getArRoots (width cent : List ℝ) : Res (List ℂ) := do
  let l ← rootLoop width cent cent.length
  let l ← (if width.length = cent.length + 1 then do
      let w ← rd width cent.length
      return l ++ [(w : ℂ)]
    else return l : Res (List ℂ))
  return l.map fun z => (-2 * Real.pi : ℝ) * z

/-- `np.polyval(c, x)` by Horner's rule: `c` starts with the highest power. -/
noncomputable def polyval (c : List ℝ) (x : ℂ) : ℂ := c.foldl (fun (acc : ℂ) (a : ℝ) => acc * x + (a : ℂ)) 0

/-- `np.poly(roots)`: starting from `[1]`, each root `r` multiplies the polynomial by `x - r` (`np.convolve(a, [1, -r])`). -/
noncomputable def npPoly (roots : List ℂ) : List ℂ :=
  roots.foldl (fun a r => List.zipWith (fun u v => u - r * v) (a ++ [0]) (0 :: a)) [1]

/-- Autoregressive coefficients of one sample in `CarmaSample._ar_coefs` (lines 506-511): the real parts of `np.poly`. -/
noncomputable def arCoefs (roots : List ℂ) : List ℝ := (npPoly roots).map Complex.re

/-- `power_spectrum(freq, sigma, ar_coef, ma_coefs)` (lines 1062-1081) at one frequency. -/
noncomputable def powerSpectrum (freq sigma : ℝ) (ar ma : List ℝ) : Res ℝ :=
  let x : ℂ := 2 * Real.pi * Complex.I * freq
  dv (sigma ^ 2 * ‖polyval ma.reverse x‖ ^ 2) (‖polyval ar x‖ ^ 2)

/-- `carma_variance(sigsqr, ar_roots, ma_coefs, lag)` (lines 1084-1123): only the first `p` moving average coefficients are used. -/
noncomputable def carmaVariance {p : ℕ} (sigsqr : ℝ) (roots : Fin p → ℂ) (ma : List ℝ) (lag : ℝ) : Res ℝ :=
  let ma := KFp.padMA p ma
  let denom : Fin p → ℂ := fun k =>
    -2 * (∏ l, if l ≠ k then (roots l - roots k) * (star (roots l) + roots k) else 1) * ((roots k).re : ℂ)
  let sum1 : Fin p → ℂ := fun k => ∑ l ∈ Finset.range p, (ma.getD l 0 : ℂ) * roots k ^ l
  let sum2 : Fin p → ℂ := fun k => ∑ l ∈ Finset.range p, (ma.getD l 0 : ℂ) * (-1 * roots k) ^ l
  if ∃ k, denom k = 0 then .error .nonfinite
  else .ok (sigsqr * (∑ k, sum1 k * sum2 k * Complex.exp (roots k * (|lag| : ℝ)) / denom k).re)

/-- `np.sqrt`. -/
noncomputable def sqrt (x : ℝ) : Res ℝ := if x < 0 then .error .nonfinite else .ok √x

/-- The loop of `car1_process` (lines 1140-1144): the values at times `1, ..., k` are appended to the list. -/
noncomputable def car1Loop (time : List ℝ) (marginal tau : ℝ) (z : ℕ → ℝ) (y0 : ℝ) : ℕ → Res (List ℝ)
  | 0 => .ok [y0]
  | k + 1 => do
      let y ← car1Loop time marginal tau z y0 k
      let t1 ← rd time (k + 1)
      let t0 ← rd time k
      let q ← dv (-(t1 - t0)) tau
      let rho := Real.exp q
      let sd ← sqrt (marginal * (1 - rho ^ 2))
      let yk ← rd y k
      return y ++ [rho * yk + sd * z (k + 1)]

/-- `car1_process(time, sigsqr, tau)` (lines 1126-1146); `z` are the standard normal draws. -/
noncomputable def car1Process (time : List ℝ) (sigsqr tau : ℝ) (z : ℕ → ℝ) : Res (List ℝ) :=
  let marginal := sigsqr * tau / 2
  if time.length = 0 then .error .bounds
  else do
    let sd ← sqrt marginal
    car1Loop time marginal tau z (sd * z 0) (time.length - 1)

variable {p : ℕ}

/-- Variables of `carma_process` that change in its loop (lines 1215-1257). -/
structure Gen (p : ℕ) where
  state : Fin p → ℂ
  pred : Matrix (Fin p) (Fin p) ℂ
  mean : ℝ
  var : ℝ
  innov : ℝ
  y : List ℝ

/-- The stationary covariance (lines 1210-1213): here the whole matrix is computed. -/
noncomputable def stateVar (sigsqr : ℝ) (roots J : Fin p → ℂ) : Res (Matrix (Fin p) (Fin p) ℂ) :=
  if ∃ i j : Fin p, roots i + star (roots j) = 0 then .error .nonfinite
  else .ok (Matrix.of fun i j => -(sigsqr : ℂ) * J i * star (J j) / (roots i + star (roots j)))

/-- One pass of the loop of `carma_process` (lines 1238-1257) with the normal draw `z`. -/
noncomputable def genStep (roots b : Fin p → ℂ) (V : Matrix (Fin p) (Fin p) ℂ) (dt z : ℝ) (g : Gen p) : Res (Gen p) := do
  let gain ← KFp.gainOf b g.pred g.var
  let state := fun k => g.state k + (g.innov : ℂ) * gain k
  let P := KFp.measVar g.pred g.var gain
  let rho := KFp.rhoOf roots dt
  let state := fun k => state k * rho k
  let P := KFp.timeVar rho P V
  let mean := (dotProduct b state).re
  let var := KFp.quad b P
  let sd ← sqrt var
  let y := mean + sd * z
  return { state := state, pred := P, mean := mean, var := var, innov := y - mean, y := g.y ++ [y] }

/-- The loop run `k` times. -/
noncomputable def genLoop (roots b : Fin p → ℂ) (V : Matrix (Fin p) (Fin p) ℂ) (time : List ℝ) (z : ℕ → ℝ) (g0 : Gen p) : ℕ → Res (Gen p)
  | 0 => .ok g0
  | k + 1 => do
      let g ← genLoop roots b V time z g0 k
      let t1 ← rd time (k + 1)
      let t0 ← rd time k
      genStep roots b V (t1 - t0) (z (k + 1)) g

/-- `carma_process(time, sigsqr, ar_roots, ma_coefs)` (lines 1148-1259) for `p >= 2`. `np.random.normal(m, s)` is `m + s z`; numpy's
`solve` raises an exception on a singular matrix. The times are sorted first (line 1175); the second value is the sorted vector,
which replaces the caller's. The arrays are arrays of doubles (integer times: `carmaProcessAs` in `Verif/Model/PyStore.lean`). More than `p` coefficients do not fit the matrix product. -/
noncomputable def carmaProcess (time : List ℝ) (sigsqr : ℝ) (roots : Fin p → ℂ) (ma : List ℝ) (z : ℕ → ℝ) : Res (List ℝ × List ℝ) :=
  if p < 2 then .error .bounds
  else
    let time := time.mergeSort (fun a b => decide (a ≤ b))
    do
    let J ← KFp.jvec roots
    let b ← KFp.rotate roots (KFp.padMA p ma)
    let V ← stateVar sigsqr roots J
    let var := KFp.quad b V
    let sd ← sqrt var
    if time.length = 0 then .error .bounds
    let y0 := 0 + sd * z 0
    let g ← genLoop roots b V time z { state := 0, pred := V, mean := 0, var := var, innov := y0, y := [y0] } (time.length - 1)
    return (g.y, time)

/-- `carma_process` for one real root (lines 1165-1167). -/
noncomputable def carmaProcess1 (time : List ℝ) (sigsqr root : ℝ) (z : ℕ → ℝ) : Res (List ℝ) := do
  let tau ← dv (-1) root
  car1Process time sigsqr tau z

end Verif.Model.Py
