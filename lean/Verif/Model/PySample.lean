import Verif.Model.Py
import Verif.Model.CarPack
import Verif.Model.KF1
import Verif.Model.KFp

/-!
Model of the classes `CarmaSample` and `Car1Sample` of `src/carmcmc/carma_pack.py`: quantities derived from one row of the trace of
posterior samples, the filter built from the best sample, prediction, simulation and the deviance information criterion. numpy works on
all rows at once; the model gives what happens to one row. Plotting and printing are left out.
-/

namespace Verif.Model.Py

open Verif.Model

open scoped Classical

/-- `sqrt_disc` (`carma_pack.py:453-454`, `484-485`). -/
noncomputable def sqrtDisc (d : ℝ) : ℂ := if d > 0 then (√d : ℝ) else Complex.I * (√|d| : ℝ)

/-- The pair of roots of one quadratic factor (`carma_pack.py:450-456`, `481-487`). -/
noncomputable def quadRoots (quad1 quad2 : ℝ) : List ℂ :=
  let s := sqrtDisc (quad2 ^ 2 - 4 * quad1)
  [-0.5 * ((quad2 : ℂ) + s), -0.5 * ((quad2 : ℂ) - s)]

/-- The loop over the factors, run `k` times. -/
noncomputable def quadLoop (quad : List ℝ) : ℕ → Res (List ℂ)
  | 0 => .ok []
  | k + 1 => do
      let l ← quadLoop quad k
      let a ← rd quad (2 * k)
      let b ← rd quad (2 * k + 1)
      return l ++ quadRoots a b

/-- Roots of all the factors: `int(m/2)` pairs and, for odd `m`, minus the last coefficient (`carma_pack.py:449-468`, `480-491`). -/
noncomputable def quadAll (quad : List ℝ) (m : ℕ) : Res (List ℂ) := do
  let l ← quadLoop quad (m / 2)
  if m % 2 = 1 then
    let a ← (if quad = [] then .error .bounds else .ok (quad.getLastD 0) : Res ℝ)
    return l ++ [((-a : ℝ) : ℂ)]
  else
    return l

/-- `self.p` (`carma_pack.py:415`): the number of columns less three and `q`. -/
def sampOrder (row : List ℝ) (q : ℕ) : ℕ := row.length - 3 - q

/-- `_ar_roots` for one row (`carma_pack.py:425`, `439-468`). -/
noncomputable def sampAr (p : ℕ) (row : List ℝ) : Res (List ℂ) := quadAll (((row.drop 3).take p).map Real.exp) p

/-- `psd_width`, `psd_centroid` of one row (`carma_pack.py:457-462`). -/
noncomputable def sampWidths (roots : List ℂ) : List ℝ := roots.map fun r => -r.re / (2 * Real.pi)
@[inherit_doc sampWidths]
noncomputable def sampCents (roots : List ℂ) : List ℝ := roots.map fun r => |r.im| / (2 * Real.pi)

/-- `_ma_coefs` for one row (`carma_pack.py:470-500`). -/
noncomputable def sampMa (p q : ℕ) (row : List ℝ) : Res (List ℝ) :=
  if q = 0 then .ok [1]
  else do
    let roots ← quadAll ((row.drop (3 + p)).map Real.exp) q
    let c := npPoly roots
    let cq ← rd c q
    if cq = 0 then .error .nonfinite
    else return ((c.map fun x => x / cq).reverse).map Complex.re

/-- `sigma1_variance` (`carma_pack.py:527-541`). -/
noncomputable def unitVar {p : ℕ} (roots : Fin p → ℂ) (ma : List ℝ) : Res ℂ :=
  let denom : Fin p → ℂ := fun k =>
    -2 * ((roots k).re : ℂ) * ∏ l, if l ≠ k then (roots l - roots k) * (star (roots l) + roots k) else 1
  let sum1 : Fin p → ℂ := fun k => ∑ l ∈ Finset.range ma.length, (ma.getD l 0 : ℂ) * roots k ^ l
  let sum2 : Fin p → ℂ := fun k => ∑ l ∈ Finset.range ma.length, (ma.getD l 0 : ℂ) * (-1 * roots k) ^ l
  if ∃ k, denom k = 0 then .error .nonfinite
  else .ok (∑ k, sum1 k * sum2 k / denom k)

/-- `_sigma_noise` for one row (`carma_pack.py:513-546`); `var` is the square of the first entry (line 420). -/
noncomputable def sampSigma (p : ℕ) (row : List ℝ) (roots : List ℂ) (ma : List ℝ) : Res ℝ := do
  let s ← rd row 0
  let v ← unitVar (vecOf p roots) ma
  let sigsqr ← dv (s ^ 2) v.re
  sqrt sigsqr

/-- Body of `np.argmax`: a NaN counts as the largest. -/
noncomputable def argmaxStep (s : Dbl × ℕ × ℕ) (a : Dbl) : Dbl × ℕ × ℕ :=
  if s.1 ≠ .nan ∧ (a = .nan ∨ s.1.lt a) then (a, s.2.2, s.2.2 + 1) else (s.1, s.2.1, s.2.2 + 1)

/-- `np.argmax`: first position of the largest value (of the first NaN if there is one); raises on an empty array. -/
noncomputable def argmax : List Dbl → Res ℕ
  | [] => .error .runtime
  | a :: l => .ok ((l.foldl argmaxStep (a, 0, 1)).2.1)

/-- `CarmaSample.makeKalmanFilter('map')` (`carma_pack.py:650-657`, `678-685`): the filter for the sample of largest log-posterior, and its
`mu`. The measurement errors are passed as given: the error scale of the sample, entry 1, is not used. -/
noncomputable def mapFilter {p : ℕ} (srt : List ℝ → List ℕ) (time y ysig : List ℝ) (q : ℕ) (logpost : List Dbl)
    (trace : List (List ℝ)) : Res (KFp p × ℝ) := do
  let i ← argmax logpost
  let row ← rd trace i
  let roots ← sampAr p row
  let ma ← sampMa p q row
  let sigma ← sampSigma p row roots ma
  let mu ← rd row 2
  let kf ← KFp.new srt time (y.map fun v => v - mu) ysig (sigma ^ 2) (vecOf p roots) ma
  return (kf, mu)

/-- `np.mean(.., axis=0)` of the autoregressive roots of all samples (`carma_pack.py:668`). -/
noncomputable def meanRoots (p : ℕ) (l : List (List ℂ)) : Res (List ℂ) :=
  if l = [] then .error .nonfinite
  else .ok ((List.range p).map fun k => (l.map fun r => r.getD k 0).sum / (l.length : ℂ))

/-- `np.mean(.., axis=0)` of real columns (`carma_pack.py:666-669`). -/
noncomputable def meanReal (m : ℕ) (l : List (List ℝ)) : Res (List ℝ) :=
  if l = [] then .error .nonfinite
  else .ok ((List.range m).map fun k => (l.map fun r => r.getD k 0).sum / (l.length : ℝ))

/-- Derived quantities of one row: roots, moving-average coefficients, `sigma`, `mu` (`carma_pack.py:294-303`). -/
noncomputable def derived (p q : ℕ) (row : List ℝ) : Res (List ℂ × List ℝ × ℝ × ℝ) := do
  let roots ← sampAr p row
  let ma ← sampMa p q row
  let sigma ← sampSigma p row roots ma
  let mu ← rd row 2
  return (roots, ma, sigma, mu)

/-- `CarmaSample.makeKalmanFilter('mean')` (`carma_pack.py:664-669`, `678-685`): roots, coefficients, squared `sigma` and `mu` are averaged
separately. -/
noncomputable def meanFilter {p : ℕ} (srt : List ℝ → List ℕ) (time y ysig : List ℝ) (q : ℕ) (trace : List (List ℝ)) :
    Res (KFp p × ℝ) := do
  let d ← trace.mapM (derived p q)
  let roots ← meanRoots p (d.map fun x => x.1)
  let ma ← meanReal (q + 1) (d.map fun x => x.2.1)
  let sm ← meanReal 2 (d.map fun x => [x.2.2.1 ^ 2, x.2.2.2])
  let sigsqr ← rd sm 0
  let mu ← rd sm 1
  let kf ← KFp.new srt time (y.map fun v => v - mu) ysig sigsqr (vecOf p roots) ma
  return (kf, mu)

/-- `Car1Sample._sigma_noise` for one row (`carma_pack.py:922-923`). -/
noncomputable def sampSigma1 (row : List ℝ) : Res ℝ := do
  let s ← rd row 0
  let lo ← rd row 3
  sqrt (2 * s ^ 2 * Real.exp lo)

/-- `Car1Sample.makeKalmanFilter('map')` (`carma_pack.py:925-948`). -/
noncomputable def mapFilter1 (srt : List ℝ → List ℕ) (time y ysig : List ℝ) (logpost : List Dbl) (trace : List (List ℝ)) :
    Res (KF1 × ℝ) := do
  let i ← argmax logpost
  let row ← rd trace i
  let sigma ← sampSigma1 row
  let mu ← rd row 2
  let lo ← rd row 3
  let kf ← KF1.new srt time (y.map fun v => v - mu) ysig (sigma ^ 2) (Real.exp lo)
  return (kf, mu)

/-- `predict` at one time (`carma_pack.py:784-807`). With an array of times `Predict` is called once per time on the same filter. -/
noncomputable def predict {σ : Type} [Kalman σ] (fm : Res (σ × ℝ)) (x : ℝ) : Res (ℝ × ℝ) := do
  let (kf, mu) ← fm
  let kf ← Kalman.filter kf
  let (_, m, v) ← Kalman.predict kf x
  return (m + mu, v)

/-- The loop of `predict` over an array of times. -/
noncomputable def predictLoop {σ : Type} [Kalman σ] (kf : σ) (mu : ℝ) : List ℝ → Res (List (ℝ × ℝ))
  | [] => .ok []
  | x :: l => do
      let (kf, m, v) ← Kalman.predict kf x
      let rest ← predictLoop kf mu l
      return (m + mu, v) :: rest

/-- `predict` at an array of times (`carma_pack.py:784-807`). -/
noncomputable def predictAll {σ : Type} [Kalman σ] (fm : Res (σ × ℝ)) (xs : List ℝ) : Res (List (ℝ × ℝ)) := do
  let (kf, mu) ← fm
  let kf ← Kalman.filter kf
  predictLoop kf mu xs

/-- `simulate` (`carma_pack.py:819-837`). -/
noncomputable def simulate {σ : Type} [Kalman σ] (fm : Res (σ × ℝ)) (xs : List ℝ) (z : ℕ → ℝ) : Res (List ℝ) := do
  let (kf, mu) ← fm
  let kf ← Kalman.filter kf
  let (_, ys) ← Kalman.simulate kf xs z
  return ys.map fun v => v + mu

/-- Entry of `loglik` of one row in `CarmaSample.__init__` (`carma_pack.py:307-313`): `getLogDensity` of the C++ object after
`SetMLE(True)`. -/
noncomputable def sampLoglik {p : ℕ} (obj : CarP p) (row : List ℝ) : Res Dbl := do
  let (_, v) ← logDensity { obj with b := obj.b.setMLE true } row
  return v

/-- Entry of `loglik` of one row in `Car1Sample.__init__` (`carma_pack.py:896-901`): the recorded log-posterior less the log-prior. -/
noncomputable def sampLoglik1 (logpost : Dbl) (row : List ℝ) : Res Dbl := do
  let lp ← baseLogPrior row
  return logpost.sub lp

/-- `DIC` (`carma_pack.py:839-854`): mean of the deviance plus half its (population) variance. -/
noncomputable def dic (loglik : List ℝ) : Res ℝ := do
  let dev := loglik.map fun x => -2 * x
  let m ← dv dev.sum dev.length
  let v ← dv (dev.map fun x => (x - m) ^ 2).sum dev.length
  return m + 0.5 * v

/-- Positions used by `plot_power_spectrum` when `nsamples` is given (`carma_pack.py:580`): `int(k * (n0 / n))`. -/
noncomputable def thinIdx (n0 n : ℕ) : List ℕ := (List.range n).map fun k : ℕ => ⌊(k : ℝ) * ((n0 : ℝ) / n)⌋₊

/-- Power spectrum of one sample at one frequency as computed by `plot_power_spectrum` (`carma_pack.py:603-619`): the autoregressive
polynomial by powers of `i omega`, highest first. -/
noncomputable def psdSample (p : ℕ) (freq sigma : ℝ) (ar ma : List ℝ) : Res ℝ := do
  let om : ℂ := 2 * Real.pi * Complex.I * freq
  let last ← rd ar p
  let arPoly : ℂ := (∑ k ∈ Finset.range p, (ar.getD k 0 : ℂ) * om ^ (p - k)) + last
  let maPoly : ℂ := ∑ k ∈ Finset.range ma.length, (ma.getD k 0 : ℂ) * om ^ k
  dv (sigma ^ 2 * ‖maPoly‖ ^ 2) (‖arPoly‖ ^ 2)

end Verif.Model.Py
