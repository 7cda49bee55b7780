import Verif.Model.PyFit

/-!
Model of `plot_power_spectrum` of `CarmaSample` (`src/carmcmc/carma_pack.py:548-648`) and of `Car1Sample` (lines 950-1033) up to the drawing, and of
the order statistics it takes from numpy: `np.percentile` (linear interpolation) and `np.median`.
-/

namespace Verif.Model.Py

open Verif.Model

open scoped Classical

/-- The sorted values. -/
noncomputable def npSort (l : List ℝ) : List ℝ := l.mergeSort fun a b => decide (a ≤ b)

/-- `np.percentile(l, q)`: linear interpolation between order statistics. A percentage outside 0..100 is a `ValueError`, an empty array
gives NaN. -/
noncomputable def percentile (l : List ℝ) (q : ℝ) : Res ℝ :=
  if q < 0 ∨ 100 < q then .error .runtime
  else if l = [] then .error .nonfinite
  else
    let s := npSort l
    let h := q / 100 * ((l.length : ℝ) - 1)
    let i := ⌊h⌋₊
    let a := s.getD i 0
    let b := s.getD (min (i + 1) (l.length - 1)) 0
    .ok (a + (h - i) * (b - a))

/-- `np.median(l)`: the middle value, or the mean of the two middle values. -/
noncomputable def median (l : List ℝ) : Res ℝ :=
  if l = [] then .error .nonfinite
  else
    let s := npSort l
    let n := l.length
    if n % 2 = 1 then .ok (s.getD (n / 2) 0) else .ok ((s.getD (n / 2 - 1) 0 + s.getD (n / 2) 0) / 2)

/-- The differences of neighbouring times (`carma_pack.py:586`, `986`). -/
noncomputable def timeGaps (time : List ℝ) : List ℝ := List.zipWith (fun a b => b - a) time time.tail

/-- `frequencies` (`carma_pack.py:585-596`, `985-996`): logarithmically spaced. -/
noncomputable def freqGrid (time : List ℝ) (nfreq : ℕ) : Res (List ℝ) := do
  let dtMin ← arrMin (timeGaps time)
  let tmax ← arrMax time
  let tmin ← arrMin time
  let fmax ← dv 0.5 dtMin
  let fmin ← dv 1 (tmax - tmin)
  if fmin ≤ 0 ∨ fmax ≤ 0 then .error .nonfinite
  else return (linspace (Real.log fmin) (Real.log fmax) nfreq).map Real.exp

/-- Lower limit, median, upper limit of the values of the spectrum at one frequency (`carma_pack.py:599-600`, `622-624`, `999-1000`, `1009-1011`). -/
noncomputable def bandAt (psd : List ℝ) (pct : ℝ) : Res (ℝ × ℝ × ℝ) := do
  let lower := (100 - pct) / 2
  let upper := 100 - lower
  let lo ← percentile psd lower
  let hi ← percentile psd upper
  let md ← median psd
  return (lo, md, hi)

/-- The samples used: all, or `nsamples` of them (`carma_pack.py:570-583`). -/
noncomputable def usedSamples {α : Type} (l : List α) : Option ℕ → Res (List α)
  | none => .ok l
  | some n => (thinIdx l.length n).mapM fun i => rd l i

/-- `CarmaSample.plot_power_spectrum`: a sample is `(sigma, ar_coefs, ma_coefs)`. The frequencies with the three curves. -/
noncomputable def psdBands (p : ℕ) (time : List ℝ) (samples : List (ℝ × List ℝ × List ℝ)) (nsamples : Option ℕ) (pct : ℝ) :
    Res (List (ℝ × ℝ × ℝ × ℝ)) := do
  let used ← usedSamples samples nsamples
  let freqs ← freqGrid time 1000
  freqs.mapM fun f => do
    let psd ← used.mapM fun s => psdSample p f s.1 s.2.1 s.2.2
    let b ← bandAt psd pct
    return (f, b)

/-- The spectrum of one CAR(1) sample at one frequency (`carma_pack.py:1002-1006`). -/
noncomputable def psdSample1 (f sigma logOmega : ℝ) : Res ℝ :=
  dv (sigma ^ 2) (Real.exp logOmega ^ 2 + (2 * Real.pi * f) ^ 2)

/-- `Car1Sample.plot_power_spectrum`: a sample is `(sigma, log_omega)`. With `nsamples` given the positions are not converted to integers, and
numpy refuses to index with them (`carma_pack.py:981-983`). -/
noncomputable def psdBands1 (time : List ℝ) (samples : List (ℝ × ℝ)) (nsamples : Option ℕ) (pct : ℝ) : Res (List (ℝ × ℝ × ℝ × ℝ)) := do
  let used ← (match nsamples with
    | none => .ok samples
    | some _ => .error .bounds : Res (List (ℝ × ℝ)))
  let freqs ← freqGrid time 1000
  freqs.mapM fun f => do
    let psd ← used.mapM fun s => psdSample1 f s.1 s.2
    let b ← bandAt psd pct
    return (f, b)

end Verif.Model.Py
