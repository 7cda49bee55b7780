import Verif.Model.PySample
import Verif.Model.PyBand
import Verif.Model.PyModel

/-!
Model of the remaining ways to use the samples: the filters for the other values of `bestfit` (`src/carmcmc/carma_pack.py:650-685`, `925-948`), `add_mle`
(lines 326-400), and `newaxis`, `effective_samples`, `posterior_summaries` of `src/carmcmc/samplers.py`.
-/

namespace Verif.Model.Py

open Verif.Model

open scoped Classical

/-- Order used by numpy to sort complex numbers: real parts first, then imaginary parts. -/
def cLe (a b : ℂ) : Prop := a.re < b.re ∨ (a.re = b.re ∧ a.im ≤ b.im)

/-- `np.median` of complex numbers. -/
noncomputable def medianC (l : List ℂ) : Res ℂ :=
  if l = [] then .error .nonfinite
  else
    let s := l.mergeSort fun a b => decide (cLe a b)
    let n := l.length
    if n % 2 = 1 then .ok (s.getD (n / 2) 0) else .ok ((s.getD (n / 2 - 1) 0 + s.getD (n / 2) 0) / 2)

/-- The argument `bestfit`; `random i` stands for any other string together with the position that `np.random.random_integers` draws. -/
inductive BestFit
  | map
  | median
  | mean
  | random (i : ℕ)

/-- `CarmaSample.makeKalmanFilter('median')` (`carma_pack.py:658-663`, `678-685`): medians of roots, coefficients, `sigma` and `mu`, taken
separately. -/
noncomputable def medianFilter {p : ℕ} (srt : List ℝ → List ℕ) (time y ysig : List ℝ) (q : ℕ) (trace : List (List ℝ)) :
    Res (KFp p × ℝ) := do
  let d ← trace.mapM (derived p q)
  let sigma ← median (d.map fun x => x.2.2.1)
  let mu ← median (d.map fun x => x.2.2.2)
  let roots ← (List.range p).mapM fun k => medianC (d.map fun x => x.1.getD k 0)
  let ma ← (List.range (q + 1)).mapM fun j => median (d.map fun x => x.2.1.getD j 0)
  let kf ← KFp.new srt time (y.map fun v => v - mu) ysig (sigma ^ 2) (vecOf p roots) ma
  return (kf, mu)

/-- The filter of the sample at position `i` (`carma_pack.py:670-685`). -/
noncomputable def rowFilter {p : ℕ} (srt : List ℝ → List ℕ) (time y ysig : List ℝ) (q : ℕ) (trace : List (List ℝ)) (i : ℕ) :
    Res (KFp p × ℝ) := do
  let row ← rd trace i
  let (roots, ma, sigma, mu) ← derived p q row
  let kf ← KFp.new srt time (y.map fun v => v - mu) ysig (sigma ^ 2) (vecOf p roots) ma
  return (kf, mu)

/-- `CarmaSample.makeKalmanFilter` (`carma_pack.py:650-685`). A random position is drawn from `0 .. N-1`, `N` the number of log-posterior values
(the first entry of the dictionary); without values the call raises. -/
noncomputable def makeFilter {p : ℕ} (srt : List ℝ → List ℕ) (time y ysig : List ℝ) (q : ℕ) (logpost : List Dbl) (trace : List (List ℝ)) :
    BestFit → Res (KFp p × ℝ)
  | .map => mapFilter srt time y ysig q logpost trace
  | .median => medianFilter srt time y ysig q trace
  | .mean => meanFilter srt time y ysig q trace
  | .random i => if logpost.length ≤ i then .error .runtime else rowFilter srt time y ysig q trace i

/-- `sigma`, `mu`, `log_omega` of one row of a `Car1Sample` (`carma_pack.py:906-923`). -/
noncomputable def derived1 (row : List ℝ) : Res (ℝ × ℝ × ℝ) := do
  let sigma ← sampSigma1 row
  let mu ← rd row 2
  let lo ← rd row 3
  return (sigma, mu, lo)

/-- `Car1Sample.makeKalmanFilter('median')` (`carma_pack.py:932-936`, `943-948`). -/
noncomputable def medianFilter1 (srt : List ℝ → List ℕ) (time y ysig : List ℝ) (trace : List (List ℝ)) : Res (KF1 × ℝ) := do
  let d ← trace.mapM derived1
  let sigma ← median (d.map fun x => x.1)
  let mu ← median (d.map fun x => x.2.1)
  let lo ← median (d.map fun x => x.2.2)
  let kf ← KF1.new srt time (y.map fun v => v - mu) ysig (sigma ^ 2) (Real.exp lo)
  return (kf, mu)

/-- `np.mean`. -/
noncomputable def npMean (l : List ℝ) : Res ℝ := if l = [] then .error .nonfinite else .ok (l.sum / l.length)

/-- `Car1Sample.makeKalmanFilter` with any other string (`carma_pack.py:937-948`). -/
noncomputable def meanFilter1 (srt : List ℝ → List ℕ) (time y ysig : List ℝ) (trace : List (List ℝ)) : Res (KF1 × ℝ) := do
  let d ← trace.mapM derived1
  let sigsqr ← npMean (d.map fun x => x.1 ^ 2)
  let mu ← npMean (d.map fun x => x.2.1)
  let lo ← npMean (d.map fun x => x.2.2)
  let kf ← KF1.new srt time (y.map fun v => v - mu) ysig sigsqr (Real.exp lo)
  return (kf, mu)

/-- `Car1Sample.makeKalmanFilter` (`carma_pack.py:925-948`): there is no branch for a random draw. -/
noncomputable def makeFilter1 (srt : List ℝ → List ℕ) (time y ysig : List ℝ) (logpost : List Dbl) (trace : List (List ℝ)) :
    BestFit → Res (KF1 × ℝ)
  | .map => mapFilter1 srt time y ysig logpost trace
  | .median => medianFilter1 srt time y ysig trace
  | .mean => meanFilter1 srt time y ysig trace
  | .random _ => meanFilter1 srt time y ysig trace

/-! ### add_mle -/

/-- The dictionary `mle`. -/
structure MleDict where
  var : ℝ
  scale : ℝ
  mu : ℝ
  roots : List ℂ
  width : List ℝ
  cent : List ℝ
  ar : List ℝ
  ma : List ℝ
  sigma : ℝ

/-- `m / 2` as the bound of a `range`: an integer in Python 2; in Python 3 a float, which `range` refuses with a `TypeError`. -/
def halfRange (py3 : Bool) (m : ℕ) : Res ℕ := if py3 then .error .runtime else .ok (m / 2)

/-- The roots of the factors as `add_mle` computes them (`carma_pack.py:341-363`, `375-391`) in an array of `size` cells; a cell that is not written
is 0 if the array is cleared (`np.zeros`), undefined otherwise (`np.empty`). -/
noncomputable def mleRoots (py3 : Bool) (quad : List ℝ) (m size : ℕ) (cleared : Bool) : Res (List ℂ) := do
  let k ← halfRange py3 m
  let l ← quadLoop quad k
  if size < l.length then .error .bounds
  else if m % 2 = 1 then
    let a ← (if quad = [] ∨ size = 0 then .error .bounds else .ok (quad.getLastD 0) : Res ℝ)
    if l.length + 1 < size ∧ cleared = false then .error .ub
    else return (l ++ List.replicate (size - l.length) 0).dropLast ++ [((-a : ℝ) : ℂ)]
  else if l.length < size ∧ cleared = false then .error .ub
  else return l ++ List.replicate (size - l.length) 0

/-- `add_mle` (`carma_pack.py:326-400`) for the estimate `x`, in a sample of orders `p`, `q`. -/
noncomputable def addMle (py3 : Bool) (p q : ℕ) (x : List ℝ) : Res MleDict := do
  let s ← rd x 0
  let scale ← rd x 1
  let mu ← rd x 2
  let var := s ^ 2
  let roots ← mleRoots py3 (((x.drop 3).take p).map Real.exp) p p true
  let quad := (x.drop (3 + p)).map Real.exp
  let ma ← (if q = 0 then .ok [1]
    else do
      let mr ← mleRoots py3 quad q quad.length false
      let c := npPoly mr
      let cq ← rd c q
      if cq = 0 then .error .nonfinite
      else return ((c.map fun x => x / cq).map Complex.re).reverse : Res (List ℝ))
  let unit ← carmaVariance 1 (vecOf p roots) ma 0
  let r ← dv var unit
  let sigma ← sqrt r
  return { var := var, scale := scale, mu := mu, roots := roots, width := roots.map fun r => -r.re / (2 * Real.pi),
           cent := roots.map fun r => |r.im| / (2 * Real.pi), ar := arCoefs roots, ma := ma, sigma := sigma }

/-! ### posterior summaries -/

/-- The samples of one parameter: a vector, or an array given by its columns. -/
inductive Trace
  | vec (l : List ℝ)
  | mat (rows : ℕ) (cols : List (List ℝ))

/-- `newaxis` (`samplers.py:405-408`). -/
def Trace.newaxis : Trace → Trace
  | .vec l => .mat l.length [l]
  | .mat n c => .mat n c

/-- `effective_samples` (`samplers.py:86-101`) with `autocorr_timescale` (`74-84`); `tau` is the `acor` module. A vector has no `shape[1]`. -/
noncomputable def effectiveSamples (tau : List ℝ → Res ℝ) : Trace → Res (List ℝ)
  | .vec _ => .error .bounds
  | .mat n cols => do
      let ts ← cols.mapM tau
      ts.mapM fun t => dv n t

/-- What is printed for one element. -/
structure Summary where
  neff : ℝ
  med : ℝ
  std : ℝ
  c68 : ℝ × ℝ
  c95 : ℝ × ℝ
  c99 : ℝ × ℝ

/-- The summary of one column (`samplers.py:395-403`). -/
noncomputable def summaryOf (neff : ℝ) (l : List ℝ) : Res Summary := do
  let med ← median l
  let std ← npStd l
  let a ← percentile l 16
  let a' ← percentile l 84
  let b ← percentile l 2.5
  let b' ← percentile l 97.5
  let c ← percentile l 0.5
  let c' ← percentile l 99.5
  return ⟨neff, med, std, (a, a'), (b, b'), (c, c')⟩

/-- `posterior_summaries` (`samplers.py:370-403`) for real parameters. -/
noncomputable def posteriorSummaries (tau : List ℝ → Res ℝ) (tr : Trace) : Res (List Summary) := do
  let neff ← effectiveSamples tau tr
  match tr with
  | .vec l => do
      let s ← summaryOf (neff.getD 0 0) l
      return [s]
  | .mat _ cols => (neff.zip cols).mapM fun x => summaryOf x.1 x.2

end Verif.Model.Py
