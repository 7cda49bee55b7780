import Verif.Model.PyModel
import Verif.Model.PySample
import Verif.Model.Sampler

/-!
`CarmaModel.run_mcmc` and the constructors of `CarmaSample` and `Car1Sample` in `src/carmcmc/carma_pack.py`, from the data given by the user
to the table of samples. Printing is left out.
-/

namespace Verif.Model.Py

open Verif.Model

open scoped Classical

/-- `getSamples` (`src/include/carpack.hpp` lines 210-218): the length of the first sample is read before anything else, which is undefined
when nothing was recorded. -/
noncomputable def getSamples {μ : Type} (c : Par μ) : Res (List (List ℝ)) :=
  if c.samples = [] then .error .ub else .ok c.samples

/-- `trace.shape[1]` of `trace = np.array(rows)` (`carma_pack.py:287`, `415`): rows of different lengths do not make a table. -/
def columns : List (List ℝ) → Res ℕ
  | [] => .error .bounds
  | row :: l => if ∀ x ∈ l, x.length = row.length then .ok row.length else .error .bounds

/-- What a `CarmaSample` holds for one sample: `var`, `measerr_scale`, `mu`, `ar_roots`, `psd_width`, `psd_centroid`, `ar_coefs`,
`ma_coefs`, `sigma`. -/
structure Row where
  var : ℝ
  scale : ℝ
  mu : ℝ
  roots : List ℂ
  widths : List ℝ
  cents : List ℝ
  ar : List ℝ
  ma : List ℝ
  sigma : ℝ

/-- `generate_from_trace`, `_ar_roots`, `_ar_coefs`, `_ma_coefs`, `_sigma_noise` for one sample (`carma_pack.py:294-303`, `409-425`,
`439-546`). -/
noncomputable def mkRow (p q : ℕ) (row : List ℝ) : Res Row := do
  let s ← rd row 0
  let scale ← rd row 1
  let mu ← rd row 2
  let roots ← sampAr p row
  let ma ← sampMa p q row
  let sigma ← sampSigma p row roots ma
  return ⟨s ^ 2, scale, mu, roots, sampWidths roots, sampCents roots, arCoefs roots, ma, sigma⟩

/-- The loop that fills `loglik` in `CarmaSample.__init__` (`carma_pack.py:309-314`); the C++ object is changed by every call. -/
noncomputable def loglikLoop {p : ℕ} (obj : CarP p) : List (List ℝ) → Res (List Dbl)
  | [] => .ok []
  | row :: l => do
      let (obj, v) ← logDensity obj row
      let rest ← loglikLoop obj l
      return v :: rest

/-- The table of samples of a `CarmaSample`: `p`, `q`, the trace, `logpost`, the derived values, `loglik`. -/
structure Table where
  p : ℕ
  q : ℕ
  trace : List (List ℝ)
  logpost : List Dbl
  rows : List Row
  loglik : List Dbl

/-- `CarmaSample.__init__` (`carma_pack.py:281-324`) without `filename` and `MLE`. -/
noncomputable def carmaSample {p : ℕ} (c : Par (CarP p)) (q : ℕ) : Res Table := do
  let trace ← getSamples c
  let m ← columns trace
  let p' := m - 3 - q
  let rows ← trace.mapM (mkRow p' q)
  let loglik ← loglikLoop { c.obj with b := c.obj.b.setMLE true } (trace.take c.logposts.length)
  if trace.length < c.logposts.length then .error .bounds
  else return ⟨p', q, trace, c.logposts, rows, loglik⟩

/-- What a `Car1Sample` holds for one sample: `var`, `measerr_scale`, `mu`, `log_omega`, `sigma`. -/
structure Row1 where
  var : ℝ
  scale : ℝ
  mu : ℝ
  logOmega : ℝ
  sigma : ℝ

/-- `Car1Sample.generate_from_trace` and `_sigma_noise` for one sample (`carma_pack.py:906-912`, `922-923`). -/
noncomputable def mkRow1 (row : List ℝ) : Res Row1 := do
  let s ← rd row 0
  let scale ← rd row 1
  let mu ← rd row 2
  let lo ← rd row 3
  let sigma ← sampSigma1 row
  return ⟨s ^ 2, scale, mu, lo, sigma⟩

/-- The table of samples of a `Car1Sample`. -/
structure Table1 where
  trace : List (List ℝ)
  logpost : List Dbl
  rows : List Row1
  loglik : List Dbl

/-- `Car1Sample.__init__` (`carma_pack.py:879-904`) without `filename`. -/
noncomputable def car1Sample (c : Par Car1) : Res Table1 := do
  let trace ← getSamples c
  let _ ← columns trace
  let rows ← trace.mapM mkRow1
  let loglik ← (c.logposts.zip trace).mapM fun x => sampLoglik1 x.1 x.2
  if trace.length < c.logposts.length then .error .bounds
  else return ⟨trace, c.logposts, rows, loglik⟩

/-- The object `run_mcmc` returns. -/
inductive Fit where
  | car1 (s : Table1)
  | carma (s : Table)

/-- `CarmaModel.run_mcmc` (`carma_pack.py:53-90`) on the arrays held by the model. `none` is an argument left out (or `None`):
`ntemperatures`, `nburnin` (`int(nsamples / 2)`), `init` (an empty vector); `nthin` is 1 by default. For `p = 1` neither `q` nor
`ntemperatures` is used. The `assert (p > 1)` of `RunCarmaSampler` is off in a release build. -/
noncomputable def runMcmc (fuel : ℕ) (srt : List ℝ → List ℕ) (time y ysig : List ℝ) (p q nsamples : ℕ) (nburnin ntemperatures : Option ℕ)
    (nthin : ℕ) (init : Option (List ℝ)) (r : Rng) : Res Fit :=
  let nt := ntemperatures.getD (max 10 (p + q))
  let nb := nburnin.getD (nsamples / 2)
  let init := init.getD []
  if p = 1 then do
    let c ← runCar1Sampler fuel srt nsamples nb time y ysig nthin init r
    return .car1 (← car1Sample c)
  else do
    let c ← runCarmaSampler fuel srt nsamples nb time y ysig p q nt false nthin init r
    return .carma (← carmaSample c q)

/-- `CarmaModel(time, y, ysig, p, q).run_mcmc(nsamples, ..)`: the constructor (`carma_pack.py:17-51`) followed by `run_mcmc`. `srt` is
`np.argsort`, `srt'` is `arma::sort_index`. -/
noncomputable def fit (fuel : ℕ) (srt srt' : List ℝ → List ℕ) (time y ysig : List ℝ) (p q nsamples : ℕ) (nburnin ntemperatures : Option ℕ)
    (nthin : ℕ) (init : Option (List ℝ)) (r : Rng) : Res Fit := do
  let (t, v, e) ← carmaModel srt time y ysig
  runMcmc fuel srt' t v e p q nsamples nburnin ntemperatures nthin init r

end Verif.Model.Py
