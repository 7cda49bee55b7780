import Verif.Model.KFp

/-!
Model of the Python class `KalmanFilterDeprecated` of `src/carmcmc/carma_pack.py` (lines 1264-1527), an older pure-numpy version of the CARMA
filter. Arrays are lists of reals (float arrays; with integer time arrays `np.empty_like(self.time)` would truncate the results, which is
not modelled). Matrix operations on the complex state are the ones of `Verif.Model.KFp`: `quad`, `gainOf`, `measVar`, `rhoOf`, `timeVar`.
An `IndexError` is `bounds`; `ValueError`, `LinAlgError` and `ZeroDivisionError` are `runtime`; a numpy division by zero is `nonfinite`.
-/

namespace Verif.Model.Py

open Verif.Model Matrix

open scoped Classical

/-- Attributes of `KalmanFilterDeprecated` (`carma_pack.py:1280-1287`, `1321-1338`). `state` to `cur` only exist after `reset`. -/
structure DK (p : ℕ) where
  time : List ℝ
  y : List ℝ
  yvar : List ℝ
  sigsqr : ℝ
  roots : Fin p → ℂ
  ma : List ℝ
  state : Fin p → ℂ
  stateVar : Matrix (Fin p) (Fin p) ℂ
  predVar : Matrix (Fin p) (Fin p) ℂ
  rotma : Fin p → ℂ
  kmean : List ℝ
  kvar : List ℝ
  innov : ℝ
  cur : ℕ

namespace DK

variable {p : ℕ}

/-- `__init__` (`carma_pack.py:1265-1287`): `np.zeros(p - len(ma_coefs))` raises when there are too many coefficients; the `try` around the
comparison tests nothing. -/
def new (time y yvar : List ℝ) (sigsqr : ℝ) (roots : Fin p → ℂ) (ma : List ℝ) : Res (DK p) :=
  if p < ma.length then .error .runtime
  else .ok { time := time, y := y, yvar := yvar, sigsqr := sigsqr, roots := roots,
             ma := ma ++ List.replicate (p - ma.length) 0,
             state := 0, stateVar := 0, predVar := 0, rotma := 0, kmean := [], kvar := [], innov := 0, cur := 0 }

/-- `np.empty_like(self.time)`: as many entries as `time`, with whatever values the memory holds. -/
def emptyLike (junk : ℕ → ℝ) (l : List ℝ) : List ℝ := (List.range l.length).map junk

/-- The loop filling `StateVar` column by column (`carma_pack.py:1312-1314`). -/
noncomputable def stationary (sigsqr : ℝ) (roots J : Fin p → ℂ) : Res (Matrix (Fin p) (Fin p) ℂ) :=
  if ∃ i j : Fin p, roots i + star (roots j) = 0 then .error .nonfinite
  else .ok (Matrix.of fun i j => -(sigsqr : ℂ) * J i * star (J j) / (roots i + star (roots j)))

/-- `reset` (`carma_pack.py:1289-1338`). `EigenMat[1, :]` raises for `p < 2`, `solve` for a singular matrix. -/
noncomputable def reset (junk : ℕ → ℝ) (s : DK p) : Res (DK p) := do
  if p < 2 then .error .bounds
  let J ← KFp.jvec s.roots
  let rotma ← KFp.rotate s.roots s.ma
  let V ← stationary s.sigsqr s.roots J
  let kmean ← wr (emptyLike junk s.time) 0 0
  let e0 ← rd s.yvar 0
  let kvar ← wr (emptyLike junk s.time) 0 (KFp.quad rotma V + e0)
  let y0 ← rd s.y 0
  return { s with
    state := 0, stateVar := V, predVar := V, rotma := rotma, kmean := kmean, kvar := kvar, innov := y0, cur := 1 }

/-- `update` (`carma_pack.py:1340-1364`). -/
noncomputable def update (s : DK p) : Res (DK p) := do
  let c1 ← prevIdx s.cur
  let v ← rd s.kvar c1
  let gain ← KFp.gainOf s.rotma s.predVar v
  let state := fun k => s.state k + (s.innov : ℂ) * gain k
  let P := KFp.measVar s.predVar v gain
  let t ← rd s.time s.cur
  let t1 ← rd s.time c1
  let rho := KFp.rhoOf s.roots (t - t1)
  let state := fun k => state k * rho k
  let P := KFp.timeVar rho P s.stateVar
  let kmean ← wr s.kmean s.cur (s.rotma ⬝ᵥ state).re
  let e ← rd s.yvar s.cur
  let kvar ← wr s.kvar s.cur (KFp.quad s.rotma P + e)
  let y ← rd s.y s.cur
  let m ← rd kmean s.cur
  return { s with state := state, predVar := P, kmean := kmean, kvar := kvar, innov := y - m, cur := s.cur + 1 }

/-- `filter` (`carma_pack.py:1366-1375`): returns `kalman_mean`, `kalman_var`. -/
noncomputable def filter (junk : ℕ → ℝ) (s : DK p) : Res (DK p × List ℝ × List ℝ) := do
  let s ← reset junk s
  let s ← iter update (s.time.length - 1) s
  return (s, s.kmean, s.kvar)

/-- `np.max(np.where(self.time < x))` (`carma_pack.py:1392`, `1516`): the last position holding a smaller time; `np.max` of nothing raises. -/
noncomputable def lastBelow (l : List ℝ) (x : ℝ) : Res ℕ :=
  match ((List.range l.length).filter fun i => decide (l.getD i 0 < x)).getLast? with
  | some i => .ok i
  | none => .error .runtime

/-- Running values of the interpolation loop: the filter, `const_state`, `slope_state`, `const`, `slope`, `cprecision`, `cmean`. -/
structure Coefs (p : ℕ) where
  s : DK p
  sconst : Fin p → ℂ
  sslope : Fin p → ℂ
  const : ℝ
  slope : ℝ
  prec : ℝ
  mean : ℝ

/-- Contribution of observation `i` to the running precision and mean (`carma_pack.py:1447-1448`, `1479-1480`). -/
noncomputable def accum (c : Coefs p) (i : ℕ) : Res (Coefs p) := do
  let v ← rd c.s.kvar i
  let y ← rd c.s.y i
  let a ← dv (c.slope ^ 2) v
  let b ← dv (c.slope * (y - c.const)) v
  return { c with prec := c.prec + a, mean := c.mean + b }

/-- Body of the loop over the later observations (`carma_pack.py:1457-1480`). -/
noncomputable def coefStep (c : Coefs p) (i : ℕ) : Res (Coefs p) := do
  let s := c.s
  let i1 ← prevIdx i
  let v ← rd s.kvar i1
  let gain ← KFp.gainOf s.rotma s.predVar v
  let y1 ← rd s.y i1
  let sconst := fun k => c.sconst k + gain k * ((y1 - c.const : ℝ) : ℂ)
  let sslope := fun k => c.sslope k - gain k * (c.slope : ℂ)
  let P := KFp.measVar s.predVar v gain
  let t ← rd s.time i
  let t1 ← rd s.time i1
  let rho := KFp.rhoOf s.roots (t - t1)
  let sconst := fun k => sconst k * rho k
  let sslope := fun k => sslope k * rho k
  let P := KFp.timeVar rho P s.stateVar
  let e ← rd s.yvar i
  let kvar ← wr s.kvar i (KFp.quad s.rotma P + e)
  accum { c with s := { s with predVar := P, kvar := kvar }, sconst := sconst, sslope := sslope,
                 const := (s.rotma ⬝ᵥ sconst).re, slope := (s.rotma ⬝ᵥ sslope).re } i

/-- `for i in range(ipredict + 1, self.time.size)`, run `k` times from `i` (`carma_pack.py:1456-1483`). -/
noncomputable def coefLoop : ℕ → ℕ → Coefs p → Res (Coefs p)
  | 0, _, c => .ok c
  | k + 1, i, c => do
      let c ← coefStep c i
      coefLoop k (i + 1) c

/-- `predict` (`carma_pack.py:1377-1488`). The `try` at the top tests nothing. `1.0 / ypredict_var` divides Python floats and raises on zero,
before the forecasting case returns. -/
noncomputable def predict (junk : ℕ → ℝ) (s : DK p) (x : ℝ) : Res (DK p × ℝ × ℝ) := do
  let s ← reset junk s
  let i0 ← lastBelow s.time x
  let ip := i0 + 1
  let s ← iter update (ip - 1) s
  let v ← rd s.kvar (ip - 1)
  let gain ← KFp.gainOf s.rotma s.predVar v
  let state := fun k => s.state k + (s.innov : ℂ) * gain k
  let P := KFp.measVar s.predVar v gain
  let t1 ← rd s.time (ip - 1)
  let rho := KFp.rhoOf s.roots (x - t1)
  let state := fun k => state k * rho k
  let P := KFp.timeVar rho P s.stateVar
  let ym := (s.rotma ⬝ᵥ state).re
  let yv := KFp.quad s.rotma P
  let s := { s with state := state, predVar := P }
  let prec ← (if yv = 0 then .error .runtime else .ok (1 / yv) : Res ℝ)
  let mean := prec * ym
  if s.time.length ≤ ip then
    return (s, ym, yv)
  else
    let gain ← KFp.gainOf s.rotma s.predVar yv
    let sconst := fun k => s.state k - gain k * (ym : ℂ)
    let P := KFp.measVar s.predVar yv gain
    let t ← rd s.time ip
    let rho := KFp.rhoOf s.roots (t - x)
    let sconst := fun k => sconst k * rho k
    let sslope := fun k => gain k * rho k
    let P := KFp.timeVar rho P s.stateVar
    let e ← rd s.yvar ip
    let kvar ← wr s.kvar ip (KFp.quad s.rotma P + e)
    let c ← accum { s := { s with predVar := P, kvar := kvar }, sconst := sconst, sslope := sslope,
                    const := (s.rotma ⬝ᵥ sconst).re, slope := (s.rotma ⬝ᵥ sslope).re, prec := prec, mean := mean } ip
    let c ← coefLoop (s.time.length - (ip + 1)) (ip + 1) c
    let cvar ← dv 1 c.prec
    return (c.s, c.mean * cvar, cvar)

/-- The loop of `simulate` over the sorted times (`carma_pack.py:1512-1521`); `z k` is the `k`-th standard normal draw. -/
noncomputable def simLoop (junk : ℕ → ℝ) (s : DK p) : List ℝ → (ℕ → ℝ) → Res (DK p × List ℝ)
  | [], _ => .ok (s, [])
  | x :: l, z => do
      let (s, m, v) ← predict junk s x
      let u ← drawNormal m v (z 0)
      let i ← lastBelow s.time x
      let s := { s with time := s.time.insertIdx (i + 1) x, y := s.y.insertIdx (i + 1) u, yvar := s.yvar.insertIdx (i + 1) 0 }
      let (s, us) ← simLoop junk s l fun k => z (k + 1)
      return (s, u :: us)

/-- `simulate` for an array of times (`carma_pack.py:1504-1527`). The times are sorted in place: the caller's array is changed, and the values
come in increasing order of the times. -/
noncomputable def simulate (junk : ℕ → ℝ) (s : DK p) (times : List ℝ) (z : ℕ → ℝ) : Res (DK p × List ℝ) := do
  let (s', us) ← simLoop junk s (times.mergeSort fun a b => decide (a ≤ b)) z
  return ({ s' with time := s.time, y := s.y, yvar := s.yvar }, us)

end DK
end Verif.Model.Py
