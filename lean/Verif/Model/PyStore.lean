import Verif.Model.Py

/-!
`carma_process` (`carma_pack.py:1148-1259`) with the type of the array it stores its values in. Line 1228 makes the array of values with
`np.empty_like(time)`: it has the element type of `time`, so that for integer times every value is converted to an integer on assignment.
-/

namespace Verif.Model.Py

variable {p : ℕ}

/-- Assignment of a double to an element of an integer array: the part after the decimal point is dropped. (Values outside the range of the
integer type are not modelled.) -/
noncomputable def toInt (x : ℝ) : ℝ := if 0 ≤ x then ⌊x⌋ else ⌈x⌉

/-- One pass of the loop of `carma_process` (lines 1238-1257) with the normal draw `z`; `st` is the conversion on assignment to `y[i]`. -/
noncomputable def genStepAs (st : ℝ → ℝ) (roots b : Fin p → ℂ) (V : Matrix (Fin p) (Fin p) ℂ) (dt z : ℝ) (g : Gen p) : Res (Gen p) := do
  let gain ← KFp.gainOf b g.pred g.var
  let state := fun k => g.state k + (g.innov : ℂ) * gain k
  let P := KFp.measVar g.pred g.var gain
  let rho := KFp.rhoOf roots dt
  let state := fun k => state k * rho k
  let P := KFp.timeVar rho P V
  let mean := (dotProduct b state).re
  let var := KFp.quad b P
  let sd ← sqrt var
  let y := st (mean + sd * z)
  return { state := state, pred := P, mean := mean, var := var, innov := y - mean, y := g.y ++ [y] }

/-- The loop run `k` times. -/
noncomputable def genLoopAs (st : ℝ → ℝ) (roots b : Fin p → ℂ) (V : Matrix (Fin p) (Fin p) ℂ) (time : List ℝ) (z : ℕ → ℝ) (g0 : Gen p) : ℕ → Res (Gen p)
  | 0 => .ok g0
  | k + 1 => do
      let g ← genLoopAs st roots b V time z g0 k
      let t1 ← rd time (k + 1)
      let t0 ← rd time k
      genStepAs st roots b V (t1 - t0) (z (k + 1)) g

/-- `carma_process(time, sigsqr, ar_roots, ma_coefs)` (lines 1148-1259) for `p >= 2` and an array `time` whose element type has the conversion
`st`: the identity for doubles, `toInt` for integers. Otherwise as `carmaProcess`. -/
noncomputable def carmaProcessAs (st : ℝ → ℝ) (time : List ℝ) (sigsqr : ℝ) (roots : Fin p → ℂ) (ma : List ℝ) (z : ℕ → ℝ) : Res (List ℝ × List ℝ) :=
  if p < 2 then .error .bounds
  else
    let time := time.mergeSort (fun a b => decide (a ≤ b))
    do
    let J ← KFp.jvec roots
    let b ← KFp.rotate roots (KFp.padMA p ma)
    let V ← stateVar sigsqr roots J
    let var := KFp.quad b V
    let sd ← sqrt var
    if time.length = 0 then .error .bounds
    let y0 := st (0 + sd * z 0)
    let g ← genLoopAs st roots b V time z { state := 0, pred := V, mean := 0, var := var, innov := y0, y := [y0] } (time.length - 1)
    return (g.y, time)

end Verif.Model.Py
