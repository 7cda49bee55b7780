import Verif.Model.KFilter
import Verif.Model.Dbl
import Verif.Model.CarPack
import Verif.Model.Start

/-!
The class `CarmaModel` of `src/carmcmc/carma_pack.py` and the function `_get_mle_single`.

A Python exception is a fault: `IndexError` is `bounds`, `ZeroDivisionError` is `runtime`. `np.argsort` is a parameter `srt`, any function
returning a sorting index. The optimiser `scipy.optimize.minimize` is library code: what it returns is a parameter.
Printing is left out.
-/

namespace Verif.Model.Py

open Classical in
/-- `np.unique(s, return_index=True)[1]` for an array already in order (`carma_pack.py:34`): the index of the first occurrence of each
value. -/
noncomputable def firstIdx (s : List ℝ) : List ℕ :=
  (List.range s.length).filter fun i => i = 0 ∨ s.getD i 0 ≠ s.getD (i - 1) 0

/-- `CarmaModel.__init__` (`carma_pack.py:33-49`): sort by time, keep the first of each group of equal times. Returns `self.time`, `self.y`,
`self.ysig`; the vectors `self._time`, `self._y`, `self._ysig` handed to the C++ code hold the same values. The `try: p > q` in lines 28-31
compares and discards, so it is left out. -/
noncomputable def carmaModel (srt : List ℝ → List ℕ) (time y ysig : List ℝ) : Res (List ℝ × List ℝ × List ℝ) := do
  let sIdx := srt time
  let sorted ← gather time sIdx
  let uIdx ← gather sIdx (firstIdx sorted)
  let t ← gather time uIdx
  let y' ← gather y uIdx
  let e ← gather ysig uIdx
  return (t, y', e)

/-- What `scipy.optimize.minimize` returned, the fields that are used: `fun` and `x`. -/
structure Mle where
  fn : Dbl
  x : List ℝ

open Classical in
/-- Body of the loop in `get_mle` (`carma_pack.py:121-124`). -/
noncomputable def betterMle (best m : Mle) : Mle := if m.fn.lt best.fn then m else best

/-- `CarmaModel.get_mle` (`carma_pack.py:121-129`) once the trials have run (lines 106-119). With `njobs = 1` under Python 3 line 112 makes
`MLEs` a `map` object and line 120 raises `TypeError`; the model is that of a list, which is what `pool.map` returns. -/
noncomputable def getMle (trials : List Mle) : Res Mle := do
  let first ← rd trials 0
  return trials.foldl betterMle first

/-- The list of orders searched by `choose_order` (`carma_pack.py:154-166`) when `pqlist` is not given. `qmax` is not used in the loops. -/
def pqList (pmax : ℕ) (_qmax : Option ℕ) : List (ℕ × ℕ) :=
  (List.range pmax).flatMap fun i => (List.range (i + 1)).map fun q => (i + 1, q)

/-- `this_AICc` (`carma_pack.py:178-180`): a zero denominator is a Python float division by zero. -/
noncomputable def aicc (n : ℕ) (pq : ℕ × ℕ) (fn : Dbl) : Res Dbl :=
  let k : ℝ := 2 + pq.1 + pq.2
  if (n : ℝ) - k - 1 = 0 then .error .runtime
  else .ok (((Dbl.fin (2 * k)).add ((Dbl.fin 2).mul fn)).add (.fin (2 * k * (k + 1) / (n - k - 1))))

/-- State of the loop over the candidates: `best_MLE`, `best_AICc`, `(self.p, self.q)`, the list `AICc`. -/
structure Order where
  best : Mle
  bestAic : Dbl
  pq : ℕ × ℕ
  aiccs : List Dbl

open Classical in
/-- One pass of the loop (`carma_pack.py:177-188`). -/
noncomputable def orderStep (n : ℕ) (s : Order) (m : Mle × (ℕ × ℕ)) : Res Order := do
  let a ← aicc n m.2 m.1.fn
  let aiccs := s.aiccs ++ [a]
  if a.lt s.bestAic then return ⟨m.1, a, m.2, aiccs⟩ else return { s with aiccs := aiccs }

/-- `CarmaModel.choose_order` (`carma_pack.py:131-192`). `n` is `self.time.size`, `mle p q` is the result of `self.get_mle(p, q)`, `pq0` the
order stored before the call. Returns the best fit, the list searched, the AICc values, and the order stored. -/
noncomputable def chooseOrder (n : ℕ) (mle : ℕ → ℕ → Res Mle) (pq0 : ℕ × ℕ) (pmax : ℕ) (qmax : Option ℕ)
    (pqlist : Option (List (ℕ × ℕ))) : Res (Mle × List (ℕ × ℕ) × List Dbl × (ℕ × ℕ)) := do
  let l := pqlist.getD (pqList pmax qmax)
  let mles ← l.mapM fun pq => mle pq.1 pq.2
  let first ← rd mles 0
  let s ← (mles.zip l).foldlM (orderStep n) ⟨first, .fin (10 ^ 300), pq0, []⟩
  return (s.best, l, s.aiccs, s.pq)

/-- `y.std()` of numpy: population standard deviation; of an empty array NaN. -/
noncomputable def npStd (y : List ℝ) : Res ℝ := do
  let m ← dv y.sum y.length
  let v ← dv (y.map fun x => (x - m) ^ 2).sum y.length
  return √v

/-- `theta_bnds` of `_get_mle_single` (`carma_pack.py:219-240`); `none` is `(None, None)`. `min()` of an empty array raises. -/
noncomputable def mleBox (time y : List ℝ) (p q : ℕ) : Res (List (Option (ℝ × ℝ))) := do
  let ysigma ← npStd y
  let dt ← diffs time
  let dmin ← armaMin dt
  let maxFreq0 ← dv 1 dmin
  let maxFreq := 0.9 * maxFreq0
  let tmax ← armaMax time
  let tmin ← armaMin time
  let minFreq ← dv 1 (tmax - tmin)
  let head := [some (ysigma / 10, 10 * ysigma), some (0.9, 1.1), none]
  if p = 1 then
    let lo ← logR minFreq
    let hi ← logR maxFreq
    return head ++ [some (lo, hi)]
  else
    let lo ← logR (min (minFreq ^ 2) (2 * minFreq))
    let hi ← logR (max (maxFreq ^ 2) (2 * maxFreq))
    return head ++ List.replicate p (some (lo, hi)) ++ List.replicate q none

/-- `np.random.uniform(lo, hi)` from a draw `u` in `[0, 1)`. -/
noncomputable def uniform (lo hi u : ℝ) : ℝ := lo + (hi - lo) * u

/-- One entry of the loop `carma_pack.py:246-248`. -/
noncomputable def clampOne (b : Option (ℝ × ℝ)) (x u : ℝ) : ℝ :=
  match b with
  | none => x
  | some (lo, hi) => if x < lo ∨ hi < x then uniform lo hi u else x

/-- The loop that moves the starting point into the bounds (`carma_pack.py:245-248`); `u j` is the draw used for entry `j` (the code draws
only when it needs to, from the global generator; the draws are arbitrary, so numbering them by entry loses nothing). -/
noncomputable def clampLoop (box : List (Option (ℝ × ℝ))) (u : ℕ → ℝ) : ℕ → List ℝ → Res (List ℝ)
  | _, [] => .ok []
  | j, x :: l => do
    let b ← rd box j
    let rest ← clampLoop box u (j + 1) l
    return clampOne b x (u j) :: rest

/-- Starting point given to the optimiser (`carma_pack.py:215-217, 245-248`): the recorded sample with the error scale set to one, moved into
the bounds. -/
noncomputable def mleStart (time y : List ℝ) (p q : ℕ) (sample : List ℝ) (u : ℕ → ℝ) : Res (List ℝ) := do
  let x ← wr sample 1 1
  let box ← mleBox time y p q
  clampLoop box u 0 x

end Verif.Model.Py
