import Mathlib.Logic.Function.Iterate
import Verif.Model.PyPool

/-!
Random trials of a search: the generators after `k` trials, and the result of the `k`-th trial, when one process runs them one after the other.
-/

namespace Verif.Spec

variable {S R : Type}

/-- State of the generators after `k` trials from `s`. -/
def genAfter (trial : S → R × S) (s : S) (k : ℕ) : S := (fun s => (trial s).2)^[k] s

/-- Result of the `k`-th trial from `s`. -/
def nthTrial (trial : S → R × S) (s : S) (k : ℕ) : R := (trial (genAfter trial s k)).1

/-- Successive calls of `get_mle` with the same arguments, from generators `s`: their results in order, and the generators afterwards. -/
inductive MleCalls (py3 : Bool) (cpu : ℕ) (trial : S → Model.Py.Mle × S) (ntrials : ℕ) (njobs : ℤ) (s : S) : List (Model.Res Model.Py.Mle) → S → Prop
  | nil : MleCalls py3 cpu trial ntrials njobs s [] s
  | snoc {l : List (Model.Res Model.Py.Mle)} {r : Model.Res Model.Py.Mle} {s1 s2 : S} : MleCalls py3 cpu trial ntrials njobs s l s1 →
      Model.Py.GetMle py3 cpu trial ntrials njobs s1 r s2 → MleCalls py3 cpu trial ntrials njobs s (l ++ [r]) s2

/-- Number of worker processes asked for. -/
def jobs (cpu : ℕ) (njobs : ℤ) : ℤ := if njobs = -1 then cpu else njobs

end Verif.Spec
