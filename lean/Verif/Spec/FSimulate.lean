import Verif.Model.FSimulate
import Verif.Spec.FPredict

/-!
Simulation in floating-point arithmetic: what is assumed of the filter object, and earlier calls.
-/

namespace Verif.Spec

open Verif.Model

/-- The vectors of the object belong together: `n ≥ 2` times, values, errors, means and variances, and the time differences as the
constructor computes them. Nothing is said about the numbers: they may be infinite or NaN. -/
structure Whole (A : Arith) (s : FKF1) : Prop where
  two : 2 ≤ s.time.length
  dt : FKF1.diffs A s.time = .ok s.dt
  y : s.y.length = s.time.length
  yerr : s.yerr.length = s.time.length
  mean : s.mean.length = s.time.length
  var : s.var.length = s.time.length

/-- The filter object after any number of earlier calls of `Filter`, `Predict` and `Simulate` that returned. -/
inductive Used (A : Arith) (s : FKF1) : FKF1 → Prop
  | none : Used A s s
  | filter {s1 s2 : FKF1} : Used A s s1 → FKF1.filter A s1 = .ok s2 → Used A s s2
  | predict {s1 s2 : FKF1} {x : Dbl} {r : Dbl × Dbl} : Used A s s1 → FKF1.predict A s1 x = .ok (s2, r) → Used A s s2
  | simulate {s1 s2 : FKF1} {times : List Dbl} {zs : ℕ → Dbl} {xs : List Dbl} :
      Used A s s1 → FKF1.simulate A s1 times zs = .ok (s2, xs) → Used A s s2

end Verif.Spec
