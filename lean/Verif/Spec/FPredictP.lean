import Verif.Model.FPredictP
import Verif.Spec.FSimulate

/-!
Prediction and simulation of a CARMA process with machine numbers: objects and earlier calls.
-/

namespace Verif.Spec

open Verif.Model

variable {p : ℕ}

/-- The filter object after any number of earlier calls of `Filter`, `Predict` and `Simulate` that returned. -/
inductive UsedP (C : CArith) (s : FKFp p) : FKFp p → Prop
  | none : UsedP C s s
  | filter {s1 s2 : FKFp p} : UsedP C s s1 → FKFp.filter C s1 = .ok s2 → UsedP C s s2
  | predict {s1 s2 : FKFp p} {x : Dbl} {r : Dbl × Dbl} : UsedP C s s1 → FKFp.predict C s1 x = .ok (s2, r) → UsedP C s s2
  | simulate {s1 s2 : FKFp p} {times : List Dbl} {zs : ℕ → Dbl} {xs : List Dbl} :
      UsedP C s s1 → FKFp.simulate C s1 times zs = .ok (s2, xs) → UsedP C s s2

/-- The linear system that every call solves first: one equation per power of the roots. -/
noncomputable def Solvable (C : CArith) (omega : Fin p → CD) : Prop :=
  ∃ J, C.solve p (fun i k => if (i : ℕ) = 0 then CD.ofReal (.fin 1) else if (i : ℕ) = 1 then omega k else C.cpow (omega k) i)
    (fun i => CD.ofReal (if (i : ℕ) + 1 = p then .fin 1 else .fin 0)) = some J

end Verif.Spec
