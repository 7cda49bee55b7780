import Verif.Model.FSetP
import Verif.Spec.FCarma

/-!
The sign of the data: what it means that a program treats `y` and `-y` alike, in machine numbers.
-/

namespace Verif.Spec

open Verif.Model

/-- Rounding does not prefer a sign: rounding to nearest (ties to even, or away from zero) and toward zero; not upwards or downwards. -/
def SignFree (A : Arith) : Prop := ∀ x, A.rnd (-x) = (A.rnd x).neg

/-- Nor do the complex operations that act on a signed quantity: the product of two complex numbers and the scalar product of two vectors, as functions
of the second factor. -/
structure SignFreeC (C : CArith) : Prop where
  real : SignFree C.r
  cmul : ∀ z w, C.cmul z w.neg = (C.cmul z w).neg
  dot : ∀ p (v w : Fin p → CD), C.dot p v (fun k => (w k).neg) = (C.dot p v w).neg

/-- A call of a member function of a filter whose `omega` is of type `W`. The standard normal draws of a simulation are given with it. -/
inductive Call (W : Type)
  | filter
  | predict (time : Dbl)
  | simulate (times : List Dbl) (zs : ℕ → Dbl)
  | setTime (time : List Dbl)
  | setY (y : List Dbl)
  | setYerr (yerr : List Dbl)
  | setSigsqr (v : Dbl)
  | setOmega (w : W)
  | setMA (ma : List Dbl)

/-- What a call lets the caller see: `mean` and `var` after `Filter`, the pair returned by `Predict`, the values returned by `Simulate`. -/
inductive Answer
  | filtered (mean var : List Dbl)
  | predicted (mean var : Dbl)
  | simulated (xs : List Dbl)
  | done

/-- The same call with the sign of everything in the unit of the data changed. -/
noncomputable def Call.flip {W : Type} : Call W → Call W
  | .setY y => .setY (y.map .neg)
  | .simulate times zs => .simulate times fun k => (zs k).neg
  | c => c

@[inherit_doc Call.flip]
noncomputable def Answer.flip : Answer → Answer
  | .filtered m v => .filtered (m.map .neg) v
  | .predicted m v => .predicted m.neg v
  | .simulated xs => .simulated (xs.map .neg)
  | .done => .done

/-- One call of a CAR(1) filter. (`SetMA` does not exist there.) -/
noncomputable def call1 (A : Arith) (s : FKF1) : Call Dbl → Res (FKF1 × Answer)
  | .filter => (FKF1.filter A s).map fun s => (s, .filtered s.mean s.var)
  | .predict x => (FKF1.predict A s x).map fun r => (r.1, .predicted r.2.1 r.2.2)
  | .simulate times zs => (FKF1.simulate A s times zs).map fun r => (r.1, .simulated r.2)
  | .setTime t => .ok (s.setTime t, .done)
  | .setY y => .ok (s.setY y, .done)
  | .setYerr e => .ok (s.setYerr e, .done)
  | .setSigsqr v => .ok (s.setSigsqr v, .done)
  | .setOmega w => .ok (s.setOmega w, .done)
  | .setMA _ => .ok (s, .done)

/-- One call of a CARMA filter. -/
noncomputable def callP (C : CArith) {p : ℕ} (s : FKFp p) : Call (Fin p → CD) → Res (FKFp p × Answer)
  | .filter => (FKFp.filter C s).map fun s => (s, .filtered s.b.mean s.b.var)
  | .predict x => (FKFp.predict C s x).map fun r => (r.1, .predicted r.2.1 r.2.2)
  | .simulate times zs => (FKFp.simulate C s times zs).map fun r => (r.1, .simulated r.2)
  | .setTime t => .ok (s.setTime t, .done)
  | .setY y => .ok (s.setY y, .done)
  | .setYerr e => .ok (s.setYerr e, .done)
  | .setSigsqr v => .ok (s.setSigsqr v, .done)
  | .setOmega w => .ok (s.setOmega w, .done)
  | .setMA ma => .ok (s.setMA ma, .done)

/-- The answers to a sequence of calls of one object, in this order, or the fault that ends it. -/
noncomputable def answers {S K R : Type} (f : S → K → Res (S × R)) (s : S) : List K → Res (List R)
  | [] => .ok []
  | c :: cs => do
      let r ← f s c
      let l ← answers f r.1 cs
      return r.2 :: l

/-- `theta` with the sign of the mean changed. -/
noncomputable def flipMu (θ : List Dbl) : List Dbl := θ.set 2 ((θ.getD 2 (.fin 0)).neg)

end Verif.Spec
