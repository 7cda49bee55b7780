import Verif.Model.FSetP
import Verif.Spec.FPredictP
import Verif.Spec.FSimulate

/-!
Filter objects with any history of calls and setters.
-/

namespace Verif.Spec

open Verif.Model

/-- The CARMA filters a program can have: built by one of the constructors from data of equal lengths (after the one taking data only, `SetSigsqr` and
`SetOmega` are called; before, the object holds indeterminate numbers), then any number of calls of `Filter`, `Predict`, `Simulate` that returned, and of
setters: any parameters, also of another order, and values and errors of the same number as before. -/
inductive LiveP (C : CArith) : ∀ {p : ℕ}, FKFp p → Prop
  | new {p : ℕ} {srt : List Dbl → List ℕ} {time y yerr ma : List Dbl} {sigsqr : Dbl} {omega : Fin p → CD} {s : FKFp p} : y.length = time.length →
      yerr.length = time.length → FKFp.new C srt time y yerr sigsqr omega ma = .ok s → LiveP C s
  | data {p p' : ℕ} {srt : List Dbl → List ℕ} {time y yerr : List Dbl} {s : FKFp p} (v : Dbl) (w : Fin p' → CD) : y.length = time.length →
      yerr.length = time.length → FKFp.newData C p srt time y yerr = .ok s → LiveP C ((s.setSigsqr v).setOmega w)
  | filter {p : ℕ} {s s' : FKFp p} : LiveP C s → FKFp.filter C s = .ok s' → LiveP C s'
  | predict {p : ℕ} {s s' : FKFp p} {x : Dbl} {r : Dbl × Dbl} : LiveP C s → FKFp.predict C s x = .ok (s', r) → LiveP C s'
  | simulate {p : ℕ} {s s' : FKFp p} {times : List Dbl} {zs : ℕ → Dbl} {xs : List Dbl} :
      LiveP C s → FKFp.simulate C s times zs = .ok (s', xs) → LiveP C s'
  | sigsqr {p : ℕ} {s : FKFp p} (v : Dbl) : LiveP C s → LiveP C (s.setSigsqr v)
  | omega {p p' : ℕ} {s : FKFp p} (w : Fin p' → CD) : LiveP C s → LiveP C (s.setOmega w)
  | ma {p : ℕ} {s : FKFp p} (ma : List Dbl) : LiveP C s → LiveP C (s.setMA ma)
  | y {p : ℕ} {s : FKFp p} (y : List Dbl) : LiveP C s → y.length = s.b.y.length → LiveP C (s.setY y)
  | yerr {p : ℕ} {s : FKFp p} (e : List Dbl) : LiveP C s → e.length = s.b.yerr.length → LiveP C (s.setYerr e)

/-- Same data and same parameters, as the getters show them. -/
structure SameShown {p : ℕ} (s k : FKFp p) : Prop where
  time : k.b.time = s.b.time
  y : k.b.y = s.b.y
  yerr : k.b.yerr = s.b.yerr
  sigsqr : k.b.sigsqr = s.b.sigsqr
  omega : k.omega = s.omega
  ma : k.ma = s.ma

/-- The CAR(1) filters a program can have. -/
inductive Live1 (A : Arith) : FKF1 → Prop
  | new {srt : List Dbl → List ℕ} {time y yerr : List Dbl} {sigsqr omega : Dbl} {s : FKF1} : y.length = time.length →
      yerr.length = time.length → FKF1.new A srt time y yerr sigsqr omega = .ok s → Live1 A s
  | data {srt : List Dbl → List ℕ} {time y yerr : List Dbl} {s : FKF1} (v w : Dbl) : y.length = time.length →
      yerr.length = time.length → FKF1.newData A srt time y yerr = .ok s → Live1 A ((s.setSigsqr v).setOmega w)
  | filter {s s' : FKF1} : Live1 A s → FKF1.filter A s = .ok s' → Live1 A s'
  | predict {s s' : FKF1} {x : Dbl} {r : Dbl × Dbl} : Live1 A s → FKF1.predict A s x = .ok (s', r) → Live1 A s'
  | simulate {s s' : FKF1} {times : List Dbl} {zs : ℕ → Dbl} {xs : List Dbl} : Live1 A s → FKF1.simulate A s times zs = .ok (s', xs) → Live1 A s'
  | sigsqr {s : FKF1} (v : Dbl) : Live1 A s → Live1 A (s.setSigsqr v)
  | omega {s : FKF1} (w : Dbl) : Live1 A s → Live1 A (s.setOmega w)
  | y {s : FKF1} (y : List Dbl) : Live1 A s → y.length = s.y.length → Live1 A (s.setY y)
  | yerr {s : FKF1} (e : List Dbl) : Live1 A s → e.length = s.yerr.length → Live1 A (s.setYerr e)

@[inherit_doc SameShown]
structure SameShown1 (s k : FKF1) : Prop where
  time : k.time = s.time
  y : k.y = s.y
  yerr : k.yerr = s.yerr
  sigsqr : k.sigsqr = s.sigsqr
  omega : k.omega = s.omega

end Verif.Spec
