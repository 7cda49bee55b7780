import Verif.Spec.FSign

/-! Specification for C109: measurement errors that differ in sign only. -/

namespace Verif.Spec

open Verif.Model

/-- As many errors, with the same absolute values one by one. -/
def SameSize (e e' : List Dbl) : Prop := e.map Dbl.abs = e'.map Dbl.abs

/-- The same call, but for the signs of the errors handed to `SetTimeSeriesErr`. -/
inductive SameCall {W : Type} : Call W → Call W → Prop
  | same (c : Call W) : SameCall c c
  | yerr {e e' : List Dbl} (h : SameSize e e') : SameCall (.setYerr e) (.setYerr e')

end Verif.Spec
