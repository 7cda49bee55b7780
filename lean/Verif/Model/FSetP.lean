import Verif.Model.FPredictP

/-!
The setters of the filters with machine numbers.
-/

namespace Verif.Model

namespace FKF1

/-- `SetTimeSeries(y)`, `SetTimeSeriesErr(yerr)`, `SetSigsqr(sigsqr)`, `SetOmega(omega)` of `KalmanFilter<double>` (`src/include/kfilter.hpp` lines
85-107): plain assignments. -/
def setY (s : FKF1) (y : List Dbl) : FKF1 := { s with y := y }
@[inherit_doc setY]
def setYerr (s : FKF1) (yerr : List Dbl) : FKF1 := { s with yerr := yerr }
@[inherit_doc setY]
def setSigsqr (s : FKF1) (v : Dbl) : FKF1 := { s with sigsqr := v }
@[inherit_doc setY]
def setOmega (s : FKF1) (w : Dbl) : FKF1 := { s with omega := w }

/-- `SetTime(time)` (`src/include/kfilter.hpp` lines 79-81): a plain assignment, `dt_` keeps the old differences. -/
def setTime (s : FKF1) (time : List Dbl) : FKF1 := { s with time := time }

end FKF1

namespace FKFp
variable {p : ℕ}

/-- `SetTimeSeries(y)`, `SetTimeSeriesErr(yerr)`, `SetSigsqr(sigsqr)` (`src/include/kfilter.hpp` lines 85-101): plain assignments. -/
def setY (s : FKFp p) (y : List Dbl) : FKFp p := { s with b := s.b.setY y }
@[inherit_doc setY]
def setYerr (s : FKFp p) (yerr : List Dbl) : FKFp p := { s with b := s.b.setYerr yerr }
@[inherit_doc setY]
def setSigsqr (s : FKFp p) (v : Dbl) : FKFp p := { s with b := s.b.setSigsqr v }

/-- `SetTime(time)` (`src/include/kfilter.hpp` lines 79-81): a plain assignment, `dt_` keeps the old differences. -/
def setTime (s : FKFp p) (time : List Dbl) : FKFp p := { s with b := s.b.setTime time }

/-- `SetMA(ma_coefs)` (`src/include/kfilter.hpp` lines 337-339): no padding. -/
def setMA (s : FKFp p) (ma : List Dbl) : FKFp p := { s with ma := ma }

/-- `SetOmega(omega)` (`src/include/kfilter.hpp` lines 345-357): the order becomes the number of roots given, and the state arrays are zeroed. -/
noncomputable def setOmega {p' : ℕ} (s : FKFp p) (omega : Fin p' → CD) : FKFp p' := zeroed p' s.b omega s.ma s.innov

end FKFp
end Verif.Model
