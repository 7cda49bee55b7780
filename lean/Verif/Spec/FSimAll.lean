import Verif.Spec.FSimulate
import Verif.Spec.FPredict

/-!
Data of moderate size, and requested times that are far enough apart (C94).
-/

namespace Verif.Spec

open Verif.Model

/-- Data and parameters of moderate size: values of at most `2^100` (about `1e30`) in magnitude, and measurement errors, scale and rate between
`2^-50` and `2^50` (about `1e-15` and `1e15`). -/
structure MildSim (ts ys es : List ℝ) (sigsqr w : ℝ) : Prop extends MildTimes ts where
  leny : ys.length = ts.length
  lene : es.length = ts.length
  y : ∀ y ∈ ys, |y| ≤ 2 ^ (100 : ℤ)
  e : ∀ e ∈ es, 2 ^ (-50 : ℤ) ≤ e ∧ e ≤ 2 ^ (50 : ℤ)
  sig_lo : 2 ^ (-50 : ℤ) ≤ sigsqr
  sig_hi : sigsqr ≤ 2 ^ (50 : ℤ)
  w_dbl : F64 w
  w_lo : 2 ^ (-50 : ℤ) ≤ w
  w_hi : w ≤ 2 ^ (50 : ℤ)

/-- The requested times differ from each other, and from the point last before a requested time, observed or requested, to that time the
computed decay factor is not 1. -/
structure Spaced (A : Arith) (w : ℝ) (ts times : List ℝ) : Prop where
  nodup : times.Nodup
  decay : ∀ x ∈ times, ∀ t ∈ ts ++ times, t < x → (∀ u ∈ ts ++ times, ¬ (t < u ∧ u < x)) → decayTo A w t x ≠ .fin 1

end Verif.Spec
