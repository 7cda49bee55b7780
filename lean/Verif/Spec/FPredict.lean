import Verif.Model.FPredict
import Verif.Spec.Binary64

/-!
Prediction in floating-point arithmetic: data and parameters of moderate size, the place of a request among the observations, and
earlier calls.
-/

namespace Verif.Spec

open Verif.Model

/-- Data and parameters of moderate size: times as in `MildTimes`, values of at most `2^300`, measurement errors, `sigsqr` and the rate
`w` between `2^-148` and `2^148` (about `3e-45` and `3e44`), and `w` a double. -/
structure MildPred (ts ys es : List ℝ) (sigsqr w : ℝ) : Prop extends MildTimes ts where
  leny : ys.length = ts.length
  lene : es.length = ts.length
  y : ∀ y ∈ ys, |y| ≤ 2 ^ (300 : ℤ)
  e : ∀ e ∈ es, 2 ^ (-148 : ℤ) ≤ e ∧ e ≤ 2 ^ (148 : ℤ)
  sig_lo : 2 ^ (-148 : ℤ) ≤ sigsqr
  sig_hi : sigsqr ≤ 2 ^ (148 : ℤ)
  w_dbl : F64 w
  w_lo : 2 ^ (-148 : ℤ) ≤ w
  w_hi : w ≤ 2 ^ (148 : ℤ)

/-- Exactly the first `i` of the times lie before `x`. -/
structure Follows (ts : List ℝ) (x : ℝ) (i : ℕ) : Prop where
  le : i ≤ ts.length
  past : ∀ j < i, ts.getD j 0 < x
  next : i < ts.length → x ≤ ts.getD i 0

/-- The filter object after any number of earlier calls of `Filter` and `Predict` that returned, with any arguments. -/
inductive Asked (A : Arith) (s : FKF1) : FKF1 → Prop
  | none : Asked A s s
  | filter {s1 s2 : FKF1} : Asked A s s1 → FKF1.filter A s1 = .ok s2 → Asked A s s2
  | predict {s1 s2 : FKF1} {x : Dbl} {r : Dbl × Dbl} : Asked A s s1 → FKF1.predict A s1 x = .ok (s2, r) → Asked A s s2

/-- The factor `exp(-(x - t) w)` as `Predict` computes it. -/
noncomputable def decayTo (A : Arith) (w t x : ℝ) : Dbl := A.exp (A.mul (A.sub (.fin x) (.fin t)).neg (.fin w))

/-- Sizes that enter the error bounds: values of at most `2^a`; the stationary variance `sigsqr / (2 w)` and the squares of the measurement
errors between `2^c` and `2^b / 2`; and the memory `N` of the process: either there are at most `N` observations, or the correlation
of the process between neighbouring observations is at most `1 - 1 / N`. -/
structure SizedPred (ts ys es : List ℝ) (sigsqr w : ℝ) (a b c : ℤ) (N : ℝ) : Prop where
  a_lo : -300 ≤ a
  a_hi : a ≤ 300
  b_lo : -300 ≤ b
  b_hi : b ≤ 300
  c_lo : -300 ≤ c
  c_hi : c ≤ 300
  y : ∀ y ∈ ys, |y| ≤ 2 ^ a
  stat_lo : 2 ^ c ≤ sigsqr / (2 * w)
  stat_hi : 2 * (sigsqr / (2 * w)) ≤ 2 ^ b
  e_lo : ∀ e ∈ es, 2 ^ c ≤ e ^ 2
  e_hi : ∀ e ∈ es, 2 * e ^ 2 ≤ 2 ^ b
  one : 1 ≤ N
  memory : (ts.length : ℝ) ≤ N ∨ ∀ i, i + 1 < ts.length → Real.exp (-w * (ts.getD (i + 1) 0 - ts.getD i 0)) ≤ 1 - 1 / N

end Verif.Spec
