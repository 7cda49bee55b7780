import Mathlib.Analysis.SpecialFunctions.Log.Basic
import Mathlib.Analysis.SpecialFunctions.Exp
import Mathlib.Analysis.Real.Sqrt

/-!
`double` values at the places where the code looks at infinities or NaN: log-densities, acceptance ratios, prior bounds,
fractional root distances. Finite values are exact reals (no rounding, no overflow) and zero is unsigned (`+0`).
-/

namespace Verif.Model

open scoped Classical

/-- An idealised IEEE double. -/
inductive Dbl where
  | fin (x : ℝ)
  | pinf
  | ninf
  | nan

namespace Dbl

noncomputable instance : Inhabited Dbl := ⟨nan⟩

/-- `arma::is_finite`, `std::isfinite`. -/
def isFin : Dbl → Prop
  | fin _ => True
  | _ => False

/-- infinity with the sign of a finite factor; `0 * inf` is NaN -/
noncomputable def infTimes (x : ℝ) : Dbl := if 0 < x then pinf else if x < 0 then ninf else nan

/-- IEEE addition. -/
noncomputable def add : Dbl → Dbl → Dbl
  | nan, _ => nan
  | _, nan => nan
  | fin a, fin b => fin (a + b)
  | fin _, b => b
  | a, fin _ => a
  | pinf, pinf => pinf
  | ninf, ninf => ninf
  | pinf, ninf => nan
  | ninf, pinf => nan

/-- IEEE negation. -/
noncomputable def neg : Dbl → Dbl
  | nan => nan
  | fin a => fin (-a)
  | pinf => ninf
  | ninf => pinf

/-- IEEE subtraction. -/
noncomputable def sub (a b : Dbl) : Dbl := add a (neg b)

/-- IEEE multiplication. -/
noncomputable def mul : Dbl → Dbl → Dbl
  | nan, _ => nan
  | _, nan => nan
  | fin a, fin b => fin (a * b)
  | fin a, pinf => infTimes a
  | fin a, ninf => infTimes (-a)
  | pinf, fin b => infTimes b
  | ninf, fin b => infTimes (-b)
  | pinf, pinf => pinf
  | ninf, ninf => pinf
  | pinf, ninf => ninf
  | ninf, pinf => ninf

/-- IEEE division; a zero divisor counts as `+0`. -/
noncomputable def div : Dbl → Dbl → Dbl
  | nan, _ => nan
  | _, nan => nan
  | fin a, fin b => if b = 0 then infTimes a else fin (a / b)
  | fin _, pinf => fin 0
  | fin _, ninf => fin 0
  | pinf, fin b => if b < 0 then ninf else pinf
  | ninf, fin b => if b < 0 then pinf else ninf
  | _, _ => nan

/-- `a < b`; false when either is NaN. -/
def lt : Dbl → Dbl → Prop
  | fin a, fin b => a < b
  | ninf, fin _ => True
  | ninf, pinf => True
  | fin _, pinf => True
  | _, _ => False

/-- `a > b`. -/
def gt (a b : Dbl) : Prop := lt b a

/-- `std::min(a,b)`, i.e. `(b < a) ? b : a`. -/
noncomputable def min (a b : Dbl) : Dbl := if lt b a then b else a

/-- `std::max(a,b)`, i.e. `(a < b) ? b : a`. -/
noncomputable def max (a b : Dbl) : Dbl := if lt a b then b else a

/-- `log`. -/
noncomputable def log : Dbl → Dbl
  | fin x => if 0 < x then fin (Real.log x) else if x = 0 then ninf else nan
  | pinf => pinf
  | _ => nan

/-- `exp`. -/
noncomputable def exp : Dbl → Dbl
  | fin x => fin (Real.exp x)
  | pinf => pinf
  | ninf => fin 0
  | nan => nan

end Dbl
end Verif.Model
