import Verif.Model.Float

/-!
What the theorems about rounded arithmetic assume of the arithmetic: IEEE 754 binary64, in any rounding mode.
-/

namespace Verif.Spec

open Verif.Model

/-- The finite numbers of type `double`: `m * 2^e` with an integer `m` of at most 53 bits and `-1074 <= e <= 971`. -/
def F64 (x : ℝ) : Prop := ∃ m e : ℤ, |m| < 2 ^ 53 ∧ -1074 ≤ e ∧ e ≤ 971 ∧ x = m * 2 ^ e

/-- Binary64 arithmetic. A result is rounded to a `double` or overflows to an infinity; rounding respects order and does not
change a number that is a `double`. Rounding to nearest with any rule for ties, toward zero, upwards and downwards all
satisfy this. Nothing is assumed about the accuracy of `exp` and `log` beyond crude bounds; `sqrt` is correctly rounded. -/
structure IsBinary64 (A : Arith) : Prop where
  no_nan : ∀ x, A.rnd x ≠ .nan
  range : ∀ x r, A.rnd x = .fin r → F64 r
  mono : ∀ x y, x ≤ y → ¬ (A.rnd y).lt (A.rnd x)
  id : ∀ x, F64 x → A.rnd x = .fin x
  exp_ninf : A.exp .ninf = .fin 0
  exp_neg : ∀ x, x ≤ 0 → ∃ r, A.exp (.fin x) = .fin r ∧ F64 r ∧ 0 ≤ r ∧ r ≤ 1
  exp_range : ∀ x r, A.exp (.fin x) = .fin r → F64 r ∧ 0 ≤ r
  exp_other : ∀ x, A.exp (.fin x) = .pinf ∨ ∃ r, A.exp (.fin x) = .fin r
  log_zero : A.log (.fin 0) = .ninf
  log_pos : ∀ v, F64 v → 0 < v → ∃ r, A.log (.fin v) = .fin r ∧ F64 r ∧ |r| ≤ 1024
  sqrt_fin : ∀ x, 0 ≤ x → A.sqrt (.fin x) = A.rnd √x

/-- The library's `exp` and `log` are accurate: `exp` to one unit in the last place of its result, `log` to `2^-52 (1 + |log v|)`. (`exp` near
overflow is left out.) -/
structure Accurate (A : Arith) : Prop where
  exp : ∀ x r, F64 x → A.exp (.fin x) = .fin r → r ≤ 2 ^ (1000 : ℤ) → |r - Real.exp x| ≤ 2 ^ (-52 : ℤ) * Real.exp x + 2 ^ (-1074 : ℤ)
  log : ∀ v r, F64 v → 0 < v → A.log (.fin v) = .fin r → |r - Real.log v| ≤ 2 ^ (-52 : ℤ) * (1 + |Real.log v|)

/-! ### rounding to nearest -/

/-- The largest double. -/
noncomputable def maxF : ℝ := (2 ^ 53 - 1) * 2 ^ (971 : ℤ)

/-- Neighbouring doubles of `x` below and above. -/
noncomputable def below (x : ℝ) : ℝ := sSup {f | F64 f ∧ f ≤ x}
@[inherit_doc below]
noncomputable def above (x : ℝ) : ℝ := sInf {f | F64 f ∧ x ≤ f}

open scoped Classical in
/-- Rounding to nearest; `tie x` says that the midpoint `x` goes to the neighbour below. Half a unit in the last place beyond
the largest double the result is an infinity. -/
noncomputable def roundNearest (tie : ℝ → Prop) (x : ℝ) : Dbl :=
  if maxF + 2 ^ (970 : ℤ) ≤ x then .pinf
  else if x ≤ -(maxF + 2 ^ (970 : ℤ)) then .ninf
  else if maxF ≤ x then .fin maxF
  else if x ≤ -maxF then .fin (-maxF)
  else if x - below x < above x - x ∨ (x - below x = above x - x ∧ tie x) then .fin (below x)
  else .fin (above x)

/-- The neighbour below has an even last digit: the rule for ties of the default rounding mode. -/
def EvenBelow (x : ℝ) : Prop :=
  ∃ m e : ℤ, |m| < 2 ^ 53 ∧ -1074 ≤ e ∧ (2 ^ 52 ≤ |m| ∨ e = -1074) ∧ Even m ∧ below x = m * 2 ^ e

open scoped Classical in
/-- Binary64 arithmetic that rounds to nearest, with correctly rounded library functions. -/
noncomputable def nearest (tie : ℝ → Prop) : Arith where
  rnd := roundNearest tie
  exp
    | .fin x => roundNearest tie (Real.exp x)
    | .ninf => .fin 0
    | d => d
  log
    | .fin x => if 0 < x then roundNearest tie (Real.log x) else if x = 0 then .ninf else .nan
    | .pinf => .pinf
    | _ => .nan
  sqrt
    | .fin x => if x < 0 then .nan else roundNearest tie √x
    | .pinf => .pinf
    | _ => .nan

/-! ### data -/

/-- Observation times of moderate size: at least two and fewer than `2^53 - 1` points, neighbouring times at least `2^-300` (about
`5e-91`) apart, and times within `2^300` (about `2e90`) of each other. -/
structure MildTimes (ts : List ℝ) : Prop where
  two : 2 ≤ ts.length
  max : ts.length + 1 < 2 ^ 53
  gap : ∀ i, i + 1 < ts.length → ts.getD i 0 + 2 ^ (-300 : ℤ) ≤ ts.getD (i + 1) 0
  span : ∀ s ∈ ts, ∀ t ∈ ts, t - s ≤ 2 ^ (300 : ℤ)

/-- Data of moderate size: times as above, values of at most `2^300` in magnitude, measurement errors between `2^-148` and
`2^148` (about `3e-45` and `3e44`), and a bound of the prior on the standard deviation of at most `2^148`. -/
structure Mild (ts ys es : List ℝ) (M : ℝ) : Prop extends MildTimes ts where
  leny : ys.length = ts.length
  lene : es.length = ts.length
  y : ∀ y ∈ ys, |y| ≤ 2 ^ (300 : ℤ)
  e : ∀ e ∈ es, 2 ^ (-148 : ℤ) ≤ e ∧ e ≤ 2 ^ (148 : ℤ)
  stdev : M ≤ 2 ^ (148 : ℤ)

/-- The object after any number of earlier calls of `LogDensity` that returned, with any arguments. -/
inductive Called (A : Arith) (s : FCar1) : FCar1 → Prop
  | none : Called A s s
  | call {s1 s2 : FCar1} {θ : List Dbl} {v : Dbl} : Called A s s1 → FCar1.logDensity A s1 θ = .ok (s2, v) → Called A s s2

/-- `theta` is within the prior bounds for the times `ts`, all of them as computed: the rate `w = exp(theta(3))` is between one over
the time span and one over some gap, `0 <= theta(0) <= M` and `0.5 <= theta(1) <= 2`. -/
def Within (A : Arith) (ts : List ℝ) (M : ℝ) (θ : List ℝ) : Prop :=
  ∃ w, A.exp (.fin (θ.getD 3 0)) = .fin w ∧
    (∃ lo ≤ w, A.div (.fin 1) (A.sub (.fin (ts.getD (ts.length - 1) 0)) (.fin (ts.getD 0 0))) = .fin lo) ∧
    (∃ i hi, i + 1 < ts.length ∧ w ≤ hi ∧ A.div (.fin 1) (A.sub (.fin (ts.getD (i + 1) 0)) (.fin (ts.getD i 0))) = .fin hi) ∧
    0 ≤ θ.getD 0 0 ∧ θ.getD 0 0 ≤ M ∧ 1 / 2 ≤ θ.getD 1 0 ∧ θ.getD 1 0 ≤ 2

/-- Sizes of the data and of `theta` that enter the bound on the rounding error: values and mean of at most `2^a`, stationary variance
and noise variances of at most `2^b/2`, noise variances of at least `2^c`, and a memory `N` of the process: either `N` is at least the number
of observations, or the correlation between neighbouring observations is at most `1 - 1/N`. -/
structure Sized (ts ys es θ : List ℝ) (a b c : ℤ) (N : ℝ) : Prop where
  a_lo : -300 ≤ a
  a_hi : a ≤ 300
  b_lo : -300 ≤ b
  b_hi : b ≤ 300
  c_lo : -300 ≤ c
  c_hi : c ≤ 300
  values : ∀ y ∈ ys, |y| ≤ 2 ^ a
  mu : |θ.getD 2 0| ≤ 2 ^ a
  stat : 2 * θ.getD 0 0 ^ 2 ≤ 2 ^ b
  noise : ∀ e ∈ es, 2 ^ c ≤ θ.getD 1 0 * e ^ 2 ∧ 2 * (θ.getD 1 0 * e ^ 2) ≤ 2 ^ b
  one : 1 ≤ N
  memory : (ts.length : ℝ) ≤ N ∨
    ∀ i, i + 1 < ts.length → Real.exp (-Real.exp (θ.getD 3 0) * (ts.getD (i + 1) 0 - ts.getD i 0)) ≤ 1 - 1 / N

end Verif.Spec
