import Mathlib.Data.Real.Basic

/-!
Outcome type of the modelled C++ operations.

Armadillo element access with `()` is bounds checked (the build does not define `ARMA_NO_DEBUG`, see
`src/setup.py`) and throws `std::logic_error`; access with `[]` is not checked and is undefined behaviour when out of
range. A division by zero in the filters does not throw in C++: it produces Inf/NaN which then spread to every later
result. The model stops at that point with `nonfinite`.
-/

namespace Verif.Model

/-- Ways in which a modelled call can fail to return numbers. -/
inductive Fault where
  /-- Armadillo bounds or size check failed (`std::logic_error`). -/
  | bounds
  /-- a division by zero: the C++ results from here on are Inf or NaN. -/
  | nonfinite
  /-- `std::runtime_error` (singular `arma::solve`). -/
  | runtime
  /-- a loop without a bound of its own did not end within the given number of passes. -/
  | timeout
  /-- undefined behaviour. -/
  | ub
  deriving DecidableEq, Repr

/-- Result of a modelled call. -/
abbrev Res (α : Type) := Except Fault α

/-- Checked element read `v(i)`. -/
def rd {α : Type} (l : List α) (i : ℕ) : Res α :=
  match l[i]? with
  | some a => .ok a
  | none => .error .bounds

/-- Unchecked element read `v[i]`. -/
def rdU {α : Type} (l : List α) (i : ℕ) : Res α :=
  match l[i]? with
  | some a => .ok a
  | none => .error .ub

/-- Checked element write `v(i) = a`. -/
def wr {α : Type} (l : List α) (i : ℕ) (a : α) : Res (List α) :=
  if i < l.length then .ok (l.set i a) else .error .bounds

/-- Unchecked element write `v[i] = a`. -/
def wrU {α : Type} (l : List α) (i : ℕ) (a : α) : Res (List α) :=
  if i < l.length then .ok (l.set i a) else .error .ub

/-- Real division; a zero divisor is the `nonfinite` outcome. -/
noncomputable def dv (a b : ℝ) : Res ℝ :=
  open Classical in if b = 0 then .error .nonfinite else .ok (a / b)

/-- Run a step `k` times (`for` loop whose body does not use the index). -/
def iter {σ : Type} (f : σ → Res σ) : ℕ → σ → Res σ
  | 0, s => .ok s
  | k + 1, s => iter f k s >>= f

end Verif.Model
