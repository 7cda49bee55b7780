import Mathlib.Data.Int.Basic
import Mathlib.Data.List.Basic

/-! Texts typed at a terminal, independent of the modelled code. -/

namespace Verif.Spec

/-- decimal digit -/
def digitChar (d : ℕ) : Char := Char.ofNat (48 + d)

/-- decimal notation of a natural number -/
def dec (n : ℕ) : List Char := if h : n < 10 then [digitChar n] else dec (n / 10) ++ [digitChar (n % 10)]
  termination_by n

/-- decimal notation of an integer -/
def decInt (z : ℤ) : List Char := if z < 0 then '-' :: dec z.natAbs else dec z.natAbs

/-- a non-empty text without white space -/
def Word (w : List Char) : Prop := w ≠ [] ∧ ∀ c ∈ w, c ≠ ' ' ∧ c ≠ '\t' ∧ c ≠ '\n' ∧ c ≠ '\r' ∧ c ≠ Char.ofNat 11 ∧ c ≠ Char.ofNat 12

/-- words, each ended by a line feed -/
def typed (ws : List (List Char)) : List Char := ws.flatMap fun w => w ++ ['\n']

/-- the numbers of a 32-bit `int` -/
def Int32 (z : ℤ) : Prop := -2147483648 ≤ z ∧ z ≤ 2147483647

end Verif.Spec
