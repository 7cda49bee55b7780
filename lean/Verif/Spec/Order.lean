import Verif.Model.Dbl

/-!
Specification of order selection: the corrected Akaike criterion and what it means to be the first minimiser.
-/

namespace Verif.Spec

open Verif.Model

/-- corrected Akaike information criterion of a model with `k` fitted parameters, `n` observations and minus log-likelihood `f` -/
noncomputable def aiccSpec (n k f : ℝ) : ℝ := 2 * f + 2 * k + 2 * k * (k + 1) / (n - k - 1)

/-- position `i` of the list is a value that no other beats, and every earlier value is larger or is not a number -/
def FirstMin (l : List Dbl) (i : ℕ) : Prop :=
  ∃ a, l[i]? = some a ∧ (∀ b ∈ l, ¬ b.lt a) ∧ ∀ j < i, ∀ b, l[j]? = some b → b = .nan ∨ a.lt b

/-- position `i` of the list is the first of the largest values; no value is NaN -/
def FirstMax (l : List Dbl) (i : ℕ) : Prop :=
  (∀ b ∈ l, b ≠ .nan) ∧ ∃ a, l[i]? = some a ∧ (∀ b ∈ l, ¬ a.lt b) ∧ ∀ j < i, ∀ b, l[j]? = some b → b.lt a

/-- arithmetic mean -/
noncomputable def avg {K : Type} [DivisionRing K] (l : List K) : K := l.sum / (l.length : K)

end Verif.Spec
