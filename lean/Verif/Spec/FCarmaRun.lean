import Verif.Model.FCarmaRun
import Verif.Spec.FCarma
import Verif.Spec.FSamp

/-!
What the theorems about `RunCarmaSampler` in machine numbers assume of the library and of the draws.
-/

namespace Verif.Spec

open Verif.Model
open scoped Classical

/-- What the temperatures need of the library: `log(100)`, about 4.6, comes out between 0 and 5, and `exp` of a number between 0 and 8 is finite and at
least 1. -/
structure Ladder (A : Arith) : Prop where
  log : ∃ l, A.log (.fin 100) = .fin l ∧ F64 l ∧ 0 ≤ l ∧ l ≤ 5
  exp : ∀ x, F64 x → 0 ≤ x → x ≤ 8 → ∃ t, A.exp (.fin x) = .fin t ∧ 1 ≤ t

/-- The library throws when the filter is set up for the proposal, and nothing catches it. -/
def Throws (C : CArith) {p : ℕ} (obj : FCarP p) (θ : List Dbl) (yvar : Dbl) : Prop := FCarP.startPass C obj θ yvar = .error .runtime

/-- The pass ends the search. -/
def Finds (C : CArith) {p : ℕ} (obj : FCarP p) (θ : List Dbl) (yvar : Dbl) : Prop := ∃ o x, FCarP.startPass C obj θ yvar = .ok (o, .fin x)

/-- Number of passes among the first `n` that would end the search. -/
noncomputable def finds (C : CArith) {p : ℕ} (obj : FCarP p) (r : FRng) (n : ℕ) : ℕ :=
  ((List.range n).filter fun k => Finds C obj (r.prior k) (r.yvar k)).length

/-- What a run that returns has recorded: `N` samples of `d` doubles within the prior bounds, each with its log-density, a finite number. -/
structure Chain (C : CArith) {p : ℕ} (obj : FCarP p) (d N : ℕ) (samples : List (List Dbl)) (logposts : List Dbl) : Prop where
  len : samples.length = N
  lenLogposts : logposts.length = N
  each : ∀ j < N, ∃ θ x o, samples[j]? = some θ ∧ logposts[j]? = some (.fin x) ∧ θ.length = d ∧ Doubles θ ∧
    FCarP.logDensity C obj θ = .ok (o, .fin x) ∧ FCarP.checkPrior C obj θ = .ok true

end Verif.Spec
