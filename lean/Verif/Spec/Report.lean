import Verif.Model.IntRun
import Verif.Spec.Run
import Mathlib.Order.Interval.Finset.Nat

/-!
What the lines printed by the steps should say.
-/

namespace Verif.Spec

open Verif.Model
open scoped Classical

variable {μ : Type} [Target μ] {d : ℕ}

/-- A Metropolis move of the chain `c` with the proposal factor `L` and the random numbers `r` is accepted: the proposed value has a finite
log-density, so has the present one, and the uniform is below the Metropolis ratio. -/
def RamAccepts (c : Par μ) (L : Matrix (Fin d) (Fin d) ℝ) (r : Rng) : Prop :=
  ∃ o x l, Target.ld c.obj (List.ofFn fun j : Fin d => c.value.getD j 0 + ∑ i, L i j * r.stud i) = .ok (o, .fin x) ∧ c.logpost = .fin l ∧
    r.unif 0 < min 1 (Real.exp ((x - l) / c.temp))

/-- Probability of a swap of two chains with temperatures `T`, `T'` and log-densities `l`, `l'`; 0 if these are not finite. -/
noncomputable def swapRatio (T T' : ℝ) : Dbl → Dbl → ℝ
  | .fin l, .fin l' => min 1 (Real.exp ((1 / T - 1 / T') * (l' - l)))
  | _, _ => 0

omit [Target μ] in
/-- A swap of chain `i` with chain `i - 1` is accepted. -/
def SwapAccepts (cs : List (Par μ)) (i : ℕ) (r : Rng) : Prop :=
  ∃ c c', cs[i]? = some c ∧ cs[i - 1]? = some c' ∧ r.unif 0 < swapRatio c.temp c'.temp c.logpost c'.logpost

/-- Step `j` of the stack, executed next, is accepted. -/
def StepAccepts (t : Samp μ d) (j : ℕ) : Prop :=
  (∃ i a c, t.steps[j]? = some (.ram i a) ∧ t.chains[i]? = some c ∧ RamAccepts c a.chol t.rng) ∨
    ∃ e, t.steps[j]? = some (.exch e) ∧ SwapAccepts t.chains e.idx t.rng

/-- Step `j` is accepted in sweep number `k` (the first is number 0) from `s`. -/
def AcceptedIn (s : Samp μ d) (j k : ℕ) : Prop := ∃ t u, Sweeps s k t ∧ Done t j u ∧ StepAccepts u j

/-- How often step `j` is accepted in the sweeps `a ≤ k < b` from `s`. -/
noncomputable def nAccepted (s : Samp μ d) (j a b : ℕ) : ℕ := ((Finset.Ico a b).filter (AcceptedIn s j)).card

/-- What step `j` prints in sweep number `k` from `s`, for a burn-in of `B` sweeps and reports of the exchange steps every `R` sweeps. -/
noncomputable def reportAt (s : Samp μ d) (B R : ℤ) (k j : ℕ) : List Line :=
  match (s.steps[j]?).map stepKind with
  | some (true, _) => if B = k + 1 then [.ram (nAccepted s j 0 (k + 1) / (k + 1))] else []
  | some (false, _) => if 0 < R ∧ R ∣ k + 1 then [.exch (nAccepted s j (k + 1 - R.toNat) (k + 1) / R)] else []
  | none => []

/-- Everything printed in the first `n` sweeps. -/
noncomputable def reports (s : Samp μ d) (B R : ℤ) (n : ℕ) : List Line :=
  (List.range n).flatMap fun k => (List.range s.steps.length).flatMap (reportAt s B R k)

end Verif.Spec
