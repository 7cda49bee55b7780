import Verif.Model.FCarmaRun
import Verif.Spec.FSign

/-!
The sign of the data in a whole run: which draws belong to the values with the other sign.
-/

namespace Verif.Spec

open Verif.Model

/-- Change the sign if asked to. -/
noncomputable def sg (b : Prop) [Decidable b] (x : Dbl) : Dbl := if b then x.neg else x

/-- The library of the sampler does not prefer a sign: a scalar product changes its sign with its first factor, and does not change if the signs of
corresponding elements of both factors change, whichever they are; a norm does not depend on the signs of the elements. -/
structure SignFreeM (M : Mach) : Prop where
  real : SignFree M.A
  dot_neg : ∀ l m, M.dot (l.map .neg) m = (M.dot l m).neg
  dot_both : ∀ (n : ℕ) (b : Fin n → Prop) [DecidablePred b] (f g : Fin n → Dbl),
    M.dot (List.ofFn fun i => sg (b i) (f i)) (List.ofFn fun i => sg (b i) (g i)) = M.dot (List.ofFn f) (List.ofFn g)
  norm : ∀ (n : ℕ) (b : Fin n → Prop) [DecidablePred b] (f : Fin n → Dbl), M.norm (List.ofFn fun i => sg (b i) (f i)) = M.norm (List.ofFn f)

/-- The draws that belong to the values with the other sign in a sampler with `d` parameters: the same uniform numbers and variances, the other sign of the
mean in the proposed starting values, and of the third one of every `d` Student draws. -/
noncomputable def mirror (d : ℕ) (r : FRng) : FRng where
  unif := r.unif
  stud := fun i => sg (i % d = 2) (r.stud i)
  prior := fun i => flipMu (r.prior i)
  yvar := r.yvar

/-- What a run returns: the recorded values and log-posteriors, and the last ones. -/
def recorded {μ : Type} (s : FPar μ) : List (List Dbl) × List Dbl × List Dbl × Dbl := (s.samples, s.logposts, s.value, s.logpost)

/-- The same with the sign of the mean changed in all values. -/
noncomputable def flipRecorded (x : List (List Dbl) × List Dbl × List Dbl × Dbl) : List (List Dbl) × List Dbl × List Dbl × Dbl :=
  (x.1.map flipMu, x.2.1, flipMu x.2.2.1, x.2.2.2)

end Verif.Spec
