import Verif.Model.Steps

/-!
Model of the proposal classes (`src/include/proposals.hpp`, `src/proposals.cpp`) and of the power-law generator
(`src/random.cpp` lines 141-151). A scalar parameter is a list with one element.
-/

namespace Verif.Model

open scoped Classical

/-- `RandomGenerator::powerlaw(lower, upper, slope)` (`src/random.cpp` lines 141-151) for the uniform draw `u`. `pow` of positive
arguments; `slope = -1` divides by zero. -/
noncomputable def powerlaw (lower upper slope u : ℝ) : Res ℝ := do
  let power ← dv 1 (slope + 1)
  let base := (upper ^ (slope + 1) - lower ^ (slope + 1)) * u + lower ^ (slope + 1)
  return base ^ power

/-- `NormalProposal` (`src/include/proposals.hpp` lines 34-51). -/
structure NormalProp where
  sd : ℝ

/-- `Draw`: `RandGen.normal(starting_value, standard_deviation_)` (`src/proposals.cpp` lines 20-22). -/
instance : Proposer NormalProp where
  draw p v r := do
    let x ← rdU v 0
    return (p, [x + p.sd * r.norm 0], { r with norm := Rng.skip 1 r.norm })
  ld _ _ _ := .fin 0

/-- `StudentProposal` (`src/include/proposals.hpp` lines 56-75); the degrees of freedom only select the distribution of the
standard draw. -/
structure StudentProp where
  dof : ℝ
  scale : ℝ

/-- `Draw`: `RandGen.tdist(dof_, starting_value, scale_)` (`src/proposals.cpp` lines 26-28, `src/random.cpp` lines 158-164). -/
instance : Proposer StudentProp where
  draw p v r := do
    let x ← rdU v 0
    return (p, [x + p.scale * r.stud 0], { r with stud := Rng.skip 1 r.stud })
  ld _ _ _ := .fin 0

/-- `MultiNormalProposal` (`src/include/proposals.hpp` lines 79-96). `factor` stands for the result of `arma::chol(covar_)`, computed at
every draw (`src/random.cpp` line 91). -/
structure MultiNormalProp (d : ℕ) where
  factor : Res (Matrix (Fin d) (Fin d) ℝ)

/-- `Draw`: `starting_value + RandGen.normal(covar_)` (`src/proposals.cpp` lines 32-34, `src/random.cpp` lines 88-105); Armadillo
rejects the sum if the sizes differ. -/
noncomputable instance {d : ℕ} : Proposer (MultiNormalProp d) where
  draw p v r := do
    let R ← p.factor
    if v.length ≠ d then .error .bounds
    return (p, List.ofFn fun j : Fin d => v.getD j 0 + ∑ i, R i j * r.norm i, { r with norm := Rng.skip d r.norm })
  ld _ _ _ := .fin 0

/-- `LogNormalProposal` (`src/include/proposals.hpp` lines 100-122). -/
structure LogNormalProp where
  logsd : ℝ

/-- `Draw`: `RandGen.lognormal(log(starting_value), logsd_)` (`src/proposals.cpp` lines 38-41); the log of a value that is not positive is
Inf or NaN. `LogDensity` is `-log(new_value)`. -/
noncomputable instance : Proposer LogNormalProp where
  draw p v r := do
    let x ← rdU v 0
    if x ≤ 0 then .error .nonfinite
    return (p, [Real.exp (Real.log x + p.logsd * r.norm 0)], { r with norm := Rng.skip 1 r.norm })
  ld _ new _ := ((Dbl.fin (new.getD 0 0)).log).neg

/-- `StretchProposal` (`src/include/proposals.hpp` lines 174-260). `values` are the current values of the ensemble, which the class
reads through a reference; `fuel` bounds the search for a partner. -/
structure StretchProp where
  values : List (List ℝ)
  idx : ℕ
  support : ℝ
  scale : ℝ
  other : ℕ
  fuel : ℕ

namespace StretchProp

/-- The loop of `GrabParameter` (`src/include/proposals.hpp` lines 198-201): draw integers until one differs from `idx`. -/
def grab (idx : ℕ) : ℕ → Rng → Res (ℕ × Rng)
  | 0, _ => .error .timeout
  | n + 1, r => if r.int 0 = idx then grab idx n r.nextI.2 else .ok (r.int 0, r.nextI.2)

/-- `Draw` (`src/include/proposals.hpp` lines 208-221). -/
noncomputable def draw (p : StretchProp) (v : List ℝ) (r : Rng) : Res (StretchProp × List ℝ × Rng) := do
  let (j, r) ← grab p.idx p.fuel r
  let other ← rdU p.values j
  let lo ← dv 1 p.support
  let z ← powerlaw lo p.support (-0.5) (r.unif 0)
  let r := r.nextU.2
  if v.length ≠ other.length then .error .bounds
  return ({ p with scale := z, other := j }, List.zipWith (fun o w => o + z * (w - o)) other v, r)

/-- `LogDensity(new_value, starting_value)` (`src/include/proposals.hpp` lines 228-251). -/
noncomputable def ld (p : StretchProp) (new : List ℝ) : Dbl :=
  let current := p.values.getD p.idx []
  if ∀ k < new.length, |current.getD k 0 - new.getD k 0| < 1e-10 then
    (Dbl.fin ((new.length : ℝ) - 1)).mul (Dbl.fin p.scale).log
  else .fin 0

noncomputable instance : Proposer StretchProp where
  draw := draw
  ld p new _ := p.ld new

end StretchProp

end Verif.Model
