import Mathlib.Probability.Independence.Basic
import Verif.Model.Rng
import Verif.Spec.Laws

/-!
Random streams: independent draws, each with the law its distribution object is asked for by the code.
-/

namespace Verif.Spec

open MeasureTheory ProbabilityTheory Verif.Model

/-- The streams of real draws. -/
inductive Stream where
  | unif | norm | stud | chi2 | randu | randn
  deriving DecidableEq

/-- The draw with number `i.2` of the stream `i.1`. -/
def drawOf (r : Rng) (i : Stream × ℕ) : ℝ :=
  match i.1 with
  | .unif => r.unif i.2
  | .norm => r.norm i.2
  | .stud => r.stud i.2
  | .chi2 => r.chi2 i.2
  | .randu => r.randu i.2
  | .randn => r.randn i.2

/-- Laws of the draws: uniform on [0,1), standard normal, Student with 8 degrees of freedom (`src/carmcmc.cpp` line 139), and chi-squared,
where draw `k` has `dof k` degrees of freedom. -/
noncomputable def drawLaw (dof : ℕ → ℕ) (i : Stream × ℕ) : Measure ℝ :=
  match i.1 with
  | .unif => libLaw (.uniform 0 1)
  | .norm => libLaw (.normal 0 1)
  | .stud => libLaw (.studentT 8)
  | .chi2 => libLaw (.chiSquared (dof i.2))
  | .randu => libLaw (.uniform 0 1)
  | .randn => libLaw (.normal 0 1)

/-- The generators `R`, on a probability space, produce independent draws with the laws above. -/
structure IsDraws {Ω : Type*} [MeasurableSpace Ω] (P : Measure Ω) (R : Ω → Rng) (dof : ℕ → ℕ) : Prop where
  meas : ∀ i, Measurable fun ω => drawOf (R ω) i
  indep : iIndepFun (fun i ω => drawOf (R ω) i) P
  law : ∀ i, P.map (fun ω => drawOf (R ω) i) = drawLaw dof i

/-- The integers `I` are independent and uniform on `{0, …, w-1}`. -/
structure IsInts {Ω : Type*} [MeasurableSpace Ω] (P : Measure Ω) (I : Ω → ℕ → ℕ) (w : ℕ) : Prop where
  meas : ∀ k, Measurable fun ω => I ω k
  indep : iIndepFun (fun k ω => I ω k) P
  law : ∀ k, ∀ i < w, P {ω | I ω k = i} = (w : ENNReal)⁻¹

end Verif.Spec
