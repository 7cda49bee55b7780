import Verif.Model.FSamp
import Verif.Model.Sampler
import Verif.Spec.Binary64

/-!
What C90 says of a run with machine numbers.
-/

namespace Verif.Spec

open Verif.Model
open scoped Classical

/-- The library functions hand on NaN, and `exp` hands on plus infinity. -/
structure Strict (A : Arith) : Prop where
  exp_nan : A.exp .nan = .nan
  exp_pinf : A.exp .pinf = .pinf
  log_nan : A.log .nan = .nan
  sqrt_nan : A.sqrt .nan = .nan

/-- Every finite entry is a `double`. -/
def Doubles (l : List Dbl) : Prop := ∀ x, Dbl.fin x ∈ l → F64 x

/-- Numbers the generators may hand out: uniform draws are not negative, and starting values have `d` entries. Nothing else is
assumed: draws may be infinite or NaN. -/
structure Usable (d : ℕ) (r : FRng) : Prop where
  unif : ∀ k, ¬ (r.unif k).lt (.fin 0)
  prior : ∀ k, (r.prior k).length = d
  doubles : ∀ k, Doubles (r.prior k)

/-- A parameter whose log-density always returns and is a function `f` of the vector of parameters, whatever was called before; `inv` is what
its objects have in common. -/
structure HonestLd {μ : Type} [FTarget μ] (A : Arith) (d : ℕ) (inv : μ → Prop) (f : List Dbl → Dbl) : Prop where
  ld : ∀ o θ, inv o → θ.length = d → ∃ o', FTarget.ld A o θ = .ok (o', f θ) ∧ inv o'
  stale : ∀ o θ, inv o → θ.length = d → ∃ v, FTarget.staleLd A o θ = .ok v

/-- Such a parameter whose starting value is the one given by the user if its log-density is finite, and otherwise the next one drawn. -/
structure Honest {μ : Type} [FTarget μ] (A : Arith) (d : ℕ) (inv : μ → Prop) (f : List Dbl → Dbl) : Prop extends HonestLd A d inv f where
  start : ∀ o r, inv o → Usable d r → ∃ o' r', FTarget.start A o r = .ok (o', r.prior 0, r') ∧ inv o' ∧ Usable d r'
  setStart : ∀ o i r, inv o → i.length = d → Usable d r →
    ∃ o' r', FTarget.setStart A o i r = .ok (o', if (f i).isFin then i else r.prior 0, r') ∧ inv o' ∧ Usable d r'

/-- Matrix products and norms as far as zero and NaN go: a product with a NaN in the matrix is NaN, finite numbers times zeros are zero, and the
norm of zeros is zero. -/
structure ZeroAndNan (M : Mach) : Prop where
  dot_nan : ∀ l l', l.length = l'.length → Dbl.nan ∈ l → M.dot l l' = .nan
  dot_zero : ∀ l n, l.length = n → (∀ x ∈ l, x.isFin) → M.dot l (List.replicate n (.fin 0)) = .fin 0
  norm_zero : ∀ n, M.norm (List.replicate n (.fin 0)) = .fin 0

/-- A recorded pair of a sample and its log-density, for a chain that began at `θ₀`: the log-density is the one of the sample; if it was finite at
the start it is finite, and otherwise the sample is still the start. -/
structure Recorded (f : List Dbl → Dbl) (θ₀ θ : List Dbl) (v : Dbl) : Prop where
  value : v = f θ
  doubles : Doubles θ
  finite : (f θ₀).isFin → v.isFin
  stuck : ¬ (f θ₀).isFin → θ = θ₀

/-- Where a CAR(1) run starts: at the user's values if there are four and their log-density is finite, otherwise at the values drawn. -/
def StartOf (A : Arith) (obj : FCar1) (init drawn θ₀ : List Dbl) : Prop :=
  θ₀ = if init.length = 4 ∧ ∃ o x, FCar1.logDensity A obj init = .ok (o, .fin x) then init else drawn

/-- A step moves one of `n` chains, or exchanges a chain with the one before it. -/
def FStepOk (n : ℕ) : FStep d → Prop
  | .ram i _ => i < n
  | .exch i => 0 < i ∧ i < n

/-- A chain before starting values are set; its temperature is at least 1. -/
structure FRaw {μ : Type} (d : ℕ) (inv : μ → Prop) (c : FPar μ) : Prop where
  obj : inv c.obj
  len : c.value.length = d
  temp : ∃ t, c.temp = .fin t ∧ 1 ≤ t

/-- A sampler as the run functions build it: every chain has a step of its own, the sample of one chain is kept, and nothing is recorded yet. -/
structure FBuilt {μ : Type} {d : ℕ} (inv : μ → Prop) (s : FSamp μ d) : Prop where
  raw : ∀ c ∈ s.chains, FRaw d inv c
  steps : ∀ st ∈ s.steps, FStepOk s.chains.length st
  tracked : s.tracked < s.chains.length
  cover : ∀ i < s.chains.length, ∃ st ∈ s.steps, st.chain = i
  fresh : ∀ c ∈ s.chains, c.samples = [] ∧ c.logposts = []
  rng : Usable d s.rng

/-- Arithmetic without rounding: exact operations, sums, powers and Euclidean norms. -/
structure ExactMach (M : Mach) : Prop where
  arith : M.A = Arith.exact
  pow : ∀ (n : ℕ) (g : ℝ), M.pow (.fin n) (.fin g) = .fin ((n : ℝ) ^ g)
  dot : ∀ {d : ℕ} (a b : Fin d → ℝ), M.dot (List.ofFn fun i => .fin (a i)) (List.ofFn fun i => .fin (b i)) = .fin (∑ i, a i * b i)
  norm : ∀ {d : ℕ} (a : Fin d → ℝ), M.norm (List.ofFn fun i => .fin (a i)) = .fin (√(∑ i, a i ^ 2))

/-- The same uniform and Student t variates in both models. -/
structure SameDraws (r : Rng) (r' : FRng) : Prop where
  unif : ∀ k, r'.unif k = .fin (r.unif k)
  stud : ∀ k, r'.stud k = .fin (r.stud k)

/-- The same state of a chain in both models, as far as a user sees it. -/
structure SamePar {μ ν : Type} (d : ℕ) (R : μ → ν → Prop) (p : Par μ) (q : FPar ν) : Prop where
  obj : R p.obj q.obj
  len : p.value.length = d
  value : q.value = p.value.map .fin
  logpost : q.logpost = p.logpost
  temp : q.temp = .fin p.temp
  samples : q.samples = p.samples.map fun θ => θ.map .fin
  logposts : q.logposts = p.logposts

/-- The same state of an adaptive step in both models. -/
structure SameRam {d : ℕ} (a : Ram d) (b : FRam d) : Prop where
  chol : ∀ i j, b.chol i j = .fin (a.chol i j)
  gamma : b.gamma = .fin a.gamma
  target : b.target = .fin a.target
  niter : b.niter = a.niter
  maxiter : b.maxiter = a.maxiter
  alpha : b.alpha = a.alpha

/-- Parameter objects of the two models that give the same log-densities, call after call. -/
structure SameTarget {μ ν : Type} [Target μ] [FTarget ν] (d : ℕ) (R : μ → ν → Prop) : Prop where
  ld : ∀ o o' θ o1 v, R o o' → θ.length = d → Target.ld o θ = .ok (o1, v) →
    ∃ o1', FTarget.ld Arith.exact o' (θ.map .fin) = .ok (o1', v) ∧ R o1 o1'
  stale : ∀ o o' θ v, R o o' → θ.length = d → Target.staleLd o θ = .ok v → ∃ v', FTarget.staleLd Arith.exact o' (θ.map .fin) = .ok v'

/-- The same step of the step stack in both models. -/
inductive SameStep {d : ℕ} : StepSt d → FStep d → Prop where
  | ram {a : Ram d} {b : FRam d} (i : ℕ) (h : SameRam a b) : SameStep (.ram i a) (.ram i b)
  | exch (e : Exch) : SameStep (.exch e) (.exch e.idx)

/-- The same state of the sampler in both models; one parameter is tracked. -/
structure SameSamp {μ ν : Type} (d : ℕ) (R : μ → ν → Prop) (s : Samp μ d) (t : FSamp ν d) : Prop where
  chains : List.Forall₂ (SamePar d R) s.chains t.chains
  steps : List.Forall₂ SameStep s.steps t.steps
  tracked : ∃ label, s.tracked = [(label, t.tracked)]
  draws : SameDraws s.rng t.rng

/-- The machine reads the same streams as the model over the reals, except that the uniform variate used up by a starting value is left out, if
there is one. -/
def FromStream (r : Rng) (r' : FRng) : Prop :=
  (∀ k, r'.stud k = .fin (r.stud k)) ∧ ((∀ k, r'.unif k = .fin (r.unif k)) ∨ ∀ k, r'.unif k = .fin (r.unif (k + 1)))

end Verif.Spec
