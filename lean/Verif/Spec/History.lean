import Verif.Model.Param

/-!
Call histories of filter objects and parameter objects.
-/

namespace Verif.Spec

open Verif.Model

/-- The data members of a filter (times, gaps, values, errors, driving variance) are the same and the result vectors have the same
lengths; results and running index are arbitrary. -/
def SameData (a b : KFBase) : Prop :=
  b.time = a.time ∧ b.dt = a.dt ∧ b.y = a.y ∧ b.yerr = a.yerr ∧ b.sigsqr = a.sigsqr ∧
    b.mean.length = a.mean.length ∧ b.var.length = a.var.length

/-- What a `Filter` or `Predict` call that ends in a fault (an exception, or Inf/NaN in the results) may do to a CAR(1) filter:
anything to the members these functions assign (`src/kfilter.cpp` lines 19-69). -/
def KF1.Faulted (a b : KF1) : Prop := SameData a.b b.b ∧ b.omega = a.omega

/-- The same for a CARMA filter (`src/kfilter.cpp` lines 138-215, 290-337): running state, gain, rotated coefficients, covariances
are arbitrary. -/
def KFp.Faulted {p : ℕ} (a b : KFp p) : Prop :=
  SameData a.b b.b ∧ b.omega = a.omega ∧ b.ma = a.ma ∧ b.pset = a.pset

/-- Objects reachable from `s` by calls of `Filter`, `Predict` and `Simulate` with any arguments and random draws. A call may
return, or end in a fault. `Simulate` restores the data at its end, so only its faults by Inf/NaN (after which it runs on to that
end) are followed; an exception thrown inside it ends the history. -/
inductive KHistory {σ : Type} [Kalman σ] (faulted : σ → σ → Prop) (s : σ) : σ → Prop
  | nil : KHistory faulted s s
  | filter {a b : σ} : KHistory faulted s a → Kalman.filter a = .ok b → KHistory faulted s b
  | predict {a b : σ} {t : ℝ} {m : ℝ × ℝ} : KHistory faulted s a → Kalman.predict a t = .ok (b, m) →
      KHistory faulted s b
  | simulate {a b : σ} {ts xs : List ℝ} {zs : ℕ → ℝ} : KHistory faulted s a →
      Kalman.simulate a ts zs = .ok (b, xs) → KHistory faulted s b
  | fault {a b : σ} : KHistory faulted s a →
      ((∃ f, Kalman.filter a = .error f) ∨ (∃ t f, Kalman.predict a t = .error f) ∨
        ∃ ts zs, Kalman.simulate a ts zs = .error .nonfinite) → faulted a b → KHistory faulted s b

/-- Parameter objects reachable from `s` by evaluations, saves, overwriting the stored log-density, recording samples, and
starting-value calls. `thrown a b` says what a call that throws may do to the model object. -/
inductive PHistory {μ : Type} [Target μ] (thrown : μ → μ → Prop) (s : Par μ) : Par μ → Prop
  | nil : PHistory thrown s s
  | eval {a : Par μ} {θ : List ℝ} {o : μ} {lp : Dbl} : PHistory thrown s a → Target.ld a.obj θ = .ok (o, lp) →
      PHistory thrown s { a with obj := o }
  | save {a b : Par μ} {θ : List ℝ} : PHistory thrown s a → a.save θ = .ok b → PHistory thrown s b
  | saveStale {a b : Par μ} {θ : List ℝ} : PHistory thrown s a → a.saveStale θ = .ok b → PHistory thrown s b
  | setLogDensity {a : Par μ} (lp : Dbl) : PHistory thrown s a → PHistory thrown s (a.setLogDensity lp)
  | setTracking {a : Par μ} (t : Bool) : PHistory thrown s a → PHistory thrown s (a.setTracking t)
  | setSampleSize {a : Par μ} (n : ℕ) : PHistory thrown s a → PHistory thrown s (a.setSampleSize n)
  | addToSample {a b : Par μ} (k : ℕ) : PHistory thrown s a → a.addToSample k = .ok b → PHistory thrown s b
  | start {a : Par μ} {fuel : ℕ} {r r' : Rng} {θ : List ℝ} {o : μ} : PHistory thrown s a →
      Target.start fuel a.obj r = .ok (o, θ, r') → PHistory thrown s { a with obj := o }
  | setStart {a : Par μ} {fuel : ℕ} {init : List ℝ} {r r' : Rng} {θ : List ℝ} {o : μ} : PHistory thrown s a →
      Target.setStart fuel a.obj init r = .ok (o, θ, r') → PHistory thrown s { a with obj := o }
  | thrown {a : Par μ} {o : μ} : PHistory thrown s a → thrown a.obj o → PHistory thrown s { a with obj := o }

/-- The times of a filter and the lengths of its result vectors are the same. -/
def SameTimes (a b : KFBase) : Prop :=
  b.time = a.time ∧ b.dt = a.dt ∧ b.mean.length = a.mean.length ∧ b.var.length = a.var.length

/-- What a throwing call may do to a CAR(1) object: anything to the filter's parameters, series and results. -/
def Car1.Thrown (a b : Car1) : Prop := b.b = a.b ∧ SameTimes a.kf.b b.kf.b

/-- The same for `CARp` and its subclasses. -/
def CarP.Thrown {p : ℕ} (a b : CarP p) : Prop :=
  ∃ kf : KFp p, b = { a with kf := kf } ∧ SameTimes a.kf.b kf.b

end Verif.Spec
