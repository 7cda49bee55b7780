import Verif.Model.Fault

/-!
Random numbers. The C++ code draws from one global Mersenne Twister (`rng`, `src/random.cpp` line 20) through Boost
distributions, and from the generator built into Armadillo (`randu`, `randn`). The model replaces this by arbitrary streams,
one per distribution; every theorem holds for all streams, hence for whatever the generators produce.
-/

namespace Verif.Model

/-- Streams of standard draws still to come. -/
structure Rng where
  /-- Boost uniform on [0,1) -/
  unif : ℕ → ℝ
  /-- Boost standard normal -/
  norm : ℕ → ℝ
  /-- Boost Student t -/
  stud : ℕ → ℝ
  /-- Boost chi-squared -/
  chi2 : ℕ → ℝ
  /-- Boost uniform integers -/
  int : ℕ → ℕ
  /-- Armadillo `randu` -/
  randu : ℕ → ℝ
  /-- Armadillo `randn` -/
  randn : ℕ → ℝ

namespace Rng

/-- Drop the first `k` elements of a stream. -/
def skip {α : Type} (k : ℕ) (f : ℕ → α) : ℕ → α := fun i => f (i + k)

/-- Next draw of each kind. -/
def nextU (r : Rng) : ℝ × Rng := (r.unif 0, { r with unif := skip 1 r.unif })
@[inherit_doc nextU]
def nextN (r : Rng) : ℝ × Rng := (r.norm 0, { r with norm := skip 1 r.norm })
@[inherit_doc nextU]
def nextT (r : Rng) : ℝ × Rng := (r.stud 0, { r with stud := skip 1 r.stud })
@[inherit_doc nextU]
def nextC (r : Rng) : ℝ × Rng := (r.chi2 0, { r with chi2 := skip 1 r.chi2 })
@[inherit_doc nextU]
def nextI (r : Rng) : ℕ × Rng := (r.int 0, { r with int := skip 1 r.int })

/-- `v.randu()`, `v.randn()` on a vector of `k` elements. -/
def vecU (r : Rng) (k : ℕ) : List ℝ × Rng := ((List.range k).map r.randu, { r with randu := skip k r.randu })
@[inherit_doc vecU]
def vecN (r : Rng) (k : ℕ) : List ℝ × Rng := ((List.range k).map r.randn, { r with randn := skip k r.randn })

/-- Ranges of the distributions. -/
structure Ok (r : Rng) : Prop where
  unif : ∀ k, 0 ≤ r.unif k ∧ r.unif k < 1
  chi2 : ∀ k, 0 < r.chi2 k
  randu : ∀ k, 0 ≤ r.randu k ∧ r.randu k ≤ 1

end Rng
end Verif.Model
