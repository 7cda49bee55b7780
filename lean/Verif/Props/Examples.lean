import Verif.Props.LogPost

/-!
Concrete objects and parameter vectors with a finite log-density, for the examples beside the theorems on sampling.
-/

namespace Verif.Props

open Verif.Model Verif.Spec Verif.Theory

/-- a CAR(1) object and a `theta` with finite log-density -/
lemma ex_car1_value (srt : List ℝ → List ℕ) : ∃ (o o' : Car1) (x : ℝ),
    Car1.new srt (List.ofFn exT) (List.ofFn exY) (List.ofFn exT) = .ok o ∧ logDensity o [1, 1, 0, -1] = .ok (o', .fin x) := by
  obtain ⟨dmin, span, o, h1, h2, h3, h4⟩ := C05_car1_logpost srt (by norm_num) exT_mono exY exT [1, 1, 0, -1] (by simp)
  obtain ⟨o', h5⟩ := h4 (ex_car1_bounds h1 h2) (Or.inl (by simp [at0]))
  exact ⟨o, o', _, h3, h5⟩

/-- a CAR(2) `theta` -/
noncomputable def exθ : List ℝ := [1, 1, 0, Real.log 2, Real.log 3]

/-- a CAR(2) object and a `theta` with finite log-density -/
lemma ex_carp_value (srt : List ℝ → List ℕ) : ∃ (o o' : CarP 2) (x : ℝ),
    CarP.new .carp 2 srt (List.ofFn exT) (List.ofFn exY) (List.ofFn exT) = .ok o ∧ logDensity o exθ = .ok (o', .fin x) := by
  obtain ⟨dmin, span, o, lo, hi, h1, h2, -, -, -, h3, -, roots, h4, h5⟩ := C06_carma_logpost srt (by norm_num) exT_mono exY exT
    (p := 2) (by norm_num) .carp trivial exθ (by simp [npar, exθ])
  rw [ex_roots (by simp [exθ]) (by simp [exθ, at0]) (by simp [exθ, at0])] at h4
  cases h4
  obtain ⟨_, _, o', -, -, -, -, -, -, h6⟩ := h5 (by
    rw [exT_gap h1, exT_span h2, exY_var]
    have := ex_bounds (θ := exθ) (by simp [exθ, at0]) (by simp [exθ, at0])
    simpa using this) (Or.inl (by simp [at0, exθ]))
  exact ⟨o, o', _, h3, h6⟩

end Verif.Props
