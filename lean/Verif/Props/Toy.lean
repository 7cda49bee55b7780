import Verif.Model.Sampler

/-!
A small target for the examples beside the theorems on Monte Carlo steps, which hold for every target.
-/

namespace Verif.Props

open Verif.Model

/-- A standard normal density in one dimension, -infinity for vectors of another length. -/
structure Toy where
  calls : ℕ

noncomputable instance : Target Toy where
  ld s θ := .ok (⟨s.calls + 1⟩, if θ.length = 1 then .fin (-(θ.getD 0 0) ^ 2 / 2) else .ninf)
  start _ s r := .ok (s, [0], r)
  setStart _ s init r := .ok (s, if init.length = 1 then init else [0], r)
  staleLd _ _ := .ok .nan

/-- a chain at value `x` -/
noncomputable def Toy.par (x temp : ℝ) : Par Toy := ⟨⟨0⟩, [x], .fin (-x ^ 2 / 2), temp, "", false, [], []⟩

/-- random numbers: uniform draws 1/2, Student draws 1 -/
noncomputable def exRng : Rng := ⟨fun _ => 1 / 2, fun _ => 0, fun _ => 1, fun _ => 1, fun _ => 0, fun _ => 1 / 2, fun _ => 0⟩

end Verif.Props
