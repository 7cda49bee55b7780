import Verif.Theory.FBisim
import Verif.Spec.FErrSign
import Verif.Props.FMirror
import Verif.Model.FStartP

/-! C110: whole runs and the signs of the measurement errors. -/

namespace Verif.Props

open Verif.Model Verif.Spec Verif.Theory
open scoped Classical

/-- **C110, CAR(1).** With the same draws, a run on errors that differ in some signs only records the same values and log-posteriors, to the last bit, or ends
with the same fault. -/
theorem C110_car1 {M : Mach} (hA : SignFree M.A) (srt : List Dbl → List ℕ) (n burnin : ℕ) (time y : List Dbl) {yerr yerr' : List Dbl}
    (he : SameSize yerr yerr') (thin : ℕ) (init : List Dbl) (r : FRng) :
    Except.map recorded (frunCar1 M srt n burnin time y yerr thin init r) = Except.map recorded (frunCar1 M srt n burnin time y yerr' thin init r) :=
  recorded_same (errSign_run1 hA srt n burnin time y he thin init r)

/-- **C110, CARMA.** The same for the tempered ensemble of any of the four classes, with any library. -/
theorem C110_carma (C : CArith) {M : Mach} (hA : SignFree M.A) (fuel : ℕ) (srt : List Dbl → List ℕ) (n burnin : ℕ) (time y : List Dbl)
    {yerr yerr' : List Dbl} (he : SameSize yerr yerr') (p q nwalkers : ℕ) (zcarma : Bool) (thin : ℕ) (init : List Dbl) (r : FRng) :
    Except.map recorded (frunCarma C M fuel srt n burnin time y yerr p q nwalkers zcarma thin init r) =
      Except.map recorded (frunCarma C M fuel srt n burnin time y yerr' p q nwalkers zcarma thin init r) :=
  recorded_same (errSign_runP C hA fuel srt n burnin time y he p q nwalkers zcarma thin init r)

/-- **C110, starting values drawn, CAR(1).** The same with the starting values computed from the draws of `StartingValue`. -/
theorem C110_car1_drawn {M : Mach} (hA : SignFree M.A) (lib : StartLib) (srt : List Dbl → List ℕ) (n burnin : ℕ) (time y : List Dbl) {yerr yerr' : List Dbl}
    (he : SameSize yerr yerr') (thin : ℕ) (init : List Dbl) (d : StartDraws) (r : FRng) :
    Except.map recorded (frunCar1From M lib srt n burnin time y yerr thin init d r) =
      Except.map recorded (frunCar1From M lib srt n burnin time y yerr' thin init d r) := by
  refine recorded_same (R := fun s s' => absCar1 s = absCar1 s') ?_
  unfold frunCar1From
  refine (ORel.of_map (g := absCar1) (h := absCar1) (by rw [← absCar1_new, ← absCar1_new, he])).bind fun o o' ho => ?_
  have hy : o.y = o'.y := (congrArg FCar1.y ho : _)
  have ht : o.time = o'.time := (congrArg FCar1.time ho : _)
  have hm : o.maxFreq = o'.maxFreq := (congrArg FCar1.maxFreq ho : _)
  have e : o'.drawStart M.A lib d = o.drawStart M.A lib d := by unfold FCar1.drawStart; rw [hy, ht, hm]
  rw [e]
  exact ORel.same _ fun θ => errSign_run1 hA srt n burnin time y he thin init _

/-- **C110, starting values drawn, CARMA.** The same with the proposals of the search for starting values computed from the draws of its passes. -/
theorem C110_carma_drawn (C : CArith) {M : Mach} (hA : SignFree M.A) (lib : StartLib) (fuel : ℕ) (srt : List Dbl → List ℕ) (n burnin : ℕ) (time y : List Dbl)
    {yerr yerr' : List Dbl} (he : SameSize yerr yerr') (p q nwalkers : ℕ) (zcarma : Bool) (thin : ℕ) (init : List Dbl) (ds : ℕ → PassDraws) (r : FRng) :
    Except.map recorded (frunCarmaFrom C M lib fuel srt n burnin time y yerr p q nwalkers zcarma thin init ds r) =
      Except.map recorded (frunCarmaFrom C M lib fuel srt n burnin time y yerr' p q nwalkers zcarma thin init ds r) := by
  refine recorded_same (R := fun w w' : FWalk C p fuel => absCarP w.o = absCarP w'.o) ?_
  unfold frunCarmaFrom
  refine (ORel.of_map (g := absCarP) (h := absCarP) (by rw [← absCarP_new, ← absCarP_new, he])).bind fun o o' ho => ?_
  have e : passRng C.r lib o' ds r = passRng C.r lib o ds r := by rw [(absCarP_fields ho).1]; rfl
  rw [e]
  exact errSign_runP C hA fuel srt n burnin time y he p q nwalkers zcarma thin init _

/-- A run of CAR(1) that returns five samples, and the run for the errors -1, 1, -1. -/
example (srt : List Dbl → List ℕ) : ∃ par par', frunCar1 fsMach srt 5 7 ([0, 1, 2 ^ 60].map .fin) ([0, 1, 2].map .fin) ([1, 1, 1].map .fin) 2
      ([1, 1, 0, -40].map .fin) (fsRng (.fin 1)) = .ok par ∧ par.samples.length = 5 ∧
    frunCar1 fsMach srt 5 7 ([0, 1, 2 ^ 60].map .fin) ([0, 1, 2].map .fin) ([-1, 1, -1].map .fin) 2 ([1, 1, 0, -40].map .fin) (fsRng (.fin 1)) = .ok par' ∧
      par.samples = par'.samples ∧ par.logposts = par'.logposts := by
  obtain ⟨B, L, hset, h1, h2, -⟩ := fs_setup C72_nearest
  obtain ⟨par, h, hn, -⟩ := C90_car1_accurate (M := fsMach) C72_nearest C90_nearest C75_nearest (fs_mild h2) hset srt 5 7 2 rfl fl_theta (fs_within h1)
    (by simp only [List.getD_cons_succ, List.getD_cons_zero, abs_zero]; positivity) (fs_usable (.fin 1))
  have e := C110_car1 (M := fsMach) C106_nearest srt 5 7 ([0, 1, 2 ^ 60].map .fin) ([0, 1, 2].map .fin) (yerr := [1, 1, 1].map .fin)
    (yerr' := [-1, 1, -1].map .fin) (by simp [SameSize, Dbl.abs]) 2 ([1, 1, 0, -40].map .fin) (fsRng (.fin 1))
  rw [h] at e
  cases e' : frunCar1 fsMach srt 5 7 ([0, 1, 2 ^ 60].map .fin) ([0, 1, 2].map .fin) ([-1, 1, -1].map .fin) 2 ([1, 1, 0, -40].map .fin) (fsRng (.fin 1)) with
  | error f => rw [e'] at e; cases e
  | ok par' =>
    rw [e'] at e
    injection e with e
    exact ⟨par, par', h, hn, rfl, congrArg Prod.fst e, congrArg (fun x => x.2.1) e⟩

/-- A run of CAR(2) with ten tempered chains, and the run for the errors -1, 1, -1. -/
example (srt : List Dbl → List ℕ) : ∃ par par', frunCarma toyC fsMach 0 srt 5 7 ([0, 1, 2 ^ 60].map .fin) ([0, 1, 2].map .fin) ([1, 1, 1].map .fin) 2 0 10
      false 2 ([1, 1, 0, 0, 0].map .fin) (fcRng [0, 0, 0, 0, 0]) = .ok par ∧
    frunCarma toyC fsMach 0 srt 5 7 ([0, 1, 2 ^ 60].map .fin) ([0, 1, 2].map .fin) ([-1, 1, -1].map .fin) 2 0 10 false 2 ([1, 1, 0, 0, 0].map .fin)
      (fcRng [0, 0, 0, 0, 0]) = .ok par' ∧ par.samples = par'.samples ∧ par.logposts = par'.logposts := by
  obtain ⟨obj, _, par, -, h, hc⟩ := toy_run srt (n := 10) (by norm_num) (by norm_num)
  have e := C110_carma toyC (M := fsMach) C106_nearest 0 srt 5 7 ([0, 1, 2 ^ 60].map .fin) ([0, 1, 2].map .fin) (yerr := [1, 1, 1].map .fin)
    (yerr' := [-1, 1, -1].map .fin) (by simp [SameSize, Dbl.abs]) 2 0 10 false 2 ([1, 1, 0, 0, 0].map .fin) (fcRng [0, 0, 0, 0, 0])
  rw [h] at e
  cases e' : frunCarma toyC fsMach 0 srt 5 7 ([0, 1, 2 ^ 60].map .fin) ([0, 1, 2].map .fin) ([-1, 1, -1].map .fin) 2 0 10 false 2
      ([1, 1, 0, 0, 0].map .fin) (fcRng [0, 0, 0, 0, 0]) with
  | error f => rw [e'] at e; cases e
  | ok par' =>
    rw [e'] at e
    injection e with e
    exact ⟨par, par', h, rfl, congrArg Prod.fst e, congrArg (fun x => x.2.1) e⟩

end Verif.Props
