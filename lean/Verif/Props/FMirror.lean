import Verif.Theory.FMirrorRun
import Verif.Props.FSign
import Verif.Props.FCarmaRun

/-! C107: the sign of the data in a whole run with machine numbers. -/

namespace Verif.Props

open Verif.Model Verif.Spec Verif.Theory
open scoped Classical

/-- **C107, CAR(1).** Run `RunCar1Sampler` on the values with the other sign, the other sign of the mean in the starting vector, and the draws of `mirror`
(other sign of the mean in a drawn starting vector and in every unit proposal): the recorded values are those of the original run with the other sign of
the mean, and the recorded log-posteriors are the same doubles. The run ends with the same exception if there is one. Any data, any draws, any length of
the run, any library that does not prefer a sign. -/
theorem C107_car1 {M : Mach} (hM : SignFreeM M) (srt : List Dbl → List ℕ) (n burnin : ℕ) (time y yerr : List Dbl) (thin : ℕ) (init : List Dbl) (r : FRng) :
    (frunCar1 M srt n burnin time (y.map .neg) yerr thin (flipMu init) (mirror 4 r)).map recorded =
      ((frunCar1 M srt n burnin time y yerr thin init r).map recorded).map flipRecorded := by
  rw [mirror_run1 hM]
  cases frunCar1 M srt n burnin time y yerr thin init r <;> rfl

/-- **C107, CARMA.** The same for `RunCarmaSampler`: any orders, either parametrisation, any number of tempered chains with exchanges. -/
theorem C107_carma {C : CArith} (hC : SignFreeC C) {M : Mach} (hM : SignFreeM M) (fuel : ℕ) (srt : List Dbl → List ℕ) (n burnin : ℕ)
    (time y yerr : List Dbl) (p q nwalkers : ℕ) (zcarma : Bool) (thin : ℕ) (init : List Dbl) (r : FRng) :
    (frunCarma C M fuel srt n burnin time (y.map .neg) yerr p q nwalkers zcarma thin (flipMu init) (mirror (nParams p q zcarma) r)).map recorded =
      ((frunCarma C M fuel srt n burnin time y yerr p q nwalkers zcarma thin init r).map recorded).map flipRecorded := by
  rw [mirror_runP hC hM]
  cases frunCarma C M fuel srt n burnin time y yerr p q nwalkers zcarma thin init r <;> rfl

/-! ### examples -/

lemma fold_neg {A : Arith} (hA : SignFree A) : ∀ (l : List Dbl) (x : Dbl), (l.map .neg).foldl A.add x.neg = (l.foldl A.add x).neg
  | [], _ => rfl
  | a :: l, x => by rw [List.map_cons, List.foldl_cons, List.foldl_cons, add_nn hA]; exact fold_neg hA l _

lemma zip_both {A : Arith} (hA : SignFree A) {n : ℕ} (b : Fin n → Prop) [DecidablePred b] (f g : Fin n → Dbl) :
    List.zipWith A.mul (List.ofFn fun i => sg (b i) (f i)) (List.ofFn fun i => sg (b i) (g i)) = List.zipWith A.mul (List.ofFn f) (List.ofFn g) := by
  refine List.ext_getElem (by simp) fun i h1 h2 => ?_
  simp only [List.getElem_zipWith, List.getElem_ofFn, sg]
  split_ifs
  · rw [mul_n hA, n_mul hA, dbl_neg_neg]
  · rfl

/-- Products summed from left to right, default rounding. -/
lemma fsMach_sign : SignFreeM fsMach where
  real := C106_nearest
  dot_neg l m := by
    show (List.zipWith _ (l.map Dbl.neg) m).foldl _ _ = _
    have : List.zipWith (nearest EvenBelow).mul (l.map .neg) m = (List.zipWith (nearest EvenBelow).mul l m).map .neg := by
      rw [List.zipWith_map_left, List.map_zipWith]
      simp only [n_mul C106_nearest]
    rw [this]
    conv_lhs => rw [← zero_neg]
    exact fold_neg C106_nearest _ _
  dot_both n b _ f g := by
    show (List.zipWith _ _ _).foldl _ _ = _
    rw [zip_both C106_nearest]; rfl
  norm n b _ f := by
    show (nearest EvenBelow).sqrt ((List.zipWith _ _ _).foldl _ _) = _
    rw [zip_both C106_nearest]; rfl

lemma toyC_sign : SignFreeC toyC where
  real := C106_nearest
  cmul := libC_sign.cmul
  dot p v w := by simp [toyC, CD.neg, Dbl.neg]

/-- The draws of the example and their mirror image: Student draws 1, 1, -1, 1, 1, 1, -1, 1, ... -/
example : (mirror 4 (fsRng (.fin 1))).stud 6 = .fin (-1) ∧ (mirror 4 (fsRng (.fin 1))).stud 7 = .fin 1 := ⟨rfl, rfl⟩

/-- A run of CAR(1) that returns five samples, and the run for the values 0, -1, -2. -/
example (srt : List Dbl → List ℕ) : ∃ par par', frunCar1 fsMach srt 5 7 ([0, 1, 2 ^ 60].map .fin) ([0, 1, 2].map .fin) ([1, 1, 1].map .fin) 2
      ([1, 1, 0, -40].map .fin) (fsRng (.fin 1)) = .ok par ∧ par.samples.length = 5 ∧
    frunCar1 fsMach srt 5 7 ([0, 1, 2 ^ 60].map .fin) ([-0, -1, -2].map .fin) ([1, 1, 1].map .fin) 2 ([1, 1, -0, -40].map .fin)
      (mirror 4 (fsRng (.fin 1))) = .ok par' ∧ par'.samples = par.samples.map flipMu ∧ par'.logposts = par.logposts := by
  obtain ⟨B, L, hset, h1, h2, -⟩ := fs_setup C72_nearest
  obtain ⟨par, h, hn, -⟩ := C90_car1_accurate (M := fsMach) C72_nearest C90_nearest C75_nearest (fs_mild h2) hset srt 5 7 2 rfl fl_theta (fs_within h1)
    (by simp only [List.getD_cons_succ, List.getD_cons_zero, abs_zero]; positivity) (fs_usable (.fin 1))
  have e := C107_car1 fsMach_sign srt 5 7 ([0, 1, 2 ^ 60].map .fin) ([0, 1, 2].map .fin) ([1, 1, 1].map .fin) 2 ([1, 1, 0, -40].map .fin) (fsRng (.fin 1))
  rw [h] at e
  have hy : ([0, 1, 2].map Dbl.fin).map Dbl.neg = [-0, -1, -2].map .fin := rfl
  have hi : flipMu ([1, 1, 0, -40].map .fin) = [1, 1, -0, -40].map .fin := rfl
  rw [hy, hi] at e
  cases e' : frunCar1 fsMach srt 5 7 ([0, 1, 2 ^ 60].map .fin) ([-0, -1, -2].map .fin) ([1, 1, 1].map .fin) 2 ([1, 1, -0, -40].map .fin)
      (mirror 4 (fsRng (.fin 1))) with
  | error f => rw [e'] at e; cases e
  | ok par' =>
    rw [e'] at e
    injection e with e
    exact ⟨par, par', h, hn, rfl, congrArg Prod.fst e, congrArg (fun x => x.2.1) e⟩

/-- A run of CAR(2) with ten tempered chains that returns five samples, and the run for the values 0, -1, -2. -/
example (srt : List Dbl → List ℕ) : ∃ par par', frunCarma toyC fsMach 0 srt 5 7 ([0, 1, 2 ^ 60].map .fin) ([0, 1, 2].map .fin) ([1, 1, 1].map .fin) 2 0 10
      false 2 ([1, 1, 0, 0, 0].map .fin) (fcRng [0, 0, 0, 0, 0]) = .ok par ∧
    frunCarma toyC fsMach 0 srt 5 7 ([0, 1, 2 ^ 60].map .fin) ([-0, -1, -2].map .fin) ([1, 1, 1].map .fin) 2 0 10
      false 2 ([1, 1, -0, 0, 0].map .fin) (mirror 5 (fcRng [0, 0, 0, 0, 0])) = .ok par' ∧ par'.samples = par.samples.map flipMu ∧
      par'.logposts = par.logposts := by
  obtain ⟨obj, _, par, -, h, hc⟩ := toy_run srt (n := 10) (by norm_num) (by norm_num)
  have e := C107_carma toyC_sign fsMach_sign 0 srt 5 7 ([0, 1, 2 ^ 60].map .fin) ([0, 1, 2].map .fin) ([1, 1, 1].map .fin) 2 0 10 false 2
    ([1, 1, 0, 0, 0].map .fin) (fcRng [0, 0, 0, 0, 0])
  rw [h] at e
  have hy : ([0, 1, 2].map Dbl.fin).map Dbl.neg = [-0, -1, -2].map .fin := rfl
  have hi : flipMu ([1, 1, 0, 0, 0].map .fin) = [1, 1, -0, 0, 0].map .fin := rfl
  rw [hy, hi, show nParams 2 0 false = 5 from rfl] at e
  cases e' : frunCarma toyC fsMach 0 srt 5 7 ([0, 1, 2 ^ 60].map .fin) ([-0, -1, -2].map .fin) ([1, 1, 1].map .fin) 2 0 10
      false 2 ([1, 1, -0, 0, 0].map .fin) (mirror 5 (fcRng [0, 0, 0, 0, 0])) with
  | error f => rw [e'] at e; cases e
  | ok par' =>
    rw [e'] at e
    injection e with e
    exact ⟨par, par', h, rfl, congrArg Prod.fst e, congrArg (fun x => x.2.1) e⟩

end Verif.Props
