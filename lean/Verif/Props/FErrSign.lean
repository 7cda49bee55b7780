import Verif.Theory.FErrSign
import Verif.Spec.FErrSign
import Verif.Props.FSign

/-! C109: the signs of the measurement errors in machine numbers. -/

namespace Verif.Props

open Verif.Model Verif.Spec Verif.Theory
open scoped Classical

lemma sameCall_abs {W : Type} {cs cs' : List (Call W)} (h : List.Forall₂ SameCall cs cs') : cs.map absCall = cs'.map absCall := by
  induction h with
  | nil => rfl
  | cons h _ ih =>
    rw [List.map_cons, List.map_cons, ih]
    cases h with
    | same c => rfl
    | yerr h => simp only [absCall]; rw [show List.map Dbl.abs _ = List.map Dbl.abs _ from h]

/-- **C109, CAR(1) filter.** Errors that differ in some signs only: any sequence of calls is answered the same, to the last bit, with the same exception at
the same call if there is one. Any rounding whatever, any doubles, any sort routine. -/
theorem C109_car1_filter {A : Arith} (srt : List Dbl → List ℕ) (time y : List Dbl) {yerr yerr' : List Dbl} (he : SameSize yerr yerr') (sigsqr omega : Dbl)
    {cs cs' : List (Call Dbl)} (hc : List.Forall₂ SameCall cs cs') :
    (do let s ← FKF1.new A srt time y yerr sigsqr omega; answers (call1 A) s cs) =
      (do let s ← FKF1.new A srt time y yerr' sigsqr omega; answers (call1 A) s cs') := by
  have key : ∀ (e : List Dbl) (cs : List (Call Dbl)), (do let s ← FKF1.new A srt time y e sigsqr omega; answers (call1 A) s cs) =
      (do let s ← FKF1.new A srt time y (e.map .abs) sigsqr omega; answers (call1 A) s (cs.map absCall)) := by
    intro e cs
    rw [abs1_new, emap_bind]
    refine ebind_congr fun s => ?_
    rw [answers_map (gr := id) (abs1_call (A := A)) s cs]
    cases answers (call1 A) s cs <;> simp [Except.map]
  rw [key yerr cs, key yerr' cs', he, sameCall_abs hc]

/-- **C109, CARMA filter.** The same for the filter of order `p`, with any library. -/
theorem C109_carma_filter {C : CArith} {p : ℕ} (srt : List Dbl → List ℕ) (time y : List Dbl) {yerr yerr' : List Dbl} (he : SameSize yerr yerr') (sigsqr : Dbl)
    (omega : Fin p → CD) (ma : List Dbl) {cs cs' : List (Call (Fin p → CD))} (hc : List.Forall₂ SameCall cs cs') :
    (do let s ← FKFp.new C srt time y yerr sigsqr omega ma; answers (callP C) s cs) =
      (do let s ← FKFp.new C srt time y yerr' sigsqr omega ma; answers (callP C) s cs') := by
  have key : ∀ (e : List Dbl) (cs : List (Call (Fin p → CD))), (do let s ← FKFp.new C srt time y e sigsqr omega ma; answers (callP C) s cs) =
      (do let s ← FKFp.new C srt time y (e.map .abs) sigsqr omega ma; answers (callP C) s (cs.map absCall)) := by
    intro e cs
    rw [absP_new, emap_bind]
    refine ebind_congr fun s => ?_
    rw [answers_map (gr := id) (absP_call (C := C)) s cs]
    cases answers (callP C) s cs <;> simp [Except.map]
  rw [key yerr cs, key yerr' cs', he, sameCall_abs hc]

/-- **C109, log-density of CAR(1).** Any sequence of calls of `LogDensity` of one object gives the same values. The errors are multiplied by the square root
of the scale parameter before they are squared, so the rounding must not prefer a sign. -/
theorem C109_car1_density {A : Arith} (hA : SignFree A) (srt : List Dbl → List ℕ) (time y : List Dbl) {yerr yerr' : List Dbl} (he : SameSize yerr yerr')
    (maxStdev : Dbl) (θs : List (List Dbl)) :
    (do let s ← FCar1.new A srt time y yerr maxStdev; answers (FCar1.logDensity A) s θs) =
      (do let s ← FCar1.new A srt time y yerr' maxStdev; answers (FCar1.logDensity A) s θs) := by
  have h : ∀ s s', absCar1 s = absCar1 s' → ∀ θ, Except.map (fun r => (absCar1 r.1, r.2)) (FCar1.logDensity A s θ) =
      Except.map (fun r => (absCar1 r.1, r.2)) (FCar1.logDensity A s' θ) := fun s s' hs θ => by
    rw [← absCar1_logDensity hA, hs, absCar1_logDensity hA]
  have hid : ∀ x : Res (List Dbl), Except.map id x = x := fun x => by cases x <;> rfl
  have := same_map (h := id) (g := absCar1) (x := FCar1.new A srt time y yerr maxStdev) (x' := FCar1.new A srt time y yerr' maxStdev)
    (by rw [← absCar1_new, ← absCar1_new, he]) (k := fun s => answers (FCar1.logDensity A) s θs) (k' := fun s => answers (FCar1.logDensity A) s θs)
    fun s s' hs => by rw [answers_same h θs s s' hs]
  rwa [hid, hid] at this

/-- **C109, log-density of CARMA.** The same for the four classes of order `p`. -/
theorem C109_carma_density {C : CArith} (hA : SignFree C.r) (kind : Kind) (p : ℕ) (srt : List Dbl → List ℕ) (time y : List Dbl) {yerr yerr' : List Dbl}
    (he : SameSize yerr yerr') (maxStdev : Dbl) (θs : List (List Dbl)) :
    (do let s ← FCarP.new C kind p srt time y yerr maxStdev; answers (FCarP.logDensity C) s θs) =
      (do let s ← FCarP.new C kind p srt time y yerr' maxStdev; answers (FCarP.logDensity C) s θs) := by
  have h : ∀ s s', absCarP (p := p) s = absCarP s' → ∀ θ, Except.map (fun r => (absCarP r.1, r.2)) (FCarP.logDensity C s θ) =
      Except.map (fun r => (absCarP r.1, r.2)) (FCarP.logDensity C s' θ) := fun s s' hs θ => by
    rw [← absCarP_logDensity hA, hs, absCarP_logDensity hA]
  have hid : ∀ x : Res (List Dbl), Except.map id x = x := fun x => by cases x <;> rfl
  have := same_map (h := id) (g := absCarP) (x := FCarP.new C kind p srt time y yerr maxStdev) (x' := FCarP.new C kind p srt time y yerr' maxStdev)
    (by rw [← absCarP_new, ← absCarP_new, he]) (k := fun s => answers (FCarP.logDensity C) s θs) (k' := fun s => answers (FCarP.logDensity C) s θs)
    fun s s' hs => by rw [answers_same h θs s s' hs]
  rwa [hid, hid] at this

/-- errors of either sign -/
example : SameSize [.fin 1, .fin (-2), .ninf, .nan] [.fin (-1), .fin (-2), .pinf, .nan] ∧
    List.Forall₂ SameCall [Call.filter, .setYerr [.fin 1], .predict (.fin 3)] [Call.filter (W := Dbl), .setYerr [.fin (-1)], .predict (.fin 3)] := by
  refine ⟨by simp [SameSize, Dbl.abs], .cons (.same _) (.cons (.yerr (by simp [SameSize, Dbl.abs])) (.cons (.same _) .nil))⟩

/-- A log-density that is a number: the same for errors 1, 1, 1 and -1, 1, -1. -/
example (srt : List Dbl → List ℕ) : ∃ v : ℝ, (do
      let s ← FCar1.new (nearest EvenBelow) srt ([0, 1, 2 ^ 60].map .fin) [.fin 0, .fin 1, .fin 2] [.fin (-1), .fin 1, .fin (-1)] (.fin 10)
      answers (FCar1.logDensity (nearest EvenBelow)) s [[.fin 1, .fin 1, .fin 1, .fin (-40)]]) = .ok [.fin v] := by
  obtain ⟨s, e, h⟩ := C72_car1_finite C72_nearest fl_mild srt
  obtain ⟨s2, v, h, -⟩ := (h s .none [1, 1, 1, -40] le_rfl (by
    intro x hx
    simp only [List.mem_cons, List.not_mem_nil, or_false] at hx
    rcases hx with rfl | rfl | rfl | rfl
    · exact f64_one
    · exact f64_one
    · exact f64_one
    · exact fl_theta _ (by simp)) (by
    rw [show ([1, 1, 1, -40] : List ℝ).getD 2 0 = 1 from rfl, abs_one, show (1 : ℝ) = 2 ^ (0 : ℤ) by norm_num]
    exact pw_le _ _ (by norm_num))).2 fl_within
  have e1 : (do
      let s ← FCar1.new (nearest EvenBelow) srt ([0, 1, 2 ^ 60].map .fin) [.fin 0, .fin 1, .fin 2] [.fin 1, .fin 1, .fin 1] (.fin 10)
      answers (FCar1.logDensity (nearest EvenBelow)) s [[.fin 1, .fin 1, .fin 1, .fin (-40)]]) = .ok [.fin v] := by
    have e' : FCar1.new (nearest EvenBelow) srt ([0, 1, 2 ^ 60].map .fin) [.fin 0, .fin 1, .fin 2] [.fin 1, .fin 1, .fin 1] (.fin 10) = .ok s := e
    have h' : FCar1.logDensity (nearest EvenBelow) s [.fin 1, .fin 1, .fin 1, .fin (-40)] = .ok (s2, .fin v) := h
    rw [e', res_bind_ok]
    simp only [answers, h', res_bind_ok]
    rfl
  refine ⟨v, ?_⟩
  rw [C109_car1_density C106_nearest srt _ _ (yerr' := [.fin 1, .fin 1, .fin 1]) (by simp [SameSize, Dbl.abs]) (.fin 10) _]
  exact e1

end Verif.Props
