import Verif.Theory.FSignP
import Verif.Theory.FSignRound
import Verif.Theory.FSignRun
import Verif.Theory.FSetup
import Verif.Props.FSetP

/-! C106: the sign of the data in machine numbers. -/

namespace Verif.Props

open Verif.Model Verif.Spec Verif.Theory
open scoped Classical

/-- **C106, rounding.** The default rounding mode, to nearest with ties to even, does not prefer a sign. -/
theorem C106_nearest : SignFree (nearest EvenBelow) := even_signFree

/-- The doubles next to 2^53 + 1 are 2^53 and 2^53 + 2, both at distance 1: it goes down to the even one, and its negative up. -/
example : (nearest EvenBelow).rnd (2 ^ 53 + 1) = .fin (2 ^ 53) ∧ (nearest EvenBelow).rnd (-(2 ^ 53 + 1)) = .fin (-2 ^ 53) := by
  have h : (nearest EvenBelow).rnd (2 ^ 53 + 1) = .fin (2 ^ 53) := by
    obtain ⟨b, -, this⟩ := near_grid EvenBelow (x := 2 ^ 53 + 1) (r := 1) (2 ^ 52) 1 (by norm_num) (by norm_num) (by norm_num)
      (by norm_num) (by norm_num) (by norm_num)
    rw [if_pos (show (1 : ℝ) < 2 ^ 1 - 1 ∨ ((1 : ℝ) = 2 ^ 1 - 1 ∧ EvenBelow (2 ^ 53 + 1)) from
      Or.inr ⟨by norm_num, 2 ^ 52, 1, by norm_num, by norm_num, Or.inl (by norm_num), ⟨2 ^ 51, by norm_num⟩, by rw [b]; norm_num⟩)] at this
    refine this.trans ?_
    norm_num
  refine ⟨h, ?_⟩
  rw [C106_nearest, h]
  rfl

/-- Rounding upwards does: the hypothesis is needed. -/
example : ¬ SignFree { nearest EvenBelow with rnd := fun x => .fin (above x) } := by
  intro h
  have := h (2 ^ 53 + 1)
  obtain ⟨b, a, -⟩ := near_grid EvenBelow (x := 2 ^ 53 + 1) (r := 1) (2 ^ 52) 1 (by norm_num) (by norm_num) (by norm_num)
      (by norm_num) (by norm_num) (by norm_num)
  simp only [above_neg, a, b, Dbl.neg, Dbl.fin.injEq] at this
  norm_num at this

/-! ### before the first iteration -/

/-- **C106, set-up.** The bound of the prior and the factor of the first proposal covariance, or the exception of `arma::chol`, are the same for the values
with the other sign; their mean has the other sign. -/
theorem C106_setup {A : Arith} (hA : SignFree A) (d : ℕ) (y : List Dbl) :
    FRun.setup A d (y.map .neg) = FRun.setup A d y ∧ FRun.mean A (y.map .neg) = (FRun.mean A y).neg := ⟨setup_flip hA d y, mean_flip hA y⟩

/-- With nothing rounded: the values 1 and 3 have mean 2, and -1 and -3 have mean -2. -/
example : SignFree (Arith.exact) ∧ FRun.mean Arith.exact [.fin 1, .fin 3] = .fin 2 ∧ FRun.mean Arith.exact [.fin (-1), .fin (-3)] = .fin (-2) := by
  have h : SignFree Arith.exact := fun x => rfl
  have e : FRun.mean Arith.exact [.fin 1, .fin 3] = .fin 2 := by
    simp [FRun.mean, FRun.sum, Arith.div, Arith.add, Arith.fl, Arith.exact, Dbl.div, Dbl.add]
    norm_num
  exact ⟨h, e, by have := (C106_setup h 4 [.fin 1, .fin 3]).2; rw [e] at this; exact this⟩

/-! ### filters -/

/-- **C106, CAR(1) filter.** Any data and parameters, any doubles, any sorting routine, any rounding that does not prefer a sign. Build a filter from the
values with the other sign, and make any sequence of calls, with the other sign in `SetTimeSeries` and in the normal draws of `Simulate`: the answers
are those of the original program with the sign of all means and simulated values changed and the variances unchanged, to the last bit. Both programs
throw the same exception at the same call, or none. -/
theorem C106_car1_filter {A : Arith} (hA : SignFree A) (srt : List Dbl → List ℕ) (time y yerr : List Dbl) (sigsqr omega : Dbl) (cs : List (Call Dbl)) :
    (do let s ← FKF1.new A srt time (y.map .neg) yerr sigsqr omega; answers (call1 A) s (cs.map .flip)) =
      (do let s ← FKF1.new A srt time y yerr sigsqr omega; answers (call1 A) s cs).map (List.map .flip) := by
  rw [flip1_new, emap_bind, ebind_map]
  exact ebind_congr fun s => answers_map (flip1_call hA) s cs

example (srt : List Dbl → List ℕ) (x : Dbl) : ∃ m v, (do
      let s ← FKF1.new (nearest EvenBelow) srt ([0, 1].map .fin) [.fin 1, .fin 2] [.fin 0, .fin 1] (.fin 2) (.fin 3)
      answers (call1 (nearest EvenBelow)) s [.setY [.fin 5, .fin 6], .predict x]) = .ok [.done, .predicted m v] ∧ (do
      let s ← FKF1.new (nearest EvenBelow) srt ([0, 1].map .fin) [.fin (-1), .fin (-2)] [.fin 0, .fin 1] (.fin 2) (.fin 3)
      answers (call1 (nearest EvenBelow)) s [.setY [.fin (-5), .fin (-6)], .predict x]) = .ok [.done, .predicted m.neg v] := by
  obtain ⟨s, e⟩ : ∃ s, FKF1.new (nearest EvenBelow) srt ([0, 1].map .fin) [.fin 1, .fin 2] [.fin 0, .fin 1] (.fin 2) (.fin 3) = .ok s := by
    obtain ⟨ds, hd, hpos⟩ := mild_pos C72_nearest fp_times
    unfold FKF1.new FKF1.newData
    rw [newData_pos hd hpos srt rfl, res_bind_ok]
    exact ⟨_, rfl⟩
  have l : Live1 (nearest EvenBelow) s := .new (by rfl) (by rfl) e
  have w := Live1.whole l
  obtain ⟨a, -, r, h, -⟩ := (C105_car1 (.y [.fin 5, .fin 6] l (by
    have : s.y = [.fin 1, .fin 2] := by
      obtain ⟨ds, hd, hpos⟩ := mild_pos C72_nearest fp_times
      unfold FKF1.new FKF1.newData at e
      rw [newData_pos hd hpos srt rfl, res_bind_ok] at e
      injection e with e
      rw [← e]
    rw [this]; rfl)) (.y [.fin 5, .fin 6] l (by
    have : s.y = [.fin 1, .fin 2] := by
      obtain ⟨ds, hd, hpos⟩ := mild_pos C72_nearest fp_times
      unfold FKF1.new FKF1.newData at e
      rw [newData_pos hd hpos srt rfl, res_bind_ok] at e
      injection e with e
      rw [← e]
    rw [this]; rfl)) ⟨rfl, rfl, rfl, rfl, rfl⟩).1 x
  have e1 : (do
      let s ← FKF1.new (nearest EvenBelow) srt ([0, 1].map .fin) [.fin 1, .fin 2] [.fin 0, .fin 1] (.fin 2) (.fin 3)
      answers (call1 (nearest EvenBelow)) s [.setY [.fin 5, .fin 6], .predict x]) = .ok [.done, .predicted r.1 r.2] := by
    rw [e, res_bind_ok]
    simp only [answers, call1, res_bind_ok, h, emap_ok]
    rfl
  refine ⟨r.1, r.2, e1, ?_⟩
  have := C106_car1_filter C106_nearest srt ([0, 1].map .fin) [.fin 1, .fin 2] [.fin 0, .fin 1] (.fin 2) (.fin 3) [.setY [.fin 5, .fin 6], .predict x]
  rw [e1] at this
  exact this

/-- **C106, CARMA filter.** The same for the filter of order `p`: any roots and coefficients, any library whose complex product and scalar product do not
prefer a sign. -/
theorem C106_carma_filter {C : CArith} (hC : SignFreeC C) {p : ℕ} (srt : List Dbl → List ℕ) (time y yerr : List Dbl) (sigsqr : Dbl) (omega : Fin p → CD)
    (ma : List Dbl) (cs : List (Call (Fin p → CD))) :
    (do let s ← FKFp.new C srt time (y.map .neg) yerr sigsqr omega ma; answers (callP C) s (cs.map .flip)) =
      (do let s ← FKFp.new C srt time y yerr sigsqr omega ma; answers (callP C) s cs).map (List.map .flip) := by
  rw [flipP_new, emap_bind, ebind_map]
  exact ebind_congr fun s => answers_map (flipP_call hC) s cs

lemma val_neg (z : CD) : val? z.neg = (val? z).map fun c => -c := by
  obtain ⟨a, b⟩ := z
  cases a <;> cases b <;> simp [val?, CD.neg, Dbl.neg, Complex.ext_iff]

lemma pair_neg (z : ℂ) : pair (-z) = (pair z).neg := by simp [pair, CD.neg, Dbl.neg]

lemma vec_neg {p : ℕ} (w : Fin p → CD) : vec? (fun k => (w k).neg) = (vec? w).map fun v => -v := by
  unfold vec?
  by_cases h : ∀ k, (val? (w k)).isSome
  · have h' : ∀ k, (val? (w k).neg).isSome := fun k => by rw [val_neg, Option.isSome_map]; exact h k
    rw [dif_pos h, dif_pos h', Option.map_some]
    congr 1
    funext k
    simp only [val_neg, Option.get_map, Pi.neg_apply]
  · have h' : ¬ ∀ k, (val? (w k).neg).isSome := fun q => h fun k => by have := q k; rwa [val_neg, Option.isSome_map] at this
    rw [dif_neg h, dif_neg h', Option.map_none]

lemma libC_sign : SignFreeC libC where
  real := C106_nearest
  cmul z w := by
    show lift2 (fun z w => pair (z * w)) z w.neg = (lift2 (fun z w => pair (z * w)) z w).neg
    unfold lift2
    rw [val_neg]
    cases val? z with
    | none => rfl
    | some a => cases val? w with
      | none => rfl
      | some b => simp only [Option.map_some, Option.bind_some, Option.getD_some, mul_neg, pair_neg]
  dot p v w := by
    show ((vec? v).bind fun v => (vec? fun k => (w k).neg).map fun w => pair (dotProduct v w)).getD cnan =
      (((vec? v).bind fun v => (vec? w).map fun w => pair (dotProduct v w)).getD cnan).neg
    rw [vec_neg]
    cases vec? v with
    | none => rfl
    | some a => cases vec? w with
      | none => rfl
      | some b => simp only [Option.map_some, Option.bind_some, Option.getD_some, dotProduct_neg, pair_neg]

example (srt : List Dbl → List ℕ) (x : Dbl) : ∃ m v, (do
      let s ← FKFp.new libC srt ([0, 1].map .fin) [.fin 1, .fin 2] [.fin 0, .fin 1] (.fin 2) (fun k => pair ((![-1, -2] : Fin 2 → ℂ) k)) [.fin 1]
      answers (callP libC) s [.setSigsqr (.fin 3), .predict x]) = .ok [.done, .predicted m v] ∧ (do
      let s ← FKFp.new libC srt ([0, 1].map .fin) [.fin (-1), .fin (-2)] [.fin 0, .fin 1] (.fin 2) (fun k => pair ((![-1, -2] : Fin 2 → ℂ) k)) [.fin 1]
      answers (callP libC) s [.setSigsqr (.fin 3), .predict x]) = .ok [.done, .predicted m.neg v] := by
  obtain ⟨s, e, -, -, -, -, o, m⟩ :=
    C103_new libC_bin srt fp_times [.fin 1, .fin 2] [.fin 0, .fin 1] (.fin 2) (fun k => pair ((![-1, -2] : Fin 2 → ℂ) k)) [.fin 1]
  obtain ⟨s2, r, h, -⟩ := (C105_outcome (.sigsqr (.fin 3) (.new (by rfl) (by rfl) e)) x).2.2.2 le_rfl
    (by show Solvable libC s.omega; rw [o]; exact libC_roots.1) (by show s.ma.length = 2; rw [m]; rfl)
  have e1 : (do
      let s ← FKFp.new libC srt ([0, 1].map .fin) [.fin 1, .fin 2] [.fin 0, .fin 1] (.fin 2) (fun k => pair ((![-1, -2] : Fin 2 → ℂ) k)) [.fin 1]
      answers (callP libC) s [.setSigsqr (.fin 3), .predict x]) = .ok [.done, .predicted r.1 r.2] := by
    rw [e, res_bind_ok]
    simp only [answers, callP, res_bind_ok, h, emap_ok]
    rfl
  refine ⟨r.1, r.2, e1, ?_⟩
  have := C106_carma_filter libC_sign srt ([0, 1].map .fin) [.fin 1, .fin 2] [.fin 0, .fin 1] (.fin 2) (fun k => pair ((![-1, -2] : Fin 2 → ℂ) k)) [.fin 1]
    [.setSigsqr (.fin 3), .predict x]
  rw [e1] at this
  exact this

/-! ### log-densities -/

/-- **C106, CAR(1) log-density.** For the values with the other sign, the log-density at `theta` with the other sign of `theta(2)` is the same double, in any
sequence of evaluations of one object. -/
theorem C106_car1_density {A : Arith} (hA : SignFree A) (srt : List Dbl → List ℕ) (time y yerr : List Dbl) (M : Dbl) (θs : List (List Dbl)) :
    (do let s ← FCar1.new A srt time (y.map .neg) yerr M; answers (FCar1.logDensity A) s (θs.map flipMu)) =
      (do let s ← FCar1.new A srt time y yerr M; answers (FCar1.logDensity A) s θs) := by
  rw [flipCar1_new, emap_bind]
  refine ebind_congr fun s => ?_
  rw [answers_map (gr := id) (flipCar1_logDensity hA) s θs, List.map_id_fun]
  cases answers (FCar1.logDensity A) s θs <;> rfl

/-- **C106, CARMA log-densities.** The same for CARp, CARMA, ZCAR and ZCARMA of any order. -/
theorem C106_carma_density {C : CArith} (hC : SignFreeC C) (kind : Kind) (p : ℕ) (srt : List Dbl → List ℕ) (time y yerr : List Dbl) (M : Dbl)
    (θs : List (List Dbl)) :
    (do let s ← FCarP.new C kind p srt time (y.map .neg) yerr M; answers (FCarP.logDensity C) s (θs.map flipMu)) =
      (do let s ← FCarP.new C kind p srt time y yerr M; answers (FCarP.logDensity C) s θs) := by
  rw [flipCarP_new, emap_bind]
  refine ebind_congr fun s => ?_
  rw [answers_map (gr := id) (flipCarP_logDensity hC) s θs, List.map_id_fun]
  cases answers (FCarP.logDensity C) s θs <;> rfl

/-- A finite log-density, and the same one for the values 0, -1, -2 with the mean -1. -/
example (srt : List Dbl → List ℕ) : ∃ v, (do
      let s ← FCar1.new (nearest EvenBelow) srt ([0, 1, 2 ^ 60].map .fin) [.fin 0, .fin 1, .fin 2] [.fin 1, .fin 1, .fin 1] (.fin 10)
      answers (FCar1.logDensity (nearest EvenBelow)) s [[.fin 1, .fin 1, .fin 1, .fin (-40)]]) = .ok [.fin v] ∧ (do
      let s ← FCar1.new (nearest EvenBelow) srt ([0, 1, 2 ^ 60].map .fin) [.fin (-0), .fin (-1), .fin (-2)] [.fin 1, .fin 1, .fin 1] (.fin 10)
      answers (FCar1.logDensity (nearest EvenBelow)) s [[.fin 1, .fin 1, .fin (-1), .fin (-40)]]) = .ok [.fin v] := by
  obtain ⟨s, e, h⟩ := C72_car1_finite C72_nearest fl_mild srt
  obtain ⟨s2, v, h, -⟩ := (h s .none [1, 1, 1, -40] le_rfl (by
    intro x hx
    simp only [List.mem_cons, List.not_mem_nil, or_false] at hx
    rcases hx with rfl | rfl | rfl | rfl
    · exact f64_one
    · exact f64_one
    · exact f64_one
    · exact fl_theta _ (by simp)) (by
    rw [show ([1, 1, 1, -40] : List ℝ).getD 2 0 = 1 from rfl, abs_one, show (1 : ℝ) = 2 ^ (0 : ℤ) by norm_num]
    exact pw_le _ _ (by norm_num))).2 fl_within
  have e1 : (do
      let s ← FCar1.new (nearest EvenBelow) srt ([0, 1, 2 ^ 60].map .fin) [.fin 0, .fin 1, .fin 2] [.fin 1, .fin 1, .fin 1] (.fin 10)
      answers (FCar1.logDensity (nearest EvenBelow)) s [[.fin 1, .fin 1, .fin 1, .fin (-40)]]) = .ok [.fin v] := by
    have e' : FCar1.new (nearest EvenBelow) srt ([0, 1, 2 ^ 60].map .fin) [.fin 0, .fin 1, .fin 2] [.fin 1, .fin 1, .fin 1] (.fin 10) = .ok s := e
    have h' : FCar1.logDensity (nearest EvenBelow) s [.fin 1, .fin 1, .fin 1, .fin (-40)] = .ok (s2, .fin v) := h
    rw [e', res_bind_ok]
    simp only [answers, h', res_bind_ok]
    rfl
  refine ⟨v, e1, ?_⟩
  have := C106_car1_density C106_nearest srt ([0, 1, 2 ^ 60].map .fin) [.fin 0, .fin 1, .fin 2] [.fin 1, .fin 1, .fin 1] (.fin 10)
    [[.fin 1, .fin 1, .fin 1, .fin (-40)]]
  rw [e1] at this
  exact this

end Verif.Props
