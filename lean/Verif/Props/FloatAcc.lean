import Verif.Theory.FLog
import Verif.Props.Float

/-!
Rounding error of the CAR(1) log-density: C75.
Specification: `Verif/Spec/Binary64.lean`, and `logGauss`, `obsCov`, `logPriorSpec` of C05.
-/

namespace Verif.Props

open Verif.Model Verif.Spec Verif.Theory
open scoped Classical

/-- **C75.** In binary64 arithmetic with any rounding mode and accurate `exp` and `log`, for data of moderate size, any number `n` of
observations and after any earlier calls, `LogDensity(theta)` inside the prior bounds returns a number that differs from the exact
log-posterior of C05 by at most `2^-38 n (n + N²) κ (1 + χ)`. Here `κ` is the ratio of the largest variance to the smallest noise variance, `χ` the ratio
of the squared size of the values to the smallest noise variance (both as ratios of powers of two), and `N` the memory of the process: the number of observations always
serves, and if neighbouring observations are correlated by at most `1 - 1/N`, `N` need not grow with `n`. -/
theorem C75_car1_accurate {A : Arith} (hA : IsBinary64 A) (hacc : Accurate A) {ts ys es : List ℝ} {M : ℝ} (hm : Mild ts ys es M)
    (srt : List Dbl → List ℕ) :
    ∃ s, FCar1.new A srt (ts.map .fin) (ys.map .fin) (es.map .fin) (.fin M) = .ok s ∧
      ∀ s1, Called A s s1 → ∀ θ : List ℝ, 4 ≤ θ.length → (∀ x ∈ θ, F64 x) → Within A ts M θ →
        ∀ (a b c : ℤ) (N : ℝ), Sized ts ys es θ a b c N →
          ∃ s2 v, FCar1.logDensity A s1 (θ.map .fin) = .ok (s2, .fin v) ∧
            |v - (logGauss (obsCov (fun d => θ.getD 0 0 ^ 2 * Real.exp (-Real.exp (θ.getD 3 0) * d)) (fun i : Fin ts.length => ts.getD i 0)
                fun i => √(θ.getD 1 0) * es.getD i 0) (fun i => ys.getD i 0 - θ.getD 2 0) + logPriorSpec θ)| ≤
              2 ^ (-38 : ℤ) * (ts.length * (ts.length + N ^ 2)) * (2 ^ b / 2 ^ c) * (1 + 2 ^ (2 * a - c)) := by
  obtain ⟨s, e, h⟩ := new_num hA (ys := ys) (es := es) (M := M) hm.toMildTimes srt
  refine ⟨s, e, fun s1 hc θ hl hF hw a b c N hz => ?_⟩
  have h1 := h.called hc
  obtain ⟨s2, v, ev, he⟩ := logdens_err hA hacc hm h1 hl hF ((inBounds_iff h1).mpr hw) hz
  refine ⟨s2, v, ev, he.trans_eq ?_⟩
  congr 3
  unfold uu; norm_num

/-- **C75, default rounding.** Correctly rounded `exp` and `log` are accurate. -/
theorem C75_nearest : Accurate (nearest EvenBelow) := by
  have key : ∀ x r : ℝ, roundNearest EvenBelow x = .fin r → Rounds x r := fun x r h => rnd_rounds C72_nearest (A := nearest EvenBelow) h
  refine ⟨fun x r _ h hr => ?_, fun v r hF h0 h => ?_⟩
  · have R := key _ _ (show roundNearest EvenBelow (Real.exp x) = .fin r from h)
    have e0 := Real.exp_pos x
    have hx : Real.exp x ≤ 2 ^ (1001 : ℤ) := by
      by_contra hc
      push Not at hc
      have F : F64 (2 ^ (1001 : ℤ)) := by
        have := f64_nat_zpow (2 ^ 52) 949 (by norm_num) (by norm_num) (by norm_num)
        rwa [show ((2 ^ 52 : ℕ) : ℝ) = 2 ^ (52 : ℤ) by norm_num, pw_mul 52 949 1001 (by norm_num)] at this
      have := R.ge F hc.le
      have h2 := pw_two 1000 1001 (by norm_num)
      have p : (0 : ℝ) < 2 ^ (1000 : ℤ) := by positivity
      rw [← h2] at this
      clear h2 hc F
      generalize (2 : ℝ) ^ (1000 : ℤ) = q at *
      linarith
    have p1 : (0 : ℝ) < 2 ^ (-1074 : ℤ) := by positivity
    have p2 : (0 : ℝ) < 2 ^ (-52 : ℤ) * Real.exp x := by positivity
    rcases lt_or_ge (Real.exp x) (2 ^ (-1021 : ℤ)) with hs | hs
    · refine (grid_err R (q := -1074) (by norm_num) (by norm_num) e0.le (hs.trans_eq (pw_mul 53 (-1074) (-1021) (by norm_num)).symm)).trans ?_
      linarith
    · refine (rounds_normal R hs hx).trans ?_
      unfold uu
      linarith
  · have e : (nearest EvenBelow).log (.fin v) = roundNearest EvenBelow (Real.log v) := by simp [nearest, h0]
    rw [e] at h
    have R := key _ _ h
    have hb := log_bound hF h0
    refine rounds_err R (by linarith) ?_ ?_
    · have : (2 : ℝ) ^ (-1000 : ℤ) ≤ 1 := by rw [show (1 : ℝ) = 2 ^ (0 : ℤ) by norm_num]; exact pw_le _ _ (by norm_num)
      have := abs_nonneg (Real.log v)
      linarith
    · have : (2 : ℝ) ^ (11 : ℤ) ≤ 2 ^ (1001 : ℤ) := pw_le _ _ (by norm_num)
      refine le_trans ?_ this
      norm_num
      linarith

/-- concrete data and `theta` that meet the hypotheses: the log-density of three observations has an error of less than `2^-29` -/
example (srt : List Dbl → List ℕ) : ∃ s s2 v,
    FCar1.new (nearest EvenBelow) srt ([0, 1, 2 ^ 60].map .fin) ([0, 1, 2].map .fin) ([1, 1, 1].map .fin) (.fin 10) = .ok s ∧
    FCar1.logDensity (nearest EvenBelow) s ([1, 1, 0, -40].map .fin) = .ok (s2, .fin v) ∧
    |v - (logGauss (obsCov (fun d => Real.exp (-Real.exp (-40) * d)) (![0, 1, 2 ^ 60] : Fin 3 → ℝ) ![1, 1, 1]) ![0, 1, 2] - 25)| ≤ 2 ^ (-29 : ℤ) := by
  obtain ⟨s, e, h⟩ := C75_car1_accurate C72_nearest C75_nearest fl_mild srt
  have hz : Sized [0, 1, 2 ^ 60] [0, 1, 2] [1, 1, 1] [1, 1, 0, -40] 1 1 0 3 := by
    refine ⟨by norm_num, by norm_num, by norm_num, by norm_num, by norm_num, by norm_num, ?_, by norm_num, by norm_num, ?_, by norm_num, .inl (by norm_num)⟩
    · intro y hy
      simp only [List.mem_cons, List.not_mem_nil, or_false] at hy
      rcases hy with rfl | rfl | rfl <;> norm_num
    · intro y hy
      simp only [List.mem_cons, List.not_mem_nil, or_false, or_self] at hy
      subst hy; norm_num
  obtain ⟨s2, v, ev, hv⟩ := h s .none [1, 1, 0, -40] (by simp) fl_theta fl_within 1 1 0 3 hz
  refine ⟨s, s2, v, e, ev, ?_⟩
  have e1 : (fun i : Fin ([0, 1, 2 ^ 60] : List ℝ).length => ([0, 1, 2 ^ 60] : List ℝ).getD i 0) = (![0, 1, 2 ^ 60] : Fin 3 → ℝ) := by
    funext i; fin_cases i <;> rfl
  have e2 : (fun i : Fin ([0, 1, 2 ^ 60] : List ℝ).length => √(([1, 1, 0, -40] : List ℝ).getD 1 0) * ([1, 1, 1] : List ℝ).getD i 0) = (![1, 1, 1] : Fin 3 → ℝ) := by
    funext i; fin_cases i <;> simp
  have e3 : (fun i : Fin ([0, 1, 2 ^ 60] : List ℝ).length => ([0, 1, 2] : List ℝ).getD i 0 - ([1, 1, 0, -40] : List ℝ).getD 2 0) = (![0, 1, 2] : Fin 3 → ℝ) := by
    funext i; fin_cases i <;> simp
  have e4 : logPriorSpec [1, 1, 0, -40] = -25 := by simp [logPriorSpec, at0]
  have e5 : (fun d => ([1, 1, 0, -40] : List ℝ).getD 0 0 ^ 2 * Real.exp (-Real.exp (([1, 1, 0, -40] : List ℝ).getD 3 0) * d)) =
      fun d => Real.exp (-Real.exp (-40) * d) := by funext d; simp
  rw [e1, e2, e3, e4, e5] at hv
  rw [sub_eq_add_neg (logGauss _ _)]
  refine hv.trans ?_
  norm_num

end Verif.Props
