import Verif.Theory.FPredAcc
import Verif.Props.FPredict
import Verif.Props.FloatAcc

/-!
Accuracy of `KalmanFilter1::Predict` in double precision: C101.
-/

namespace Verif.Props

open Verif.Model Verif.Spec Verif.Theory
open scoped Classical

lemma getD_mono {ts : List ℝ} (h : MildTimes ts) : StrictMono fun i : Fin ts.length => ts.getD i 0 := by
  have step : ∀ (i k : ℕ), i + k + 1 < ts.length → ts.getD i 0 < ts.getD (i + k + 1) 0 := by
    intro i k
    have p : (0 : ℝ) < 2 ^ (-300 : ℤ) := by positivity
    induction k with
    | zero => intro hi; have := h.gap i (by omega); rw [add_zero]; linarith
    | succ k ih =>
      intro hi
      have := h.gap (i + k + 1) (by omega)
      exact (ih (by omega)).trans (by rw [show i + (k + 1) + 1 = i + k + 1 + 1 by ring]; linarith)
  intro i j hij
  have hij' : (i : ℕ) < j := hij
  have := step i (j - i - 1) (by have := j.2; omega)
  rwa [show (i : ℕ) + (j - i - 1) + 1 = j by omega] at this

lemma ofFn_getD (l : List ℝ) {n : ℕ} (h : l.length = n) : List.ofFn (fun i : Fin n => l.getD i 0) = l := by
  subst h
  refine List.ext_getElem (by simp) fun i h1 h2 => ?_
  rw [List.getElem_ofFn, List.getD_eq_getElem _ _ h2]

/-- the constructor in double precision, and `Predict` in exact arithmetic on the same data -/
lemma predict_both {A : Arith} (hA : IsBinary64 A) {ts ys es : List ℝ} {sigsqr w : ℝ} (h : MildPred ts ys es sigsqr w) (srt : List Dbl → List ℕ) :
    ∃ s, FKF1.new A srt (ts.map .fin) (ys.map .fin) (es.map .fin) (.fin sigsqr) (.fin w) = .ok s ∧ PNew A ts ys es sigsqr w s ∧ NHolds A ts ys es sigsqr w s ∧
      ∃ sx, NHolds Arith.exact ts ys es sigsqr w sx ∧ ∀ x : ℝ,
        0 < predVar (car1Acf sigsqr w) (fun i : Fin ts.length => ts.getD i 0) (fun i => es.getD i 0) x ∧
        ∃ sx', FKF1.predict Arith.exact sx (.fin x) = .ok (sx',
          (.fin (predMean (car1Acf sigsqr w) (fun i : Fin ts.length => ts.getD i 0) (fun i => es.getD i 0) (fun i => ys.getD i 0) x),
           .fin (predVar (car1Acf sigsqr w) (fun i : Fin ts.length => ts.getD i 0) (fun i => es.getD i 0) x))) := by
  obtain ⟨s, e, hs⟩ := newPred_num hA h srt
  have p300 : (0 : ℝ) < 2 ^ (-300 : ℤ) := by positivity
  have p148 : (0 : ℝ) < 2 ^ (-148 : ℤ) := by positivity
  obtain ⟨srt0, hsrt⟩ : ∃ srt' : List Dbl → List ℕ, ∀ l : List ℝ, srt' (l.map .fin) = (fun _ => ([] : List ℕ)) l := ⟨fun _ => [], fun _ => rfl⟩
  have hexact : ∀ x, _ := fun x => C02_car1_predict_exact (fun _ => []) h.two (getD_mono h.toMildTimes) (fun i => ys.getD i 0) (fun i => es.getD i 0)
    (p148.trans_le h.sig_lo) (p148.trans_le h.w_lo) x (fun i _ => by
      have := (h.e (es.getD i 0) (mem_getD (by rw [h.lene]; exact i.2) 0)).1
      exact (p148.trans_le this).ne')
  rw [ofFn_getD ts rfl, ofFn_getD ys h.leny, ofFn_getD es h.lene] at hexact
  obtain ⟨k, k', ek, -⟩ := hexact 0
  have en := new_lift hsrt ek
  refine ⟨s, e, hs, new_holds h.two (fun i hi => ?_) e, _, new_holds h.two (fun i hi => ?_) en, fun x => ?_⟩
  · have g := h.gap i hi
    obtain ⟨d, ed, -, d1, -⟩ := rnd_sub hA (a := ts.getD (i + 1) 0) (b := ts.getD i 0) f64_m300 f64_300 (by linarith)
      (h.span _ (mem_getD (by omega) 0) _ (mem_getD hi 0))
    exact ⟨d, ed, p300.trans_le d1⟩
  · have g := h.gap i hi
    exact ⟨_, exf_sub _ _, by linarith⟩
  · obtain ⟨k2, k2', ek2, ep, pos⟩ := hexact x
    rw [ek] at ek2
    injection ek2 with ek2
    subst ek2
    exact ⟨pos, _, predict_lift ep _ _⟩

/-- **C101.** Let data and parameters be of moderate size, the stationary variance and the measurement variances lie between `2^c` and
`2^b / 2`, the values be at most `2^a`, and `N` be the memory of the process. Write `κ = 2^b / 2^c` and `K = κ² n (n + N²)`. If `K ≤ 2^39`
and `exp` is accurate to an ulp, then the constructor returns, and after any earlier calls `Predict(x)` returns for every `x` within `2^300`
of the times a finite mean and a finite positive variance: the variance is that of the exact conditional distribution up to a
relative error of `2^-42 K`, and the mean is the exact conditional mean up to `2^-39 K n κ 2^a`. -/
theorem C101_predict_accurate {A : Arith} (hA : IsBinary64 A) (hacc : Accurate A) {ts ys es : List ℝ} {sigsqr w : ℝ} (h : MildPred ts ys es sigsqr w)
    {a b c : ℤ} {N : ℝ} (hs : SizedPred ts ys es sigsqr w a b c N) (hK : (2 ^ b / 2 ^ c) ^ 2 * (ts.length * (ts.length + N ^ 2)) ≤ 2 ^ 39)
    (srt : List Dbl → List ℕ) :
    ∃ s, FKF1.new A srt (ts.map .fin) (ys.map .fin) (es.map .fin) (.fin sigsqr) (.fin w) = .ok s ∧
      ∀ s1, Asked A s s1 → ∀ x : ℝ, (∀ t ∈ ts, |x - t| ≤ 2 ^ (300 : ℤ)) →
        ∃ s2 m v, FKF1.predict A s1 (.fin x) = .ok (s2, (.fin m, .fin v)) ∧ 0 < v ∧
          |v - predVar (car1Acf sigsqr w) (fun i : Fin ts.length => ts.getD i 0) (fun i => es.getD i 0) x| ≤
            2 ^ (-42 : ℤ) * ((2 ^ b / 2 ^ c) ^ 2 * (ts.length * (ts.length + N ^ 2))) *
              predVar (car1Acf sigsqr w) (fun i : Fin ts.length => ts.getD i 0) (fun i => es.getD i 0) x ∧
          |m - predMean (car1Acf sigsqr w) (fun i : Fin ts.length => ts.getD i 0) (fun i => es.getD i 0) (fun i => ys.getD i 0) x| ≤
            2 ^ (-39 : ℤ) * ((2 ^ b / 2 ^ c) ^ 2 * (ts.length * (ts.length + N ^ 2))) * (ts.length * (2 ^ b / 2 ^ c) * 2 ^ a) := by
  obtain ⟨s, e, hP, hN, sx, hX, hx⟩ := predict_both hA h srt
  refine ⟨s, e, fun s1 ha x hxt => ?_⟩
  obtain ⟨pos, sx', ex⟩ := hx x
  obtain ⟨i, hi⟩ := exists_follows ts x
  have hu : uu = 2 ^ (-52 : ℤ) := rfl
  have e1 : ∀ K κ : ℝ, 1024 * (uu * κ * ts.length * (ts.length + K ^ 2) * κ) = 2 ^ (-42 : ℤ) * (κ ^ 2 * (ts.length * (ts.length + K ^ 2))) := fun K κ => by
    rw [hu]; norm_num; ring
  have e2 : ∀ K κ : ℝ, 8192 * (uu * κ * ts.length * (ts.length + K ^ 2) * κ) = 2 ^ (-39 : ℤ) * (κ ^ 2 * (ts.length * (ts.length + K ^ 2))) := fun K κ => by
    rw [hu]; norm_num; ring
  have T : Tiny ts.length N (2 ^ b / 2 ^ c) := by
    refine ⟨?_⟩
    have := e2 N (2 ^ b / 2 ^ c)
    calc 8192 * (uu * (2 ^ b / 2 ^ c) * ts.length * (ts.length + N ^ 2)) * (2 ^ b / 2 ^ c) =
          8192 * (uu * (2 ^ b / 2 ^ c) * ts.length * (ts.length + N ^ 2) * (2 ^ b / 2 ^ c)) := by ring
      _ = _ := this
      _ ≤ 2 ^ (-39 : ℤ) * 2 ^ 39 := mul_le_mul_of_nonneg_left hK (by positivity)
      _ = 1 := by norm_num
  have k := Asked.same ha
  obtain ⟨s2, m, v, r0, r1, r2, -⟩ := predict_acc hA hacc h hs T (hP.same k) (hN.same k) hX hxt hi ex
  rw [e1] at r1
  rw [e2] at r2
  refine ⟨s2, m, v, r0, ?_, r1, r2⟩
  have : (2 : ℝ) ^ (-42 : ℤ) * ((2 ^ b / 2 ^ c) ^ 2 * (ts.length * (ts.length + N ^ 2))) ≤ 2 ^ (-42 : ℤ) * 2 ^ 39 := mul_le_mul_of_nonneg_left hK (by positivity)
  have h8 : (2 : ℝ) ^ (-42 : ℤ) * 2 ^ 39 = 1 / 8 := by norm_num
  have := (abs_le.mp (r1.trans (mul_le_mul_of_nonneg_right (this.trans_eq h8) pos.le))).1
  linarith

/-- **C101, forecasts.** Under the same hypotheses, for `x` after the last observation the bounds do not grow with the number of
observations: the variance is exact up to `192 · 2^-52 · 2^b N` and the mean up to `1440 · 2^-52 κ N² 2^a`. -/
theorem C101_forecast_accurate {A : Arith} (hA : IsBinary64 A) (hacc : Accurate A) {ts ys es : List ℝ} {sigsqr w : ℝ} (h : MildPred ts ys es sigsqr w)
    {a b c : ℤ} {N : ℝ} (hs : SizedPred ts ys es sigsqr w a b c N) (hK : (2 ^ b / 2 ^ c) ^ 2 * (ts.length * (ts.length + N ^ 2)) ≤ 2 ^ 39)
    (srt : List Dbl → List ℕ) :
    ∃ s, FKF1.new A srt (ts.map .fin) (ys.map .fin) (es.map .fin) (.fin sigsqr) (.fin w) = .ok s ∧
      ∀ s1, Asked A s s1 → ∀ x : ℝ, (∀ t ∈ ts, t < x ∧ x - t ≤ 2 ^ (300 : ℤ)) →
        ∃ s2 m v, FKF1.predict A s1 (.fin x) = .ok (s2, (.fin m, .fin v)) ∧
          |v - predVar (car1Acf sigsqr w) (fun i : Fin ts.length => ts.getD i 0) (fun i => es.getD i 0) x| ≤ 192 * 2 ^ (-52 : ℤ) * 2 ^ b * N ∧
          |m - predMean (car1Acf sigsqr w) (fun i : Fin ts.length => ts.getD i 0) (fun i => es.getD i 0) (fun i => ys.getD i 0) x| ≤
            1440 * 2 ^ (-52 : ℤ) * (2 ^ b / 2 ^ c) * N ^ 2 * 2 ^ a := by
  obtain ⟨s, e, hP, hN, sx, hX, hx⟩ := predict_both hA h srt
  refine ⟨s, e, fun s1 ha x hxt => ?_⟩
  obtain ⟨pos, sx', ex⟩ := hx x
  have hi : Follows ts x ts.length := ⟨le_rfl, fun j hj => (hxt _ (mem_getD hj 0)).1, fun h => absurd h (lt_irrefl _)⟩
  have hu : uu = 2 ^ (-52 : ℤ) := rfl
  have T : Tiny ts.length N (2 ^ b / 2 ^ c) := by
    refine ⟨?_⟩
    calc 8192 * (uu * (2 ^ b / 2 ^ c) * ts.length * (ts.length + N ^ 2)) * (2 ^ b / 2 ^ c) =
          2 ^ (-39 : ℤ) * ((2 ^ b / 2 ^ c) ^ 2 * (ts.length * (ts.length + N ^ 2))) := by rw [hu]; norm_num; ring
      _ ≤ 2 ^ (-39 : ℤ) * 2 ^ 39 := mul_le_mul_of_nonneg_left hK (by positivity)
      _ = 1 := by norm_num
  have k := Asked.same ha
  obtain ⟨s2, m, v, r0, -, -, r3⟩ := predict_acc hA hacc h hs T (hP.same k) (hN.same k) hX
    (fun t ht => by have := hxt t ht; rw [abs_of_pos (by linarith)]; exact this.2) hi ex
  obtain ⟨r1, r2⟩ := r3 rfl
  refine ⟨s2, m, v, r0, r1.trans_eq ?_, r2.trans_eq ?_⟩
  · rw [hu]; ring
  · rw [hu]; ring

/-! Two observations, at 0 and 1, of a process of variance 1 and unit rate, measured with errors of 1 and 1/2. -/

lemma fa_mild : MildPred [0, 1] [1, 2] [1, 1 / 2] 2 1 := by
  have a1 : (2 : ℝ) ≤ 2 ^ (300 : ℤ) := by
    nth_rewrite 1 [← zpow_one (2 : ℝ)]; exact pw_le _ _ (by norm_num)
  have a2 : (2 : ℝ) ^ (-148 : ℤ) ≤ 1 / 2 := by
    rw [show (1 / 2 : ℝ) = 2 ^ (-1 : ℤ) by norm_num]; exact pw_le _ _ (by norm_num)
  have a3 : (2 : ℝ) ≤ 2 ^ (148 : ℤ) := by
    nth_rewrite 1 [← zpow_one (2 : ℝ)]; exact pw_le _ _ (by norm_num)
  refine ⟨fp_times, rfl, rfl, ?_, ?_, a2.trans (by norm_num), a3, f64_one, a2.trans (by norm_num), le_trans (by norm_num) a3⟩
  · intro y hy
    simp only [List.mem_cons, List.not_mem_nil, or_false] at hy
    rcases hy with rfl | rfl
    · rw [abs_one]; exact le_trans (by norm_num) a1
    · rw [abs_two]; exact a1
  · intro e he
    simp only [List.mem_cons, List.not_mem_nil, or_false] at he
    rcases he with rfl | rfl
    · exact ⟨a2.trans (by norm_num), le_trans (by norm_num) a3⟩
    · exact ⟨a2, le_trans (by norm_num) a3⟩

lemma fa_sized : SizedPred [0, 1] [1, 2] [1, 1 / 2] 2 1 1 1 (-2) 2 := by
  refine ⟨by norm_num, by norm_num, by norm_num, by norm_num, by norm_num, by norm_num, ?_, by norm_num, by norm_num, ?_, ?_, by norm_num, .inl (by norm_num)⟩
  · intro y hy
    simp only [List.mem_cons, List.not_mem_nil, or_false] at hy
    rcases hy with rfl | rfl <;> norm_num
  · intro e he
    simp only [List.mem_cons, List.not_mem_nil, or_false] at he
    rcases he with rfl | rfl <;> norm_num
  · intro e he
    simp only [List.mem_cons, List.not_mem_nil, or_false] at he
    rcases he with rfl | rfl <;> norm_num

/-- the hypotheses of C101 are met, with `κ = 8` and `K = 768`, so that the relative error of the variance is at most `2^-32`, for requests between and after the observations -/
example : IsBinary64 (nearest EvenBelow) ∧ Accurate (nearest EvenBelow) ∧ MildPred [0, 1] [1, 2] [1, 1 / 2] 2 1 ∧ SizedPred [0, 1] [1, 2] [1, 1 / 2] 2 1 1 1 (-2) 2 ∧
    ((2 : ℝ) ^ (1 : ℤ) / 2 ^ (-2 : ℤ)) ^ 2 * ((([0, 1] : List ℝ).length : ℝ) * (([0, 1] : List ℝ).length + 2 ^ 2)) ≤ 2 ^ 39 ∧
    (∀ t ∈ ([0, 1] : List ℝ), |1 / 2 - t| ≤ 2 ^ (300 : ℤ)) ∧ (∀ t ∈ ([0, 1] : List ℝ), t < 2 ∧ 2 - t ≤ 2 ^ (300 : ℤ)) := by
  have a1 : (2 : ℝ) ≤ 2 ^ (300 : ℤ) := by
    nth_rewrite 1 [← zpow_one (2 : ℝ)]; exact pw_le _ _ (by norm_num)
  refine ⟨C72_nearest, C75_nearest, fa_mild, fa_sized, by norm_num, ?_, ?_⟩
  · intro t ht
    simp only [List.mem_cons, List.not_mem_nil, or_false] at ht
    generalize (2 : ℝ) ^ (300 : ℤ) = q' at *
    rcases ht with rfl | rfl <;> norm_num [abs_le] <;> linarith
  · intro t ht
    simp only [List.mem_cons, List.not_mem_nil, or_false] at ht
    generalize (2 : ℝ) ^ (300 : ℤ) = q' at *
    rcases ht with rfl | rfl <;> constructor <;> linarith

end Verif.Props
