import Verif.Theory.Sim

/-!
Properties of the CAR(1) filter object (`KalmanFilter1`): C01, C02, C16, C22 (CAR(1) half).
Specification: `Verif/Spec/Gauss.lean`.
-/

namespace Verif.Props

open Verif.Model Verif.Spec Verif.Theory

/-- **C01.** Building a CAR(1) filter from strictly increasing times and running `Filter()` does not fault and leaves in
`mean`, `var` the exact conditional mean and variance of every observation given the earlier ones. -/
theorem C01_car1_filter_exact (srt : List ℝ → List ℕ) {n : ℕ} (hn : 2 ≤ n) {t : Fin n → ℝ} (ht : StrictMono t)
    (y e : Fin n → ℝ) {sigsqr omega : ℝ} (hs : 0 < sigsqr) (ho : 0 < omega) :
    ∃ s, (KF1.new srt (List.ofFn t) (List.ofFn y) (List.ofFn e) sigsqr omega >>= Kalman.filter) = .ok s ∧
      s.b.mean = List.ofFn (stepMean (car1Acf sigsqr omega) t e y) ∧
      s.b.var = List.ofFn (stepVar (car1Acf sigsqr omega) t e) := by
  obtain ⟨s, h1, h2⟩ := KF1.new_inv srt hn ht y e sigsqr omega
  obtain ⟨s', h3, _, _, h4, h5⟩ := (KF1.exact hs ho).filter h2 (by omega) (incr_of_strictMono ht)
  simp only [fst_ext0] at h4 h5
  exact ⟨s', by rw [h1]; exact h3, h4, h5⟩

/-- **C02.** `Predict(x)` on such an object returns the exact conditional mean and variance of the process at `x` given
the whole series, for every `x` that is not the time of an error-free observation. -/
theorem C02_car1_predict_exact (srt : List ℝ → List ℕ) {n : ℕ} (hn : 2 ≤ n) {t : Fin n → ℝ} (ht : StrictMono t)
    (y e : Fin n → ℝ) {sigsqr omega : ℝ} (hs : 0 < sigsqr) (ho : 0 < omega) (x : ℝ)
    (hx : ∀ i, t i = x → e i ≠ 0) :
    ∃ s s', KF1.new srt (List.ofFn t) (List.ofFn y) (List.ofFn e) sigsqr omega = .ok s ∧
      Kalman.predict s x = .ok (s', (predMean (car1Acf sigsqr omega) t e y x,
        predVar (car1Acf sigsqr omega) t e x)) ∧
      0 < predVar (car1Acf sigsqr omega) t e x := by
  obtain ⟨s, h1, h2⟩ := KF1.new_inv srt hn ht y e sigsqr omega
  have hx' : ∀ i < n, ext0 t i = x → ext0 e i ≠ 0 := by
    intro i hi; rw [ext0_of_lt t hi, ext0_of_lt e hi]; exact hx _
  obtain ⟨s', h3, _⟩ := (KF1.exact hs ho).predict x h2 (by omega) (incr_of_strictMono ht) hx'
  have h4 := (KF1.exact hs ho).predVar_pos x h2 (by omega) (incr_of_strictMono ht) hx'
  simp only [fst_ext0] at h3 h4
  exact ⟨s, s', h1, h3, h4⟩

/-- **C16.** The variances left by `Filter()` are positive, at least the measurement variance, at most the stationary
variance plus the measurement variance, and they do not depend on the measured values. -/
theorem C16_car1_variance_bounds (srt : List ℝ → List ℕ) {n : ℕ} (hn : 2 ≤ n) {t : Fin n → ℝ} (ht : StrictMono t)
    (e : Fin n → ℝ) {sigsqr omega : ℝ} (hs : 0 < sigsqr) (ho : 0 < omega) :
    ∃ W : List ℝ, W.length = n ∧
      (∀ i : Fin n, ∃ w, W[(i : ℕ)]? = some w ∧ 0 < w ∧ e i ^ 2 ≤ w ∧ w ≤ sigsqr / (2 * omega) + e i ^ 2) ∧
      ∀ y : Fin n → ℝ, ∃ s,
        (KF1.new srt (List.ofFn t) (List.ofFn y) (List.ofFn e) sigsqr omega >>= Kalman.filter) = .ok s ∧
        s.b.var = W := by
  refine ⟨List.ofFn (stepVar (car1Acf sigsqr omega) t e), by simp, fun i => ?_, fun y => ?_⟩
  · refine ⟨stepVar (car1Acf sigsqr omega) t e i, by simp, ?_⟩
    have hI := incr_of_strictMono (e := e) ht
    have h1 := ((car1_realizes hs ho (ext0 t) (ext0 e) n hI).filter (fun _ => 0) i).2
    have h2 := car1SS_v_pos hs ho (ext0 t) (ext0 e) n (fun i hi => (hI i hi).1) (fun i hi => (hI i hi).2) i i.2
    have h3 := car1SS_v_le hs ho (ext0 t) (ext0 e) n hI i i.2
    rw [h1] at h2 h3
    simp only [fst_ext0, ext0_fin] at h2 h3
    exact ⟨h2.1, h2.2, h3⟩
  · obtain ⟨s, h1, _, h3⟩ := C01_car1_filter_exact srt hn ht y e hs ho
    exact ⟨s, h1, h3⟩

/-- **C22, CAR(1).** `Simulate(ts)` returns, in increasing order of the request times, values that are each
(conditional mean) + (conditional standard deviation) × (next normal draw), conditionally on the measured series and the
values already drawn. -/
theorem C22_car1_simulate_exact (srt : List ℝ → List ℕ) {n : ℕ} (hn : 2 ≤ n) {t : Fin n → ℝ} (ht : StrictMono t)
    (y e : Fin n → ℝ) {sigsqr omega : ℝ} (hs : 0 < sigsqr) (ho : 0 < omega) (ts : List ℝ) (hnd : ts.Nodup)
    (hx : ∀ x ∈ ts, ∀ i, t i = x → e i ≠ 0) (zs : ℕ → ℝ) :
    ∃ s s' sorted, KF1.new srt (List.ofFn t) (List.ofFn y) (List.ofFn e) sigsqr omega = .ok s ∧
      sorted.Perm ts ∧ sorted.Pairwise (· ≤ ·) ∧
      Kalman.simulate s ts zs = .ok (s',
        simSpec (car1Acf sigsqr omega) (List.ofFn fun i => ⟨t i, y i, e i⟩) sorted zs) := by
  obtain ⟨s, h1, h2⟩ := KF1.new_inv srt hn ht y e sigsqr omega
  obtain ⟨s', h3, _⟩ := (KF1.exact hs ho).simulate h2 hn (incr_of_strictMono ht) ts zs hnd (by
    intro x hxm i hi; rw [ext0_of_lt t hi, ext0_of_lt e hi]; exact hx x hxm _)
  refine ⟨s, s', ts.mergeSort fun a b => decide (a ≤ b), h1, List.mergeSort_perm ts _, ?_, ?_⟩
  · exact List.pairwise_mergeSort' (fun a b : ℝ => a ≤ b) ts
  · rw [h3, obsList_ext0]

/-- hypotheses of C01, C02, C16, C22 are met by a concrete irregular series with a noise-free and a noisy point and a
request at the time of the noisy point -/
example : (2 ≤ 3) ∧ StrictMono ![(0:ℝ), 1, 5] ∧ (0:ℝ) < 2 ∧
    (∀ i, ![(0:ℝ), 1, 5] i = 1 → ![(0:ℝ), 0.5, 0.1] i ≠ 0) ∧ [1, 2.5, (-3:ℝ)].Nodup := by
  refine ⟨by norm_num, ?_, by norm_num, ?_, by norm_num⟩
  · intro i j hij
    fin_cases i <;> fin_cases j <;> simp at hij ⊢
  · intro i
    fin_cases i <;> norm_num

end Verif.Props
