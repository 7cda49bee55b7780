import Verif.Theory.CarmaSS
import Verif.Theory.Sim

/-!
Properties of the CARMA filter object (`KalmanFilterp`): C03, C04, C22 (CARMA half).
Specification: `Verif/Spec/Gauss.lean` and `Verif/Spec/Carma.lean`.
-/

namespace Verif.Props

open Verif.Model Verif.Spec Verif.Theory

variable {p : ℕ}

/-- **C03.** For admissible autoregressive roots and at most `p` moving-average coefficients, not all zero, building a CARMA
filter from strictly increasing times and running `Filter()` does not fault and leaves in `mean`, `var` the exact
conditional mean and variance of every observation given the earlier ones. -/
theorem C03_carma_filter_exact (srt : List ℝ → List ℕ) {n : ℕ} (hn : 2 ≤ n) {t : Fin n → ℝ} (ht : StrictMono t)
    (y e : Fin n → ℝ) (hp : 2 ≤ p) {sigsqr : ℝ} (hs : 0 < sigsqr) {omega : Fin p → ℂ} (ho : Admissible omega)
    {ma : List ℝ} (hl : ma.length ≤ p) (hne : ∃ x ∈ ma, x ≠ 0) :
    ∃ s, (KFp.new srt (List.ofFn t) (List.ofFn y) (List.ofFn e) sigsqr omega ma >>= Kalman.filter) = .ok s ∧
      s.b.mean = List.ofFn (stepMean (carmaAcf sigsqr omega ma) t e y) ∧
      s.b.var = List.ofFn (stepVar (carmaAcf sigsqr omega ma) t e) := by
  obtain ⟨s, h1, h2⟩ := KFp.new_inv srt hn ht y e sigsqr omega ma
  obtain ⟨s', h3, _, _, h4, h5⟩ := (KFp.exact hp hs ho (padMA_length hl) (padMA_ne hne)).filter h2 (by omega)
    (incr_of_strictMono ht)
  simp only [fst_ext0, carmaAcf_pad] at h4 h5
  exact ⟨s', by rw [h1]; exact h3, h4, h5⟩

/-- **C04.** `Predict(x)` on such an object returns the exact conditional mean and variance of the process at `x` given
the whole series (forecast, backcast and interpolation), for every `x` that is not the time of an error-free
observation. -/
theorem C04_carma_predict_exact (srt : List ℝ → List ℕ) {n : ℕ} (hn : 2 ≤ n) {t : Fin n → ℝ} (ht : StrictMono t)
    (y e : Fin n → ℝ) (hp : 2 ≤ p) {sigsqr : ℝ} (hs : 0 < sigsqr) {omega : Fin p → ℂ} (ho : Admissible omega)
    {ma : List ℝ} (hl : ma.length ≤ p) (hne : ∃ x ∈ ma, x ≠ 0) (x : ℝ) (hx : ∀ i, t i = x → e i ≠ 0) :
    ∃ s s', KFp.new srt (List.ofFn t) (List.ofFn y) (List.ofFn e) sigsqr omega ma = .ok s ∧
      Kalman.predict s x = .ok (s', (predMean (carmaAcf sigsqr omega ma) t e y x,
        predVar (carmaAcf sigsqr omega ma) t e x)) ∧
      0 < predVar (carmaAcf sigsqr omega ma) t e x := by
  obtain ⟨s, h1, h2⟩ := KFp.new_inv srt hn ht y e sigsqr omega ma
  have hx' : ∀ i < n, ext0 t i = x → ext0 e i ≠ 0 := by
    intro i hi; rw [ext0_of_lt t hi, ext0_of_lt e hi]; exact hx _
  have hE := KFp.exact hp hs ho (padMA_length hl) (padMA_ne hne)
  obtain ⟨s', h3, _⟩ := hE.predict x h2 (by omega) (incr_of_strictMono ht) hx'
  have h4 := hE.predVar_pos x h2 (by omega) (incr_of_strictMono ht) hx'
  simp only [fst_ext0, carmaAcf_pad] at h3 h4
  exact ⟨s, s', h1, h3, h4⟩

/-- **C22, CARMA.** `Simulate(ts)` returns, in increasing order of the request times, values that are each
(conditional mean) + (conditional standard deviation) × (next normal draw), conditionally on the measured series and the
values already drawn. -/
theorem C22_carma_simulate_exact (srt : List ℝ → List ℕ) {n : ℕ} (hn : 2 ≤ n) {t : Fin n → ℝ} (ht : StrictMono t)
    (y e : Fin n → ℝ) (hp : 2 ≤ p) {sigsqr : ℝ} (hs : 0 < sigsqr) {omega : Fin p → ℂ} (ho : Admissible omega)
    {ma : List ℝ} (hl : ma.length ≤ p) (hne : ∃ x ∈ ma, x ≠ 0) (ts : List ℝ) (hnd : ts.Nodup)
    (hx : ∀ x ∈ ts, ∀ i, t i = x → e i ≠ 0) (zs : ℕ → ℝ) :
    ∃ s s' sorted, KFp.new srt (List.ofFn t) (List.ofFn y) (List.ofFn e) sigsqr omega ma = .ok s ∧
      sorted.Perm ts ∧ sorted.Pairwise (· ≤ ·) ∧
      Kalman.simulate s ts zs = .ok (s',
        simSpec (carmaAcf sigsqr omega ma) (List.ofFn fun i => ⟨t i, y i, e i⟩) sorted zs) := by
  obtain ⟨s, h1, h2⟩ := KFp.new_inv srt hn ht y e sigsqr omega ma
  have hE := KFp.exact hp hs ho (padMA_length hl) (padMA_ne hne)
  obtain ⟨s', h3, _⟩ := hE.simulate h2 hn (incr_of_strictMono ht) ts zs hnd (by
    intro x hxm i hi; rw [ext0_of_lt t hi, ext0_of_lt e hi]; exact hx x hxm _)
  refine ⟨s, s', ts.mergeSort fun a b => decide (a ≤ b), h1, List.mergeSort_perm ts _, ?_, ?_⟩
  · exact List.pairwise_mergeSort' (fun a b : ℝ => a ≤ b) ts
  · rw [h3, obsList_ext0, carmaAcf_pad]

/-- hypotheses of C03, C04, C22: one real root and a complex pair with two moving-average coefficients; the data part is
the example in `Verif/Props/Car1.lean` -/
example : Admissible ![(-2 : ℂ), -1 + Complex.I, -1 - Complex.I] ∧ [(1:ℝ), 0.5].length ≤ 3 ∧
    (∃ x ∈ [(1:ℝ), 0.5], x ≠ 0) := by
  refine ⟨⟨?_, ?_, ?_⟩, by norm_num, 1, by simp, one_ne_zero⟩
  · intro i j h
    fin_cases i <;> fin_cases j <;> simp [Complex.ext_iff] at h ⊢ <;> norm_num at h
  · intro k; fin_cases k <;> simp
  · intro k
    fin_cases k
    · exact ⟨0, by simp⟩
    · exact ⟨2, by simp [Complex.ext_iff]⟩
    · exact ⟨1, by simp⟩

end Verif.Props
