import Verif.Theory.PySample
import Verif.Props.Quirks
import Verif.Props.Spectrum

/-!
Properties C53 to C57 of the Python classes `CarmaSample` and `Car1Sample`: derived parameters, thinning and power spectra of the samples,
prediction and simulation from the best sample, log-likelihoods and deviance information criterion, averaged roots.
-/

namespace Verif.Props

open Verif.Model Verif.Spec Verif.Theory Polynomial

variable {p : ℕ}

/-! ### C53: derived parameters -/

/-- a C++ object of the kind that produced the samples: CARMA(p,q), or CARp when `q = 0` -/
def Produces (s : CarP p) (q : ℕ) : Prop :=
  s.kind = .carma q ∨ (s.kind = .carp ∧ q = 0 ∧ s.maCoefs = 1 :: List.replicate (p - 1) 0)

/-- **C53.** For every row of the trace of a CARMA(p,q) sampler, `q < p`, the roots and widths that Python derives are those that the C++
object uses, its moving-average coefficients are those of C++ up to the padding with zeros, and its `sigma` is the square root of the
driving variance of C++ (faults included). If the roots are different, `sigma` is a number with `sigma² = ExtractSigsqr`, for which the
process has variance `theta(0)²`. -/
theorem C53_derived {q : ℕ} (hq : q < p) (s : CarP p) (hs : Produces s q) (θ : List ℝ) (hθ : θ.length = 3 + p + q) :
    ∃ roots ma, Py.sampOrder θ q = p ∧ Py.sampAr p θ = .ok roots ∧ arRoots p θ = .ok roots ∧
      Py.sampWidths roots = CarP.widths roots ∧ Py.sampCents roots = CarP.cents roots ∧
      Py.sampMa p q θ = .ok ma ∧ ma.length = q + 1 ∧ s.extractMA θ = .ok (KFp.padMA p ma) ∧
      Py.sampSigma p θ roots ma = (s.extractSigsqr θ >>= Py.sqrt) ∧
      (roots.Nodup → ∃ sigma, Py.sampSigma p θ roots ma = .ok sigma ∧ 0 ≤ sigma ∧ s.extractSigsqr θ = .ok (sigma ^ 2) ∧
        carmaAcf (sigma ^ 2) (vecOf p roots) ma 0 = at0 θ 0 ^ 2) := by
  obtain ⟨roots, hr, hg⟩ := rootsFrom_spec θ 3 p (by omega)
  obtain ⟨ma, h1, h2, h3, h4⟩ := sampMa_spec hq θ hθ
  have hm : s.extractMA θ = .ok (KFp.padMA p ma) := by
    rcases hs with hs | ⟨hs, rfl, hc⟩
    · rw [CarP.extractMA, hs]; exact h4
    · rw [CarP.extractMA, hs, hc]
      rw [Py.sampMa, if_pos rfl] at h1
      injection h1 with h1
      subst h1
      rfl
  refine ⟨roots, ma, by rw [Py.sampOrder]; omega, (sampAr_eq θ (by omega)).trans hr, hr, ?_, ?_, h1, h2, hm, sampSigma_eq hr hm, fun hnd => ?_⟩
  · simp only [Py.sampWidths, CarP.widths, div_div]
  · simp only [Py.sampCents, CarP.cents, div_div]
  · have ha := hg.admissible hnd
    have hl : ma.length ≤ p := by omega
    have hne : ∃ x ∈ ma, x ≠ 0 := ⟨1, List.mem_of_getElem? h3, one_ne_zero⟩
    have hv := carp_sigsqr hr hm (show 0 < θ.length by omega) ha (padMA_length hl).le (padMA_ne hne)
    have hpos : 0 < carmaAcf 1 (vecOf p roots) ma 0 := carmaAcf_pos ha one_pos hl hne
    rw [carmaAcf_pad] at hv
    have h0 : 0 ≤ at0 θ 0 ^ 2 / carmaAcf 1 (vecOf p roots) ma 0 := by positivity
    refine ⟨√(at0 θ 0 ^ 2 / carmaAcf 1 (vecOf p roots) ma 0), ?_, Real.sqrt_nonneg _, ?_, ?_⟩
    · rw [sampSigma_eq hr hm, hv]; exact py_sqrt_ok h0
    · rw [hv, Real.sq_sqrt h0]
    · rw [Real.sq_sqrt h0, carmaAcf_scale, div_mul_cancel₀ _ hpos.ne']

/-- a CARMA(2,1) object and a row with roots `-2, -1` -/
example (srt : List ℝ → List ℕ) : ∃ s, CarP.new (.carma 1) 2 srt (List.ofFn exT) (List.ofFn exY) (List.ofFn exY) = .ok s ∧ Produces s 1 ∧
    [1, 1, 0, Real.log 2, Real.log 3, 0.3].length = 3 + 2 + 1 ∧
    arRoots 2 [1, 1, 0, Real.log 2, Real.log 3, 0.3] = .ok [-2, -1] ∧ [(-2 : ℂ), -1].Nodup := by
  obtain ⟨-, b, -, -, -, -, -, -, -, -, -, hb, -⟩ := base_fresh (by norm_num) exT_mono exY exY
  obtain ⟨s, h1, h2, h3, h4⟩ := carp_fresh (p := 2) (by norm_num) srt (by norm_num) exT_mono exY exY hb (.carma 1)
  exact ⟨s, h1, .inl h3.kind, rfl, ex_roots (by simp) (by simp [at0]) (by simp [at0]), by simp⟩

/-! ### C54: power spectra of the samples -/

/-- **C54.** The power spectrum that `plot_power_spectrum` computes for a sample is that of `power_spectrum`: for different roots
closed under conjugation in the left half plane, the Fourier transform of the autocovariance function (C43). -/
theorem C54_psd {ω : Fin p → ℂ} (h : Admissible ω) {ma : List ℝ} (hl : ma.length ≤ p) (sigma f : ℝ) :
    Py.psdSample p f sigma (Py.arCoefs (List.ofFn ω)) ma = Py.powerSpectrum f sigma (Py.arCoefs (List.ofFn ω)) ma ∧
    Py.psdSample p f sigma (Py.arCoefs (List.ofFn ω)) ma =
      .ok (2 * ∫ d in Set.Ioi (0:ℝ), carmaAcf (sigma ^ 2) ω ma d * Real.cos (2 * Real.pi * f * d)) := by
  have main : Py.psdSample p f sigma (Py.arCoefs (List.ofFn ω)) ma = Py.powerSpectrum f sigma (Py.arCoefs (List.ofFn ω)) ma := by
    have hlen : (Py.arCoefs (List.ofFn ω)).length = p + 1 := by rw [Py.arCoefs, List.length_map, npPoly_length, List.length_ofFn]
    generalize Py.arCoefs (List.ofFn ω) = ar at hlen
    simp only [Py.psdSample, Py.powerSpectrum, polyval_reverse]
    rw [rd_at0 (show p < ar.length by omega)]
    simp only [res_bind_ok]
    generalize (2 * Real.pi * Complex.I * f : ℂ) = x
    have e : ∑ k ∈ Finset.range p, (ar.getD k 0 : ℂ) * x ^ (p - k) + ((at0 ar p : ℝ) : ℂ) = Py.polyval ar x := by
      have h1 := polyval_reverse ar.reverse x
      rw [List.reverse_reverse] at h1
      rw [h1, maEval, List.length_reverse, hlen, ← Finset.sum_range_reflect (fun i => (ar.reverse.getD i 0 : ℂ) * x ^ i), Finset.sum_range_succ]
      have hget : ∀ k, k < p + 1 → ar.reverse.getD (p + 1 - 1 - k) 0 = ar.getD k 0 := by
        intro k hk
        rw [List.getD_eq_getElem?_getD, List.getD_eq_getElem?_getD, List.getElem?_reverse (by omega)]
        congr 2; omega
      congr 1
      · refine Finset.sum_congr rfl fun k hk => ?_
        have := Finset.mem_range.mp hk
        rw [hget k (by omega), show p + 1 - 1 - k = p - k by omega]
      · rw [hget p (by omega)]
        simp [at0]
    rw [e]
    rfl
  exact ⟨main, by rw [main, C43_autocovariance h hl]⟩

example : Py.psdSample 3 3 2 (Py.arCoefs (List.ofFn ![(-2 : ℂ), -1 + Complex.I, -1 - Complex.I])) [1, 0.5] =
    .ok (2 * ∫ d in Set.Ioi (0:ℝ), carmaAcf (2 ^ 2) ![(-2 : ℂ), -1 + Complex.I, -1 - Complex.I] [1, 0.5] d * Real.cos (2 * Real.pi * 3 * d)) :=
  (C54_psd ex_admissible3 (by simp) 2 3).2

/-- **C54.** Thinning to `n` of `n0` samples, `1 ≤ n ≤ n0`, selects `n` positions, all valid, in increasing order without repetition. -/
theorem C54_thin {n0 n : ℕ} (hn : 0 < n) (h : n ≤ n0) : (Py.thinIdx n0 n).length = n ∧ (∀ i ∈ Py.thinIdx n0 n, i < n0) ∧
    (Py.thinIdx n0 n).Pairwise (· < ·) := by
  have hn' : (0 : ℝ) < n := by exact_mod_cast hn
  have h0 : (0 : ℝ) < n0 := by exact_mod_cast lt_of_lt_of_le hn h
  have hr : (1 : ℝ) ≤ (n0 : ℝ) / n := by rw [le_div_iff₀ hn', one_mul]; exact_mod_cast h
  refine ⟨by simp [Py.thinIdx], ?_, ?_⟩
  · intro i hi
    obtain ⟨k, hk, rfl⟩ := List.mem_map.mp hi
    have hk' : (k : ℝ) < n := by exact_mod_cast List.mem_range.mp hk
    rw [Nat.floor_lt (by positivity)]
    calc (k : ℝ) * (n0 / n) < n * (n0 / n) := by gcongr
      _ = n0 := by field_simp
  · rw [Py.thinIdx, List.pairwise_map]
    refine List.Pairwise.imp ?_ List.pairwise_lt_range
    intro a b hab
    have hab' : (a : ℝ) + 1 ≤ b := by exact_mod_cast hab
    rw [← Nat.succ_le_iff, Nat.succ_eq_add_one, ← Nat.floor_add_one (by positivity)]
    refine Nat.floor_le_floor ?_
    nlinarith

example : (0 : ℕ) < 3 ∧ 3 ≤ 10 := by norm_num

/-- **C54, more samples than there are.** The check `nsamples <= ...` has no effect; asking for more samples than there are repeats
some of them. -/
theorem C54_thin_repeats {n0 n : ℕ} (h0 : 0 < n0) (h : n0 < n) : ¬ (Py.thinIdx n0 n).Nodup := by
  have hn' : (0 : ℝ) < n := by exact_mod_cast lt_trans h0 h
  have hlt : ∀ i ∈ Py.thinIdx n0 n, i < n0 := by
    intro i hi
    obtain ⟨k, hk, rfl⟩ := List.mem_map.mp hi
    have hk' : (k : ℝ) < n := by exact_mod_cast List.mem_range.mp hk
    have h0' : (0 : ℝ) < n0 := by exact_mod_cast h0
    rw [Nat.floor_lt (by positivity)]
    calc (k : ℝ) * (n0 / n) < n * (n0 / n) := by gcongr
      _ = n0 := by field_simp
  intro hnd
  have h1 : (Py.thinIdx n0 n).length ≤ (List.range n0).length :=
    (List.subperm_of_subset hnd fun i hi => List.mem_range.mpr (hlt i hi)).length_le
  simp [Py.thinIdx] at h1
  omega

/-! ### C55: prediction and simulation from the best sample -/

/-- **C55, CARMA, the part that holds.** `predict` with the sample of largest log-posterior returns, for every list of times, the
conditional mean and variance of the CARMA process of that sample given the data, with the measurement errors as supplied. Missing:
the fitted model has error variances `theta(1) ysig²`, but the filter is built with `ysig`; the values are those of the fitted model
when `theta(1) = 1` (`C55_scale_one`), and not in general (`C55_negation`). -/
theorem C55_carma_predict_partial (srt : List ℝ → List ℕ) {n : ℕ} (hn : 2 ≤ n) {t : Fin n → ℝ} (ht : StrictMono t)
    (y e : Fin n → ℝ) (hp : 2 ≤ p) {q : ℕ} (hq : q < p) {logpost : List Dbl} {rows : List (List ℝ)} {i : ℕ}
    (hi : FirstMax logpost i) {θ : List ℝ} (hrow : rows[i]? = some θ) (hθ : θ.length = 3 + p + q) (h0 : at0 θ 0 ≠ 0)
    {roots : List ℂ} (hr : arRoots p θ = .ok roots) (hnd : roots.Nodup) (xs : List ℝ)
    (hx : ∀ x ∈ xs, ∀ i, t i = x → e i ≠ 0) :
    ∃ (ω : Fin p → ℂ) (ma : List ℝ), List.ofFn ω = roots ∧ Admissible ω ∧
      (∀ z, maEval ma z = ((factorPoly (at0 θ) (3 + p) q).map Complex.ofRealHom).eval z / (factorPoly (at0 θ) (3 + p) q).coeff 0) ∧
      let R : ℝ → ℝ := fun d => at0 θ 0 ^ 2 * (carmaAcf 1 ω ma d / carmaAcf 1 ω ma 0)
      Py.predictAll (Py.mapFilter (p := p) srt (List.ofFn t) (List.ofFn y) (List.ofFn e) q logpost rows) xs =
        .ok (xs.map fun x => (predMean R t e (fun i => y i - at0 θ 2) x + at0 θ 2, predVar R t e x)) := by
  obtain ⟨roots', hr', hg⟩ := rootsFrom_spec θ 3 p (by omega)
  cases hr.symm.trans hr'
  obtain ⟨ma, h1, h2, h3, h4, h5⟩ := mapFilter_spec srt y (List.ofFn t) (List.ofFn e) (by omega) hq hi hrow hθ hr hnd
  refine ⟨vecOf p roots, ma, ofFn_vecOf hg.length, h3, h4, ?_⟩
  have hpos : 0 < carmaAcf 1 (vecOf p roots) ma 0 := carmaAcf_pos h3 one_pos h1 h2
  have hs : 0 < at0 θ 0 ^ 2 / carmaAcf 1 (vecOf p roots) ma 0 := by positivity
  obtain ⟨s, g1, g2⟩ := KFp.new_inv srt hn ht (fun i => y i - at0 θ 2) e (at0 θ 0 ^ 2 / carmaAcf 1 (vecOf p roots) ma 0) (vecOf p roots) ma
  have hE := KFp.exact hp hs h3 (padMA_length h1) (padMA_ne h2)
  have h6 := hE.predictAll (at0 θ 2) (by omega) (incr_of_strictMono ht) xs g2 (fun x hxm i hi => by
    rw [ext0_of_lt t hi, ext0_of_lt e hi]; exact hx x hxm _)
  have eR : carmaAcf (at0 θ 0 ^ 2 / carmaAcf 1 (vecOf p roots) ma 0) (vecOf p roots) ma =
      fun d => at0 θ 0 ^ 2 * (carmaAcf 1 (vecOf p roots) ma d / carmaAcf 1 (vecOf p roots) ma 0) := by
    funext d; rw [carmaAcf_scale]; ring
  simp only [fst_ext0, carmaAcf_pad, eR] at h6
  rw [h5, g1]
  exact h6

/-- **C55, CAR(1), the part that holds.** The same for the class `Car1Sample`. -/
theorem C55_car1_predict_partial (srt : List ℝ → List ℕ) {n : ℕ} (hn : 2 ≤ n) {t : Fin n → ℝ} (ht : StrictMono t)
    (y e : Fin n → ℝ) {logpost : List Dbl} {rows : List (List ℝ)} {i : ℕ}
    (hi : FirstMax logpost i) {θ : List ℝ} (hrow : rows[i]? = some θ) (hθ : θ.length = 4) (h0 : at0 θ 0 ≠ 0)
    (xs : List ℝ) (hx : ∀ x ∈ xs, ∀ i, t i = x → e i ≠ 0) :
      let R : ℝ → ℝ := fun d => at0 θ 0 ^ 2 * Real.exp (-Real.exp (at0 θ 3) * d)
      Py.predictAll (Py.mapFilter1 srt (List.ofFn t) (List.ofFn y) (List.ofFn e) logpost rows) xs =
        .ok (xs.map fun x => (predMean R t e (fun i => y i - at0 θ 2) x + at0 θ 2, predVar R t e x)) := by
  intro R
  have hexp := Real.exp_pos (at0 θ 3)
  have hs : 0 < 2 * at0 θ 0 ^ 2 * Real.exp (at0 θ 3) := by positivity
  obtain ⟨s, g1, g2⟩ := KF1.new_inv srt hn ht (fun i => y i - at0 θ 2) e (2 * at0 θ 0 ^ 2 * Real.exp (at0 θ 3)) (Real.exp (at0 θ 3))
  have h6 := (KF1.exact hs hexp).predictAll (at0 θ 2) (by omega) (incr_of_strictMono ht) xs g2 (fun x hxm i hi => by
    rw [ext0_of_lt t hi, ext0_of_lt e hi]; exact hx x hxm _)
  have eR : car1Acf (2 * at0 θ 0 ^ 2 * Real.exp (at0 θ 3)) (Real.exp (at0 θ 3)) = R := by
    funext d; simp only [car1Acf, R]; congr 1; field_simp
  simp only [fst_ext0, eR] at h6
  rw [mapFilter1_spec srt y (List.ofFn t) (List.ofFn e) hi hrow hθ, g1]
  exact h6

/-- **C55.** When the error scale of the best sample is 1 (or all errors are 0) the values are those of the fitted model. -/
theorem C55_scale_one {n : ℕ} {e : Fin n → ℝ} {θ : List ℝ} (h : at0 θ 1 = 1 ∨ ∀ i, e i = 0) (R : ℝ → ℝ) (t y : Fin n → ℝ) (x : ℝ) :
    predMean R t e y x = predMean R t (fun i => √(at0 θ 1) * e i) y x ∧
    predVar R t e x = predVar R t (fun i => √(at0 θ 1) * e i) x := by
  have : (fun i => √(at0 θ 1) * e i) = e := by
    funext i
    rcases h with h | h
    · rw [h, Real.sqrt_one, one_mul]
    · rw [h, mul_zero]
  rw [this]
  exact ⟨rfl, rfl⟩

/-- **C55, simulation.** `simulate` draws, for CARMA, from the law of the process of the best sample given the data (errors as supplied):
in increasing order of the times, conditional mean plus conditional standard deviation times the next normal draw. -/
theorem C55_carma_simulate_partial (srt : List ℝ → List ℕ) {n : ℕ} (hn : 2 ≤ n) {t : Fin n → ℝ} (ht : StrictMono t)
    (y e : Fin n → ℝ) (hp : 2 ≤ p) {q : ℕ} (hq : q < p) {logpost : List Dbl} {rows : List (List ℝ)} {i : ℕ}
    (hi : FirstMax logpost i) {θ : List ℝ} (hrow : rows[i]? = some θ) (hθ : θ.length = 3 + p + q) (h0 : at0 θ 0 ≠ 0)
    {roots : List ℂ} (hr : arRoots p θ = .ok roots) (hnd : roots.Nodup) (xs : List ℝ) (hnd' : xs.Nodup)
    (hx : ∀ x ∈ xs, ∀ i, t i = x → e i ≠ 0) (zs : ℕ → ℝ) :
    ∃ (ω : Fin p → ℂ) (ma sorted : List ℝ), List.ofFn ω = roots ∧ Admissible ω ∧
      (∀ z, maEval ma z = ((factorPoly (at0 θ) (3 + p) q).map Complex.ofRealHom).eval z / (factorPoly (at0 θ) (3 + p) q).coeff 0) ∧
      sorted.Perm xs ∧ sorted.Pairwise (· ≤ ·) ∧
      let R : ℝ → ℝ := fun d => at0 θ 0 ^ 2 * (carmaAcf 1 ω ma d / carmaAcf 1 ω ma 0)
      Py.simulate (Py.mapFilter (p := p) srt (List.ofFn t) (List.ofFn y) (List.ofFn e) q logpost rows) xs zs =
        .ok ((simSpec R (List.ofFn fun i => ⟨t i, y i - at0 θ 2, e i⟩) sorted zs).map fun v => v + at0 θ 2) := by
  obtain ⟨roots', hr', hg⟩ := rootsFrom_spec θ 3 p (by omega)
  cases hr.symm.trans hr'
  obtain ⟨ma, h1, h2, h3, h4, h5⟩ := mapFilter_spec srt y (List.ofFn t) (List.ofFn e) (by omega) hq hi hrow hθ hr hnd
  refine ⟨vecOf p roots, ma, xs.mergeSort fun a b => decide (a ≤ b), ofFn_vecOf hg.length, h3, h4, List.mergeSort_perm xs _,
    List.pairwise_mergeSort' (fun a b : ℝ => a ≤ b) xs, ?_⟩
  have hpos : 0 < carmaAcf 1 (vecOf p roots) ma 0 := carmaAcf_pos h3 one_pos h1 h2
  have hs : 0 < at0 θ 0 ^ 2 / carmaAcf 1 (vecOf p roots) ma 0 := by positivity
  obtain ⟨s, g1, g2⟩ := KFp.new_inv srt hn ht (fun i => y i - at0 θ 2) e (at0 θ 0 ^ 2 / carmaAcf 1 (vecOf p roots) ma 0) (vecOf p roots) ma
  have hE := KFp.exact hp hs h3 (padMA_length h1) (padMA_ne h2)
  have h6 := hE.pySimulate (at0 θ 2) hn (incr_of_strictMono ht) xs zs g2 hnd' (fun x hxm i hi => by
    rw [ext0_of_lt t hi, ext0_of_lt e hi]; exact hx x hxm _)
  have eR : carmaAcf (at0 θ 0 ^ 2 / carmaAcf 1 (vecOf p roots) ma 0) (vecOf p roots) ma =
      fun d => at0 θ 0 ^ 2 * (carmaAcf 1 (vecOf p roots) ma d / carmaAcf 1 (vecOf p roots) ma 0) := by
    funext d; rw [carmaAcf_scale]; ring
  rw [obsList_ext0, carmaAcf_pad, eR] at h6
  rw [h5, g1]
  exact h6

/-- three samples of a CARMA(2,1) sampler, the second the best, and two times -/
example : FirstMax [.fin 1, .fin 3, .fin 3] 1 ∧
    [[2, 1, 0, 0, 0, 0], [1, 2, 0, Real.log 2, Real.log 3, 0.3], [1, 1, 0, 0, 1, 0]][1]? = some [1, 2, 0, Real.log 2, Real.log 3, 0.3] ∧
    arRoots 2 [1, 2, 0, Real.log 2, Real.log 3, 0.3] = .ok [-2, -1] ∧ at0 [1, 2, 0, Real.log 2, Real.log 3, 0.3] 0 ≠ 0 ∧
    [(5 : ℝ), 0.5].Nodup ∧ ∀ x ∈ [(5 : ℝ), 0.5], ∀ i, exT i = x → exY i ≠ 0 := by
  refine ⟨⟨by simp, .fin 3, rfl, by simp [Dbl.lt], ?_⟩, rfl, ex_roots (by simp) (by simp [at0]) (by simp [at0]), by simp [at0], by norm_num, ?_⟩
  · intro j hj b hb
    obtain rfl : j = 0 := by omega
    simp at hb; subst hb; simp [Dbl.lt]
  · intro x hx i
    fin_cases i <;> simp [exT, exY]
    rcases List.mem_cons.mp hx with rfl | hx
    · norm_num
    · simp at hx; subst hx; norm_num

lemma cov2 (a b : ℝ) (h : a * a - b * b ≠ 0) : (!![a, b; b, a] : Matrix (Fin 2) (Fin 2) ℝ)⁻¹ =
    !![a / (a * a - b * b), -b / (a * a - b * b); -b / (a * a - b * b), a / (a * a - b * b)] := by
  rw [Matrix.inv_def, Matrix.det_fin_two_of, Matrix.adjugate_fin_two_of, Ring.inverse_eq_inv]
  ext i j
  fin_cases i <;> fin_cases j <;> simp <;> field_simp

lemma ex_predVar (s : ℝ) (hs : 0 < s) :
    predVar (fun d => Real.exp (-d)) ![0, Real.log 2] (fun _ => √s) (2 * Real.log 2) =
      1 - ((1 + s) * 5 / 16 - 1 / 8) / ((1 + s) * (1 + s) - 1 / 4) := by
  have hl : 0 < Real.log 2 := Real.log_pos (by norm_num)
  have e1 : Real.exp (-Real.log 2) = 1 / 2 := by rw [Real.exp_neg, Real.exp_log (by norm_num)]; norm_num
  have e2 : Real.exp (-(2 * Real.log 2)) = 1 / 4 := by
    rw [show -(2 * Real.log 2) = -Real.log 2 + -Real.log 2 by ring, Real.exp_add, e1]; norm_num
  have hK : obsCov (fun d => Real.exp (-d)) ![0, Real.log 2] (fun _ => √s) = !![1 + s, 1 / 2; 1 / 2, 1 + s] := by
    ext i j
    fin_cases i <;> fin_cases j <;> simp [obsCov, Real.sq_sqrt hs.le, abs_of_pos hl] <;> rw [e1] <;> norm_num
  have hk : (fun j => Real.exp (-|2 * Real.log 2 - ![0, Real.log 2] j|)) = ![1 / 4, 1 / 2] := by
    funext j
    fin_cases j
    · simp only [Fin.zero_eta, Matrix.cons_val_zero, sub_zero]; rw [abs_of_pos (by linarith), e2]
    · simp only [Fin.mk_one, Matrix.cons_val_one, Matrix.cons_val_zero]
      rw [show 2 * Real.log 2 - Real.log 2 = Real.log 2 by ring, abs_of_pos hl, e1]
  have hd : (1 + s) * (1 + s) - 1 / 2 * (1 / 2) ≠ 0 := by nlinarith
  rw [predVar, condVar, hK, hk, cov2 _ _ hd]
  simp [Matrix.mulVec, dotProduct, Fin.sum_univ_two]
  have hd' : (1 + s) * (1 + s) - 1 / 4 ≠ 0 := by nlinarith
  field_simp
  ring

/-- **C55 fails.** Two observations, one CAR(1) sample `theta = (1, 2, 0, 0)` with error scale 2: the variance that `predict` returns is
not that of the fitted model. -/
theorem C55_negation (srt : List ℝ → List ℕ) (y : Fin 2 → ℝ) : ∃ m v,
    Py.predict (Py.mapFilter1 srt [0, Real.log 2] (List.ofFn y) [1, 1] [.fin 0] [[1, 2, 0, 0]]) (2 * Real.log 2) = .ok (m, v) ∧
    v ≠ predVar (fun d => 1 ^ 2 * Real.exp (-Real.exp 0 * d)) ![0, Real.log 2] (fun _ => √2 * 1) (2 * Real.log 2) := by
  have hl : 0 < Real.log 2 := Real.log_pos (by norm_num)
  have ht : StrictMono ![0, Real.log 2] := by
    refine Fin.strictMono_iff_lt_succ.mpr fun i => ?_
    fin_cases i; simpa using hl
  have := C55_car1_predict_partial srt le_rfl ht y (fun _ => 1) (logpost := [.fin 0]) (rows := [[1, 2, 0, 0]]) (i := 0)
    (θ := [1, 2, 0, 0]) ⟨by simp, .fin 0, rfl, by simp [Dbl.lt], by omega⟩ rfl rfl (by simp [at0]) [2 * Real.log 2] (by simp)
  simp only [List.map_cons, List.map_nil] at this
  have e1 : List.ofFn ![(0:ℝ), Real.log 2] = [0, Real.log 2] := by simp [List.ofFn_succ]
  have e2 : List.ofFn (fun _ : Fin 2 => (1:ℝ)) = [1, 1] := by simp [List.ofFn_succ]
  rw [e1, e2] at this
  refine ⟨_, _, predict_of_all this, ?_⟩
  have e3 : (fun d => 1 ^ 2 * Real.exp (-Real.exp 0 * d)) = fun d => Real.exp (-d) := by funext d; simp
  have e4 : (fun d => at0 [1, 2, 0, 0] 0 ^ 2 * Real.exp (-Real.exp (at0 [1, 2, 0, 0] 3) * d)) = fun d => Real.exp (-d) := by
    funext d; simp [at0]
  have h1 := ex_predVar 1 one_pos
  have h2 := ex_predVar 2 two_pos
  rw [Real.sqrt_one] at h1
  rw [e3, e4, h1, mul_one, h2]
  norm_num

/-! ### C56: log-likelihoods and deviance -/

/-- **C56, CAR(1).** For every sample inside the prior bounds the `loglik` that `Car1Sample` stores, the recorded log-posterior less the
log-prior, is the Gaussian log-likelihood (without `-n/2 log 2π`). -/
theorem C56_car1_loglik (srt : List ℝ → List ℕ) {n : ℕ} (hn : 2 ≤ n) {t : Fin n → ℝ} (ht : StrictMono t)
    (y e : Fin n → ℝ) (θ : List ℝ) (hθ : 4 ≤ θ.length) :
    ∃ dmin span s, IsMinGap t dmin ∧ IsSpan t span ∧
      Car1.new srt (List.ofFn t) (List.ofFn y) (List.ofFn e) = .ok s ∧
      (Car1Bounds (10 * √(sampleVar y)) (1 / dmin) (1 / span) θ → (at0 θ 0 ≠ 0 ∨ ∀ i, e i ≠ 0) →
        ∃ s' lp, logDensity s θ = .ok (s', lp) ∧ Py.sampLoglik1 lp θ = .ok (.fin (logGauss
          (obsCov (fun d => at0 θ 0 ^ 2 * Real.exp (-Real.exp (at0 θ 3) * d)) t fun i => √(at0 θ 1) * e i)
          (fun i => y i - at0 θ 2)))) := by
  obtain ⟨dmin, span, s, h1, h2, h3, h4⟩ := C05_car1_logpost srt hn ht y e θ hθ
  refine ⟨dmin, span, s, h1, h2, h3, fun hb he => ?_⟩
  obtain ⟨s', h5⟩ := h4 hb he
  have hpos : 0 < at0 θ 1 := by have := hb.err_lo; linarith
  refine ⟨s', _, h5, ?_⟩
  rw [Py.sampLoglik1, baseLogPrior_eq (by omega), priorVal_pos hpos]
  simp only [res_bind_ok, Dbl.sub, Dbl.neg, Dbl.add, res_pure]
  rw [show -25 / at0 θ 1 - 26 * Real.log (at0 θ 1) = logPriorSpec θ from rfl, add_neg_cancel_right]

/-- the example of C05 has `theta` inside the bounds -/
example : ∀ dmin span, IsMinGap exT dmin → IsSpan exT span →
    Car1Bounds (10 * √(sampleVar exY)) (1 / dmin) (1 / span) [1, 1, 0, -1] := fun _ _ => ex_car1_bounds

/-- **C56, CARMA, the part that holds.** For every sample with different roots the `loglik` that `CarmaSample` stores is the Gaussian
log-likelihood plus the log-prior of the error scale. Missing: the log-prior should not be there (`C56_negation`). -/
theorem C56_carma_loglik_partial (srt : List ℝ → List ℕ) {n : ℕ} (hn : 2 ≤ n) {t : Fin n → ℝ} (ht : StrictMono t)
    (y e : Fin n → ℝ) (hp : 2 ≤ p) {q : ℕ} (hq : q < p) (θ : List ℝ) (hθ : θ.length = p + q + 3) (hpos : 0 < at0 θ 1)
    (he : at0 θ 0 ≠ 0 ∨ ∀ i, e i ≠ 0) {roots : List ℂ} (hr : arRoots p θ = .ok roots) (hnd : roots.Nodup) :
    ∃ (s : CarP p) (ω : Fin p → ℂ) (ma : List ℝ), CarP.new (.carma q) p srt (List.ofFn t) (List.ofFn y) (List.ofFn e) = .ok s ∧
      List.ofFn ω = roots ∧ (∀ lo hi z, maEval ma z = maPolySpec (.carma q) p lo hi θ z) ∧
      Py.sampLoglik s θ = .ok (.fin (logGauss
        (obsCov (fun d => at0 θ 0 ^ 2 * (carmaAcf 1 ω ma d / carmaAcf 1 ω ma 0)) t fun i => √(at0 θ 1) * e i)
        (fun i => y i - at0 θ 2) + logPriorSpec θ)) := by
  obtain ⟨s, lo, hi, h1, -, -, -, roots', hr', h3, -⟩ := C42_mle_value_partial srt hn ht y e hp (.carma q) hq θ hθ.ge hpos he
  cases hr.symm.trans hr'
  obtain ⟨ω, ma, s', h4, -, -, -, h5, h6⟩ := h3 hnd
  refine ⟨s, ω, ma, h1, h4, fun lo hi z => h5 z, ?_⟩
  rw [Py.sampLoglik, h6]
  simp only [res_bind_ok, res_pure, logitPrior, add_zero]

/-- **C56 fails for CARMA.** The stored `loglik` is always strictly below the log-likelihood. -/
theorem C56_negation (srt : List ℝ → List ℕ) {n : ℕ} (hn : 2 ≤ n) {t : Fin n → ℝ} (ht : StrictMono t)
    (y e : Fin n → ℝ) (hp : 2 ≤ p) {q : ℕ} (hq : q < p) (θ : List ℝ) (hθ : θ.length = p + q + 3) (hpos : 0 < at0 θ 1)
    (he : at0 θ 0 ≠ 0 ∨ ∀ i, e i ≠ 0) {roots : List ℂ} (hr : arRoots p θ = .ok roots) (hnd : roots.Nodup) :
    ∃ (s : CarP p) (ω : Fin p → ℂ) (ma : List ℝ) (v : ℝ), CarP.new (.carma q) p srt (List.ofFn t) (List.ofFn y) (List.ofFn e) = .ok s ∧
      List.ofFn ω = roots ∧ (∀ lo hi z, maEval ma z = maPolySpec (.carma q) p lo hi θ z) ∧ Py.sampLoglik s θ = .ok (.fin v) ∧
      v < logGauss (obsCov (fun d => at0 θ 0 ^ 2 * (carmaAcf 1 ω ma d / carmaAcf 1 ω ma 0)) t fun i => √(at0 θ 1) * e i)
        (fun i => y i - at0 θ 2) := by
  obtain ⟨s, ω, ma, h1, h2, h3, h4⟩ := C56_carma_loglik_partial srt hn ht y e hp hq θ hθ hpos he hr hnd
  have := logPriorSpec_neg hpos
  exact ⟨s, ω, ma, _, h1, h2, h3, h4, by linarith⟩

/-- the hypotheses are met by the row of the example for C53 -/
example : [1, 1, 0, Real.log 2, Real.log 3, 0.3].length = 2 + 1 + 3 ∧ 0 < at0 [1, 1, 0, Real.log 2, Real.log 3, 0.3] 1 ∧
    arRoots 2 [1, 1, 0, Real.log 2, Real.log 3, 0.3] = .ok [-2, -1] ∧ [(-2 : ℂ), -1].Nodup :=
  ⟨rfl, by simp [at0], ex_roots (by simp) (by simp [at0]) (by simp [at0]), by simp⟩

/-- **C56, DIC.** For at least one sample, DIC is mean deviance plus half the (population) variance of the deviance; it raises for none. -/
theorem C56_dic {m : ℕ} (hm : 0 < m) (l : Fin m → ℝ) : Py.dic [] = .error .nonfinite ∧ Py.dic (List.ofFn l) =
    .ok ((∑ i, -2 * l i) / m + 1 / 2 * ((∑ i, (-2 * l i - (∑ j, -2 * l j) / m) ^ 2) / m)) := by
  have hm' : (m : ℝ) ≠ 0 := by exact_mod_cast hm.ne'
  refine ⟨by simp [Py.dic, dv], ?_⟩
  simp only [Py.dic, List.map_ofFn, List.length_ofFn, List.sum_ofFn, Function.comp_apply, dv_ok hm', res_bind_ok, res_pure]
  congr 2
  norm_num

example : (0 : ℕ) < 3 := by norm_num

/-! ### C57: averaged roots -/

/-- **C57, the part that holds.** If in all samples the same positions hold conjugate roots, the averaged roots are in the left half
plane and closed under conjugation. Missing: samples for which the positions of conjugate roots differ (`C57_negation`). -/
theorem C57_mean_partial {l : List (List ℂ)} (hne : l ≠ []) (hneg : ∀ r ∈ l, ∀ k : Fin p, (vecOf p r k).re < 0) (τ : Fin p → Fin p)
    (hτ : ∀ r ∈ l, ∀ k, star (vecOf p r k) = vecOf p r (τ k)) :
    ∃ m, Py.meanRoots p l = .ok m ∧ m.length = p ∧ (∀ k, (vecOf p m k).re < 0) ∧ ∀ k, star (vecOf p m k) = vecOf p m (τ k) := by
  have hn : 0 < (l.length : ℝ) := by exact_mod_cast List.length_pos_iff.mpr hne
  have hv : ∀ k : Fin p, vecOf p ((List.range p).map fun k => (l.map fun r => r.getD k 0).sum / (l.length : ℂ)) k =
      (l.map fun r => vecOf p r k).sum / (l.length : ℂ) := by
    intro k
    simp [vecOf, List.getD_eq_getElem?_getD]
  have hsum : ∀ k (l : List (List ℂ)), (∀ r ∈ l, star (vecOf p r k) = vecOf p r (τ k)) →
      star (l.map fun r => vecOf p r k).sum = (l.map fun r => vecOf p r (τ k)).sum := by
    intro k l
    induction l with
    | nil => intro _; simp
    | cons a l ih => intro h; simp only [List.map_cons, List.sum_cons, star_add, ih fun r hr => h r (by simp [hr]), h a (by simp)]
  have hre : ∀ k (l : List (List ℂ)), l ≠ [] → (∀ r ∈ l, (vecOf p r k).re < 0) → ((l.map fun r => vecOf p r k).sum).re < 0 := by
    intro k l
    induction l with
    | nil => intro h; exact absurd rfl h
    | cons a l ih =>
      intro _ h
      simp only [List.map_cons, List.sum_cons, Complex.add_re]
      have h1 := h a (by simp)
      by_cases hl : l = []
      · subst hl; simpa using h1
      · have := ih hl fun r hr => h r (by simp [hr])
        linarith
  refine ⟨_, by rw [Py.meanRoots, if_neg hne], by simp, fun k => ?_, fun k => ?_⟩
  · rw [hv]
    rw [show ((l.length : ℂ)) = ((l.length : ℝ) : ℂ) by simp, Complex.div_ofReal_re]
    exact div_neg_of_neg_of_pos (hre k l hne fun r hr => hneg r hr k) hn
  · rw [hv, hv, ← hsum k l fun r hr => hτ r hr k, star_div₀]
    simp

/-- two samples with complex roots in positions 0 and 1 -/
example : ∀ r ∈ [[(⟨-1, -2⟩ : ℂ), ⟨-1, 2⟩], [⟨-3, -1⟩, ⟨-3, 1⟩]], ∀ k : Fin 2, (vecOf 2 r k).re < 0 ∧
    star (vecOf 2 r k) = vecOf 2 r (Equiv.swap 0 1 k) := by
  intro r hr k
  simp only [List.mem_cons, List.not_mem_nil, or_false] at hr
  rcases hr with rfl | rfl <;> fin_cases k <;> simp [vecOf, Complex.ext_iff]

/-- **C57, prediction, the part that holds.** With `bestfit='mean'` prediction uses the arithmetic means over the samples of the roots, of
the moving-average coefficients, of `sigma²` and of `mu`. Whenever the averages describe a process (different roots closed under conjugation
in the left half plane), `predict` returns the conditional means and variances of that process given the data. Missing: samples whose
averaged roots are not closed under conjugation (`C57_negation`). -/
theorem C57_mean_predict_partial (srt : List ℝ → List ℕ) {n : ℕ} (hn : 2 ≤ n) {t : Fin n → ℝ} (ht : StrictMono t)
    (y e : Fin n → ℝ) (hp : 2 ≤ p) {q : ℕ} (hq : q < p) {rows : List (List ℝ)} {d : List (List ℂ × List ℝ × ℝ × ℝ)}
    (hd : rows.mapM (Py.derived p q) = .ok d) (hne : d ≠ []) (xs : List ℝ) (hx : ∀ x ∈ xs, ∀ i, t i = x → e i ≠ 0) :
    let ω : Fin p → ℂ := fun k => avg (d.map fun x => vecOf p x.1 k)
    let ma : List ℝ := (List.range (q + 1)).map fun j => avg (d.map fun x => x.2.1.getD j 0)
    let s2 : ℝ := avg (d.map fun x => x.2.2.1 ^ 2)
    let mu : ℝ := avg (d.map fun x => x.2.2.2)
    Admissible ω → 0 < s2 → (∃ b ∈ ma, b ≠ 0) →
    Py.predictAll (Py.meanFilter (p := p) srt (List.ofFn t) (List.ofFn y) (List.ofFn e) q rows) xs =
      .ok (xs.map fun x => (predMean (carmaAcf s2 ω ma) t e (fun i => y i - mu) x + mu, predVar (carmaAcf s2 ω ma) t e x)) := by
  intro ω ma s2 mu ha hs hb
  have hl : ma.length ≤ p := by simp only [ma, List.length_map, List.length_range]; omega
  obtain ⟨s, g1, g2⟩ := KFp.new_inv srt hn ht (fun i => y i - mu) e s2 ω ma
  have hE := KFp.exact hp hs ha (padMA_length hl) (padMA_ne hb)
  have h6 := hE.predictAll mu (by omega) (incr_of_strictMono ht) xs g2 (fun x hxm i hi => by
    rw [ext0_of_lt t hi, ext0_of_lt e hi]; exact hx x hxm _)
  simp only [fst_ext0, carmaAcf_pad] at h6
  rw [meanFilter_eq srt _ _ _ hd hne, map_sub_ofFn, g1]
  exact h6

/-- averages of two CARMA(2,0) samples with the roots `-2, -1` -/
example : ∃ d : List (List ℂ × List ℝ × ℝ × ℝ), d ≠ [] ∧
    [[1, 1, 0, Real.log 2, Real.log 3], [1, 1, 0, Real.log 2, Real.log 3]].mapM (Py.derived 2 0) = .ok d ∧
    Admissible (fun k => avg (d.map fun x => vecOf 2 x.1 k)) ∧ 0 < avg (d.map fun x => x.2.2.1 ^ 2) ∧
    ∃ b ∈ (List.range 1).map fun j => avg (d.map fun x => x.2.1.getD j 0), b ≠ 0 := by
  have a := ex_roots (θ := [1, 1, 0, Real.log 2, Real.log 3]) (by simp) (by simp [at0]) (by simp [at0])
  obtain ⟨ma, s, h, h1, h2⟩ := derived_spec (p := 2) (q := 0) (by norm_num) rfl a (by simp)
  obtain ⟨roots', hr', hg⟩ := rootsFrom_spec [1, 1, 0, Real.log 2, Real.log 3] 3 2 (by simp)
  cases a.symm.trans hr'
  refine ⟨[([-2, -1], ma, s, _), ([-2, -1], ma, s, _)], by simp, by rw [List.mapM_cons, h, List.mapM_cons, h]; rfl, ?_, ?_, ?_⟩
  rotate_left
  · have := h2 (by simp [at0])
    simp only [avg, List.map_cons, List.map_nil, List.sum_cons, List.sum_nil, List.length_cons, List.length_nil]
    positivity
  · refine ⟨1, ?_, one_ne_zero⟩
    simp [avg, List.range_succ, List.getD_eq_getElem?_getD, h1]
  have hv : (fun k => avg ([(([-2, -1], ma, s, at0 [1, 1, 0, Real.log 2, Real.log 3] 2) : List ℂ × List ℝ × ℝ × ℝ),
      ([-2, -1], ma, s, at0 [1, 1, 0, Real.log 2, Real.log 3] 2)].map fun x => vecOf 2 x.1 k)) = vecOf 2 [-2, -1] := by
    funext k
    simp only [avg, List.map_cons, List.map_nil, List.sum_cons, List.sum_nil, List.length_cons, List.length_nil]
    push_cast; ring
  rw [hv]
  exact hg.admissible (by simp)

lemma ex_sampAr : Py.sampAr 2 [1, 1, 0, 0, 0] = .ok [⟨-0.5, -0.5 * √3⟩, ⟨-0.5, -(-0.5 * √3)⟩] := by
  rw [sampAr_eq _ (by simp), arRoots, rootsFrom]
  have h : ¬ (0 : ℝ) < 1 * 1 - 4 * 1 := by norm_num
  have e : -((1 : ℝ) * 1 - 4 * 1) = 3 := by norm_num
  simp only [show 2 / 2 = 1 from rfl, rootLoop, res_bind_ok, show rd [(1:ℝ), 1, 0, 0, 0] (3 + 2 * 0) = .ok 0 from rfl,
    show rd [(1:ℝ), 1, 0, 0, 0] (3 + 2 * 0 + 1) = .ok 0 from rfl, Real.exp_zero, quadPair, if_neg h, e, res_pure]
  norm_num

/-- **C57 fails.** Two CARMA(2,0) samples with roots `-1/2 ∓ i √3/2` and `-2, -1`: for every data set the filter built from the averages
has roots that are not closed under conjugation, so it is not the filter of a real process. -/
theorem C57_negation (srt : List ℝ → List ℕ) {n : ℕ} (hn : 2 ≤ n) {t : Fin n → ℝ} (ht : StrictMono t) (y e : Fin n → ℝ) :
    ∃ (kf : KFp 2) (mu : ℝ), Py.meanFilter srt (List.ofFn t) (List.ofFn y) (List.ofFn e) 0
      [[1, 1, 0, 0, 0], [1, 1, 0, Real.log 2, Real.log 3]] = .ok (kf, mu) ∧ ¬ ∀ k, ∃ l, kf.omega l = star (kf.omega k) := by
  have h3 : 0 < √3 := Real.sqrt_pos.mpr (by norm_num)
  have a1 := (sampAr_eq (p := 2) [1, 1, 0, 0, 0] (by simp)).symm.trans ex_sampAr
  have a2 := ex_roots (θ := [1, 1, 0, Real.log 2, Real.log 3]) (by simp) (by simp [at0]) (by simp [at0])
  obtain ⟨ma1, s1, d1, -⟩ := derived_spec (p := 2) (q := 0) (by norm_num) rfl a1 (by
    simp only [List.nodup_cons, List.mem_singleton, Complex.ext_iff, List.not_mem_nil, not_false_eq_true, List.nodup_nil, and_true]
    rintro ⟨-, h⟩
    linarith)
  obtain ⟨ma2, s2, d2, -⟩ := derived_spec (p := 2) (q := 0) (by norm_num) rfl a2 (by simp)
  have hm := meanFilter_spec (p := 2) srt hn ht y e (q := 0) (rows := [[1, 1, 0, 0, 0], [1, 1, 0, Real.log 2, Real.log 3]])
    (by rw [List.mapM_cons, d1, List.mapM_cons, d2]; rfl) rfl
  obtain ⟨kf, mu, g1, g2⟩ := hm
  refine ⟨kf, mu, g1, fun h => ?_⟩
  obtain ⟨j, hj⟩ := h 0
  rw [g2] at hj
  fin_cases j <;> simp [vecOf, Complex.ext_iff, List.range_succ] at hj <;> norm_num at hj
  linarith

end Verif.Props
