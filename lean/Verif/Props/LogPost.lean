import Verif.Theory.Post
import Mathlib.Analysis.Complex.ExponentialBounds

/-!
Properties of the log-posterior of the models: C05, C06, C08, C13 and the default bounds of C12.
Specification: `Verif/Spec/Gauss.lean`, `Verif/Spec/Carma.lean`, `Verif/Spec/Param.lean`, `Verif/Spec/Prior.lean`.
-/

namespace Verif.Props

open Verif.Model Verif.Spec Verif.Theory Polynomial
open scoped Classical

/-- **C13, CAR(1).** For every prior setting and every `theta` of at least four numbers, `CheckPriorBounds` decides the bounds
`min_freq <= exp(theta(3)) <= max_freq`, `0 <= theta(0) <= max_stdev`, `0.5 <= theta(1) <= 2`, and outside them `LogDensity` is
`-inf`. -/
theorem C13_car1_bounds (s : Car1) {fmax fmin : ℝ} (h1 : s.b.maxFreq = .fin fmax) (h2 : s.b.minFreq = .fin fmin)
    (θ : List ℝ) (hθ : 4 ≤ θ.length) :
    (Car1.checkPrior s.b θ = .ok true ↔ Car1Bounds s.b.maxStdev fmax fmin θ) ∧
    (¬ Car1Bounds s.b.maxStdev fmax fmin θ → logDensity s θ = .ok (s, .ninf)) := by
  have h := car1_check h1 h2 hθ
  refine ⟨by rw [h]; simp, fun hb => ?_⟩
  rw [decide_eq_false hb] at h
  exact logDensity_false h

/-- **C13, CARp and its variants.** The same for the bounds on Lorentzian centroids, widths, separation and ordering of the roots.
(For an object in maximum-likelihood mode see C42.) -/
theorem C13_carp_bounds {p : ℕ} (s : CarP p) {fmax fmin : ℝ} (h1 : s.b.maxFreq = .fin fmax) (h2 : s.b.minFreq = .fin fmin)
    (h3 : s.b.ignorePrior = false) (h4 : s.orderLor = true) (θ : List ℝ) (hθ : p + 3 ≤ θ.length) :
    ∃ roots, arRoots p θ = .ok roots ∧
      (CarP.checkPrior s.b p s.orderLor θ = .ok true ↔ CarpBounds s.b.maxStdev fmax fmin roots θ) ∧
      (¬ CarpBounds s.b.maxStdev fmax fmin roots θ → logDensity s θ = .ok (s, .ninf)) := by
  obtain ⟨roots, hr, -⟩ := rootsFrom_spec θ 3 p (by omega)
  have h := carp_check h1 h2 h3 (p := p) (θ := θ) (by omega) hr
  refine ⟨roots, hr, by rw [h4, h]; simp, fun hb => ?_⟩
  rw [decide_eq_false hb] at h
  exact logDensity_false (s := s) (by rw [← h, ← h4]; rfl)

/-- **C13, default settings.** Objects of all classes built from strictly increasing times have the bounds: `max_freq` is one over
the smallest gap, `min_freq` one over the time span, `max_stdev` ten sample standard deviations. -/
theorem C13_default_bounds (srt : List ℝ → List ℕ) {n : ℕ} (hn : 2 ≤ n) {t : Fin n → ℝ} (ht : StrictMono t)
    (y e : Fin n → ℝ) : ∃ dmin span, IsMinGap t dmin ∧ IsSpan t span ∧ 0 < dmin ∧ dmin ≤ span ∧
    (∃ s, Car1.new srt (List.ofFn t) (List.ofFn y) (List.ofFn e) = .ok s ∧ s.b.maxFreq = .fin (1 / dmin) ∧
      s.b.minFreq = .fin (1 / span) ∧ s.b.maxStdev = 10 * √(sampleVar y) ∧ s.b.ignorePrior = false) ∧
    ∀ (p : ℕ) (kind : Kind), 0 < p → ∃ s, CarP.new kind p srt (List.ofFn t) (List.ofFn y) (List.ofFn e) = .ok s ∧
      s.b.maxFreq = .fin (1 / dmin) ∧ s.b.minFreq = .fin (1 / span) ∧ s.b.maxStdev = 10 * √(sampleVar y) ∧
      s.b.ignorePrior = false ∧ s.orderLor = true := by
  simp only [← armaVar_ofFn]
  obtain ⟨dmin, b, g1, g2, g3, g4, -, -, -, -, -, hb, hB⟩ := base_fresh hn ht y e
  refine ⟨dmin, _, g1, g3, g2, g4, ?_, fun p kind hp => ?_⟩
  · obtain ⟨s, h1, h2⟩ := car1_fresh srt hn ht y e hb
    refine ⟨s, h1, ?_⟩
    rw [h2.base]; exact ⟨hB.fmax, hB.fmin, hB.sd, hB.ign⟩
  · obtain ⟨s, h1, h2, h3, -⟩ := carp_fresh hp srt hn ht y e hb kind
    refine ⟨s, h1, ?_⟩
    rw [h3.base]; exact ⟨hB.fmax, hB.fmin, hB.sd, hB.ign, h3.lor⟩

/-- **C12, default settings.** A ZCARMA object built from at least three strictly increasing times has bounds `0 < lo < hi` for
`kappa`, with `hi` one over the smallest gap; for two times they coincide. -/
theorem C12_default_kappa (srt : List ℝ → List ℕ) {n : ℕ} (hn : 2 ≤ n) {t : Fin n → ℝ} (ht : StrictMono t)
    (y e : Fin n → ℝ) {p : ℕ} (hp : 0 < p) :
    ∃ s dmin lo hi, CarP.new .zcarma p srt (List.ofFn t) (List.ofFn y) (List.ofFn e) = .ok s ∧ s.kappaLow = .fin lo ∧
      s.kappaHigh = .fin hi ∧ IsMinGap t dmin ∧ hi = 1 / dmin ∧ 0 < lo ∧ (3 ≤ n → lo < hi) ∧ (n = 2 → lo = hi) := by
  obtain ⟨dmin, b, g1, g2, g3, g4, -, -, -, -, -, hb, hB⟩ := base_fresh hn ht y e
  obtain ⟨s, h1, h2, h3, h4⟩ := carp_fresh hp srt hn ht y e hb .zcarma
  obtain ⟨d, lo, hi, k1, k2, k3, k4, k5, k6, k7, k8, k9⟩ := h4 rfl
  exact ⟨s, d, lo, hi, h1, k2, k3, k1, k4, k6, k8, k9⟩

/-! A concrete data set and parameters inside the bounds: times 0, 1, 10 and values 0, 1, 2. -/

/-- times of the example -/
def exT : Fin 3 → ℝ := ![0, 1, 10]
/-- values of the example -/
def exY : Fin 3 → ℝ := ![0, 1, 2]

lemma exT_mono : StrictMono exT := by
  refine Fin.strictMono_iff_lt_succ.mpr fun i => ?_
  fin_cases i <;> simp [exT]

lemma exY_var : sampleVar exY = 1 := by
  simp [sampleVar, exY, Fin.sum_univ_three]; norm_num

lemma exT_gap {d : ℝ} (h : IsMinGap exT d) : d = 1 := by
  obtain ⟨⟨i, j, hij, hd⟩, h2⟩ := h
  have h3 : d ≤ 1 := h2 ⟨0, 1, by decide, by simp [exT]⟩
  refine le_antisymm h3 ?_
  rw [hd]
  fin_cases i <;> fin_cases j <;> simp [exT] at hij ⊢; norm_num

lemma exT_span {d : ℝ} (h : IsSpan exT d) : d = 10 := by
  obtain ⟨⟨i, j, hd⟩, h2⟩ := h
  have h3 : 10 ≤ d := h2 ⟨0, 2, by simp [exT]⟩
  refine le_antisymm ?_ h3
  rw [hd]
  fin_cases i <;> fin_cases j <;> simp [exT] <;> norm_num

lemma ex_car1_bounds {dmin span : ℝ} (h1 : IsMinGap exT dmin) (h2 : IsSpan exT span) :
    Car1Bounds (10 * √(sampleVar exY)) (1 / dmin) (1 / span) [1, 1, 0, -1] := by
  rw [exT_gap h1, exT_span h2, exY_var]
  have h3 : (1 : ℝ) / 10 ≤ Real.exp (-1) := by
    rw [Real.exp_neg]
    have := Real.exp_one_lt_d9
    rw [one_div, inv_le_inv₀ (by norm_num) (Real.exp_pos 1)]; linarith
  have h4 : Real.exp (-1) ≤ 1 := Real.exp_le_one_iff.mpr (by norm_num)
  constructor <;> [constructor; skip; skip] <;> simp [at0] <;> norm_num at * <;> assumption

/-- a `theta` inside the CAR(1) bounds of the example data, and one outside -/
example : (∀ dmin span, IsMinGap exT dmin → IsSpan exT span →
      Car1Bounds (10 * √(sampleVar exY)) (1 / dmin) (1 / span) [1, 1, 0, -1]) ∧
    (∀ dmin span, IsMinGap exT dmin → IsSpan exT span →
      ¬ Car1Bounds (10 * √(sampleVar exY)) (1 / dmin) (1 / span) [1, 1, 0, 1]) := by
  refine ⟨fun _ _ => ex_car1_bounds, ?_⟩
  intro dmin span h1 h2 hb
  have := hb.hi
  rw [exT_gap h1] at this
  simp [at0] at this
  norm_num at this

/-- **C05.** For strictly increasing times and `theta` inside the prior bounds (with `theta(0) ≠ 0`, or all errors nonzero),
`LogDensity(theta)` is the logarithm of the Gaussian density of the data with mean `theta(2)`, covariance
`theta(0)² exp(-exp(theta(3)) d)` and error variances `theta(1) yerr²` (without `-n/2 log 2π`), plus the log-prior of C16's scale parameter. -/
theorem C05_car1_logpost (srt : List ℝ → List ℕ) {n : ℕ} (hn : 2 ≤ n) {t : Fin n → ℝ} (ht : StrictMono t)
    (y e : Fin n → ℝ) (θ : List ℝ) (hθ : 4 ≤ θ.length) :
    ∃ dmin span s, IsMinGap t dmin ∧ IsSpan t span ∧
      Car1.new srt (List.ofFn t) (List.ofFn y) (List.ofFn e) = .ok s ∧
      (Car1Bounds (10 * √(sampleVar y)) (1 / dmin) (1 / span) θ → (at0 θ 0 ≠ 0 ∨ ∀ i, e i ≠ 0) →
        ∃ s', logDensity s θ = .ok (s', .fin (logGauss
          (obsCov (fun d => at0 θ 0 ^ 2 * Real.exp (-Real.exp (at0 θ 3) * d)) t fun i => √(at0 θ 1) * e i)
          (fun i => y i - at0 θ 2) + logPriorSpec θ))) := by
  simp only [← armaVar_ofFn]
  obtain ⟨dmin, b, g1, g2, g3, g4, -, -, -, -, -, hb, hB⟩ := base_fresh hn ht y e
  obtain ⟨s, h1, h2⟩ := car1_fresh srt hn ht y e hb
  refine ⟨dmin, _, s, g1, g3, h1, fun hbd he => ?_⟩
  have hc := car1_check hB.fmax hB.fmin hθ
  rw [hB.sd, decide_eq_true hbd] at hc
  have hpos : 0 < at0 θ 1 := by have := hbd.err_lo; linarith
  obtain ⟨s', -, h3⟩ := (car1_ld_true (y := ext0 y) (e := ext0 e) h2 (by omega) le_rfl
    (fun i hi => strictMono_ext0 ht i hi) (by rw [hB.time]; simp) (by rw [hB.y, ofFn_eq_rangeMap])
    (by rw [hB.yerr, ofFn_eq_rangeMap]) hθ hc).1 rfl
  refine ⟨s', ?_⟩
  · rw [h3, priorVal_pos hpos, likVal, if_neg]
    · have hexp := Real.exp_pos (at0 θ 3)
      have e1 : car1Acf (2 * at0 θ 0 * at0 θ 0 * Real.exp (at0 θ 3)) (Real.exp (at0 θ 3)) =
          fun d => at0 θ 0 ^ 2 * Real.exp (-Real.exp (at0 θ 3) * d) := by
        funext d; rw [car1Acf]; congr 1; field_simp
      have e2 : fst n (fun i => √(at0 θ 1) * ext0 e i) = fun i => √(at0 θ 1) * e i := by funext i; simp [fst]
      have e3 : fst n (fun i => ext0 y i - at0 θ 2) = fun i => y i - at0 θ 2 := by funext i; simp [fst]
      rw [e1, e2, e3, fst_ext0, Dbl.add, logPriorSpec]
    · rintro ⟨h0, i, hi, hi0⟩
      rcases he with he | he
      · exact he h0
      · rw [ext0_of_lt e hi, mul_eq_zero] at hi0
        rcases hi0 with hi0 | hi0
        · exact (Real.sqrt_pos.mpr hpos).ne' hi0
        · exact he _ hi0

/-- **C06.** For CARp, CARMA(p,q) with `q < p` and ZCARMA, strictly increasing times and `theta` inside the prior bounds (with
`theta(0) ≠ 0`, or all errors nonzero): the autoregressive roots `ω` are different and are the zeros of the polynomial read from
`theta`, and `LogDensity(theta)` is the logarithm of the Gaussian density of the data with mean `theta(2)`, the CARMA
covariance of roots `ω` and the moving-average polynomial of the kind, scaled to variance `theta(0)²`, error variances
`theta(1) yerr²`, plus the log-prior. (The same formula holds for ZCAR with moving-average polynomial 1, which is not its
documented polynomial: see C20.) -/
theorem C06_carma_logpost (srt : List ℝ → List ℕ) {n : ℕ} (hn : 2 ≤ n) {t : Fin n → ℝ} (ht : StrictMono t)
    (y e : Fin n → ℝ) {p : ℕ} (hp : 2 ≤ p) (kind : Kind) (hk : OrderOk p kind) (θ : List ℝ)
    (hθ : npar p kind ≤ θ.length) :
    ∃ dmin span s lo hi, IsMinGap t dmin ∧ IsSpan t span ∧ 0 < lo ∧ lo ≤ hi ∧ (3 ≤ n → lo < hi) ∧
      CarP.new kind p srt (List.ofFn t) (List.ofFn y) (List.ofFn e) = .ok s ∧
      (kind = .zcarma → s.kappaLow = .fin lo ∧ s.kappaHigh = .fin hi) ∧
      ∃ roots, arRoots p θ = .ok roots ∧ (CarpBounds (10 * √(sampleVar y)) (1 / dmin) (1 / span) roots θ →
        (at0 θ 0 ≠ 0 ∨ ∀ i, e i ≠ 0) →
        ∃ (ω : Fin p → ℂ) (ma : List ℝ) (s' : CarP p), List.ofFn ω = roots ∧ Admissible ω ∧
          ∏ k, (X - C (ω k)) = (factorPoly (at0 θ) 3 p).map Complex.ofRealHom ∧
          ma.length = p ∧ ma[0]? = some 1 ∧ (∀ z, maEval ma z = maPolySpec kind p lo hi θ z) ∧
          logDensity s θ = .ok (s', .fin (logGauss
            (obsCov (fun d => at0 θ 0 ^ 2 * (carmaAcf 1 ω ma d / carmaAcf 1 ω ma 0)) t fun i => √(at0 θ 1) * e i)
            (fun i => y i - at0 θ 2) + (logPriorSpec θ + logitPrior kind p θ)))) := by
  simp only [← armaVar_ofFn]
  obtain ⟨dmin, b, g1, g2, g3, g4, -, -, -, -, -, hb, hB⟩ := base_fresh hn ht y e
  obtain ⟨s, h1, h2, h3, h4⟩ := carp_fresh (show 0 < p by omega) srt hn ht y e hb kind
  have hkk : ∃ lo hi : ℝ, 0 < lo ∧ lo ≤ hi ∧ (3 ≤ n → lo < hi) ∧ (kind = .zcarma → s.kappaLow = .fin lo ∧ s.kappaHigh = .fin hi) := by
    by_cases hk : kind = .zcarma
    · obtain ⟨d, lo, hi, k1, k2, k3, k4, k5, k6, k7, k8, k9⟩ := h4 hk
      exact ⟨lo, hi, k6, k7, k8, fun _ => ⟨k2, k3⟩⟩
    · exact ⟨1, 2, one_pos, one_le_two, fun _ => one_lt_two, fun h => (hk h).elim⟩
  obtain ⟨lo, hi, hlo, hlh, hlh', hkap⟩ := hkk
  have hl3 := npar_ge (p := p) kind
  obtain ⟨roots, hr, hg⟩ := rootsFrom_spec θ 3 p (by omega)
  refine ⟨dmin, _, s, lo, hi, g1, g3, hlo, hlh, hlh', h1, hkap, roots, hr, fun hbd he => ?_⟩
  have hpos : 0 < at0 θ 1 := by have := hbd.err_lo; linarith
  have hc := carp_check hB.fmax hB.fmin hB.ign (p := p) (θ := θ) (by omega) hr
  rw [hB.sd, decide_eq_true hbd] at hc
  have hnd : roots.Nodup := by
    refine List.Pairwise.imp_of_mem ?_ hbd.sep
    rintro a c ha hc' (h | h) rfl
    · have := congrArg Complex.re h
      have := hg.neg a ha
      simp at *; linarith
    · simp at h; linarith
  have hkind : s.kind = kind := h3.kind
  obtain ⟨ma, m1, m2, m3, s', m4, m5⟩ := carp_value hp (by omega) ht h2 (by rw [h3.base, hB.time, List.length_ofFn]) (by rw [h3.base, hB.y])
    (by rw [h3.base, hB.yerr]) h3.ma (by rw [hkind]; exact hk) hlo hlh (fun h => hkap (hkind ▸ h))
    (by rw [hkind]; exact hθ) (by rw [h3.base, h3.lor]; exact hc) hpos he hr hnd
  rw [hkind] at m3 m5
  refine ⟨vecOf p roots, ma, s', ofFn_vecOf hg.length, hg.admissible hnd, ?_, m1, m2, m3, m5⟩
  rw [← hg.poly, prod_vecOf hg.length]

/-- roots `-2, -1` from `theta(3) = log 2`, `theta(4) = log 3` -/
lemma ex_roots {θ : List ℝ} (h : 5 ≤ θ.length) (h3 : at0 θ 3 = Real.log 2) (h4 : at0 θ 4 = Real.log 3) :
    arRoots 2 θ = .ok [-2, -1] := by
  have e3 : rd θ 3 = .ok (Real.log 2) := by rw [rd_at0 (by omega), h3]
  have e4 : rd θ 4 = .ok (Real.log 3) := by rw [rd_at0 (by omega), h4]
  simp only [arRoots, rootsFrom, rootLoop, res_bind_ok, e3, e4, res_pure]
  rw [Real.exp_log (by norm_num), Real.exp_log (by norm_num)]
  have : (3 : ℝ) * 3 - 4 * 2 = 1 := by norm_num
  norm_num [quadPair, this]
  constructor <;> apply Complex.ext <;> norm_num

lemma ex_bounds {θ : List ℝ} (h0 : at0 θ 0 = 1) (h1 : at0 θ 1 = 1) : CarpBounds 10 1 (1 / 10) [-2, -1] θ := by
  have p3 := Real.pi_gt_three
  have p4 := Real.pi_lt_four
  have hp : 0 < 2 * Real.pi := by linarith
  constructor
  · constructor <;> rw [‹at0 θ _ = 1›] <;> norm_num
  · intro r hr; simp at hr; rcases hr with rfl | rfl <;> simp
  · intro r hr; simp at hr
    rcases hr with rfl | rfl <;> simp only [Complex.neg_re, Complex.re_ofNat, Complex.one_re, neg_neg] <;>
      rw [lt_div_iff₀ hp, div_lt_iff₀ hp] <;> constructor <;> linarith
  · simp; right
    have e1 : ‖(-2 + 1 : ℂ)‖ = 1 := by norm_num
    have e2 : ‖(-2 + -1 : ℂ)‖ = 3 := by norm_num
    rw [e1, e2]; norm_num
  · intro i a b ha hb
    rcases i with _ | i
    · simp at ha hb; subst ha hb; simp; norm_num
    · simp at hb

/-- parameters inside the bounds of the example data for CAR(2), CARMA(2,1) and ZCARMA(2) -/
example : ∀ θ ∈ [[1, 1, 0, Real.log 2, Real.log 3], [1, 1, 0, Real.log 2, Real.log 3, 0.3]],
    ∀ dmin span, IsMinGap exT dmin → IsSpan exT span → ∃ roots, arRoots 2 θ = .ok roots ∧
      CarpBounds (10 * √(sampleVar exY)) (1 / dmin) (1 / span) roots θ := by
  intro θ hθ dmin span h1 h2
  rw [exT_gap h1, exT_span h2, exY_var]
  have hh : 5 ≤ θ.length ∧ at0 θ 0 = 1 ∧ at0 θ 1 = 1 ∧ at0 θ 3 = Real.log 2 ∧ at0 θ 4 = Real.log 3 := by
    simp at hθ; rcases hθ with rfl | rfl <;> simp [at0]
  obtain ⟨a, b, c, d, e⟩ := hh
  refine ⟨_, ex_roots a d e, ?_⟩
  have := ex_bounds b c
  simpa using this

/-- **C08, CAR(1).** The filter parameters set for `theta` belong to a process of variance `theta(0)²`. -/
theorem C08_car1_stdev (kf : KF1) (θ : List ℝ) (hθ : 4 ≤ θ.length) :
    ∃ kf', Car1.setParams kf θ = .ok (kf', false) ∧ kf'.omega = Real.exp (at0 θ 3) ∧
      car1Acf kf'.b.sigsqr kf'.omega 0 = at0 θ 0 ^ 2 := by
  refine ⟨_, by simp only [Car1.setParams, rd_at0 (show 3 < θ.length by omega), rd_at0 (show 0 < θ.length by omega),
    res_bind_ok]; rfl, rfl, ?_⟩
  have := Real.exp_pos (at0 θ 3)
  simp only [KFBase.setSigsqr, car1Acf, mul_zero, Real.exp_zero]
  field_simp

/-- **C08, CARp and its variants.** For a valid object and `theta` with different autoregressive roots, `ExtractSigsqr(theta)`
is the driving-noise variance for which the process with the roots `ARRoots(theta)` and coefficients `ExtractMA(theta)`
has variance `theta(0)²`. -/
theorem C08_carp_stdev {p : ℕ} (hp : 0 < p) (s : CarP p) (hma : s.maCoefs = 1 :: List.replicate (p - 1) 0)
    (hk : OrderOk p s.kind) {lo hi : ℝ} (hlo : 0 < lo) (hlh : lo ≤ hi)
    (hkap : s.kind = .zcarma → s.kappaLow = .fin lo ∧ s.kappaHigh = .fin hi) (θ : List ℝ)
    (hθ : npar p s.kind ≤ θ.length) :
    ∃ roots ma, arRoots p θ = .ok roots ∧ s.extractMA θ = .ok ma ∧
      (roots.Nodup → ∃ v, s.extractSigsqr θ = .ok v ∧ carmaAcf v (vecOf p roots) ma 0 = at0 θ 0 ^ 2) := by
  have hl3 := npar_ge (p := p) s.kind
  obtain ⟨ma, h1, h2, h3, h4⟩ := extractMA_spec hp hma hk hlo hlh hkap hθ
  obtain ⟨roots, hr, hg⟩ := rootsFrom_spec θ 3 p (by omega)
  refine ⟨roots, ma, hr, h1, fun hnd => ?_⟩
  have ha := hg.admissible hnd
  refine ⟨_, carp_sigsqr hr h1 (by omega) ha h2.le (head_ne h3), ?_⟩
  have hpos : 0 < carmaAcf 1 (vecOf p roots) ma 0 := carmaAcf_pos ha one_pos h2.le (head_ne h3)
  rw [carmaAcf_scale, div_mul_cancel₀ _ hpos.ne']

/-- objects built by the constructors satisfy the hypotheses, e.g. ZCARMA(2) on the example data -/
example (srt : List ℝ → List ℕ) : ∃ s lo hi, CarP.new .zcarma 2 srt (List.ofFn exT) (List.ofFn exY) (List.ofFn exY) = .ok s ∧
    s.maCoefs = 1 :: List.replicate (2 - 1) 0 ∧ OrderOk 2 s.kind ∧ 0 < lo ∧ lo ≤ hi ∧ s.kappaLow = .fin lo ∧
    s.kappaHigh = .fin hi ∧ npar 2 s.kind ≤ [1, 1, 0, Real.log 2, Real.log 3, 0.3].length := by
  obtain ⟨-, b, -, -, -, -, -, -, -, -, -, hb, -⟩ := base_fresh (by norm_num) exT_mono exY exY
  obtain ⟨s, h1, h2, h3, h4⟩ := carp_fresh (p := 2) (by norm_num) srt (by norm_num) exT_mono exY exY hb .zcarma
  obtain ⟨d, lo, hi, k1, k2, k3, k4, k5, k6, k7, k8, k9⟩ := h4 rfl
  refine ⟨s, lo, hi, h1, h3.ma, ?_, k6, k7, k2, k3, ?_⟩ <;> rw [h3.kind] <;> simp [OrderOk, npar]

end Verif.Props
