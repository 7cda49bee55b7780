import Verif.Theory.GaussBound
import Verif.Theory.PostTarget
import Verif.Spec.Proper
import Mathlib.MeasureTheory.Integral.Pi
import Mathlib.Analysis.SpecialFunctions.Gaussian.GaussianIntegral

/-!
Bounds on the posterior densities: tails in the mean, no decay in the moving-average parameters.
-/

namespace Verif.Theory

open Matrix Verif.Model Verif.Spec MeasureTheory
open scoped ENNReal

variable {n : ℕ} {t y e : Fin n → ℝ}

theorem obsCov_split (r : ℝ → ℝ) (t e : Fin n → ℝ) : obsCov r t e = obsCov r t 0 + diagonal fun i => e i ^ 2 := by
  ext i j
  by_cases h : i = j
  · subst h; simp [obsCov]
  · simp [obsCov, h]

theorem obsCov_smul (c : ℝ) (r : ℝ → ℝ) (t : Fin n → ℝ) : obsCov (fun d => c * r d) t 0 = c • obsCov r t 0 := by
  ext i j
  simp [obsCov]

theorem Realizes.posDef {𝕜 ι : Type} [RCLike 𝕜] [Fintype ι] {S : SS 𝕜 ι} {r : ℝ → ℝ} {t e : ℕ → ℝ} {n : ℕ}
    (h : Realizes S r t e n) : (obsCov r (fst n t) (fst n e)).PosDef := by
  obtain ⟨τ, hτ⟩ := h.sym
  have := (hτ.normalEq n fun l hl => (h.pos l hl).ne').posDef fun i => h.pos i i.2
  rwa [h.Kmat] at this

/-- A correlation function on the times `t`. -/
structure IsCorr (ρ : ℝ → ℝ) (t : Fin n → ℝ) : Prop where
  psd : (obsCov ρ t 0).PosSemidef
  one : ρ 0 = 1

theorem car1_corr {ω : ℝ} (hω : 0 < ω) (ht : StrictMono t) : IsCorr (fun d => Real.exp (-ω * d)) t where
  psd := by
    have h := (car1_realizes (σ2 := 2 * ω) (by positivity) hω (ext0 t) (ext0 (0 : Fin n → ℝ)) n
      (fun i hi => ⟨(strictMono_ext0 ht i hi).le, Or.inl (strictMono_ext0 ht i hi)⟩)).posDef
    rw [fst_ext0, fst_ext0] at h
    have e : car1Acf (2 * ω) ω = fun d => Real.exp (-ω * d) := by
      funext d
      rw [car1Acf, div_self (by positivity), one_mul]
    rw [e] at h
    exact h.posSemidef
  one := by simp

theorem carma_corr {p : ℕ} {ω : Fin p → ℂ} (ha : Admissible ω) {β : ℂ → ℂ} {ma : List ℝ} (hl : ma.length = p) (h1 : ma[0]? = some 1)
    (hβ : ∀ z, maEval ma z = β z) (ht : StrictMono t) : IsCorr (fun d => responseAcf ω β d / responseAcf ω β 0) t := by
  have hpos : 0 < carmaAcf 1 ω ma 0 := carmaAcf_pos ha one_pos hl.le (head_ne h1)
  have h := (carma_realizes ha one_pos (obsRow_ne_zero ha.inj hl (head_ne h1)) (ext0 t) (ext0 (0 : Fin n → ℝ)) n
    (fun i hi => ⟨(strictMono_ext0 ht i hi).le, Or.inl (strictMono_ext0 ht i hi)⟩)).posDef
  rw [fst_ext0, fst_ext0] at h
  have e : carmaAcf 1 ω ma = responseAcf ω β := funext fun d => impulse_response hβ d
  rw [e] at h hpos
  refine ⟨?_, div_self hpos.ne'⟩
  have e2 : (fun d => responseAcf ω β d / responseAcf ω β 0) = fun d => (responseAcf ω β 0)⁻¹ * responseAcf ω β d := by
    funext d; rw [div_eq_inv_mul]
  rw [e2, obsCov_smul]
  exact h.posSemidef.smul (inv_nonneg.mpr hpos.le)

/-- Covariance of the observations as used by the posterior. -/
theorem post_cov (ρ : ℝ → ℝ) (σ : ℝ) {s : ℝ} (hs : 0 ≤ s) :
    obsCov (fun d => σ ^ 2 * ρ d) t (fun i => √s * e i) = σ ^ 2 • obsCov ρ t 0 + diagonal fun i => s * e i ^ 2 := by
  rw [obsCov_split, obsCov_smul]
  congr 2
  funext i
  rw [mul_pow, Real.sq_sqrt hs]

theorem err_bounds (he : ∀ i, e i ≠ 0) : ∃ ε E : ℝ, 0 < ε ∧ 0 < E ∧ ∀ i, ε ≤ e i ^ 2 ∧ e i ^ 2 ≤ E := by
  rcases Nat.eq_zero_or_pos n with rfl | hn
  · exact ⟨1, 1, one_pos, one_pos, fun i => i.elim0⟩
  · have : Nonempty (Fin n) := ⟨⟨0, hn⟩⟩
    obtain ⟨a, ha⟩ := Finite.exists_min fun i => e i ^ 2
    obtain ⟨b, hb⟩ := Finite.exists_max fun i => e i ^ 2
    have hp : ∀ i, 0 < e i ^ 2 := fun i => by have := he i; positivity
    exact ⟨_, _, hp a, hp b, fun i => ⟨ha i, hb i⟩⟩

/-- Upper bound with Gaussian tails in the mean, uniform in everything else. -/
theorem post_le (hn : 0 < n) (he : ∀ i, e i ≠ 0) (y : Fin n → ℝ) (sd : ℝ) : ∃ A c : ℝ, 0 < c ∧ ∀ (ρ : ℝ → ℝ), IsCorr ρ t → ∀ σ s μ : ℝ, 0 ≤ σ → σ ≤ sd →
    0.5 ≤ s → s ≤ 2 → logGauss (obsCov (fun d => σ ^ 2 * ρ d) t fun i => √s * e i) (fun i => y i - μ) + (-25 / s - 26 * Real.log s) ≤
      A - c * (μ - y ⟨0, hn⟩) ^ 2 := by
  obtain ⟨ε, E, h1, h2, h3⟩ := err_bounds he
  refine ⟨-(1 / 2) * Real.log ((0.5 * ε) ^ n) + 26 * Real.log 2, 1 / (2 * (sd ^ 2 + 2 * E)), by positivity, ?_⟩
  intro ρ hρ σ s μ g1 g2 g3 g4
  have hs : 0 < s := by linarith
  rw [post_cov ρ σ hs.le]
  have hpsd : (σ ^ 2 • obsCov ρ t 0).PosSemidef := hρ.psd.smul (sq_nonneg σ)
  have hd : ∀ i, 0.5 * ε ≤ s * e i ^ 2 := fun i => mul_le_mul g3 (h3 i).1 h1.le hs.le
  have hM : (σ ^ 2 • obsCov ρ t 0) ⟨0, hn⟩ ⟨0, hn⟩ + s * e ⟨0, hn⟩ ^ 2 ≤ sd ^ 2 + 2 * E := by
    have e1 : (σ ^ 2 • obsCov ρ t 0) ⟨0, hn⟩ ⟨0, hn⟩ = σ ^ 2 := by simp [obsCov, hρ.one]
    rw [e1]
    exact add_le_add (pow_le_pow_left₀ g1 g2 2) (mul_le_mul g4 (h3 _).2 (sq_nonneg _) (by norm_num))
  have h := logGauss_le hpsd (by positivity) hd (fun i => y i - μ) ⟨0, hn⟩ hM
  have hlog : -Real.log 2 ≤ Real.log s := by
    rw [← Real.log_inv]
    exact Real.log_le_log (by norm_num) (by linarith)
  have hdiv : -25 / s ≤ 0 := div_nonpos_of_nonpos_of_nonneg (by norm_num) hs.le
  have e2 : (y ⟨0, hn⟩ - μ) ^ 2 / (2 * (sd ^ 2 + 2 * E)) = 1 / (2 * (sd ^ 2 + 2 * E)) * (μ - y ⟨0, hn⟩) ^ 2 := by ring
  rw [e2] at h
  linarith

/-- Lower bound that depends on the mean, the standard deviation and the error scale only. -/
theorem le_post (he : ∀ i, e i ≠ 0) (y : Fin n → ℝ) (σ μ : ℝ) {s : ℝ} (hs : 0 < s) : ∃ B : ℝ, ∀ (ρ : ℝ → ℝ), IsCorr ρ t →
    B ≤ logGauss (obsCov (fun d => σ ^ 2 * ρ d) t fun i => √s * e i) (fun i => y i - μ) := by
  obtain ⟨ε, E, h1, h2, h3⟩ := err_bounds he
  refine ⟨-(1 / 2) * Real.log ((∑ i, (σ ^ 2 + s * e i ^ 2)) ^ n) - (∑ i, (y i - μ) ^ 2) / (2 * (s * ε)), fun ρ hρ => ?_⟩
  rw [post_cov ρ σ hs.le]
  have hpsd : (σ ^ 2 • obsCov ρ t 0).PosSemidef := hρ.psd.smul (sq_nonneg σ)
  have hd : ∀ i, s * ε ≤ s * e i ^ 2 := fun i => mul_le_mul_of_nonneg_left (h3 i).1 hs.le
  have hM : (σ ^ 2 • obsCov ρ t 0 + diagonal fun i => s * e i ^ 2).trace ≤ ∑ i, (σ ^ 2 + s * e i ^ 2) := by
    rw [Matrix.trace]
    refine Finset.sum_le_sum fun i _ => le_of_eq ?_
    simp [obsCov, hρ.one]
  exact le_logGauss hpsd (by positivity) hd _ hM

/-! ### The total mass -/

variable {m : ℕ}

/-- Gaussian tails in one coordinate, the others bounded. -/
theorem mass_finite {G : LogTarget m} {T : ℝ} (hT : 0 < T) (k : Fin m) {A c y0 : ℝ} (hc : 0 < c) (a b : Fin m → ℝ)
    (h : ∀ x l, G x = some l → l ≤ A - c * (x k - y0) ^ 2 ∧ ∀ i, i ≠ k → x i ∈ Set.Icc (a i) (b i)) : mass G T < ∞ := by
  unfold mass
  classical
  let f : Fin m → ℝ → ℝ := fun i => if i = k then fun u => Real.exp (-(c / T) * (u - y0) ^ 2) else (Set.Icc (a i) (b i)).indicator fun _ => 1
  have hf : ∀ i, Integrable (f i) := by
    intro i
    by_cases hi : i = k
    · simp only [f, hi, if_true]
      exact (integrable_exp_neg_mul_sq (b := c / T) (by positivity)).comp_sub_right y0
    · simp only [f, hi, if_false]
      exact (integrable_indicator_iff measurableSet_Icc).mpr (integrableOn_const (by simp) (by simp))
  have hint : Integrable fun x : Fin m → ℝ => Real.exp (A / T) * ∏ i, f i (x i) := (Integrable.fintype_prod hf).const_mul _
  refine lt_of_le_of_lt (lintegral_mono fun x => ?_) (hint.lintegral_lt_top)
  unfold Spec.tempered
  split
  case h_2 => exact zero_le
  case h_1 l hl =>
    refine ENNReal.ofReal_le_ofReal ?_
    obtain ⟨h1, h2⟩ := h x l hl
    have e1 : ∏ i, f i (x i) = Real.exp (-(c / T) * (x k - y0) ^ 2) := by
      rw [Finset.prod_eq_single k]
      · simp [f]
      · intro i _ hi
        simp [f, hi, Set.indicator_of_mem (h2 i hi)]
      · simp
    rw [e1, ← Real.exp_add]
    refine Real.exp_le_exp.mpr ?_
    calc l / T ≤ (A - c * (x k - y0) ^ 2) / T := div_le_div_of_nonneg_right h1 hT.le
      _ = _ := by ring

/-- No decay in the last coordinate. -/
theorem mass_top {G : LogTarget (m + 1)} (hG : MeasTarget G) {T : ℝ} (hT : 0 < T)
    (h : ∀ x : Fin m → ℝ, (∃ a, G (Fin.snoc x a) ≠ none) → ∃ B, ∀ a, ∃ l, G (Fin.snoc x a) = some l ∧ B ≤ l)
    (h0 : mass G T ≠ 0) : mass G T = ∞ := by
  unfold mass at h0 ⊢
  have hm : Measurable (Spec.tempered G T) := hG.tempered T
  have hpre := (volume_preserving_piFinSuccAbove (fun _ : Fin (m + 1) => ℝ) (Fin.last m)).symm
  have hval : ∀ z : ℝ × (Fin m → ℝ), (MeasurableEquiv.piFinSuccAbove (fun _ : Fin (m + 1) => ℝ) (Fin.last m)).symm z = Fin.snoc (α := fun _ => ℝ) z.2 z.1 := by
    intro z
    exact Fin.insertNth_last' _ _
  have hm2 : Measurable fun z : ℝ × (Fin m → ℝ) => Spec.tempered G T (Fin.snoc (α := fun _ => ℝ) z.2 z.1) := by
    have := hm.comp (MeasurableEquiv.piFinSuccAbove (fun _ : Fin (m + 1) => ℝ) (Fin.last m)).symm.measurable
    have e : (fun z : ℝ × (Fin m → ℝ) => Spec.tempered G T (Fin.snoc (α := fun _ => ℝ) z.2 z.1)) =
        Spec.tempered G T ∘ (MeasurableEquiv.piFinSuccAbove (fun _ : Fin (m + 1) => ℝ) (Fin.last m)).symm := by
      funext z
      exact congrArg (Spec.tempered G T) (hval z).symm
    rw [e]
    exact this
  have e1 : ∫⁻ x, Spec.tempered G T x = ∫⁻ x : Fin m → ℝ, ∫⁻ a : ℝ, Spec.tempered G T (Fin.snoc (α := fun _ => ℝ) x a) := by
    rw [← hpre.lintegral_comp hm]
    simp only [hval]
    rw [Measure.volume_eq_prod, lintegral_prod_symm' _ hm2]
  rw [e1] at h0 ⊢
  have hF : Measurable fun x : Fin m → ℝ => ∫⁻ a : ℝ, Spec.tempered G T (Fin.snoc (α := fun _ => ℝ) x a) :=
    Measurable.lintegral_prod_left hm2
  have htop : ∀ x : Fin m → ℝ, ∫⁻ a : ℝ, Spec.tempered G T (Fin.snoc (α := fun _ => ℝ) x a) ≠ 0 →
      ∫⁻ a : ℝ, Spec.tempered G T (Fin.snoc (α := fun _ => ℝ) x a) = ∞ := by
    intro x hx
    have hex : ∃ a, G (Fin.snoc x a) ≠ none := by
      by_contra hno
      push Not at hno
      refine hx ?_
      have : ∀ a : ℝ, Spec.tempered G T (Fin.snoc (α := fun _ => ℝ) x a) = 0 := by
        intro a
        rw [Spec.tempered, hno a]
      simp only [this, lintegral_zero]
    obtain ⟨B, hB⟩ := h x hex
    refine top_le_iff.mp ?_
    calc ∞ = ∫⁻ _a : ℝ, ENNReal.ofReal (Real.exp (B / T)) := by
            rw [lintegral_const, Real.volume_univ, ENNReal.mul_top]
            exact (ENNReal.ofReal_pos.mpr (Real.exp_pos _)).ne'
      _ ≤ _ := lintegral_mono fun a => by
            obtain ⟨l, h1, h2⟩ := hB a
            rw [Spec.tempered, h1]
            exact ENNReal.ofReal_le_ofReal (Real.exp_le_exp.mpr (div_le_div_of_nonneg_right h2 hT.le))
  refine lintegral_eq_top_of_measure_eq_top_ne_zero hF.aemeasurable fun hz => h0 ?_
  rw [lintegral_eq_zero_iff hF]
  refine measure_mono_null (fun x hx => ?_) hz
  exact htop x hx

/-- Positive mass from an open set. -/
theorem mass_pos {G : LogTarget m} (hG : MeasTarget G) (T : ℝ) {U : Set (Fin m → ℝ)} (hU : IsOpen U) (hne : U.Nonempty) (h : ∀ x ∈ U, G x ≠ none) :
    0 < mass G T := by
  unfold mass
  rw [lintegral_pos_iff_support (hG.tempered T)]
  refine lt_of_lt_of_le (hU.measure_pos volume hne) (measure_mono fun x hx => ?_)
  rw [Function.mem_support]
  obtain ⟨l, hl⟩ := Option.ne_none_iff_exists'.mp (h x hx)
  rw [Spec.tempered, hl]
  exact (ENNReal.ofReal_pos.mpr (Real.exp_pos _)).ne'

end Verif.Theory
