import Verif.Theory.IdentP
import Verif.Theory.Cancel
import Verif.Props.Identify

/-! C86 for CARp, ZCAR and CARMA: when the posterior distinguishes different models. -/

namespace Verif.Props

open Verif.Model Verif.Spec Verif.Theory Matrix

variable {n : ℕ}

lemma postVal_bounds {kind : Kind} {p : ℕ} {t y e : Fin n → ℝ} {sd fmax fmin lo hi v : ℝ} {θ : List ℝ}
    (h : postVal kind p t y e sd fmax fmin lo hi θ = .fin v) :
    CarpBounds sd fmax fmin (List.ofFn fun k : Fin p => arRootSpec p (at0 θ) k) θ := by
  by_contra hb
  rw [postVal] at h
  rw [if_neg hb] at h
  cases h

lemma postVal_fin {kind : Kind} (hz : kind ≠ .zcarma) {p : ℕ} {t y e : Fin n → ℝ} {sd fmax fmin lo hi : ℝ} {θ : List ℝ}
    (hb : CarpBounds sd fmax fmin (List.ofFn fun k : Fin p => arRootSpec p (at0 θ) k) θ) (h0 : at0 θ 0 ≠ 0) :
    postVal kind p t y e sd fmax fmin lo hi θ =
      .fin (logGauss (obsCov (fun d => at0 θ 0 ^ 2 * (responseAcf (fun k : Fin p => arRootSpec p (at0 θ) k) (maPolySpec kind p 0 0 θ) d /
        responseAcf (fun k : Fin p => arRootSpec p (at0 θ) k) (maPolySpec kind p 0 0 θ) 0)) t fun i => √(at0 θ 1) * e i)
        (fun i => y i - at0 θ 2) + logPriorSpec θ) := by
  rw [postVal]
  rw [if_pos hb, if_neg fun h => h0 h.1, maPolySpec_const hz, logit_zero hz, add_zero]

/-- **C86, CARp, ZCAR and CARMA.** Let the differences of the times contain `Δ, 2Δ, …, 2pΔ`, and let at least one measurement have an error.
Take two parameter vectors with standard deviations other than 0, each of finite log-posterior for some measurements, whose autoregressive
roots all oscillate slower than the Nyquist frequency of `Δ`; in the first one no root of the moving average cancels a root of the
autoregression. If the log-posteriors differ by the same constant for all measurements at which both are finite, then both vectors describe
the same model: same standard deviation, error scale, mean, autoregressive and moving-average polynomial. Missing: ZCARMA, and times without
such a sequence of differences. That the vectors themselves are then equal is a separate question (`C79_identified_partial`). -/
theorem C86_carma_identified_partial (srt : List ℝ → List ℕ) (hn : 3 ≤ n) {t : Fin n → ℝ} (ht : StrictMono t) {e : Fin n → ℝ}
    (he : ∃ i, e i ≠ 0) {p : ℕ} (hp : 2 ≤ p) {kind : Kind} (hz : kind ≠ .zcarma) (hk : OrderOk p kind) {Δ : ℝ} (hΔ : 0 < Δ)
    (hlag : HasLags t Δ (2 * p)) {θ θ' : List ℝ} (hl : npar p kind ≤ θ.length) (hl' : npar p kind ≤ θ'.length) (h0 : at0 θ 0 ≠ 0)
    (h0' : at0 θ' 0 ≠ 0) (hny : BelowNyquist Δ (factorPoly (at0 θ) 3 p)) (hny' : BelowNyquist Δ (factorPoly (at0 θ') 3 p))
    (hcop : IsCoprime (factorPoly (at0 θ) 3 p) (movingPoly p kind θ)) (hf : ∃ y v, ldp kind p srt t y e θ = .ok (.fin v))
    (hf' : ∃ y v, ldp kind p srt t y e θ' = .ok (.fin v)) {c : ℝ}
    (h : ∀ y v v', ldp kind p srt t y e θ = .ok (.fin v) → ldp kind p srt t y e θ' = .ok (.fin v') → v' = v + c) :
    SameModel p kind θ θ' := by
  have hn2 : 2 ≤ n := by omega
  obtain ⟨y0, v0, hf⟩ := hf
  obtain ⟨y1, v1, hf'⟩ := hf'
  obtain ⟨dmin, span, lo, hi, g1, g2, g3, g4, g5⟩ := ldp_value srt hn2 ht y0 e hp kind hk
  have hval : ∀ y, ∃ lo hi, ∀ θ, npar p kind ≤ θ.length →
      ldp kind p srt t y e θ = .ok (postVal kind p t y e (10 * √(sampleVar y)) (1 / dmin) (1 / span) lo hi θ) := by
    intro y
    obtain ⟨dmin', span', lo', hi', k1, k2, -, -, k5⟩ := ldp_value srt hn2 ht y e hp kind hk
    exact ⟨lo', hi', fun θ hθ => by rw [k5 θ hθ, k1.unique g1, k2.unique g2]⟩
  obtain ⟨lo0, hi0, hv0⟩ := hval y0
  obtain ⟨lo1, hi1, hv1⟩ := hval y1
  rw [hv0 _ hl] at hf
  rw [hv1 _ hl'] at hf'
  have hb := postVal_bounds (Except.ok.inj hf)
  have hb' := postVal_bounds (Except.ok.inj hf')
  have hs0 : 0 < at0 θ 0 := lt_of_le_of_ne hb.sd_lo (Ne.symm h0)
  have hs0' : 0 < at0 θ' 0 := lt_of_le_of_ne hb'.sd_lo (Ne.symm h0')
  have hpos : ∀ {θ : List ℝ} {sd : ℝ}, npar p kind ≤ θ.length → 0 < at0 θ 0 →
      CarpBounds sd (1 / dmin) (1 / span) (List.ofFn fun k : Fin p => arRootSpec p (at0 θ) k) θ →
      (obsCov (fun d => at0 θ 0 ^ 2 * (responseAcf (fun k : Fin p => arRootSpec p (at0 θ) k) (maPolySpec kind p 0 0 θ) d /
        responseAcf (fun k : Fin p => arRootSpec p (at0 θ) k) (maPolySpec kind p 0 0 θ) 0)) t fun i => √(at0 θ 1) * e i).PosDef := by
    intro θ sd hθ hs hb
    obtain ⟨ad, -, ma, l1, l2, l3, -, -⟩ := bounds_model (by omega) hz hk hθ hb
    have hA : ∀ d, carmaAcf 1 (fun k : Fin p => arRootSpec p (at0 θ) k) ma d =
        responseAcf (fun k : Fin p => arRootSpec p (at0 θ) k) (maPolySpec kind p 0 0 θ) d := fun d => impulse_response l3 d
    simp only [← hA]
    have hR := carmaAcf_pos ad one_pos l1.le (head_ne l2)
    have hg := (carma_good ad (σ2 := at0 θ 0 ^ 2 / carmaAcf 1 (fun k : Fin p => arRootSpec p (at0 θ) k) ma 0) (by positivity) l1.le
      (head_ne l2)).pos ht fun i => √(at0 θ 1) * e i
    have e1 : carmaAcf (at0 θ 0 ^ 2 / carmaAcf 1 (fun k : Fin p => arRootSpec p (at0 θ) k) ma 0) (fun k : Fin p => arRootSpec p (at0 θ) k) ma =
        fun d => at0 θ 0 ^ 2 * (carmaAcf 1 (fun k : Fin p => arRootSpec p (at0 θ) k) ma d /
          carmaAcf 1 (fun k : Fin p => arRootSpec p (at0 θ) k) ma 0) := by
      funext d; rw [carmaAcf_scale]; ring
    rwa [e1] at hg
  obtain ⟨hK, hm⟩ := gauss_ident hn (hpos hl hs0 hb) (hpos hl' hs0' hb') (obsCov_symm _ _ _) (obsCov_symm _ _ _)
    (μ := at0 θ 2) (ν := at0 θ' 2) (a := logPriorSpec θ + c) (b := logPriorSpec θ') (v := (at0 θ 0 + at0 θ' 0) ^ 2) (by
      intro y hy
      have hsd : at0 θ 0 + at0 θ' 0 ≤ 10 * √(sampleVar y) := by
        have h1 := Real.sqrt_le_sqrt hy
        rw [Real.sqrt_sq (by linarith)] at h1
        linarith [Real.sqrt_nonneg (sampleVar y)]
      obtain ⟨lo, hi, hv⟩ := hval y
      have := h y _ _ ((hv θ hl).trans (congrArg _ (postVal_fin hz
          ⟨⟨hb.sd_lo, by linarith, hb.err_lo, hb.err_hi⟩, hb.cent, hb.width, hb.sep, hb.order⟩ h0)))
        ((hv θ' hl').trans (congrArg _ (postVal_fin hz
          ⟨⟨hb'.sd_lo, by linarith, hb'.err_lo, hb'.err_hi⟩, hb'.cent, hb'.width, hb'.sep, hb'.order⟩ h0')))
      linarith)
  exact carma_ident (by omega) hz hk hl hl' hb hb' hs0 hs0' he hΔ hlag hny hny' hcop hm hK

/-- times 0, 1, 2, 3, 4 and a CARMA(2,1) model with autoregressive roots `-2 ± 2i` and moving-average root `-√8` -/
example (srt : List ℝ → List ℕ) : StrictMono (fun i : Fin 5 => (i : ℝ)) ∧ HasLags (fun i : Fin 5 => (i : ℝ)) 1 (2 * 2) ∧
    npar 2 (.carma 1) ≤ (wave 1 1 0 2 2).length ∧ at0 (wave 1 1 0 2 2) 0 ≠ 0 ∧ BelowNyquist 1 (factorPoly (at0 (wave 1 1 0 2 2)) 3 2) ∧
    IsCoprime (factorPoly (at0 (wave 1 1 0 2 2)) 3 2) (movingPoly 2 (.carma 1) (wave 1 1 0 2 2)) ∧
    ∃ y v, ldp (.carma 1) 2 srt (fun i : Fin 5 => (i : ℝ)) y (fun _ => 1) (wave 1 1 0 2 2) = .ok (.fin v) := by
  have hpi := Real.pi_gt_three
  have hpi' := Real.pi_lt_four
  have ht : StrictMono fun i : Fin 5 => (i : ℝ) := fun i j hij => by
    show ((i : ℕ) : ℝ) < ((j : ℕ) : ℝ)
    exact_mod_cast hij
  have e3 : Real.exp (Real.log (2 ^ 2 + 2 ^ 2)) = 8 := by rw [Real.exp_log (by norm_num)]; norm_num
  have e4 : Real.exp (Real.log (2 * 2)) = 4 := by rw [Real.exp_log (by norm_num)]; norm_num
  have e5 : Real.exp (Real.log √(2 ^ 2 + 2 ^ 2)) = √8 := by rw [Real.exp_log (Real.sqrt_pos.mpr (by norm_num))]; norm_num
  have h8 : √8 ^ 2 = 8 := Real.sq_sqrt (by norm_num)
  have hF : factorPoly (at0 (wave 1 1 0 2 2)) 3 2 = Polynomial.X ^ 2 + Polynomial.C 4 * Polynomial.X + Polynomial.C 8 := by
    simp [factorPoly, quadFactor, at0, wave, e3, e4]
  have hM : movingPoly 2 (.carma 1) (wave 1 1 0 2 2) = Polynomial.X + Polynomial.C √8 := by
    simp [movingPoly, factorPoly, at0, wave, e5]
  refine ⟨ht, ?_, by simp [npar, wave], by simp [at0, wave], ?_, ?_, ?_⟩
  · intro j h1 h2
    exact ⟨0, ⟨j, by omega⟩, by simp⟩
  · intro z hz
    rw [hF] at hz
    simp at hz
    have hi := congrArg Complex.im hz
    have hr := congrArg Complex.re hz
    simp [pow_two] at hi hr
    have h1 : z.im * (z.re + 2) = 0 := by linarith
    rcases mul_eq_zero.mp h1 with h | h
    · rw [h]; simp; linarith
    · have h2 : z.re = -2 := by linarith
      rw [h2] at hr
      have h3 : z.im ^ 2 = 2 ^ 2 := by linarith
      rw [mul_one, (sq_eq_sq_iff_abs_eq_abs _ _).mp h3]
      norm_num
      linarith
  · rw [hF, hM]
    have hne : 16 - 4 * √8 ≠ 0 := by
      intro h
      have : √8 = 4 := by linarith
      rw [this] at h8
      norm_num at h8
    refine ⟨Polynomial.C (16 - 4 * √8)⁻¹, -(Polynomial.C (16 - 4 * √8)⁻¹ * (Polynomial.X + Polynomial.C (4 - √8))), ?_⟩
    have e : (Polynomial.X ^ 2 + Polynomial.C 4 * Polynomial.X + Polynomial.C 8 : Polynomial ℝ) -
        (Polynomial.X + Polynomial.C (4 - √8)) * (Polynomial.X + Polynomial.C √8) = Polynomial.C (16 - 4 * √8) := by
      have : Polynomial.C (16 - 4 * √8) = Polynomial.C (8 - (4 - √8) * √8) := by congr 1; linear_combination -h8
      rw [this]
      simp only [Polynomial.C_sub, Polynomial.C_mul]
      ring
    have e2 : Polynomial.C (16 - 4 * √8)⁻¹ * Polynomial.C (16 - 4 * √8) = 1 := by rw [← Polynomial.C_mul, inv_mul_cancel₀ hne, Polynomial.C_1]
    rw [← e2, ← e]
    ring
  · have hgap : IsMinGap (fun i : Fin 5 => (i : ℝ)) 1 := by
      refine ⟨⟨0, 1, by simp, by simp⟩, ?_⟩
      rintro x ⟨i, j, hij, rfl⟩
      have : ((i : ℕ) : ℝ) + 1 ≤ ((j : ℕ) : ℝ) := by exact_mod_cast hij
      show (1 : ℝ) ≤ (j : ℝ) - (i : ℝ)
      linarith
    have hspan : IsSpan (fun i : Fin 5 => (i : ℝ)) 4 := by
      refine ⟨⟨0, 4, by norm_num⟩, ?_⟩
      rintro x ⟨i, j, rfl⟩
      have h1 : ((j : ℕ) : ℝ) ≤ 4 := by exact_mod_cast (by have := j.2; omega : (j : ℕ) ≤ 4)
      have h2 : (0 : ℝ) ≤ ((i : ℕ) : ℝ) := Nat.cast_nonneg _
      show (j : ℝ) - (i : ℝ) ≤ 4
      linarith
    obtain ⟨dmin, span, lo, hi, g1, g2, -, -, g5⟩ := ldp_value srt (by norm_num) ht ![1, 2, 4, 1, 2] (fun _ => 1) (p := 2) le_rfl (.carma 1)
      (show 1 < 2 by norm_num)
    cases g1.unique hgap
    cases g2.unique hspan
    have hv : 1 ≤ √(sampleVar ![1, 2, 4, 1, 2]) := by
      rw [Real.one_le_sqrt, sampleVar]
      simp [Fin.sum_univ_five]
      norm_num
    exact ⟨_, _, (g5 _ (by simp [npar, wave])).trans (congrArg _ (postVal_fin (by simp) (wave_bounds (by norm_num) (by norm_num) (by norm_num)
      (by linarith) (by norm_num) (by norm_num) (by rw [lt_div_iff₀ (by positivity)]; linarith) (by rw [div_lt_iff₀ (by positivity)]; linarith)
      (by rw [div_lt_iff₀ (by positivity)]; linarith) (by norm_num)) (by simp [at0, wave])))⟩

/-- **C86, cancelling roots.** The condition on common roots is needed, for all times: two CARMA(2,1) parameter vectors with autoregressive
roots `-a` and `-r`, moving-average root `-r`, and different `r`, have the same finite log-posterior for all measurements and all
measurement errors. The prior excludes close pairs of autoregressive roots but does not compare them with those of the moving average. -/
theorem C86_carma_cancel_negation (srt : List ℝ → List ℕ) (hn : 2 ≤ n) {t : Fin n → ℝ} (ht : StrictMono t) {dmin span : ℝ} (hmin : IsMinGap t dmin)
    (hspan : IsSpan t span) (y e : Fin n → ℝ) {σ s μ a r r' : ℝ} (h0 : 0 < σ) (h1 : σ ≤ 10 * √(sampleVar y)) (h2 : 0.5 ≤ s) (h3 : s ≤ 2)
    (ha : 2 * Real.pi / span < a ∧ a < 2 * Real.pi / dmin) (hr : 2 * Real.pi / span < r ∧ r < 2 * Real.pi / dmin)
    (hr' : 2 * Real.pi / span < r' ∧ r' < 2 * Real.pi / dmin) (hd : 1e-4 * (a + r) < |a - r|) (hd' : 1e-4 * (a + r') < |a - r'|) (hne : r ≠ r') :
    ¬ SameModel 2 (.carma 1) (cancelling σ s μ a r) (cancelling σ s μ a r') ∧
      ∃ v, ldp (.carma 1) 2 srt t y e (cancelling σ s μ a r) = .ok (.fin v) ∧ ldp (.carma 1) 2 srt t y e (cancelling σ s μ a r') = .ok (.fin v) := by
  obtain ⟨dmin, span, lo, hi, g1, g2, g3, g4, g5⟩ := ldp_value srt hn ht y e (p := 2) le_rfl (.carma 1) (show 1 < 2 by norm_num)
  cases g1.unique hmin
  cases g2.unique hspan
  have hpi := Real.pi_pos
  have hlow : 0 < 2 * Real.pi / span := by positivity
  have hfmin : ∀ x, 2 * Real.pi / span < x → 1 / span < x / (2 * Real.pi) := by
    intro x hx
    rw [div_lt_iff₀ g4] at hx
    rw [div_lt_div_iff₀ g4 (by positivity)]
    linarith
  have hfmax : ∀ x, x < 2 * Real.pi / dmin → x / (2 * Real.pi) < 1 / dmin := by
    intro x hx
    rw [lt_div_iff₀ g3] at hx
    rw [div_lt_div_iff₀ (by positivity) g3]
    linarith
  have ha0 : 0 < a := hlow.trans ha.1
  have hval : ∀ x, 2 * Real.pi / span < x → x < 2 * Real.pi / dmin → 1e-4 * (a + x) < |a - x| →
      ldp (.carma 1) 2 srt t y e (cancelling σ s μ a x) =
        .ok (.fin (logGauss (obsCov (fun d => σ ^ 2 * Real.exp (-a * d)) t fun i => √s * e i) (fun i => y i - μ) +
          logPriorSpec (cancelling σ s μ a r))) := by
    intro x x1 x2 x3
    have hx := hlow.trans x1
    have hax : a ≠ x := by
      rintro rfl
      rw [sub_self, abs_zero] at x3
      linarith [show (0 : ℝ) ≤ 1e-4 * (a + a) by positivity]
    refine (g5 _ (by simp [cancelling, npar])).trans (congrArg _ ((postVal_fin (by simp) (cancel_bounds ha0 hx h0.le h1 h2 h3 (hfmin _ ha.1)
      (hfmax _ ha.2) (hfmin _ x1) (hfmax _ x2) x3) h0.ne').trans ?_))
    simp only [cancel_corr ha0 hx hax]
    rfl
  refine ⟨fun hs => ?_, _, hval r hr.1 hr.2 hd, hval r' hr'.1 hr'.2 hd'⟩
  have hm := congrArg (fun P : Polynomial ℝ => P.coeff 0) hs.ma
  have hx := hlow.trans hr.1
  have hx' := hlow.trans hr'.1
  simp [factorPoly, at0, cancelling, Real.exp_log hx, Real.exp_log hx'] at hm
  exact hne hm.symm

/-- times 0, 1, 2, root 5, and cancelling roots 4 and 6 -/
example : (0 : ℝ) < 1 ∧ (1 : ℝ) ≤ 10 * √(sampleVar ![1, 2, 4]) ∧ (2 * Real.pi / 2 < 5 ∧ 5 < 2 * Real.pi / 1) ∧
    (2 * Real.pi / 2 < 4 ∧ 4 < 2 * Real.pi / 1) ∧ (2 * Real.pi / 2 < 6 ∧ 6 < 2 * Real.pi / 1) ∧
    1e-4 * ((5 : ℝ) + 4) < |5 - 4| ∧ 1e-4 * ((5 : ℝ) + 6) < |5 - 6| := by
  have h1 := Real.pi_gt_three
  have h2 := Real.pi_lt_four
  have hv : 1 ≤ √(sampleVar ![1, 2, 4]) := by
    rw [Real.one_le_sqrt, sampleVar]
    simp [Fin.sum_univ_three]
    norm_num
  refine ⟨by norm_num, by linarith, ⟨by linarith, by linarith⟩, ⟨by linarith, by linarith⟩, ⟨by linarith, by linarith⟩, ?_, ?_⟩
  · rw [abs_of_pos (by norm_num)]; norm_num
  · rw [abs_of_neg (by norm_num)]; norm_num

end Verif.Props
