import Verif.Theory.ErrFreeMass

/-!
CARMA models: the correlation matrices are bounded below uniformly in the moving-average polynomial, hence the density has infinite mass for
all measurement errors.
-/

namespace Verif.Theory

open Matrix Verif.Model Verif.Spec MeasureTheory
open scoped ENNReal

variable {n p q m : ℕ} {t y e : Fin n → ℝ} {c T sd fmax fmin lo hi : ℝ}

theorem maEval_ofFn (b : Fin p → ℝ) (z : ℂ) : maEval (List.ofFn b) z = ∑ i, (b i : ℂ) * z ^ (i : ℕ) := by
  unfold maEval
  rw [List.length_ofFn, Finset.sum_range]
  exact Finset.sum_congr rfl fun i _ => by simp

theorem impC_smul (ω : Fin p → ℂ) (a : ℝ) (b : Fin p → ℝ) (k : Fin p) : impC ω (List.ofFn (a • b)) k = (a : ℂ) * impC ω (List.ofFn b) k := by
  unfold impC
  rw [maEval_ofFn, maEval_ofFn, mul_div_assoc', Finset.mul_sum]
  congr 1
  exact Finset.sum_congr rfl fun i _ => by simp [mul_assoc]

theorem acf_smul {ω : Fin p → ℂ} (h : Admissible ω) (a : ℝ) (b : Fin p → ℝ) (d : ℝ) :
    carmaAcf 1 ω (List.ofFn (a • b)) d = a ^ 2 * carmaAcf 1 ω (List.ofFn b) d := by
  rw [carmaAcf_sum h, carmaAcf_sum h]
  have e1 : (∑ i, ∑ j, impC ω (List.ofFn (a • b)) i * star (impC ω (List.ofFn (a • b)) j) * Complex.exp (ω i * d) * (-1 / (ω i + star (ω j)))) =
      ((a ^ 2 : ℝ) : ℂ) * ∑ i, ∑ j, impC ω (List.ofFn b) i * star (impC ω (List.ofFn b) j) * Complex.exp (ω i * d) * (-1 / (ω i + star (ω j))) := by
    rw [Finset.mul_sum]
    refine Finset.sum_congr rfl fun i _ => ?_
    rw [Finset.mul_sum]
    refine Finset.sum_congr rfl fun j _ => ?_
    rw [impC_smul, impC_smul, star_mul', show star (a : ℂ) = (a : ℂ) from Complex.conj_ofReal a]
    push_cast
    ring
  rw [e1, Complex.re_ofReal_mul]

theorem acf_continuousOn_ma {w W δ : ℝ} (hw : 0 < w) (hδ : 0 < δ) (d : ℝ) :
    ContinuousOn (fun z : (Fin p → ℂ) × (Fin p → ℝ) => carmaAcf 1 z.1 (List.ofFn z.2) d) (rootSet p w W δ ×ˢ Metric.sphere 0 1) := by
  have h1 : ∀ k : Fin p, Continuous fun z : (Fin p → ℂ) × (Fin p → ℝ) => z.1 k := fun k => (continuous_apply k).comp continuous_fst
  have h2 : ∀ k : Fin p, Continuous fun z : (Fin p → ℂ) × (Fin p → ℝ) => (z.2 k : ℂ) := fun k =>
    Complex.continuous_ofReal.comp ((continuous_apply k).comp continuous_snd)
  have hC : ∀ k, ContinuousOn (fun z : (Fin p → ℂ) × (Fin p → ℝ) => impC z.1 (List.ofFn z.2) k) (rootSet p w W δ ×ˢ Metric.sphere 0 1) := by
    intro k
    unfold impC
    refine ContinuousOn.div ?_ ?_ fun z hz => arDeriv_ne_zero (rootSet_admissible hw hδ hz.1).inj k
    · simp only [maEval_ofFn]
      exact (continuous_finsetSum _ fun i _ => (h2 i).mul ((h1 k).pow i)).continuousOn
    · unfold arDeriv
      exact (continuous_finsetProd _ fun l _ => (h1 k).sub (h1 l)).continuousOn
  refine ContinuousOn.congr (f := fun z : (Fin p → ℂ) × (Fin p → ℝ) =>
    (∑ i, ∑ j, impC z.1 (List.ofFn z.2) i * star (impC z.1 (List.ofFn z.2) j) * Complex.exp (z.1 i * d) * (-1 / (z.1 i + star (z.1 j)))).re) ?_
      fun z hz => carmaAcf_sum (rootSet_admissible hw hδ hz.1) _ d
  refine Complex.continuous_re.comp_continuousOn (continuousOn_finsetSum _ fun i _ => continuousOn_finsetSum _ fun j _ => ?_)
  refine ContinuousOn.mul (ContinuousOn.mul (ContinuousOn.mul (hC i) (continuous_star.comp_continuousOn (hC j))) ?_) ?_
  · exact (Complex.continuous_exp.comp ((h1 i).mul continuous_const)).continuousOn
  · exact ContinuousOn.div continuousOn_const ((h1 i).add (continuous_star.comp (h1 j))).continuousOn fun z hz =>
      pair_ne_zero (rootSet_admissible hw hδ hz.1).stable i j

/-- The least eigenvalue of the correlation matrix is bounded below, uniformly in the roots and in the moving-average polynomial. -/
theorem ma_strong (ht : StrictMono t) {w W δ : ℝ} (hw : 0 < w) (hδ : 0 < δ) : ∃ c : ℝ, 0 < c ∧ ∀ ω ∈ rootSet p w W δ, ∀ ma : List ℝ,
    ma.length = p → (∃ x ∈ ma, x ≠ 0) → StrongCorr c (fun d => carmaAcf 1 ω ma d / carmaAcf 1 ω ma 0) t := by
  have hpos : ∀ ω ∈ rootSet p w W δ, ∀ b : Fin p → ℝ, b ≠ 0 → 0 < carmaAcf 1 ω (List.ofFn b) 0 := by
    intro ω hω b hb
    obtain ⟨i, hi⟩ := Function.ne_iff.mp hb
    exact carmaAcf_pos (rootSet_admissible hw hδ hω) one_pos (by simp) ⟨b i, List.mem_ofFn.mpr ⟨i, rfl⟩, hi⟩
  have hs0 : ∀ b : Fin p → ℝ, b ∈ Metric.sphere (0 : Fin p → ℝ) 1 → b ≠ 0 := by
    rintro b hb rfl
    simp at hb
  obtain ⟨c, h0, h⟩ := uniform_posDef (n := n) ((rootSet_compact p w W δ).prod (isCompact_sphere (0 : Fin p → ℝ) 1))
    (f := fun z => obsCov (fun d => carmaAcf 1 z.1 (List.ofFn z.2) d / carmaAcf 1 z.1 (List.ofFn z.2) 0) t 0)
    (fun i j => by
      simp only [obsCov]
      exact ((acf_continuousOn_ma hw hδ _).div (acf_continuousOn_ma hw hδ _) fun z hz => (hpos z.1 hz.1 z.2 (hs0 _ hz.2)).ne').add continuousOn_const)
    fun z hz => by
      have ha := rootSet_admissible hw hδ hz.1
      obtain ⟨i, hi⟩ := Function.ne_iff.mp (hs0 _ hz.2)
      have h := (carma_realizes ha one_pos (obsRow_ne_zero ha.inj (β := List.ofFn z.2) (by simp) ⟨z.2 i, List.mem_ofFn.mpr ⟨i, rfl⟩, hi⟩) (ext0 t) (ext0 (0 : Fin n → ℝ)) n
        (fun i hi => ⟨(strictMono_ext0 ht i hi).le, Or.inl (strictMono_ext0 ht i hi)⟩)).posDef
      rw [fst_ext0, fst_ext0] at h
      have hp' := hpos z.1 hz.1 z.2 (hs0 _ hz.2)
      have e2 : (fun d => carmaAcf 1 z.1 (List.ofFn z.2) d / carmaAcf 1 z.1 (List.ofFn z.2) 0) =
          fun d => (carmaAcf 1 z.1 (List.ofFn z.2) 0)⁻¹ * carmaAcf 1 z.1 (List.ofFn z.2) d := by
        funext d; rw [div_eq_inv_mul]
      rw [e2, obsCov_smul]
      exact h.smul (inv_pos.mpr hp')
  refine ⟨c, h0, fun ω hω ma hl hne => ?_⟩
  obtain ⟨b, rfl⟩ : ∃ b : Fin p → ℝ, ma = List.ofFn b := by
    subst hl
    exact ⟨ma.get, (List.ofFn_get ma).symm⟩
  have hb : b ≠ 0 := by
    obtain ⟨x, hx, hx0⟩ := hne
    obtain ⟨i, rfl⟩ := List.mem_ofFn.mp hx
    exact fun h => hx0 (congrFun h i)
  have hnorm : ‖b‖ ≠ 0 := norm_ne_zero_iff.mpr hb
  have hmem : ‖b‖⁻¹ • b ∈ Metric.sphere (0 : Fin p → ℝ) 1 := by
    rw [mem_sphere_zero_iff_norm, norm_smul, norm_inv, norm_norm, inv_mul_cancel₀ hnorm]
  have ha := rootSet_admissible hw hδ hω
  have hm := h (ω, ‖b‖⁻¹ • b) ⟨hω, hmem⟩
  have e1 : (fun d => carmaAcf 1 ω (List.ofFn (‖b‖⁻¹ • b)) d / carmaAcf 1 ω (List.ofFn (‖b‖⁻¹ • b)) 0) =
      fun d => carmaAcf 1 ω (List.ofFn b) d / carmaAcf 1 ω (List.ofFn b) 0 := by
    funext d
    rw [acf_smul ha, acf_smul ha, mul_div_mul_left _ _ (by positivity)]
  dsimp only at hm
  rw [e1] at hm
  exact ⟨hm, div_self (hpos ω hω b hb).ne'⟩

/-- The likelihood is bounded below, uniformly in the correlation function. -/
theorem le_post_strong (hc : 0 < c) (y : Fin n → ℝ) {σ : ℝ} (hσ : 0 < σ) (μ : ℝ) {s : ℝ} (hs : 0 < s) : ∃ B : ℝ, ∀ ρ : ℝ → ℝ, StrongCorr c ρ t →
    B ≤ logGauss (obsCov (fun d => σ ^ 2 * ρ d) t fun i => √s * e i) (fun i => y i - μ) := by
  refine ⟨-(1 / 2) * Real.log ((n : ℝ) ^ n * ∏ i, (σ ^ 2 + s * e i ^ 2)) - 1 / 2 * ∑ i, (y i - μ) ^ 2 / (σ ^ 2 * c + s * e i ^ 2), fun ρ hρ => ?_⟩
  have hK : (σ ^ 2 • obsCov ρ t 0 + diagonal fun i => s * e i ^ 2).PosDef := posDef_smul_add hσ (hρ.pd hc) fun i => by positivity
  have hdet := det_le_prod hK
  simp only [cov_diag hρ.one] at hdet
  have hlog := Real.log_le_log hK.det_pos hdet
  have hquad : (fun i => y i - μ) ⬝ᵥ ((σ ^ 2 • obsCov ρ t 0 + diagonal fun i => s * e i ^ 2)⁻¹ *ᵥ fun i => y i - μ) ≤
      ∑ i, (y i - μ) ^ 2 / (σ ^ 2 * c + s * e i ^ 2) := by
    rw [strong_split (c := c)]
    exact quad_upper_diag (hρ.psd.smul (sq_nonneg σ)) (fun k => by positivity) _
  rw [post_cov ρ σ hs.le, logGauss]
  linarith

/-- Within the prior the correlation functions of all models but ZCARMA are bounded below by a common constant. -/
theorem bounds_strong (hp : 0 < p) (ht : StrictMono t) (hf : 0 < fmin) (sd fmax lo hi : ℝ) : ∃ c : ℝ, 0 < c ∧ ∀ {kind : Kind}, kind ≠ .zcarma → OrderOk p kind →
    ∀ {θ : List ℝ}, npar p kind ≤ θ.length → CarpBounds sd fmax fmin (List.ofFn fun k : Fin p => arRootSpec p (at0 θ) k) θ →
      StrongCorr c (fun d => responseAcf (fun k : Fin p => arRootSpec p (at0 θ) k) (maPolySpec kind p lo hi θ) d /
        responseAcf (fun k : Fin p => arRootSpec p (at0 θ) k) (maPolySpec kind p lo hi θ) 0) t := by
  obtain ⟨c, h0, h⟩ := ma_strong (p := p) ht (w := 2 * Real.pi * fmin) (W := 2 * Real.pi * fmax) (δ := 1e-4 * (2 * (2 * Real.pi * fmin)))
    (by have := Real.pi_pos; positivity) (by have := Real.pi_pos; positivity)
  refine ⟨c, h0, fun {kind} hz hk {θ} hθ hb => ?_⟩
  have hl3 := npar_ge (p := p) kind
  obtain ⟨ma, h1, h2, h3⟩ := kind_ma hp hz hk lo hi hθ
  have := h _ (bounds_rootSet hf (by omega) hb) ma h1 (head_ne h2)
  have e : carmaAcf 1 (fun k : Fin p => arRootSpec p (at0 θ) k) ma = responseAcf (fun k : Fin p => arRootSpec p (at0 θ) k) (maPolySpec kind p lo hi θ) :=
    funext fun d => impulse_response h3 d
  rwa [e] at this

theorem carma_unbounded_any (hp : 0 < p) (ht : StrictMono t) (hf : 0 < fmin) (hT : 0 < T) (hq : 0 < q) (hqp : q < p) (hm : m = p + q + 3)
    (h0 : mass (carmaTarget (m := m) (.carma q) p t y e sd fmax fmin lo hi) T ≠ 0) :
    mass (carmaTarget (m := m) (.carma q) p t y e sd fmax fmin lo hi) T = ∞ := by
  classical
  by_cases he : ∀ i, e i ≠ 0
  · exact carma_unbounded hp ht he hT hq hqp hm h0
  obtain ⟨m', rfl⟩ : ∃ m', m = m' + 1 := ⟨m - 1, by omega⟩
  obtain ⟨c, hc, hstrong⟩ := bounds_strong hp ht hf sd fmax lo hi
  refine mass_top (carma_meas _ _ _ _ _ _ _ _ _ _) hT ?_ h0
  intro x ⟨a0, ha0⟩
  have hz : (Kind.carma q) ≠ .zcarma := by simp
  unfold carmaTarget at ha0
  dsimp only at ha0
  split at ha0
  case isFalse => exact absurd rfl ha0
  case isTrue hb =>
    obtain ⟨hb, hb2⟩ := hb
    have hs : 0 < x ⟨1, by omega⟩ := by
      have := hb.err_lo
      rw [at0_snoc x a0 (show 1 < m' by omega)] at this
      linarith
    have hσ0 := hb2.resolve_right he
    have hσ1 := hb.sd_lo
    have hσ : 0 < x ⟨0, by omega⟩ := by
      rw [at0_snoc x a0 (show 0 < m' by omega)] at hσ0 hσ1
      exact lt_of_le_of_ne hσ1 (Ne.symm hσ0)
    obtain ⟨B, hB⟩ := le_post_strong (t := t) (e := e) hc y hσ (x ⟨2, by omega⟩) hs
    refine ⟨B + (-25 / x ⟨1, by omega⟩ - 26 * Real.log (x ⟨1, by omega⟩)), fun a => ?_⟩
    have hroots : (fun k : Fin p => arRootSpec p (at0 (List.ofFn (Fin.snoc (α := fun _ => ℝ) x a))) k) =
        fun k : Fin p => arRootSpec p (at0 (List.ofFn (Fin.snoc (α := fun _ => ℝ) x a0))) k := by
      funext k
      refine arRootSpec_congr (fun j hj => ?_) k.2
      rw [at0_snoc x a (show j < m' by omega), at0_snoc x a0 (show j < m' by omega)]
    have e0 : ∀ k, k < m' → at0 (List.ofFn (Fin.snoc (α := fun _ => ℝ) x a)) k = at0 (List.ofFn (Fin.snoc (α := fun _ => ℝ) x a0)) k := by
      intro k hk
      rw [at0_snoc x a hk, at0_snoc x a0 hk]
    have hb' : CarpBounds sd fmax fmin (List.ofFn fun k : Fin p => arRootSpec p (at0 (List.ofFn (Fin.snoc (α := fun _ => ℝ) x a))) k)
        (List.ofFn (Fin.snoc (α := fun _ => ℝ) x a)) := by
      rw [hroots]
      refine ⟨⟨?_, ?_, ?_, ?_⟩, hb.cent, hb.width, hb.sep, hb.order⟩
      · rw [e0 0 (by omega)]; exact hb.sd_lo
      · rw [e0 0 (by omega)]; exact hb.sd_hi
      · rw [e0 1 (by omega)]; exact hb.err_lo
      · rw [e0 1 (by omega)]; exact hb.err_hi
    have hcorr := hstrong hz hqp (by simp [npar, hm]) hb'
    have hG : ∃ l, carmaTarget (.carma q) p t y e sd fmax fmin lo hi (Fin.snoc (α := fun _ => ℝ) x a) = some l ∧
        l = logGauss (obsCov (fun d => at0 (List.ofFn (Fin.snoc (α := fun _ => ℝ) x a)) 0 ^ 2 *
          (responseAcf (fun k : Fin p => arRootSpec p (at0 (List.ofFn (Fin.snoc (α := fun _ => ℝ) x a))) k)
            (maPolySpec (.carma q) p lo hi (List.ofFn (Fin.snoc (α := fun _ => ℝ) x a))) d /
          responseAcf (fun k : Fin p => arRootSpec p (at0 (List.ofFn (Fin.snoc (α := fun _ => ℝ) x a))) k)
            (maPolySpec (.carma q) p lo hi (List.ofFn (Fin.snoc (α := fun _ => ℝ) x a))) 0)) t
          fun i => √(at0 (List.ofFn (Fin.snoc (α := fun _ => ℝ) x a)) 1) * e i) (fun i => y i - at0 (List.ofFn (Fin.snoc (α := fun _ => ℝ) x a)) 2) +
          (logPriorSpec (List.ofFn (Fin.snoc (α := fun _ => ℝ) x a)) + logitPrior (.carma q) p (List.ofFn (Fin.snoc (α := fun _ => ℝ) x a))) :=
      ⟨_, if_pos ⟨hb', Or.inl (by rw [e0 0 (by omega)]; exact hσ0)⟩, rfl⟩
    obtain ⟨l, hl, e1⟩ := hG
    refine ⟨l, hl, ?_⟩
    · rw [e1, logit_zero hz, add_zero, logPriorSpec, at0_snoc x a (show 0 < m' by omega), at0_snoc x a (show 1 < m' by omega),
        at0_snoc x a (show 2 < m' by omega)]
      have := hB _ hcorr
      linarith

end Verif.Theory
