import Verif.Spec.Density
import Verif.Theory.SimLaw
import Mathlib.MeasureTheory.Measure.Lebesgue.Basic
import Mathlib.MeasureTheory.Constructions.Pi
import Mathlib.MeasureTheory.Measure.WithDensity

/-! Helper theory for C82: densities of Gaussian laws. -/

namespace Verif.Theory

open Verif.Spec MeasureTheory ProbabilityTheory Matrix ENNReal
open scoped MatrixOrder

lemma map_withDensity_equiv {α β : Type} [MeasurableSpace α] [MeasurableSpace β] (μ : Measure α) (f : α ≃ᵐ β) {g : α → ℝ≥0∞} (hg : Measurable g) :
    (μ.withDensity g).map f = (μ.map f).withDensity (g ∘ f.symm) := by
  ext s hs
  rw [Measure.map_apply f.measurable hs, withDensity_apply _ (f.measurable hs), withDensity_apply _ hs,
    setLIntegral_map hs (hg.comp f.symm.measurable) f.measurable]
  simp

lemma pi_withDensity_real {ν : Measure ℝ} [SigmaFinite ν] {g : ℝ → ℝ≥0∞} (hg : Measurable g) (hf : SigmaFinite (ν.withDensity g)) :
    ∀ d : ℕ, Measure.pi (fun _ : Fin d => ν.withDensity g) = (Measure.pi fun _ : Fin d => ν).withDensity fun x => ∏ i, g (x i) := by
  intro d
  induction d with
  | zero =>
    rw [Measure.pi_of_empty, Measure.pi_of_empty]
    simp
  | succ d ih =>
    have e1 := (measurePreserving_piFinSuccAbove (fun _ : Fin (d + 1) => ν.withDensity g) 0).symm
    have e2 := (measurePreserving_piFinSuccAbove (fun _ : Fin (d + 1) => ν) 0).symm
    rw [← e1.map_eq, ← e2.map_eq, ih, prod_withDensity hg (by fun_prop), map_withDensity_equiv _ _ (by fun_prop)]
    congr 1
    funext x
    simp [Fin.prod_univ_succ, MeasurableEquiv.piFinSuccAbove, Fin.tail]

lemma std_density (n : ℕ) : Measure.pi (fun _ : Fin n => gaussianReal 0 1)
    = (volume : Measure (Fin n → ℝ)).withDensity fun x => ENNReal.ofReal ((√(2 * Real.pi))⁻¹ ^ n * Real.exp (-(1 / 2) * (x ⬝ᵥ x))) := by
  have h1 : gaussianReal 0 1 = volume.withDensity (gaussianPDF 0 1) := gaussianReal_of_var_ne_zero _ one_ne_zero
  have h2 : SigmaFinite ((volume : Measure ℝ).withDensity (gaussianPDF 0 1)) := by rw [← h1]; infer_instance
  rw [h1, pi_withDensity_real (measurable_gaussianPDF _ _) h2, volume_pi]
  congr 1
  funext x
  simp only [gaussianPDF, gaussianPDFReal]
  rw [← ENNReal.ofReal_prod_of_nonneg fun i _ => by positivity, Finset.prod_mul_distrib, ← Real.exp_sum]
  congr 2
  · simp
  · congr 1
    rw [dotProduct, Finset.mul_sum]
    refine Finset.sum_congr rfl fun i _ => ?_
    simp
    ring

lemma posDef_factor {n : ℕ} {K : Matrix (Fin n) (Fin n) ℝ} (hK : K.PosDef) : ∃ L : Matrix (Fin n) (Fin n) ℝ, L * Lᵀ = K ∧ L.det ≠ 0 := by
  have h1 : CFC.sqrt K * CFC.sqrt K = K := CFC.sqrt_mul_sqrt_self _ hK.posSemidef.nonneg
  have h2 : (CFC.sqrt K)ᵀ = CFC.sqrt K := by
    have := (CFC.sqrt_nonneg K).isSelfAdjoint
    have h3 : (CFC.sqrt K)ᴴ = CFC.sqrt K := this
    rwa [conjTranspose_eq_transpose_of_trivial] at h3
  refine ⟨CFC.sqrt K, by rw [h2, h1], fun h0 => ?_⟩
  have := hK.det_pos
  rw [← h1, det_mul, h0, mul_zero] at this
  exact lt_irrefl _ this

/-- the density of a Gaussian law -/
lemma gauss_density {n : ℕ} {K : Matrix (Fin n) (Fin n) ℝ} (hK : K.PosDef) (μ : Fin n → ℝ) :
    (multivariateGaussian (WithLp.toLp 2 μ) K).map WithLp.ofLp
      = (volume : Measure (Fin n → ℝ)).withDensity fun y => ENNReal.ofReal ((√(2 * Real.pi))⁻¹ ^ n * Real.exp (logGauss K (y - μ))) := by
  obtain ⟨L, hL, hdet⟩ := posDef_factor hK
  have hLu : IsUnit L.det := isUnit_iff_ne_zero.mpr hdet
  have hm : Measurable fun z : EuclideanSpace ℝ (Fin n) => WithLp.toLp 2 (μ + L *ᵥ z.ofLp) := by
    have : Continuous fun z : EuclideanSpace ℝ (Fin n) => WithLp.toLp 2 (μ + L *ᵥ z.ofLp) := by fun_prop
    exact this.measurable
  have mL : Measurable fun x : Fin n → ℝ => L *ᵥ x := by
    have : Continuous fun x : Fin n → ℝ => L *ᵥ x := by fun_prop
    exact this.measurable
  have mLi : Measurable fun x : Fin n → ℝ => L⁻¹ *ᵥ (x - μ) := by
    have : Continuous fun x : Fin n → ℝ => L⁻¹ *ᵥ (x - μ) := by fun_prop
    exact this.measurable
  let f : (Fin n → ℝ) ≃ᵐ (Fin n → ℝ) :=
    { toFun := fun x => μ + L *ᵥ x
      invFun := fun y => L⁻¹ *ᵥ (y - μ)
      left_inv := fun x => by simp [mulVec_mulVec, nonsing_inv_mul _ hLu]
      right_inv := fun y => by simp [mulVec_mulVec, mul_nonsing_inv _ hLu]
      measurable_toFun := mL.const_add μ
      measurable_invFun := mLi }
  have h1 : (multivariateGaussian (WithLp.toLp 2 μ) K).map WithLp.ofLp = (Measure.pi (fun _ : Fin n => gaussianReal 0 1)).map f := by
    rw [← hL, ← affine_law, ← map_pi_eq_stdGaussian, Measure.map_map hm (by fun_prop), Measure.map_map (by fun_prop) (hm.comp (by fun_prop))]
    rfl
  have h2 : (volume : Measure (Fin n → ℝ)).map f = ENNReal.ofReal |L.det⁻¹| • volume := by
    have h3 : (f : (Fin n → ℝ) → Fin n → ℝ) = (fun y => μ + y) ∘ toLin' L := by
      funext x
      simp [f, toLin'_apply]
    rw [h3, ← Measure.map_map (measurable_const_add μ) (LinearMap.continuous_of_finiteDimensional _).measurable,
      Real.map_matrix_volume_pi_eq_smul_volume_pi hdet, Measure.map_smul, map_add_left_eq_self]
  rw [h1, std_density, map_withDensity_equiv _ _ (by fun_prop), h2, withDensity_smul_measure, ← withDensity_smul _ (by fun_prop)]
  congr 1
  funext y
  simp only [Pi.smul_apply, smul_eq_mul, Function.comp_apply]
  rw [← ENNReal.ofReal_mul (abs_nonneg _)]
  congr 1
  have e1 : f.symm y = L⁻¹ *ᵥ (y - μ) := rfl
  have e2 : (L⁻¹ *ᵥ (y - μ)) ⬝ᵥ (L⁻¹ *ᵥ (y - μ)) = (y - μ) ⬝ᵥ (K⁻¹ *ᵥ (y - μ)) := by
    rw [← hL, Matrix.mul_inv_rev, ← mulVec_mulVec, dotProduct_mulVec (y - μ), ← transpose_nonsing_inv, vecMul_transpose]
  have e3 : |L.det⁻¹| = Real.exp (-(1 / 2) * Real.log K.det) := by
    have : K.det = |L.det| ^ 2 := by rw [← hL, det_mul, det_transpose, sq_abs, sq]
    rw [this, Real.log_pow, abs_inv, ← Real.exp_log (abs_pos.mpr hdet), Real.log_exp, ← Real.exp_neg]
    congr 1
    push_cast
    ring
  rw [e1, e2, e3, logGauss, Real.exp_sub, neg_mul (1 / 2) (_ ⬝ᵥ _), Real.exp_neg (1 / 2 * (_ ⬝ᵥ _))]
  ring

lemma dataLaw_eq {n : ℕ} {r : ℝ → ℝ} {t : Fin n → ℝ} (h0 : (obsCov r t 0).PosSemidef) (μ : ℝ) {e : Fin n → ℝ} (hK : (obsCov r t e).PosDef) :
    dataLaw r μ t e = (multivariateGaussian (WithLp.toLp 2 fun _ => μ) (obsCov r t e)).map WithLp.ofLp := by
  have hm : Measurable fun q : EuclideanSpace ℝ (Fin n) × (Fin n → ℝ) => (WithLp.toLp 2 fun i => μ + q.1.ofLp i + q.2 i : EuclideanSpace ℝ (Fin n)) := by
    fun_prop
  have key : ((multivariateGaussian (0 : EuclideanSpace ℝ (Fin n)) (obsCov r t 0)).prod (Measure.pi fun i => gaussianReal 0 (e i ^ 2).toNNReal)).map
      (fun q => (WithLp.toLp 2 fun i => μ + q.1.ofLp i + q.2 i : EuclideanSpace ℝ (Fin n)))
      = multivariateGaussian (WithLp.toLp 2 fun _ => μ) (obsCov r t e) := by
    have : IsProbabilityMeasure (((multivariateGaussian (0 : EuclideanSpace ℝ (Fin n)) (obsCov r t 0)).prod
        (Measure.pi fun i => gaussianReal 0 (e i ^ 2).toNNReal)).map
        (fun q => (WithLp.toLp 2 fun i => μ + q.1.ofLp i + q.2 i : EuclideanSpace ℝ (Fin n)))) := Measure.isProbabilityMeasure_map hm.aemeasurable
    apply Measure.ext_of_charFun
    ext u
    rw [charFun_multivariateGaussian hK.posSemidef, charFun_apply, integral_map hm.aemeasurable (by fun_prop)]
    have hin : ∀ q : EuclideanSpace ℝ (Fin n) × (Fin n → ℝ), (inner ℝ (WithLp.toLp 2 fun i => μ + q.1.ofLp i + q.2 i : EuclideanSpace ℝ (Fin n)) u : ℝ)
        = inner ℝ u (WithLp.toLp 2 fun _ => μ) + inner ℝ q.1 u + inner ℝ (WithLp.toLp 2 q.2) u := by
      intro q
      simp only [EuclideanSpace.inner_eq_star_dotProduct, star_trivial, dotProduct, ← Finset.sum_add_distrib]
      exact Finset.sum_congr rfl fun i _ => by ring
    simp only [hin, Complex.ofReal_add, add_mul, Complex.exp_add, mul_assoc]
    rw [integral_const_mul, integral_prod_mul (μ := multivariateGaussian (0 : EuclideanSpace ℝ (Fin n)) (obsCov r t 0))
      (ν := Measure.pi fun i => gaussianReal 0 (e i ^ 2).toNNReal)
      (fun x => Complex.exp ((inner ℝ x u : ℝ) * Complex.I)) (fun x => Complex.exp ((inner ℝ (WithLp.toLp 2 x) u : ℝ) * Complex.I)),
      ← charFun_apply, charFun_multivariateGaussian h0]
    have h2 : ∫ x, Complex.exp ((inner ℝ (WithLp.toLp 2 x) u : ℝ) * Complex.I) ∂(Measure.pi fun i => gaussianReal 0 (e i ^ 2).toNNReal)
        = Complex.exp (-((∑ i, e i ^ 2 * u i ^ 2 : ℝ) : ℂ) / 2) := by
      rw [← integral_map (φ := WithLp.toLp 2) (f := fun x : EuclideanSpace ℝ (Fin n) => Complex.exp ((inner ℝ x u : ℝ) * Complex.I))
        (by fun_prop) (by fun_prop), ← charFun_apply, charFun_pi]
      simp only [charFun_gaussianReal, ← Complex.exp_sum]
      congr 1
      rw [Complex.ofReal_sum, ← Finset.sum_neg_distrib, Finset.sum_div]
      refine Finset.sum_congr rfl fun i _ => ?_
      rw [Real.coe_toNNReal _ (sq_nonneg _)]
      push_cast
      ring
    rw [h2, ← Complex.exp_add, ← Complex.exp_add]
    congr 1
    have e1 : u.ofLp ⬝ᵥ (obsCov r t e *ᵥ u.ofLp) = u.ofLp ⬝ᵥ (obsCov r t 0 *ᵥ u.ofLp) + ∑ i, e i ^ 2 * u i ^ 2 := by
      have : obsCov r t e = obsCov r t 0 + diagonal fun i => e i ^ 2 := by
        ext i j
        by_cases hij : i = j
        · subst hij; simp [obsCov]
        · simp [obsCov, hij]
      rw [this, add_mulVec, dotProduct_add]
      congr 1
      simp only [dotProduct, mulVec_diagonal]
      exact Finset.sum_congr rfl fun i _ => by ring
    rw [e1, Complex.ofReal_add]
    simp only [inner_zero_right, Complex.ofReal_zero, zero_mul]
    ring
  rw [← key, Measure.map_map (by fun_prop) hm]
  rfl

lemma logGauss_continuous {n : ℕ} (K : Matrix (Fin n) (Fin n) ℝ) (μ : Fin n → ℝ) : Continuous fun y => logGauss K (y - μ) := by
  unfold logGauss
  fun_prop

lemma dataLaw_density {n : ℕ} {r : ℝ → ℝ} (h : GoodAcf r) {t : Fin n → ℝ} (ht : StrictMono t) (μ : ℝ) (e : Fin n → ℝ) :
    ∃ f, IsDensity (dataLaw r μ t e) f ∧ ∀ y, logGauss (obsCov r t e) (fun i => y i - μ) = Real.log (f y) + n / 2 * Real.log (2 * Real.pi) := by
  have hpi : 0 < √(2 * Real.pi) := Real.sqrt_pos.mpr (by positivity)
  refine ⟨fun y => (√(2 * Real.pi))⁻¹ ^ n * Real.exp (logGauss (obsCov r t e) (y - fun _ => μ)), ⟨?_, fun y => by positivity, ?_⟩, fun y => ?_⟩
  · exact continuous_const.mul (Real.continuous_exp.comp (logGauss_continuous _ _))
  · rw [dataLaw_eq (h.pos ht 0).posSemidef μ (h.pos ht e), gauss_density (h.pos ht e)]
  · rw [Real.log_mul (by positivity) (Real.exp_pos _).ne', Real.log_exp, Real.log_pow, Real.log_inv, Real.log_sqrt (by positivity)]
    have : (y - fun _ => μ) = fun i => y i - μ := rfl
    rw [this]
    ring

end Verif.Theory
