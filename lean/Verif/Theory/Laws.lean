import Mathlib.MeasureTheory.Function.JacobianOneDim
import Mathlib.Analysis.SpecialFunctions.JapaneseBracket
import Verif.Spec.Laws

/-!
Change of variables for the generators.
-/

namespace Verif.Theory

open MeasureTheory ProbabilityTheory Verif.Model Verif.Spec
open scoped ENNReal

/-- A draw with density `f₀` on `S`, turned by the map `φ` from `S` onto `T` with inverse `ψ`, has density `|ψ'| f₀ ∘ ψ` on `T`. -/
lemma draws_of {g : Gen} {f₀ : ℝ → ℝ≥0∞} {f : ℝ → ℝ} {c : ℝ≥0∞} {S T : Set ℝ} {φ ψ ψ' : ℝ → ℝ}
    (hlaw : libLaw g.lib = volume.withDensity f₀) (hp : IsProbabilityMeasure (libLaw g.lib))
    (hf₀ : AEMeasurable f₀) (hT : MeasurableSet T) (hS0 : ∀ᵐ x, x ∉ S → f₀ x = 0) (hT0 : ∀ y, y ∉ T → f y = 0)
    (hout : ∀ x ∈ S, g.out x = .ok (φ x)) (h1 : ∀ x ∈ S, φ x ∈ T) (h2 : ∀ y ∈ T, ψ y ∈ S) (h3 : ∀ x ∈ S, ψ (φ x) = x)
    (h4 : ∀ y ∈ T, φ (ψ y) = y) (hd : ∀ y ∈ T, HasDerivAt ψ (ψ' y) y)
    (he : ∀ y ∈ T, ENNReal.ofReal |ψ' y| * f₀ (ψ y) = c * ENNReal.ofReal (f y)) : Draws g f := by
  have key : ∀ A, MeasurableSet A → libLaw g.lib {z | ∃ v ∈ A, g.out z = .ok v} =
      volume.withDensity (fun x => c * ENNReal.ofReal (f x)) A := by
    intro A hA
    have hinj : Set.InjOn ψ (T ∩ A) := fun a ha b hb hab => by rw [← h4 a ha.1, ← h4 b hb.1, hab]
    have hcv := lintegral_image_eq_lintegral_abs_deriv_mul (hT.inter hA) (fun x hx => (hd x hx.1).hasDerivWithinAt) hinj f₀
    have himg : ψ '' (T ∩ A) = {x | x ∈ S ∧ φ x ∈ A} := by
      ext x
      constructor
      · rintro ⟨y, ⟨hy, hyA⟩, rfl⟩
        exact ⟨h2 y hy, by rw [h4 y hy]; exact hyA⟩
      · rintro ⟨hx, hxA⟩
        exact ⟨φ x, ⟨h1 x hx, hxA⟩, h3 x hx⟩
    have e1 : libLaw g.lib {z | ∃ v ∈ A, g.out z = .ok v} = libLaw g.lib {x | x ∈ S ∧ φ x ∈ A} := by
      have hSae : ∀ᵐ x ∂(libLaw g.lib), x ∈ S := by
        rw [hlaw, ae_withDensity_iff' hf₀]
        filter_upwards [hS0] with x hx hne
        by_contra h
        exact hne (hx h)
      refine measure_congr ?_
      filter_upwards [hSae] with x hx
      apply propext
      show (∃ v ∈ A, g.out x = .ok v) ↔ (x ∈ S ∧ φ x ∈ A)
      rw [hout x hx]
      constructor
      · rintro ⟨v, hv, h⟩
        injection h with h
        exact ⟨hx, by rw [h]; exact hv⟩
      · rintro ⟨-, h⟩
        exact ⟨_, h, rfl⟩
    rw [e1, hlaw, withDensity_apply' _ {x | x ∈ S ∧ φ x ∈ A}, withDensity_apply _ hA, ← himg, hcv]
    rw [setLIntegral_congr_fun (hT.inter hA) (g := fun x => c * ENNReal.ofReal (f x)) (fun x hx => he x hx.1)]
    rw [← Measure.restrict_restrict hT, setLIntegral_eq_of_support_subset]
    intro x hx
    by_contra h
    exact hx (by simp [hT0 x h])
  refine ⟨_, c, ⟨?_⟩, rfl, key⟩
  rw [← key _ MeasurableSet.univ]
  have hSae : ∀ᵐ x ∂(libLaw g.lib), x ∈ S := by
    rw [hlaw, ae_withDensity_iff' hf₀]
    filter_upwards [hS0] with x hx hne
    by_contra h
    exact hne (hx h)
  rw [measure_congr (t := Set.univ), measure_univ]
  filter_upwards [hSae] with x hx
  apply propext
  exact ⟨fun _ => trivial, fun _ => ⟨_, trivial, hout x hx⟩⟩

/-- A generator that returns the drawn number. -/
lemma draws_id {g : Gen} {f₀ : ℝ → ℝ≥0∞} {f : ℝ → ℝ} {c : ℝ≥0∞} (hlaw : libLaw g.lib = volume.withDensity f₀)
    (hp : IsProbabilityMeasure (libLaw g.lib)) (hout : ∀ x, g.out x = .ok x)
    (he : ∀ᵐ y, f₀ y = c * ENNReal.ofReal (f y)) : Draws g f := by
  refine ⟨libLaw g.lib, c, hp, ?_, ?_⟩
  · rw [hlaw]
    exact withDensity_congr_ae he
  · intro A _
    congr 1
    ext x
    simp [hout]

lemma ae_ne (a : ℝ) : ∀ᵐ x : ℝ, x ≠ a := by
  simp [ae_iff, measure_singleton]

lemma measurable_gammaPDF' (a r : ℝ) : Measurable (gammaPDF a r) :=
  (measurable_gammaPDFReal a r).ennreal_ofReal

lemma gamma_pos_part (a r : ℝ) : ∀ᵐ x : ℝ, x ∉ Set.Ioi (0 : ℝ) → gammaPDF a r x = 0 := by
  filter_upwards [ae_ne 0] with x hx h
  have : x < 0 := lt_of_le_of_ne (not_lt.mp h) hx
  exact gammaPDF_of_neg this

lemma normal_law {m s : ℝ} (hs : s ≠ 0) :
    libLaw (.normal m s) = volume.withDensity (gaussianPDF m (s ^ 2).toNNReal) := by
  have : (s ^ 2).toNNReal ≠ 0 := by
    simpa using hs
  exact gaussianReal_of_var_ne_zero m this

lemma gaussian_shape {m s x : ℝ} : gaussianPDF m (s ^ 2).toNNReal x =
    ENNReal.ofReal (√(2 * Real.pi * s ^ 2))⁻¹ * ENNReal.ofReal (Real.exp (-(x - m) ^ 2 / (2 * s ^ 2))) := by
  rw [gaussianPDF, gaussianPDFReal, Real.coe_toNNReal _ (by positivity), ENNReal.ofReal_mul (by positivity)]

lemma uniform_law (a b : ℝ) : libLaw (.uniform a b) =
    volume.withDensity fun x => (ENNReal.ofReal (b - a))⁻¹ * (Set.Ico a b).indicator 1 x := by
  show _ • _ = _
  rw [← withDensity_indicator_one measurableSet_Ico, ← withDensity_smul _ (measurable_one.indicator measurableSet_Ico)]
  rfl

lemma uniform_prob {a b : ℝ} (h : a < b) : IsProbabilityMeasure (libLaw (.uniform a b)) := by
  constructor
  show ((ENNReal.ofReal (b - a))⁻¹ • volume.restrict (Set.Ico a b)) Set.univ = 1
  rw [Measure.smul_apply, Measure.restrict_apply_univ, Real.volume_Ico, smul_eq_mul, ENNReal.inv_mul_cancel]
  · simpa using h
  · simp

lemma measurable_studentShape (n : ℝ) : Measurable (studentShape n) := by
  unfold studentShape
  fun_prop

lemma student_prob {n : ℝ} (hn : 0 < n) : IsProbabilityMeasure (libLaw (.studentT n)) := by
  have hpos : ∀ x, 0 < studentShape n x := fun x => Real.rpow_pos_of_pos (by positivity) _
  have hint : Integrable (studentShape n) := by
    have h := integrable_rpow_neg_one_add_norm_sq (E := ℝ) (μ := volume) (r := n + 1) (by simpa using hn)
    have h2 := h.comp_div (R := √n) (by positivity)
    refine h2.congr (ae_of_all _ fun x => ?_)
    simp only [studentShape, Real.norm_eq_abs, sq_abs, div_pow, Real.sq_sqrt hn.le]
  constructor
  show (volume.withDensity _) Set.univ = 1
  rw [withDensity_apply _ MeasurableSet.univ, Measure.restrict_univ, lintegral_const_mul _ (measurable_studentShape n).ennreal_ofReal,
    ENNReal.inv_mul_cancel]
  · intro h0
    rw [lintegral_eq_zero_iff (measurable_studentShape n).ennreal_ofReal] at h0
    have : ∀ᵐ x : ℝ, False := by
      filter_upwards [h0] with x hx
      have := hpos x
      simp only [Pi.zero_apply, ENNReal.ofReal_eq_zero] at hx
      linarith
    rw [ae_iff] at this
    simp at this
  · rw [← ofReal_integral_eq_lintegral_ofReal hint (ae_of_all _ fun x => (hpos x).le)]
    simp

end Verif.Theory
