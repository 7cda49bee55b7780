import Mathlib.Analysis.SpecialFunctions.Pow.Deriv
import Mathlib.LinearAlgebra.Matrix.PosDef
import Verif.Theory.Laws
import Verif.Theory.Average
import Verif.Spec.Post
import Verif.Props.Stretch
import Verif.Props.Param

/-!
C76: the laws of the generators of `RandomGenerator`.
-/

namespace Verif.Props

open MeasureTheory ProbabilityTheory Verif.Model Verif.Spec Verif.Theory
open scoped ENNReal

/-! ### C76 -/

/-- **C76, exponential.** -/
theorem C76_exp {l : ℝ} (hl : 0 < l) : Draws (Gen.exp l) (expDensity l) := by
  refine draws_id (f₀ := gammaPDF 1 l) (c := 1) rfl (isProbabilityMeasure_expMeasure hl) (fun _ => rfl) ?_
  filter_upwards [ae_ne 0] with x hx
  rw [gammaPDF_eq, one_mul, expDensity]
  rcases lt_or_gt_of_ne hx with h | h
  · rw [if_neg (not_le.mpr h), if_neg (not_lt.mpr h.le)]
  · rw [if_pos h.le, if_pos h]
    simp

example : Draws (Gen.exp 3) (expDensity 3) := C76_exp (by norm_num)

/-- **C76, normal.** -/
theorem C76_normal {m s : ℝ} (hs : 0 < s) : Draws (Gen.normal m s) (normalDensity m s) := by
  refine draws_id (c := ENNReal.ofReal (√(2 * Real.pi * s ^ 2))⁻¹) (normal_law hs.ne') (inferInstanceAs (IsProbabilityMeasure (gaussianReal _ _))) (fun _ => rfl) (ae_of_all _ fun x => ?_)
  exact gaussian_shape

lemma exp_normal_draws {m s : ℝ} (hs : 0 < s) : Draws ⟨.normal m s, fun z => .ok (Real.exp z)⟩ (lognormalDensity m s) := by
  refine draws_of (S := Set.univ) (T := Set.Ioi 0) (φ := Real.exp) (ψ := Real.log) (ψ' := fun y => y⁻¹)
    (c := ENNReal.ofReal ((√(2 * Real.pi * s ^ 2))⁻¹ * s)) (normal_law hs.ne') (inferInstanceAs (IsProbabilityMeasure (gaussianReal _ _)))
    (measurable_gaussianPDF _ _).aemeasurable measurableSet_Ioi (by simp) ?_ (fun _ _ => rfl) (fun x _ => Real.exp_pos x) (fun _ _ => trivial)
    (fun x _ => Real.log_exp x) (fun y hy => Real.exp_log hy) (fun y hy => Real.hasDerivAt_log (ne_of_gt hy)) ?_
  · intro y hy
    exact if_neg hy
  · intro y hy
    have hy : 0 < y := hy
    rw [gaussian_shape, lognormalDensity, if_pos hy, ← ENNReal.ofReal_mul (by positivity), ← ENNReal.ofReal_mul (by positivity),
      ← ENNReal.ofReal_mul (by positivity)]
    congr 1
    rw [abs_of_pos (inv_pos.mpr hy)]
    have e : -(Real.log y - m) ^ 2 / (2 * s ^ 2) = -0.5 * (Real.log y - m) ^ 2 / s ^ 2 := by
      field_simp
      norm_num
      ring
    rw [e]
    field_simp

example : Draws (Gen.normal 1 2) (normalDensity 1 2) := C76_normal (by norm_num)

/-- **C76, log-normal.** -/
theorem C76_lognormal {m s : ℝ} (hs : 0 < s) : Draws (Gen.lognormal m s) (lognormalDensity m s) := by
  obtain ⟨ν, c, h1, h2, h3⟩ := exp_normal_draws (m := m) hs
  refine ⟨ν, c, h1, h2, fun A hA => ?_⟩
  rw [← h3 A hA]
  show ((gaussianReal m (s ^ 2).toNNReal).map Real.exp) _ = gaussianReal m (s ^ 2).toNNReal _
  have : {z | ∃ v ∈ A, (Gen.lognormal m s).out z = .ok v} = A := by
    ext z
    simp [Gen.lognormal]
  rw [this, Measure.map_apply Real.measurable_exp hA]
  congr 1
  ext z
  simp

example : Draws (Gen.lognormal 1 2) (lognormalDensity 1 2) := C76_lognormal (by norm_num)

/-- **C76, uniform.** -/
theorem C76_uniform {a b : ℝ} (h : a < b) : Draws (Gen.uniform a b) (uniformDensity a b) := by
  refine draws_id (c := (ENNReal.ofReal (b - a))⁻¹) (uniform_law a b) (uniform_prob h) (fun _ => rfl) ?_
  filter_upwards [ae_ne a] with x hx
  congr 1
  rw [uniformDensity]
  by_cases hab : a < x ∧ x < b
  · rw [if_pos hab, Set.indicator_of_mem (Set.mem_Ico.mpr ⟨hab.1.le, hab.2⟩)]
    simp
  · rw [if_neg hab, Set.indicator_of_notMem]
    · simp
    · intro h'
      exact hab ⟨lt_of_le_of_ne h'.1 (Ne.symm hx), h'.2⟩

/-- The factor of the median time step in the starting value of CAR(1) (`src/carpack.cpp` line 55). -/
example : Draws (Gen.uniform 1 50) (uniformDensity 1 50) := C76_uniform (by norm_num)

/-- **C76, power law.** -/
theorem C76_powerlaw {lower upper slope : ℝ} (hl : 0 < lower) (hlu : lower < upper) (hs : slope ≠ -1) :
    Draws (Gen.powerlaw lower upper slope) (powerDensity lower upper slope) := by
  have hne : slope + 1 ≠ 0 := fun h => hs (by linarith)
  have hD := power_ne hl hlu hs
  have hu := hl.trans hlu
  set D := upper ^ (slope + 1) - lower ^ (slope + 1) with hDd
  have hinv : ∀ u ∈ Set.Ioo (0 : ℝ) 1, ∃ x, powerlaw lower upper slope u = .ok x ∧ lower < x ∧ x < upper ∧ powerCdf lower upper slope x = u := by
    intro u hu'
    obtain ⟨x, k1, k2, k3, k4⟩ := C35_inverts hl hlu hs hu'.1.le hu'.2.le
    refine ⟨x, k1, lt_of_le_of_ne k2 ?_, lt_of_le_of_ne k3 ?_, k4⟩
    · rintro rfl
      rw [powerCdf_eq hl hlu hs hl, sub_self, zero_div] at k4
      exact absurd k4.symm (ne_of_gt hu'.1)
    · rintro rfl
      rw [powerCdf_eq hl hlu hs hu, div_self hD] at k4
      exact absurd k4.symm (ne_of_lt hu'.2)
  have hval : ∀ u ∈ Set.Ioo (0 : ℝ) 1, lower < (D * u + lower ^ (slope + 1)) ^ (1 / (slope + 1)) ∧
      (D * u + lower ^ (slope + 1)) ^ (1 / (slope + 1)) < upper ∧
      powerCdf lower upper slope ((D * u + lower ^ (slope + 1)) ^ (1 / (slope + 1))) = u := by
    intro u hu'
    obtain ⟨x, k1, k2, k3, k4⟩ := hinv u hu'
    rw [powerlaw_ok hs] at k1
    injection k1 with k1
    rw [← hDd] at k1
    rw [k1]
    exact ⟨k2, k3, k4⟩
  have hcdf : ∀ y ∈ Set.Ioo lower upper, (y ^ (slope + 1) - lower ^ (slope + 1)) / D ∈ Set.Ioo (0 : ℝ) 1 := by
    intro y hy
    have e := powerCdf_eq hl hlu hs (hl.trans hy.1)
    rw [← hDd] at e
    rw [← e]
    constructor
    · have := powerCdf_strictMono hl hlu hs hl hy.1
      rwa [powerCdf_eq hl hlu hs hl, sub_self, zero_div] at this
    · have := powerCdf_strictMono hl hlu hs (hl.trans hy.1) hy.2
      rwa [powerCdf_eq hl hlu hs hu, div_self hD] at this
  refine draws_of (S := Set.Ioo 0 1) (T := Set.Ioo lower upper) (φ := fun u => (D * u + lower ^ (slope + 1)) ^ (1 / (slope + 1)))
    (ψ := fun y => (y ^ (slope + 1) - lower ^ (slope + 1)) / D) (ψ' := fun y => (slope + 1) * y ^ slope / D)
    (c := ENNReal.ofReal |(slope + 1) / D|) (uniform_law 0 1) (uniform_prob one_pos) ?_ measurableSet_Ioo ?_ ?_ ?_ ?_ hcdf ?_ ?_ ?_ ?_
  · exact (measurable_const.mul (measurable_one.indicator measurableSet_Ico)).aemeasurable
  · filter_upwards [ae_ne 0] with x hx h
    rw [Set.indicator_of_notMem, mul_zero]
    intro h'
    exact h ⟨lt_of_le_of_ne h'.1 (Ne.symm hx), h'.2⟩
  · intro y hy
    exact if_neg hy
  · intro u _
    exact powerlaw_ok hs
  · intro u hu'
    exact ⟨(hval u hu').1, (hval u hu').2.1⟩
  · intro u hu'
    have h := (hval u hu').2.2
    rwa [powerCdf_eq hl hlu hs (hl.trans (hval u hu').1)] at h
  · intro y hy
    have hy0 := hl.trans hy.1
    show (D * ((y ^ (slope + 1) - lower ^ (slope + 1)) / D) + lower ^ (slope + 1)) ^ (1 / (slope + 1)) = y
    rw [mul_div_cancel₀ _ hD, sub_add_cancel, ← Real.rpow_mul hy0.le, mul_one_div_cancel hne, Real.rpow_one]
  · intro y hy
    have hy0 := hl.trans hy.1
    have := (((Real.hasDerivAt_rpow_const (p := slope + 1) (Or.inl hy0.ne')).sub_const (lower ^ (slope + 1))).div_const D)
    rwa [add_sub_cancel_right] at this
  · intro y hy
    have hy0 := hl.trans hy.1
    have hm := hcdf y hy
    rw [Set.indicator_of_mem (Set.mem_Ico.mpr ⟨hm.1.le, hm.2⟩), powerDensity, if_pos (show lower < y ∧ y < upper from hy), ← ENNReal.ofReal_mul (abs_nonneg _)]
    have e : |(slope + 1) * y ^ slope / D| = |(slope + 1) / D| * y ^ slope := by
      rw [mul_div_right_comm, abs_mul, abs_of_pos (Real.rpow_pos_of_pos hy0 slope)]
    rw [e]
    simp

/-- The stretch move with scaling support 2 (`src/include/proposals.hpp` line 214). -/
example : Draws (Gen.powerlaw (1 / 2) 2 (-0.5)) (powerDensity (1 / 2) 2 (-0.5)) := C76_powerlaw (by norm_num) (by norm_num) (by norm_num)

/-- **C76, Student's t.** -/
theorem C76_tdist {dof mean scale : ℝ} (hd : 0 < dof) (hs : 0 < scale) : Draws (Gen.tdist dof mean scale) (tDensity dof mean scale) := by
  refine draws_of (S := Set.univ) (T := Set.univ) (φ := fun z => mean + scale * z) (ψ := fun y => (y - mean) / scale)
    (ψ' := fun _ => 1 / scale) (c := ENNReal.ofReal |1 / scale| * (∫⁻ t, ENNReal.ofReal (studentShape dof t))⁻¹) rfl (student_prob hd)
    (measurable_const.mul (measurable_studentShape dof).ennreal_ofReal).aemeasurable MeasurableSet.univ (by simp) (by simp) (fun _ _ => rfl)
    (by simp) (by simp) ?_ ?_ ?_ ?_
  · intro x _
    show (mean + scale * x - mean) / scale = x
    field_simp
    ring
  · intro y _
    show mean + scale * ((y - mean) / scale) = y
    field_simp
    ring
  · intro y _
    exact ((hasDerivAt_id y).sub_const mean).div_const scale
  · intro y _
    rw [mul_assoc]
    congr 3
    rw [studentShape, tDensity]
    congr 2
    field_simp

/-- The unit proposals (`StudentProposal(8.0, 1.0)`). -/
example : Draws (Gen.tdist 8 0 1) (tDensity 8 0 1) := C76_tdist (by norm_num) one_pos

/-- **C76, chi-squared.** -/
theorem C76_chisqr {dof : ℕ} (hd : 0 < dof) : Draws (Gen.chisqr dof) (chiDensity dof) := by
  have hd' : (0 : ℝ) < dof := by exact_mod_cast hd
  refine draws_id (f₀ := gammaPDF (dof / 2) (1 / 2)) (c := ENNReal.ofReal ((1 / 2) ^ ((dof : ℝ) / 2) / Real.Gamma (dof / 2))) rfl
    (isProbabilityMeasure_gammaMeasure (by positivity) (by norm_num)) (fun _ => rfl) ?_
  have hG := Real.Gamma_pos_of_pos (show (0 : ℝ) < dof / 2 by positivity)
  filter_upwards [ae_ne 0] with x hx
  rw [gammaPDF_eq, chiDensity]
  rcases lt_or_gt_of_ne hx with h | h
  · rw [if_neg (not_le.mpr h), if_neg (not_lt.mpr h.le)]
    simp
  · rw [if_pos h.le, if_pos h, ← ENNReal.ofReal_mul (by positivity), ← mul_assoc]
    congr 3
    ring

example : Draws (Gen.chisqr 50) (chiDensity 50) := by exact_mod_cast C76_chisqr (dof := 50) (by norm_num)

/-- **C76, gamma.** -/
theorem C76_gamma {a b : ℝ} (ha : 0 < a) (hb : 0 < b) : Draws (Gen.gamma a b) (gammaDensity a b) := by
  refine draws_id (f₀ := gammaPDF a (1 / b)) (c := ENNReal.ofReal ((1 / b) ^ a / Real.Gamma a)) rfl
    (isProbabilityMeasure_gammaMeasure ha (by positivity)) (fun _ => rfl) ?_
  have hG := Real.Gamma_pos_of_pos ha
  filter_upwards [ae_ne 0] with x hx
  rw [gammaPDF_eq, gammaDensity]
  rcases lt_or_gt_of_ne hx with h | h
  · rw [if_neg (not_le.mpr h), if_neg (not_lt.mpr h.le)]
    simp
  · rw [if_pos h.le, if_pos h, ← ENNReal.ofReal_mul (by positivity), ← mul_assoc]
    congr 3
    ring

example : Draws (Gen.gamma 2 3) (gammaDensity 2 3) := C76_gamma (by norm_num) (by norm_num)

/-- The quotient of a constant and a gamma draw. -/
lemma inv_gamma_draws {g : Gen} {a r K : ℝ} {f : ℝ → ℝ} (ha : 0 < a) (hr : 0 < r) (hK : 0 < K) (hlaw : libLaw g.lib = gammaMeasure a r)
    (hout : ∀ z, 0 < z → g.out z = .ok (K / z)) (hf : ∀ x, f x = if 0 < x then x ^ (-a - 1) * Real.exp (-(r * K) / x) else 0) : Draws g f := by
  have hG := Real.Gamma_pos_of_pos ha
  have hp : IsProbabilityMeasure (libLaw g.lib) := by
    rw [hlaw]
    exact isProbabilityMeasure_gammaMeasure ha hr
  refine draws_of (S := Set.Ioi 0) (T := Set.Ioi 0) (φ := fun z => K / z) (ψ := fun y => K / y) (ψ' := fun y => -K / y ^ 2)
    (c := ENNReal.ofReal (r ^ a / Real.Gamma a * K ^ a)) (hlaw.trans rfl) hp (measurable_gammaPDF' a r).aemeasurable measurableSet_Ioi
    (gamma_pos_part a r) ?_ hout ?_ ?_ ?_ ?_ ?_ ?_
  · intro y hy
    rw [hf]
    exact if_neg hy
  · exact fun x hx => div_pos hK hx
  · exact fun x hx => div_pos hK hx
  · intro x hx
    have hx : 0 < x := hx
    field_simp
  · intro x hx
    have hx : 0 < x := hx
    field_simp
  · intro y hy
    have hy : 0 < y := hy
    have := (hasDerivAt_const y K).div (hasDerivAt_id y) hy.ne'
    rw [zero_mul, mul_one, zero_sub] at this
    exact this
  · intro y hy
    have hy : 0 < y := hy
    have hq : 0 < K / y := div_pos hK hy
    rw [gammaPDF_eq, if_pos hq.le, hf, if_pos hy, ← ENNReal.ofReal_mul (abs_nonneg _), ← ENNReal.ofReal_mul (by positivity)]
    congr 1
    have e1 : |-K / y ^ 2| = K / y ^ 2 := by
      rw [abs_div, abs_neg, abs_of_pos hK, abs_of_pos (by positivity)]
    have e2 : -(r * (K / y)) = -(r * K) / y := by ring
    have e3 : K / y ^ 2 * (K / y) ^ (a - 1) = K ^ a * y ^ (-a - 1) := by
      rw [Real.div_rpow hK.le hy.le, Real.rpow_sub hK, Real.rpow_sub hy, Real.rpow_sub hy, Real.rpow_neg hy.le, Real.rpow_one, Real.rpow_one]
      have := Real.rpow_pos_of_pos hy a
      field_simp
    rw [e1, e2]
    calc K / y ^ 2 * (r ^ a / Real.Gamma a * (K / y) ^ (a - 1) * Real.exp (-(r * K) / y))
        = r ^ a / Real.Gamma a * (K / y ^ 2 * (K / y) ^ (a - 1)) * Real.exp (-(r * K) / y) := by ring
      _ = _ := by rw [e3]; ring

/-- **C76, inverse gamma.** -/
theorem C76_invgamma {a b : ℝ} (ha : 0 < a) (hb : 0 < b) : Draws (Gen.invgamma a b) (invgammaDensity a b) := by
  refine inv_gamma_draws (a := a) (r := 1 / (1 / b)) (K := 1) ha (by positivity) one_pos rfl ?_ ?_
  · intro z hz
    show dv 1 z = _
    rw [dv, if_neg hz.ne']
  · intro x
    rw [invgammaDensity, one_div_one_div, mul_one]

example : Draws (Gen.invgamma 2 3) (invgammaDensity 2 3) := C76_invgamma (by norm_num) (by norm_num)

/-- **C76, scaled inverse chi-squared.** -/
theorem C76_scaled_inverse_chisqr {dof : ℕ} {ssqr : ℝ} (hd : 0 < dof) (hs : 0 < ssqr) :
    Draws (Gen.scaledInverseChisqr dof ssqr) (scaledInvChiDensity dof ssqr) := by
  have hd' : (0 : ℝ) < dof := by exact_mod_cast hd
  refine inv_gamma_draws (a := dof / 2) (r := 1 / 2) (K := ssqr * dof) (by positivity) (by norm_num) (by positivity) rfl ?_ ?_
  · intro z hz
    show scaledInvChi2 dof ssqr z = _
    simp only [scaledInvChi2, dv, if_neg hz.ne', res_bind_ok, res_pure]
    congr 1
    ring
  · intro x
    rw [scaledInvChiDensity]
    congr 3
    · ring
    · rw [show -(1 / 2 * (ssqr * dof)) / x = -dof * ssqr / 2 / x by ring, div_div]

example : Draws (Gen.scaledInverseChisqr 50 1) (scaledInvChiDensity (50 : ℕ) 1) := C76_scaled_inverse_chisqr (by norm_num) one_pos

/-- The law of a generator determines its density on the positive numbers up to a factor. -/
lemma draws_unique {g : Gen} {f f' : ℝ → ℝ} (h : Draws g f) (h' : Draws g f') (hm : Measurable f) (hm' : Measurable f')
    (hc : ContinuousOn f (Set.Ioi 0)) (hc' : ContinuousOn f' (Set.Ioi 0)) (hp : ∀ x, 0 < x → 0 < f x) (hp' : ∀ x, 0 < x → 0 < f' x) :
    ∃ k, 0 < k ∧ ∀ x, 0 < x → f' x = k * f x := by
  have fin : ∀ {f : ℝ → ℝ} {ν : Measure ℝ} {c : ℝ≥0∞}, IsProbabilityMeasure ν → (ν = volume.withDensity fun x => c * ENNReal.ofReal (f x)) →
      Measurable f → (∀ x, 0 < x → 0 < f x) → c ≠ 0 ∧ c ≠ ∞ := by
    intro f ν c hν e hm hp
    constructor
    · rintro rfl
      have := hν.measure_univ
      rw [e] at this
      simp at this
    · rintro rfl
      have h1 : ν (Set.Ioi 0) ≤ 1 := prob_le_one
      rw [e, withDensity_apply _ measurableSet_Ioi, setLIntegral_congr_fun measurableSet_Ioi (g := fun _ => ∞)] at h1
      · simp at h1
      · intro x hx
        exact ENNReal.top_mul (by simpa using hp x hx)
  obtain ⟨ν, c, a1, a2, a3⟩ := h
  obtain ⟨ν', c', b1, b2, b3⟩ := h'
  obtain ⟨hc0, hct⟩ := fin a1 a2 hm hp
  obtain ⟨hc0', hct'⟩ := fin b1 b2 hm' hp'
  have hνν : ν = ν' := Measure.ext fun A hA => (a3 A hA).symm.trans (b3 A hA)
  have hae : (fun x => c * ENNReal.ofReal (f x)) =ᵐ[volume] fun x => c' * ENNReal.ofReal (f' x) := by
    have hfin : ∫⁻ x, c * ENNReal.ofReal (f x) ≠ ∞ := by
      have := a1.measure_univ
      rw [a2, withDensity_apply _ MeasurableSet.univ, Measure.restrict_univ] at this
      rw [this]
      simp
    refine (withDensity_eq_iff (measurable_const.mul hm.ennreal_ofReal).aemeasurable (measurable_const.mul hm'.ennreal_ofReal).aemeasurable hfin).mp ?_
    show (volume.withDensity fun x => c * ENNReal.ofReal (f x)) = volume.withDensity fun x => c' * ENNReal.ofReal (f' x)
    rw [← a2, ← b2, hνν]
  have hae' : (fun x => c.toReal * f x) =ᵐ[volume.restrict (Set.Ioi 0)] fun x => c'.toReal * f' x := by
    rw [Filter.EventuallyEq, ae_restrict_iff' measurableSet_Ioi]
    filter_upwards [hae] with x hx hx0
    have := congrArg ENNReal.toReal hx
    rwa [ENNReal.toReal_mul, ENNReal.toReal_mul, ENNReal.toReal_ofReal (hp x hx0).le, ENNReal.toReal_ofReal (hp' x hx0).le] at this
  have heq := Measure.eqOn_open_of_ae_eq hae' isOpen_Ioi (continuousOn_const.mul hc) (continuousOn_const.mul hc')
  have k0 := ENNReal.toReal_pos hc0 hct
  have k0' := ENNReal.toReal_pos hc0' hct'
  refine ⟨c.toReal / c'.toReal, div_pos k0 k0', fun x hx => ?_⟩
  have := heq hx
  simp only at this
  field_simp
  linarith

/-- **C76, wrong comment.** The density in the comment on `scaled_inverse_chisqr` is not that of the generator, unless there are two degrees of
freedom. -/
theorem C76_comment {dof : ℕ} {ssqr : ℝ} (hd : 0 < dof) (hs : 0 < ssqr) :
    Draws (Gen.scaledInverseChisqr dof ssqr) (scaledInvChiComment dof ssqr) ↔ dof = 2 := by
  have hd' : (0 : ℝ) < dof := by exact_mod_cast hd
  have h := C76_scaled_inverse_chisqr hd hs
  constructor
  · intro h'
    have pos1 : ∀ x, 0 < x → 0 < scaledInvChiDensity dof ssqr x := fun x hx => by
      rw [scaledInvChiDensity, if_pos hx]
      positivity
    have pos2 : ∀ x, 0 < x → 0 < scaledInvChiComment dof ssqr x := fun x hx => by
      rw [scaledInvChiComment, if_pos hx]
      positivity
    have m1 : Measurable (scaledInvChiDensity dof ssqr) := by
      unfold scaledInvChiDensity
      exact Measurable.ite measurableSet_Ioi (by fun_prop) measurable_const
    have m2 : Measurable (scaledInvChiComment dof ssqr) := by
      unfold scaledInvChiComment
      exact Measurable.ite measurableSet_Ioi (by fun_prop) measurable_const
    have c1 : ContinuousOn (scaledInvChiDensity dof ssqr) (Set.Ioi 0) := by
      refine ContinuousOn.congr (f := fun x => x ^ (-(1 + (dof : ℝ) / 2)) * Real.exp (-dof * ssqr / (2 * x))) ?_ fun x hx => if_pos hx
      intro x hx
      have hx : 0 < x := hx
      refine ContinuousAt.continuousWithinAt ?_
      refine (Real.continuousAt_rpow_const _ _ (Or.inl hx.ne')).mul ?_
      exact (ContinuousAt.div continuousAt_const (by fun_prop) (by positivity)).rexp
    have c2 : ContinuousOn (scaledInvChiComment dof ssqr) (Set.Ioi 0) := by
      refine ContinuousOn.congr (f := fun x => 1 / x ^ (1 + (dof : ℝ) / 2) * Real.exp (-dof * ssqr / (dof * x))) ?_ fun x hx => if_pos hx
      intro x hx
      have hx : 0 < x := hx
      refine ContinuousAt.continuousWithinAt ?_
      refine (ContinuousAt.div continuousAt_const (Real.continuousAt_rpow_const _ _ (Or.inl hx.ne')) (by positivity)).mul ?_
      exact (ContinuousAt.div continuousAt_const (by fun_prop) (by positivity)).rexp
    obtain ⟨k, hk, e⟩ := draws_unique h h' m1 m2 c1 c2 pos1 pos2
    have key : ∀ x, 0 < x → ssqr * (dof / 2 - 1) = x * Real.log k := by
      intro x hx
      have := e x hx
      rw [scaledInvChiDensity, scaledInvChiComment, if_pos hx, if_pos hx, Real.rpow_neg hx.le, one_div] at this
      have hr := Real.rpow_pos_of_pos hx (1 + (dof : ℝ) / 2)
      have e2 : Real.exp (-dof * ssqr / (dof * x)) = k * Real.exp (-dof * ssqr / (2 * x)) := by
        have h3 : (x ^ (1 + (dof : ℝ) / 2))⁻¹ ≠ 0 := by positivity
        refine mul_left_cancel₀ h3 ?_
        rw [this]
        ring
      have e3 := congrArg Real.log e2
      rw [Real.log_exp, Real.log_mul hk.ne' (Real.exp_pos _).ne', Real.log_exp] at e3
      field_simp at e3
      field_simp
      linarith
    have k1 := key 1 one_pos
    have k2 := key 2 two_pos
    have hlog : Real.log k = 0 := by linarith
    rw [hlog, mul_zero] at k1
    have : (dof : ℝ) / 2 - 1 = 0 := by
      rcases mul_eq_zero.mp k1 with h | h
      · exact absurd h hs.ne'
      · exact h
    have : (dof : ℝ) = 2 := by linarith
    exact_mod_cast this
  · rintro rfl
    have : scaledInvChiComment ((2 : ℕ) : ℝ) ssqr = scaledInvChiDensity ((2 : ℕ) : ℝ) ssqr := by
      funext x
      rw [scaledInvChiComment, scaledInvChiDensity]
      by_cases hx : 0 < x
      · rw [if_pos hx, if_pos hx, Real.rpow_neg hx.le, one_div]
        norm_num
      · rw [if_neg hx, if_neg hx]
    rw [this]
    exact h

/-- The call for the measurement error scale. -/
example : ¬ Draws (Gen.scaledInverseChisqr 50 1) (scaledInvChiComment (50 : ℕ) 1) := by
  rw [C76_comment (by norm_num) one_pos]
  norm_num

/-- **C76, measurement errors.** The generator with which the starting value of the measurement error scale is drawn, before it is cut off, draws
from the prior: its density is proportional to the exponential of the log-prior. -/
theorem C76_prior : ∃ f, Draws (Gen.scaledInverseChisqr 50 1) f ∧
    ∀ θ : List ℝ, 2 ≤ θ.length → 0 < at0 θ 1 → ∃ l, baseLogPrior θ = .ok (.fin l) ∧ Real.exp l = f (at0 θ 1) := by
  refine ⟨_, C76_scaled_inverse_chisqr (by norm_num) one_pos, fun θ hθ hs => ?_⟩
  refine ⟨-0.5 * 50 / at0 θ 1 - (1 + 50 / 2) * Real.log (at0 θ 1), ?_, ?_⟩
  · simp only [baseLogPrior, rd_at0 (show 1 < θ.length by omega), res_bind_ok, res_pure, Dbl.div, if_neg hs.ne', Dbl.log,
      if_pos hs, Dbl.mul, Dbl.sub, Dbl.neg, Dbl.add, sub_eq_add_neg]
  · rw [scaledInvChiDensity, if_pos hs, Real.rpow_def_of_pos hs, ← Real.exp_add]
    congr 1
    field_simp
    norm_num
    ring

/-- At the scale 1 the log-prior is -25. -/
example : baseLogPrior [0, 1] = .ok (.fin (-25)) := by
  norm_num [baseLogPrior, rd, Dbl.div, Dbl.log, Dbl.mul, Dbl.sub, Dbl.neg, Dbl.add]

/-- **C76, standard draws.** Shifting and scaling a standard draw gives the draw of the object with the parameters; this is how the rest of the
model writes the normal, log-normal and uniform generators. -/
theorem C76_standard_normal {m s : ℝ} (hs : 0 < s) : Draws ⟨.normal 0 1, fun z => .ok (m + s * z)⟩ (normalDensity m s) := by
  refine draws_of (S := Set.univ) (T := Set.univ) (φ := fun z => m + s * z) (ψ := fun y => (y - m) / s)
    (ψ' := fun _ => 1 / s) (c := ENNReal.ofReal |1 / s| * ENNReal.ofReal (√(2 * Real.pi * 1 ^ 2))⁻¹) (normal_law one_ne_zero)
    (inferInstanceAs (IsProbabilityMeasure (gaussianReal _ _)))
    (measurable_gaussianPDF _ _).aemeasurable MeasurableSet.univ (by simp) (by simp) (fun _ _ => rfl) (by simp) (by simp) ?_ ?_ ?_ ?_
  · intro x _
    show (m + s * x - m) / s = x
    field_simp
    ring
  · intro y _
    show m + s * ((y - m) / s) = y
    field_simp
    ring
  · intro y _
    exact ((hasDerivAt_id y).sub_const m).div_const s
  · intro y _
    rw [gaussian_shape, normalDensity]
    have e : -((y - m) / s - 0) ^ 2 / (2 * 1 ^ 2) = -(y - m) ^ 2 / (2 * s ^ 2) := by
      field_simp
      ring
    rw [e]
    exact (mul_assoc _ _ _).symm

@[inherit_doc C76_standard_normal]
theorem C76_standard_lognormal {m s : ℝ} (hs : 0 < s) : Draws ⟨.normal 0 1, fun z => .ok (Real.exp (m + s * z))⟩ (lognormalDensity m s) := by
  obtain ⟨ν, c, a1, a2, a3⟩ := C76_standard_normal (m := m) hs
  obtain ⟨ν', c', b1, b2, b3⟩ := C76_normal (m := m) hs
  obtain ⟨ν'', c'', d1, d2, d3⟩ := exp_normal_draws (m := m) hs
  refine ⟨ν'', c'', d1, d2, fun A hA => ?_⟩
  rw [← d3 A hA]
  have hE : MeasurableSet (Real.exp ⁻¹' A) := Real.measurable_exp hA
  have e1 : {z : ℝ | ∃ v ∈ A, (Except.ok (Real.exp (m + s * z)) : Res ℝ) = .ok v} =
      {z | ∃ v ∈ Real.exp ⁻¹' A, (Except.ok (m + s * z) : Res ℝ) = .ok v} := by
    ext z
    simp
  have e2 : {z : ℝ | ∃ v ∈ A, (Except.ok (Real.exp z) : Res ℝ) = .ok v} =
      {z | ∃ v ∈ Real.exp ⁻¹' A, (Gen.normal m s).out z = .ok v} := by
    ext z
    simp [Gen.normal]
  show libLaw (.normal 0 1) {z | ∃ v ∈ A, (Except.ok (Real.exp (m + s * z)) : Res ℝ) = .ok v} =
    libLaw (.normal m s) {z | ∃ v ∈ A, (Except.ok (Real.exp z) : Res ℝ) = .ok v}
  rw [e1, e2]
  refine (a3 _ hE).trans (Eq.trans ?_ (b3 _ hE).symm)
  have cc : c = c' := by
    have n1 := a1.measure_univ
    have n2 := b1.measure_univ
    have hmm : Measurable fun x => ENNReal.ofReal (normalDensity m s x) := by
      unfold normalDensity
      fun_prop
    rw [a2, withDensity_apply _ MeasurableSet.univ, Measure.restrict_univ, lintegral_const_mul _ hmm] at n1
    rw [b2, withDensity_apply _ MeasurableSet.univ, Measure.restrict_univ, lintegral_const_mul _ hmm] at n2
    rw [ENNReal.eq_inv_of_mul_eq_one_left n1, ENNReal.eq_inv_of_mul_eq_one_left n2]
  rw [a2, b2, cc]

@[inherit_doc C76_standard_normal]
theorem C76_standard_uniform {a b : ℝ} (h : a < b) : Draws ⟨.uniform 0 1, fun u => .ok (a + (b - a) * u)⟩ (uniformDensity a b) := by
  have hba : 0 < b - a := sub_pos.mpr h
  refine draws_of (S := Set.Ioo 0 1) (T := Set.Ioo a b) (φ := fun u => a + (b - a) * u) (ψ := fun y => (y - a) / (b - a))
    (ψ' := fun _ => 1 / (b - a)) (c := ENNReal.ofReal |1 / (b - a)|) (uniform_law 0 1) (uniform_prob one_pos) ?_ measurableSet_Ioo ?_ ?_
    (fun _ _ => rfl) ?_ ?_ ?_ ?_ ?_ ?_
  · exact (measurable_const.mul (measurable_one.indicator measurableSet_Ico)).aemeasurable
  · filter_upwards [ae_ne 0] with x hx h
    rw [Set.indicator_of_notMem, mul_zero]
    intro h'
    exact h ⟨lt_of_le_of_ne h'.1 (Ne.symm hx), h'.2⟩
  · intro y hy
    exact if_neg hy
  · rintro u ⟨h0, h1⟩
    constructor <;> nlinarith
  · rintro y ⟨h0, h1⟩
    exact ⟨div_pos (by linarith) hba, (div_lt_one hba).mpr (by linarith)⟩
  · intro u _
    show (a + (b - a) * u - a) / (b - a) = u
    field_simp
    ring
  · intro y _
    show a + (b - a) * ((y - a) / (b - a)) = y
    field_simp
    ring
  · intro y _
    exact ((hasDerivAt_id y).sub_const a).div_const (b - a)
  · rintro y ⟨h0, h1⟩
    have : (y - a) / (b - a) ∈ Set.Ico (0 : ℝ) 1 := ⟨(div_pos (by linarith) hba).le, (div_lt_one hba).mpr (by linarith)⟩
    rw [Set.indicator_of_mem this, uniformDensity, if_pos ⟨h0, h1⟩]
    simp

/-- **C76, multivariate normal.** For a positive definite covariance matrix with the factor `R` that `arma::chol` returns, `RᵀR = covar`, the
vector drawn has the multivariate normal density in the comment, here with its constant. -/
theorem C76_multinormal {d : ℕ} {chol : Matrix (Fin d) (Fin d) ℝ → Res (Matrix (Fin d) (Fin d) ℝ)} {S R : Matrix (Fin d) (Fin d) ℝ}
    (hR : chol S = .ok R) (hRS : R.transpose * R = S) (hS : S.PosDef) {A : Set (Fin d → ℝ)} (hA : MeasurableSet A) :
    Measure.pi (fun _ => libLaw (.normal 0 1)) {z | ∃ v ∈ A, normalVec chol S z = .ok v} =
      (volume.withDensity fun x => ENNReal.ofReal ((2 * Real.pi) ^ (-(d : ℝ) / 2) * multinormalDensity S x)) A := by
  have hdetS : 0 < S.det := hS.det_pos
  have hsq : R.det * R.det = S.det := by rw [← hRS, Matrix.det_mul, Matrix.det_transpose]
  have hdetR : R.det ≠ 0 := by
    intro h
    rw [h, mul_zero] at hsq
    exact hdetS.ne hsq
  have hMdet : R.transpose.det ≠ 0 := by rwa [Matrix.det_transpose]
  have habs : |R.transpose.det| = √S.det := by
    rw [Matrix.det_transpose, ← hsq, Real.sqrt_mul_self_eq_abs]
  have hinv : R * S⁻¹ * R.transpose = 1 := by
    have hu : IsUnit R.det := isUnit_iff_ne_zero.mpr hdetR
    have hut : IsUnit R.transpose.det := isUnit_iff_ne_zero.mpr hMdet
    rw [← hRS, Matrix.mul_inv_rev, ← Matrix.mul_assoc, Matrix.mul_nonsing_inv _ hu, Matrix.one_mul, Matrix.nonsing_inv_mul _ hut]
  have hquad : ∀ z : Fin d → ℝ, R.transpose.mulVec z ⬝ᵥ S⁻¹.mulVec (R.transpose.mulVec z) = ∑ i, z i ^ 2 := by
    intro z
    rw [Matrix.mulVec_mulVec, Matrix.mulVec_transpose, ← Matrix.dotProduct_mulVec, Matrix.mulVec_mulVec, ← Matrix.mul_assoc, hinv,
      Matrix.one_mulVec, dotProduct]
    exact Finset.sum_congr rfl fun i _ => (sq (z i)).symm
  set k : (Fin d → ℝ) → ℝ≥0∞ := fun x => ENNReal.ofReal ((2 * Real.pi) ^ (-(d : ℝ) / 2) * Real.exp (-0.5 * x ⬝ᵥ S⁻¹.mulVec x)) with hk
  have hkm : Measurable k := by
    rw [hk]
    refine ENNReal.measurable_ofReal.comp ?_
    have : Measurable fun x : Fin d → ℝ => x ⬝ᵥ S⁻¹.mulVec x := by
      simp only [dotProduct, Matrix.mulVec]
      fun_prop
    fun_prop
  have hset : {z | ∃ v ∈ A, normalVec chol S z = .ok v} = Matrix.toLin' R.transpose ⁻¹' A := by
    ext z
    simp only [normalVec, hR, res_bind_ok, res_pure, Set.mem_ofPred_eq, Set.mem_preimage, Matrix.toLin'_apply]
    constructor
    · rintro ⟨v, hv, h⟩
      injection h with h
      rwa [h]
    · intro h
      exact ⟨_, h, rfl⟩
  have hlin : Measurable (Matrix.toLin' R.transpose) := (LinearMap.continuous_of_finiteDimensional _).measurable
  have hdens : Measure.pi (fun _ : Fin d => libLaw (.normal 0 1)) = volume.withDensity fun z => k (Matrix.toLin' R.transpose z) := by
    have hsf : ∀ _ : Fin d, SigmaFinite ((volume : Measure ℝ).withDensity (gaussianPDF 0 ((1 : ℝ) ^ 2).toNNReal)) := fun _ => by
      rw [← normal_law one_ne_zero]
      exact inferInstanceAs (SigmaFinite (gaussianReal _ _))
    have := pi_withDensity (g := fun _ : Fin d => gaussianPDF 0 ((1 : ℝ) ^ 2).toNNReal) (fun _ => measurable_gaussianPDF _ _) hsf
    simp only [normal_law one_ne_zero]
    rw [this]
    congr 1
    funext z
    simp only [gaussian_shape, hk, Matrix.toLin'_apply, hquad]
    rw [Finset.prod_congr rfl fun i _ => (ENNReal.ofReal_mul (by positivity)).symm, ← ENNReal.ofReal_prod_of_nonneg (fun i _ => by positivity)]
    congr 1
    rw [Finset.prod_mul_distrib, ← Real.exp_sum, Finset.prod_const, Finset.card_univ, Fintype.card_fin]
    congr 1
    · rw [one_pow, mul_one, Real.sqrt_eq_rpow, ← Real.rpow_neg (by positivity), ← Real.rpow_natCast, ← Real.rpow_mul (by positivity)]
      congr 1
      ring
    · rw [Finset.mul_sum]
      congr 1
      refine Finset.sum_congr rfl fun i _ => ?_
      norm_num
      ring
  rw [hset, hdens, withDensity_apply _ (hlin hA), withDensity_apply _ hA, ← setLIntegral_map hA hkm hlin,
    Real.map_matrix_volume_pi_eq_smul_volume_pi hMdet, Measure.restrict_smul, lintegral_smul_measure, smul_eq_mul, ← lintegral_const_mul _ hkm]
  refine lintegral_congr fun x => ?_
  simp only [hk, multinormalDensity]
  rw [← ENNReal.ofReal_mul (abs_nonneg _), abs_inv, habs]
  congr 1
  ring

/-- Two correlated coordinates. -/
example {A : Set (Fin 2 → ℝ)} (hA : MeasurableSet A) :
    Measure.pi (fun _ => libLaw (.normal 0 1)) {z | ∃ v ∈ A, normalVec (fun _ => .ok !![2, 1; 0, 1]) !![4, 2; 2, 2] z = .ok v} =
      (volume.withDensity fun x => ENNReal.ofReal ((2 * Real.pi) ^ (-((2 : ℕ) : ℝ) / 2) * multinormalDensity !![4, 2; 2, 2] x)) A := by
  have e : (!![2, 1; 0, 1] : Matrix (Fin 2) (Fin 2) ℝ).transpose * !![2, 1; 0, 1] = !![4, 2; 2, 2] := by
    ext i j
    fin_cases i <;> fin_cases j <;> norm_num [Matrix.mul_apply, Fin.sum_univ_two]
  refine C76_multinormal (chol := fun _ => .ok !![2, 1; 0, 1]) (R := !![2, 1; 0, 1]) rfl e ?_ hA
  rw [← e, ← Matrix.conjTranspose_eq_transpose_of_trivial]
  refine Matrix.PosDef.conjTranspose_mul_self _ ?_
  rw [Matrix.mulVec_injective_iff_isUnit, Matrix.isUnit_iff_isUnit_det, Matrix.det_fin_two]
  norm_num

end Verif.Props
