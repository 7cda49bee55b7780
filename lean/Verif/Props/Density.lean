import Verif.Theory.Density
import Verif.Props.Units
import Verif.Props.Laws

/-! C82: the likelihood is the probability density of the measurements and the prior terms are densities. -/

namespace Verif.Props

open Verif.Model Verif.Spec Verif.Theory Polynomial MeasureTheory
open scoped ENNReal

/-- logarithm of the scaled inverse chi-squared density with 50 degrees of freedom and scale one -/
lemma logPrior_density {θ : List ℝ} (h : 0 < at0 θ 1) : logPriorSpec θ = Real.log (scaledInvChiDensity 50 1 (at0 θ 1)) := by
  rw [logPriorSpec, scaledInvChiDensity, if_pos h, Real.log_mul (Real.rpow_pos_of_pos h _).ne' (Real.exp_pos _).ne', Real.log_exp,
    Real.log_rpow h]
  field_simp
  ring

lemma logistic_pos (x : ℝ) : 0 < logisticDensity x := by
  rw [logisticDensity]
  positivity

lemma log_logistic (x : ℝ) : Real.log (logisticDensity x) = -x - 2 * Real.log (1 + Real.exp (-x)) := by
  rw [logisticDensity, Real.log_div (Real.exp_pos _).ne' (by positivity), Real.log_exp, Real.log_pow]
  norm_num

/-- **C82, CAR(1).** Let the measurements be the values at times `t` of a Gaussian process with mean `theta(2)` and autocovariance
`theta(0)² exp(-exp(theta(3)) d)`, plus independent Gaussian errors of variance `theta(1) yerr²`. Their law has one continuous
positive density `f`, and for all measurements `y` with `theta` inside the prior bounds `LogDensity(theta)` is `log f(y)`, plus the
constant `n/2 log 2π`, plus the logarithm of the density of `scaled_inverse_chisqr(50, 1)` (C76) at `theta(1)`. -/
theorem C82_car1_likelihood (srt : List ℝ → List ℕ) {n : ℕ} (hn : 2 ≤ n) {t : Fin n → ℝ} (ht : StrictMono t) (e : Fin n → ℝ) (θ : List ℝ)
    (hθ : 4 ≤ θ.length) (h0 : at0 θ 0 ≠ 0) {dmin span : ℝ} (hd : IsMinGap t dmin) (hsp : IsSpan t span) :
    ∃ f, IsDensity (dataLaw (fun d => at0 θ 0 ^ 2 * Real.exp (-Real.exp (at0 θ 3) * d)) (at0 θ 2) t fun i => √(at0 θ 1) * e i) f ∧
      ∀ y, Car1Bounds (10 * √(sampleVar y)) (1 / dmin) (1 / span) θ →
        ld1 srt t y e θ = .ok (.fin (Real.log (f y) + n / 2 * Real.log (2 * Real.pi) + Real.log (scaledInvChiDensity 50 1 (at0 θ 1)))) := by
  have hexp := Real.exp_pos (at0 θ 3)
  have hg : GoodAcf fun d => at0 θ 0 ^ 2 * Real.exp (-Real.exp (at0 θ 3) * d) := by
    have hs : 0 < 2 * at0 θ 0 ^ 2 * Real.exp (at0 θ 3) := by positivity
    have := car1_good hs hexp
    have e1 : car1Acf (2 * at0 θ 0 ^ 2 * Real.exp (at0 θ 3)) (Real.exp (at0 θ 3)) =
        fun d => at0 θ 0 ^ 2 * Real.exp (-Real.exp (at0 θ 3) * d) := by
      funext d; rw [car1Acf]; congr 1; field_simp
    rwa [e1] at this
  obtain ⟨f, hf, hl⟩ := dataLaw_density hg ht (at0 θ 2) fun i => √(at0 θ 1) * e i
  refine ⟨f, hf, fun y hb => ?_⟩
  have hpos : 0 < at0 θ 1 := by have := hb.err_lo; linarith
  obtain ⟨dmin', span', s, g1, g2, g3, g4⟩ := C05_car1_logpost srt hn ht y e θ hθ
  obtain ⟨s', g5⟩ := g4 (by rw [g1.unique hd, g2.unique hsp]; exact hb) (Or.inl h0)
  rw [ld1, g3, res_bind_ok, g5, hl, logPrior_density hpos]
  rfl

/-- the example data and parameters -/
example (srt : List ℝ → List ℕ) {dmin span : ℝ} (hd : IsMinGap exT dmin) (hsp : IsSpan exT span) :
    ∃ f, IsDensity (dataLaw (fun d => at0 [1, 1, 0, -1] 0 ^ 2 * Real.exp (-Real.exp (at0 [1, 1, 0, -1] 3) * d)) (at0 [1, 1, 0, -1] 2) exT
      fun i => √(at0 [1, 1, 0, -1] 1) * (fun _ => 1) i) f ∧
      ld1 srt exT exY (fun _ => 1) [1, 1, 0, -1] = .ok (.fin (Real.log (f exY) + (3 : ℕ) / 2 * Real.log (2 * Real.pi) +
        Real.log (scaledInvChiDensity 50 1 (at0 [1, 1, 0, -1] 1)))) := by
  obtain ⟨f, h1, h2⟩ := C82_car1_likelihood srt (by norm_num) exT_mono (fun _ => 1) [1, 1, 0, -1] (by simp) (by simp [at0]) hd hsp
  exact ⟨f, h1, h2 exY (ex_car1_bounds hd hsp)⟩

/-- **C82, CARMA.** The same for CARp, CARMA(p,q) with `q < p` and ZCARMA: the process has the different roots read from `theta`, the
moving-average polynomial of the kind and variance `theta(0)²`. For ZCARMA the logarithm of the logistic density of `theta(p+3)` is
added (`C82_logit`). (As in C06 the statement for ZCAR has moving-average polynomial 1: see C20.) -/
theorem C82_carma_likelihood (srt : List ℝ → List ℕ) {n : ℕ} (hn : 2 ≤ n) {t : Fin n → ℝ} (ht : StrictMono t) (y e : Fin n → ℝ) {p : ℕ}
    (hp : 2 ≤ p) (kind : Kind) (hk : OrderOk p kind) (θ : List ℝ) (hθ : npar p kind ≤ θ.length) (h0 : at0 θ 0 ≠ 0) {dmin span : ℝ}
    (hd : IsMinGap t dmin) (hsp : IsSpan t span) {roots : List ℂ} (hr : arRoots p θ = .ok roots)
    (hb : CarpBounds (10 * √(sampleVar y)) (1 / dmin) (1 / span) roots θ) :
    ∃ (ω : Fin p → ℂ) (ma : List ℝ) (lo hi : ℝ) (f : (Fin n → ℝ) → ℝ), List.ofFn ω = roots ∧
      ∏ k, (X - C (ω k)) = (factorPoly (at0 θ) 3 p).map Complex.ofRealHom ∧ (∀ z, maEval ma z = maPolySpec kind p lo hi θ z) ∧
      IsDensity (dataLaw (fun d => at0 θ 0 ^ 2 * (carmaAcf 1 ω ma d / carmaAcf 1 ω ma 0)) (at0 θ 2) t fun i => √(at0 θ 1) * e i) f ∧
      ldp kind p srt t y e θ = .ok (.fin (Real.log (f y) + n / 2 * Real.log (2 * Real.pi) + (Real.log (scaledInvChiDensity 50 1 (at0 θ 1)) +
        if kind = .zcarma then Real.log (logisticDensity (at0 θ (p + 3))) else 0))) := by
  obtain ⟨dmin', span', s, lo, hi, g1, g2, -, -, -, g3, -, roots', g4, g5⟩ := C06_carma_logpost srt hn ht y e hp kind hk θ hθ
  cases hr.symm.trans g4
  obtain ⟨ω, ma, s', k1, k2, k3, k4, k5, k6, k7⟩ := g5 (by rw [g1.unique hd, g2.unique hsp]; exact hb) (Or.inl h0)
  have hpos : 0 < at0 θ 1 := by have := hb.err_lo; linarith
  have hv : 0 < carmaAcf 1 ω ma 0 := carmaAcf_pos k2 one_pos k4.le (head_ne k5)
  have hs : 0 < at0 θ 0 ^ 2 / carmaAcf 1 ω ma 0 := by positivity
  have eR : carmaAcf (at0 θ 0 ^ 2 / carmaAcf 1 ω ma 0) ω ma = fun d => at0 θ 0 ^ 2 * (carmaAcf 1 ω ma d / carmaAcf 1 ω ma 0) := by
    funext d; rw [carmaAcf_scale]; ring
  obtain ⟨f, hf, hl⟩ := dataLaw_density (eR ▸ carma_good k2 hs k4.le (head_ne k5)) ht (at0 θ 2) fun i => √(at0 θ 1) * e i
  refine ⟨ω, ma, lo, hi, f, k1, k3, k6, hf, ?_⟩
  have hz : logitPrior kind p θ = if kind = .zcarma then Real.log (logisticDensity (at0 θ (p + 3))) else 0 := by
    cases kind <;> simp [logitPrior, log_logistic]
  rw [ldp, g3, res_bind_ok, k7, hl, logPrior_density hpos, hz]
  rfl

/-- the example parameters of CAR(2), CARMA(2,1) and ZCARMA(2) are inside the bounds of the example data: see the example after
`C06_carma_logpost`; the standard deviation is not zero -/
example : ∀ θ ∈ [[1, 1, 0, Real.log 2, Real.log 3], [1, 1, 0, Real.log 2, Real.log 3, 0.3]], at0 θ 0 ≠ 0 ∧ npar 2 .carp ≤ θ.length := by
  intro θ hθ
  simp at hθ
  rcases hθ with rfl | rfl <;> simp [at0, npar]

/-- **C82, prior of ZCARMA.** If `kappa` is uniform between its bounds, then its normalised logit, the parameter of ZCARMA, has the
logistic density which `LogPrior` adds. -/
theorem C82_logit {lo hi : ℝ} (h : lo < hi) :
    Draws ⟨.uniform lo hi, fun k => .ok (Real.log ((k - lo) / (hi - lo) / (1 - (k - lo) / (hi - lo))))⟩ logisticDensity := by
  have hD : 0 < hi - lo := sub_pos.mpr h
  refine draws_of (c := 1) (S := Set.Ioo lo hi) (T := Set.univ) (ψ := fun x => lo + (hi - lo) * (1 + Real.exp (-x))⁻¹)
    (ψ' := fun x => (hi - lo) * logisticDensity x) (uniform_law lo hi) (uniform_prob h) ?_ MeasurableSet.univ ?_
    (fun y hy => (hy trivial).elim) (fun _ _ => rfl) (fun _ _ => trivial) ?_ ?_ ?_ ?_ ?_
  · exact (measurable_const.mul (measurable_one.indicator measurableSet_Ico)).aemeasurable
  · filter_upwards [ae_ne lo] with x hx hS
    rw [Set.indicator_of_notMem, mul_zero]
    exact fun h' => hS ⟨lt_of_le_of_ne h'.1 (Ne.symm hx), h'.2⟩
  · intro x _
    have he := Real.exp_pos (-x)
    have h1 : (1 + Real.exp (-x))⁻¹ < 1 := inv_lt_one_of_one_lt₀ (by linarith)
    have h2 : 0 < (1 + Real.exp (-x))⁻¹ := by positivity
    exact ⟨by nlinarith, by nlinarith⟩
  · intro k hk
    have h1 : 0 < (k - lo) / (hi - lo) := div_pos (sub_pos.mpr hk.1) hD
    have h2 : (k - lo) / (hi - lo) < 1 := (div_lt_one hD).mpr (by linarith [hk.2])
    have hu : k = lo + (hi - lo) * ((k - lo) / (hi - lo)) := by field_simp; ring
    show lo + (hi - lo) * (1 + Real.exp (-Real.log _))⁻¹ = k
    rw [Real.exp_neg, Real.exp_log (div_pos h1 (by linarith))]
    generalize (k - lo) / (hi - lo) = u at *
    rw [hu]
    have : 1 - u ≠ 0 := by linarith
    have h3 : u ≠ 0 := h1.ne'
    congr 2
    rw [inv_div]
    field_simp
    ring
  · intro x _
    have he := Real.exp_pos (-x)
    show Real.log _ = x
    have e1 : (lo + (hi - lo) * (1 + Real.exp (-x))⁻¹ - lo) / (hi - lo) = (1 + Real.exp (-x))⁻¹ := by field_simp; ring
    have e2 : (1 + Real.exp (-x))⁻¹ / (1 - (1 + Real.exp (-x))⁻¹) = Real.exp x := by
      rw [Real.exp_neg] at *
      have := Real.exp_pos x
      field_simp
      ring
    rw [e1, e2, Real.log_exp]
  · intro x _
    have he := Real.exp_pos (-x)
    have h1 : HasDerivAt (fun x => 1 + Real.exp (-x)) (-Real.exp (-x)) x := by
      simpa using ((hasDerivAt_neg x).exp).const_add 1
    have h2 := ((h1.inv (by positivity)).const_mul (hi - lo)).const_add lo
    have e1 : (hi - lo) * (- -Real.exp (-x) / (1 + Real.exp (-x)) ^ 2) = (hi - lo) * logisticDensity x := by rw [neg_neg, logisticDensity]
    rw [e1] at h2
    exact h2
  · intro x _
    have he := Real.exp_pos (-x)
    have h1 : (1 + Real.exp (-x))⁻¹ < 1 := inv_lt_one_of_one_lt₀ (by linarith)
    have h2 : 0 < (1 + Real.exp (-x))⁻¹ := by positivity
    have hl := logistic_pos x
    rw [abs_of_pos (mul_pos hD hl), Set.indicator_of_mem (Set.mem_Ico.mpr ⟨by nlinarith, by nlinarith⟩), Pi.one_apply, mul_one, one_mul,
      ENNReal.ofReal_mul hD.le, mul_comm, ← mul_assoc, ENNReal.inv_mul_cancel (by simpa using hD) (by simp), one_mul]

/-- bounds of `kappa` as the constructor sets them for the example data would do; here the interval from 1/10 to 1 -/
example : Draws ⟨.uniform 0.1 1, fun k => .ok (Real.log ((k - 0.1) / (1 - 0.1) / (1 - (k - 0.1) / (1 - 0.1))))⟩ logisticDensity :=
  C82_logit (by norm_num)

end Verif.Props
