import Verif.Theory.KFpRefine
import Verif.Spec.Carma
import Mathlib.LinearAlgebra.Lagrange
import Mathlib.LinearAlgebra.Vandermonde
import Mathlib.Analysis.SpecialFunctions.Integrals.Basic
import Mathlib.LinearAlgebra.LinearIndependent.Lemmas
import Mathlib.Analysis.Analytic.Uniqueness
import Mathlib.Analysis.Complex.RealDeriv
import Mathlib.Analysis.SpecialFunctions.Exp

/-! Helper theory: partial fractions and exponential integrals for the CARMA state space. -/

namespace Verif.Theory

open Verif.Model Verif.Spec Finset Matrix MeasureTheory

variable {p : ℕ}

/-! ### conjugation -/

/-- the permutation of the roots given by conjugation -/
lemma Admissible.exists_perm {ω : Fin p → ℂ} (h : Admissible ω) : ∃ τ : Equiv.Perm (Fin p), ∀ k, ω (τ k) = star (ω k) := by
  choose f hf using h.conj
  have hinv : Function.Involutive f := by
    intro k
    apply h.inj
    rw [hf, hf, star_star]
  exact ⟨hinv.toPerm, fun k => hf k⟩

lemma arDeriv_conj {ω : Fin p → ℂ} {τ : Equiv.Perm (Fin p)} (hτ : ∀ k, ω (τ k) = star (ω k)) (k : Fin p) :
    arDeriv ω (τ k) = star (arDeriv ω k) := by
  simp only [arDeriv]
  rw [star_prod]
  refine (Finset.prod_bij (fun l _ => τ l) ?_ ?_ ?_ ?_).symm
  · intro l hl; simp only [Finset.mem_erase, Finset.mem_univ, and_true] at hl ⊢
    exact fun h => hl (τ.injective h)
  · intro a _ b _ h; exact τ.injective h
  · intro l hl
    refine ⟨τ.symm l, ?_, by simp⟩
    simp only [Finset.mem_erase, Finset.mem_univ, and_true] at hl ⊢
    intro h; apply hl; rw [← h]; simp
  · intro l _; rw [hτ, hτ, star_sub]

lemma maEval_conj (β : List ℝ) (z : ℂ) : maEval β (star z) = star (maEval β z) := by
  simp only [maEval, star_sum, star_mul', star_pow]
  refine Finset.sum_congr rfl fun i _ => ?_
  congr 1
  exact (Complex.conj_ofReal _).symm

lemma arDeriv_ne_zero {ω : Fin p → ℂ} (h : Function.Injective ω) (k : Fin p) : arDeriv ω k ≠ 0 := by
  rw [arDeriv, Finset.prod_ne_zero_iff]
  intro l hl
  rw [sub_ne_zero]
  exact fun hh => (Finset.mem_erase.mp hl).1 (h hh).symm

/-! ### exponential sums -/

/-- `∑ c_k exp(ω_k s)` -/
noncomputable def expSum (ω c : Fin p → ℂ) (s : ℝ) : ℂ := ∑ k, c k * Complex.exp (ω k * s)

lemma expSum_continuous (ω c : Fin p → ℂ) : Continuous (expSum ω c) := by
  unfold expSum; fun_prop

lemma expSum_mul_star (ω c : Fin p → ℂ) (s d : ℝ) :
    expSum ω c (s + d) * star (expSum ω c s)
      = ∑ i, ∑ j, c i * star (c j) * Complex.exp (ω i * d) * Complex.exp ((ω i + star (ω j)) * s) := by
  simp only [expSum, star_sum, Finset.sum_mul_sum]
  refine Finset.sum_congr rfl fun i _ => Finset.sum_congr rfl fun j _ => ?_
  have h1 : star (Complex.exp (ω j * s)) = Complex.exp (star (ω j) * s) := by
    rw [← starRingEnd_apply, ← Complex.exp_conj]; simp
  rw [star_mul', h1]
  push_cast
  rw [mul_add, Complex.exp_add, add_mul, Complex.exp_add]; ring

lemma pair_re_neg {ω : Fin p → ℂ} (h : ∀ k, (ω k).re < 0) (i j : Fin p) : (ω i + star (ω j)).re < 0 := by
  have h1 := h i; have h2 := h j
  simp only [Complex.add_re, Complex.star_def, Complex.conj_re]; linarith

lemma pair_ne_zero {ω : Fin p → ℂ} (h : ∀ k, (ω k).re < 0) (i j : Fin p) : ω i + star (ω j) ≠ 0 := by
  intro h0
  have := pair_re_neg h i j
  rw [h0] at this; simp at this

lemma expSum_corr_integrable {ω : Fin p → ℂ} (h : ∀ k, (ω k).re < 0) (c : Fin p → ℂ) (d : ℝ) :
    IntegrableOn (fun s : ℝ => expSum ω c (s + d) * star (expSum ω c s)) (Set.Ioi 0) := by
  simp only [expSum_mul_star]
  refine MeasureTheory.integrable_finsetSum _ fun i _ => MeasureTheory.integrable_finsetSum _ fun j _ => ?_
  exact (integrableOn_exp_mul_complex_Ioi (pair_re_neg h i j) 0).const_mul _

lemma expSum_corr {ω : Fin p → ℂ} (h : ∀ k, (ω k).re < 0) (c : Fin p → ℂ) (d : ℝ) :
    ∫ s in Set.Ioi (0:ℝ), expSum ω c (s + d) * star (expSum ω c s)
      = ∑ i, ∑ j, c i * star (c j) * Complex.exp (ω i * d) * (-1 / (ω i + star (ω j))) := by
  simp only [expSum_mul_star]
  have hint : ∀ i j, Integrable (fun s : ℝ => c i * star (c j) * Complex.exp (ω i * d) *
      Complex.exp ((ω i + star (ω j)) * s)) (volume.restrict (Set.Ioi 0)) := fun i j =>
    (integrableOn_exp_mul_complex_Ioi (pair_re_neg h i j) 0).const_mul _
  rw [MeasureTheory.integral_finsetSum _ fun i _ => MeasureTheory.integrable_finsetSum _ fun j _ => hint i j]
  refine Finset.sum_congr rfl fun i _ => ?_
  rw [MeasureTheory.integral_finsetSum _ fun j _ => hint i j]
  refine Finset.sum_congr rfl fun j _ => ?_
  rw [MeasureTheory.integral_const_mul, integral_exp_mul_complex_Ioi (pair_re_neg h i j)]
  simp

lemma normSq_mul_star (z : ℂ) : z * star z = ((Complex.normSq z : ℝ) : ℂ) := by
  rw [Complex.star_def, Complex.mul_conj]

/-- quadratic form of the stationary covariance -/
lemma expSum_energy {ω : Fin p → ℂ} (h : ∀ k, (ω k).re < 0) (c : Fin p → ℂ) :
    ∑ i, ∑ j, c i * star (c j) * (-1 / (ω i + star (ω j)))
      = ((∫ s in Set.Ioi (0:ℝ), Complex.normSq (expSum ω c s) : ℝ) : ℂ) := by
  have := expSum_corr h c 0
  simp only [add_zero, normSq_mul_star, Complex.ofReal_zero, mul_zero, Complex.exp_zero, mul_one] at this
  rw [← this, integral_complex_ofReal]

/-- quadratic form of the process noise -/
lemma expSum_energy_interval {ω : Fin p → ℂ} (h : ∀ k, (ω k).re < 0) (c : Fin p → ℂ) (d : ℝ) :
    ∑ i, ∑ j, c i * star (c j) * ((Complex.exp ((ω i + star (ω j)) * d) - 1) / (ω i + star (ω j)))
      = ((∫ s in (0:ℝ)..d, Complex.normSq (expSum ω c s) : ℝ) : ℂ) := by
  rw [← intervalIntegral.integral_ofReal]
  have h2 : ∀ s : ℝ, ((Complex.normSq (expSum ω c s) : ℝ) : ℂ)
      = ∑ i, ∑ j, c i * star (c j) * Complex.exp ((ω i + star (ω j)) * s) := by
    intro s
    have := expSum_mul_star ω c s 0
    simp only [add_zero, normSq_mul_star, Complex.ofReal_zero, mul_zero, Complex.exp_zero, mul_one] at this
    exact this
  simp_rw [h2]
  have hint : ∀ i j, IntervalIntegrable (fun s : ℝ => c i * star (c j) *
      Complex.exp ((ω i + star (ω j)) * s)) volume 0 d := by
    intro i j
    apply Continuous.intervalIntegrable; fun_prop
  rw [intervalIntegral.integral_finsetSum fun i _ => ?_]
  · refine Finset.sum_congr rfl fun i _ => ?_
    rw [intervalIntegral.integral_finsetSum fun j _ => hint i j]
    refine Finset.sum_congr rfl fun j _ => ?_
    rw [intervalIntegral.integral_const_mul, integral_exp_mul_complex (pair_ne_zero h i j)]
    simp
  · apply Continuous.intervalIntegrable; fun_prop

/-- exponentials with different rates are linearly independent on every interval -/
lemma expSum_eq_zero {ω : Fin p → ℂ} (hinj : Function.Injective ω) {c : Fin p → ℂ} {d : ℝ} (hd : 0 < d)
    (h : ∀ s ∈ Set.Ioo 0 d, expSum ω c s = 0) : c = 0 := by
  have hana : AnalyticOnNhd ℝ (expSum ω c) Set.univ := by
    intro x _
    unfold expSum
    have : ∀ k ∈ (univ : Finset (Fin p)), AnalyticAt ℝ (fun s : ℝ => c k * Complex.exp (ω k * s)) x := by
      intro k _
      have h1 : AnalyticAt ℝ (fun s : ℝ => ω k * (s : ℂ)) x :=
        analyticAt_const.mul (Complex.ofRealCLM.analyticAt x)
      have h2 : AnalyticAt ℝ Complex.exp (ω k * (x:ℂ)) := (analyticAt_cexp (z := ω k * (x:ℂ))).restrictScalars
      exact analyticAt_const.mul (AnalyticAt.comp (g := Complex.exp) (f := fun s : ℝ => ω k * (s:ℂ)) h2 h1)
    exact Finset.analyticAt_fun_sum _ this
  have hzero : expSum ω c = 0 := by
    have hev : expSum ω c =ᶠ[nhds (d/2)] 0 := by
      filter_upwards [Ioo_mem_nhds (a := 0) (b := d) (x := d/2) (by linarith) (by linarith)] with s hs
      exact h s hs
    exact hana.eq_of_eventuallyEq (g := 0) (fun x _ => analyticAt_const) hev
  -- monoid homomorphisms
  let φ : Fin p → (Multiplicative ℝ →* ℂ) := fun k =>
    { toFun := fun s => Complex.exp (ω k * (Multiplicative.toAdd s : ℝ))
      map_one' := by simp
      map_mul' := by
        intro a b
        rw [← Complex.exp_add]; congr 1
        simp [mul_add] }
  have hφ : Function.Injective φ := by
    intro a b hab
    apply hinj
    have h1 : ∀ s : ℝ, Complex.exp (ω a * s) = Complex.exp (ω b * s) := fun s =>
      congrArg (fun f : Multiplicative ℝ →* ℂ => f (Multiplicative.ofAdd s)) hab
    have hd : ∀ k, HasDerivAt (fun s : ℝ => Complex.exp (ω k * s)) (ω k) 0 := by
      intro k
      have h2 : HasDerivAt (fun s : ℝ => ω k * (s : ℂ)) (ω k) 0 := by
        simpa using (Complex.ofRealCLM.hasDerivAt (x := (0:ℝ))).const_mul (ω k)
      simpa using h2.cexp
    have h3 : (fun s : ℝ => Complex.exp (ω a * s)) = fun s : ℝ => Complex.exp (ω b * s) := funext h1
    have h4 := hd a
    rw [h3] at h4
    exact h4.unique (hd b)
  have hli := (linearIndependent_monoidHom (Multiplicative ℝ) ℂ).comp φ hφ
  rw [Fintype.linearIndependent_iff] at hli
  have := hli c (by
    funext s
    have h1 := congrFun hzero (Multiplicative.toAdd s)
    simp only [expSum, Pi.zero_apply] at h1
    rw [Finset.sum_apply]; exact h1)
  exact funext this

lemma expSum_energy_pos {ω : Fin p → ℂ} (hinj : Function.Injective ω) {c : Fin p → ℂ} (hc : c ≠ 0) {d : ℝ}
    (hd : 0 < d) : 0 < ∫ s in (0:ℝ)..d, Complex.normSq (expSum ω c s) := by
  have hcont : Continuous fun s => Complex.normSq (expSum ω c s) :=
    Complex.continuous_normSq.comp (expSum_continuous ω c)
  have hex : ∃ s ∈ Set.Ioo 0 d, expSum ω c s ≠ 0 := by
    by_contra hno
    push Not at hno
    exact hc (expSum_eq_zero hinj hd hno)
  obtain ⟨s, hs, hne⟩ := hex
  exact intervalIntegral.integral_pos hd hcont.continuousOn (fun s _ => Complex.normSq_nonneg _)
    ⟨s, ⟨hs.1.le, hs.2.le⟩, Complex.normSq_pos.mpr hne⟩

end Verif.Theory
