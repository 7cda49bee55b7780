import Verif.Theory.Spectrum
import Verif.Props.Param

/-! Property C43: the power spectrum and the autocovariance describe the same process. Property C48: Python's `carma_variance`. -/

namespace Verif.Props

open Verif.Model Verif.Spec Verif.Theory MeasureTheory

variable {p : ℕ}

/-- C43: Python's `_ar_coefs` computes the `p + 1` coefficients, highest power first, of the polynomial with the given roots. -/
theorem C43_ar_coefs {roots : List ℂ} (h : (roots.map star).Perm roots) :
    (Py.arCoefs roots).length = roots.length + 1 ∧ ∀ x, Py.polyval (Py.arCoefs roots) x = (roots.map fun r => x - r).prod :=
  ⟨by rw [Py.arCoefs, List.length_map, npPoly_length], arCoefs_eval h⟩

/-- C43: for these coefficients the power spectrum is `sigma^2` times the squared modulus of the Fourier transform of the impulse
response; no division by zero occurs. -/
theorem C43_fourier {ω : Fin p → ℂ} (h : Admissible ω) {ma : List ℝ} (hl : ma.length ≤ p) (sigma f : ℝ) :
    Py.powerSpectrum f sigma (Py.arCoefs (List.ofFn ω)) ma =
      .ok (sigma ^ 2 * ‖∫ s in Set.Ioi (0:ℝ), impulse ω ma s * Complex.exp (-(2 * Real.pi * Complex.I * f) * s)‖ ^ 2) := by
  have hperm : ((List.ofFn ω).map star).Perm (List.ofFn ω) := by
    obtain ⟨τ, hτ⟩ := Admissible.exists_perm h
    rw [List.map_ofFn]
    have e : star ∘ ω = ω ∘ τ := funext fun k => (hτ k).symm
    rw [e]
    exact Equiv.Perm.ofFn_comp_perm τ ω
  have hx : (2 * Real.pi * Complex.I * f : ℂ).re = 0 := by simp
  have hne : ∀ k, (2 * Real.pi * Complex.I * f : ℂ) - ω k ≠ 0 := by
    intro k hk
    have := h.stable k
    rw [← sub_eq_zero.mp hk, hx] at this
    exact lt_irrefl _ this
  have hprod : ((List.ofFn ω).map fun r => (2 * Real.pi * Complex.I * f : ℂ) - r).prod = ∏ k, ((2 * Real.pi * Complex.I * f : ℂ) - ω k) := by
    rw [List.map_ofFn, List.prod_ofFn]; rfl
  have hp : ∏ k, ((2 * Real.pi * Complex.I * f : ℂ) - ω k) ≠ 0 := Finset.prod_ne_zero_iff.mpr fun k _ => hne k
  simp only [Py.powerSpectrum]
  rw [polyval_reverse, arCoefs_eval hperm, hprod, dv_ok (by positivity), impulse_ft h hl hx, norm_div]
  congr 1
  rw [div_pow]; ring

/-- C43: it is the Fourier transform of the autocovariance (C07), `2 int_0^oo R(d) cos(2 pi f d) dd`. -/
theorem C43_autocovariance {ω : Fin p → ℂ} (h : Admissible ω) {ma : List ℝ} (hl : ma.length ≤ p) (sigma f : ℝ) :
    Py.powerSpectrum f sigma (Py.arCoefs (List.ofFn ω)) ma =
      .ok (2 * ∫ d in Set.Ioi (0:ℝ), carmaAcf (sigma ^ 2) ω ma d * Real.cos (2 * Real.pi * f * d)) := by
  rw [wiener_khinchin h, C43_fourier h hl]

/-- C43: in terms of what the code returns: the C++ `Variance` and the Python `power_spectrum` are a Fourier pair. -/
theorem C43_variance_pair {ω : Fin p → ℂ} (h : Admissible ω) {ma : List ℝ} (hl : ma.length ≤ p) (sigma f : ℝ) :
    ∃ R : ℝ → ℝ, (∀ d, variance ω ma sigma d = .ok (R d)) ∧ Py.powerSpectrum f sigma (Py.arCoefs (List.ofFn ω)) ma =
      .ok (2 * ∫ d in Set.Ioi (0:ℝ), R d * Real.cos (2 * Real.pi * f * d)) :=
  ⟨carmaAcf (sigma ^ 2) ω ma, variance_eq h hl sigma, C43_autocovariance h hl sigma f⟩

/-- three roots and two coefficients, as used by the theorems above -/
lemma ex_admissible3 : Admissible ![(-2 : ℂ), -1 + Complex.I, -1 - Complex.I] := by
  refine ⟨?_, ?_, ?_⟩
  · intro i j
    fin_cases i <;> fin_cases j <;> simp [Complex.ext_iff] <;> norm_num
  · intro k
    fin_cases k <;> simp
  · intro k
    fin_cases k
    · exact ⟨0, by simp⟩
    · exact ⟨2, by apply Complex.ext <;> simp⟩
    · exact ⟨1, by apply Complex.ext <;> simp⟩

example : Py.powerSpectrum 3 2 (Py.arCoefs (List.ofFn ![(-2 : ℂ), -1 + Complex.I, -1 - Complex.I])) [1, 0.5] =
    .ok (2 * ∫ d in Set.Ioi (0:ℝ), carmaAcf (2 ^ 2) ![(-2 : ℂ), -1 + Complex.I, -1 - Complex.I] [1, 0.5] d * Real.cos (2 * Real.pi * 3 * d)) :=
  C43_autocovariance ex_admissible3 (by simp) 2 3

/-- C48: Python's `carma_variance` is the autocovariance at the absolute lag, the value that the C++ `Variance` returns. -/
theorem C48_python_variance {ω : Fin p → ℂ} (h : Admissible ω) {ma : List ℝ} (hl : ma.length ≤ p) (sigma lag : ℝ) :
    Py.carmaVariance (sigma ^ 2) ω ma lag = .ok (carmaAcf (sigma ^ 2) ω ma |lag|) ∧
      Py.carmaVariance (sigma ^ 2) ω ma lag = variance ω ma sigma |lag| := by
  have main : Py.carmaVariance (sigma ^ 2) ω ma lag = .ok (carmaAcf (sigma ^ 2) ω ma |lag|) := by
    have hd : ∀ k, (-2 * (∏ l, if l ≠ k then (ω l - ω k) * (star (ω l) + ω k) else 1) * ((ω k).re : ℂ)) = varDenom ω k := by
      intro k; rw [varDenom]; ring
    have hm : ∀ z : ℂ, ∑ l ∈ Finset.range p, (((KFp.padMA p ma).getD l 0 : ℝ) : ℂ) * z ^ l = maEval ma z := by
      intro z
      rw [← maEval_append_zeros ma (p - ma.length), maEval]
      have : (ma ++ List.replicate (p - ma.length) 0).length = p := by simp; omega
      rw [this]; rfl
    simp only [Py.carmaVariance, hm, hd]
    rw [if_neg (fun ⟨k, hk⟩ => varDenom_ne_zero h k hk), carmaAcf_closed h _ hl]
    simp only [varDenom_eq h, neg_one_mul]
  exact ⟨main, by rw [main, variance_eq h hl]⟩

example : Py.carmaVariance (2 ^ 2) ![(-2 : ℂ), -1 + Complex.I, -1 - Complex.I] [1, 0.5] (-3) =
    variance ![(-2 : ℂ), -1 + Complex.I, -1 - Complex.I] [1, 0.5] 2 |(-3)| :=
  (C48_python_variance ex_admissible3 (by simp) 2 (-3)).2

/-- C48, a limit: coefficients beyond the `p`-th are silently ignored. -/
theorem C48_extra_ignored (ω : Fin p → ℂ) (ma extra : List ℝ) (hl : ma.length = p) (sigsqr lag : ℝ) :
    Py.carmaVariance sigsqr ω (ma ++ extra) lag = Py.carmaVariance sigsqr ω ma lag := by
  have hm : ∀ z : ℂ, ∑ l ∈ Finset.range p, (((KFp.padMA p (ma ++ extra)).getD l 0 : ℝ) : ℂ) * z ^ l =
      ∑ l ∈ Finset.range p, (((KFp.padMA p ma).getD l 0 : ℝ) : ℂ) * z ^ l := by
    intro z
    refine Finset.sum_congr rfl fun l hl' => ?_
    have h1 := Finset.mem_range.mp hl'
    rw [KFp.padMA, KFp.padMA, List.getD_eq_getElem?_getD, List.getD_eq_getElem?_getD, List.append_assoc,
      List.getElem?_append_left (by omega), List.getElem?_append_left (by omega)]
  simp only [Py.carmaVariance, hm]

/-- two roots, two coefficients and a third that changes nothing -/
example (sigsqr lag : ℝ) : Py.carmaVariance sigsqr ![(-2 : ℂ), -1] [1, 0.5, 7] lag = Py.carmaVariance sigsqr ![(-2 : ℂ), -1] [1, 0.5] lag :=
  C48_extra_ignored _ [1, 0.5] [7] rfl sigsqr lag

end Verif.Props
