import Verif.Theory.Alias
import Verif.Spec.Identify

/-! Helper theory for C86: a family of CARMA(2,1) processes in which a root of the moving average cancels one of the autoregression. -/

namespace Verif.Theory

open Verif.Model Verif.Spec Finset Matrix Polynomial
open scoped Classical

variable {σ s μ a r : ℝ}

lemma cancel_roots (ha : 0 < a) (hr : 0 < r) (hne : a ≠ r) :
    (fun k : Fin 2 => arRootSpec 2 (at0 (cancelling σ s μ a r)) k) = ![((-(max a r) : ℝ) : ℂ), ((-(min a r) : ℝ) : ℂ)] := by
  have h3 : Real.exp (at0 (cancelling σ s μ a r) 3) = a * r := by
    simp only [at0, cancelling, List.getD_cons_succ, List.getD_cons_zero]; exact Real.exp_log (by positivity)
  have h4 : Real.exp (at0 (cancelling σ s μ a r) 4) = a + r := by
    simp only [at0, cancelling, List.getD_cons_succ, List.getD_cons_zero]; exact Real.exp_log (by positivity)
  have e : (a + r) ^ 2 - 4 * (a * r) = (a - r) ^ 2 := by ring
  have hd : 0 < (a + r) ^ 2 - 4 * (a * r) := by rw [e]; exact sq_pos_of_ne_zero (sub_ne_zero.mpr hne)
  have hs : √((a + r) ^ 2 - 4 * (a * r)) = |a - r| := by rw [e, Real.sqrt_sq_eq_abs]
  have hM := max_add_min a r
  have hm := max_sub_min_eq_abs' a r
  funext k
  fin_cases k
  · simp only [arRootSpec]
    norm_num [h3, h4, hd, hs]
    apply Complex.ext
    · simp; linarith
    · simp
  · simp only [arRootSpec]
    norm_num [h3, h4, hd, hs]
    apply Complex.ext
    · simp; linarith
    · simp

lemma cancel_ma (hr : 0 < r) (lo hi : ℝ) (z : ℂ) :
    maEval [1, r⁻¹] z = maPolySpec (.carma 1) 2 lo hi (cancelling σ s μ a r) z := by
  have h5 : Real.exp (at0 (cancelling σ s μ a r) 5) = r := by
    simp only [at0, cancelling, List.getD_cons_succ, List.getD_cons_zero]; exact Real.exp_log hr
  have hc' : (r : ℂ) ≠ 0 := Complex.ofReal_ne_zero.mpr hr.ne'
  simp [maEval, maPolySpec, factorPoly, Finset.sum_range_succ, h5]
  field_simp
  ring

lemma real_adm {u v : ℝ} (hv : 0 < v) (huv : v < u) : Admissible (![((-u : ℝ) : ℂ), ((-v : ℝ) : ℂ)] : Fin 2 → ℂ) := by
  refine ⟨?_, ?_, ?_⟩
  · intro i j h
    fin_cases i <;> fin_cases j <;> simp at h ⊢ <;> exfalso <;> linarith
  · intro k; fin_cases k <;> simp <;> linarith
  · intro k
    fin_cases k
    · exact ⟨0, by simp⟩
    · exact ⟨1, by simp⟩

/-- the autocovariance is a multiple of that of CAR(1) with the other root -/
lemma cancel_acf (ha : 0 < a) (hr : 0 < r) (hne : a ≠ r) (lo hi d : ℝ) :
    responseAcf (fun k : Fin 2 => arRootSpec 2 (at0 (cancelling σ s μ a r)) k) (maPolySpec (.carma 1) 2 lo hi (cancelling σ s μ a r)) d =
      (2 * a * r ^ 2)⁻¹ * Real.exp (-a * d) := by
  have ha0 : (a : ℂ) ≠ 0 := Complex.ofReal_ne_zero.mpr ha.ne'
  have hr0 : (r : ℂ) ≠ 0 := Complex.ofReal_ne_zero.mpr hr.ne'
  have hd0 : (a : ℂ) - r ≠ 0 := by rw [← Complex.ofReal_sub]; exact Complex.ofReal_ne_zero.mpr (sub_ne_zero.mpr hne)
  have hs0 : (a : ℂ) + r ≠ 0 := by rw [← Complex.ofReal_add]; exact Complex.ofReal_ne_zero.mpr (by positivity)
  have hm : ∀ z, maEval [1, r⁻¹] z = 1 + (r : ℂ)⁻¹ * z := by
    intro z; simp [maEval, Finset.sum_range_succ]
  have hz : maEval [1, r⁻¹] (-(r : ℂ)) = 0 := by rw [hm]; field_simp; ring
  have hfin : ∀ x : ℂ, maEval [1, r⁻¹] (-(a : ℂ)) * maEval [1, r⁻¹] (a : ℂ) * x / (-((a : ℂ) - r) * (((a : ℂ) + a) * (a + r))) = (2 * (a : ℂ) * r ^ 2)⁻¹ * x := by
    intro x
    rw [hm, hm]
    field_simp
    ring
  have hre : ((2 * (a : ℂ) * r ^ 2)⁻¹ * Complex.exp (-(a : ℂ) * d)).re = (2 * a * r ^ 2)⁻¹ * Real.exp (-a * d) := by
    have : ((2 * (a : ℂ) * r ^ 2)⁻¹ * Complex.exp (-(a : ℂ) * d)) = (((2 * a * r ^ 2)⁻¹ * Real.exp (-a * d) : ℝ) : ℂ) := by push_cast; rfl
    rw [this, Complex.ofReal_re]
  have u0 : univ.erase (0 : Fin 2) = {1} := by decide
  have u1 : univ.erase (1 : Fin 2) = {0} := by decide
  rw [cancel_roots ha hr hne, ← impulse_response (fun z => cancel_ma hr lo hi z)]
  rcases lt_or_gt_of_ne hne with h | h
  · rw [max_eq_right h.le, min_eq_left h.le, carmaAcf_closed (real_adm ha h) 1 (by simp), one_mul, Fin.sum_univ_two, Fin.prod_univ_two, Fin.prod_univ_two,
      arDeriv, arDeriv, u0, u1, Finset.prod_singleton, Finset.prod_singleton]
    simp only [cons_val_zero, cons_val_one, Complex.ofReal_neg, hz, zero_mul, zero_div, zero_add, neg_neg]
    rw [← hre, ← hfin]
    congr 2
    ring
  · rw [max_eq_left h.le, min_eq_right h.le, carmaAcf_closed (real_adm hr h) 1 (by simp), one_mul, Fin.sum_univ_two, Fin.prod_univ_two, Fin.prod_univ_two,
      arDeriv, arDeriv, u0, u1, Finset.prod_singleton, Finset.prod_singleton]
    simp only [cons_val_zero, cons_val_one, Complex.ofReal_neg, hz, zero_mul, zero_div, add_zero, neg_neg]
    rw [← hre, ← hfin]
    congr 2
    ring

lemma cancel_corr (ha : 0 < a) (hr : 0 < r) (hne : a ≠ r) (lo hi d : ℝ) :
    responseAcf (fun k : Fin 2 => arRootSpec 2 (at0 (cancelling σ s μ a r)) k) (maPolySpec (.carma 1) 2 lo hi (cancelling σ s μ a r)) d /
      responseAcf (fun k : Fin 2 => arRootSpec 2 (at0 (cancelling σ s μ a r)) k) (maPolySpec (.carma 1) 2 lo hi (cancelling σ s μ a r)) 0 =
      Real.exp (-a * d) := by
  have hc : 0 < 2 * a * r ^ 2 := by positivity
  rw [cancel_acf ha hr hne, cancel_acf ha hr hne]
  simp only [mul_zero, Real.exp_zero, mul_one]
  field_simp

/-- prior bounds of such parameters -/
lemma cancel_bounds {sd fmax fmin : ℝ} (ha : 0 < a) (hr : 0 < r) (h0 : 0 ≤ σ) (h1 : σ ≤ sd) (h2 : 0.5 ≤ s) (h3 : s ≤ 2)
    (h4 : fmin < a / (2 * Real.pi)) (h5 : a / (2 * Real.pi) < fmax) (h6 : fmin < r / (2 * Real.pi)) (h7 : r / (2 * Real.pi) < fmax)
    (h8 : 1e-4 * (a + r) < |a - r|) :
    CarpBounds sd fmax fmin (List.ofFn fun k : Fin 2 => arRootSpec 2 (at0 (cancelling σ s μ a r)) k) (cancelling σ s μ a r) := by
  have hne : a ≠ r := by
    rintro rfl
    rw [sub_self, abs_zero] at h8
    linarith [show (0 : ℝ) ≤ 1e-4 * (a + a) by positivity]
  rw [cancel_roots ha hr hne]
  have hl : List.ofFn (![((-(max a r) : ℝ) : ℂ), ((-(min a r) : ℝ) : ℂ)] : Fin 2 → ℂ) = [((-(max a r) : ℝ) : ℂ), ((-(min a r) : ℝ) : ℂ)] := by simp
  rw [hl]
  have hmem : ∀ z ∈ [((-(max a r) : ℝ) : ℂ), ((-(min a r) : ℝ) : ℂ)], z = ((-a : ℝ) : ℂ) ∨ z = ((-r : ℝ) : ℂ) := by
    intro z hz
    rcases le_total a r with h | h
    · rw [max_eq_right h, min_eq_left h] at hz; simpa [or_comm] using hz
    · rw [max_eq_left h, min_eq_right h] at hz; simpa using hz
  have hpi := Real.pi_pos
  have hf : 0 < fmax := lt_trans (by positivity) h5
  refine ⟨⟨h0, h1, h2, h3⟩, ?_, ?_, ?_, ?_⟩
  · intro z hz
    rcases hmem z hz with rfl | rfl <;> rw [Complex.ofReal_im] <;> simpa using hf
  · intro z hz
    rcases hmem z hz with rfl | rfl <;> rw [Complex.ofReal_re, neg_neg]
    exacts [⟨h4, h5⟩, ⟨h6, h7⟩]
  · simp only [List.pairwise_cons, List.mem_singleton, forall_eq, List.not_mem_nil, false_imp_iff, implies_true, List.Pairwise.nil, and_true]
    right
    rw [← Complex.ofReal_sub, ← Complex.ofReal_add, Complex.norm_real, Complex.norm_real, Real.norm_eq_abs, Real.norm_eq_abs]
    have e1 : |-(max a r) - -(min a r)| = |a - r| := by
      rw [← max_sub_min_eq_abs' a r, ← abs_neg, ← abs_of_nonneg (sub_nonneg.mpr (min_le_max (a := a) (b := r)))]
      congr 1
      ring
    have e2 : |-(max a r) + -(min a r)| = a + r := by
      rw [← neg_add, max_add_min, abs_neg, abs_of_pos (by linarith)]
    rw [e1, e2, lt_div_iff₀ (by linarith)]
    exact h8
  · intro i x y hx hy
    have hx' := hmem x (List.mem_of_getElem? hx)
    have hy' := hmem y (List.mem_of_getElem? hy)
    have i1 : x.im = 0 := by rcases hx' with rfl | rfl <;> exact Complex.ofReal_im _
    have i2 : y.im = 0 := by rcases hy' with rfl | rfl <;> exact Complex.ofReal_im _
    rw [i1, i2]
    norm_num

end Verif.Theory
