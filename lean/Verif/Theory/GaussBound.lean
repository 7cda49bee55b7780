import Verif.Spec.Gauss
import Mathlib.Analysis.Matrix.PosDef
import Mathlib.Analysis.Matrix.Spectrum
import Mathlib.Algebra.Order.Star.Real

/-!
Bounds on the Gaussian log-density for a covariance `R + diagonal d` with `R` positive semidefinite and `d` bounded below.
-/

namespace Verif.Theory

open Matrix Verif.Spec

variable {n : ℕ} {R : Matrix (Fin n) (Fin n) ℝ} {d : Fin n → ℝ} {lo : ℝ}

theorem quad_diag (d w : Fin n → ℝ) : w ⬝ᵥ (diagonal d *ᵥ w) = ∑ i, d i * w i ^ 2 := by
  simp only [dotProduct, mulVec_diagonal]
  exact Finset.sum_congr rfl fun i _ => by ring

/-- `K ≥ lo` as a quadratic form. -/
theorem quad_ge (hR : R.PosSemidef) (hd : ∀ i, lo ≤ d i) (w : Fin n → ℝ) : lo * ∑ i, w i ^ 2 ≤ w ⬝ᵥ ((R + diagonal d) *ᵥ w) := by
  have h := hR.dotProduct_mulVec_nonneg w
  rw [star_trivial] at h
  rw [add_mulVec, dotProduct_add, quad_diag, Finset.mul_sum]
  have : ∑ i, lo * w i ^ 2 ≤ ∑ i, d i * w i ^ 2 := Finset.sum_le_sum fun i _ => mul_le_mul_of_nonneg_right (hd i) (sq_nonneg _)
  linarith

theorem cov_posDef (hR : R.PosSemidef) (h0 : 0 < lo) (hd : ∀ i, lo ≤ d i) : (R + diagonal d).PosDef :=
  Matrix.PosDef.posSemidef_add hR (posDef_diagonal_iff.mpr fun i => h0.trans_le (hd i))

/-- Eigenvalues lie between `lo` and the trace. -/
theorem eig_bounds (hR : R.PosSemidef) (h0 : 0 < lo) (hd : ∀ i, lo ≤ d i) (i : Fin n) :
    lo ≤ (cov_posDef hR h0 hd).isHermitian.eigenvalues i ∧ (cov_posDef hR h0 hd).isHermitian.eigenvalues i ≤ (R + diagonal d).trace := by
  have hK := cov_posDef hR h0 hd
  constructor
  · rw [hK.isHermitian.eigenvalues_eq]
    have h := quad_ge hR hd (hK.isHermitian.eigenvectorBasis i)
    have h1 : ∑ j, (hK.isHermitian.eigenvectorBasis i) j ^ 2 = 1 := by
      have := hK.isHermitian.eigenvectorBasis.orthonormal.1 i
      have h2 := EuclideanSpace.norm_sq_eq (hK.isHermitian.eigenvectorBasis i)
      rw [this] at h2
      simpa using h2.symm
    rw [h1, mul_one] at h
    simpa using h
  · have ht := hK.isHermitian.trace_eq_sum_eigenvalues
    rw [ht]
    exact Finset.single_le_sum (f := fun i => hK.isHermitian.eigenvalues i) (fun j _ => hK.posSemidef.eigenvalues_nonneg j) (Finset.mem_univ i)

theorem det_bounds (hR : R.PosSemidef) (h0 : 0 < lo) (hd : ∀ i, lo ≤ d i) :
    lo ^ n ≤ (R + diagonal d).det ∧ (R + diagonal d).det ≤ (R + diagonal d).trace ^ n := by
  have hK := cov_posDef hR h0 hd
  have hdet := hK.isHermitian.det_eq_prod_eigenvalues
  rw [hdet]
  constructor
  · calc lo ^ n = ∏ _i : Fin n, lo := by simp
      _ ≤ _ := Finset.prod_le_prod (fun _ _ => h0.le) fun i _ => (eig_bounds hR h0 hd i).1
  · calc _ ≤ ∏ _i : Fin n, (R + diagonal d).trace := Finset.prod_le_prod (fun i _ => h0.le.trans (eig_bounds hR h0 hd i).1) fun i _ => (eig_bounds hR h0 hd i).2
      _ = _ := by simp

theorem quad_inv (hK : (R + diagonal d).PosDef) (v : Fin n → ℝ) : (R + diagonal d) *ᵥ ((R + diagonal d)⁻¹ *ᵥ v) = v := by
  rw [mulVec_mulVec, mul_nonsing_inv _ (isUnit_iff_ne_zero.mpr hK.det_pos.ne'), one_mulVec]

/-- `vᵀK⁻¹v ≤ |v|²/lo` -/
theorem quad_upper (hR : R.PosSemidef) (h0 : 0 < lo) (hd : ∀ i, lo ≤ d i) (v : Fin n → ℝ) :
    v ⬝ᵥ ((R + diagonal d)⁻¹ *ᵥ v) ≤ (∑ i, v i ^ 2) / lo := by
  have hK := cov_posDef hR h0 hd
  generalize hw : (R + diagonal d)⁻¹ *ᵥ v = w
  have hv := quad_inv hK v
  rw [hw] at hv
  have h1 := quad_ge hR hd w
  rw [hv] at h1
  have h2 : w ⬝ᵥ v = v ⬝ᵥ w := dotProduct_comm _ _
  have h3 : v ⬝ᵥ w ≤ ((∑ i, v i ^ 2) / lo + lo * ∑ i, w i ^ 2) / 2 := by
    rw [Finset.sum_div, Finset.mul_sum, ← Finset.sum_add_distrib, Finset.sum_div, dotProduct]
    refine Finset.sum_le_sum fun i _ => ?_
    have : 0 ≤ (v i - lo * w i) ^ 2 / lo := by positivity
    have e : (v i - lo * w i) ^ 2 / lo = v i ^ 2 / lo + lo * w i ^ 2 - 2 * (v i * w i) := by field_simp; ring
    linarith
  linarith

/-- `vᵀK⁻¹v ≥ v_j²/K_jj` -/
theorem quad_lower (hR : R.PosSemidef) (h0 : 0 < lo) (hd : ∀ i, lo ≤ d i) (v : Fin n → ℝ) (j : Fin n) :
    v j ^ 2 / (R j j + d j) ≤ v ⬝ᵥ ((R + diagonal d)⁻¹ *ᵥ v) := by
  have hK := cov_posDef hR h0 hd
  generalize hw : (R + diagonal d)⁻¹ *ᵥ v = w
  have hv := quad_inv hK v
  rw [hw] at hv
  have hjj : 0 < R j j + d j := by
    have := hR.diag_nonneg (i := j)
    have := hd j
    linarith
  generalize hs : v j / (R j j + d j) = s
  have h := hK.posSemidef.dotProduct_mulVec_nonneg (w - s • Pi.single j 1)
  have hsym : ∀ x : Fin n → ℝ, x ⬝ᵥ ((R + diagonal d) *ᵥ Pi.single j 1) = ((R + diagonal d) *ᵥ x) j := by
    intro x
    rw [dotProduct_mulVec, ← mulVec_transpose, show (R + diagonal d)ᵀ = R + diagonal d by simpa using hK.isHermitian.eq, dotProduct_single, mul_one]
  have e1 : ((R + diagonal d) *ᵥ Pi.single j 1) j = R j j + d j := by simp
  rw [star_trivial, mulVec_sub, mulVec_smul, hv, sub_dotProduct, dotProduct_sub, dotProduct_sub, dotProduct_smul, smul_dotProduct, smul_dotProduct,
    dotProduct_smul, hsym, hsym, hv, e1, single_one_dotProduct, dotProduct_comm w v] at h
  simp only [smul_eq_mul] at h
  have e2 : v j = s * (R j j + d j) := by rw [← hs]; field_simp
  have e3 : v j ^ 2 / (R j j + d j) = s * v j := by rw [← hs]; ring
  rw [e3]
  rw [← e2] at h
  linarith

theorem logGauss_le (hR : R.PosSemidef) (h0 : 0 < lo) (hd : ∀ i, lo ≤ d i) (v : Fin n → ℝ) (j : Fin n) {M : ℝ} (hM : R j j + d j ≤ M) :
    logGauss (R + diagonal d) v ≤ -(1 / 2) * Real.log (lo ^ n) - v j ^ 2 / (2 * M) := by
  have h1 := Real.log_le_log (pow_pos h0 n) (det_bounds hR h0 hd).1
  have h2 := quad_lower hR h0 hd v j
  have hjj : 0 < R j j + d j := by
    have := hR.diag_nonneg (i := j)
    have := hd j
    linarith
  have h3 : v j ^ 2 / M ≤ v j ^ 2 / (R j j + d j) := div_le_div_of_nonneg_left (sq_nonneg _) hjj hM
  have h4 : v j ^ 2 / (2 * M) = 1 / 2 * (v j ^ 2 / M) := by rw [mul_comm 2 M, ← div_div]; ring
  unfold logGauss
  rw [h4]
  linarith

theorem le_logGauss (hR : R.PosSemidef) (h0 : 0 < lo) (hd : ∀ i, lo ≤ d i) (v : Fin n → ℝ) {M : ℝ} (hM : (R + diagonal d).trace ≤ M) :
    -(1 / 2) * Real.log (M ^ n) - (∑ i, v i ^ 2) / (2 * lo) ≤ logGauss (R + diagonal d) v := by
  have hK := cov_posDef hR h0 hd
  have ht : 0 ≤ (R + diagonal d).trace := hK.posSemidef.trace_nonneg
  have h1 := Real.log_le_log hK.det_pos ((det_bounds hR h0 hd).2.trans (pow_le_pow_left₀ ht hM n))
  have h2 := quad_upper hR h0 hd v
  have h4 : (∑ i, v i ^ 2) / (2 * lo) = 1 / 2 * ((∑ i, v i ^ 2) / lo) := by rw [mul_comm 2 lo, ← div_div]; ring
  unfold logGauss
  rw [h4]
  linarith

end Verif.Theory
