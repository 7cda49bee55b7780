import Verif.Spec.Gauss
import Verif.Spec.Carma

/-!
Linearity and equivariance of the conditional moments of a Gaussian time series.
-/

namespace Verif.Theory

open Verif.Spec Matrix

variable {n : ℕ}

lemma condMean_lin (K : Matrix (Fin n) (Fin n) ℝ) (k y z : Fin n → ℝ) (a b : ℝ) :
    condMean K k (fun i => a * y i + b * z i) = a * condMean K k y + b * condMean K k z := by
  have : (fun i => a * y i + b * z i) = a • y + b • z := rfl
  rw [condMean, this, mulVec_add, mulVec_smul, mulVec_smul, dotProduct_add, dotProduct_smul, dotProduct_smul]
  rfl

lemma inv_smul_real {c : ℝ} (hc : c ≠ 0) (K : Matrix (Fin n) (Fin n) ℝ) : (c • K)⁻¹ = c⁻¹ • K⁻¹ := by
  by_cases h : IsUnit K.det
  · have : Invertible c := invertibleOfNonzero hc
    rw [Matrix.inv_smul K c h, invOf_eq_inv]
  · have h' : ¬ IsUnit (c • K).det := by
      rw [det_smul, isUnit_iff_ne_zero]
      rw [isUnit_iff_ne_zero] at h
      push Not at h ⊢
      rw [h, mul_zero]
    rw [Matrix.nonsing_inv_apply_not_isUnit _ h, Matrix.nonsing_inv_apply_not_isUnit _ h', smul_zero]

lemma condMean_scale {c : ℝ} (hc : c ≠ 0) (K : Matrix (Fin n) (Fin n) ℝ) (k y : Fin n → ℝ) :
    condMean (c ^ 2 • K) (fun i => c ^ 2 * k i) (fun i => c * y i) = c * condMean K k y := by
  have e1 : (fun i => c ^ 2 * k i) = c ^ 2 • k := rfl
  have e2 : (fun i => c * y i) = c • y := rfl
  rw [condMean, condMean, e1, e2, inv_smul_real (pow_ne_zero 2 hc), smul_mulVec, mulVec_smul, smul_dotProduct, dotProduct_smul,
    dotProduct_smul]
  simp only [smul_eq_mul]
  field_simp

lemma condVar_scale {c : ℝ} (hc : c ≠ 0) (K : Matrix (Fin n) (Fin n) ℝ) (k : Fin n → ℝ) (k0 : ℝ) :
    condVar (c ^ 2 • K) (fun i => c ^ 2 * k i) (c ^ 2 * k0) = c ^ 2 * condVar K k k0 := by
  have e1 : (fun i => c ^ 2 * k i) = c ^ 2 • k := rfl
  rw [condVar, condVar, e1, inv_smul_real (pow_ne_zero 2 hc), smul_mulVec, mulVec_smul, smul_dotProduct, dotProduct_smul,
    dotProduct_smul]
  simp only [smul_eq_mul]
  field_simp

lemma obsCov_shift (r : ℝ → ℝ) (t e : Fin n → ℝ) (d : ℝ) : obsCov r (fun i => t i + d) e = obsCov r t e := by
  ext i j; simp [obsCov]

lemma obsCov_scale (r : ℝ → ℝ) (t e : Fin n → ℝ) (c : ℝ) :
    obsCov (fun x => c ^ 2 * r x) t (fun i => c * e i) = c ^ 2 • obsCov r t e := by
  ext i j
  simp only [obsCov, Matrix.of_apply, Matrix.smul_apply, smul_eq_mul]
  split <;> ring

lemma stepMean_lin (r : ℝ → ℝ) (t e y z : Fin n → ℝ) (a b : ℝ) (i : Fin n) :
    stepMean r t e (fun i => a * y i + b * z i) i = a * stepMean r t e y i + b * stepMean r t e z i :=
  condMean_lin _ _ _ _ a b

lemma stepMean_shift (r : ℝ → ℝ) (t e y : Fin n → ℝ) (d : ℝ) (i : Fin n) :
    stepMean r (fun i => t i + d) e y i = stepMean r t e y i := by
  simp only [stepMean, add_sub_add_right_eq_sub]
  congr 1
  exact obsCov_shift r (t ∘ Fin.castLE i.2.le) _ d

lemma stepVar_shift (r : ℝ → ℝ) (t e : Fin n → ℝ) (d : ℝ) (i : Fin n) :
    stepVar r (fun i => t i + d) e i = stepVar r t e i := by
  simp only [stepVar, add_sub_add_right_eq_sub]
  congr 1
  exact obsCov_shift r (t ∘ Fin.castLE i.2.le) _ d

lemma stepMean_scale (r : ℝ → ℝ) (t e y : Fin n → ℝ) {c : ℝ} (hc : c ≠ 0) (i : Fin n) :
    stepMean (fun x => c ^ 2 * r x) t (fun i => c * e i) (fun i => c * y i) i = c * stepMean r t e y i := by
  simp only [stepMean]
  rw [← condMean_scale hc, ← obsCov_scale]
  rfl

lemma stepVar_scale (r : ℝ → ℝ) (t e : Fin n → ℝ) {c : ℝ} (hc : c ≠ 0) (i : Fin n) :
    stepVar (fun x => c ^ 2 * r x) t (fun i => c * e i) i = c ^ 2 * stepVar r t e i := by
  simp only [stepVar]
  rw [← condVar_scale hc, ← obsCov_scale]
  congr 1; ring

lemma predMean_lin (r : ℝ → ℝ) (t e y z : Fin n → ℝ) (a b x : ℝ) :
    predMean r t e (fun i => a * y i + b * z i) x = a * predMean r t e y x + b * predMean r t e z x :=
  condMean_lin _ _ _ _ a b

lemma predMean_shift (r : ℝ → ℝ) (t e y : Fin n → ℝ) (d x : ℝ) :
    predMean r (fun i => t i + d) e y (x + d) = predMean r t e y x := by
  simp only [predMean, obsCov_shift, add_sub_add_right_eq_sub]

lemma predVar_shift (r : ℝ → ℝ) (t e : Fin n → ℝ) (d x : ℝ) :
    predVar r (fun i => t i + d) e (x + d) = predVar r t e x := by
  simp only [predVar, obsCov_shift, add_sub_add_right_eq_sub]

lemma predMean_scale (r : ℝ → ℝ) (t e y : Fin n → ℝ) {c : ℝ} (hc : c ≠ 0) (x : ℝ) :
    predMean (fun x => c ^ 2 * r x) t (fun i => c * e i) (fun i => c * y i) x = c * predMean r t e y x := by
  simp only [predMean]
  rw [← condMean_scale hc, ← obsCov_scale]

lemma predVar_scale (r : ℝ → ℝ) (t e : Fin n → ℝ) {c : ℝ} (hc : c ≠ 0) (x : ℝ) :
    predVar (fun x => c ^ 2 * r x) t (fun i => c * e i) x = c ^ 2 * predVar r t e x := by
  simp only [predVar]
  rw [← condVar_scale hc, ← obsCov_scale]

/-- reversal of the series -/
lemma obsCov_rev (r : ℝ → ℝ) (t e : Fin n → ℝ) :
    obsCov r (fun i => -t i.rev) (fun i => e i.rev) = (obsCov r t e).submatrix Fin.revPerm Fin.revPerm := by
  ext i j
  simp only [obsCov, Matrix.of_apply, Matrix.submatrix_apply, Fin.revPerm_apply, Fin.rev_inj]
  rw [show -t i.rev - -t j.rev = -(t i.rev - t j.rev) by ring, abs_neg]

lemma inv_rev (K : Matrix (Fin n) (Fin n) ℝ) (y : Fin n → ℝ) (i : Fin n) :
    ((K.submatrix Fin.revPerm Fin.revPerm)⁻¹ *ᵥ fun i => y i.rev) i = (K⁻¹ *ᵥ y) i.rev := by
  rw [Matrix.inv_submatrix_equiv]
  simp only [mulVec, dotProduct, Matrix.submatrix_apply, Fin.revPerm_apply]
  exact Fintype.sum_equiv Fin.revPerm _ _ fun j => by simp

lemma dot_rev (k v w : Fin n → ℝ) (h : ∀ i, w i = v i.rev) : (fun i => k i.rev) ⬝ᵥ w = k ⬝ᵥ v := by
  simp only [dotProduct]
  exact Fintype.sum_equiv Fin.revPerm _ _ fun j => by simp [h]

lemma predMean_rev (r : ℝ → ℝ) (t e y : Fin n → ℝ) (x : ℝ) :
    predMean r (fun i => -t i.rev) (fun i => e i.rev) (fun i => y i.rev) (-x) = predMean r t e y x := by
  have h : (fun j : Fin n => r |(-x) - -t j.rev|) = fun j => (fun j => r |x - t j|) j.rev := by
    funext j
    rw [show -x - -t j.rev = -(x - t j.rev) by ring, abs_neg]
  rw [predMean, predMean, condMean, condMean, obsCov_rev, h]
  exact dot_rev (fun j => r |x - t j|) ((obsCov r t e)⁻¹ *ᵥ y) _ (inv_rev _ y)

lemma predVar_rev (r : ℝ → ℝ) (t e : Fin n → ℝ) (x : ℝ) :
    predVar r (fun i => -t i.rev) (fun i => e i.rev) (-x) = predVar r t e x := by
  have h : (fun j : Fin n => r |(-x) - -t j.rev|) = fun j => (fun j => r |x - t j|) j.rev := by
    funext j
    rw [show -x - -t j.rev = -(x - t j.rev) by ring, abs_neg]
  rw [predVar, predVar, condVar, condVar, obsCov_rev, h]
  congr 1
  exact dot_rev (fun j => r |x - t j|) ((obsCov r t e)⁻¹ *ᵥ fun j => r |x - t j|) _ (inv_rev _ fun j => r |x - t j|)

end Verif.Theory
