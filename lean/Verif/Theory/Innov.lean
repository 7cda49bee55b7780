import Mathlib.LinearAlgebra.Matrix.PosDef
import Mathlib.LinearAlgebra.Matrix.NonsingularInverse
import Mathlib.LinearAlgebra.Matrix.Block
import Mathlib.LinearAlgebra.Matrix.Symmetric
import Mathlib.Algebra.BigOperators.Field
import Mathlib.Algebra.BigOperators.Fin
import Mathlib.Data.Real.Basic
import Mathlib.Data.Real.Star
import Mathlib.Tactic.Linarith
import Mathlib.Tactic.FieldSimp
import Mathlib.Tactic.Ring
import Mathlib.Tactic.Positivity

/-!
Helper lemmas: innovations form of a finite-dimensional Gaussian law.

`A i j` (`j < i`) are the coefficients of the one-step linear predictor of the `i`-th observation and
`d i` is the prediction variance. When they satisfy the normal equations, `K = M⁻¹ D M⁻ᵀ` with
`M = 1 - A` unit lower triangular.
-/

namespace Verif.Theory

open Matrix Finset

variable {N : ℕ}

/-- Normal equations of one-step prediction for covariance matrix `K`. -/
structure NormalEq (K A : Matrix (Fin N) (Fin N) ℝ) (d : Fin N → ℝ) : Prop where
  sym : ∀ i j, K i j = K j i
  lower : ∀ i j, i ≤ j → A i j = 0
  normal : ∀ i k, k < i → ∑ j, A i j * K j k = K i k
  dvar : ∀ i, d i = K i i - ∑ j, A i j * K j i

namespace NormalEq

variable {K A : Matrix (Fin N) (Fin N) ℝ} {d : Fin N → ℝ}

lemma MK_apply (i k : Fin N) : ((1 - A) * K) i k = K i k - ∑ j, A i j * K j k := by
  rw [Matrix.sub_mul, Matrix.one_mul, Matrix.sub_apply, Matrix.mul_apply]

lemma factor (h : NormalEq K A d) : (1 - A) * K * (1 - A)ᵀ = diagonal d := by
  have hs : ((1 - A) * K * (1 - A)ᵀ)ᵀ = (1 - A) * K * (1 - A)ᵀ := by
    have : Kᵀ = K := by ext i j; simp [h.sym j i]
    simp [Matrix.transpose_mul, this, Matrix.mul_assoc]
  have key : ∀ i k : Fin N, k ≤ i →
      ((1 - A) * K * (1 - A)ᵀ : Matrix (Fin N) (Fin N) ℝ) i k = diagonal d i k := by
    intro i k hk
    rw [Matrix.mul_apply]
    have h0 : ∀ l, l < i → ((1 - A) * K) i l = 0 := by
      intro l hl
      rw [MK_apply, h.normal i l hl, sub_self]
    rcases lt_or_eq_of_le hk with hlt | rfl
    · rw [Matrix.diagonal_apply_ne _ (ne_of_gt hlt)]
      apply Finset.sum_eq_zero
      intro l _
      by_cases hl : l < i
      · rw [h0 l hl, zero_mul]
      · have hkl : k < l := lt_of_lt_of_le hlt (not_lt.mp hl)
        simp [Matrix.transpose_apply, h.lower k l hkl.le, hkl.ne]
    · rw [Matrix.diagonal_apply_eq, Finset.sum_eq_single k]
      · simp [Matrix.transpose_apply, MK_apply, h.lower k k le_rfl, h.dvar k]
      · intro l _ hl
        rcases lt_or_gt_of_ne hl with h1 | h1
        · rw [h0 l h1, zero_mul]
        · simp [Matrix.transpose_apply, h.lower k l h1.le, h1.ne]
      · simp
  ext i k
  rcases le_total k i with hk | hk
  · exact key i k hk
  · have := key k i hk
    rw [← hs, Matrix.transpose_apply, this]
    by_cases hik : i = k
    · subst hik; rfl
    · rw [diagonal_apply_ne _ hik, diagonal_apply_ne _ (Ne.symm hik)]

lemma det_one_sub (h : NormalEq K A d) : (1 - A).det = 1 := by
  rw [Matrix.det_of_isLowerTriangular]
  · simp [h.lower _ _ le_rfl]
  · intro i j hij
    have hij' : i < j := by simpa using hij
    simp [h.lower i j hij'.le, hij'.ne]

lemma det_eq (h : NormalEq K A d) : K.det = ∏ i, d i := by
  have := congrArg Matrix.det h.factor
  rw [Matrix.det_mul, Matrix.det_mul, Matrix.det_transpose, h.det_one_sub, Matrix.det_diagonal] at this
  simpa using this

lemma inv_eq (h : NormalEq K A d) (hd : ∀ i, d i ≠ 0) :
    K⁻¹ = (1 - A)ᵀ * diagonal (fun i => (d i)⁻¹) * (1 - A) := by
  have hu : IsUnit (1 - A).det := by rw [h.det_one_sub]; exact isUnit_one
  have huT : IsUnit (1 - A)ᵀ.det := by rw [Matrix.det_transpose]; exact hu
  apply Matrix.inv_eq_left_inv
  have hf := h.factor
  have hK : (1 - A) * K = diagonal d * ((1 - A)ᵀ)⁻¹ := by
    rw [← hf, Matrix.mul_assoc ((1 - A) * K), Matrix.mul_nonsing_inv _ huT, Matrix.mul_one]
  rw [Matrix.mul_assoc, hK, Matrix.mul_assoc, ← Matrix.mul_assoc (diagonal _) (diagonal d)]
  have : diagonal (fun i => (d i)⁻¹) * diagonal d = (1 : Matrix (Fin N) (Fin N) ℝ) := by
    rw [Matrix.diagonal_mul_diagonal, ← Matrix.diagonal_one]
    congr 1
    ext i
    simp [hd i]
  rw [this, Matrix.one_mul, Matrix.mul_nonsing_inv _ huT]

/-- entry of the inverse covariance -/
lemma inv_apply (h : NormalEq K A d) (hd : ∀ i, d i ≠ 0) (a c : Fin N) :
    K⁻¹ a c = ∑ i, (1 - A) i a * (1 - A) i c / d i := by
  rw [h.inv_eq hd, Matrix.mul_assoc, Matrix.mul_apply]
  refine Finset.sum_congr rfl fun i _ => ?_
  rw [Matrix.diagonal_mul, Matrix.transpose_apply]
  ring

lemma isUnit_det (h : NormalEq K A d) (hd : ∀ i, d i ≠ 0) : IsUnit K.det := by
  rw [h.det_eq]
  exact (Finset.prod_ne_zero_iff.mpr fun i _ => hd i).isUnit

lemma inv_mulVec (h : NormalEq K A d) (hd : ∀ i, d i ≠ 0) (y : Fin N → ℝ) (a : Fin N) :
    (K⁻¹ *ᵥ y) a = ∑ i, (1 - A) i a * ((1 - A) *ᵥ y) i / d i := by
  rw [h.inv_eq hd, ← Matrix.mulVec_mulVec, ← Matrix.mulVec_mulVec]
  simp only [Matrix.mulVec, dotProduct, Matrix.transpose_apply]
  refine Finset.sum_congr rfl fun i _ => ?_
  rw [Finset.sum_eq_single i]
  · rw [Matrix.diagonal_apply_eq]; ring
  · intro j _ hj; rw [Matrix.diagonal_apply_ne _ (Ne.symm hj), zero_mul]
  · simp

/-- The quadratic form of the Gaussian log-density is the sum of squared standardised innovations. -/
lemma quad_eq (h : NormalEq K A d) (hd : ∀ i, d i ≠ 0) (y : Fin N → ℝ) :
    y ⬝ᵥ (K⁻¹ *ᵥ y) = ∑ i, (((1 - A) *ᵥ y) i) ^ 2 / d i := by
  have : ∀ a, (K⁻¹ *ᵥ y) a = ∑ i, (1 - A) i a * ((1 - A) *ᵥ y) i / d i := h.inv_mulVec hd y
  simp only [dotProduct, this]
  simp_rw [Finset.mul_sum]
  rw [Finset.sum_comm]
  refine Finset.sum_congr rfl fun i _ => ?_
  have h2 : ∀ a, y a * ((1 - A) i a * ((1 - A) *ᵥ y) i / d i)
      = ((1 - A) i a * y a) * (((1 - A) *ᵥ y) i / d i) := by intro a; ring
  simp_rw [h2]
  rw [← Finset.sum_mul]
  have h3 : ∑ a, (1 - A) i a * y a = ((1 - A) *ᵥ y) i := rfl
  rw [h3]; ring

lemma posDef (h : NormalEq K A d) (hd : ∀ i, 0 < d i) : K.PosDef := by
  rw [Matrix.posDef_iff_dotProduct_mulVec]
  refine ⟨by ext i j; simp [h.sym j i], ?_⟩
  intro x hx
  have hu : IsUnit (1 - A).det := by rw [h.det_one_sub]; exact isUnit_one
  have huT : IsUnit (1 - A)ᵀ.det := by rw [Matrix.det_transpose]; exact hu
  set z := ((1 - A)ᵀ)⁻¹ *ᵥ x with hz
  have hxz : x = (1 - A)ᵀ *ᵥ z := by
    rw [hz, Matrix.mulVec_mulVec, Matrix.mul_nonsing_inv _ huT, Matrix.one_mulVec]
  have hz0 : z ≠ 0 := by
    intro h0; apply hx; rw [hxz, h0, Matrix.mulVec_zero]
  have : star x ⬝ᵥ (K *ᵥ x) = ∑ i, z i ^ 2 * d i := by
    have e1 : star x = x := by ext i; simp
    rw [e1]
    conv_lhs => rw [hxz]
    rw [Matrix.mulVec_transpose, ← Matrix.dotProduct_mulVec, ← Matrix.mulVec_transpose,
      Matrix.mulVec_mulVec, Matrix.mulVec_mulVec, h.factor]
    simp only [dotProduct, Matrix.mulVec_diagonal]
    refine Finset.sum_congr rfl fun i _ => by ring
  rw [this]
  obtain ⟨i, hi⟩ := Function.ne_iff.mp hz0
  refine Finset.sum_pos' (fun i _ => mul_nonneg (sq_nonneg _) (hd i).le) ⟨i, Finset.mem_univ _, ?_⟩
  have : z i ≠ 0 := hi
  have := hd i
  positivity

/-- Row `p` of the inverse covariance gives the linear predictor of coordinate `p` from all the others. -/
lemma predict_row {K : Matrix (Fin (N+1)) (Fin (N+1)) ℝ} (hK : IsUnit K.det)
    (hsym : ∀ i j, K i j = K j i) (p : Fin (N+1)) (hpp : K⁻¹ p p ≠ 0) :
    let K' := K.submatrix p.succAbove p.succAbove
    let k : Fin N → ℝ := fun j => K p (p.succAbove j)
    let w : Fin N → ℝ := fun j => - K⁻¹ p (p.succAbove j) / K⁻¹ p p
    (∀ j, ∑ i, w i * K' i j = k j) ∧ K p p - ∑ i, w i * k i = 1 / K⁻¹ p p := by
  intro K' k w
  have hmul : K⁻¹ * K = 1 := Matrix.nonsing_inv_mul _ hK
  have hrow : ∀ c, K⁻¹ p p * K p c + ∑ i, K⁻¹ p (p.succAbove i) * K (p.succAbove i) c
      = (1 : Matrix (Fin (N+1)) (Fin (N+1)) ℝ) p c := by
    intro c
    rw [← hmul, Matrix.mul_apply, Fin.sum_univ_succAbove _ p]
  constructor
  · intro j
    have := hrow (p.succAbove j)
    rw [Matrix.one_apply_ne (Fin.succAbove_ne p j).symm] at this
    have h2 : ∑ i, w i * K' i j
        = -(∑ i, K⁻¹ p (p.succAbove i) * K (p.succAbove i) (p.succAbove j)) / K⁻¹ p p := by
      rw [neg_div, Finset.sum_div, ← Finset.sum_neg_distrib]
      refine Finset.sum_congr rfl fun i _ => ?_
      simp only [w, K', Matrix.submatrix_apply]; ring
    rw [h2]
    have h3 : ∑ i, K⁻¹ p (p.succAbove i) * K (p.succAbove i) (p.succAbove j)
        = - (K⁻¹ p p * K p (p.succAbove j)) := by linarith
    rw [h3, neg_neg]
    simp only [k]
    field_simp
  · have := hrow p
    rw [Matrix.one_apply_eq] at this
    have h2 : ∑ i, w i * k i = -(∑ i, K⁻¹ p (p.succAbove i) * K (p.succAbove i) p) / K⁻¹ p p := by
      rw [neg_div, Finset.sum_div, ← Finset.sum_neg_distrib]
      refine Finset.sum_congr rfl fun i _ => ?_
      simp only [w, k, hsym p (p.succAbove i)]; ring
    rw [h2]
    have h3 : ∑ i, K⁻¹ p (p.succAbove i) * K (p.succAbove i) p = 1 - K⁻¹ p p * K p p := by linarith
    rw [h3]
    field_simp
    ring

end NormalEq

/-- A solution of `w K = k` with `K` invertible is `k K⁻¹`. -/
lemma eq_vecMul_inv {n : ℕ} {K : Matrix (Fin n) (Fin n) ℝ} (hK : IsUnit K.det) {w k : Fin n → ℝ}
    (h : ∀ j, ∑ i, w i * K i j = k j) : w = k ᵥ* K⁻¹ := by
  have : w ᵥ* K = k := by ext j; exact h j
  rw [← this, Matrix.vecMul_vecMul, Matrix.mul_nonsing_inv _ hK, Matrix.vecMul_one]

end Verif.Theory
