import Verif.Theory.Post
import Mathlib.LinearAlgebra.Matrix.Gershgorin

/-! Helper theory for C19, C20 and C42: the prior check with infinite `max_freq` and in maximum-likelihood mode, sign of the
log-prior, and the Gaussian log-density determines its covariance. -/

namespace Verif.Theory

open Verif.Model Verif.Spec Matrix
open scoped Classical

/-- with infinite `max_freq` the upper bounds on frequencies disappear -/
lemma carp_check_pinf {b : CarBase} {F fmin : ℝ} (h1 : b.maxFreq = .pinf) (h2 : b.minFreq = .fin fmin)
    (h3 : b.ignorePrior = false) {p : ℕ} {θ : List ℝ} (hθ : 2 ≤ θ.length) {roots : List ℂ} (hr : arRoots p θ = .ok roots)
    (hB : CarpBounds b.maxStdev F fmin roots θ) : CarP.checkPrior b p true θ = .ok true := by
  have hk := carp_check (b := { b with maxFreq := .fin F }) (fmax := F) rfl h2 h3 hθ hr
  have e : ∀ l : List ℝ, (l.filter fun x => decide ((Dbl.fin x).lt b.maxFreq)) = l := by
    intro l; rw [h1, List.filter_eq_self]; exact fun a _ => decide_eq_true trivial
  have e1 : ∀ x : ℝ, x / 2 / Real.pi = x / (2 * Real.pi) := fun x => by rw [div_div]
  have f1 : ((CarP.cents roots).filter fun x => decide ((Dbl.fin x).lt (.fin F))) = CarP.cents roots := by
    rw [List.filter_eq_self]
    intro x hx
    simp only [CarP.cents, List.mem_map] at hx
    obtain ⟨r, hr, rfl⟩ := hx
    simpa [Dbl.lt, e1] using hB.cent r hr
  have f2 : ((CarP.widths roots).filter fun x => decide ((Dbl.fin x).lt (.fin F))) = CarP.widths roots := by
    rw [List.filter_eq_self]
    intro x hx
    simp only [CarP.widths, List.mem_map] at hx
    obtain ⟨r, hr, rfl⟩ := hx
    simpa [Dbl.lt, e1] using (hB.width r hr).2
  rw [decide_eq_true hB] at hk
  rw [← hk]
  simp only [CarP.checkPrior, h3, Bool.false_eq_true, if_false, rd_at0 (show 0 < θ.length by omega),
    rd_at0 (show 1 < θ.length by omega), res_bind_ok, hr, e, f1, f2]

lemma carp_check_mle {b : CarBase} (h : b.ignorePrior = true) (p : ℕ) (o : Bool) (θ : List ℝ) :
    CarP.checkPrior b p o θ = .ok true := by
  simp only [CarP.checkPrior, h, if_true]; rfl

/-- the log-prior of the error scale is negative -/
lemma logPriorSpec_neg {θ : List ℝ} (h : 0 < at0 θ 1) : logPriorSpec θ < 0 := by
  set s := at0 θ 1
  have h1 := Real.one_sub_inv_le_log_of_pos (show (0:ℝ) < s * (26 / 25) by positivity)
  rw [Real.log_mul h.ne' (by norm_num)] at h1
  have h2 := Real.log_le_sub_one_of_pos (show (0:ℝ) < 26 / 25 by norm_num)
  have h3 : (s * (26 / 25))⁻¹ = (25 / 26) * s⁻¹ := by rw [mul_inv]; norm_num; ring
  rw [logPriorSpec, div_eq_mul_inv]
  rw [h3] at h1
  show -25 * s⁻¹ - 26 * Real.log s < 0
  linarith

lemma logitPrior_nonpos (kind : Kind) (p : ℕ) (θ : List ℝ) : logitPrior kind p θ ≤ 0 := by
  cases kind with
  | zcarma =>
    rw [logitPrior]
    set x := at0 θ (p+3)
    have h1 : -x ≤ Real.log (1 + Real.exp (-x)) := by
      rw [Real.le_log_iff_exp_le (by positivity)]; linarith
    have h2 : 0 ≤ Real.log (1 + Real.exp (-x)) := Real.log_nonneg (by linarith [Real.exp_pos (-x)])
    show -x - 2 * Real.log (1 + Real.exp (-x)) ≤ 0
    linarith
  | _ => exact le_rfl

lemma quad_pi {K : Matrix (Fin 3) (Fin 3) ℝ} (i j : Fin 3) (a b : ℝ) :
    (Pi.single i a + Pi.single j b : Fin 3 → ℝ) ⬝ᵥ (K *ᵥ (Pi.single i a + Pi.single j b)) =
      a * a * K i i + a * b * K i j + b * a * K j i + b * b * K j j := by
  rw [Matrix.mulVec_add, dotProduct_add, add_dotProduct, add_dotProduct]
  simp [Matrix.mulVec_single, single_dotProduct]
  ring

/-- three-point data: if two Gaussian log-densities agree for all data that are not nearly constant, the covariances are equal -/
lemma logGauss_inj {K1 K2 : Matrix (Fin 3) (Fin 3) ℝ} (s1 : K1ᵀ = K1) (s2 : K2ᵀ = K2) (d1 : K1.det ≠ 0) (d2 : K2.det ≠ 0)
    (h : ∀ y : Fin 3 → ℝ, 1 / 100 ≤ armaVar (List.ofFn y) → logGauss K1 y = logGauss K2 y) : K1 = K2 := by
  have hvar : ∀ (i j : Fin 3) (c : ℝ), i ≠ j → 1 ≤ c →
      1 / 100 ≤ armaVar (List.ofFn (Pi.single i c + Pi.single j 0 : Fin 3 → ℝ)) ∧
      1 / 100 ≤ armaVar (List.ofFn (Pi.single i c + Pi.single j c : Fin 3 → ℝ)) := by
    intro i j c hij hc
    fin_cases i <;> fin_cases j <;> simp at hij <;>
      simp [armaVar, armaMean, List.ofFn_succ, Pi.single_apply] <;> constructor <;> nlinarith
  have hq : ∀ i j : Fin 3, i ≠ j → K1⁻¹ i i = K2⁻¹ i i ∧ K1⁻¹ i j + K1⁻¹ j i + K1⁻¹ j j = K2⁻¹ i j + K2⁻¹ j i + K2⁻¹ j j := by
    intro i j hij
    have a1 := h _ (hvar i j 1 hij le_rfl).1
    have a2 := h _ (hvar i j 2 hij one_le_two).1
    have a3 := h _ (hvar i j 1 hij le_rfl).2
    simp only [logGauss, quad_pi] at a1 a2 a3
    constructor <;> linarith
  have t1 : ∀ i j, K1⁻¹ i j = K1⁻¹ j i := fun i j => by
    conv_lhs => rw [← s1, ← Matrix.transpose_nonsing_inv, Matrix.transpose_apply]
  have t2 : ∀ i j, K2⁻¹ i j = K2⁻¹ j i := fun i j => by
    conv_lhs => rw [← s2, ← Matrix.transpose_nonsing_inv, Matrix.transpose_apply]
  have heq : K1⁻¹ = K2⁻¹ := by
    ext i j
    by_cases hij : i = j
    · subst hij
      obtain ⟨k, hk⟩ : ∃ k : Fin 3, i ≠ k := by fin_cases i; exacts [⟨1, by decide⟩, ⟨0, by decide⟩, ⟨0, by decide⟩]
      exact (hq i k hk).1
    · have b1 := (hq i j hij).2
      have b2 := (hq j i (Ne.symm hij)).1
      have := t1 i j; have := t2 i j
      linarith
  have u1 : IsUnit K1.det := isUnit_iff_ne_zero.mpr d1
  have u2 : IsUnit K2.det := isUnit_iff_ne_zero.mpr d2
  rw [← Matrix.nonsing_inv_nonsing_inv K1 u1, heq, Matrix.nonsing_inv_nonsing_inv K2 u2]

lemma obsCov_symm {n : ℕ} (r : ℝ → ℝ) (t e : Fin n → ℝ) : (obsCov r t e)ᵀ = obsCov r t e := by
  ext i j
  simp only [obsCov, Matrix.transpose_apply, Matrix.of_apply, abs_sub_comm (t j)]
  congr 1
  by_cases h : i = j
  · subst h; rfl
  · rw [if_neg h, if_neg (Ne.symm h)]

/-- unit errors make the covariance of a correlation function invertible (three points) -/
lemma obsCov_det_ne {r : ℝ → ℝ} (h0 : r 0 = 1) (h1 : ∀ d, 0 < d → |r d| < 1) {t : Fin 3 → ℝ} (ht : StrictMono t) :
    (obsCov r t fun _ => 1).det ≠ 0 := by
  apply det_ne_zero_of_sum_row_lt_diag
  intro k
  have hk : ‖obsCov r t (fun _ => 1) k k‖ = 2 := by
    simp [obsCov, h0]; norm_num
  rw [hk]
  have hcard : (Finset.univ.erase k : Finset (Fin 3)).card = 2 := by simp
  have : ∑ j ∈ Finset.univ.erase k, ‖obsCov r t (fun _ => 1) k j‖ < ∑ j ∈ Finset.univ.erase k, (1:ℝ) := by
    apply Finset.sum_lt_sum_of_nonempty
    · rw [← Finset.card_pos, hcard]; norm_num
    · intro j hj
      have hjk : k ≠ j := (Finset.ne_of_mem_erase hj).symm
      simp only [obsCov, Matrix.of_apply, hjk, if_false, add_zero, Real.norm_eq_abs]
      exact h1 _ (abs_pos.mpr (sub_ne_zero.mpr fun h => hjk (ht.injective h)))
  simpa using this

end Verif.Theory
