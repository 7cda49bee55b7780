import Verif.Spec.Units
import Verif.Theory.Proper
import Verif.Theory.Equi
import Verif.Theory.PostTarget
import Verif.Theory.FilterTotal
import Mathlib.MeasureTheory.Integral.IntegralEqImproper
import Mathlib.Data.List.Sort

/-! Helper theory for changes of units and origin of the data (C78). -/

namespace Verif.Theory

open Verif.Model Verif.Spec Finset Matrix Polynomial

variable {n p : ℕ}

/-! ### the Gaussian density -/

lemma logGauss_units {K K' : Matrix (Fin n) (Fin n) ℝ} {v v' : Fin n → ℝ} {k : ℝ} (hk : k ≠ 0) (σ : Equiv.Perm (Fin n))
    (hK : ∀ i j, K' i j = k ^ 2 * K (σ i) (σ j)) (hv : ∀ i, v' i = k * v (σ i)) (hd : K.det ≠ 0) :
    logGauss K' v' = logGauss K v + -(n * Real.log |k|) := by
  have e1 : K' = k ^ 2 • K.submatrix σ σ := by ext i j; simp [hK]
  have e2 : v' = k • (v ∘ σ) := by funext i; simp [hv]
  have hdet : K'.det = (k ^ 2) ^ n * K.det := by
    rw [e1, Matrix.det_smul, Matrix.det_submatrix_equiv_self, Fintype.card_fin]
  have hq : v' ⬝ᵥ (K'⁻¹ *ᵥ v') = v ⬝ᵥ (K⁻¹ *ᵥ v) := by
    rw [e1, e2, inv_smul_real (pow_ne_zero 2 hk), Matrix.inv_submatrix_equiv, smul_mulVec, mulVec_smul, smul_dotProduct,
      dotProduct_smul, dotProduct_smul]
    have : (v ∘ σ) ⬝ᵥ ((K⁻¹).submatrix σ σ *ᵥ (v ∘ σ)) = v ⬝ᵥ (K⁻¹ *ᵥ v) := by
      simp only [dotProduct, mulVec, Matrix.submatrix_apply, Function.comp]
      rw [← Equiv.sum_comp σ (fun i => v i * ∑ j, K⁻¹ i j * v j)]
      refine Finset.sum_congr rfl fun i _ => ?_
      rw [← Equiv.sum_comp σ (fun j => K⁻¹ (σ i) j * v j)]
    rw [this]
    simp only [smul_eq_mul]
    field_simp
  have h1 : Real.log K'.det = n * (2 * Real.log |k|) + Real.log K.det := by
    rw [hdet, Real.log_mul (pow_ne_zero _ (pow_ne_zero 2 hk)) hd, Real.log_pow, Real.log_pow, Real.log_abs]; norm_num
  rw [logGauss, logGauss, hq, h1]; ring

lemma obsCov_units {r r' : ℝ → ℝ} {c a k m : ℝ} {t y e t' y' e' : Fin n → ℝ} {σ : Equiv.Perm (Fin n)}
    (h : Rescaled c a k m t y e t' y' e' σ) (hr : ∀ d, r' (|c| * d) = k ^ 2 * r d) (s : ℝ) (i j : Fin n) :
    obsCov r' t' (fun i => √s * e' i) i j = k ^ 2 * obsCov r t (fun i => √s * e i) (σ i) (σ j) := by
  have e1 : |t' i - t' j| = |c| * |t (σ i) - t (σ j)| := by
    rw [h.time, h.time, ← abs_mul]; congr 1; ring
  have e2 : e' i ^ 2 = k ^ 2 * e (σ i) ^ 2 := by
    rw [← sq_abs, h.err, mul_pow, sq_abs, sq_abs]
  simp only [obsCov, Matrix.of_apply, e1, hr, σ.injective.eq_iff, mul_pow, e2]
  split <;> ring

/-! ### the data -/

lemma rescaled_order {c a k m : ℝ} {t y e t' y' e' : Fin n → ℝ} {σ : Equiv.Perm (Fin n)}
    (h : Rescaled c a k m t y e t' y' e' σ) (i j : Fin n) : t' j - t' i = c * (t (σ j) - t (σ i)) := by
  rw [h.time, h.time]; ring

/-- strictly increasing times: the positive differences -/
lemma gap_iff {t : Fin n → ℝ} (ht : StrictMono t) {x : ℝ} : (∃ i j : Fin n, i < j ∧ x = t j - t i) ↔ 0 < x ∧ ∃ i j, x = t j - t i := by
  constructor
  · rintro ⟨i, j, hij, rfl⟩
    exact ⟨sub_pos.mpr (ht hij), i, j, rfl⟩
  · rintro ⟨hx, i, j, rfl⟩
    exact ⟨i, j, ht.lt_iff_lt.mp (sub_pos.mp hx), rfl⟩

lemma diff_units {c a k m : ℝ} (hc : c ≠ 0) {t y e t' y' e' : Fin n → ℝ} {σ : Equiv.Perm (Fin n)}
    (h : Rescaled c a k m t y e t' y' e' σ) (x : ℝ) : (∃ i j, |c| * x = t' j - t' i) ↔ ∃ i j, x = t j - t i := by
  have hc' := abs_pos.mpr hc
  constructor
  · rintro ⟨i, j, hx⟩
    rw [rescaled_order h] at hx
    rcases lt_or_gt_of_ne hc with h0 | h0
    · rw [abs_of_neg h0] at hx
      refine ⟨σ j, σ i, ?_⟩
      have : c * (x + (t (σ j) - t (σ i))) = 0 := by linarith
      rcases mul_eq_zero.mp this with h1 | h1
      · exact absurd h1 hc
      · linarith
    · rw [abs_of_pos h0] at hx
      exact ⟨σ i, σ j, mul_left_cancel₀ hc hx⟩
  · rintro ⟨i, j, rfl⟩
    rcases lt_or_gt_of_ne hc with h0 | h0
    · refine ⟨σ.symm j, σ.symm i, ?_⟩
      rw [rescaled_order h, abs_of_neg h0]; simp; ring
    · refine ⟨σ.symm i, σ.symm j, ?_⟩
      rw [rescaled_order h, abs_of_pos h0]; simp

lemma minGap_units {c a k m : ℝ} (hc : c ≠ 0) {t y e t' y' e' : Fin n → ℝ} {σ : Equiv.Perm (Fin n)} (ht : StrictMono t)
    (ht' : StrictMono t') (h : Rescaled c a k m t y e t' y' e' σ) {d : ℝ} (hd : IsMinGap t d) : IsMinGap t' (|c| * d) := by
  have hc' := abs_pos.mpr hc
  obtain ⟨h1, h2⟩ := hd
  refine ⟨?_, fun x hx => ?_⟩
  · rw [Set.mem_ofPred_eq, gap_iff ht] at h1
    rw [Set.mem_ofPred_eq, gap_iff ht']
    exact ⟨by have := h1.1; positivity, (diff_units hc h d).mpr h1.2⟩
  · rw [Set.mem_ofPred_eq, gap_iff ht'] at hx
    obtain ⟨hx0, hx⟩ := hx
    have hx2 : x / |c| ∈ {x | ∃ i j : Fin n, i < j ∧ x = t j - t i} := by
      rw [Set.mem_ofPred_eq, gap_iff ht]
      refine ⟨by positivity, (diff_units hc h _).mp ?_⟩
      rwa [mul_div_cancel₀ _ hc'.ne']
    have := h2 hx2
    rw [le_div_iff₀ hc'] at this; linarith

lemma span_units {c a k m : ℝ} (hc : c ≠ 0) {t y e t' y' e' : Fin n → ℝ} {σ : Equiv.Perm (Fin n)}
    (h : Rescaled c a k m t y e t' y' e' σ) {d : ℝ} (hd : IsSpan t d) : IsSpan t' (|c| * d) := by
  have hc' := abs_pos.mpr hc
  obtain ⟨h1, h2⟩ := hd
  refine ⟨(diff_units hc h d).mpr h1, fun x hx => ?_⟩
  have hx2 : x / |c| ∈ {x | ∃ i j : Fin n, x = t j - t i} := by
    refine (diff_units hc h _).mp ?_
    rwa [mul_div_cancel₀ _ hc'.ne']
  have := h2 hx2
  rw [div_le_iff₀ hc'] at this; linarith

lemma minGap_unique {t : Fin n → ℝ} {d d' : ℝ} (h : IsMinGap t d) (h' : IsMinGap t d') : d = d' := h.unique h'
lemma span_unique {t : Fin n → ℝ} {d d' : ℝ} (h : IsSpan t d) (h' : IsSpan t d') : d = d' := h.unique h'

lemma sampleVar_units {c a k m : ℝ} {t y e t' y' e' : Fin n → ℝ} {σ : Equiv.Perm (Fin n)} (hn : 0 < n)
    (h : Rescaled c a k m t y e t' y' e' σ) : sampleVar y' = k ^ 2 * sampleVar y := by
  have hn' : (n : ℝ) ≠ 0 := by positivity
  have e1 : (∑ j, y' j) / n = k * ((∑ j, y j) / n) + m := by
    simp only [h.val, Finset.sum_add_distrib, ← Finset.mul_sum]
    rw [Equiv.sum_comp σ y]
    simp
    field_simp
  rw [sampleVar, sampleVar, e1]
  simp only [h.val]
  have : ∀ i, (k * y (σ i) + m - (k * ((∑ j, y j) / n) + m)) ^ 2 = k ^ 2 * (fun i => (y i - (∑ j, y j) / n) ^ 2) (σ i) := by
    intro i; ring
  simp only [this, ← Finset.mul_sum]
  rw [Equiv.sum_comp σ (fun i => (y i - (∑ j, y j) / n) ^ 2)]
  ring

lemma sd_units {c a k m : ℝ} {t y e t' y' e' : Fin n → ℝ} {σ : Equiv.Perm (Fin n)} (hn : 0 < n)
    (h : Rescaled c a k m t y e t' y' e' σ) : 10 * √(sampleVar y') = |k| * (10 * √(sampleVar y)) := by
  rw [sampleVar_units hn h, Real.sqrt_mul (sq_nonneg k), Real.sqrt_sq_eq_abs]; ring

/-! ### the parameters -/

lemma inUnits_length (p : ℕ) (kind : Kind) (c k m : ℝ) (θ : List ℝ) : (inUnits p kind c k m θ).length = θ.length := by
  simp [inUnits]

lemma inUnits_at (p : ℕ) (kind : Kind) (c k m : ℝ) {θ : List ℝ} {i : ℕ} (hi : i < θ.length) : at0 (inUnits p kind c k m θ) i =
    if i = 0 then |k| * at0 θ i else if i = 2 then k * at0 θ i + m else at0 θ i - timeDim p kind i * Real.log |c| := by
  simp only [at0, inUnits, List.getD_eq_getElem?_getD, List.getElem?_mapIdx, List.getElem?_eq_getElem hi]
  simp

lemma exp_sub_log {x c : ℝ} (hc : 0 < c) (d : ℕ) : Real.exp (x - d * Real.log c) = Real.exp x / c ^ d := by
  rw [Real.exp_sub, Real.exp_nat_mul, Real.exp_log hc]

/-- the coefficients of a factor in the new units -/
lemma factor_units {f g : ℕ → ℝ} {off m : ℕ} {c : ℝ} (hc : 0 < c)
    (h : ∀ j < m, g (off + j) = f (off + j) - factorDim m j * Real.log c) :
    (∀ j, j < m / 2 → Real.exp (g (off + 2 * j)) = Real.exp (f (off + 2 * j)) / c ^ 2 ∧
      Real.exp (g (off + 2 * j + 1)) = Real.exp (f (off + 2 * j + 1)) / c) ∧
    (m % 2 = 1 → Real.exp (g (off + m - 1)) = Real.exp (f (off + m - 1)) / c) := by
  refine ⟨fun j hj => ⟨?_, ?_⟩, fun hm => ?_⟩
  · rw [h (2 * j) (by omega), factorDim, if_pos ⟨by omega, by omega⟩, exp_sub_log hc]
  · rw [show off + 2 * j + 1 = off + (2 * j + 1) by ring, h (2 * j + 1) (by omega), factorDim, if_neg (by omega), exp_sub_log hc, pow_one]
  · rw [show off + m - 1 = off + (m - 1) by omega, h (m - 1) (by omega), factorDim, if_neg (by omega), exp_sub_log hc, pow_one]

lemma arRootSpec_units {f g : ℕ → ℝ} {c : ℝ} (hc : 0 < c)
    (h : ∀ j < p, g (3 + j) = f (3 + j) - factorDim p j * Real.log c) (k : Fin p) :
    arRootSpec p g k = arRootSpec p f k / (c : ℂ) := by
  obtain ⟨h1, h2⟩ := factor_units (off := 3) hc h
  rw [arRootSpec, arRootSpec]
  by_cases hk : (k : ℕ) < 2 * (p / 2)
  · rw [if_pos hk, if_pos hk]
    obtain ⟨g1, g2⟩ := h1 (k / 2) (by omega)
    rw [g1, g2]
    generalize Real.exp (f (3 + 2 * (k / 2))) = a
    generalize Real.exp (f (3 + 2 * (k / 2) + 1)) = b
    dsimp only
    generalize (if (k : ℕ) % 2 = 0 then (1 : ℝ) else -1) = s
    have e1 : (b / c) ^ 2 - 4 * (a / c ^ 2) = (b ^ 2 - 4 * a) / c ^ 2 := by field_simp
    have e2 : 4 * (a / c ^ 2) - (b / c) ^ 2 = (4 * a - b ^ 2) / c ^ 2 := by field_simp
    have e3 : ∀ x : ℝ, √(x / c ^ 2) = √x / c := fun x => by rw [Real.sqrt_div' _ (by positivity), Real.sqrt_sq hc.le]
    have e4 : 0 < (b ^ 2 - 4 * a) / c ^ 2 ↔ 0 < b ^ 2 - 4 * a := by
      constructor
      · intro h; by_contra hn
        exact absurd (div_nonpos_of_nonpos_of_nonneg (not_lt.mp hn) (by positivity : 0 ≤ c ^ 2)) (not_le.mpr h)
      · intro h; positivity
    rw [e1, e2, e3, e3]
    by_cases hd : 0 < b ^ 2 - 4 * a
    · rw [if_pos (e4.mpr hd), if_pos hd]
      apply Complex.ext
      · rw [Complex.div_ofReal_re]; field_simp
      · rw [Complex.div_ofReal_im]; simp
    · rw [if_neg (fun h => hd (e4.mp h)), if_neg hd]
      apply Complex.ext
      · rw [Complex.div_ofReal_re]; field_simp
      · rw [Complex.div_ofReal_im]; field_simp
  · rw [if_neg hk, if_neg hk, h2 (by omega)]
    push_cast; ring

lemma factorPoly_units {f g : ℕ → ℝ} {off m : ℕ} {c : ℝ} (hc : 0 < c)
    (h : ∀ j < m, g (off + j) = f (off + j) - factorDim m j * Real.log c) (z : ℂ) :
    ((factorPoly g off m).map Complex.ofRealHom).eval (z / c) = ((factorPoly f off m).map Complex.ofRealHom).eval z / (c : ℂ) ^ m := by
  obtain ⟨h1, h2⟩ := factor_units hc h
  have hc' : (c : ℂ) ≠ 0 := by exact_mod_cast hc.ne'
  have key : ∀ i ∈ range (m / 2), ((quadFactor (g (off + 2 * i)) (g (off + 2 * i + 1))).map Complex.ofRealHom).eval (z / c) =
      ((quadFactor (f (off + 2 * i)) (f (off + 2 * i + 1))).map Complex.ofRealHom).eval z / (c : ℂ) ^ 2 := by
    intro i hi
    obtain ⟨g1, g2⟩ := h1 i (by simpa using hi)
    simp only [quadFactor, g1, g2, Polynomial.map_add, Polynomial.map_mul, Polynomial.map_pow, Polynomial.map_X, Polynomial.map_C,
      Polynomial.eval_add, Polynomial.eval_mul, Polynomial.eval_pow, Polynomial.eval_X, Polynomial.eval_C, Complex.ofRealHom_eq_coe]
    push_cast
    field_simp
  rw [factorPoly, factorPoly, Polynomial.map_mul, Polynomial.map_mul, Polynomial.map_prod, Polynomial.map_prod, Polynomial.eval_mul,
    Polynomial.eval_mul, Polynomial.eval_prod, Polynomial.eval_prod, Finset.prod_congr rfl key, Finset.prod_div_distrib,
    Finset.prod_const, Finset.card_range]
  by_cases hm : m % 2 = 1
  · rw [if_pos hm, if_pos hm, h2 hm]
    have e : (c : ℂ) ^ m = ((c : ℂ) ^ 2) ^ (m / 2) * c := by rw [← pow_mul, ← pow_succ]; congr 1; omega
    rw [e]
    simp only [Polynomial.map_add, Polynomial.map_X, Polynomial.map_C, Polynomial.eval_add, Polynomial.eval_X, Polynomial.eval_C,
      Complex.ofRealHom_eq_coe]
    push_cast
    field_simp
  · rw [if_neg hm, if_neg hm]
    have e : (c : ℂ) ^ m = ((c : ℂ) ^ 2) ^ (m / 2) := by rw [← pow_mul]; congr 1; omega
    rw [e]
    simp only [Polynomial.map_one, Polynomial.eval_one]
    ring

/-! ### the autocovariance -/

lemma response_units {ω : Fin p → ℂ} {β β' : ℂ → ℂ} {c : ℝ} (hc : 0 < c) (hβ : ∀ z, β' (z / c) = β z) (s : ℝ) :
    response (fun k => ω k / (c : ℂ)) β' (c * s) = (c : ℂ) ^ (p - 1) * response ω β s := by
  have hc' : (c : ℂ) ≠ 0 := by exact_mod_cast hc.ne'
  rw [response, response, Finset.mul_sum]
  refine Finset.sum_congr rfl fun k _ => ?_
  have e1 : arDeriv (fun k => ω k / (c : ℂ)) k = arDeriv ω k / (c : ℂ) ^ (p - 1) := by
    rw [arDeriv, arDeriv]
    simp only [← sub_div]
    rw [Finset.prod_div_distrib, Finset.prod_const, Finset.card_erase_of_mem (Finset.mem_univ k), Finset.card_univ, Fintype.card_fin]
  have e2 : ω k / (c : ℂ) * ((c * s : ℝ) : ℂ) = ω k * s := by push_cast; field_simp
  rw [hβ, e1, e2, div_div_eq_mul_div]
  ring

lemma responseAcf_units {ω : Fin p → ℂ} {β β' : ℂ → ℂ} {c : ℝ} (hc : 0 < c) (hβ : ∀ z, β' (z / c) = β z) (d : ℝ) :
    responseAcf (fun k => ω k / (c : ℂ)) β' (c * d) = c * (c ^ (p - 1)) ^ 2 * responseAcf ω β d := by
  rw [responseAcf, responseAcf]
  have h := MeasureTheory.integral_comp_mul_left_Ioi
    (fun s => (response (fun k => ω k / (c : ℂ)) β' s * response (fun k => ω k / (c : ℂ)) β' (s + c * d)).re) 0 hc
  rw [mul_zero] at h
  have h2 : ∀ s : ℝ, (response (fun k => ω k / (c : ℂ)) β' (c * s) * response (fun k => ω k / (c : ℂ)) β' (c * s + c * d)).re =
      (c ^ (p - 1)) ^ 2 * (response ω β s * response ω β (s + d)).re := by
    intro s
    rw [← mul_add, response_units hc hβ, response_units hc hβ]
    have : (c : ℂ) ^ (p - 1) * response ω β s * ((c : ℂ) ^ (p - 1) * response ω β (s + d)) =
        (((c ^ (p - 1)) ^ 2 : ℝ) : ℂ) * (response ω β s * response ω β (s + d)) := by push_cast; ring
    rw [this, Complex.re_ofReal_mul]
  simp only [h2] at h
  rw [MeasureTheory.integral_const_mul, smul_eq_mul] at h
  rw [mul_assoc, h]
  field_simp

end Verif.Theory
