import Verif.Theory.GaussBound
import Mathlib.LinearAlgebra.Matrix.SchurComplement
import Mathlib.Topology.Algebra.Order.LiminfLimsup
import Mathlib.Topology.MetricSpace.ProperSpace.Real

/-!
Bounds on Gaussian densities for covariances some of whose diagonal terms have no lower bound of their own: measurements without error.
-/

namespace Verif.Theory

open Matrix Verif.Spec

variable {n : ℕ} {R : Matrix (Fin n) (Fin n) ℝ} {d : Fin n → ℝ}

theorem add_diag_posDef (hR : R.PosSemidef) (hd : ∀ i, 0 < d i) : (R + diagonal d).PosDef :=
  Matrix.PosDef.posSemidef_add hR (posDef_diagonal_iff.mpr hd)

theorem posDef_mulVec_inv {K : Matrix (Fin n) (Fin n) ℝ} (hK : K.PosDef) (v : Fin n → ℝ) : K *ᵥ (K⁻¹ *ᵥ v) = v := by
  rw [mulVec_mulVec, mul_nonsing_inv _ (isUnit_iff_ne_zero.mpr hK.det_pos.ne'), one_mulVec]

/-- `det (R + D) ≥ det D` -/
theorem det_ge_prod (hR : R.PosSemidef) (hd : ∀ i, 0 < d i) : ∏ i, d i ≤ (R + diagonal d).det := by
  obtain ⟨s, hs, hsd⟩ : ∃ s : Fin n → ℝ, (∀ i, 0 < s i) ∧ ∀ i, s i * s i = d i :=
    ⟨fun i => √(d i), fun i => Real.sqrt_pos.mpr (hd i), fun i => Real.mul_self_sqrt (hd i).le⟩
  have hS : (diagonal (fun i => (s i)⁻¹) * R * diagonal (fun i => (s i)⁻¹)).PosSemidef := by
    simpa using hR.mul_mul_conjTranspose_same (diagonal fun i => (s i)⁻¹)
  have h1 := (det_bounds hS one_pos (d := fun _ => 1) fun _ => le_rfl).1
  rw [one_pow] at h1
  have e : R + diagonal d = diagonal s * (diagonal (fun i => (s i)⁻¹) * R * diagonal (fun i => (s i)⁻¹) + diagonal fun _ => 1) * diagonal s := by
    ext i j
    rw [mul_diagonal, diagonal_mul, Matrix.add_apply, Matrix.add_apply, mul_diagonal, diagonal_mul, mul_add, add_mul]
    congr 1
    · have := (hs i).ne'; have := (hs j).ne'; field_simp
    · by_cases h : i = j
      · subst h; simp [hsd]
      · simp [h]
  rw [e, det_mul, det_mul, det_diagonal]
  have e2 : ∏ i, d i = (∏ i, s i) * ∏ i, s i := by
    rw [← Finset.prod_mul_distrib]; exact Finset.prod_congr rfl fun i _ => (hsd i).symm
  have hp : 0 < ∏ i, s i := Finset.prod_pos fun i _ => hs i
  rw [e2]
  exact mul_le_mul_of_nonneg_right (le_mul_of_one_le_right hp.le h1) hp.le

theorem det_le_trace {K : Matrix (Fin n) (Fin n) ℝ} (hK : K.PosSemidef) : K.det ≤ K.trace ^ n := by
  rw [hK.isHermitian.det_eq_prod_eigenvalues]
  calc _ ≤ ∏ _i : Fin n, K.trace := by
        refine Finset.prod_le_prod (fun i _ => hK.eigenvalues_nonneg i) fun i _ => ?_
        rw [hK.isHermitian.trace_eq_sum_eigenvalues]
        exact Finset.single_le_sum (f := fun i => hK.isHermitian.eigenvalues i) (fun j _ => hK.eigenvalues_nonneg j) (Finset.mem_univ i)
    _ = _ := by simp

/-- A weak form of Hadamard's inequality. -/
theorem det_le_prod {K : Matrix (Fin n) (Fin n) ℝ} (hK : K.PosDef) : K.det ≤ (n : ℝ) ^ n * ∏ i, K i i := by
  have hd : ∀ i, 0 < K i i := fun i => hK.diag_pos
  obtain ⟨s, hs, hsd⟩ : ∃ s : Fin n → ℝ, (∀ i, 0 < s i) ∧ ∀ i, s i * s i = K i i :=
    ⟨fun i => √(K i i), fun i => Real.sqrt_pos.mpr (hd i), fun i => Real.mul_self_sqrt (hd i).le⟩
  have hS : (diagonal (fun i => (s i)⁻¹) * K * diagonal (fun i => (s i)⁻¹)).PosSemidef := by
    simpa using hK.posSemidef.mul_mul_conjTranspose_same (diagonal fun i => (s i)⁻¹)
  have h1 := det_le_trace hS
  have ht : (diagonal (fun i => (s i)⁻¹) * K * diagonal (fun i => (s i)⁻¹)).trace = n := by
    rw [Matrix.trace]
    simp only [diag_apply, mul_diagonal, diagonal_mul, ← hsd]
    have : ∀ i, (s i)⁻¹ * (s i * s i) * (s i)⁻¹ = 1 := fun i => by have := (hs i).ne'; field_simp
    simp [this]
  rw [ht, det_mul, det_mul, det_diagonal] at h1
  have hp : 0 < ∏ i, s i := Finset.prod_pos fun i _ => hs i
  have e2 : ∏ i, K i i = (∏ i, s i) * ∏ i, s i := by
    rw [← Finset.prod_mul_distrib]; exact Finset.prod_congr rfl fun i _ => (hsd i).symm
  rw [Finset.prod_inv_distrib] at h1
  rw [e2]
  have e3 : K.det = (∏ i, s i)⁻¹ * K.det * (∏ i, s i)⁻¹ * ((∏ i, s i) * ∏ i, s i) := by field_simp
  rw [e3]
  exact mul_le_mul_of_nonneg_right h1 (mul_pos hp hp).le

/-- `vᵀ(R + D)⁻¹v ≤ vᵀD⁻¹v` -/
theorem quad_upper_diag (hR : R.PosSemidef) (hd : ∀ i, 0 < d i) (v : Fin n → ℝ) :
    v ⬝ᵥ ((R + diagonal d)⁻¹ *ᵥ v) ≤ ∑ i, v i ^ 2 / d i := by
  have hv := posDef_mulVec_inv (add_diag_posDef hR hd) v
  generalize (R + diagonal d)⁻¹ *ᵥ v = w at hv ⊢
  have h0 := hR.dotProduct_mulVec_nonneg w
  rw [star_trivial] at h0
  have h1 : ∑ i, d i * w i ^ 2 ≤ w ⬝ᵥ v := by
    rw [← hv, add_mulVec, dotProduct_add, quad_diag]
    linarith
  have h2 : w ⬝ᵥ v = v ⬝ᵥ w := dotProduct_comm _ _
  have h3 : v ⬝ᵥ w ≤ (∑ i, v i ^ 2 / d i + ∑ i, d i * w i ^ 2) / 2 := by
    rw [← Finset.sum_add_distrib, Finset.sum_div, dotProduct]
    refine Finset.sum_le_sum fun i _ => ?_
    have hi := hd i
    have : 0 ≤ (v i - d i * w i) ^ 2 / d i := by positivity
    have e : (v i - d i * w i) ^ 2 / d i = v i ^ 2 / d i + d i * w i ^ 2 - 2 * (v i * w i) := by field_simp; ring
    linarith
  linarith

theorem herm_single {K : Matrix (Fin n) (Fin n) ℝ} (hK : K.IsHermitian) (x : Fin n → ℝ) (j : Fin n) : x ⬝ᵥ (K *ᵥ Pi.single j 1) = (K *ᵥ x) j := by
  rw [dotProduct_mulVec, ← mulVec_transpose, show Kᵀ = K by simpa using hK.eq, dotProduct_single, mul_one]

/-- `(x - s e_j)ᵀK(x - s e_j)` -/
theorem quad_sub_single {K : Matrix (Fin n) (Fin n) ℝ} (hK : K.PosSemidef) (x : Fin n → ℝ) (j : Fin n) (s : ℝ) :
    0 ≤ x ⬝ᵥ (K *ᵥ x) - 2 * s * (K *ᵥ x) j + s ^ 2 * K j j := by
  have h := hK.dotProduct_mulVec_nonneg (x - s • Pi.single j 1)
  have e1 : (K *ᵥ Pi.single j 1) j = K j j := by simp
  rw [star_trivial, mulVec_sub, mulVec_smul, sub_dotProduct, dotProduct_sub, dotProduct_sub, dotProduct_smul, smul_dotProduct, smul_dotProduct,
    dotProduct_smul, herm_single hK.isHermitian, herm_single hK.isHermitian, single_one_dotProduct, e1] at h
  simp only [smul_eq_mul] at h
  linarith

/-- `vᵀK⁻¹v ≥ v_j²/K_jj` -/
theorem quad_lower_pd {K : Matrix (Fin n) (Fin n) ℝ} (hK : K.PosDef) (v : Fin n → ℝ) (j : Fin n) : v j ^ 2 / K j j ≤ v ⬝ᵥ (K⁻¹ *ᵥ v) := by
  have hv := posDef_mulVec_inv hK v
  generalize K⁻¹ *ᵥ v = w at hv ⊢
  have hjj : 0 < K j j := hK.diag_pos
  have h := quad_sub_single hK.posSemidef w j (v j / K j j)
  rw [hv, dotProduct_comm] at h
  have e : v ⬝ᵥ w - 2 * (v j / K j j) * v j + (v j / K j j) ^ 2 * K j j = v ⬝ᵥ w - v j ^ 2 / K j j := by field_simp; ring
  rw [e] at h
  linarith

theorem posDef_smul_add {σ : ℝ} (hσ : 0 < σ) (hR : R.PosDef) (hd : ∀ i, 0 ≤ d i) : (σ ^ 2 • R + diagonal d).PosDef :=
  (hR.smul (by positivity)).add_posSemidef (posSemidef_diagonal_iff.mpr hd)

/-! ### Families of positive definite matrices -/

/-- On a compact set the least eigenvalue of a continuous family has a positive lower bound. -/
theorem uniform_posDef {X : Type} [TopologicalSpace X] {S : Set X} (hS : IsCompact S) {f : X → Matrix (Fin n) (Fin n) ℝ}
    (hc : ∀ i j, ContinuousOn (fun x => f x i j) S) (hp : ∀ x ∈ S, (f x).PosDef) : ∃ c : ℝ, 0 < c ∧ ∀ x ∈ S, (f x - c • (1 : Matrix (Fin n) (Fin n) ℝ)).PosSemidef := by
  have hK : IsCompact (S ×ˢ Metric.sphere (0 : Fin n → ℝ) 1) := hS.prod (isCompact_sphere _ _)
  have hcont : ContinuousOn (fun z : X × (Fin n → ℝ) => z.2 ⬝ᵥ (f z.1 *ᵥ z.2)) (S ×ˢ Metric.sphere (0 : Fin n → ℝ) 1) := by
    simp only [dotProduct, mulVec]
    refine continuousOn_finsetSum _ fun i _ => ContinuousOn.mul ?_ (continuousOn_finsetSum _ fun j _ => ContinuousOn.mul ?_ ?_)
    · exact ((continuous_apply i).comp continuous_snd).continuousOn
    · exact (hc i j).comp continuous_fst.continuousOn fun z hz => hz.1
    · exact ((continuous_apply j).comp continuous_snd).continuousOn
  obtain ⟨c, hc0, hle⟩ := hK.exists_forall_le' hcont (a := 0) (fun z hz => by
    have hne : z.2 ≠ 0 := fun h0 => by
      have := hz.2
      rw [h0] at this
      simp at this
    have := (hp z.1 hz.1).dotProduct_mulVec_pos hne
    rwa [star_trivial] at this)
  refine ⟨c / (n + 1), by positivity, fun x hx => ?_⟩
  refine .of_dotProduct_mulVec_nonneg ((hp x hx).isHermitian.sub ?_) fun w => ?_
  · rw [IsHermitian, conjTranspose_smul, conjTranspose_one, star_trivial]
  · rw [star_trivial, sub_mulVec, dotProduct_sub, smul_mulVec, one_mulVec, dotProduct_smul, smul_eq_mul]
    rcases eq_or_ne w 0 with rfl | hw
    · simp
    have hnw : 0 < ‖w‖ := norm_pos_iff.mpr hw
    have h1 := hle (x, ‖w‖⁻¹ • w) ⟨hx, by simp [norm_smul, hnw.ne']⟩
    dsimp only at h1
    rw [mulVec_smul, dotProduct_smul, smul_dotProduct, smul_eq_mul, smul_eq_mul] at h1
    have h2 : c * ‖w‖ ^ 2 ≤ w ⬝ᵥ (f x *ᵥ w) := by
      have := mul_le_mul_of_nonneg_right h1 (sq_nonneg ‖w‖)
      calc _ ≤ _ := this
        _ = _ := by field_simp
    have h3 : w ⬝ᵥ w ≤ n * ‖w‖ ^ 2 := by
      rw [dotProduct]
      calc ∑ i, w i * w i ≤ ∑ _i : Fin n, ‖w‖ ^ 2 := Finset.sum_le_sum fun i _ => by
            have := norm_le_pi_norm w i
            rw [Real.norm_eq_abs] at this
            rw [← sq, ← sq_abs]
            exact pow_le_pow_left₀ (abs_nonneg _) this 2
        _ = _ := by simp
    have h4 : c / (n + 1) * (w ⬝ᵥ w) ≤ c * ‖w‖ ^ 2 := by
      calc c / (n + 1) * (w ⬝ᵥ w) ≤ c / (n + 1) * (n * ‖w‖ ^ 2) := mul_le_mul_of_nonneg_left h3 (by positivity)
        _ ≤ c / (n + 1) * ((n + 1) * ‖w‖ ^ 2) := by
            refine mul_le_mul_of_nonneg_left (mul_le_mul_of_nonneg_right ?_ (sq_nonneg _)) (by positivity)
            linarith
        _ = _ := by field_simp
    linarith

end Verif.Theory
