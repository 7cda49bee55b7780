import Verif.Theory.StateSpace

/-! Helper theory: positivity of the innovation variances, conditional law given a prefix of the data, and
conditional law of one coordinate given all the others. -/

namespace Verif.Theory

open Matrix Finset
open scoped ComplexOrder

namespace NormalEq

variable {N : ℕ}

/-- Conditional mean and variance of coordinate `i` given the earlier ones. -/
lemma prefix_cond {K A : Matrix (Fin N) (Fin N) ℝ} {d : Fin N → ℝ} (h : NormalEq K A d) (i : Fin N)
    (hK : IsUnit (K.submatrix (Fin.castLE i.2.le) (Fin.castLE i.2.le)).det) (y : Fin N → ℝ) :
    let K' := K.submatrix (Fin.castLE i.2.le) (Fin.castLE i.2.le)
    let k : Fin i → ℝ := fun j => K i (Fin.castLE i.2.le j)
    ∑ j, A i j * y j = k ⬝ᵥ (K'⁻¹ *ᵥ fun j => y (Fin.castLE i.2.le j)) ∧
    d i = K i i - k ⬝ᵥ (K'⁻¹ *ᵥ k) := by
  intro K' k
  have hsum : ∀ f : Fin N → ℝ, ∑ j, A i j * f j
      = ∑ j : Fin i, A i (Fin.castLE i.2.le j) * f (Fin.castLE i.2.le j) := by
    intro f
    rw [← Finset.sum_image (s := Finset.univ) (g := Fin.castLE i.2.le) (f := fun j => A i j * f j)]
    · symm
      apply Finset.sum_subset (Finset.subset_univ _)
      intro j _ hj
      have : i ≤ j := by
        by_contra hlt
        push Not at hlt
        apply hj
        exact Finset.mem_image.mpr ⟨⟨j, hlt⟩, Finset.mem_univ _, by ext; rfl⟩
      rw [h.lower i j this, zero_mul]
    · intro a _ b _ hab
      exact Fin.castLE_injective _ hab
  set w : Fin i → ℝ := fun j => A i (Fin.castLE i.2.le j) with hw
  have hwk : ∀ c, ∑ j, w j * K' j c = k c := by
    intro c
    have h1 := h.normal i (Fin.castLE i.2.le c) (by
      change ((Fin.castLE i.2.le c : Fin N) : ℕ) < i
      simp)
    rw [hsum] at h1
    exact h1
  have hw' := eq_vecMul_inv hK hwk
  constructor
  · rw [hsum, Matrix.dotProduct_mulVec, ← hw']; rfl
  · rw [h.dvar i, hsum, Matrix.dotProduct_mulVec, ← hw']
    congr 1
    refine Finset.sum_congr rfl fun j _ => ?_
    rw [h.sym _ i]

/-- Conditional mean and variance of coordinate `p` given all the others, from the innovations. -/
lemma pivot_cond {K A : Matrix (Fin (N+1)) (Fin (N+1)) ℝ} {d : Fin (N+1) → ℝ} (h : NormalEq K A d)
    (hd : ∀ i, 0 < d i) (p : Fin (N+1)) (y : Fin (N+1) → ℝ) (hy : y p = 0) :
    let K' := K.submatrix p.succAbove p.succAbove
    let k : Fin N → ℝ := fun j => K p (p.succAbove j)
    let prec := ∑ i, (1 - A) i p * (1 - A) i p / d i
    let num := - ∑ i, (1 - A) i p * ((1 - A) *ᵥ y) i / d i
    0 < prec ∧ num / prec = k ⬝ᵥ (K'⁻¹ *ᵥ fun j => y (p.succAbove j)) ∧
      1 / prec = K p p - k ⬝ᵥ (K'⁻¹ *ᵥ k) := by
  intro K' k prec num
  have hne : ∀ i, d i ≠ 0 := fun i => (hd i).ne'
  have hprec : K⁻¹ p p = prec := h.inv_apply hne p p
  have hpos : 0 < prec := by
    have : 0 < (1 - A) p p * (1 - A) p p / d p := by
      simp [h.lower p p le_rfl, hd p]
    refine Finset.sum_pos' (fun i _ => ?_) ⟨p, Finset.mem_univ _, this⟩
    exact div_nonneg (mul_self_nonneg _) (hd i).le
  have hK' : IsUnit K'.det := by
    have : K'.PosDef := (h.posDef hd).submatrix (Fin.succAbove_right_injective (p := p))
    rw [← Matrix.isUnit_iff_isUnit_det]
    exact this.isUnit
  obtain ⟨h1, h2⟩ := predict_row (h.isUnit_det hne) h.sym p (by rw [hprec]; exact hpos.ne')
  have hw := eq_vecMul_inv hK' h1
  refine ⟨hpos, ?_, ?_⟩
  · rw [Matrix.dotProduct_mulVec, ← hw]
    have hnum : num = - ∑ j, K⁻¹ p (p.succAbove j) * y (p.succAbove j) := by
      have e1 : (K⁻¹ *ᵥ y) p = ∑ i, (1 - A) i p * ((1 - A) *ᵥ y) i / d i := h.inv_mulVec hne y p
      have e2 : (K⁻¹ *ᵥ y) p = ∑ j, K⁻¹ p (p.succAbove j) * y (p.succAbove j) := by
        simp only [Matrix.mulVec, dotProduct]
        rw [Fin.sum_univ_succAbove _ p, hy]; simp
      change - ∑ i, (1 - A) i p * ((1 - A) *ᵥ y) i / d i = _
      rw [← e1, e2]
    rw [hnum, neg_div, Finset.sum_div, ← Finset.sum_neg_distrib]
    simp only [dotProduct]
    refine Finset.sum_congr rfl fun j _ => ?_
    rw [hprec]; ring
  · rw [Matrix.dotProduct_mulVec, ← hw, ← hprec, ← h2]; rfl

end NormalEq

variable {𝕜 : Type*} [RCLike 𝕜] {ι : Type*} [Fintype ι] [DecidableEq ι]

namespace SS
variable {S : SS 𝕜 ι} {τ : Equiv.Perm ι}

/-- process noise of a transition -/
noncomputable def Q (S : SS 𝕜 ι) (r : ι → 𝕜) : Matrix ι ι 𝕜 :=
  S.V - Matrix.diagonal r * S.V * (Matrix.diagonal r)ᴴ

lemma stepP_joseph {P : Matrix ι ι 𝕜} (hP : P.IsHermitian) {v e : ℝ} (hv : v ≠ 0) (r : ι → 𝕜)
    (hvv : ((v : ℝ) : 𝕜) = S.b ⬝ᵥ (P *ᵥ star S.b) + ((e : ℝ) : 𝕜)) :
    S.stepP P v r = Matrix.diagonal r *
      ((1 - vecMulVec (S.gainOf P v) S.b) * P * (1 - vecMulVec (S.gainOf P v) S.b)ᴴ
        + ((e : ℝ) : 𝕜) • vecMulVec (S.gainOf P v) (star (S.gainOf P v))) * (Matrix.diagonal r)ᴴ
      + S.Q r := by
  have hv' : ((v : ℝ) : 𝕜) ≠ 0 := by rw [Ne, RCLike.ofReal_eq_zero]; exact hv
  set g := S.gainOf P v with hg
  have hgv : P *ᵥ star S.b = ((v : ℝ) : 𝕜) • g := by
    funext k; simp only [hg, gainOf, Pi.smul_apply, smul_eq_mul]; field_simp
  have hbP : S.b ᵥ* P = ((v : ℝ) : 𝕜) • star g := by
    have h1 := congrArg star hgv
    rw [Matrix.star_mulVec, star_star, hP.eq] at h1
    rw [h1]; ext k; simp [RCLike.real_smul_eq_coe_mul]
  have hJ : (1 - vecMulVec g S.b) * P * (1 - vecMulVec g S.b)ᴴ + ((e : ℝ) : 𝕜) • vecMulVec g (star g)
      = P - ((v : ℝ) : 𝕜) • vecMulVec g (star g) := by
    rw [Matrix.conjTranspose_sub, Matrix.conjTranspose_one, Matrix.conjTranspose_vecMulVec,
      Matrix.sub_mul, Matrix.one_mul, Matrix.mul_sub, Matrix.mul_one, Matrix.sub_mul,
      Matrix.mul_vecMulVec, hgv, Matrix.vecMulVec_mul, hbP]
    ext k l
    simp only [Matrix.sub_apply, Matrix.add_apply, Matrix.smul_apply, vecMulVec_apply,
      Matrix.mul_apply, Pi.smul_apply, Pi.star_apply, smul_eq_mul]
    have : ∑ x, g k * (((v : ℝ) : 𝕜) * star (g x)) * (star (S.b x) * star (g l))
        = g k * star (g l) * (((v : ℝ) : 𝕜) - ((e : ℝ) : 𝕜)) := by
      have h2 : ((v : ℝ) : 𝕜) - ((e : ℝ) : 𝕜) = (S.b ᵥ* P) ⬝ᵥ star S.b := by
        rw [← Matrix.dotProduct_mulVec, hvv]; ring
      rw [h2, hbP]
      simp only [dotProduct, Finset.mul_sum, Pi.smul_apply, Pi.star_apply, smul_eq_mul]
      exact Finset.sum_congr rfl fun _ _ => by ring
    rw [this]; ring
  rw [hJ]
  ext k l
  simp only [stepP, Q, Matrix.of_apply, Matrix.diagonal_conjTranspose, Matrix.mul_diagonal,
    Matrix.diagonal_mul, Matrix.add_apply, Matrix.sub_apply, Matrix.smul_apply, vecMulVec_apply,
    Pi.star_apply, smul_eq_mul, ← hg]
  ring

omit [DecidableEq ι] in
lemma quad_nonneg {P : Matrix ι ι 𝕜} (hP : P.PosSemidef) (b : ι → 𝕜) :
    0 ≤ RCLike.re (b ⬝ᵥ (P *ᵥ star b)) := by
  have := hP.dotProduct_mulVec_nonneg (star b)
  rw [star_star] at this
  exact (RCLike.le_iff_re_im.mp this).1.trans_eq' (by simp)

/-- All innovation variances are positive. -/
lemma ConjSym.v_pos (h : S.ConjSym τ) (N : ℕ) (hV : S.V.PosSemidef) (he : ∀ i < N, 0 ≤ S.e2 i)
    (h0 : 0 < RCLike.re (S.b ⬝ᵥ (S.V *ᵥ star S.b)) ∨ 0 < S.e2 0)
    (hQ : ∀ i, i + 1 < N → (S.Q (S.rho i)).PosSemidef ∧
      (0 < RCLike.re (S.b ⬝ᵥ (S.Q (S.rho i) *ᵥ star S.b)) ∨ 0 < S.e2 (i+1)))
    (i : ℕ) (hi : i < N) : (S.P i).PosSemidef ∧ 0 < S.v i ∧ S.e2 i ≤ S.v i := by
  induction i with
  | zero =>
    refine ⟨hV, ?_, ?_⟩
    · simp only [v, obsVar, SS.P]
      have := quad_nonneg hV S.b
      have := he 0 hi
      rcases h0 with h0 | h0 <;> linarith
    · simp only [v, obsVar, SS.P]
      have := quad_nonneg hV S.b
      linarith
  | succ i ih =>
    obtain ⟨hP, hv, _⟩ := ih (by omega)
    obtain ⟨hQ1, hQ2⟩ := hQ i hi
    have hvv : ((S.v i : ℝ) : 𝕜) = S.b ⬝ᵥ (S.P i *ᵥ star S.b) + ((S.e2 i : ℝ) : 𝕜) := by
      rw [← h.bP]; simp [SS.v, obsVar]
    have hJ := stepP_joseph (S := S) (h.P i).1 hv.ne' (S.rho i) hvv
    rw [← P_succ] at hJ
    have he' : (0 : 𝕜) ≤ ((S.e2 i : ℝ) : 𝕜) := by
      rw [RCLike.ofReal_nonneg]; exact he i (by omega)
    have hM : (Matrix.diagonal (S.rho i) *
      ((1 - vecMulVec (S.gainOf (S.P i) (S.v i)) S.b) * S.P i *
        (1 - vecMulVec (S.gainOf (S.P i) (S.v i)) S.b)ᴴ
        + ((S.e2 i : ℝ) : 𝕜) • vecMulVec (S.gainOf (S.P i) (S.v i)) (star (S.gainOf (S.P i) (S.v i))))
        * (Matrix.diagonal (S.rho i))ᴴ).PosSemidef := by
      apply PosSemidef.mul_mul_conjTranspose_same
      apply PosSemidef.add
      · exact hP.mul_mul_conjTranspose_same _
      · exact (posSemidef_vecMulVec_self_star _).smul he'
    have hP' : (S.P (i+1)).PosSemidef := by rw [hJ]; exact hM.add hQ1
    have hq : RCLike.re (S.b ⬝ᵥ (S.Q (S.rho i) *ᵥ star S.b))
        ≤ RCLike.re (S.b ⬝ᵥ (S.P (i+1) *ᵥ star S.b)) := by
      rw [hJ, Matrix.add_mulVec, dotProduct_add, map_add]
      have := quad_nonneg hM S.b
      linarith
    have hq0 := quad_nonneg hQ1 S.b
    have := he (i+1) hi
    refine ⟨hP', ?_, ?_⟩
    · simp only [SS.v, obsVar]
      rcases hQ2 with h2 | h2 <;> linarith
    · simp only [SS.v, obsVar]; linarith

end SS
end Verif.Theory
