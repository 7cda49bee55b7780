import Verif.Spec.SimLaw
import Verif.Theory.Behave
import Verif.Theory.Sim
import Mathlib.Data.Finset.Sort
import Mathlib.LinearAlgebra.Matrix.Block

/-! Helper theory for C81: conditioning on one more value, and the joint law of a sequential simulation. -/

namespace Verif.Theory

open Verif.Model Verif.Spec Matrix

variable {n m p : ℕ}

/-- error-free measurements have different times -/
def Apart0 (t e : Fin n → ℝ) : Prop := ∀ i j, e i = 0 → e j = 0 → t i = t j → i = j

lemma GoodAcf.pos' {r : ℝ → ℝ} (h : GoodAcf r) {t e : Fin n → ℝ} (ha : Apart0 t e) : (obsCov r t e).PosDef := by
  classical
  set S := Finset.univ.image t with hS
  set s := S.orderEmbOfFin rfl with hs
  have hsm : StrictMono s := (S.orderEmbOfFin rfl).strictMono
  have hidx : ∀ i, ∃ k, s k = t i := by
    intro i
    have : t i ∈ Set.range s := by
      rw [hs, Finset.range_orderEmbOfFin]
      simp [hS]
    exact this
  choose k hk using hidx
  refine PosDef.of_dotProduct_mulVec_pos ?_ fun a ha0 => ?_
  · ext i j
    simp only [conjTranspose_apply, star_trivial, obsCov, of_apply, abs_sub_comm (t j) (t i)]
    by_cases hij : i = j
    · subst hij; rfl
    · rw [if_neg hij, if_neg (Ne.symm hij)]
  · set b : Fin S.card → ℝ := fun l => ∑ i, if k i = l then a i else 0 with hb
    have hagg : ∀ g : Fin S.card → ℝ, ∑ l, b l * g l = ∑ i, a i * g (k i) := by
      intro g
      simp only [hb, Finset.sum_mul, ite_mul, zero_mul]
      rw [Finset.sum_comm]
      simp
    have hP := h.pos hsm (fun _ => 0)
    have hform : a ⬝ᵥ (obsCov r t e *ᵥ a) = b ⬝ᵥ (obsCov r s (fun _ => 0) *ᵥ b) + ∑ i, e i ^ 2 * a i ^ 2 := by
      have e1 : obsCov r t e = obsCov r t 0 + diagonal fun i => e i ^ 2 := by
        ext i j
        by_cases hij : i = j
        · subst hij; simp [obsCov]
        · simp [obsCov, hij]
      rw [e1, add_mulVec, dotProduct_add]
      congr 1
      · have e2 : b ⬝ᵥ (obsCov r s (fun _ => 0) *ᵥ b) = ∑ i, a i * (obsCov r s (fun _ => 0) *ᵥ b) (k i) := hagg _
        rw [e2, dotProduct]
        refine Finset.sum_congr rfl fun i _ => congrArg (a i * ·) ?_
        simp only [mulVec, dotProduct]
        rw [Finset.sum_congr rfl fun l _ => mul_comm (obsCov r s (fun _ => 0) (k i) l) (b l), hagg]
        refine Finset.sum_congr rfl fun j _ => ?_
        rw [mul_comm]
        simp [obsCov, hk]
      · simp only [dotProduct, mulVec_diagonal]
        exact Finset.sum_congr rfl fun i _ => by ring
    rw [star_trivial, hform]
    have n1 : 0 ≤ ∑ i, e i ^ 2 * a i ^ 2 := Finset.sum_nonneg fun i _ => by positivity
    have n2 : 0 ≤ b ⬝ᵥ (obsCov r s (fun _ => 0) *ᵥ b) := by simpa using hP.posSemidef.dotProduct_mulVec_nonneg b
    by_contra hcon
    have z1 : ∑ i, e i ^ 2 * a i ^ 2 = 0 := by linarith
    have z2 : b ⬝ᵥ (obsCov r s (fun _ => 0) *ᵥ b) = 0 := by linarith
    have hb0 : b = 0 := by
      by_contra hb0
      have := hP.dotProduct_mulVec_pos hb0
      rw [star_trivial] at this
      linarith
    have hz : ∀ i, e i ≠ 0 → a i = 0 := by
      intro i hi
      have := (Finset.sum_eq_zero_iff_of_nonneg fun i _ => by positivity).mp z1 i (Finset.mem_univ i)
      rcases mul_eq_zero.mp this with h1 | h1
      · exact absurd (pow_eq_zero_iff two_ne_zero |>.mp h1) hi
      · exact pow_eq_zero_iff two_ne_zero |>.mp h1
    refine ha0 (funext fun i => ?_)
    by_cases hi : e i = 0
    · have h1 : b (k i) = a i := by
        rw [hb]
        refine (Finset.sum_eq_single i ?_ (by simp)).trans (if_pos rfl)
        intro j _ hji
        split
        · rename_i hkk
          refine hz j fun hj => hji (ha j i hj hi ?_)
          rw [← hk j, ← hk i, hkk]
        · rfl
      rw [← h1, hb0]; rfl
    · exact hz i hi

/-! ### one more value -/

lemma inv_of_solve {K : Matrix (Fin n) (Fin n) ℝ} (hK : K.PosDef) {a k : Fin n → ℝ} (h : K *ᵥ a = k) : K⁻¹ *ᵥ k = a := by
  rw [← h, mulVec_mulVec, nonsing_inv_mul _ ((Matrix.isUnit_iff_isUnit_det _).mp hK.isUnit), one_mulVec]

lemma condMean_solve {K : Matrix (Fin n) (Fin n) ℝ} (hK : K.PosDef) {a k : Fin n → ℝ} (h : K *ᵥ a = k) (y : Fin n → ℝ) :
    k ⬝ᵥ (K⁻¹ *ᵥ y) = a ⬝ᵥ y := by
  have h1 : y = K *ᵥ (K⁻¹ *ᵥ y) := (pd_mul_inv hK y).symm
  conv_rhs => rw [h1, pd_symm hK, h, dotProduct_comm]

lemma predCov_symm {r : ℝ → ℝ} {t e : Fin n → ℝ} (hK : (obsCov r t e).PosDef) (x x' : ℝ) : predCov r t e x x' = predCov r t e x' x := by
  rw [predCov, predCov, abs_sub_comm, condMean_solve hK (pd_mul_inv hK _), dotProduct_comm]

lemma predCov_self (r : ℝ → ℝ) (t e : Fin n → ℝ) (x : ℝ) : predCov r t e x x = predVar r t e x := by
  rw [predCov, predVar, condVar, sub_self, abs_zero]

lemma obsCov_snoc_mulVec (r : ℝ → ℝ) (t e : Fin n → ℝ) (x c : ℝ) (a : Fin n → ℝ) :
    obsCov r (Fin.snoc t x : Fin (n+1) → ℝ) (Fin.snoc e 0 : Fin (n+1) → ℝ) *ᵥ (Fin.snoc a c : Fin (n+1) → ℝ)
      = (Fin.snoc (fun i => (obsCov r t e *ᵥ a) i + r |x - t i| * c) ((fun j => r |x - t j|) ⬝ᵥ a + r 0 * c) : Fin (n+1) → ℝ) := by
  funext i
  refine Fin.lastCases ?_ (fun i => ?_) i
  · simp [mulVec, dotProduct, Fin.sum_univ_castSucc, obsCov, (Fin.castSucc_lt_last _).ne']
  · simp [mulVec, dotProduct, Fin.sum_univ_castSucc, obsCov, (Fin.castSucc_lt_last _).ne, abs_sub_comm (t i) x]

section step

variable {r : ℝ → ℝ} {t e : Fin n → ℝ} {x1 : ℝ} (hK : (obsCov r t e).PosDef)
  (hK' : (obsCov r (Fin.snoc t x1 : Fin (n+1) → ℝ) (Fin.snoc e 0 : Fin (n+1) → ℝ)).PosDef)
include hK hK'

lemma predVar_pos_of_snoc : 0 < predVar r t e x1 := by
  set a := (obsCov r t e)⁻¹ *ᵥ fun j => r |x1 - t j| with ha
  have hne : (Fin.snoc (-a) 1 : Fin (n+1) → ℝ) ≠ 0 := by
    intro h
    have := congrFun h (Fin.last n)
    simp at this
  have h1 := hK'.dotProduct_mulVec_pos hne
  rw [star_trivial, obsCov_snoc_mulVec, mulVec_neg, ha, pd_mul_inv hK] at h1
  simp only [dotProduct, Fin.sum_univ_castSucc, Fin.snoc_castSucc, Fin.snoc_last, Pi.neg_apply, mul_one, one_mul] at h1
  rw [predVar, condVar, dotProduct]
  simp only [neg_add_cancel, mul_zero, Finset.sum_const_zero, zero_add, mul_neg, Finset.sum_neg_distrib] at h1
  linarith

lemma snoc_solve (x : ℝ) :
    obsCov r (Fin.snoc t x1 : Fin (n+1) → ℝ) (Fin.snoc e 0 : Fin (n+1) → ℝ) *ᵥ
      (Fin.snoc (((obsCov r t e)⁻¹ *ᵥ fun j => r |x - t j|) - (predCov r t e x x1 / predVar r t e x1) •
        ((obsCov r t e)⁻¹ *ᵥ fun j => r |x1 - t j|)) (predCov r t e x x1 / predVar r t e x1) : Fin (n+1) → ℝ)
      = fun j => r |x - (Fin.snoc t x1 : Fin (n+1) → ℝ) j| := by
  have hp := predVar_pos_of_snoc hK hK'
  set c := predCov r t e x x1 / predVar r t e x1 with hc
  have hc' : c * predVar r t e x1 = predCov r t e x x1 := div_mul_cancel₀ _ hp.ne'
  rw [obsCov_snoc_mulVec]
  funext i
  refine Fin.lastCases ?_ (fun i => ?_) i
  · simp only [Fin.snoc_last]
    rw [dotProduct_sub, dotProduct_smul, smul_eq_mul]
    rw [predCov_symm hK, predCov, predVar, condVar] at hc'
    rw [abs_sub_comm x x1]
    linarith
  · simp only [Fin.snoc_castSucc]
    rw [mulVec_sub, mulVec_smul, pd_mul_inv hK, pd_mul_inv hK]
    simp only [Pi.sub_apply, Pi.smul_apply, smul_eq_mul]
    ring

lemma predMean_snoc (y : Fin n → ℝ) (v x : ℝ) :
    predMean r (Fin.snoc t x1 : Fin (n+1) → ℝ) (Fin.snoc e 0 : Fin (n+1) → ℝ) (Fin.snoc y v : Fin (n+1) → ℝ) x
      = predMean r t e y x + predCov r t e x x1 / predVar r t e x1 * (v - predMean r t e y x1) := by
  rw [predMean, condMean, condMean_solve hK' (snoc_solve hK hK' x)]
  rw [predMean, condMean, condMean_solve hK (pd_mul_inv hK _), predMean, condMean, condMean_solve hK (pd_mul_inv hK _)]
  set c := predCov r t e x x1 / predVar r t e x1
  simp only [dotProduct, Fin.sum_univ_castSucc, Fin.snoc_castSucc, Fin.snoc_last, Pi.sub_apply, Pi.smul_apply, smul_eq_mul,
    sub_mul, Finset.sum_sub_distrib, mul_assoc, ← Finset.mul_sum]
  ring

lemma predCov_snoc (x x' : ℝ) :
    predCov r (Fin.snoc t x1 : Fin (n+1) → ℝ) (Fin.snoc e 0 : Fin (n+1) → ℝ) x x'
      = predCov r t e x x' - predCov r t e x x1 * predCov r t e x' x1 / predVar r t e x1 := by
  have hp := predVar_pos_of_snoc hK hK'
  rw [predCov, condMean_solve hK' (snoc_solve hK hK' x)]
  have e1 : predCov r t e x x' = r |x - x'| - ((obsCov r t e)⁻¹ *ᵥ fun j => r |x - t j|) ⬝ᵥ fun j => r |x' - t j| := by
    rw [predCov, condMean_solve hK (pd_mul_inv hK _)]
  have e2 : predCov r t e x1 x' = r |x1 - x'| - ((obsCov r t e)⁻¹ *ᵥ fun j => r |x1 - t j|) ⬝ᵥ fun j => r |x' - t j| := by
    rw [predCov, condMean_solve hK (pd_mul_inv hK _)]
  rw [predCov_symm hK x' x1, e2, e1, mul_div_right_comm]
  set c := predCov r t e x x1 / predVar r t e x1
  simp only [dotProduct, Fin.sum_univ_castSucc, Fin.snoc_castSucc, Fin.snoc_last, Pi.sub_apply, Pi.smul_apply, smul_eq_mul,
    sub_mul, Finset.sum_sub_distrib, mul_assoc, ← Finset.mul_sum]
  rw [abs_sub_comm x' x1]
  ring

end step

/-! ### sequential simulation -/

lemma predL_ofFn (r : ℝ → ℝ) (t y e : Fin n → ℝ) (x : ℝ) :
    predMeanL r (List.ofFn fun i => (⟨t i, y i, e i⟩ : Obs)) x = predMean r t e y x ∧
    predVarL r (List.ofFn fun i => (⟨t i, y i, e i⟩ : Obs)) x = predVar r t e x := by
  have h := predMeanL_obsList r n (ext0 t) (ext0 y) (ext0 e) x
  rwa [obsList_ext0, fst_ext0, fst_ext0, fst_ext0] at h

lemma ofFn_snoc_obs (t y e : Fin n → ℝ) (x v d : ℝ) :
    (List.ofFn fun i => (⟨t i, y i, e i⟩ : Obs)) ++ [⟨x, v, d⟩] = List.ofFn fun i : Fin (n+1) =>
      (⟨(Fin.snoc t x : Fin (n+1) → ℝ) i, (Fin.snoc y v : Fin (n+1) → ℝ) i, (Fin.snoc e d : Fin (n+1) → ℝ) i⟩ : Obs) := by
  rw [List.ofFn_succ', List.concat_eq_append]
  simp

lemma apart_snoc {t e : Fin n → ℝ} (h : Apart0 t e) {x : ℝ} (hx : ∀ i, t i = x → e i ≠ 0) :
    Apart0 (Fin.snoc t x : Fin (n+1) → ℝ) (Fin.snoc e 0 : Fin (n+1) → ℝ) := by
  intro i j
  refine Fin.lastCases ?_ (fun i => ?_) i <;> refine Fin.lastCases ?_ (fun j => ?_) j
  · simp
  · simp only [Fin.snoc_last, Fin.snoc_castSucc]
    exact fun _ h1 h2 => absurd h1 (hx j h2.symm)
  · simp only [Fin.snoc_last, Fin.snoc_castSucc]
    exact fun h1 _ h2 => absurd h1 (hx i h2)
  · simp only [Fin.snoc_castSucc]
    exact fun h1 h2 h3 => congrArg _ (h i j h1 h2 h3)

/-- the simulated values are an affine function of the draws, with the Cholesky factor of the conditional covariance -/
lemma sim_affine {r : ℝ → ℝ} (h : GoodAcf r) : ∀ (m : ℕ) (x : Fin m → ℝ) (_ : Function.Injective x) {n : ℕ} {t e : Fin n → ℝ}
    (_ : Apart0 t e) (_ : ∀ k i, t i = x k → e i ≠ 0), ∃ L : Matrix (Fin m) (Fin m) ℝ,
      (∀ i j, i < j → L i j = 0) ∧ (∀ i, 0 < L i i) ∧ L * Lᵀ = Matrix.of (fun i j => predCov r t e (x i) (x j)) ∧
      ∀ (y : Fin n → ℝ) (zs : ℕ → ℝ), simSpec r (List.ofFn fun i => ⟨t i, y i, e i⟩) (List.ofFn x) zs
        = List.ofFn fun i => predMean r t e y (x i) + ∑ j, L i j * zs j := by
  intro m
  induction m with
  | zero =>
    intro x _ n t e _ _
    refine ⟨0, fun i => i.elim0, fun i => i.elim0, by ext i; exact i.elim0, fun y zs => by simp [simSpec]⟩
  | succ m ih =>
    intro x hxi n t e ha hx
    have hK := h.pos' ha
    have ha' := apart_snoc ha (hx 0)
    have hK' := h.pos' ha'
    have hp := predVar_pos_of_snoc hK hK'
    obtain ⟨L', l1, l2, l3, l4⟩ := ih (fun i => x i.succ) (fun i j hij => Fin.succ_injective _ (hxi hij)) ha' (by
      intro k i
      refine Fin.lastCases ?_ (fun i => ?_) i
      · simp only [Fin.snoc_last]
        intro h0
        exact absurd (hxi h0) (Fin.succ_ne_zero k).symm
      · simp only [Fin.snoc_castSucc]
        exact hx k.succ i)
    set w := predVar r t e (x 0) with hw
    have hsq : √w * √w = w := Real.mul_self_sqrt hp.le
    have hs0 : 0 < √w := Real.sqrt_pos.mpr hp
    refine ⟨Matrix.of (Fin.cons (Fin.cons (√w) 0) fun i => Fin.cons (predCov r t e (x i.succ) (x 0) / w * √w) (L' i)), ?_, ?_, ?_, ?_⟩
    · intro i j
      refine Fin.cases ?_ (fun i => ?_) i <;> refine Fin.cases ?_ (fun j => ?_) j
      · simp
      · simp
      · simp
      · intro hij
        simpa using l1 i j (Fin.succ_lt_succ_iff.mp hij)
    · intro i
      refine Fin.cases ?_ (fun i => ?_) i
      · simpa using hs0
      · simpa using l2 i
    · ext i j
      have hL : ∀ i j, ∑ k, L' i k * L' j k = predCov r (Fin.snoc t (x 0) : Fin (n+1) → ℝ) (Fin.snoc e 0 : Fin (n+1) → ℝ) (x i.succ) (x j.succ) := by
        intro i j
        have := congrFun (congrFun l3 i) j
        simpa [Matrix.mul_apply] using this
      rw [Matrix.mul_apply, Fin.sum_univ_succ]
      refine Fin.cases ?_ (fun i => ?_) i <;> refine Fin.cases ?_ (fun j => ?_) j
      · simp only [transpose_apply, of_apply, Fin.cons_zero, Fin.cons_succ, Pi.zero_apply, zero_mul, Finset.sum_const_zero, add_zero]
        rw [hsq, predCov_self]
      · simp only [transpose_apply, of_apply, Fin.cons_zero, Fin.cons_succ, Pi.zero_apply, zero_mul, Finset.sum_const_zero, add_zero]
        rw [mul_left_comm, hsq, div_mul_cancel₀ _ hp.ne', predCov_symm hK]
      · simp only [transpose_apply, of_apply, Fin.cons_zero, Fin.cons_succ, Pi.zero_apply, mul_zero, Finset.sum_const_zero, add_zero]
        rw [mul_assoc, hsq, div_mul_cancel₀ _ hp.ne']
      · simp only [transpose_apply, of_apply, Fin.cons_zero, Fin.cons_succ]
        rw [hL, predCov_snoc hK hK', ← hw]
        have : predCov r t e (x i.succ) (x 0) / w * √w * (predCov r t e (x j.succ) (x 0) / w * √w)
            = predCov r t e (x i.succ) (x 0) / w * (predCov r t e (x j.succ) (x 0) / w) * (√w * √w) := by ring
        rw [this, hsq]
        field_simp
        ring
    · intro y zs
      obtain ⟨q1, q2⟩ := predL_ofFn r t y e (x 0)
      rw [List.ofFn_succ, simSpec, q1, q2, ← hw, ofFn_snoc_obs, l4, List.ofFn_succ]
      congr 1
      · simp [Fin.sum_univ_succ]
      · congr 1
        funext i
        rw [predMean_snoc hK hK', ← hw, Fin.sum_univ_succ]
        simp only [of_apply, Fin.cons_zero, Fin.cons_succ, Fin.val_zero, Fin.val_succ]
        ring

/-! ### laws -/

open MeasureTheory ProbabilityTheory

lemma chol_posDef {L : Matrix (Fin m) (Fin m) ℝ} (h1 : ∀ i j, i < j → L i j = 0) (h2 : ∀ i, 0 < L i i) : (L * Lᵀ).PosDef := by
  have hdet : L.det ≠ 0 := by
    rw [Matrix.det_of_lowerTriangular L fun i j hij => h1 i j hij]
    exact Finset.prod_ne_zero_iff.mpr fun i _ => (h2 i).ne'
  have := Matrix.PosDef.mul_conjTranspose_self L
    (Matrix.vecMul_injective_iff_isUnit.mpr ((Matrix.isUnit_iff_isUnit_det _).mpr (isUnit_iff_ne_zero.mpr hdet)))
  rwa [conjTranspose_eq_transpose_of_trivial] at this

/-- an affine function of independent standard normal variables -/
lemma affine_law (μ : Fin m → ℝ) (L : Matrix (Fin m) (Fin m) ℝ) :
    (stdGaussian (EuclideanSpace ℝ (Fin m))).map (fun z => WithLp.toLp 2 (μ + L *ᵥ z.ofLp))
      = multivariateGaussian (WithLp.toLp 2 μ) (L * Lᵀ) := by
  have hS : (L * Lᵀ).PosSemidef := by
    have := Matrix.posSemidef_self_mul_conjTranspose L
    rwa [conjTranspose_eq_transpose_of_trivial] at this
  have hmeas : Measurable fun z : EuclideanSpace ℝ (Fin m) => WithLp.toLp 2 (μ + L *ᵥ z.ofLp) := by
    have : Continuous fun z : EuclideanSpace ℝ (Fin m) => WithLp.toLp 2 (μ + L *ᵥ z.ofLp) := by fun_prop
    exact this.measurable
  have : IsProbabilityMeasure ((stdGaussian (EuclideanSpace ℝ (Fin m))).map (fun z => WithLp.toLp 2 (μ + L *ᵥ z.ofLp))) :=
    Measure.isProbabilityMeasure_map hmeas.aemeasurable
  apply Measure.ext_of_charFun
  ext u
  rw [charFun_multivariateGaussian hS, charFun_apply, integral_map hmeas.aemeasurable (by fun_prop)]
  have hin : ∀ z : EuclideanSpace ℝ (Fin m), inner ℝ (WithLp.toLp 2 (μ + L *ᵥ z.ofLp)) u
      = inner ℝ u (WithLp.toLp 2 μ) + inner ℝ z (WithLp.toLp 2 (Lᵀ *ᵥ u.ofLp)) := by
    intro z
    simp only [EuclideanSpace.inner_eq_star_dotProduct, star_trivial]
    rw [dotProduct_add, dotProduct_comm μ, dotProduct_mulVec, mulVec_transpose]
  simp only [hin, Complex.ofReal_add, add_mul, Complex.exp_add]
  rw [integral_const_mul, ← charFun_apply, charFun_stdGaussian, ← Complex.exp_add]
  congr 1
  rw [sub_eq_add_neg, ← neg_div]
  congr 3
  rw [← Complex.ofReal_pow, EuclideanSpace.real_norm_sq_eq]
  congr 1
  rw [← mulVec_mulVec, dotProduct_mulVec, ← mulVec_transpose]
  exact Finset.sum_congr rfl fun i _ => sq _

lemma draws_first (m : ℕ) : normalDraws.map (fun zs => (WithLp.toLp 2 fun i : Fin m => zs i : EuclideanSpace ℝ (Fin m)))
    = stdGaussian (EuclideanSpace ℝ (Fin m)) := by
  have h1 : normalDraws.map (fun zs (i : Fin m) => zs i) = Measure.pi fun _ : Fin m => gaussianReal 0 1 := by
    symm
    refine Measure.pi_eq fun s hs => ?_
    rw [Measure.map_apply (by fun_prop) (MeasurableSet.univ_pi hs)]
    set T : ℕ → Set ℝ := fun i => if h : i < m then s ⟨i, h⟩ else Set.univ with hT
    have hpre : (fun (zs : ℕ → ℝ) (i : Fin m) => zs i) ⁻¹' Set.univ.pi s = Set.pi (Finset.range m) T := by
      ext zs
      simp only [Set.mem_preimage, Set.mem_pi, Set.mem_univ, true_implies, Finset.coe_range, Set.mem_Iio]
      constructor
      · intro h i hi
        rw [hT]
        simp only [dif_pos hi]
        exact h ⟨i, hi⟩
      · intro h i
        have := h i i.2
        rw [hT] at this
        simpa using this
    rw [hpre, normalDraws, Measure.infinitePi_pi, Finset.prod_range]
    · refine Finset.prod_congr rfl fun i _ => ?_
      rw [hT]; simp
    · intro i hi
      rw [hT]
      simp only [dif_pos (Finset.mem_range.mp hi)]
      exact hs _
  rw [← map_pi_eq_stdGaussian, ← h1, Measure.map_map (by fun_prop) (by fun_prop)]
  rfl

instance : IsProbabilityMeasure normalDraws := by
  unfold normalDraws; infer_instance

/-- integral of a character over an affine function of the draws -/
lemma draws_char (μ : Fin m → ℝ) (L : Matrix (Fin m) (Fin m) ℝ) (v : Fin m → ℝ) :
    ∫ zs, Complex.exp ((v ⬝ᵥ fun i => μ i + ∑ j, L i j * zs (j : ℕ) : ℝ) * Complex.I) ∂normalDraws
      = Complex.exp ((v ⬝ᵥ μ : ℝ) * Complex.I - ((v ⬝ᵥ (L * Lᵀ) *ᵥ v : ℝ) : ℂ) / 2) := by
  have hS : (L * Lᵀ).PosSemidef := by
    have := Matrix.posSemidef_self_mul_conjTranspose L
    rwa [conjTranspose_eq_transpose_of_trivial] at this
  have hm : Measurable fun z : EuclideanSpace ℝ (Fin m) => WithLp.toLp 2 (μ + L *ᵥ z.ofLp) := by
    have : Continuous fun z : EuclideanSpace ℝ (Fin m) => WithLp.toLp 2 (μ + L *ᵥ z.ofLp) := by fun_prop
    exact this.measurable
  have h := charFun_multivariateGaussian (μ := WithLp.toLp 2 μ) hS (WithLp.toLp 2 v)
  rw [← affine_law, ← draws_first, Measure.map_map hm (by fun_prop), charFun_apply,
    integral_map (hm.comp (by fun_prop)).aemeasurable (by fun_prop)] at h
  simp only [EuclideanSpace.inner_eq_star_dotProduct, star_trivial] at h
  rw [dotProduct_comm v μ]
  exact h

/-- covariances between the requested times and the measurements -/
def crossCov (r : ℝ → ℝ) (t : Fin n → ℝ) (x : Fin m → ℝ) : Matrix (Fin m) (Fin n) ℝ := Matrix.of fun i j => r |x i - t j|

lemma predMean_mulVec (r : ℝ → ℝ) (t e y : Fin n → ℝ) (x : Fin m → ℝ) :
    (fun i => predMean r t e y (x i)) = (crossCov r t x * (obsCov r t e)⁻¹) *ᵥ y := by
  rw [← mulVec_mulVec]
  rfl

lemma predCov_matrix (r : ℝ → ℝ) (t e : Fin n → ℝ) (x : Fin m → ℝ) :
    (Matrix.of fun i j => predCov r t e (x i) (x j))
      = (Matrix.of fun i j => r |x i - x j|) - crossCov r t x * (obsCov r t e)⁻¹ * (crossCov r t x)ᵀ := by
  ext i j
  rw [Matrix.sub_apply, Matrix.mul_assoc, Matrix.mul_apply]
  simp only [of_apply, predCov, dotProduct, mulVec]
  congr 1

lemma joint_form {r : ℝ → ℝ} {t e : Fin n → ℝ} (hK : (obsCov r t e).PosDef) (x : Fin m → ℝ) (u : Fin n → ℝ) (v : Fin m → ℝ) :
    Sum.elim u v ⬝ᵥ (jointCov r t e x *ᵥ Sum.elim u v)
      = (u + v ᵥ* (crossCov r t x * (obsCov r t e)⁻¹)) ⬝ᵥ (obsCov r t e *ᵥ (u + v ᵥ* (crossCov r t x * (obsCov r t e)⁻¹)))
        + v ⬝ᵥ ((Matrix.of fun i j => predCov r t e (x i) (x j)) *ᵥ v) := by
  set K := obsCov r t e with hKd
  set B := crossCov r t x with hB
  have hKT : Kᵀ = K := by
    have := hK.isHermitian.eq
    rwa [conjTranspose_eq_transpose_of_trivial] at this
  have hKKA : K *ᵥ (v ᵥ* (B * K⁻¹)) = Bᵀ *ᵥ v := by
    rw [← mulVec_transpose, transpose_mul, transpose_nonsing_inv, hKT, mulVec_mulVec, ← Matrix.mul_assoc,
      mul_nonsing_inv _ ((Matrix.isUnit_iff_isUnit_det _).mp hK.isUnit), Matrix.one_mul]
  have hJ : jointCov r t e x = fromBlocks K Bᵀ B (Matrix.of fun i j => r |x i - x j|) := by
    rw [jointCov, hB, crossCov]
    congr 1
    ext i j
    simp [abs_sub_comm]
  rw [hJ, fromBlocks_mulVec, sumElim_dotProduct_sumElim]
  simp only [Sum.elim_comp_inl, Sum.elim_comp_inr]
  rw [predCov_matrix, ← hB, ← hKd, mulVec_add, hKKA, add_dotProduct]
  simp only [dotProduct_add]
  rw [sub_mulVec, dotProduct_sub, pd_symm hK (v ᵥ* (B * K⁻¹)) u, hKKA]
  have h1 : v ⬝ᵥ (B *ᵥ u) = u ⬝ᵥ (Bᵀ *ᵥ v) := by
    rw [dotProduct_mulVec, ← mulVec_transpose, dotProduct_comm]
  have h2 : (v ᵥ* (B * K⁻¹)) ⬝ᵥ (Bᵀ *ᵥ v) = v ⬝ᵥ ((B * K⁻¹ * Bᵀ) *ᵥ v) := by
    rw [dotProduct_comm, ← mulVec_mulVec, dotProduct_mulVec v, dotProduct_comm]
  rw [h1, h2]
  ring

lemma joint_posDef {r : ℝ → ℝ} {t e : Fin n → ℝ} (hK : (obsCov r t e).PosDef) {x : Fin m → ℝ}
    (hC : (Matrix.of fun i j => predCov r t e (x i) (x j)).PosDef) : (jointCov r t e x).PosDef := by
  refine PosDef.of_dotProduct_mulVec_pos ?_ fun a ha => ?_
  · have hKT : (obsCov r t e)ᴴ = obsCov r t e := hK.isHermitian.eq
    rw [IsHermitian, jointCov, fromBlocks_conjTranspose, hKT]
    congr 1 <;> ext i j <;> simp [abs_sub_comm]
  · have hs : a = Sum.elim (a ∘ Sum.inl) (a ∘ Sum.inr) := (Sum.elim_comp_inl_inr a).symm
    rw [star_trivial, hs, joint_form hK]
    set u := a ∘ Sum.inl with hu
    set v := a ∘ Sum.inr with hv
    have n1 : ∀ w : Fin n → ℝ, 0 ≤ w ⬝ᵥ (obsCov r t e *ᵥ w) := fun w => by simpa using hK.posSemidef.dotProduct_mulVec_nonneg w
    by_cases hv0 : v = 0
    · have hu0 : u ≠ 0 := by
        intro hu0
        refine ha (funext fun i => ?_)
        rw [hs, hv0, hu0]
        cases i <;> rfl
      have := hK.dotProduct_mulVec_pos hu0
      rw [star_trivial] at this
      rw [hv0]
      simpa using this
    · have := hC.dotProduct_mulVec_pos hv0
      rw [star_trivial] at this
      have := n1 (u + v ᵥ* (crossCov r t x * (obsCov r t e)⁻¹))
      linarith

/-- the law of the simulated values, and their joint law with the data -/
lemma sim_law {r : ℝ → ℝ} (h : GoodAcf r) {x : Fin m → ℝ} (hxi : Function.Injective x) {t e : Fin n → ℝ} (ha : Apart0 t e)
    (hx : ∀ k i, t i = x k → e i ≠ 0) :
    DrawsProcess id (fun y zs => simSpec r (List.ofFn fun i => ⟨t i, y i, e i⟩) (List.ofFn x) zs) r t e x := by
  obtain ⟨L, h1, h2, h3, h4⟩ := sim_affine h m x hxi ha hx
  have hK := h.pos' ha
  have hC : (Matrix.of fun i j => predCov r t e (x i) (x j)).PosDef := h3 ▸ chol_posDef h1 h2
  have hJ := joint_posDef hK hC
  have hmean : ∀ (y : Fin n → ℝ) i, predMean r t e y (x i) = ∑ j, (crossCov r t x * (obsCov r t e)⁻¹) i j * y j := fun y i =>
    congrFun (predMean_mulVec r t e y x) i
  refine ⟨fun y zs i => predMean r t e y (x i) + ∑ j, L i j * zs j, ?_, h4, hC, fun y => ?_, hJ, ?_⟩
  · simp only [hmean]
    fun_prop
  · rw [condLaw, ← h3, ← affine_law, ← draws_first, Measure.map_map ?_ (by fun_prop)]
    · rfl
    · have : Continuous fun z : EuclideanSpace ℝ (Fin m) => WithLp.toLp 2 ((fun i => predMean r t e y (x i)) + L *ᵥ z.ofLp) := by fun_prop
      exact this.measurable
  · have hm : Measurable fun q : EuclideanSpace ℝ (Fin n) × (ℕ → ℝ) =>
        (WithLp.toLp 2 (Sum.elim q.1.ofLp fun i => predMean r t e q.1.ofLp (x i) + ∑ j, L i j * q.2 j) : EuclideanSpace ℝ (Fin n ⊕ Fin m)) := by
      refine (PiLp.continuous_toLp 2 _).measurable.comp (measurable_pi_iff.mpr fun i => ?_)
      cases i with
      | inl i => simp only [Sum.elim_inl]; fun_prop
      | inr i => simp only [Sum.elim_inr, hmean]; fun_prop
    have : IsProbabilityMeasure (((multivariateGaussian (0 : EuclideanSpace ℝ (Fin n)) (obsCov r t e)).prod normalDraws).map
        (fun q => (WithLp.toLp 2 (Sum.elim q.1.ofLp fun i => predMean r t e q.1.ofLp (x i) + ∑ j, L i j * q.2 j) : EuclideanSpace ℝ (Fin n ⊕ Fin m)))) :=
      Measure.isProbabilityMeasure_map hm.aemeasurable
    apply Measure.ext_of_charFun
    ext w
    set u := w.ofLp ∘ Sum.inl with hu
    set v := w.ofLp ∘ Sum.inr with hv
    have hw : w.ofLp = Sum.elim u v := (Sum.elim_comp_inl_inr _).symm
    rw [charFun_multivariateGaussian hJ.posSemidef, charFun_apply, integral_map hm.aemeasurable (by fun_prop), hw, joint_form hK]
    have hin : ∀ q : EuclideanSpace ℝ (Fin n) × (ℕ → ℝ), (inner ℝ (WithLp.toLp 2 (Sum.elim q.1.ofLp fun i => predMean r t e q.1.ofLp (x i) + ∑ j, L i j * q.2 j) : EuclideanSpace ℝ (Fin n ⊕ Fin m)) w : ℝ)
        = u ⬝ᵥ q.1.ofLp + v ⬝ᵥ fun i => predMean r t e q.1.ofLp (x i) + ∑ j, L i j * q.2 j := by
      intro q
      simp only [EuclideanSpace.inner_eq_star_dotProduct, star_trivial]
      rw [hw, sumElim_dotProduct_sumElim]
    simp only [hin]
    have hint : Integrable (fun q : EuclideanSpace ℝ (Fin n) × (ℕ → ℝ) => Complex.exp
        (((u ⬝ᵥ q.1.ofLp + v ⬝ᵥ fun i => predMean r t e q.1.ofLp (x i) + ∑ j, L i j * q.2 j : ℝ) : ℂ) * Complex.I))
        ((multivariateGaussian (0 : EuclideanSpace ℝ (Fin n)) (obsCov r t e)).prod normalDraws) := by
      refine (integrable_const (1 : ℝ)).mono' ?_ (ae_of_all _ fun q => by rw [Complex.norm_exp_ofReal_mul_I])
      refine Measurable.aestronglyMeasurable ?_
      simp only [← hin]
      fun_prop
    rw [integral_prod _ hint]
    simp only [Complex.ofReal_add, add_mul, Complex.exp_add, integral_const_mul, draws_char, h3]
    set A := crossCov r t x * (obsCov r t e)⁻¹ with hA
    have h5 : ∀ y : EuclideanSpace ℝ (Fin n), Complex.exp ((u ⬝ᵥ y.ofLp : ℝ) * Complex.I) *
        Complex.exp (((v ⬝ᵥ fun i => predMean r t e y.ofLp (x i) : ℝ) : ℂ) * Complex.I -
          ((v ⬝ᵥ ((Matrix.of fun i j => predCov r t e (x i) (x j)) *ᵥ v) : ℝ) : ℂ) / 2)
        = Complex.exp ((inner ℝ y (WithLp.toLp 2 (u + v ᵥ* A)) : ℝ) * Complex.I) *
          Complex.exp (-((v ⬝ᵥ ((Matrix.of fun i j => predCov r t e (x i) (x j)) *ᵥ v) : ℝ) : ℂ) / 2) := by
      intro y
      rw [← Complex.exp_add, ← Complex.exp_add, predMean_mulVec, ← hA, dotProduct_mulVec]
      congr 1
      simp only [EuclideanSpace.inner_eq_star_dotProduct, star_trivial, add_dotProduct, Complex.ofReal_add]
      ring
    simp only [h5, integral_mul_const]
    rw [← charFun_apply, charFun_multivariateGaussian hK.posSemidef, ← Complex.exp_add]
    congr 1
    simp only [inner_zero_right, Complex.ofReal_zero, zero_mul, Complex.ofReal_add]
    ring

end Verif.Theory
