import Verif.Theory.Prony
import Verif.Theory.Behave
import Verif.Spec.Identify

/-! Helper theory for C86, CARp, ZCAR and CARMA: from equal covariance matrices to equal polynomials. -/

namespace Verif.Theory

open Verif.Model Verif.Spec Finset Polynomial Matrix

variable {p n : ℕ}

theorem rootPoly_eval_zero {l : List ℂ} {z : ℂ} : (rootPoly l).eval z = 0 ↔ z ∈ l := by
  induction l with
  | nil => simp [rootPoly]
  | cons a l ih =>
    have : rootPoly (a :: l) = (X - C a) * rootPoly l := by simp [rootPoly]
    rw [this, eval_mul, mul_eq_zero, ih, List.mem_cons]
    simp [sub_eq_zero]

theorem rootPoly_ofFn (ω : Fin p → ℂ) : rootPoly (List.ofFn ω) = ∏ k, (X - C (ω k)) := by
  rw [rootPoly, List.map_ofFn, List.prod_ofFn]; rfl

theorem maPolySpec_const {kind : Kind} (hz : kind ≠ .zcarma) (lo hi : ℝ) (θ : List ℝ) : maPolySpec kind p lo hi θ = maPolySpec kind p 0 0 θ := by
  cases kind <;> first | rfl | exact absurd rfl hz

/-- what the prior says about the polynomials -/
theorem bounds_model (hp : 0 < p) {kind : Kind} (hz : kind ≠ .zcarma) (hk : OrderOk p kind) {θ : List ℝ} (hθ : npar p kind ≤ θ.length) {sd fmax fmin : ℝ}
    (hb : CarpBounds sd fmax fmin (List.ofFn fun k : Fin p => arRootSpec p (at0 θ) k) θ) :
    Admissible (fun k : Fin p => arRootSpec p (at0 θ) k) ∧
      (∏ k : Fin p, (X - C (arRootSpec p (at0 θ) k))) = (factorPoly (at0 θ) 3 p).map Complex.ofRealHom ∧
      ∃ ma : List ℝ, ma.length = p ∧ ma[0]? = some 1 ∧ (∀ z, maEval ma z = maPolySpec kind p 0 0 θ z) ∧
        (∀ z, maEval ma z = 0 → z.re < 0) ∧ ∀ z, maEval ma z = 0 ↔ aeval z (movingPoly p kind θ) = 0 := by
  have hl3 := npar_ge (p := p) kind
  have hr := arRoots_spec (p := p) (θ := θ) (by omega)
  obtain ⟨roots', hr', hg⟩ := rootsFrom_spec θ 3 p (by omega)
  cases hr.symm.trans hr'
  have ha := hg.admissible (bounds_nodup hg hb)
  rw [vecOf_ofFn] at ha
  obtain ⟨ma, h1, h2, h3⟩ := kind_ma hp hz hk 0 0 hθ
  have h5 : ∀ z, maEval ma z = 0 ↔ aeval z (movingPoly p kind θ) = 0 := by
    intro z
    rw [h3]
    cases kind with
    | carp => simp [maPolySpec, movingPoly]
    | zcar => simp [maPolySpec, movingPoly]
    | carma q =>
      have h0 : (factorPoly (at0 θ) (p + 3) q).eval 0 ≠ 0 := by
        rw [← coeff_zero_eq_eval_zero]; exact (factorPoly_pos (at0 θ) (p + 3) q 0 (Nat.zero_le _)).ne'
      rw [maPolySpec, movingPoly, div_eq_zero_iff, or_iff_left (Complex.ofReal_ne_zero.mpr h0), eval_map, aeval_def]
      rfl
    | zcarma => exact absurd rfl hz
  refine ⟨ha, by rw [← rootPoly_ofFn]; exact hg.poly, ma, h1, h2, h3, fun z hz0 => ?_, h5⟩
  cases kind with
  | carp => rw [h3, maPolySpec] at hz0; exact absurd hz0 one_ne_zero
  | zcar => rw [h3, maPolySpec] at hz0; exact absurd hz0 one_ne_zero
  | carma q =>
    obtain ⟨l, _, g⟩ := rootsFrom_spec θ (p + 3) q (by simp only [npar] at hθ; omega)
    have := (h5 z).mp hz0
    rw [movingPoly, aeval_def] at this
    refine g.neg z (rootPoly_eval_zero.mp ?_)
    rw [g.poly, eval_map]
    exact this
  | zcarma => exact absurd rfl hz

/-- equal moving-average values give equal moving-average polynomials -/
theorem moving_ident {q : ℕ} {θ θ' : List ℝ} (hθ : p + 3 + q ≤ θ.length) (hθ' : p + 3 + q ≤ θ'.length)
    (h : ∀ z, maPolySpec (.carma q) p 0 0 θ z = maPolySpec (.carma q) p 0 0 θ' z) :
    factorPoly (at0 θ) (p + 3) q = factorPoly (at0 θ') (p + 3) q := by
  obtain ⟨l, _, g⟩ := rootsFrom_spec θ (p + 3) q hθ
  obtain ⟨l', _, g'⟩ := rootsFrom_spec θ' (p + 3) q hθ'
  have h0 : ∀ θ : List ℝ, (((factorPoly (at0 θ) (p + 3) q).eval 0 : ℝ) : ℂ) ≠ 0 := by
    intro θ
    rw [← coeff_zero_eq_eval_zero]; exact Complex.ofReal_ne_zero.mpr (factorPoly_pos (at0 θ) (p + 3) q 0 (Nat.zero_le _)).ne'
  have hinj : Function.Injective (Polynomial.map Complex.ofRealHom) := map_injective _ Complex.ofReal_injective
  apply hinj
  have e : C (((factorPoly (at0 θ') (p + 3) q).eval 0 : ℝ) : ℂ) * (factorPoly (at0 θ) (p + 3) q).map Complex.ofRealHom =
      C (((factorPoly (at0 θ) (p + 3) q).eval 0 : ℝ) : ℂ) * (factorPoly (at0 θ') (p + 3) q).map Complex.ofRealHom := by
    refine Polynomial.funext fun z => ?_
    have := h z
    simp only [maPolySpec] at this
    rw [div_eq_div_iff (h0 θ) (h0 θ')] at this
    rw [eval_mul, eval_mul, eval_C, eval_C]
    linear_combination this
  have m : ((factorPoly (at0 θ) (p + 3) q).map Complex.ofRealHom).Monic := g.poly ▸ rootPoly_monic l
  have m' : ((factorPoly (at0 θ') (p + 3) q).map Complex.ofRealHom).Monic := g'.poly ▸ rootPoly_monic l'
  have e2 := congrArg leadingCoeff e
  rw [leadingCoeff_mul, leadingCoeff_mul, m.leadingCoeff, m'.leadingCoeff, leadingCoeff_C, leadingCoeff_C, mul_one, mul_one] at e2
  rw [e2] at e
  exact mul_left_cancel₀ (C_ne_zero.mpr (h0 θ)) e

/-- the log-density of the data determines covariance matrix and mean, up to a constant -/
theorem gauss_ident (hn : 3 ≤ n) {K K' : Matrix (Fin n) (Fin n) ℝ} (hK : K.PosDef) (hK' : K'.PosDef) (hT : Kᵀ = K) (hT' : K'ᵀ = K') {μ ν a b v : ℝ}
    (h : ∀ y : Fin n → ℝ, v ≤ sampleVar y → logGauss K' (fun i => y i - ν) + b = logGauss K (fun i => y i - μ) + a) : K = K' ∧ μ = ν := by
  have hu : IsUnit K.det := (Matrix.isUnit_iff_isUnit_det _).mp hK.isUnit
  have hu' : IsUnit K'.det := (Matrix.isUnit_iff_isUnit_det _).mp hK'.isUnit
  obtain ⟨hinv, hmu⟩ := quad_ident (A := K⁻¹) (B := K'⁻¹) hn (by rw [transpose_nonsing_inv, hT]) (by rw [transpose_nonsing_inv, hT'])
    (μ := μ) (ν := ν) (c := 2 * (a - b - (1 / 2) * Real.log K.det + (1 / 2) * Real.log K'.det)) (v := v) (by
      intro y hy
      have := h y hy
      rw [logGauss, logGauss] at this
      linarith)
  refine ⟨by rw [← nonsing_inv_nonsing_inv K hu, hinv, nonsing_inv_nonsing_inv K' hu'], ?_⟩
  rw [← hinv, ← sub_eq_zero, ← sub_smul] at hmu
  have h1 : K⁻¹ *ᵥ (fun _ => (1 : ℝ)) ≠ 0 := by
    intro hz
    have : K *ᵥ (K⁻¹ *ᵥ fun _ => (1 : ℝ)) = fun _ => 1 := by rw [mulVec_mulVec, mul_nonsing_inv _ hu, one_mulVec]
    rw [hz, mulVec_zero] at this
    have := congrFun this ⟨0, by omega⟩
    norm_num at this
  exact sub_eq_zero.mp ((smul_eq_zero.mp hmu).resolve_right h1)

/-- equal covariance matrices give equal models -/
theorem carma_ident (hp : 0 < p) {kind : Kind} (hz : kind ≠ .zcarma) (hk : OrderOk p kind) {θ θ' : List ℝ} (hθ : npar p kind ≤ θ.length)
    (hθ' : npar p kind ≤ θ'.length) {sd fmax fmin sd' fmax' fmin' : ℝ}
    (hb : CarpBounds sd fmax fmin (List.ofFn fun k : Fin p => arRootSpec p (at0 θ) k) θ)
    (hb' : CarpBounds sd' fmax' fmin' (List.ofFn fun k : Fin p => arRootSpec p (at0 θ') k) θ') (h0 : 0 < at0 θ 0) (h0' : 0 < at0 θ' 0)
    {t e : Fin n → ℝ} (he : ∃ i, e i ≠ 0) {Δ : ℝ} (hΔ : 0 < Δ) (hlag : HasLags t Δ (2 * p)) (hny : BelowNyquist Δ (factorPoly (at0 θ) 3 p))
    (hny' : BelowNyquist Δ (factorPoly (at0 θ') 3 p)) (hcop : IsCoprime (factorPoly (at0 θ) 3 p) (movingPoly p kind θ))
    (hm : at0 θ 2 = at0 θ' 2)
    (hK : obsCov (fun d => at0 θ 0 ^ 2 * (responseAcf (fun k : Fin p => arRootSpec p (at0 θ) k) (maPolySpec kind p 0 0 θ) d /
        responseAcf (fun k : Fin p => arRootSpec p (at0 θ) k) (maPolySpec kind p 0 0 θ) 0)) t (fun i => √(at0 θ 1) * e i) =
      obsCov (fun d => at0 θ' 0 ^ 2 * (responseAcf (fun k : Fin p => arRootSpec p (at0 θ') k) (maPolySpec kind p 0 0 θ') d /
        responseAcf (fun k : Fin p => arRootSpec p (at0 θ') k) (maPolySpec kind p 0 0 θ') 0)) t (fun i => √(at0 θ' 1) * e i)) :
    SameModel p kind θ θ' := by
  obtain ⟨ad, hpol, ma, l1, l2, l3, l4, l5⟩ := bounds_model hp hz hk hθ hb
  obtain ⟨ad', hpol', ma', l1', l2', l3', l4', -⟩ := bounds_model hp hz hk hθ' hb'
  have hroot : ∀ (θ : List ℝ), (∏ k : Fin p, (X - C (arRootSpec p (at0 θ) k))) = (factorPoly (at0 θ) 3 p).map Complex.ofRealHom →
      ∀ k : Fin p, aeval (arRootSpec p (at0 θ) k) (factorPoly (at0 θ) 3 p) = 0 := by
    intro θ h k
    have := congrArg (eval (arRootSpec p (at0 θ) k)) h
    rw [eval_prod, prod_eq_zero (mem_univ k) (by simp), eval_map] at this
    exact this.symm
  generalize hω : (fun k : Fin p => arRootSpec p (at0 θ) k) = ω at *
  generalize hω' : (fun k : Fin p => arRootSpec p (at0 θ') k) = ω' at *
  have eω : ∀ k : Fin p, arRootSpec p (at0 θ) k = ω k := fun k => congrFun hω k
  have eω' : ∀ k : Fin p, arRootSpec p (at0 θ') k = ω' k := fun k => congrFun hω' k
  have hr := hroot θ hpol
  have hr' := hroot θ' hpol'
  simp only [eω, eω'] at hr hr' hpol hpol'
  have hA : ∀ d, carmaAcf 1 ω ma d = responseAcf ω (maPolySpec kind p 0 0 θ) d := fun d => impulse_response l3 d
  have hA' : ∀ d, carmaAcf 1 ω' ma' d = responseAcf ω' (maPolySpec kind p 0 0 θ') d := fun d => impulse_response l3' d
  simp only [← hA, ← hA'] at hK
  obtain ⟨⟨τ, hτ⟩, hσ, hma⟩ := model_ident hp ad ad' l1.le l1'.le l2 l2' l4 l4' h0 h0' hΔ (fun k => hny _ (hr k)) (fun k => hny' _ (hr' k))
    (fun k hc => by
      obtain ⟨a, b, hab⟩ := hcop
      have := congrArg (aeval (ω k)) hab
      rw [map_add, map_mul, map_mul, hr k, (l5 _).mp hc] at this
      simp at this)
    (by
      intro j j1 j2
      obtain ⟨i, i', hi⟩ := hlag j j1 j2
      have hne : i' ≠ i := by
        rintro rfl
        have : (0 : ℝ) < j * Δ := mul_pos (by exact_mod_cast j1) hΔ
        rw [sub_self] at hi
        linarith
      have := congrFun (congrFun hK i') i
      simp only [obsCov, of_apply, if_neg hne, add_zero, hi, abs_of_nonneg (show 0 ≤ (j : ℝ) * Δ by positivity)] at this
      exact this)
  obtain ⟨i, hi⟩ := he
  have h1 : at0 θ 1 = at0 θ' 1 := by
    have := congrFun (congrFun hK i) i
    have hR : 0 < carmaAcf 1 ω ma 0 := carmaAcf_pos ad one_pos l1.le (head_ne l2)
    have hR' : 0 < carmaAcf 1 ω' ma' 0 := carmaAcf_pos ad' one_pos l1'.le (head_ne l2')
    simp only [obsCov, of_apply, if_true, sub_self, abs_zero, div_self hR.ne', div_self hR'.ne', hσ, mul_pow] at this
    rw [Real.sq_sqrt (by have := hb.err_lo; linarith), Real.sq_sqrt (by have := hb'.err_lo; linarith)] at this
    exact mul_right_cancel₀ (pow_ne_zero 2 hi) (add_left_cancel this)
  refine ⟨?_, ?_, ?_⟩
  · intro j hj
    interval_cases j
    exacts [hσ.symm, h1.symm, hm.symm]
  · apply map_injective Complex.ofRealHom Complex.ofReal_injective
    show (factorPoly (at0 θ') 3 p).map Complex.ofRealHom = (factorPoly (at0 θ) 3 p).map Complex.ofRealHom
    rw [← hpol, ← hpol', ← Equiv.prod_comp τ]
    exact prod_congr rfl fun k _ => by rw [hτ]
  · cases kind with
    | carma q =>
      simp only [npar] at hθ hθ'
      exact (moving_ident (by omega) (by omega) fun z => by rw [← l3, ← l3', hma]).symm
    | zcarma => exact absurd rfl hz
    | carp => trivial
    | zcar => trivial

end Verif.Theory
