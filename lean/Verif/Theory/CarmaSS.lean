import Verif.Theory.Carma

/-! Helper theory: the state space set up by `KalmanFilterp::Reset` realises the CARMA autocovariance. -/

namespace Verif.Theory

open Verif.Model Verif.Spec Finset Matrix MeasureTheory
open scoped ComplexOrder

variable {p : ℕ}

lemma eigenMat_eq (ω : Fin p → ℂ) : KFp.eigenMat ω = (Matrix.vandermonde ω)ᵀ := by
  ext i k; simp [KFp.eigenMat, Matrix.vandermonde_apply]

lemma eigenMat_det_ne_zero {ω : Fin p → ℂ} : (KFp.eigenMat ω).det ≠ 0 ↔ Function.Injective ω := by
  rw [eigenMat_eq, Matrix.det_transpose, Matrix.det_vandermonde_ne_zero_iff]

/-- power sums of the Lagrange weights -/
lemma sum_pow_div_arDeriv {ω : Fin p → ℂ} (h : Function.Injective ω) (i : Fin p) :
    ∑ k, ω k ^ (i : ℕ) / arDeriv ω k = if (i : ℕ) + 1 = p then 1 else 0 := by
  have := Lagrange.coeff_eq_sum (s := (univ : Finset (Fin p))) (v := ω) (h.injOn) (P := Polynomial.X ^ (i : ℕ)) (by
    rw [Polynomial.degree_X_pow, Finset.card_univ, Fintype.card_fin]
    exact_mod_cast i.2)
  simp only [Finset.card_univ, Fintype.card_fin, Polynomial.coeff_X_pow, Polynomial.eval_pow, Polynomial.eval_X] at this
  simp only [arDeriv]
  rw [← this]
  have h3 : (p - 1 = (i : ℕ)) ↔ (i : ℕ) + 1 = p := by have := i.2; omega
  simp only [h3]

lemma jvec_eq {ω : Fin p → ℂ} (h : Function.Injective ω) :
    KFp.jvec ω = .ok fun k => 1 / arDeriv ω k := by
  have hdet := eigenMat_det_ne_zero.mpr h
  rw [KFp.jvec, if_neg hdet]
  congr 1
  have : KFp.eigenMat ω *ᵥ (fun k => 1 / arDeriv ω k) = KFp.rvec p := by
    funext i
    rw [KFp.rvec, ← sum_pow_div_arDeriv h i]
    simp only [Matrix.mulVec, dotProduct, KFp.eigenMat, Matrix.of_apply]
    exact Finset.sum_congr rfl fun k _ => by ring
  rw [← this, Matrix.mulVec_mulVec, Matrix.nonsing_inv_mul _ (isUnit_iff_ne_zero.mpr hdet), Matrix.one_mulVec]

/-- observation row: `β(ω_k)` -/
noncomputable def obsRow (ω : Fin p → ℂ) (β : List ℝ) : Fin p → ℂ := fun k => maEval β (ω k)

lemma maEval_append_zeros (β : List ℝ) (m : ℕ) (z : ℂ) : maEval (β ++ List.replicate m 0) z = maEval β z := by
  simp only [maEval, List.length_append, List.length_replicate]
  rw [Finset.sum_range_add]
  have : ∑ x ∈ range m, ((β ++ List.replicate m 0).getD (β.length + x) 0 : ℂ) * z ^ (β.length + x) = 0 := by
    apply Finset.sum_eq_zero
    intro i hi
    have : i < m := Finset.mem_range.mp hi
    simp [List.getD_eq_getElem?_getD, this]
  rw [this, add_zero]
  refine Finset.sum_congr rfl fun i hi => ?_
  have : i < β.length := Finset.mem_range.mp hi
  simp [List.getD_eq_getElem?_getD, List.getElem?_append_left this]

lemma rotate_eq {ω : Fin p → ℂ} {β : List ℝ} (hβ : β.length = p) : KFp.rotate ω β = .ok (obsRow ω β) := by
  rw [KFp.rotate, if_pos hβ]
  congr 1
  funext k
  simp only [obsRow, maEval, Matrix.vecMul, dotProduct, KFp.eigenMat, Matrix.of_apply]
  subst hβ
  rw [Fin.sum_univ_eq_sum_range (fun i => ((β.getD i 0 : ℝ) : ℂ) * ω k ^ i)]

lemma obsRow_ne_zero {ω : Fin p → ℂ} (h : Function.Injective ω) {β : List ℝ} (hl : β.length = p)
    (hne : ∃ x ∈ β, x ≠ 0) : obsRow ω β ≠ 0 := by
  intro h0
  have hr := rotate_eq (ω := ω) hl
  rw [KFp.rotate, if_pos hl, h0] at hr
  have hz := Except.ok.inj hr
  have := Matrix.eq_zero_of_vecMul_eq_zero (eigenMat_det_ne_zero.mpr h) hz
  obtain ⟨x, hx, hx0⟩ := hne
  obtain ⟨i, hi, rfl⟩ := List.getElem_of_mem hx
  have h1 := congrFun this ⟨i, by omega⟩
  simp only [Pi.zero_apply, Complex.ofReal_eq_zero] at h1
  exact hx0 (by simpa [List.getD_eq_getElem?_getD, hi] using h1)

/-- stationary state covariance -/
noncomputable def carmaV (σ2 : ℝ) (ω : Fin p → ℂ) : Matrix (Fin p) (Fin p) ℂ :=
  Matrix.of fun i j => (σ2 : ℂ) * (1 / arDeriv ω i) * star (1 / arDeriv ω j) * (-1 / (ω i + star (ω j)))

lemma carmaV_isHermitian (σ2 : ℝ) (ω : Fin p → ℂ) : (carmaV σ2 ω).IsHermitian := by
  ext i j
  simp only [Matrix.conjTranspose_apply, carmaV, Matrix.of_apply, star_mul', star_star, star_div₀, star_neg, star_one,
    star_add]
  rw [show star (σ2 : ℂ) = σ2 from Complex.conj_ofReal _, add_comm (star (ω j))]; ring

lemma stateVar_eq {ω : Fin p → ℂ} (h : ∀ k, (ω k).re < 0) (σ2 : ℝ) :
    KFp.stateVar σ2 ω (fun k => 1 / arDeriv ω k) = .ok (carmaV σ2 ω) := by
  have h1 : ¬ ∃ i j : Fin p, i ≤ j ∧ ω i + star (ω j) = 0 := fun ⟨i, j, _, h0⟩ => pair_ne_zero h i j h0
  rw [KFp.stateVar]
  simp only [if_neg h1]
  congr 1
  have key : ∀ i j, -(σ2 : ℂ) * (1 / arDeriv ω i) * star (1 / arDeriv ω j) / (ω i + star (ω j)) = carmaV σ2 ω i j := by
    intro i j; simp only [carmaV, Matrix.of_apply]; ring
  ext i j
  simp only [Matrix.of_apply, key]
  split
  · rfl
  · exact (carmaV_isHermitian σ2 ω).apply i j

/-- coefficients of the impulse response -/
noncomputable def impC (ω : Fin p → ℂ) (β : List ℝ) : Fin p → ℂ := fun k => maEval β (ω k) / arDeriv ω k

lemma impulse_eq (ω : Fin p → ℂ) (β : List ℝ) : impulse ω β = expSum ω (impC ω β) := rfl

lemma impulse_real {ω : Fin p → ℂ} (h : Admissible ω) (β : List ℝ) (s : ℝ) : star (impulse ω β s) = impulse ω β s := by
  obtain ⟨τ, hτ⟩ := Admissible.exists_perm h
  simp only [impulse, star_sum]
  rw [← Equiv.sum_comp τ (fun k => maEval β (ω k) / arDeriv ω k * Complex.exp (ω k * s))]
  refine Finset.sum_congr rfl fun k _ => ?_
  rw [star_mul', star_div₀, hτ, maEval_conj, arDeriv_conj hτ]
  congr 1
  rw [← starRingEnd_apply, ← Complex.exp_conj]
  simp

lemma quad_general (σ2 : ℝ) (ω z : Fin p → ℂ) (E : Fin p → Fin p → ℂ) :
    ∑ i, z i * ∑ j, (σ2 : ℂ) * (1 / arDeriv ω i) * star (1 / arDeriv ω j) * E i j * star (z j)
      = σ2 * ∑ i, ∑ j, (z i / arDeriv ω i) * star (z j / arDeriv ω j) * E i j := by
  rw [Finset.mul_sum]
  refine Finset.sum_congr rfl fun i _ => ?_
  rw [Finset.mul_sum, Finset.mul_sum]
  refine Finset.sum_congr rfl fun j _ => ?_
  simp only [star_div₀, star_one]; ring

lemma carmaV_quad {ω : Fin p → ℂ} (h : ∀ k, (ω k).re < 0) (σ2 : ℝ) (z : Fin p → ℂ) :
    z ⬝ᵥ (carmaV σ2 ω *ᵥ star z)
      = ((σ2 * ∫ s in Set.Ioi (0:ℝ), Complex.normSq (expSum ω (fun k => z k / arDeriv ω k) s) : ℝ) : ℂ) := by
  rw [Complex.ofReal_mul, ← expSum_energy h]
  have := quad_general σ2 ω z fun i j => -1 / (ω i + star (ω j))
  exact this

lemma Q_apply (S : SS ℂ (Fin p)) (r : Fin p → ℂ) (i j : Fin p) : S.Q r i j = S.V i j * (1 - r i * star (r j)) := by
  simp only [SS.Q, Matrix.sub_apply, Matrix.diagonal_conjTranspose, Matrix.mul_diagonal, Matrix.diagonal_mul, Pi.star_apply]
  ring

lemma carmaQ_quad {ω : Fin p → ℂ} (h : ∀ k, (ω k).re < 0) (σ2 : ℝ) (b : Fin p → ℂ) (t e : ℕ → ℝ) (d : ℝ)
    (z : Fin p → ℂ) :
    z ⬝ᵥ ((expSS (carmaV σ2 ω) b ω t e).Q (KFp.rhoOf ω d) *ᵥ star z)
      = ((σ2 * ∫ s in (0:ℝ)..d, Complex.normSq (expSum ω (fun k => z k / arDeriv ω k) s) : ℝ) : ℂ) := by
  rw [Complex.ofReal_mul, ← expSum_energy_interval h]
  rw [← quad_general]
  simp only [Matrix.mulVec, dotProduct, Pi.star_apply]
  refine Finset.sum_congr rfl fun i _ => ?_
  congr 1
  refine Finset.sum_congr rfl fun j _ => ?_
  congr 1
  rw [Q_apply]
  simp only [expSS, carmaV, Matrix.of_apply, KFp.rhoOf]
  have h1 : star (Complex.exp (ω j * d)) = Complex.exp (star (ω j) * d) := by
    rw [← starRingEnd_apply, ← Complex.exp_conj]; simp
  rw [h1, add_mul, Complex.exp_add]; ring

lemma posSemidef_of_quad {M : Matrix (Fin p) (Fin p) ℂ} (hM : M.IsHermitian)
    (h : ∀ z, ∃ r : ℝ, 0 ≤ r ∧ z ⬝ᵥ (M *ᵥ star z) = (r : ℂ)) : M.PosSemidef := by
  refine Matrix.PosSemidef.of_dotProduct_mulVec_nonneg hM fun x => ?_
  obtain ⟨r, hr, hz⟩ := h (star x)
  rw [star_star] at hz
  rw [hz]; exact_mod_cast hr

lemma Q_herm {S : SS ℂ (Fin p)} (h : S.V.IsHermitian) (r : Fin p → ℂ) : (S.Q r).IsHermitian := by
  ext i j
  rw [Matrix.conjTranspose_apply, Q_apply, Q_apply, star_mul', star_sub, star_mul', star_star, star_one]
  rw [h.apply i j]; ring

lemma carmaV_posSemidef {ω : Fin p → ℂ} (h : ∀ k, (ω k).re < 0) {σ2 : ℝ} (hσ : 0 ≤ σ2) : (carmaV σ2 ω).PosSemidef :=
  posSemidef_of_quad (carmaV_isHermitian σ2 ω) fun z => ⟨_, mul_nonneg hσ
    (MeasureTheory.integral_nonneg fun _ => Complex.normSq_nonneg _), carmaV_quad h σ2 z⟩

lemma carmaQ_posSemidef {ω : Fin p → ℂ} (h : ∀ k, (ω k).re < 0) {σ2 : ℝ} (hσ : 0 ≤ σ2) (b : Fin p → ℂ) (t e : ℕ → ℝ)
    {d : ℝ} (hd : 0 ≤ d) : ((expSS (carmaV σ2 ω) b ω t e).Q (KFp.rhoOf ω d)).PosSemidef :=
  posSemidef_of_quad (Q_herm (carmaV_isHermitian σ2 ω) _) fun z => ⟨_, mul_nonneg hσ
    (intervalIntegral.integral_nonneg hd fun _ _ => Complex.normSq_nonneg _), carmaQ_quad h σ2 b t e d z⟩

/-- the state space of `KalmanFilterp` -/
noncomputable def carmaSS (σ2 : ℝ) (ω : Fin p → ℂ) (β : List ℝ) (t e : ℕ → ℝ) : SS ℂ (Fin p) :=
  expSS (carmaV σ2 ω) (obsRow ω β) ω t e

lemma carmaSS_conjSym {ω : Fin p → ℂ} (h : Admissible ω) (σ2 : ℝ) (β : List ℝ) (t e : ℕ → ℝ) :
    ∃ τ, (carmaSS σ2 ω β t e).ConjSym τ := by
  obtain ⟨τ, hτ⟩ := Admissible.exists_perm h
  refine ⟨τ, carmaV_isHermitian σ2 ω, fun k => ?_, fun i k => ?_, fun k l => ?_⟩
  · simp only [carmaSS, expSS, obsRow, hτ, maEval_conj]
  · simp only [carmaSS, expSS, KFp.rhoOf, hτ]
    rw [Complex.star_def, ← Complex.exp_conj]; simp
  · simp only [carmaSS, expSS, carmaV, Matrix.of_apply, hτ, arDeriv_conj hτ, star_mul', star_div₀, star_neg, star_one,
      star_add]
    rw [show star (σ2 : ℂ) = σ2 from Complex.conj_ofReal _]

lemma carmaAcf_eq {ω : Fin p → ℂ} (h : Admissible ω) (σ2 : ℝ) (β : List ℝ) (d : ℝ) :
    carmaAcf σ2 ω β d
      = (obsRow ω β ⬝ᵥ fun k => Complex.exp (ω k * d) * (carmaV σ2 ω *ᵥ star (obsRow ω β)) k).re := by
  have h1 : ∀ s : ℝ, impulse ω β s * impulse ω β (s + d)
      = expSum ω (impC ω β) (s + d) * star (expSum ω (impC ω β) s) := by
    intro s
    rw [← impulse_eq, impulse_real h β s, mul_comm]
  have h2 : ∫ s in Set.Ioi (0:ℝ), (impulse ω β s * impulse ω β (s + d)).re
      = (∫ s in Set.Ioi (0:ℝ), expSum ω (impC ω β) (s + d) * star (expSum ω (impC ω β) s)).re := by
    simp only [h1]
    exact integral_re (𝕜 := ℂ) (expSum_corr_integrable h.stable (impC ω β) d)
  rw [carmaAcf, h2, expSum_corr h.stable, ← Complex.re_ofReal_mul]
  congr 1
  simp only [dotProduct, Matrix.mulVec, Pi.star_apply, obsRow, carmaV, Matrix.of_apply, impC]
  rw [Finset.mul_sum]
  refine Finset.sum_congr rfl fun i _ => ?_
  rw [Finset.mul_sum, Finset.mul_sum, Finset.mul_sum]
  refine Finset.sum_congr rfl fun j _ => ?_
  simp only [star_div₀, star_one]; ring

lemma carmaSS_K {ω : Fin p → ℂ} (h : Admissible ω) (σ2 : ℝ) (β : List ℝ) (t e : ℕ → ℝ) (N : ℕ)
    (ht : ∀ i, i + 1 < N → t i ≤ t (i+1)) {i j : ℕ} (hi : i < N) (hj : j < N) :
    (carmaSS σ2 ω β t e).K i j = carmaAcf σ2 ω β |t i - t j| + if i = j then e i ^ 2 else 0 := by
  obtain ⟨τ, hτ⟩ := carmaSS_conjSym h σ2 β t e
  have main : ∀ {i j : ℕ}, j ≤ i → i < N →
      (carmaSS σ2 ω β t e).K i j = carmaAcf σ2 ω β |t i - t j| + if i = j then e i ^ 2 else 0 := by
    intro i j hij hi
    rw [SS.K_of_exp (S := carmaSS σ2 ω β t e) (t := t) (E := fun k d => Complex.exp (ω k * d)) (by simp)
      (by intro k a b; rw [← Complex.exp_add]; congr 1; push_cast; ring) N (fun i _ k => rfl) hij hi]
    rw [abs_of_nonneg (by have := le_of_step ht hij hi; linarith), carmaAcf_eq h]
    rfl
  rcases Nat.le_total j i with hij | hij
  · exact main hij hi
  · rw [SS.K_symm, main hij hj, abs_sub_comm]
    by_cases hh : i = j
    · subst hh; rfl
    · rw [if_neg hh, if_neg (Ne.symm hh)]

lemma carma_realizes {ω : Fin p → ℂ} (h : Admissible ω) {σ2 : ℝ} (hσ : 0 < σ2) {β : List ℝ} (hb : obsRow ω β ≠ 0)
    (t e : ℕ → ℝ) (N : ℕ) (ht : Incr N t e) :
    Realizes (carmaSS σ2 ω β t e) (carmaAcf σ2 ω β) t e N := by
  have hc : (fun k => obsRow ω β k / arDeriv ω k) ≠ 0 := by
    intro h0; apply hb; funext k
    have := congrFun h0 k
    simpa [arDeriv_ne_zero h.inj k] using this
  refine ⟨carmaSS_conjSym h σ2 β t e, fun i hi j hj => carmaSS_K h σ2 β t e N (fun i hi => (ht i hi).1) hi hj,
    fun i hi => ?_⟩
  obtain ⟨τ, hτ⟩ := carmaSS_conjSym h σ2 β t e
  refine (hτ.v_pos N (carmaV_posSemidef h.stable hσ.le) (fun i _ => sq_nonneg _) (Or.inl ?_) (fun i hi => ⟨?_, ?_⟩) i hi).2.1
  · have h2 := carmaV_quad h.stable σ2 (obsRow ω β)
    have h3 : 0 < ∫ s in Set.Ioi (0:ℝ), Complex.normSq (expSum ω (fun k => obsRow ω β k / arDeriv ω k) s) := by
      have hle : ∫ s in (0:ℝ)..1, Complex.normSq (expSum ω (fun k => obsRow ω β k / arDeriv ω k) s)
          ≤ ∫ s in Set.Ioi (0:ℝ), Complex.normSq (expSum ω (fun k => obsRow ω β k / arDeriv ω k) s) := by
        rw [intervalIntegral.integral_of_le zero_le_one]
        refine setIntegral_mono_set ?_ (ae_of_all _ fun s => Complex.normSq_nonneg _)
          (Set.Ioc_subset_Ioi_self).eventuallyLE
        have := expSum_corr_integrable h.stable (fun k => obsRow ω β k / arDeriv ω k) 0
        simp only [add_zero, normSq_mul_star] at this
        have h5 := this.re
        exact h5
      exact lt_of_lt_of_le (expSum_energy_pos h.inj hc one_pos) hle
    change 0 < (obsRow ω β ⬝ᵥ (carmaV σ2 ω *ᵥ star (obsRow ω β))).re
    rw [h2, Complex.ofReal_re]
    exact mul_pos hσ h3
  · exact carmaQ_posSemidef h.stable hσ.le _ t e (by linarith [(ht i hi).1])
  · rcases (ht i hi).2 with h1 | h1
    · left
      change 0 < (obsRow ω β ⬝ᵥ ((expSS (carmaV σ2 ω) (obsRow ω β) ω t e).Q (KFp.rhoOf ω (t (i+1) - t i)) *ᵥ
        star (obsRow ω β))).re
      rw [carmaQ_quad h.stable, Complex.ofReal_re]
      exact mul_pos hσ (expSum_energy_pos h.inj hc (by linarith))
    · right; exact pow_pos_of_ne_zero h1
where
  pow_pos_of_ne_zero {x : ℝ} (h : x ≠ 0) : 0 < x ^ 2 := by positivity

/-- state of a CARMA filter object -/
structure KFp.Inv (σ2 : ℝ) (ω : Fin p → ℂ) (β : List ℝ) (s : KFp p) (n : ℕ) (t y e : ℕ → ℝ) : Prop where
  holds : Holds s.b n t y e
  sig : s.b.sigsqr = σ2
  om : s.omega = ω
  ma : s.ma = β
  pset : s.pset = true

lemma KFp.Inv.ready {σ2 : ℝ} {ω : Fin p → ℂ} {β : List ℝ} {s : KFp p} {n : ℕ} {t y e : ℕ → ℝ}
    (h : KFp.Inv σ2 ω β s n t y e) (hp : 2 ≤ p) (ha : Admissible ω) (hl : β.length = p) (t' e' : ℕ → ℝ) :
    KFp.Ready s (carmaSS σ2 ω β t' e') where
  pset := h.pset
  two := hp
  J := ⟨fun k => 1 / arDeriv ω k, by rw [h.om]; exact jvec_eq ha.inj, by rw [h.sig, h.om]; exact stateVar_eq ha.stable σ2⟩
  b := by rw [h.om, h.ma]; exact rotate_eq hl

theorem KFp.exact (hp : 2 ≤ p) {σ2 : ℝ} (hσ : 0 < σ2) {ω : Fin p → ℂ} (ha : Admissible ω) {β : List ℝ}
    (hl : β.length = p) (hne : ∃ x ∈ β, x ≠ 0) :
    Exact (σ := KFp p) (carmaAcf σ2 ω β) (KFp.Inv σ2 ω β) where
  base_set s b := rfl
  holds h := h.holds
  setBase {s n t y e b n' t' y' e'} h hb hs := ⟨hb, hs.trans h.sig, h.om, h.ma, h.pset⟩
  filter {s n t y e} h hn ht := by
    have hR := carma_realizes ha hσ (obsRow_ne_zero ha.inj hl hne) t e n ht
    have hRdy := h.ready hp ha hl t e
    obtain ⟨H, hsig, hom, hma, hps⟩ := h
    obtain ⟨M, W, g, rh, h1, hM, hW, h2⟩ := KFp.run_eq s H.feeds hRdy (yy := y) (n-1)
      (by omega) (fun _ _ => by rw [hom]; rfl) (fun _ _ => rfl) (fun _ _ => rfl) (fun j hj => (hR.pos j (by omega)).ne')
    refine ⟨KFp.st s (carmaSS σ2 ω β t e).b (carmaSS σ2 ω β t e).V M W (n - 1 + 1) ((carmaSS σ2 ω β t e).x y (n - 1))
        ((carmaSS σ2 ω β t e).P (n - 1)) (y (n - 1) - (carmaSS σ2 ω β t e).m y (n - 1)) g rh,
      ?_, ⟨⟨H.time, H.dt, H.y, H.yerr, hM, hW⟩, hsig, hom, hma, hps⟩, rfl,
      list_eq_ofFn hM _ fun i => ?_, list_eq_ofFn hW _ fun i => ?_⟩
    · rw [← h1]
      simp only [Kalman.filter, Kalman.reset, Kalman.update, Kalman.base]
      rw [KFp.reset_eq s H.feeds hn hRdy rfl]
      simp only [res_bind_ok, KFp.st]
      rw [H.time_length]
    · rw [← (hR.filter y i).1]; exact (h2 i (by omega)).1
    · rw [← (hR.filter y i).2]; exact (h2 i (by omega)).2
  predict {s n t y e} x h hn ht hx := by
    have hRdy := fun t e => h.ready hp ha hl t e
    obtain ⟨H, hsig, hom, hma, hps⟩ := h
    obtain ⟨q, hf, hq, hlt, hge⟩ := H.scan hn x
    have hR := carma_realizes ha hσ (obsRow_ne_zero ha.inj hl hne) (ins q x t) (ins q 0 e) (n+1)
      (ins_incr ht hq hlt hge hx)
    have hP := Realizes.predict ⟨q, by omega⟩ x hR y
    subst hom
    obtain ⟨s', h1, M, W, X', P', inn', g', rh', sc', ss', c, d, k, h2, hM, hW⟩ :=
      KFp.predict_eq s H hRdy x hf hq hn hge hlt (fun j hj => (hR.pos j hj).ne') hP.1.ne'
    refine ⟨s', ?_, ?_, ?_⟩
    · simp only [Kalman.predict]
      rw [h1]
      exact congrArg₂ (fun a b => Except.ok (s', (a, b))) hP.2.1 hP.2.2
    · subst h2; exact ⟨⟨H.time, H.dt, H.y, H.yerr, hM, hW⟩, hsig, rfl, hma, hps⟩
    · subst h2; rfl
  predVar_pos {s n t y e} x h hn ht hx := by
    obtain ⟨H, -⟩ := h
    obtain ⟨q, hf, hq, hlt, hge⟩ := H.scan hn x
    have hR := carma_realizes ha hσ (obsRow_ne_zero ha.inj hl hne) (ins q x t) (ins q 0 e) (n+1)
      (ins_incr ht hq hlt hge hx)
    have hP := Realizes.predict ⟨q, by omega⟩ x hR y
    rw [← hP.2.2]
    exact one_div_pos.mpr hP.1

lemma carmaAcf_pad (σ2 : ℝ) (ω : Fin p → ℂ) (β : List ℝ) : carmaAcf σ2 ω (KFp.padMA p β) = carmaAcf σ2 ω β := by
  funext d
  have : impulse ω (KFp.padMA p β) = impulse ω β := by
    funext s; simp only [impulse, KFp.padMA, maEval_append_zeros]
  simp only [carmaAcf, this]

lemma padMA_length {β : List ℝ} (h : β.length ≤ p) : (KFp.padMA p β).length = p := by
  simp [KFp.padMA]; omega

lemma padMA_ne {ma : List ℝ} (hne : ∃ x ∈ ma, x ≠ 0) : ∃ x ∈ KFp.padMA p ma, x ≠ 0 := by
  obtain ⟨x, hx, h0⟩ := hne
  exact ⟨x, by simp [KFp.padMA, hx], h0⟩

lemma KFp.new_inv (srt : List ℝ → List ℕ) {n : ℕ} (hn : 2 ≤ n) {t : Fin n → ℝ} (ht : StrictMono t)
    (y e : Fin n → ℝ) (σ2 : ℝ) (ω : Fin p → ℂ) (β : List ℝ) :
    ∃ s, KFp.new srt (List.ofFn t) (List.ofFn y) (List.ofFn e) σ2 ω β = .ok s ∧
      KFp.Inv σ2 ω (KFp.padMA p β) s n (ext0 t) (ext0 y) (ext0 e) := by
  obtain ⟨b, h1, h2, h3⟩ := holds_init srt hn (ext0 t) (ext0 y) (ext0 e) σ2 (fun i hi => strictMono_ext0 ht i hi)
  refine ⟨KFp.zeroed p b ω (KFp.padMA p β) 0, ?_, ⟨h2, h3, rfl, rfl, rfl⟩⟩
  rw [ofFn_eq_rangeMap, ofFn_eq_rangeMap, ofFn_eq_rangeMap, KFp.new, h1]; rfl

end Verif.Theory
